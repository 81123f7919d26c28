/-
Continued fractions over fixed-width integers converted to surds, compared with arbitrary precision.
-/
import Verif.Lemmas.FixedRtRef
import Verif.Lemmas.FixedCFSurdRef
import Verif.Lemmas.FixedRel
import Verif.Lemmas.FixedHolds
import Verif.Props.FixedCF
import Verif.Props.CFSurd

namespace NumIrr

open CF

/-! ### Continuants -/

/-- the entries after the loop over a reversed list -/
theorem Mob.ofRev_append (l : List Nat) (hl : l ≠ []) (v : Nat) :
    Mob.ofRev (l ++ [v]) = (Mob.ofRev l).map fun m => m.step v := by
  cases l with
  | nil => exact absurd rfl hl
  | cons w l => simp [Mob.ofRev, List.foldl_append, Except.map]

theorem Mob.ofRev_spec : ∀ (v : Nat) (l : List Nat), (∀ u ∈ v :: l, 1 ≤ u) →
    ∃ m, Mob.ofRev (v :: l).reverse = .ok m ∧ m.d = continuant (v :: l) ∧ m.b = continuant l ∧
      m.a ≤ m.c ∧ m.b ≤ m.d ∧ m.c ≤ m.d ∧ m.a ≤ m.b
  | v, [], h => by
    have := h v (by simp)
    exact ⟨⟨0, 1, 1, v⟩, rfl, rfl, rfl, by simp, this, this, by simp⟩
  | v, w :: l, h => by
    obtain ⟨m, h1, h2, h3, h4, h5, h6, h7⟩ := ofRev_spec w l fun u hu => h u (List.mem_cons_of_mem _ hu)
    have hv := h v (by simp)
    refine ⟨m.step v, ?_, ?_, h2, ?_, ?_, ?_, h6⟩
    · rw [List.reverse_cons, Mob.ofRev_append _ (by simp), h1]; rfl
    · show v * m.d + m.b = _
      rw [h2, h3]; rfl
    · show m.c ≤ v * m.c + m.a
      nlinarith
    · show m.d ≤ v * m.d + m.b
      nlinarith
    · show v * m.c + m.a ≤ v * m.d + m.b
      nlinarith

namespace Fx

variable {x : Fx}

theorem uns_ret {v : Nat} (h : v < 2 ^ x.w) : x.uns.ret (v : Int) = .ok (v : Int) := by
  have : ((2 ^ x.w : Nat) : Int) = 2 ^ x.w := by push_cast; rfl
  exact Prim.ret_ok (uns_holds.2 (by omega))

theorem mobStep_exact (m : Mob) (v : Nat) (hc : (m.step v).c < 2 ^ x.w) (hd : (m.step v).d < 2 ^ x.w) :
    x.mobStep m v = .ok (m.step v) := by
  have hc' : v * m.c + m.a < 2 ^ x.w := hc
  have hd' : v * m.d + m.b < 2 ^ x.w := hd
  have e1 : x.uns.mul v m.c = .ok ((v * m.c : Nat) : Int) := by
    unfold Prim.mul; rw [← Nat.cast_mul]; exact uns_ret (by omega)
  have e2 : x.uns.add ((v * m.c : Nat) : Int) m.a = .ok ((v * m.c + m.a : Nat) : Int) := by
    unfold Prim.add; rw [← Nat.cast_add]; exact uns_ret (by omega)
  have e3 : x.uns.mul v m.d = .ok ((v * m.d : Nat) : Int) := by
    unfold Prim.mul; rw [← Nat.cast_mul]; exact uns_ret (by omega)
  have e4 : x.uns.add ((v * m.d : Nat) : Int) m.b = .ok ((v * m.d + m.b : Nat) : Int) := by
    unfold Prim.add; rw [← Nat.cast_add]; exact uns_ret (by omega)
  unfold mobStep
  simp only [e1, e2, e3, e4, bind, Except.bind, pure, Except.pure, Int.toNat_natCast]
  rfl

theorem mobLoop_append (m : Mob) (l : List Nat) (v : Nat) :
    x.mobLoop m (l ++ [v]) = x.mobLoop m l >>= fun m' => x.mobStep m' v := by
  induction l generalizing m with
  | nil =>
    show (x.mobStep m v >>= fun m' => x.mobLoop m' []) = x.mobStep m v
    cases x.mobStep m v <;> rfl
  | cons u l ih =>
    show (x.mobStep m u >>= fun m' => x.mobLoop m' (l ++ [v])) = (x.mobStep m u >>= fun m' => x.mobLoop m' l) >>= _
    cases x.mobStep m u with
    | error e => rfl
    | ok m' => exact ih m'

theorem mobOfRev_append (l : List Nat) (hl : l ≠ []) (v : Nat) :
    x.mobOfRev (l ++ [v]) = x.mobOfRev l >>= fun m => x.mobStep m v := by
  cases l with
  | nil => exact absurd rfl hl
  | cons w l => exact mobLoop_append _ l v

/-- the loop does not overflow if the continuant fits -/
theorem mobOfRev_exact : ∀ (v : Nat) (l : List Nat), (∀ u ∈ v :: l, 1 ≤ u) → continuant (v :: l) < 2 ^ x.w →
    x.mobOfRev (v :: l).reverse = Mob.ofRev (v :: l).reverse
  | v, [], _, _ => rfl
  | v, w :: l, h, hk => by
    have h' : ∀ u ∈ w :: l, 1 ≤ u := fun u hu => h u (List.mem_cons_of_mem _ hu)
    have hv := h v (by simp)
    obtain ⟨m, h1, h2, h3, h4, h5, h6, h7⟩ := Mob.ofRev_spec w l h'
    have hk' : v * continuant (w :: l) + continuant l < 2 ^ x.w := hk
    have hd : (m.step v).d < 2 ^ x.w := by
      show v * m.d + m.b < _
      rw [h2, h3]; exact hk'
    have hc : (m.step v).c < 2 ^ x.w := by
      refine lt_of_le_of_lt ?_ hd
      show v * m.c + m.a ≤ v * m.d + m.b
      nlinarith
    have := mobOfRev_exact w l h' (by nlinarith)
    rw [List.reverse_cons, mobOfRev_append _ (by simp), Mob.ofRev_append _ (by simp), this, h1]
    exact mobStep_exact m v hc hd

/-- in the range of the signed type the casts keep the entries -/
theorem mob_cast {v : Nat} {l : List Nat} (h : ∀ u ∈ v :: l, 1 ≤ u)
    (hk : ((continuant (v :: l) : Nat) : Int) < 2 ^ (x.w - 1)) :
    ∃ m, x.mobOfRev (v :: l).reverse = .ok m ∧ Mob.ofRev (v :: l).reverse = .ok m ∧ castS x.w m.a = m.a ∧
      castS x.w m.b = m.b ∧ castS x.w m.c = m.c ∧ castS x.w m.d = m.d ∧ x.Holds m.a ∧ x.Holds m.b ∧ x.Holds m.c ∧
      x.Holds m.d := by
  obtain ⟨m, h1, h2, -, h4, h5, h6, h7⟩ := Mob.ofRev_spec v l h
  have hw : continuant (v :: l) < 2 ^ x.w := by
    have h8 : (2 : Int) ^ (x.w - 1) ≤ 2 ^ x.w := pow_le_pow_right₀ (by norm_num) (by omega)
    have e : ((2 ^ x.w : Nat) : Int) = 2 ^ x.w := by push_cast; rfl
    omega
  rw [← h2] at hk
  exact ⟨m, (mobOfRev_exact v l h hw).trans h1, h1, castS_small (by omega), castS_small (by omega), castS_small (by omega),
    castS_small hk, holds_natCast (by omega), holds_natCast (by omega), holds_natCast (by omega), holds_natCast hk⟩

/-! ### With overflow checks -/

theorem rt_int (n : Int) : (⟨n, 1⟩ : Rt) = .of (n : Rat) := by
  unfold Rt.of; rw [Rat.num_intCast, Rat.den_intCast]; rfl

theorem periodSurd_ref (hx : x.checks = true) (cfg : Cfg) {p : List Nat} (hp : p ≠ []) (h : ∀ u ∈ p, 1 ≤ u)
    (hk : ((continuant p : Nat) : Int) < 2 ^ (x.w - 1)) : Refines (x.periodSurd cfg p) (CF.periodSurd cfg p) := by
  obtain ⟨v, l, rfl⟩ := List.exists_cons_of_ne_nil hp
  obtain ⟨m, h1, h2, h3, h4, h5, h6, -⟩ := mob_cast h hk
  unfold periodSurd CF.periodSurd
  rw [h1, h2]
  show Refines (x.sub (castS x.w m.d) (castS x.w m.a) >>= _) _
  rw [h3, h4, h5, h6]
  refine ret_bind hx (ret_bind hx ?_)
  rw [rt_int, rt_int, rt_int]
  refine Refines.bind (fromEquation_ref hx cfg _ _ _) fun o _ => ?_
  cases o <;> exact .rfl'

theorem tailSurd_ref (hx : x.checks = true) (cfg : Cfg) {a : List Nat} (ha : a ≠ []) (h : ∀ u ∈ a.tail, 1 ≤ u)
    (hk : ((continuant a.tail : Nat) : Int) < 2 ^ (x.w - 1)) (ps : Surd) :
    Refines (x.tailSurd cfg a ps) (CF.tailSurd cfg a ps) := by
  obtain ⟨a0, t, rfl⟩ := List.exists_cons_of_ne_nil ha
  unfold tailSurd CF.tailSurd
  cases t with
  | nil => exact .rfl'
  | cons v l =>
    rw [if_neg (by simp), if_neg (by simp)]
    obtain ⟨m, h1, h2, h3, h4, h5, h6, -⟩ := mob_cast (x := x) (v := v) (l := l) h hk
    show Refines (x.mobOfRev (v :: l).reverse >>= _) (Mob.ofRev (v :: l).reverse >>= _)
    rw [h1, h2]
    show Refines (x.surdMulInt cfg ps (castS x.w m.a) >>= _) (ps.mulInt cfg m.a >>= _)
    rw [h3, h4, h5, h6]
    refine Refines.bind (surdMulInt_ref hx cfg ps _) fun n _ => ?_
    refine Refines.bind (surdAddInt_ref hx cfg n _) fun n _ => ?_
    refine Refines.bind (surdMulInt_ref hx cfg ps _) fun d _ => ?_
    refine Refines.bind (surdAddInt_ref hx cfg d _) fun d _ => ?_
    exact surdDiv_ref hx cfg n d

theorem conv_last {c : CF} (h : c.Wf) : c.conv (c.a.length - 1) = c.valQ := by
  have hl : 0 < c.a.length := List.length_pos_iff.2 h.1
  unfold CF.conv CF.valQ
  rw [show c.a.length - 1 + 1 = (toInts c.a).length by simp [toInts]; omega, truncTo_self]

/-- the number of a finite fraction, in both kinds of build -/
theorem lastConvergent_exact {c : CF} (h : c.Wf) (hp : c.p = []) {r : Rat} (hr : c.valQ = some r)
    (hn : (r.num.natAbs : Int) < 2 ^ (x.w - 1)) (hd : (r.den : Int) < 2 ^ (x.w - 1)) :
    x.lastConvergent c = .ok (.of r) := by
  have h1 := (fixed_cf_to_rational_partial x c h r ⟨hn, hd⟩).1 hp ((conv_last h).trans hr)
  unfold cfToRational at h1
  rw [if_pos (by simp [CF.isRational, hp])] at h1
  cases h2 : x.lastConvergent c with
  | error e => rw [h2] at h1; cases h1
  | ok q => rw [h2] at h1; injection h1 with h1; injection h1 with h1; rw [h1]

theorem big_lastConvergent {c : CF} (h : c.Wf) (hp : c.p = []) {r : Rat} (hr : c.valQ = some r) :
    c.lastConvergent .big = .ok r := by
  obtain ⟨q, h1, h2⟩ := CF.lastConvergent_big h hp
  rw [hr] at h2; cases h2; exact h1

theorem toSurd_finite (cfg : Cfg) {c : CF} (h : c.Wf) (hp : c.p = []) (hr : c.Reads x.w) :
    x.toSurd cfg c = c.toSurd cfg := by
  unfold CF.Reads at hr
  rw [if_pos hp] at hr
  obtain ⟨r, h1, h2, h3⟩ := hr
  unfold toSurd CF.toSurd
  rw [if_pos (by simp [CF.isRational, hp]), if_pos (by simp [CF.isRational, hp]), lastConvergent_exact h hp h1 h2 h3,
    big_lastConvergent h hp h1]
  rfl

theorem toSurd_ref (hx : x.checks = true) (cfg : Cfg) {c : CF} (h : c.Wf) (hr : c.Reads x.w) :
    Refines (x.toSurd cfg c) (c.toSurd cfg) := by
  by_cases hp : c.p = []
  · exact .inl (toSurd_finite cfg h hp hr)
  · unfold CF.Reads at hr
    rw [if_neg hp] at hr
    obtain ⟨h1, h2, h3⟩ := hr
    obtain ⟨a0, t, ha⟩ := List.exists_cons_of_ne_nil h.1
    unfold toSurd CF.toSurd
    rw [if_neg (by simp [CF.isRational, hp]), if_neg (by simp [CF.isRational, hp])]
    refine Refines.bind (periodSurd_ref hx cfg hp h.2.2 h3) fun ps _ => ?_
    refine Refines.bind (tailSurd_ref hx cfg h.1 h.2.1 h2 ps) fun s _ => ?_
    rw [ha] at h1 ⊢
    simp only
    rw [castS_small (x := x) (n := a0) h1]
    refine Refines.bind (surdAddInt_ref hx cfg s _) fun s _ => ?_
    split
    · exact surdNeg_ref hx s
    · exact .rfl'

/-! ### Builds without overflow checks -/

theorem mobStep_rel (hx : x.checks = true) (m : Mob) (v : Nat) : Refines (x.mobStep m v) (x.rel.mobStep m v) := by
  unfold mobStep
  refine Refines.bind (Prim.ret_rel (t := x.uns) hx _) fun _ _ => ?_
  refine Refines.bind (Prim.ret_rel (t := x.uns) hx _) fun _ _ => ?_
  refine Refines.bind (Prim.ret_rel (t := x.uns) hx _) fun _ _ => ?_
  exact Refines.bind (Prim.ret_rel (t := x.uns) hx _) fun _ _ => .rfl'

theorem mobLoop_rel (hx : x.checks = true) : ∀ (l : List Nat) (m : Mob), Refines (x.mobLoop m l) (x.rel.mobLoop m l)
  | [], _ => .rfl'
  | v :: l, m => Refines.bind (mobStep_rel hx m v) fun m' _ => mobLoop_rel hx l m'

theorem mobOfRev_rel (hx : x.checks = true) (l : List Nat) : Refines (x.mobOfRev l) (x.rel.mobOfRev l) := by
  cases l with
  | nil => exact .rfl'
  | cons v l => exact mobLoop_rel hx l _

theorem lcm_rel (hx : x.checks = true) (a b : Int) : Refines (x.lcm a b) (x.rel.lcm a b) := by
  unfold lcm; same_steps hx []
theorem rtAdd_rel (hx : x.checks = true) (p q : Rt) : Refines (x.rtAdd p q) (x.rel.rtAdd p q) := by
  unfold rtAdd; same_steps hx [ratio_rel hx, lcm_rel hx]
theorem rtSub_rel (hx : x.checks = true) (p q : Rt) : Refines (x.rtSub p q) (x.rel.rtSub p q) := by
  unfold rtSub; same_steps hx [ratio_rel hx, lcm_rel hx]
theorem rtMul_rel (hx : x.checks = true) (p q : Rt) : Refines (x.rtMul p q) (x.rel.rtMul p q) := by
  unfold rtMul; same_steps hx [ratio_rel hx]
theorem rtDiv_rel (hx : x.checks = true) (p q : Rt) : Refines (x.rtDiv p q) (x.rel.rtDiv p q) := by
  unfold rtDiv; same_steps hx [ratio_rel hx]
theorem rtMulInt_rel (hx : x.checks = true) (p : Rt) (k : Int) : Refines (x.rtMulInt p k) (x.rel.rtMulInt p k) := by
  unfold rtMulInt; same_steps hx [ratio_rel hx]
theorem rtDivInt_rel (hx : x.checks = true) (p : Rt) (k : Int) : Refines (x.rtDivInt p k) (x.rel.rtDivInt p k) := by
  unfold rtDivInt; same_steps hx [ratio_rel hx]
theorem rtNeg_rel (hx : x.checks = true) (p : Rt) : Refines (x.rtNeg p) (x.rel.rtNeg p) := by
  unfold rtNeg; same_steps hx []
theorem rtRecip_rel (hx : x.checks = true) (p : Rt) : Refines (x.rtRecip p) (x.rel.rtRecip p) := by
  unfold rtRecip; same_steps hx []

theorem fromEquation_rel (hx : x.checks = true) (cfg : Cfg) (a b c : Rt) :
    Refines (x.fromEquation cfg a b c) (x.rel.fromEquation cfg a b c) := by
  unfold fromEquation
  same_steps hx [rtNeg_rel hx, rtDiv_rel hx, rtMul_rel hx, rtSub_rel hx, rtRecip_rel hx, fromRationals_rel hx]

theorem periodSurd_rel (hx : x.checks = true) (cfg : Cfg) (p : List Nat) :
    Refines (x.periodSurd cfg p) (x.rel.periodSurd cfg p) := by
  unfold periodSurd
  refine Refines.bind (mobOfRev_rel hx _) fun m _ => ?_
  refine Refines.bind (ret_rel hx _) fun e _ => ?_
  refine Refines.bind (ret_rel hx _) fun f _ => ?_
  refine Refines.bind (fromEquation_rel hx cfg _ _ _) fun o _ => ?_
  cases o <;> exact .rfl'

theorem tailSurd_rel (hx : x.checks = true) (cfg : Cfg) (a : List Nat) (ps : Surd) :
    Refines (x.tailSurd cfg a ps) (x.rel.tailSurd cfg a ps) := by
  unfold tailSurd
  split
  · exact .rfl'
  · refine Refines.bind (mobOfRev_rel hx _) fun m _ => ?_
    refine Refines.bind (surdMulInt_rel hx cfg ps _) fun n _ => ?_
    refine Refines.bind (surdAddInt_rel hx cfg n _) fun n _ => ?_
    refine Refines.bind (surdMulInt_rel hx cfg ps _) fun d _ => ?_
    refine Refines.bind (surdAddInt_rel hx cfg d _) fun d _ => ?_
    exact surdDiv_rel hx cfg n d

theorem convItem_rel (hx : x.checks = true) (neg : Bool) (p q : Int) :
    Refines (x.convItem neg p q) (x.rel.convItem neg p q) := by
  unfold convItem
  refine Refines.bind (ratio_rel hx _ _) fun r _ => ?_
  same_steps hx []

theorem convNext_rel (hx : x.checks = true) (it : ConvIter) :
    Refines (x.convNext it).1 (x.rel.convNext it).1 := by
  have hf : x.rel.uns.ty.fits = x.uns.ty.fits := rfl
  unfold convNext
  rw [hf]
  split
  · exact .rfl'
  · split
    · exact .rfl'
    · rename_i p q _
      rcases convItem_rel hx it.neg p q with h | h
      · left; simp only [h]
      · right; simp only [h]; rfl

theorem convNext_rel_state (it : ConvIter) : (x.rel.convNext it).2 = (x.convNext it).2 := by
  rw [convNext_state, convNext_state]; rfl

theorem convLast_rel (hx : x.checks = true) : ∀ (fuel : Nat) (acc : Option Rt) (it : ConvIter),
    RefinesO (x.convLast fuel acc it) (x.rel.convLast fuel acc it)
  | 0, _, _ => .rfl'
  | fuel + 1, acc, it => by
    unfold convLast
    have h1 := convNext_rel hx it
    have h2 := convNext_rel_state (x := x) it
    cases hn : x.convNext it with
    | mk u it' =>
      cases hm : x.rel.convNext it with
      | mk u' it'' =>
        rw [hn, hm] at h1 h2
        simp only at h1 h2
        subst h2
        rcases h1 with rfl | rfl
        · cases u with
          | error e => exact .rfl'
          | ok o => cases o with
            | none => exact .rfl'
            | some r => exact convLast_rel hx fuel (some r) it''
        · exact .inr rfl

theorem convNth_rel (hx : x.checks = true) : ∀ (n : Nat) (it : ConvIter),
    Refines (x.convNth n it) (x.rel.convNth n it)
  | 0, it => convNext_rel hx it
  | n + 1, it => by
    unfold convNth
    have h1 := convNext_rel hx it
    have h2 := convNext_rel_state (x := x) it
    cases hn : x.convNext it with
    | mk u it' =>
      cases hm : x.rel.convNext it with
      | mk u' it'' =>
        rw [hn, hm] at h1 h2
        simp only at h1 h2
        subst h2
        rcases h1 with rfl | rfl
        · cases u with
          | error e => exact .rfl'
          | ok o => cases o with
            | none => exact .rfl'
            | some r => exact convNth_rel hx n it''
        · exact .inr rfl

theorem lastConvergent_rel (hx : x.checks = true) (c : CF) : Refines (x.lastConvergent c) (x.rel.lastConvergent c) := by
  unfold lastConvergent
  rcases convLast_rel hx (c.a.length + 1) none c.convergents with h | h
  · rw [h]; exact .rfl'
  · rw [h]; exact .inr rfl

theorem cfToRational_rel (hx : x.checks = true) (c : CF) : Refines (x.cfToRational c) (x.rel.cfToRational c) := by
  unfold cfToRational
  split
  · exact (lastConvergent_rel hx c).bind fun _ _ => .rfl'
  · rcases convNth_rel hx (c.a.length + c.p.length) c.convergents with h | h
    · rw [h]; exact .rfl'
    · rw [h]; exact .inr rfl

theorem toSurd_rel (hx : x.checks = true) (cfg : Cfg) (c : CF) : Refines (x.toSurd cfg c) (x.rel.toSurd cfg c) := by
  unfold toSurd
  split
  · exact (lastConvergent_rel hx c).bind fun _ _ => .rfl'
  · refine Refines.bind (periodSurd_rel hx cfg _) fun ps _ => ?_
    refine Refines.bind (tailSurd_rel hx cfg _ ps) fun s _ => ?_
    split
    · exact .rfl'
    · refine Refines.bind (surdAddInt_rel hx cfg s _) fun s _ => ?_
      split
      · exact surdNeg_rel hx s
      · exact .rfl'

/-! ### Stored integers -/

theorem rtMul_holds (hw : 2 ≤ x.w) (p q : Rt) : Ens (x.rtMul p q) x.HoldsR := by
  unfold rtMul
  repeat refine Ens.bind Ens.triv fun _ _ => ?_
  exact ratio_holds hw _ _

theorem rtDiv_holds (hw : 2 ≤ x.w) (p q : Rt) : Ens (x.rtDiv p q) x.HoldsR := by
  unfold rtDiv
  repeat refine Ens.bind Ens.triv fun _ _ => ?_
  exact ratio_holds hw _ _

theorem rtMulInt_holds (hw : 2 ≤ x.w) (p : Rt) (k : Int) : Ens (x.rtMulInt p k) x.HoldsR := by
  unfold rtMulInt
  repeat refine Ens.bind Ens.triv fun _ _ => ?_
  exact ratio_holds hw _ _

theorem rtDivInt_holds (hw : 2 ≤ x.w) (p : Rt) (k : Int) : Ens (x.rtDivInt p k) x.HoldsR := by
  unfold rtDivInt
  repeat refine Ens.bind Ens.triv fun _ _ => ?_
  exact ratio_holds hw _ _

theorem rtAdd_holds (hw : 2 ≤ x.w) (p q : Rt) : Ens (x.rtAdd p q) x.HoldsR := by
  unfold rtAdd
  split
  all_goals
    repeat refine Ens.bind Ens.triv fun _ _ => ?_
    exact ratio_holds hw _ _

theorem rtSub_holds (hw : 2 ≤ x.w) (p q : Rt) : Ens (x.rtSub p q) x.HoldsR := by
  unfold rtSub
  split
  all_goals
    repeat refine Ens.bind Ens.triv fun _ _ => ?_
    exact ratio_holds hw _ _

theorem surdOfRt_holds {q : Rt} (h : x.HoldsR q) : x.HoldsS (surdOfRt q) := ⟨h.1, holds_zero x, h.2, holds_zero x⟩

theorem fromEquation_holds (hw : 2 ≤ x.w) (cfg : Cfg) (a b c : Rt) :
    Ens (x.fromEquation cfg a b c) fun o => ∀ s, o = some s → x.HoldsS s := by
  unfold fromEquation
  split
  · split
    · exact Ens.pure (by rintro s ⟨⟩)
    · refine Ens.bind Ens.triv fun m _ => ?_
      refine Ens.bind (rtDiv_holds hw _ _) fun q hq => ?_
      exact Ens.pure (by rintro s ⟨⟩; exact surdOfRt_holds hq)
  · repeat refine Ens.bind Ens.triv fun _ _ => ?_
    split
    · exact Ens.pure (by rintro s ⟨⟩)
    · iterate 5 refine Ens.bind Ens.triv fun _ _ => ?_
      refine Ens.bind (fromRationals_holds hw cfg _ _ _) fun s hs => ?_
      exact Ens.pure (by rintro _ ⟨⟩; exact hs)

theorem periodSurd_holds (hw : 2 ≤ x.w) (cfg : Cfg) (p : List Nat) : Ens (x.periodSurd cfg p) x.HoldsS := by
  unfold periodSurd
  iterate 3 refine Ens.bind Ens.triv fun _ _ => ?_
  refine Ens.bind (fromEquation_holds hw cfg _ _ _) fun o ho => ?_
  cases o with
  | none => exact Ens.err
  | some s => exact Ens.pure (ho s rfl)

theorem tailSurd_holds (hw : 2 ≤ x.w) (cfg : Cfg) (a : List Nat) {ps : Surd} (h : x.HoldsS ps) :
    Ens (x.tailSurd cfg a ps) x.HoldsS := by
  unfold tailSurd
  split
  · exact Ens.pure h
  · refine Ens.bind Ens.triv fun m _ => ?_
    refine Ens.bind (surdMulInt_holds hw cfg h _) fun n hn => ?_
    refine Ens.bind (surdAddInt_holds hw cfg hn _) fun n hn => ?_
    refine Ens.bind (surdMulInt_holds hw cfg h _) fun d hd => ?_
    refine Ens.bind (surdAddInt_holds hw cfg hd _) fun d hd => ?_
    exact surdDiv_holds hw cfg hn hd

theorem convItem_holds (hw : 2 ≤ x.w) (neg : Bool) (p q : Int) : Ens (x.convItem neg p q) x.HoldsR := by
  unfold convItem
  refine Ens.bind (ratio_holds hw _ _) fun r hr => ?_
  split
  · exact Ens.bind (ret_holds hw _) fun n hn => Ens.pure ⟨hn, hr.2⟩
  · exact Ens.pure hr

theorem convNext_holds (hw : 2 ≤ x.w) (it : ConvIter) : Ens (x.convNext it).1 fun o => ∀ r, o = some r → x.HoldsR r := by
  unfold convNext
  split
  · exact Ens.pure (by rintro r ⟨⟩)
  · split
    · exact Ens.pure (by rintro r ⟨⟩)
    · rename_i p q _
      intro o ho r hr
      have := convItem_holds hw it.neg p q
      cases h : x.convItem it.neg p q with
      | error e => simp only [h] at ho; cases ho
      | ok u => simp only [h] at ho; cases ho; cases hr; exact this _ h

theorem convLast_holds (hw : 2 ≤ x.w) : ∀ (fuel : Nat) (acc : Option Rt) (it : ConvIter),
    (∀ r, acc = some r → x.HoldsR r) → ∀ o, x.convLast fuel acc it = some (.ok o) → ∀ r, o = some r → x.HoldsR r
  | 0, _, _, _, o, h, _, _ => by cases h
  | fuel + 1, acc, it, ha, o, h, r, hr => by
    unfold convLast at h
    have h1 := convNext_holds hw it
    cases hn : x.convNext it with
    | mk u it' =>
      rw [hn] at h h1
      cases u with
      | error e => cases h
      | ok v => cases v with
        | none => cases h; exact ha r hr
        | some s => exact convLast_holds hw fuel (some s) it' (h1 _ rfl) o h r hr

theorem lastConvergent_holds (hw : 2 ≤ x.w) (c : CF) : Ens (x.lastConvergent c) x.HoldsR := by
  intro r hr
  have := convLast_holds hw (c.a.length + 1) none c.convergents (by rintro r ⟨⟩)
  unfold lastConvergent at hr
  split at hr
  · cases hr
  · cases hr
  · cases hr
  · rename_i s h; cases hr; exact this _ h r rfl

theorem toSurd_holds (hw : 2 ≤ x.w) (cfg : Cfg) (c : CF) : Ens (x.toSurd cfg c) x.HoldsS := by
  unfold toSurd
  split
  · exact Ens.bind (lastConvergent_holds hw c) fun r hr => Ens.pure (surdOfRt_holds hr)
  · refine Ens.bind (periodSurd_holds hw cfg _) fun ps hps => ?_
    refine Ens.bind (tailSurd_holds hw cfg _ hps) fun s hs => ?_
    split
    · exact Ens.err
    · refine Ens.bind (surdAddInt_holds hw cfg hs _) fun s hs => ?_
      split
      · exact surdNeg_holds hw hs
      · exact Ens.pure hs

end Fx
end NumIrr
