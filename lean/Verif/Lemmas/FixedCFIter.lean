/-
Conversions and iterators of continued fractions over primitive integers.
-/
import Verif.Lemmas.FixedCFOps
import Verif.Lemmas.FixedSafeOps
import Verif.Lemmas.CFWidth

namespace NumIrr
namespace Fx
open CF

variable {x : Fx}

/-! ### results are representable; overflow checks only add panics -/

theorem uns_nat_lt {v u : Int} (h : x.uns.ret v = .ok u) (hw : 2 ≤ x.w) : u.toNat < 2 ^ x.w := by
  have := uns_holds.1 (Prim.ret_holds (uns_ok hw) v u h)
  have e : ((2 ^ x.w : Nat) : Int) = 2 ^ x.w := by push_cast; rfl
  omega

theorem uns_pair (hw : 2 ≤ x.w) (v : Int) (b : Bool) :
    Ens (x.uns.ret v >>= fun u => (Except.ok (u.toNat, b) : Res (Nat × Bool))) (fun t => t.1 < 2 ^ x.w) := by
  intro t ht
  cases h : x.uns.ret v with
  | error e => rw [h] at ht; cases ht
  | ok u => rw [h] at ht; cases ht; exact uns_nat_lt h hw

theorem shiftFirst_holds (hw : 2 ≤ x.w) (neg : Bool) (i : Nat) (rhs : Int) :
    Ens (x.shiftFirst neg i rhs) (fun t => t.1 < 2 ^ x.w) := by
  unfold shiftFirst
  cases neg <;> cases decide (rhs < 0) <;> simp only
  · exact uns_pair hw _ _
  · refine Ens.bind (P := fun _ => True) (Ens.triv) fun m _ => ?_
    split <;> exact uns_pair hw _ _
  · split <;> exact uns_pair hw _ _
  · exact Ens.bind (P := fun _ => True) (Ens.triv) fun m _ => uns_pair hw _ _

theorem addInt_holds (hw : 2 ≤ x.w) (debug : Bool) {c : CF} (hf : c.Fits x.w) (rhs : Int) :
    Ens (x.addInt debug c rhs) (CF.Fits x.w) := by
  match ha : c.a with
  | [] => unfold addInt; rw [ha]; exact Ens.err
  | i :: rest =>
    rw [addInt_eq debug ha]
    refine Ens.bind (shiftFirst_holds hw c.neg i rhs) fun t ht => ?_
    unfold shiftEnd
    split
    · exact Ens.bind (P := fun _ => True) (Ens.triv) fun m _ => Prim.new_holds x.prim debug _ _ _
    · refine Ens.pure ?_
      have : CF.Fits x.w ⟨t.1 :: rest, c.p, c.neg⟩ := by
        intro v hv
        rcases List.mem_append.1 hv with hv | hv
        · rcases List.mem_cons.1 hv with rfl | hv
          · exact ht
          · exact hf v (by rw [ha]; simp [hv])
        · exact hf v (by simp [hv])
      split
      · exact this
      · exact this

theorem shiftFirst_rel (hc : x.checks = true) (neg : Bool) (i : Nat) (rhs : Int) :
    Refines (x.shiftFirst neg i rhs) (x.rel.shiftFirst neg i rhs) := by
  have hu : ∀ (v : Int) (b : Bool), Refines (x.uns.ret v >>= fun u => (Except.ok (u.toNat, b) : Res (Nat × Bool)))
      (x.rel.uns.ret v >>= fun u => Except.ok (u.toNat, b)) := fun v b =>
    (Prim.ret_rel (t := x.uns) hc v).bind fun _ _ => .rfl'
  unfold shiftFirst
  cases neg <;> cases decide (rhs < 0) <;> simp only
  · exact hu _ _
  · refine (Prim.ret_rel (t := x.prim) hc (-rhs)).bind fun m _ => ?_
    show Refines (if i < castU x.w m then _ else _) (if i < castU x.w m then _ else _)
    split <;> exact hu _ _
  · show Refines (if i < castU x.w rhs then _ else _) (if i < castU x.w rhs then _ else _)
    split <;> exact hu _ _
  · exact (Prim.ret_rel (t := x.prim) hc (-rhs)).bind fun m _ => hu _ _

theorem addInt_rel (hc : x.checks = true) (debug : Bool) (c : CF) (rhs : Int) :
    Refines (x.addInt debug c rhs) (x.rel.addInt debug c rhs) := by
  match ha : c.a with
  | [] => unfold addInt; rw [ha]; exact .rfl'
  | i :: rest =>
    rw [addInt_eq debug ha, addInt_eq debug ha]
    refine (shiftFirst_rel hc _ _ _).bind fun t _ => ?_
    unfold shiftEnd
    split
    · refine (Prim.ret_rel (t := x.prim) hc _).bind fun m _ => ?_
      exact Prim.new_rel (t := x.prim) hc debug _ _ _
    · exact .rfl'

/-! ### conversion from a ratio -/

theorem holds_of_le {a b : Int} (hb : x.Holds b) (h0 : 0 ≤ a) (h : a ≤ b) : x.Holds a := by
  have := Prim.two_pow_pos (x.w - 1)
  unfold Holds at *; omega

theorem castU_nat (hw : 2 ≤ x.w) {n : Nat} (h : x.Holds (n : Int)) : castU x.w (n : Int) = n := by
  rw [castU_of_nonneg hw h (by omega)]; omega

theorem euclid_exact (hw : 2 ≤ x.w) : ∀ (fuel fuel' n d : Nat) (acc : List Nat), x.Holds (n : Int) → x.Holds (d : Int) →
    d < fuel → d < fuel' →
    x.euclid fuel n d acc = some (.ok (acc.reverse ++ CF.euclid fuel' n d))
  | 0, _, _, _, _, _, _, h, _ => absurd h (by omega)
  | _, 0, _, _, _, _, _, _, h => absurd h (by omega)
  | fuel + 1, fuel' + 1, n, d, acc, hn, hd, hf, hf' => by
    rw [euclid, CF.euclid]
    by_cases h0 : d = 0
    · rw [if_pos (by omega), if_pos h0]; simp
    · rw [if_neg (by omega), if_neg h0]
      have hr := Nat.mod_lt n (Nat.pos_of_ne_zero h0)
      have e1 : (n : Int).tdiv (d : Int) = ((n / d : Nat) : Int) := by
        rw [Int.tdiv_eq_ediv_of_nonneg (by omega)]; push_cast; rfl
      have e2 : (n : Int).tmod (d : Int) = ((n % d : Nat) : Int) := by
        rw [Int.tmod_eq_emod_of_nonneg (by omega)]; push_cast; rfl
      have hq : x.Holds ((n / d : Nat) : Int) :=
        holds_of_le hn (Int.natCast_nonneg _) (Int.ofNat_le.2 (Nat.div_le_self n d))
      have d1 : x.div n d = .ok ((n / d : Nat) : Int) := by
        rw [div_ok (by omega) (by rw [e1]; exact hq), e1]
      have d2 : x.rem n d = .ok ((n % d : Nat) : Int) := by
        unfold rem; rw [if_neg (by omega), e1, if_pos (show x.fits _ = true from Prim.fits_iff (t := x.prim) |>.2 hq), e2]
      rw [d1, d2]
      show x.euclid fuel ((d : Nat) : Int) ((n % d : Nat) : Int) (castU x.w ((n / d : Nat) : Int) :: acc) = _
      rw [castU_nat hw hq,
        euclid_exact hw fuel fuel' d (n % d) (n / d :: acc) hd
          (holds_of_le hd (Int.natCast_nonneg _) (Int.ofNat_le.2 hr.le)) (by omega) (by omega)]
      simp

theorem ofRat_exact (hw : 2 ≤ x.w) {q : Rat} (hn : x.Holds q.num) (hd : x.Holds q.den) (hm : q.num ≠ -2 ^ (x.w - 1))
    {fuel : Nat} (hf : q.num.natAbs + q.den < fuel) : x.ofRat fuel (.of q) = some (.ok (CF.ofRat q)) := by
  unfold ofRat CF.ofRat Rt.of
  simp only
  by_cases h0 : q.num = 0
  · rw [if_pos h0, if_pos (Rat.num_eq_zero.1 h0)]
  · rw [if_neg h0, if_neg (fun h => h0 (Rat.num_eq_zero.2 h))]
    have hh : x.Holds (q.num.natAbs : Int) := by unfold Holds at *; omega
    have hn' : (if q.num < 0 then x.sub 0 q.num else .ok q.num) = .ok (q.num.natAbs : Int) := by
      split
      · have : x.sub 0 q.num = .ok (0 - q.num) :=
          Prim.ret_ok (t := x.prim) (show x.Holds (0 - q.num) by unfold Holds at *; omega)
        rw [this]
        congr 1; omega
      · congr 1; omega
    rw [hn']
    simp only
    by_cases hlt : q.num.natAbs < q.den
    · rw [if_pos (by omega), if_pos hlt, euclid_exact hw fuel (q.num.natAbs + 1) _ _ _ hd hh (by omega) (by omega)]
      rfl
    · rw [if_neg (by omega), if_neg hlt, euclid_exact hw fuel (q.den + 1) _ _ _ hh hd (by omega) (by omega)]
      rfl

/-! ### coefficient iterators -/

theorem signedCoeff_small (neg : Bool) {v : Nat} (h : (v : Int) < 2 ^ (x.w - 1)) :
    x.signedCoeff neg v = .ok (signed neg (v : Int)) := by
  unfold signedCoeff
  rw [castS_small h]
  cases neg
  · rfl
  · exact Prim.ret_ok (t := x.prim) (holds_negCast h)

theorem signedNext_state (c : CF) (n : Nat) :
    x.signedNext ⟨iterState c n, c.neg⟩ =
      (if c.HasCoeff n then (x.signedCoeff c.neg (coeffAt c.a c.p n)).map some else .ok none,
        ⟨iterState c (n + 1), c.neg⟩) := by
  unfold signedNext
  rw [iterState_next]
  by_cases h : c.HasCoeff n
  · simp only [if_pos h]
  · simp only [if_neg h]

theorem generalNext_state (c : CF) (n : Nat) :
    x.generalNext ⟨iterState c n, c.neg⟩ =
      (if c.HasCoeff n then (x.signedCoeff c.neg (coeffAt c.a c.p n)).map (fun u => some (1, u)) else .ok none,
        ⟨iterState c (n + 1), c.neg⟩) := by
  unfold generalNext
  rw [iterState_next]
  by_cases h : c.HasCoeff n
  · simp only [if_pos h]
  · simp only [if_neg h]

theorem run_signedNext (c : CF) (n : Nat) : runIter x.signedNext n c.coeffs = ⟨iterState c n, c.neg⟩ := by
  induction n with
  | zero => rw [iterState_zero]; rfl
  | succ n ih => rw [runIter_succ, ih, signedNext_state]

theorem run_generalNext (c : CF) (n : Nat) : runIter x.generalNext n c.generalized = ⟨iterState c n, c.neg⟩ := by
  induction n with
  | zero => rw [iterState_zero]; rfl
  | succ n ih => rw [runIter_succ, ih, generalNext_state]

theorem ownedNext_state (c : CF) (n : Nat) :
    x.ownedNext (ownState c n) =
      (if c.HasCoeff n then (x.signedCoeff c.neg (coeffAt c.a (c.p.take 1) n)).map some else .ok none,
        ownState c (n + 1)) := by
  rcases Nat.lt_or_ge n c.a.length with h | h
  · rw [if_pos (show c.HasCoeff n from Or.inr h), coeffAt_lt _ _ h]
    unfold ownState
    rw [if_pos (show n ≤ c.a.length by omega), if_pos (show n + 1 ≤ c.a.length by omega)]
    unfold ownedNext
    rw [List.drop_eq_getElem_cons h]
  · have hst : x.ownedNext (ownState c n) = (if c.p.length > 0 then
      (match c.p[(0 : Nat)]? with
      | none => (.error .unwrapNone, ⟨none, c.p, 0, c.neg⟩)
      | some v => ((x.signedCoeff c.neg v).map some, if 0 ≥ c.p.length then ⟨none, c.p, 0 - c.p.length, c.neg⟩ else ⟨none, c.p, 0, c.neg⟩))
      else (.ok none, ⟨none, c.p, 0, c.neg⟩)) := by
      unfold ownState ownedNext
      by_cases hn : n ≤ c.a.length
      · have : n = c.a.length := by omega
        rw [if_pos hn, this, List.drop_length]
        rfl
      · rw [if_neg hn]
        rfl
    rw [hst]
    have h1 : ownState c (n + 1) = ⟨none, c.p, 0, c.neg⟩ := by
      unfold ownState; rw [if_neg (by omega)]
    rw [h1]
    match hp : c.p with
    | [] =>
      have hn : ¬ c.HasCoeff n := by rintro (h' | h'); exact h' hp; omega
      rw [if_neg hn]; rfl
    | v :: vs =>
      have hn : c.HasCoeff n := .inl (by rw [hp]; simp)
      rw [if_pos hn]
      have : coeffAt c.a [v] n = v := by
        unfold coeffAt
        rw [if_neg (by omega)]
        simp [Nat.mod_one]
      simp [this]

theorem run_ownedNext (c : CF) (n : Nat) : runIter x.ownedNext n c.intoCoeffs = ownState c n := by
  induction n with
  | zero => simp [ownState, intoCoeffs, runIter]
  | succ n ih => rw [runIter_succ, ih, ownedNext_state]

/-! ### convergents -/

theorem ratio_exact {n d : Int} (hn : |n| < 2 ^ (x.w - 1)) (hd : |d| < 2 ^ (x.w - 1)) (hd0 : d ≠ 0) :
    x.ratio n d = (ratioNew n d).map Rt.of := by
  have h1 : 1 ≤ |d| := Int.one_le_abs hd0
  exact run_eq (x := x) (f := fun y => y.ratio n d) (fun y hy => ratio_ref hy n d) (fun y hy => ratio_rel hy n d)
    (ratio_safe (x := ⟨x.w, true⟩) (L := 2 ^ (x.w - 1) - 1) (B := max |n| |d|)
      (by show (2 : Int) ^ (x.w - 1) - 1 < 2 ^ (x.w - 1); omega)
      (le_max_of_le_right h1) (le_max_left ..) (le_max_right ..) (max_le (by omega) (by omega)))

theorem sgn_castS {w : Nat} {v : Int} (h : 0 ≤ v) : (Width.prim w).sgn v = castS w v.toNat := by
  unfold castS Width.prim
  simp only
  rw [Int.toNat_of_nonneg h]

/-- the sign applied to the fields of a ratio -/
theorem rt_neg (q : Rat) : (⟨-(Rt.of q).num, (Rt.of q).den⟩ : Rt) = Rt.of (-q) := by
  unfold Rt.of; rw [Rat.num_neg_eq_neg_num, Rat.den_neg_eq_den]

/-- a convergent, with overflow checks -/
theorem convItem_ref (hc : x.checks = true) (neg : Bool) {p q : Int} (hp : 0 ≤ p) (hq : 0 ≤ q) :
    Refines (x.convItem neg p q)
      ((ratioNew ((Width.prim x.w).sgn p) ((Width.prim x.w).sgn q)).map fun r => Rt.of (signed neg r)) := by
  rw [sgn_castS hp, sgn_castS hq]
  unfold convItem
  rcases ratio_ref hc (castS x.w p.toNat) (castS x.w q.toNat) with e | e
  · rw [e]
    cases ratioNew (castS x.w p.toNat) (castS x.w q.toNat) with
    | error e => exact .rfl'
    | ok r =>
      cases neg
      · exact .rfl'
      · show Refines (x.neg (Rt.of r).num >>= fun n => .ok ⟨n, (Rt.of r).den⟩) (.ok (Rt.of (-r)))
        refine ret_bind hc (Or.inl ?_)
        rw [rt_neg]
  · rw [e]; exact Or.inr rfl

theorem convItem_exact (neg : Bool) {p q : Int} (hp : 0 ≤ p) (hq : 1 ≤ q) (hp' : p < 2 ^ (x.w - 1))
    (hq' : q < 2 ^ (x.w - 1)) : x.convItem neg p q = .ok (Rt.of (signed neg ((p : Rat) / q))) := by
  unfold convItem
  have e1 : castS x.w p.toNat = p := by rw [castS_small (by omega)]; omega
  have e2 : castS x.w q.toNat = q := by rw [castS_small (by omega)]; omega
  rw [e1, e2, ratio_exact (by rw [abs_of_nonneg hp]; exact hp')
    (by rw [abs_of_nonneg (by omega)]; exact hq') (by omega)]
  have hr : ratioNew p q = .ok ((p : Rat) / q) := by
    unfold ratioNew; rw [if_neg (by omega), Rat.divInt_eq_div]
  rw [hr]
  cases neg
  · rfl
  · show (x.neg (Rt.of ((p : Rat) / q)).num >>= fun n => (.ok ⟨n, (Rt.of ((p : Rat) / q)).den⟩ : Res Rt)) = _
    have hb : |((p : Rat) / q).num| ≤ p := by
      have hdv : ((p : Rat) / q).num ∣ p := by
        rw [← Rat.divInt_eq_div]; exact Rat.num_dvd p (by omega)
      rcases eq_or_lt_of_le hp with h | h
      · rw [← h]; simp
      · rw [Int.abs_eq_natAbs]
        have := Int.natAbs_le_of_dvd_ne_zero hdv (by omega)
        omega
    rw [abs_le] at hb
    have hh : x.neg (Rt.of ((p : Rat) / q)).num = .ok (-(Rt.of ((p : Rat) / q)).num) :=
      Prim.ret_ok (t := x.prim) (show x.Holds _ by unfold Holds Rt.of; simp only; omega)
    rw [hh]
    show Except.ok _ = _
    rw [rt_neg]; rfl

/-- The state of the iterator does not depend on the results of the ratio operations. -/
theorem convNext_state (it : ConvIter) : (x.convNext it).2 = (it.next (.prim x.w)).2 := by
  have hf : x.uns.ty.fits = (Width.prim x.w).fits := rfl
  unfold convNext ConvIter.next
  rw [hf]
  cases hn : it.coeffs.next with
  | mk o c =>
    cases o with
    | none => rfl
    | some a =>
      simp only
      cases it.block.checkedRmove (Width.prim x.w).fits ((a : Nat) : Int) with
      | none => rfl
      | some pq =>
        simp only
        cases ratioNew ((Width.prim x.w).sgn pq.1) ((Width.prim x.w).sgn pq.2) <;> rfl

theorem run_convNext (it : ConvIter) (n : Nat) : runIter x.convNext n it = runIter (ConvIter.next (.prim x.w)) n it := by
  induction n generalizing it with
  | zero => rfl
  | succ n ih => rw [runIter, runIter, convNext_state, ih]

theorem checked_nonneg {b : Block} {fits : Int → Bool} {a : Int} {p q : Int} (hf : ∀ v, fits v = true → 0 ≤ v)
    (h : b.checkedRmove fits a = some (p, q)) : 0 ≤ p ∧ 0 ≤ q := by
  unfold Block.checkedRmove at h
  split at h
  · split at h
    · rename_i h1 h2
      cases h
      rw [Bool.and_eq_true] at h1 h2
      exact ⟨hf _ h1.2, hf _ h2.2⟩
    · cases h
  · cases h

/-- one item, with overflow checks -/
theorem convNext_ref (hc : x.checks = true) (it : ConvIter) :
    Refines (x.convNext it).1 (((it.next (.prim x.w)).1).map fun o => o.map Rt.of) := by
  have hf : x.uns.ty.fits = (Width.prim x.w).fits := rfl
  unfold convNext ConvIter.next
  rw [hf]
  cases hn : it.coeffs.next with
  | mk o c =>
    cases o with
    | none => exact .rfl'
    | some a =>
      simp only
      cases hb : it.block.checkedRmove (Width.prim x.w).fits ((a : Nat) : Int) with
      | none => exact .rfl'
      | some pq =>
        obtain ⟨p, q⟩ := pq
        obtain ⟨h1, h2⟩ := checked_nonneg (fun v hv => (prim_fits.1 hv).1) hb
        simp only
        rcases convItem_ref hc it.neg h1 h2 with e | e
        · rw [e]
          cases ratioNew ((Width.prim x.w).sgn p) ((Width.prim x.w).sgn q) with
          | error e => exact .rfl'
          | ok r =>
            show Refines (Except.ok _) (Except.ok _)
            left
            cases it.neg <;> rfl
        · rw [e]; exact Or.inr rfl

theorem convNth_ref (hc : x.checks = true) (n : Nat) (it : ConvIter) :
    Refines (x.convNth n it) ((ConvIter.nth (.prim x.w) n it).map fun o => o.map Rt.of) := by
  induction n generalizing it with
  | zero => exact convNext_ref hc it
  | succ n ih =>
    have h1 := convNext_ref hc it
    have h2 := convNext_state (x := x) it
    rw [convNth, ConvIter.nth]
    cases hx : x.convNext it with
    | mk r it' =>
      cases hy : it.next (.prim x.w) with
      | mk r2 it2 =>
        rw [hx, hy] at h1 h2
        simp only at h1 h2
        subst h2
        rcases h1 with h1 | h1
        · subst h1
          cases r2 with
          | error e => exact .rfl'
          | ok o =>
            cases o with
            | none => exact .rfl'
            | some q => exact ih it'
        · subst h1; exact Or.inr rfl

/-- one item that fits the unsigned type -/
theorem convNext_fit {c : CF} (h : c.Wf) {n : Nat} (hn : c.HasCoeff n) (h1 : c.num n < 2 ^ x.w)
    (h2 : c.den n < 2 ^ x.w) :
    x.convNext (convState c n) = ((x.convItem c.neg (c.num n) (c.den n)).map some, convState c (n + 1)) := by
  obtain ⟨hs, -⟩ := convState_next_prim h (w := x.w) hn
  have hs := hs ⟨h1, h2⟩
  have hst := convNext_state (x := x) (convState c n)
  rw [hs] at hst
  refine Prod.ext ?_ hst
  have hf : x.uns.ty.fits = (Width.prim x.w).fits := rfl
  have hpos : 1 ≤ c.den n := trunc_den_pos h hn
  have hfit : (blockOf (c.trunc n)).checkedRmove (Width.prim x.w).fits ((coeffAt c.a c.p n : Nat) : Int) =
      some (c.num n, c.den n) := by
    obtain ⟨g1, g2, g3, g4⟩ := trunc_num_nonneg c n
    have ha : (0 : Int) ≤ ((coeffAt c.a c.p n : Nat) : Int) := by positivity
    have m1 : 0 ≤ ((coeffAt c.a c.p n : Nat) : Int) * (blockOf (c.trunc n)).pm1 := mul_nonneg ha g1
    have m2 : 0 ≤ ((coeffAt c.a c.p n : Nat) : Int) * (blockOf (c.trunc n)).qm1 := mul_nonneg ha g3
    have e1 := num_eq c n
    have e2 := den_eq c n
    unfold Block.checkedRmove
    rw [← e1, ← e2]
    rw [if_pos (by rw [Bool.and_eq_true, prim_fits, prim_fits]; omega),
      if_pos (by rw [Bool.and_eq_true, prim_fits, prim_fits]; omega)]
  unfold convState convNext
  rw [iterState_next, if_pos hn]
  simp only
  rw [hf, hfit]

/-- one item that fits -/
theorem convNext_exact {c : CF} (h : c.Wf) {n : Nat} (hn : c.HasCoeff n) (h1 : c.num n < 2 ^ (x.w - 1))
    (h2 : c.den n < 2 ^ (x.w - 1)) :
    x.convNext (convState c n) =
      (.ok (some (Rt.of (signed c.neg ((c.num n : Rat) / c.den n)))), convState c (n + 1)) := by
  have hpow : (2 : Int) ^ (x.w - 1) ≤ 2 ^ x.w := pow_le_pow_right₀ (by norm_num) (by omega)
  have hpos : 1 ≤ c.den n := trunc_den_pos h hn
  have hnn : 0 ≤ c.num n := by
    rw [num_eq]; have t := trunc_num_nonneg c n; have := t.1; have := t.2.1; positivity
  rw [convNext_fit h hn (by omega) (by omega), convItem_exact c.neg hnn hpos h1 h2]
  rfl

/-- a convergent that does not fit the unsigned type -/
theorem convNext_stop {c : CF} (h : c.Wf) {n : Nat} (hn : c.HasCoeff n)
    (hb : ¬ (c.num n < 2 ^ x.w ∧ c.den n < 2 ^ x.w)) :
    x.convNext (convState c n) = (.ok none, { convState c n with coeffs := iterState c (n + 1) }) := by
  obtain ⟨-, hs⟩ := convState_next_prim h (w := x.w) hn
  have hs := hs hb
  have hst := convNext_state (x := x) (convState c n)
  rw [hs] at hst
  refine Prod.ext ?_ hst
  have hf : x.uns.ty.fits = (Width.prim x.w).fits := rfl
  have hfit : (blockOf (c.trunc n)).checkedRmove (Width.prim x.w).fits ((coeffAt c.a c.p n : Nat) : Int) = none := by
    have e1 := num_eq c n
    have e2 := den_eq c n
    unfold Block.checkedRmove
    rw [← e1, ← e2]
    split
    · split
      · rename_i g1 g2
        rw [Bool.and_eq_true, prim_fits, prim_fits] at g1 g2
        exact absurd ⟨g1.2.2, g2.2.2⟩ hb
      · rfl
    · rfl
  unfold convState convNext
  rw [iterState_next, if_pos hn]
  simp only
  rw [hf, hfit]

theorem convNth_exact {c : CF} (h : c.Wf) (k n : Nat) (hn : c.HasCoeff (k + n))
    (hb : ∀ i ≤ n, c.num (k + i) < 2 ^ (x.w - 1) ∧ c.den (k + i) < 2 ^ (x.w - 1)) :
    x.convNth n (convState c k) = .ok (some (Rt.of (signed c.neg ((c.num (k + n) : Rat) / c.den (k + n))))) := by
  induction n generalizing k with
  | zero =>
    obtain ⟨h1, h2⟩ := hb 0 le_rfl
    rw [Nat.add_zero] at *
    rw [convNth, convNext_exact h hn h1 h2]
  | succ n ih =>
    obtain ⟨h1, h2⟩ := hb 0 (by omega)
    rw [convNth, convNext_exact h (hasCoeff_mono hn k (by omega)) h1 h2]
    simp only
    rw [ih (k + 1) (by rw [show k + 1 + n = k + (n + 1) by omega]; exact hn)
      (fun i hi => by have := hb (i + 1) (by omega); rwa [show k + (i + 1) = k + 1 + i by omega] at this)]
    rw [show k + 1 + n = k + (n + 1) by omega]

/-- the last convergent of a finite fraction -/
theorem convLast_exact {c : CF} (h : c.Wf) (hp : c.p = []) (fuel k : Nat) (acc : Option Rt) (hk : k < c.a.length)
    (hf : c.a.length - k < fuel)
    (hb : ∀ i < c.a.length, c.num i < 2 ^ (x.w - 1) ∧ c.den i < 2 ^ (x.w - 1)) :
    x.convLast fuel acc (convState c k) =
      some (.ok (some (Rt.of (signed c.neg ((c.num (c.a.length - 1) : Rat) / c.den (c.a.length - 1)))))) := by
  induction fuel generalizing k acc with
  | zero => omega
  | succ fuel ih =>
    obtain ⟨h1, h2⟩ := hb k hk
    rw [convLast, convNext_exact h (.inr hk) h1 h2]
    simp only
    by_cases hlast : k + 1 < c.a.length
    · exact ih (k + 1) _ hlast (by omega)
    · have hk' : k = c.a.length - 1 := by omega
      obtain ⟨fuel, rfl⟩ : ∃ f, fuel = f + 1 := ⟨fuel - 1, by omega⟩
      have hn : ¬ c.HasCoeff (k + 1) := by rintro (h' | h'); exact h' hp; omega
      rw [convLast]
      have : x.convNext (convState c (k + 1)) =
          (.ok none, { convState c (k + 1) with coeffs := iterState c (k + 1 + 1) }) := by
        unfold convNext convState
        rw [iterState_next, if_neg hn]
      rw [this, ← hk']

/-! ### convergents as rationals -/

theorem conv_fields {c : CF} (h : c.Wf) {n : Nat} (hn : c.HasCoeff n) :
    ∃ q, c.conv n = some (signed c.neg q) ∧ q = (c.num n : Rat) / c.den n ∧ (q.den : Int) = c.den n ∧ q.num = c.num n := by
  obtain ⟨q, -, h2⟩ := ratioNew_cfP _ (trunc_den_pos h hn)
  obtain ⟨h3, h4⟩ := cfVal_den h2 (trunc_den_pos h hn)
  have h3' : (q.den : Int) = c.den n := h3
  have h4' : q.num = c.num n := h4
  refine ⟨q, ?_, ?_, h3, h4⟩
  · have h5 : cfVal (truncTo (toInts c.a) (toInts c.p) (n + 1)) = some q := h2
    unfold conv
    rw [h5]
    rfl
  · rw [← h3', ← h4', Int.cast_natCast, Rat.num_div_den]

theorem signed_natAbs (b : Bool) (q : Rat) : (signed b q).num.natAbs = q.num.natAbs ∧ (signed b q).den = q.den := by
  cases b <;> simp [signed]

theorem num_nonneg {c : CF} (n : Nat) : 0 ≤ c.num n := by
  rw [num_eq]; have t := trunc_num_nonneg c n; have := t.1; have := t.2.1; positivity

theorem num_den_mono {c : CF} (h : c.Wf) {n : Nat} (hn : c.HasCoeff (n + 1)) :
    c.num n ≤ c.num (n + 1) ∧ c.den n ≤ c.den (n + 1) := by
  have hv : (1 : Int) ≤ ((coeffAt c.a c.p (n + 1) : Nat) : Int) :=
    trunc_tail_pos (n := n + 2) h (fun i hi => hasCoeff_mono hn i (by omega))
      ((coeffAt c.a c.p (n + 1) : Nat) : Int) (by
        rw [trunc_succ]
        have : c.trunc (n + 1) ≠ [] := by rw [trunc_succ]; simp
        rw [List.tail_append_of_ne_nil this]
        simp)
  have e := den_eq c (n + 1)
  have e' := num_eq c (n + 1)
  have e1 : (blockOf (c.trunc (n + 1))).qm1 = c.den n := rfl
  have e1' : (blockOf (c.trunc (n + 1))).pm1 = c.num n := rfl
  obtain ⟨-, g2, -, g4⟩ := trunc_num_nonneg c (n + 1)
  have hd : 1 ≤ c.den n := trunc_den_pos h (hasCoeff_mono hn n (by omega))
  have hnn : 0 ≤ c.num n := num_nonneg n
  rw [e1] at e
  rw [e1'] at e'
  constructor
  · nlinarith
  · nlinarith

theorem num_den_le {c : CF} (h : c.Wf) {n : Nat} (hn : c.HasCoeff n) (i : Nat) (hi : i ≤ n) :
    c.num i ≤ c.num n ∧ c.den i ≤ c.den n := by
  induction n with
  | zero => have : i = 0 := by omega
            subst this; exact ⟨le_rfl, le_rfl⟩
  | succ n ih =>
    rcases Nat.lt_or_ge n i with h' | h'
    · have : i = n + 1 := by omega
      subst this; exact ⟨le_rfl, le_rfl⟩
    · have h1 := ih (hasCoeff_mono hn n (by omega)) h'
      have h2 := num_den_mono h hn
      omega

/-- the bounds on the true convergent, in terms of the recurrence -/
theorem conv_bounds {c : CF} (h : c.Wf) {n : Nat} (hn : c.HasCoeff n) {r : Rat} (hr : c.conv n = some r) {B : Int}
    (hb : (r.num.natAbs : Int) < B ∧ (r.den : Int) < B) :
    Rt.of (signed c.neg ((c.num n : Rat) / c.den n)) = Rt.of r ∧ ∀ i ≤ n, c.num i < B ∧ c.den i < B := by
  obtain ⟨q, h1, h2, h3, h4⟩ := conv_fields h hn
  rw [hr] at h1
  have h1 := Option.some.inj h1
  subst h1
  obtain ⟨e1, e2⟩ := signed_natAbs c.neg q
  rw [e1, e2] at hb
  have := num_nonneg (c := c) n
  refine ⟨by rw [h2], fun i hi => ?_⟩
  have := num_den_le h hn i hi
  omega

end Fx
end NumIrr
