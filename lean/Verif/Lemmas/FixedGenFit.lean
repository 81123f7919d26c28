/-
`homo`, `simplify` and `bihomo` over primitive integers: representability of the state, and exactness in range.
-/
import Verif.Lemmas.FixedGen
import Verif.Spec.FixedGen

namespace NumIrr

theorem Homo.next_src : ∀ (fuel : Nat) (s : Homo) (r : Option Int × Homo), Homo.next fuel s = some r → r.2.src = s.src
  | 0, _, _, h => by cases h
  | fuel + 1, s, r, h => by
    unfold Homo.next at h
    cases e : s.block.reduceRecip with
    | mk i m =>
      rw [e] at h
      cases i with
      | some i => cases h; rfl
      | none =>
        cases e1 : s.src s.pos with
        | none => rw [e1] at h; cases h; rfl
        | some v => rw [e1] at h; exact Homo.next_src fuel { s with block := m.rmove v, pos := s.pos + 1 } r h

theorem GIter.simpNext_src : ∀ (fuel : Nat) (s : GIter) (r : Option Int × GIter), GIter.simpNext fuel s = some r →
    r.2.src = s.src
  | 0, _, _, h => by cases h
  | fuel + 1, s, r, h => by
    unfold GIter.simpNext at h
    cases e : s.block.reduceRecip with
    | mk i m =>
      rw [e] at h
      cases i with
      | some i => cases h; rfl
      | none =>
        cases e1 : s.src s.pos with
        | none => rw [e1] at h; cases h; rfl
        | some v => rw [e1] at h; exact GIter.simpNext_src fuel { s with block := m.gmove v.1 v.2, pos := s.pos + 1 } r h

namespace Prim

variable {t : Prim}

theorem holds_mono {n k : Int} (hn : t.Holds n) (hk : 0 ≤ k ∧ k ≤ n ∨ n ≤ k ∧ k ≤ 0) : t.Holds k := by
  unfold Holds at *
  have := two_pow_pos (t.w - 1)
  have := two_pow_pos t.w
  split at hn <;> rename_i h
  · rw [if_pos h]; omega
  · rw [if_neg h]; omega

theorem tmod_between (a b : Int) : 0 ≤ a.tmod b ∧ a.tmod b ≤ a ∨ a ≤ a.tmod b ∧ a.tmod b ≤ 0 := by
  have key : ∀ x : Int, 0 ≤ x → 0 ≤ x.tmod b ∧ x.tmod b ≤ x := by
    intro x hx
    refine ⟨Int.tmod_nonneg _ hx, ?_⟩
    rw [Int.tmod_def]
    have h : 0 ≤ b * x.tdiv b := by
      rcases le_total 0 b with hb | hb
      · exact mul_nonneg hb (Int.tdiv_nonneg hx hb)
      · exact mul_nonneg_of_nonpos_of_nonpos hb (Int.tdiv_nonpos_of_nonneg_of_nonpos hx hb)
    omega
  rcases le_total 0 a with ha | ha
  · exact Or.inl (key a ha)
  · right
    have := key (-a) (by omega)
    rw [Int.neg_tmod] at this
    omega

theorem tmod_holds {a : Int} (b : Int) (h : t.Holds a) : t.Holds (a.tmod b) := holds_mono h (tmod_between a b)

theorem divRem_holds {a : Int} (b : Int) (h : t.Holds a) : Ens (t.divRem a b) fun d => t.Holds d.1 ∧ t.Holds d.2 := by
  unfold divRem
  split
  · exact Ens.err
  · split
    · rename_i hf; exact Ens.pure ⟨fits_iff.1 hf, tmod_holds b h⟩
    · exact Ens.err

theorem div_holds (a b : Int) : Ens (t.div a b) t.Holds := by
  unfold div
  split
  · exact Ens.err
  · split
    · rename_i hf; exact Ens.pure (fits_iff.1 hf)
    · exact Ens.err

theorem rmove_holds (ht : t.Ok) {m : Block} (hm : t.HoldsB m) (a : Int) : Ens (t.rmove m a) t.HoldsB := by
  unfold rmove add mul
  exact (ret_holds ht _).bind fun _ _ => (ret_holds ht _).bind fun p hp => (ret_holds ht _).bind fun _ _ =>
    (ret_holds ht _).bind fun q hq => Ens.pure ⟨hp, hm.1, hq, hm.2.2.1⟩

theorem gmove_holds (ht : t.Ok) {m : Block} (hm : t.HoldsB m) (a b : Int) : Ens (t.gmove m a b) t.HoldsB := by
  unfold gmove add mul gcd
  refine (ret_holds ht _).bind fun _ _ => (ret_holds ht _).bind fun _ _ => (ret_holds ht _).bind fun p hp =>
    (ret_holds ht _).bind fun _ _ => (ret_holds ht _).bind fun _ _ => (ret_holds ht _).bind fun q hq =>
    (ret_holds ht _).bind fun _ _ => (ret_holds ht _).bind fun _ _ => (ret_holds ht _).bind fun g _ => ?_
  unfold gmoveEnd
  split
  · exact (div_holds _ _).bind fun _ h1 => (div_holds _ _).bind fun _ h2 => (div_holds _ _).bind fun _ h3 =>
      (div_holds _ _).bind fun _ h4 => Ens.pure ⟨h3, h1, h4, h2⟩
  · exact Ens.pure ⟨hp, hm.1, hq, hm.2.2.1⟩

/-- what `reduce_recip` returns is representable -/
theorem reduceRecip_holds {m : Block} (hm : t.HoldsB m) :
    Ens (t.reduceRecip m) fun r => (∀ i, r.1 = some i → t.Holds i) ∧ t.HoldsB r.2 := by
  obtain ⟨h1, h2, h3, h4⟩ := hm
  have key : Ens (t.checkInteger m) fun c => ∀ v, c = some v → t.Holds v.1 ∧ t.Holds v.2.1 ∧ t.Holds v.2.2 := by
    unfold checkInteger
    split
    · exact Ens.pure fun v hv => by cases hv
    · refine (divRem_holds _ h1).bind fun d1 hd1 => (divRem_holds _ h2).bind fun d2 hd2 => ?_
      refine Ens.pure fun v hv => ?_
      split at hv
      · cases hv; exact ⟨hd1.1, hd1.2, hd2.2⟩
      · cases hv
  unfold reduceRecip
  refine key.bind fun c hc => ?_
  cases c with
  | none => exact Ens.pure ⟨(fun i hi => by cases hi), h1, h2, h3, h4⟩
  | some v =>
    obtain ⟨g1, g2, g3⟩ := hc v rfl
    exact Ens.pure ⟨fun i hi => by cases hi; exact g1, h3, h4, g2, g3⟩

theorem homoNext_holds (ht : t.Ok) (src : Nat → Res (Option Int)) : ∀ (fuel : Nat) (m : Block) (k : Nat),
    t.HoldsB m → ∀ r, t.homoNext src fuel m k = some (.ok r) → (∀ i, r.1 = some i → t.Holds i) ∧ t.HoldsB r.2.1
  | 0, _, _, _, _, h => by cases h
  | fuel + 1, m, k, hm, r, h => by
    unfold homoNext at h
    have hr := reduceRecip_holds hm
    cases e : t.reduceRecip m with
    | error e' => rw [e] at h; cases h
    | ok v =>
      rw [e] at h
      obtain ⟨h1, h2⟩ := hr v e
      obtain ⟨_ | i, m'⟩ := v
      · dsimp only at h
        cases e1 : src k with
        | error e' => rw [e1] at h; cases h
        | ok v =>
          rw [e1] at h
          cases v with
          | none => cases h; exact ⟨h1, h2⟩
          | some v =>
            dsimp only at h
            cases e2 : t.rmove m' v with
            | error e' => rw [e2] at h; cases h
            | ok m'' => rw [e2] at h; exact homoNext_holds ht src fuel _ _ (rmove_holds ht h2 v m'' e2) r h
      · cases h; exact ⟨h1, h2⟩

theorem simpNext_holds (ht : t.Ok) (src : Nat → Res (Option (Int × Int))) : ∀ (fuel : Nat) (m : Block) (k : Nat),
    t.HoldsB m → ∀ r, t.simpNext src fuel m k = some (.ok r) → (∀ i, r.1 = some i → t.Holds i) ∧ t.HoldsB r.2.1
  | 0, _, _, _, _, h => by cases h
  | fuel + 1, m, k, hm, r, h => by
    unfold simpNext at h
    have hr := reduceRecip_holds hm
    cases e : t.reduceRecip m with
    | error e' => rw [e] at h; cases h
    | ok v =>
      rw [e] at h
      obtain ⟨h1, h2⟩ := hr v e
      obtain ⟨_ | i, m'⟩ := v
      · dsimp only at h
        cases e1 : src k with
        | error e' => rw [e1] at h; cases h
        | ok v =>
          rw [e1] at h
          cases v with
          | none => cases h; exact ⟨h1, h2⟩
          | some v =>
            dsimp only at h
            cases e2 : t.gmove m' v.1 v.2 with
            | error e' => rw [e2] at h; cases h
            | ok m'' => rw [e2] at h; exact simpNext_holds ht src fuel _ _ (gmove_holds ht h2 _ _ m'' e2) r h
      · cases h; exact ⟨h1, h2⟩

theorem rmoveRight_holds (ht : t.Ok) {m : DualBlock} (hm : t.HoldsD m) (a : Int) : Ens (t.rmoveRight m a) t.HoldsD := by
  obtain ⟨h1, h2, h3, h4, h5, h6, h7, h8⟩ := hm
  unfold rmoveRight add mul
  exact (ret_holds ht _).bind fun _ _ => (ret_holds ht _).bind fun _ g1 => (ret_holds ht _).bind fun _ _ =>
    (ret_holds ht _).bind fun _ g2 => (ret_holds ht _).bind fun _ _ => (ret_holds ht _).bind fun _ g3 =>
    (ret_holds ht _).bind fun _ _ => (ret_holds ht _).bind fun _ g4 => Ens.pure ⟨g1, g3, h1, h2, g2, h6, h5, h8⟩

theorem rmoveDown_holds (ht : t.Ok) {m : DualBlock} (hm : t.HoldsD m) (a : Int) : Ens (t.rmoveDown m a) t.HoldsD := by
  obtain ⟨h1, h2, h3, h4, h5, h6, h7, h8⟩ := hm
  unfold rmoveDown add mul
  exact (ret_holds ht _).bind fun _ _ => (ret_holds ht _).bind fun _ g1 => (ret_holds ht _).bind fun _ _ =>
    (ret_holds ht _).bind fun _ g2 => (ret_holds ht _).bind fun _ _ => (ret_holds ht _).bind fun _ g3 =>
    (ret_holds ht _).bind fun _ _ => (ret_holds ht _).bind fun _ g4 => Ens.pure ⟨g1, h1, g3, h3, g2, h5, g4, h7⟩

theorem dualReduce_holds {m : DualBlock} (hm : t.HoldsD m) :
    Ens (t.dualReduce m) fun r => (∀ i, r.1 = .inl i → t.Holds i) ∧ t.HoldsD r.2 := by
  obtain ⟨h1, h2, h3, h4, h5, h6, h7, h8⟩ := hm
  have key : Ens (t.dualCheck m) fun c => ∀ i r1 r2 r3 r4, c = .int i r1 r2 r3 r4 →
      t.Holds i ∧ t.Holds r1 ∧ t.Holds r2 ∧ t.Holds r3 ∧ t.Holds r4 := by
    unfold dualCheck
    split
    · exact Ens.pure fun _ _ _ _ _ hv => by cases hv
    split
    · exact Ens.pure fun _ _ _ _ _ hv => by cases hv
    unfold dualCheckDiv
    refine (divRem_holds _ h1).bind fun d1 g1 => (divRem_holds _ h2).bind fun d2 g2 =>
      (divRem_holds _ h3).bind fun d3 g3 => (divRem_holds _ h4).bind fun d4 g4 => ?_
    refine Ens.pure fun i r1 r2 r3 r4 hv => ?_
    split at hv
    · cases hv; exact ⟨g1.1, g1.2, g2.2, g3.2, g4.2⟩
    · cases hv
  unfold dualReduce
  refine key.bind fun c hc => ?_
  cases c with
  | move r d => exact Ens.pure ⟨(fun i hi => by cases hi), h1, h2, h3, h4, h5, h6, h7, h8⟩
  | int i r1 r2 r3 r4 =>
    obtain ⟨g0, g1, g2, g3, g4⟩ := hc _ _ _ _ _ rfl
    exact Ens.pure ⟨fun j hj => by cases hj; exact g0, h5, h6, h7, h8, g1, g2, g3, g4⟩

theorem moves_holds (ht : t.Ok) (xsrc ysrc : Nat → Res (Option Int)) {s : Bi} (hs : t.HoldsD s.block) (r d : Bool) :
    Ens (t.moves xsrc ysrc s r d) fun z => t.HoldsD z.2.block := by
  have k1 : ∀ s : Bi, t.HoldsD s.block → Ens (t.stepRight xsrc s) fun z => t.HoldsD z.2.block := by
    intro s hs
    unfold stepRight
    refine Ens.bind (P := fun _ => True) Ens.triv fun v _ => ?_
    cases v with
    | none => exact Ens.pure hs
    | some v => exact (rmoveRight_holds ht hs v).bind fun m hm => Ens.pure hm
  have k2 : ∀ s : Bi, t.HoldsD s.block → Ens (t.stepDown ysrc s) fun z => t.HoldsD z.2.block := by
    intro s hs
    unfold stepDown
    refine Ens.bind (P := fun _ => True) Ens.triv fun v _ => ?_
    cases v with
    | none => exact Ens.pure hs
    | some v => exact (rmoveDown_holds ht hs v).bind fun m hm => Ens.pure hm
  have k3 : ∀ z : Bool × Bi, t.HoldsD z.2.block → Ens (t.moveDown ysrc d z) fun z => t.HoldsD z.2.block := by
    rintro ⟨z, s'⟩ h
    unfold moveDown
    cases z
    · exact Ens.pure h
    · cases d
      · exact Ens.pure h
      · exact k2 s' h
  unfold moves
  cases r
  · exact k3 (true, s) hs
  · exact (k1 s hs).bind fun z hz => k3 z hz

theorem bihomoNext_holds (ht : t.Ok) (xsrc ysrc : Nat → Res (Option Int)) : ∀ (fuel : Nat) (s : Bi),
    t.HoldsD s.block → ∀ r, t.bihomoNext xsrc ysrc fuel s = some (.ok r) →
      (∀ i, r.1 = some i → t.Holds i) ∧ t.HoldsD r.2.block
  | 0, _, _, _, h => by cases h
  | fuel + 1, s, hs, r, h => by
    unfold bihomoNext at h
    have hr := dualReduce_holds hs
    cases e : t.dualReduce s.block with
    | error e' => rw [e] at h; cases h
    | ok v =>
      rw [e] at h
      obtain ⟨h1, h2⟩ := hr v e
      obtain ⟨i | ⟨rr, d⟩, m'⟩ := v
      · cases h; exact ⟨fun j hj => by cases hj; exact h1 _ rfl, h2⟩
      · dsimp only at h
        have hmv := moves_holds ht xsrc ysrc hs rr d
        cases e1 : t.moves xsrc ysrc s rr d with
        | error e' => rw [e1] at h; cases h
        | ok v =>
          rw [e1] at h
          have hv := hmv v e1
          obtain ⟨_ | _, s'⟩ := v
          · cases h; exact ⟨(fun j hj => by cases hj), hv⟩
          · exact bihomoNext_holds ht xsrc ysrc fuel s' hv r h

/-! ### exactness -/

theorem nn_iff (m : Block) : m.NN ↔ m.Nonneg := Iff.rfl

theorem ret_inv (hc : t.checks = true) {v u : Int} (h : t.ret v = .ok u) : u = v ∧ t.Holds v := by
  unfold ret at h
  rw [hc] at h
  split at h
  · rename_i hf; cases h; exact ⟨rfl, fits_iff.1 hf⟩
  · cases h

theorem divRem_exact {a b : Int} (h : t.Holds a) (ha : 0 ≤ a) (hb : 0 ≤ b) (h0 : b ≠ 0) :
    t.divRem a b = .ok (a.tdiv b, a.tmod b) := by
  unfold divRem
  rw [if_neg h0, if_pos (fits_iff.2 (holds_mono h (Or.inl ⟨Int.tdiv_nonneg ha hb, Int.tdiv_le_self b ha⟩)))]

theorem div_exact {a b : Int} (h : t.Holds a) (ha : 0 ≤ a) (hb : 1 < b) : t.div a b = .ok (a.tdiv b) := by
  unfold div
  rw [if_neg (by omega), if_pos (fits_iff.2 (holds_mono h (Or.inl ⟨Int.tdiv_nonneg ha (by omega), Int.tdiv_le_self b ha⟩)))]

theorem reduceRecip_exact {m : Block} (hn : m.NN) (hm : t.HoldsB m) : t.reduceRecip m = .ok m.reduceRecip := by
  obtain ⟨n1, n2, n3, n4⟩ := hn
  obtain ⟨h1, h2, h3, h4⟩ := hm
  have key : t.checkInteger m = .ok m.checkInteger := by
    unfold checkInteger Block.checkInteger
    split
    · rfl
    · rename_i h
      push Not at h
      rw [divRem_exact h1 n1 n3 h.1, divRem_exact h2 n2 n4 h.2]
      rfl
  unfold reduceRecip Block.reduceRecip
  rw [key]
  cases m.checkInteger <;> rfl

theorem reduceRecip_nn {m : Block} (hn : m.NN) : m.reduceRecip.2.NN := by
  unfold Block.reduceRecip
  cases e : m.checkInteger with
  | none => exact hn
  | some v =>
    obtain ⟨i, r1, r2⟩ := v
    have h := Block.checkInteger_nonneg hn e
    exact ⟨hn.2.2.1, hn.2.2.2, h.2.2.2.1, h.2.2.2.2.2.1⟩

theorem reduceRecip_none {m m' : Block} (h : m.reduceRecip = (none, m')) : m' = m := by
  unfold Block.reduceRecip at h
  split at h
  · cases h
  · cases h; rfl

theorem rmove_exact {m : Block} (hn : m.NN) {a : Int} (ha : 0 ≤ a) (hp : t.Holds (a * m.pm1 + m.pm2))
    (hq : t.Holds (a * m.qm1 + m.qm2)) : t.rmove m a = .ok (m.rmove a) := by
  obtain ⟨n1, n2, n3, n4⟩ := hn
  have g1 := mul_nonneg ha n1
  have g2 := mul_nonneg ha n3
  unfold rmove add mul
  rw [ret_ok (holds_mono hp (Or.inl ⟨g1, by omega⟩)), Surd.ok_bind, ret_ok hp, Surd.ok_bind,
    ret_ok (holds_mono hq (Or.inl ⟨g2, by omega⟩)), Surd.ok_bind, ret_ok hq]
  rfl

/-- with checks a move to a block which is not representable panics -/
theorem rmove_over (hc : t.checks = true) {m : Block} {a : Int}
    (h : ¬ (t.Holds (a * m.pm1 + m.pm2) ∧ t.Holds (a * m.qm1 + m.qm2))) : t.rmove m a = .error .overflow := by
  rcases rmove_ref hc m a with e | e
  · exfalso
    apply h
    unfold rmove add mul at e
    obtain ⟨u1, e1, e⟩ := Surd.bind_ok e
    obtain ⟨u2, e2, e⟩ := Surd.bind_ok e
    obtain ⟨u3, e3, e⟩ := Surd.bind_ok e
    obtain ⟨u4, e4, e⟩ := Surd.bind_ok e
    obtain ⟨rfl, -⟩ := ret_inv hc e1
    obtain ⟨rfl, g1⟩ := ret_inv hc e2
    obtain ⟨rfl, -⟩ := ret_inv hc e3
    obtain ⟨rfl, g2⟩ := ret_inv hc e4
    exact ⟨g1, g2⟩
  · exact e

theorem igcd_le {a b : Int} (ha : 0 ≤ a) (hb : 0 ≤ b) : 0 ≤ igcd a b ∧ igcd a b ≤ max a b := by
  unfold igcd
  refine ⟨by omega, ?_⟩
  rcases eq_or_lt_of_le ha with h | h
  · subst h
    rw [Int.gcd_zero_left]; omega
  · have := Int.le_of_dvd h (Int.gcd_dvd_left (a := a) (b := b))
    omega

theorem igcd_holds {a b : Int} (ha : 0 ≤ a) (hb : 0 ≤ b) (h1 : t.Holds a) (h2 : t.Holds b) : t.Holds (igcd a b) := by
  obtain ⟨g1, g2⟩ := igcd_le ha hb
  rcases le_total a b with h | h
  · exact holds_mono h2 (Or.inl ⟨g1, by omega⟩)
  · exact holds_mono h1 (Or.inl ⟨g1, by omega⟩)

theorem gmove_exact {m : Block} (hn : m.NN) (hm : t.HoldsB m) {a b : Int} (ha : 0 ≤ a) (hb : 0 ≤ b)
    (hp : t.Holds (b * m.pm1 + a * m.pm2)) (hq : t.Holds (b * m.qm1 + a * m.qm2)) :
    t.gmove m a b = .ok (m.gmove a b) := by
  obtain ⟨n1, n2, n3, n4⟩ := hn
  obtain ⟨h1, h2, h3, h4⟩ := hm
  rw [mul_comm b m.pm1, mul_comm a m.pm2] at hp
  rw [mul_comm b m.qm1, mul_comm a m.qm2] at hq
  have g1 := mul_nonneg n1 hb
  have g2 := mul_nonneg n2 ha
  have g3 := mul_nonneg n3 hb
  have g4 := mul_nonneg n4 ha
  have i1 := igcd_holds (t := t) (by omega) (by omega) hp hq
  have i1n := Fx.igcd_nonneg' (m.pm1 * b + m.pm2 * a) (m.qm1 * b + m.qm2 * a)
  have i2 := igcd_holds (t := t) i1n n1 i1 h1
  have i2n := Fx.igcd_nonneg' (igcd (m.pm1 * b + m.pm2 * a) (m.qm1 * b + m.qm2 * a)) m.pm1
  have i3 := igcd_holds (t := t) i2n n3 i2 h3
  unfold gmove add mul gcd
  rw [ret_ok (holds_mono hp (Or.inl ⟨g1, by omega⟩)), Surd.ok_bind, ret_ok (holds_mono hp (Or.inl ⟨g2, by omega⟩)), Surd.ok_bind,
    ret_ok hp, Surd.ok_bind, ret_ok (holds_mono hq (Or.inl ⟨g3, by omega⟩)), Surd.ok_bind,
    ret_ok (holds_mono hq (Or.inl ⟨g4, by omega⟩)), Surd.ok_bind, ret_ok hq, Surd.ok_bind,
    ret_ok i1, Surd.ok_bind, ret_ok i2, Surd.ok_bind, ret_ok i3, Surd.ok_bind]
  unfold gmoveEnd Block.gmove
  dsimp only
  split
  · rename_i hg
    rw [div_exact h1 n1 hg, Surd.ok_bind, div_exact h3 n3 hg, Surd.ok_bind, div_exact hp (by omega) hg, Surd.ok_bind,
      div_exact hq (by omega) hg]
    rfl
  · rfl

theorem gmove_over (hc : t.checks = true) {m : Block} {a b : Int}
    (h : ¬ (t.Holds (b * m.pm1 + a * m.pm2) ∧ t.Holds (b * m.qm1 + a * m.qm2))) :
    t.gmove m a b = .error .overflow := by
  rcases gmove_ref hc m a b with e | e
  · exfalso
    apply h
    unfold gmove add mul at e
    obtain ⟨u1, e1, e⟩ := Surd.bind_ok e
    obtain ⟨u2, e2, e⟩ := Surd.bind_ok e
    obtain ⟨u3, e3, e⟩ := Surd.bind_ok e
    obtain ⟨u4, e4, e⟩ := Surd.bind_ok e
    obtain ⟨u5, e5, e⟩ := Surd.bind_ok e
    obtain ⟨u6, e6, e⟩ := Surd.bind_ok e
    obtain ⟨rfl, -⟩ := ret_inv hc e1
    obtain ⟨rfl, -⟩ := ret_inv hc e2
    obtain ⟨rfl, g1⟩ := ret_inv hc e3
    obtain ⟨rfl, -⟩ := ret_inv hc e4
    obtain ⟨rfl, -⟩ := ret_inv hc e5
    obtain ⟨rfl, g2⟩ := ret_inv hc e6
    rw [mul_comm b m.pm1, mul_comm a m.pm2, mul_comm b m.qm1, mul_comm a m.qm2]
    exact ⟨g1, g2⟩
  · exact e

theorem rmove_nn {m : Block} (hn : m.NN) {a : Int} (ha : 0 ≤ a) : (m.rmove a).NN := by
  obtain ⟨n1, n2, n3, n4⟩ := hn
  have g1 := mul_nonneg ha n1
  have g2 := mul_nonneg ha n3
  exact ⟨by simp only [Block.rmove, Block.update]; omega, n1, by simp only [Block.rmove, Block.update]; omega, n3⟩

theorem gmove_nn {m : Block} (hn : m.NN) {a b : Int} (ha : 0 ≤ a) (hb : 0 ≤ b) : (m.gmove a b).NN :=
  (Block.gmove_scal m a b).nonneg (Block.raw_nonneg hn ha hb)

/-- the call of `next` of `homo` is the one over the unbounded integers if all convergents are representable -/
theorem homoNext_exact {src : Nat → Option Int} (hs : ∀ k v, src k = some v → 0 ≤ v) :
    ∀ (fuel : Nat) (m : Block) (k : Nat), m.NN → t.HoldsB m →
      Homo.Through (fun p q => t.Holds p ∧ t.Holds q) src fuel m k →
      t.homoNext (fun k => .ok (src k)) fuel m k
        = (Homo.next fuel ⟨m, src, k⟩).map fun r => .ok (r.1, r.2.block, r.2.pos)
  | 0, _, _, _, _, _ => rfl
  | fuel + 1, m, k, hn, hm, h => by
    unfold homoNext Homo.next
    unfold Homo.Through at h
    rw [reduceRecip_exact hn hm]
    try dsimp only
    cases e : m.reduceRecip with
    | mk i m' =>
      cases i with
      | some i => rfl
      | none =>
        obtain rfl := reduceRecip_none e
        rw [e] at h
        dsimp only
        cases e1 : src k with
        | none => rfl
        | some v =>
          rw [e1] at h
          dsimp only at h ⊢
          have hv := hs k v e1
          rw [rmove_exact hn hv h.1.1 h.1.2]
          exact homoNext_exact hs fuel _ _ (rmove_nn hn hv) ⟨h.1.1, hm.1, h.1.2, hm.2.2.1⟩ h.2

/-- with checks the call panics otherwise -/
theorem homoNext_over (hc : t.checks = true) {src : Nat → Option Int} (hs : ∀ k v, src k = some v → 0 ≤ v) :
    ∀ (fuel : Nat) (m : Block) (k : Nat), m.NN → t.HoldsB m →
      ¬ Homo.Through (fun p q => t.Holds p ∧ t.Holds q) src fuel m k →
      t.homoNext (fun k => .ok (src k)) fuel m k = some (.error .overflow)
  | 0, _, _, _, _, h => absurd trivial h
  | fuel + 1, m, k, hn, hm, h => by
    unfold homoNext
    unfold Homo.Through at h
    rw [reduceRecip_exact hn hm]
    try dsimp only
    cases e : m.reduceRecip with
    | mk i m' =>
      cases i with
      | some i => rw [e] at h; exact absurd trivial h
      | none =>
        obtain rfl := reduceRecip_none e
        rw [e] at h
        dsimp only
        cases e1 : src k with
        | none => rw [e1] at h; exact absurd trivial h
        | some v =>
          rw [e1] at h
          dsimp only at h ⊢
          have hv := hs k v e1
          by_cases hp : t.Holds (v * m'.pm1 + m'.pm2) ∧ t.Holds (v * m'.qm1 + m'.qm2)
          · rw [rmove_exact hn hv hp.1 hp.2]
            exact homoNext_over hc hs fuel _ _ (rmove_nn hn hv) ⟨hp.1, hm.1, hp.2, hm.2.2.1⟩ fun h' => h ⟨hp, h'⟩
          · rw [rmove_over hc hp]

theorem simpNext_exact (ht : t.Ok) {src : Nat → Option (Int × Int)} (hs : ∀ k a b, src k = some (a, b) → 0 ≤ a ∧ 0 ≤ b) :
    ∀ (fuel : Nat) (m : Block) (k : Nat), m.NN → t.HoldsB m →
      GIter.Through (fun p q => t.Holds p ∧ t.Holds q) src fuel m k →
      t.simpNext (fun k => .ok (src k)) fuel m k
        = (GIter.simpNext fuel ⟨m, src, k⟩).map fun r => .ok (r.1, r.2.block, r.2.pos)
  | 0, _, _, _, _, _ => rfl
  | fuel + 1, m, k, hn, hm, h => by
    unfold simpNext GIter.simpNext
    unfold GIter.Through at h
    rw [reduceRecip_exact hn hm]
    try dsimp only
    cases e : m.reduceRecip with
    | mk i m' =>
      cases i with
      | some i => rfl
      | none =>
        obtain rfl := reduceRecip_none e
        rw [e] at h
        dsimp only
        cases e1 : src k with
        | none => rfl
        | some v =>
          rw [e1] at h
          obtain ⟨a, b⟩ := v
          dsimp only at h ⊢
          obtain ⟨ha, hb⟩ := hs k a b e1
          have eg := gmove_exact hn hm ha hb h.1.1 h.1.2
          rw [eg]
          exact simpNext_exact ht hs fuel _ _ (gmove_nn hn ha hb) (gmove_holds ht hm a b _ eg) h.2

theorem simpNext_over (ht : t.Ok) (hc : t.checks = true) {src : Nat → Option (Int × Int)}
    (hs : ∀ k a b, src k = some (a, b) → 0 ≤ a ∧ 0 ≤ b) :
    ∀ (fuel : Nat) (m : Block) (k : Nat), m.NN → t.HoldsB m →
      ¬ GIter.Through (fun p q => t.Holds p ∧ t.Holds q) src fuel m k →
      t.simpNext (fun k => .ok (src k)) fuel m k = some (.error .overflow)
  | 0, _, _, _, _, h => absurd trivial h
  | fuel + 1, m, k, hn, hm, h => by
    unfold simpNext
    unfold GIter.Through at h
    rw [reduceRecip_exact hn hm]
    try dsimp only
    cases e : m.reduceRecip with
    | mk i m' =>
      cases i with
      | some i => rw [e] at h; exact absurd trivial h
      | none =>
        obtain rfl := reduceRecip_none e
        rw [e] at h
        dsimp only
        cases e1 : src k with
        | none => rw [e1] at h; exact absurd trivial h
        | some v =>
          rw [e1] at h
          obtain ⟨a, b⟩ := v
          dsimp only at h ⊢
          obtain ⟨ha, hb⟩ := hs k a b e1
          by_cases hp : t.Holds (b * m'.pm1 + a * m'.pm2) ∧ t.Holds (b * m'.qm1 + a * m'.qm2)
          · have eg := gmove_exact hn hm ha hb hp.1 hp.2
            rw [eg]
            exact simpNext_over ht hc hs fuel _ _ (gmove_nn hn ha hb) (gmove_holds ht hm a b _ eg) fun h' => h ⟨hp, h'⟩
          · rw [gmove_over hc hp]

end Prim
end NumIrr
