/-
C132: expanding surds into continued fractions by hand; Lagrange's theorem for every real surd.
-/
import Verif.Spec.Hand
import Verif.Props.Galois
import Verif.Props.StoredForm
import Verif.Lemmas.Serret
import Verif.Lemmas.Formula

namespace NumIrr

/-! ### the complete quotients of a quadratic number become reduced -/

/-- the conjugates of the complete quotients -/
private noncomputable def ct (x y : ℝ) : ℕ → ℝ
  | 0 => y
  | n + 1 => 1 / (ct x y n - ⌊tails x n⌋)

private theorem ct_conj {x y : ℝ} (hx : Irrational x) (h : ConjRoots x y) (n : ℕ) : ConjRoots (tails x n) (ct x y n) := by
  induction n with
  | zero => exact h
  | succ n ih =>
    have := ih.map (tails_irrational hx n) (a := 0) (b := 1) (c := 1) (d := -⌊tails x n⌋) (by simp)
    rw [tails_succ]
    simp only [ct]
    push_cast at this
    simpa [sub_eq_add_neg] using this

private theorem reduced_tail {x y : ℝ} (hx : Irrational x) (h : ConjRoots x y) :
    ∃ n w, 1 < tails x (n + 1) ∧ ConjRoots (tails x (n + 1)) w ∧ -1 < w ∧ w < 0 := by
  suffices ∃ n, ct x y (n + 1) < 0 by
    obtain ⟨n, hn⟩ := this
    have ha : (1 : ℝ) ≤ ⌊tails x (n + 1)⌋ := by
      have : (1 : ℤ) ≤ ⌊tails x (n + 1)⌋ := regc_pos hx n
      exact_mod_cast this
    refine ⟨n + 1, ct x y (n + 2), tails_gt_one hx _, ct_conj hx h _, ?_, ?_⟩
    · show -1 < 1 / (ct x y (n + 1) - ⌊tails x (n + 1)⌋)
      rw [lt_div_iff_of_neg (by linarith)]; linarith
    · show 1 / (ct x y (n + 1) - ⌊tails x (n + 1)⌋) < 0
      exact div_neg_of_pos_of_neg one_pos (by linarith)
  by_contra hn
  push Not at hn
  have irr : ∀ n, Irrational (ct x y n) := fun n => (ct_conj hx h n).irr (tails_irrational hx n)
  have pos : ∀ n, 0 < ct x y (n + 1) := fun n => lt_of_le_of_ne (hn n) (irr (n + 1)).ne_zero.symm
  have gt : ∀ n, (⌊tails x n⌋ : ℝ) < ct x y n := fun n => by
    have : 0 < 1 / (ct x y n - ⌊tails x n⌋) := pos n
    have := one_div_pos.1 this
    linarith
  have fl : ∀ n, ⌊ct x y n⌋ = ⌊tails x n⌋ := fun n => by
    rw [Int.floor_eq_iff]
    refine ⟨(gt n).le, ?_⟩
    have ha : (1 : ℝ) ≤ ⌊tails x (n + 1)⌋ := by
      have : (1 : ℤ) ≤ ⌊tails x (n + 1)⌋ := regc_pos hx n
      exact_mod_cast this
    have h1 : (1 : ℝ) < 1 / (ct x y n - ⌊tails x n⌋) := lt_of_le_of_lt ha (gt (n + 1))
    rw [lt_div_iff₀ (by linarith [gt n])] at h1
    linarith
  have tl : ∀ n, tails y n = ct x y n := fun n => by
    induction n with
    | zero => rfl
    | succ n ih => rw [tails_succ, ih, fl]; rfl
  refine h.1 ?_
  rw [← regc_lim hx, ← regc_lim (h.irr hx)]
  congr 1
  funext n
  unfold regc
  rw [tl, fl]

private theorem conj_unique {x y z : ℝ} (hx : Irrational x) (h : ConjRoots x y) (k : ConjRoots x z) : y = z := by
  obtain ⟨h0, A, B, C, hA, h1, h2⟩ := h
  obtain ⟨k0, A', B', C', hA', k1, k2⟩ := k
  have hAR : (A : ℝ) ≠ 0 := by exact_mod_cast hA
  have hAR' : (A' : ℝ) ≠ 0 := by exact_mod_cast hA'
  have e : A * (x + y) + B = 0 := (mul_eq_zero.1 (show (x - y) * (A * (x + y) + B) = 0 by
    linear_combination h1 - h2)).resolve_left (sub_ne_zero.2 h0)
  have e' : A' * (x + z) + B' = 0 := (mul_eq_zero.1 (show (x - z) * (A' * (x + z) + B') = 0 by
    linear_combination k1 - k2)).resolve_left (sub_ne_zero.2 k0)
  -- `x` solves one equation only
  have l : ((A' * B - A * B' : ℤ) : ℝ) * x + ((A' * C - A * C' : ℤ) : ℝ) = 0 := by
    push_cast; linear_combination A' * h1 - A * k1
  have hz : A' * B - A * B' = 0 := by
    by_contra hne
    exact den_ne hx (c := A' * B - A * B') (d := A' * C - A * C') (by tauto) l
  have hz' : (A' : ℝ) * B - A * B' = 0 := by exact_mod_cast hz
  have : (A : ℝ) * A' * (y - z) = 0 := by linear_combination A' * e - A * e' - hz'
  rcases mul_eq_zero.1 this with h | h
  · exact absurd h (mul_ne_zero hAR hAR')
  · linarith

namespace Surd

private theorem bind_ok {α β : Type} {r : Res α} {f : α → Res β} {v : β} (h : (r >>= f) = .ok v) :
    ∃ u, r = .ok u ∧ f u = .ok v := by
  cases r with
  | error e => cases h
  | ok u => exact ⟨u, rfl, h⟩

private theorem new_dvd {cfg : Cfg} {a b c r : ℤ} {z : Surd} (h : new cfg a b c r = .ok z) (hz : z.r ≠ 0) : z.r ∣ r := by
  obtain ⟨h1, h2⟩ := new_inv h
  obtain ⟨t, e, -, -, -, h3⟩ := new_spec (cfg := cfg) (a := a) (b := b) h1 h2
  rw [h] at e; cases e
  rcases h3 with h3 | ⟨-, -, k, -, h5⟩
  · exact absurd h3.1 hz
  · exact ⟨k * k, by rw [h5]; ring⟩

private theorem step_spec (cfg : Cfg) (s : Surd) (h : s.RealOk) (hr : s.r ≠ 0) :
    ∃ z, handStep cfg s = .ok z ∧ z.RealOk ∧ z.r ≠ 0 ∧ z.r ∣ s.r ∧ z.val = 1 / (s.val - ⌊s.val⌋) := by
  have irr := (irrational_iff h).2 hr
  have hf : (ofInt ⌊s.val⌋).RealOk ∧ (ofInt ⌊s.val⌋).val = ⌊s.val⌋ :=
    real_transfer (surd_ofInt_normal cfg _).toNormal (by rw [surd_ofInt_value]; push_cast; rfl)
  obtain ⟨d, hd, -⟩ := (sub_spec (h.toOk cfg) (hf.1.toOk cfg)).1 (.inr (.inl rfl))
  obtain ⟨k1, k2⟩ := surd_sub_value_real cfg _ _ d h hf.1 hd
  rw [hf.2] at k2
  have dirr : Irrational d.val := by rw [k2]; exact irr.sub_intCast _
  have dr := (irrational_iff k1).1 dirr
  obtain ⟨z, hz⟩ := (surd_recip_returns_iff cfg d (k1.toOk cfg)).2 (by
    rw [k1.valC]; exact_mod_cast dirr.ne_zero)
  obtain ⟨z1, z2⟩ := surd_recip_value cfg d z (k1.toOk cfg) hz
  obtain ⟨z3, z4⟩ := real_transfer z2.toNormal (t := 1 / d.val) (by rw [z1, k1.valC]; push_cast; rw [one_div])
  have zirr : Irrational z.val := by rw [z4, one_div]; exact dirr.inv
  have zr := (irrational_iff z3).1 zirr
  refine ⟨z, ?_, z3, zr, (new_dvd hz zr).trans ?_, by rw [z4, k2]⟩
  · unfold handStep
    rw [surd_floor cfg s h]; simp only [ok_bind]; rw [hd]; exact hz
  · unfold sub at hd
    rw [if_pos (by simp [isRational, ofInt])] at hd
    obtain ⟨q, -, hd⟩ := bind_ok hd
    exact new_dvd hd dr

/-- **C132** Subtracting the floor and taking the reciprocal over and over never panics, and computes the complete quotients
of the number; their floors are the coefficients of its regular continued fraction. -/
theorem hand_value (cfg : Cfg) (s : Surd) (h : s.RealOk) (hr : s.r ≠ 0) (n : ℕ) :
    ∃ z, hand cfg s n = .ok z ∧ z.RealOk ∧ z.r ≠ 0 ∧ z.r ∣ s.r ∧ z.val = tails s.val n ∧
      z.floor cfg = .ok (ofInt ⌊tails s.val n⌋) := by
  induction n with
  | zero => exact ⟨s, rfl, h, hr, dvd_rfl, rfl, surd_floor cfg s h⟩
  | succ n ih =>
    obtain ⟨z, h1, h2, h3, h4, h5, -⟩ := ih
    obtain ⟨w, k1, k2, k3, k4, k5⟩ := step_spec cfg z h2 h3
    have e : w.val = tails s.val (n + 1) := by rw [k5, h5, tails_succ]
    refine ⟨w, ?_, k2, k3, k4.trans h4, e, by rw [surd_floor cfg w k2, e]⟩
    simp only [hand, h1, ok_bind, k1]
example : (Surd.mk 0 1 1 14).RealOk ∧ hand ⟨false, true⟩ ⟨0, 1, 1, 14⟩ 4 = .ok ⟨3, 1, 1, 14⟩ := by decide +kernel

/-- **C132** So for a positive number the floors are the coefficients of any periodic fraction with this value, such as
the one `to_contfrac` returns when it is right. -/
theorem hand_contfrac (cfg : Cfg) (s : Surd) (h : s.RealOk) (hr : s.r ≠ 0) (h0 : 0 < s.val) (c : CF) (hw : c.Wf)
    (hp : c.p ≠ []) (hv : c.HasVal s.val) (n : ℕ) :
    ∃ z, hand cfg s n = .ok z ∧ z.floor cfg = .ok (ofInt (coeffAt c.a c.p n : ℕ)) := by
  obtain ⟨z, h1, -, -, -, -, h2⟩ := hand_value cfg s h hr n
  refine ⟨z, h1, ?_⟩
  have := (CF.coeff_of_val hw hp hv).2.2.2.2 n
  rw [abs_of_pos h0] at this
  rw [h2, this]
example : toContfrac ⟨false, true⟩ 20 ⟨0, 1, 1, 14⟩ = some (.ok (some ⟨[3], [1, 2, 1, 6], false⟩)) ∧
    (hand ⟨false, true⟩ ⟨0, 1, 1, 14⟩ 4 >>= floor ⟨false, true⟩) = .ok (ofInt 6) := by decide +kernel

private theorem tails_loop (cfg : Cfg) (s : Surd) (h : s.RealOk) (hr : s.r ≠ 0) :
    ∃ M k, 0 < k ∧ ∀ n, tails s.val (M + 1 + (n + k)) = tails s.val (M + 1 + n) := by
  have irr := (irrational_iff h).2 hr
  obtain ⟨M, w, h1, h2, h3, h4⟩ := reduced_tail irr (val_conj h hr)
  obtain ⟨z, -, z2, z3, -, z5, -⟩ := hand_value cfg s h hr (M + 1)
  rw [← z5] at h1 h2
  have e := conj_unique ((irrational_iff z2).2 z3) h2 (val_conj z2 z3)
  rw [e] at h3 h4
  obtain ⟨N, m, k1, k2, -⟩ := surd_galois cfg z z2 h1 h3 h4
  obtain ⟨w1, w2, -⟩ := surd_toContfrac_value cfg z z2 z3 N _ (k1 N le_rfl)
  refine ⟨M + 1, m.length + 1, by omega, fun n => ?_⟩
  have := CF.tails_periodic w1 (by simp) k2 (a := [⌊z.val⌋₊]) (p := m ++ [⌊z.val⌋₊]) ⟨by simp, by simp, fun _ => rfl⟩
    (n := n + 1) (by simp) 1
  rw [abs_of_pos (by linarith), z5, tails_tails, tails_tails] at this
  simp only [List.length_append, List.length_singleton, one_mul] at this
  rw [show M + 1 + 1 + (n + (m.length + 1)) = M + 1 + (n + 1 + (m.length + 1)) by omega, this]
  congr 1; omega

private theorem periodic_mul {α : Type} {f : ℕ → α} {M k : ℕ} (h : ∀ n, f (M + (n + k)) = f (M + n)) (n i : ℕ) :
    f (M + (n + i * k)) = f (M + n) := by
  induction i with
  | zero => simp
  | succ i ih => rw [Nat.succ_mul, ← add_assoc n, h, ih]

/-- **C132** Lagrange's theorem: carried out by hand, the expansion of every irrational real surd returns to a surd it has
met before, field by field, and repeats itself from there on. -/
theorem hand_periodic (cfg : Cfg) (s : Surd) (h : s.RealOk) (hr : s.r ≠ 0) :
    ∃ m k, 0 < k ∧ ∀ n, m ≤ n → hand cfg s (n + k) = hand cfg s n := by
  obtain ⟨M, k, hk, hper⟩ := tails_loop cfg s h hr
  choose z h1 h2 h3 h4 h5 _ using hand_value cfg s h hr
  have rpos : 0 < s.r := lt_of_le_of_ne h.real hr.symm
  have bound : ∀ n, (z n).r.toNat < s.r.toNat + 1 := fun n => by
    have := Int.le_of_dvd rpos (h4 n)
    omega
  obtain ⟨i, j, hij, he⟩ := Finite.exists_ne_map_eq_of_infinite
    (fun i : ℕ => (⟨(z (M + 1 + (0 + i * k))).r.toNat, bound _⟩ : Fin (s.r.toNat + 1)))
  wlog hlt : i < j generalizing i j
  · exact this j i hij.symm he.symm (by omega)
  have he' : (z (M + 1 + (0 + i * k))).r = (z (M + 1 + (0 + j * k))).r := by
    have := Fin.mk.inj_iff.1 he
    have a1 := (h2 (M + 1 + (0 + i * k))).real
    have a2 := (h2 (M + 1 + (0 + j * k))).real
    omega
  have hz := stored_unique _ _ (h2 (M + 1 + (0 + i * k))).toNormal (h2 (M + 1 + (0 + j * k))).toNormal (.inl he') (by
    rw [(h2 _).valC, (h2 _).valC, h5, h5, periodic_mul hper, periodic_mul hper])
  refine ⟨M + 1 + (0 + i * k), (j - i) * k, Nat.mul_pos (by omega) hk, fun n hn => ?_⟩
  induction n, hn using Nat.le_induction with
  | base =>
    have e : M + 1 + (0 + i * k) + (j - i) * k = M + 1 + (0 + j * k) := by
      have : i * k + (j - i) * k = j * k := by rw [← Nat.add_mul]; congr 1; omega
      omega
    rw [e, h1, h1, hz]
  | succ n hn ih =>
    rw [show n + 1 + (j - i) * k = (n + (j - i) * k) + 1 by omega]
    simp only [hand, ih]
example : (Surd.mk 0 1 1 7).RealOk ∧ hand ⟨false, true⟩ ⟨0, 1, 1, 7⟩ 5 = hand ⟨false, true⟩ ⟨0, 1, 1, 7⟩ 1 := by
  decide +kernel

private theorem neg_val_ok {x : Surd} (h : x.RealOk) : x.neg.RealOk ∧ x.neg.val = -x.val := by
  obtain ⟨k1, k2⟩ := surd_neg_value ⟨false, true⟩ x (h.toOk _)
  exact real_transfer k2.toNormal (by rw [k1, h.valC]; push_cast; rfl)

/-- **C132** Every irrational real surd is the value of a periodic continued fraction of the library's type, also where
`to_contfrac` never ends, as on `3 - √2`, or returns something else. -/
theorem hand_lagrange (s : Surd) (h : s.RealOk) (hr : s.r ≠ 0) : ∃ c : CF, c.Wf ∧ c.p ≠ [] ∧ c.HasVal s.val := by
  have irr : Irrational |s.val| := by
    have := (irrational_iff h).2 hr
    rcases abs_cases s.val with ⟨e, -⟩ | ⟨e, -⟩ <;> rw [e]
    · exact this
    · exact this.neg
  obtain ⟨M, k, hk, hper⟩ : ∃ M k, 0 < k ∧ ∀ n, tails |s.val| (M + 1 + (n + k)) = tails |s.val| (M + 1 + n) := by
    rcases abs_cases s.val with ⟨e, -⟩ | ⟨e, -⟩ <;> rw [e]
    · exact tails_loop ⟨false, true⟩ s h hr
    · obtain ⟨k1, k2⟩ := neg_val_ok h
      rw [← k2]
      exact tails_loop ⟨false, true⟩ s.neg k1 hr
  have nn : ∀ n, 0 ≤ regc |s.val| n := fun n => by
    cases n with
    | zero => exact Int.floor_nonneg.2 (abs_nonneg _)
    | succ n => linarith [regc_pos irr n]
  have one : ∀ n, 1 ≤ (regc |s.val| (n + 1)).toNat := fun n => by have := regc_pos irr n; omega
  have rper : ∀ n, regc |s.val| (M + 1 + (n + k)) = regc |s.val| (M + 1 + n) := fun n => by
    unfold regc; rw [hper]
  let d := fun n => (regc |s.val| n).toNat
  let c : CF := ⟨(List.range (M + 1)).map d, (List.range k).map (fun n => d (M + 1 + n)), decide (s.val < 0)⟩
  have hw : c.Wf := by
    refine ⟨by simp [c], fun v hv => ?_, fun v hv => ?_⟩
    · simp only [c, List.range_succ_eq_map, List.map_cons, List.tail_cons, List.map_map, List.mem_map] at hv
      obtain ⟨n, -, rfl⟩ := hv
      exact one n
    · simp only [c, List.mem_map] at hv
      obtain ⟨n, -, rfl⟩ := hv
      have := one (M + n)
      rwa [show M + n + 1 = M + 1 + n by omega] at this
  have hp : c.p ≠ [] := by simp [c]; omega
  have co : ∀ n, coeffAt c.a c.p n = d n := fun n => by
    unfold coeffAt
    simp only [c, List.length_map, List.length_range]
    split
    · rename_i hn
      simp [List.getD_eq_getElem?_getD, List.getElem?_range hn]
    · rename_i hn
      have hm := Nat.mod_lt (n - (M + 1)) hk
      simp only [List.getD_eq_getElem?_getD, List.getElem?_map, List.getElem?_range hm, Option.map_some, Option.getD_some]
      have := periodic_mul rper ((n - (M + 1)) % k) ((n - (M + 1)) / k)
      rw [Nat.mod_add_div'] at this
      simp only [d, ← this]
      congr 2; omega
  refine ⟨c, hw, hp, (CF.hasVal_periodic hw hp).2 ?_⟩
  have : coeffAt (toInts c.a) (toInts c.p) = regc |s.val| := funext fun n => by
    rw [show coeffAt (toInts c.a) (toInts c.p) n = ((coeffAt c.a c.p n : ℕ) : ℤ) from
      coeffAt_map (fun n : Nat => (n : Int)) rfl c.a c.p n, co]
    exact Int.toNat_of_nonneg (nn n)
  rw [this, regc_lim irr]
  simp only [c, signed]
  by_cases h0 : s.val < 0
  · rw [if_pos (by simpa using h0), abs_of_neg h0, neg_neg]
  · rw [if_neg (by simpa using h0), abs_of_nonneg (not_lt.1 h0)]
example : (Surd.mk 3 (-1) 1 2).RealOk ∧ (Surd.mk 3 (-1) 1 2).r ≠ 0 ∧
    hand ⟨false, true⟩ ⟨3, -1, 1, 2⟩ 3 = .ok ⟨1, 1, 1, 2⟩ ∧ hand ⟨false, true⟩ ⟨3, -1, 1, 2⟩ 4 = .ok ⟨1, 1, 1, 2⟩ := by
  decide +kernel

end Surd
end NumIrr
