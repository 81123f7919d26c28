/-
C109: Galois' theorem on purely periodic fractions.
-/
import Verif.Props.SurdShort
import Verif.Lemmas.Galois

namespace NumIrr
open Lagrange

namespace CF

private theorem pure_of_reduced {c : CF} (h : c.Wf) (hp : c.p ≠ []) {v w : ℝ} (hv : c.HasVal v)
    (hc : ConjRoots v w) (h1 : 1 < v) (h2 : -1 < w) (h3 : w < 0) : ∃ l, c.Pure l := by
  obtain ⟨-, hirr, -, -, hco⟩ := coeff_of_val h hp hv
  rw [abs_of_pos (by linarith)] at hirr hco
  obtain ⟨d, rd, p, q, hr, hred, e⟩ := reduced_state hirr hc h1 h3 h2
  obtain ⟨ns, n1, n2, -, n3⟩ := period_spec hr hred
  rw [← e] at n3
  have hne : toInts ns ≠ [] := toInts_ne_nil n1
  have hps : PosSeq (coeffAt [] (toInts ns)) := fun n => by
    have := coeffAt_mem [] (toInts ns) hne (n := n + 1) (by simp)
    obtain ⟨m, hm, e⟩ := List.mem_map.1 this
    rw [← e]; exact_mod_cast n2 m hm
  have hlim := (valOf_iff hne hps).1 n3
  refine ⟨ns, n1, fun n => ?_⟩
  have e1 := hco n
  rw [hlim, (tails_cfLim hps n).1, (tails_cfLim hps n).2] at e1
  have e2 : coeffAt [] (toInts ns) n = ((coeffAt [] ns n : ℕ) : ℤ) :=
    coeffAt_map (fun n : Nat => (n : Int)) rfl [] ns n
  rw [e2] at e1
  exact_mod_cast e1

/-- **C109** Galois' theorem: a periodic fraction is periodic from its first coefficient on exactly when its value is
greater than `1` and the conjugate of its value is between `-1` and `0`. -/
theorem cf_galois (c : CF) (h : c.Wf) (hp : c.p ≠ []) (v w : ℝ) (hv : c.HasVal v) (hc : ConjRoots v w) :
    (c.neg = false ∧ ∃ l, c.Pure l) ↔ 1 < v ∧ -1 < w ∧ w < 0 := by
  obtain ⟨h0, hirr, hneg, -, -⟩ := coeff_of_val h hp hv
  constructor
  · rintro ⟨hn, l, hl⟩
    have hv0 : 0 < v := by
      rw [hn] at hneg
      have := of_decide_eq_false hneg.symm
      exact lt_of_le_of_ne (not_lt.1 this) (Ne.symm h0)
    rw [abs_of_pos hv0] at hirr
    have hval := hl.val h hp hv
    rw [abs_of_pos hv0] at hval
    have hpos := hl.pos h hp
    obtain ⟨y, -, hy, -⟩ := periodic_fix (p := l.reverse) (by simpa using hl.1) fun v hv => hpos v (List.mem_reverse.1 hv)
    obtain ⟨k1, k2, k3⟩ := pure_conj hl.1 hpos hval hy
    obtain rfl := hc.unique hirr k3
    refine ⟨k1, ?_, div_neg_of_neg_of_pos (by norm_num) (by linarith)⟩
    rw [lt_div_iff₀ (by linarith)]; linarith
  · rintro ⟨h1, h2, h3⟩
    refine ⟨?_, pure_of_reduced h hp hv hc h1 h2 h3⟩
    rw [hneg]; exact decide_eq_false (by linarith)

/-- **C109** the fraction with the period read backwards: if `c` repeats `l` from its first coefficient on, the fraction
that repeats `l` reversed has the value `-1/w`, where `w` is the conjugate of the value of `c`. -/
theorem cf_galois_reverse (c c' : CF) (h : c.Wf) (hp : c.p ≠ []) (h' : c'.Wf) (hp' : c'.p ≠ []) (l : List ℕ)
    (hl : c.Pure l) (hl' : c'.Pure l.reverse) (hn : c.neg = false) (hn' : c'.neg = false) (v w : ℝ) (hv : c.HasVal v)
    (hc : ConjRoots v w) : c'.HasVal (-1 / w) := by
  obtain ⟨h0, hirr, hneg, -, -⟩ := coeff_of_val h hp hv
  have hv0 : 0 < v := by
    rw [hn] at hneg
    have := of_decide_eq_false hneg.symm
    exact lt_of_le_of_ne (not_lt.1 this) (Ne.symm h0)
  rw [abs_of_pos hv0] at hirr
  have hval := hl.val h hp hv
  rw [abs_of_pos hv0] at hval
  have hps := wf_posSeq h' hp'
  have hv' := valOf_cfLim (toInts_ne_nil hp') hps
  have hpos' := wf_val_pos h' hp' hv'
  have hc' : c'.HasVal (cfLim (coeffAt (toInts c'.a) (toInts c'.p))) := ⟨_, hv', by rw [hn']; rfl⟩
  have hy := hl'.val h' hp' hc'
  rw [abs_of_pos hpos'] at hy
  obtain ⟨-, k2, k3⟩ := pure_conj hl.1 (hl.pos h hp) hval hy
  obtain rfl := hc.unique hirr k3
  have hne : cfLim (coeffAt (toInts c'.a) (toInts c'.p)) ≠ 0 := by linarith
  rwa [show -1 / (-1 / cfLim (coeffAt (toInts c'.a) (toInts c'.p))) = cfLim (coeffAt (toInts c'.a) (toInts c'.p)) by
    field_simp]

theorem coeff_rotate (a0 : ℕ) (m : List ℕ) (n : ℕ) : coeffAt [a0] (m ++ [a0]) n = coeffAt [] (a0 :: m) n := by
  cases n with
  | zero => simp [coeffAt]
  | succ n =>
    have hL : (m ++ [a0]).length = m.length + 1 := by simp
    unfold coeffAt
    rw [if_neg (by simp), if_neg (by simp)]
    simp only [List.length_cons, List.length_nil, hL, Nat.zero_add, Nat.add_sub_cancel, Nat.sub_zero]
    have hk : n % (m.length + 1) < m.length + 1 := Nat.mod_lt n (Nat.succ_pos m.length)
    rcases Nat.lt_or_eq_of_le (Nat.lt_succ_iff.1 hk) with h | h
    · rw [show (n + 1) % (m.length + 1) = n % (m.length + 1) + 1 by
        rw [Nat.add_mod, Nat.mod_eq_of_lt (show 1 < m.length + 1 by omega), Nat.mod_eq_of_lt (by omega)]]
      simp [List.getD_eq_getElem?_getD, List.getElem?_append_left h]
    · rw [show (n + 1) % (m.length + 1) = 0 by
        rw [← Nat.mod_add_mod, h, Nat.mod_self], h]
      simp

/-- **C109** how a fraction with the fewest coefficients before the period is written when it is periodic from its first
coefficient on: that coefficient comes once before the period and again at the end of it. -/
theorem cf_pure_shape (c : CF) (h : c.Wf) (hp : c.p ≠ []) (h1 : c.ShortestHead) :
    (∃ l, c.Pure l) ↔ ∃ a0 m, c.a = [a0] ∧ c.p = m ++ [a0] := by
  have hpl : 1 ≤ c.p.length := List.length_pos_iff.2 hp
  constructor
  · rintro ⟨l, hl⟩
    have hll : 1 ≤ l.length := List.length_pos_iff.2 hl.1
    have hlen : c.a.length = 1 := by
      obtain ⟨x, m, rfl⟩ := List.exists_cons_of_ne_nil hl.1
      have h2 : c.SameCoeffs [x] (m ++ [x]) := ⟨by simp, by simp, fun n => by rw [coeff_rotate, hl.2]⟩
      have h3 := h1 _ _ h2
      have h4 := List.length_pos_iff.2 h.1
      simp at h3
      omega
    obtain ⟨a0, ha⟩ := List.length_eq_one_iff.1 hlen
    refine ⟨a0, c.p.dropLast, ha, ?_⟩
    have e : c.p.getLast hp = a0 := by
      have e1 := hl.2 (0 + c.p.length * l.length)
      rw [coeff_periodic [] (by simp), ← hl.2 0] at e1
      have e2 := coeff_periodic c.a (p := c.p) (n := c.p.length) (by omega) (l.length - 1)
      rw [show c.p.length + (l.length - 1) * c.p.length = 0 + c.p.length * l.length by
        obtain ⟨k, hk⟩ : ∃ k, l.length = k + 1 := ⟨l.length - 1, by omega⟩
        rw [hk]; simp; ring, e1] at e2
      rw [coeffAt_lt _ _ (by omega), show c.p.length = c.a.length + (c.p.length - 1) by omega, coeffAt_add,
        coeffAt_period_lt _ (by omega)] at e2
      rw [List.getLast_eq_getElem, ← e2]
      simp [ha]
    rw [← e]; exact (List.dropLast_concat_getLast hp).symm
  · rintro ⟨a0, m, e1, e2⟩
    exact ⟨a0 :: m, by simp, fun n => by rw [e1, e2, coeff_rotate]⟩

example : Pure ⟨[3], [2, 1, 3], false⟩ [3, 2, 1] ∧ Pure ⟨[1], [2, 3, 1], false⟩ [3, 2, 1].reverse :=
  ⟨⟨by simp, fun n => coeff_rotate 3 [2, 1] n⟩, ⟨by simp, fun n => coeff_rotate 1 [2, 3] n⟩⟩

example : Wf ⟨[3], [2, 1, 3], false⟩ ∧ ConjRoots ((4 + √37) / 3) ((4 - √37) / 3) := by
  have h : √(37 : ℝ) * √37 = 37 := Real.mul_self_sqrt (by norm_num)
  have h0 : 0 < √(37 : ℝ) := Real.sqrt_pos.2 (by norm_num)
  refine ⟨by simp [Wf], fun e => by linarith, 3, -8, -7, by norm_num, ?_, ?_⟩ <;> push_cast <;> linarith

end CF

namespace Surd

theorem val_conj {s : Surd} (h : s.RealOk) (hr : s.r ≠ 0) : ConjRoots s.val s.conjVal := by
  have hcR : (s.c : ℝ) ≠ 0 := by exact_mod_cast h.c_pos.ne'
  have hb : (s.b : ℝ) ≠ 0 := by exact_mod_cast fun e => hr (h.rational.1 e)
  have hr0 : (0 : ℝ) < s.r := by exact_mod_cast lt_of_le_of_ne h.real (Ne.symm hr)
  have hsq : √(s.r : ℝ) * √(s.r : ℝ) = s.r := Real.mul_self_sqrt hr0.le
  have h0 : √(s.r : ℝ) ≠ 0 := (Real.sqrt_pos.2 hr0).ne'
  refine ⟨fun e => ?_, s.c * s.c, -(2 * s.a * s.c), s.a * s.a - s.b * s.b * s.r, mul_ne_zero h.c_pos.ne' h.c_pos.ne', ?_, ?_⟩
  · unfold val conjVal quadR at e
    push_cast at e
    rw [div_left_inj' hcR] at e
    exact mul_ne_zero hb h0 (by linarith)
  · unfold val quadR
    push_cast
    field_simp
    linear_combination (s.b : ℝ) ^ 2 * hsq
  · unfold conjVal quadR
    push_cast
    field_simp
    linear_combination (s.b : ℝ) ^ 2 * hsq

/-- **C109** a surd greater than `1` with a conjugate between `-1` and `0` is converted, after finitely many steps, to a
fraction `[a₀; (m, a₀)]` where `a₀` is its integer part; and the fraction with the period `a₀, m` read backwards has the
value `-1/s'` where `s'` is the conjugate. -/
theorem surd_galois (cfg : Cfg) (s : Surd) (h : s.RealOk) (h1 : 1 < s.val) (h2 : -1 < s.conjVal) (h3 : s.conjVal < 0) :
    ∃ N m, (∀ fuel, N ≤ fuel → s.toContfrac cfg fuel = some (.ok (some ⟨[⌊s.val⌋₊], m ++ [⌊s.val⌋₊], false⟩))) ∧
      CF.HasVal ⟨[⌊s.val⌋₊], m ++ [⌊s.val⌋₊], false⟩ s.val ∧
      ∀ a0 m', (a0 :: m') = (⌊s.val⌋₊ :: m).reverse → CF.HasVal ⟨[a0], m' ++ [a0], false⟩ (-1 / s.conjVal) := by
  have hr : s.r ≠ 0 := fun e => by
    have hb := h.rational.2 e
    unfold val at h1
    unfold conjVal at h3
    rw [hb] at h1 h3
    rw [neg_zero] at h3
    linarith
  have hcR : (0 : ℝ) < s.c := by exact_mod_cast h.c_pos
  have hr0 : (0 : ℝ) < s.r := by exact_mod_cast lt_of_le_of_ne h.real (Ne.symm hr)
  have hsq : √(s.r : ℝ) * √(s.r : ℝ) = s.r := Real.mul_self_sqrt hr0.le
  have hn : s.a * s.a < s.r * s.b * s.b := by
    have e : s.val * s.conjVal * (s.c * s.c) = ((s.a * s.a - s.r * s.b * s.b : ℤ) : ℝ) := by
      unfold val conjVal quadR
      push_cast
      field_simp
      linear_combination -(s.b : ℝ) ^ 2 * hsq
    have : ((s.a * s.a - s.r * s.b * s.b : ℤ) : ℝ) < 0 := by
      rw [← e]
      exact mul_neg_of_neg_of_pos (mul_neg_of_pos_of_neg (by linarith) h3) (mul_pos hcR hcR)
    have : s.a * s.a - s.r * s.b * s.b < 0 := by exact_mod_cast this
    linarith
  obtain ⟨N, c, k1, k2, k3, -, k4⟩ := surd_toContfrac_returns_partial cfg s h hn
  obtain ⟨k5, -⟩ := surd_toContfrac_shortest_neg_conj cfg s h hn N c (k1 N le_rfl)
  have hconj := val_conj h hr
  obtain ⟨g1, l, g2⟩ := (CF.cf_galois c k2 k3 _ _ k4 hconj).2 ⟨h1, h2, h3⟩
  obtain ⟨a0, m, e1, e2⟩ := (CF.cf_pure_shape c k2 k3 k5).1 ⟨l, g2⟩
  have ec : c = ⟨[a0], m ++ [a0], false⟩ := by
    obtain ⟨a, p, n⟩ := c
    simp only at e1 e2 g1
    rw [e1, e2, g1]
  have ea : a0 = ⌊s.val⌋₊ := by
    have := (CF.coeff_of_val k2 k3 k4).2.2.2.2 0
    rw [e1, abs_of_pos (by linarith)] at this
    change (a0 : ℤ) = ⌊s.val⌋ at this
    rw [← Int.floor_toNat, ← this]; rfl
  subst ea
  subst ec
  refine ⟨N, m, k1, k4, fun a0' m' e => ?_⟩
  have hpos : ∀ v ∈ ⌊s.val⌋₊ :: m, 1 ≤ v := fun v hv => by
    have := k2.2.2 v
    apply this
    simp only [List.mem_append, List.mem_cons] at hv ⊢
    tauto
  have hpos' : ∀ v ∈ m' ++ [a0'], 1 ≤ v := fun v hv => by
    apply hpos
    rw [← List.mem_reverse, ← e]
    simp only [List.mem_append, List.mem_cons] at hv ⊢
    tauto
  refine CF.cf_galois_reverse _ ⟨[a0'], m' ++ [a0'], false⟩ k2 k3 ⟨by simp, by simp, hpos'⟩ (by simp)
    (⌊s.val⌋₊ :: m) ⟨by simp, fun n => CF.coeff_rotate _ _ _⟩ ?_ rfl rfl _ _ k4 hconj
  rw [← e]
  exact ⟨by simp, fun n => CF.coeff_rotate _ _ _⟩

/-- **C109** conversely, a surd that is converted to a fraction `[a₀; (m, a₀)]` of the same value is greater than `1` and
its conjugate is between `-1` and `0`. -/
theorem surd_galois_converse (cfg : Cfg) (s : Surd) (h : s.RealOk) (hr : s.r ≠ 0) (fuel : ℕ) (a0 : ℕ) (m : List ℕ)
    (hc : s.toContfrac cfg fuel = some (.ok (some ⟨[a0], m ++ [a0], false⟩)))
    (hv : CF.HasVal ⟨[a0], m ++ [a0], false⟩ s.val) : 1 < s.val ∧ -1 < s.conjVal ∧ s.conjVal < 0 := by
  obtain ⟨k1, k2, -⟩ := surd_toContfrac_value cfg s h hr fuel _ hc
  exact (CF.cf_galois _ k1 k2 _ _ hv (val_conj h hr)).1 ⟨rfl, a0 :: m, by simp, fun n => CF.coeff_rotate _ _ _⟩

example : RealOk ⟨4, 1, 3, 37⟩ ∧
    toContfrac ⟨false, true⟩ 20 ⟨4, 1, 3, 37⟩ = some (.ok (some ⟨[3], [2, 1, 3], false⟩)) := by decide +kernel
example : 1 < val ⟨4, 1, 3, 37⟩ ∧ -1 < conjVal ⟨4, 1, 3, 37⟩ ∧ conjVal ⟨4, 1, 3, 37⟩ < 0 := by
  have h1 : (6 : ℝ) < √37 := Real.lt_sqrt_of_sq_lt (by norm_num)
  have h2 : √(37 : ℝ) < 7 := (Real.sqrt_lt' (by norm_num)).2 (by norm_num)
  unfold val conjVal quadR
  norm_num
  refine ⟨?_, ?_, ?_⟩ <;> linarith

end Surd
end NumIrr
