/-
Purely periodic fractions and reduced quadratic numbers.
-/
import Verif.Spec.Galois
import Verif.Lemmas.CFShort

namespace NumIrr

/-- two pairs of conjugates of the same irrational number -/
theorem ConjRoots.unique {x y z : ℝ} (hx : Irrational x) (h : ConjRoots x y) (h' : ConjRoots x z) : y = z := by
  obtain ⟨hy, A, B, C, hA, a1, a2⟩ := h
  obtain ⟨hz, A', B', C', hA', b1, b2⟩ := h'
  have e : (A * B' - A' * B : ℤ) * x + (A * C' - A' * C : ℤ) = 0 := by push_cast; linear_combination A * b1 - A' * a1
  have e0 : (A * B' - A' * B : ℤ) = 0 := by
    by_contra hne
    apply hx
    have hne' : ((A * B' - A' * B : ℤ) : ℝ) ≠ 0 := by exact_mod_cast hne
    refine ⟨-((A * C' - A' * C : ℤ) : ℚ) / ((A * B' - A' * B : ℤ) : ℚ), ?_⟩
    rw [Rat.cast_div, Rat.cast_neg, Rat.cast_intCast, Rat.cast_intCast, div_eq_iff hne']
    linarith
  have e1 : (A : ℝ) * B' = A' * B := by
    have : A * B' = A' * B := by linarith
    exact_mod_cast this
  have s1 : (A : ℝ) * (x + y) + B = 0 := by
    apply mul_left_cancel₀ (sub_ne_zero.2 hy)
    linear_combination a1 - a2
  have s2 : (A' : ℝ) * (x + z) + B' = 0 := by
    apply mul_left_cancel₀ (sub_ne_zero.2 hz)
    linear_combination b1 - b2
  have hA0 : (A : ℝ) ≠ 0 := by exact_mod_cast hA
  have hA0' : (A' : ℝ) ≠ 0 := by exact_mod_cast hA'
  apply mul_left_cancel₀ (mul_ne_zero hA0 hA0')
  linear_combination A' * s1 - A * s2 + e1

/-- `w = [l₀; l₁, …, z]` with no division by zero on the way -/
inductive Ch : List ℕ → ℝ → ℝ → Prop
  | nil (z : ℝ) : Ch [] z z
  | cons {a : ℕ} {l : List ℕ} {u z : ℝ} : u ≠ 0 → Ch l u z → Ch (a :: l) (a + 1 / u) z

theorem Ch.concat {l : List ℕ} {w u : ℝ} {a : ℕ} {z : ℝ} (h : Ch l w u) (hz : z ≠ 0) (hu : u = a + 1 / z) :
    Ch (l ++ [a]) w z := by
  induction h with
  | nil u => subst hu; exact .cons hz (.nil z)
  | cons h0 _ ih => exact .cons h0 (ih hu)

theorem ch_chain {l : List ℕ} (h : ∀ v ∈ l, 1 ≤ v) {z : ℝ} (hz : 0 < z) : Ch l (chain l z) z := by
  induction l with
  | nil => exact .nil z
  | cons a l ih =>
    have h' : ∀ v ∈ l, 1 ≤ v := fun v hv => h v (List.mem_cons_of_mem _ hv)
    exact .cons (chain_pos h' hz).ne' (ih h')

/-- reading the coefficients backwards -/
theorem ch_rev {l : List ℕ} (h : ∀ v ∈ l, 1 ≤ v) {y : ℝ} (hy : 0 < y) : Ch l.reverse (-1 / y) (-1 / chain l y) := by
  induction l with
  | nil => exact .nil _
  | cons a l ih =>
    have h' : ∀ v ∈ l, 1 ≤ v := fun v hv => h v (List.mem_cons_of_mem _ hv)
    have h1 := chain_pos h hy
    have h2 := chain_pos h' hy
    rw [List.reverse_cons]
    refine (ih h').concat (div_ne_zero (by norm_num) h1.ne') ?_
    have e : chain (a :: l) y = a + 1 / chain l y := rfl
    rw [one_div_div, e]
    field_simp
    ring

/-- both ends of a chain satisfy a bilinear equation with integer coefficients -/
theorem Ch.bilinear {l : List ℕ} (hl : l ≠ []) (hpos : ∀ v ∈ l, 1 ≤ v) :
    ∃ A B C D : ℤ, 0 < A ∧ ∀ w z, Ch l w z → w * (A * z + B) = C * z + D := by
  suffices h : ∃ A B C D : ℤ, 0 ≤ A ∧ 0 < C ∧ (l ≠ [] → 0 < A) ∧ ∀ w z, Ch l w z → w * (A * z + B) = C * z + D by
    obtain ⟨A, B, C, D, -, -, h1, h2⟩ := h
    exact ⟨A, B, C, D, h1 hl, h2⟩
  clear hl
  induction l with
  | nil =>
    refine ⟨0, 1, 1, 0, le_rfl, one_pos, fun h => absurd rfl h, fun w z h => ?_⟩
    cases h; simp
  | cons a l ih =>
    obtain ⟨A, B, C, D, h1, h2, -, h3⟩ := ih fun v hv => hpos v (List.mem_cons_of_mem _ hv)
    have ha : 1 ≤ a := hpos a List.mem_cons_self
    have ha' : (1 : ℤ) ≤ a := by exact_mod_cast ha
    refine ⟨C, D, a * C + A, a * D + B, h2.le, by nlinarith, fun _ => h2, fun w z h => ?_⟩
    cases h with
    | @cons _ _ u _ h0 h =>
      have := h3 u z h
      push_cast
      field_simp
      linear_combination -this

/-- the value of a purely periodic fraction and that of the reversed one are conjugate up to `y ↦ -1/y` -/
theorem pure_conj {l : List ℕ} (hl : l ≠ []) (h : ∀ v ∈ l, 1 ≤ v) {v y : ℝ} (hv : ValOf [] (toInts l) v)
    (hy : ValOf [] (toInts l.reverse) y) : 1 < v ∧ 1 < y ∧ ConjRoots v (-1 / y) := by
  have hl' : l.reverse ≠ [] := by simpa using hl
  have h' : ∀ v ∈ l.reverse, 1 ≤ v := fun v hv => h v (List.mem_reverse.1 hv)
  obtain ⟨z, z1, z2, z3⟩ := periodic_fix hl h
  obtain rfl := valOf_unique hv z2
  obtain ⟨z, y1, y2, y3⟩ := periodic_fix hl' h'
  obtain rfl := valOf_unique hy y2
  have hv0 : 0 < v := by linarith
  have hy0 : 0 < y := by linarith
  have hneg : -1 / y < 0 := div_neg_of_neg_of_pos (by norm_num) hy0
  obtain ⟨A, B, C, D, hA, hb⟩ := Ch.bilinear hl h
  have c1 := ch_chain h hv0
  have c2 := ch_rev h' hy0
  rw [← z3] at c1
  rw [← y3, List.reverse_reverse] at c2
  have e1 := hb _ _ c1
  have e2 := hb _ _ c2
  refine ⟨z1, y1, by linarith, A, B - C, -D, hA.ne', ?_, ?_⟩
  · push_cast; linear_combination e1
  · push_cast; linear_combination e2

namespace CF

variable {c : CF} {l : List ℕ}

theorem Pure.pos (hw : c.Wf) (hp : c.p ≠ []) (h : c.Pure l) : ∀ v ∈ l, 1 ≤ v := by
  intro v hv
  obtain ⟨i, hi, rfl⟩ := List.mem_iff_getElem.1 hv
  have h1 := h.2 (0 + i + 1 * l.length)
  rw [coeff_periodic [] (by simp), Nat.zero_add, coeffAt_period_lt _ hi] at h1
  have h2 := wf_posSeq hw hp (i + 1 * l.length - 1)
  rw [show i + 1 * l.length - 1 + 1 = i + 1 * l.length by have := List.length_pos_iff.2 h.1; omega] at h2
  have h3 : coeffAt (toInts c.a) (toInts c.p) (i + 1 * l.length) = ((coeffAt c.a c.p (i + 1 * l.length) : ℕ) : ℤ) :=
    coeffAt_map (fun n : Nat => (n : Int)) rfl c.a c.p _
  rw [h3, h1] at h2
  exact_mod_cast h2

theorem Pure.val (hw : c.Wf) (hp : c.p ≠ []) (h : c.Pure l) {v : ℝ} (hv : c.HasVal v) :
    ValOf [] (toInts l) |v| := by
  obtain ⟨-, -, -, h1, -⟩ := coeff_of_val hw hp hv
  have h2 : coeffAt (toInts c.a) (toInts c.p) = coeffAt [] (toInts l) := by
    funext n
    have e1 : coeffAt (toInts c.a) (toInts c.p) n = ((coeffAt c.a c.p n : ℕ) : ℤ) :=
      coeffAt_map (fun n : Nat => (n : Int)) rfl c.a c.p n
    have e2 : coeffAt [] (toInts l) n = ((coeffAt [] l n : ℕ) : ℤ) :=
      coeffAt_map (fun n : Nat => (n : Int)) rfl [] l n
    rw [e1, e2, h.2 n]
  rw [h1, h2]
  exact valOf_cfLim (toInts_ne_nil h.1) (h2 ▸ wf_posSeq hw hp)

end CF

namespace Lagrange

/-- a reduced number as a state -/
theorem reduced_state {v w : ℝ} (hirr : Irrational v) (h : ConjRoots v w) (h1 : 1 < v) (h2 : w < 0) (h3 : -1 < w) :
    ∃ d rd p q, Root d rd ∧ Red d rd p q ∧ v = th d p q := by
  obtain ⟨hne, A, B, C, hA, e1, e2⟩ := h
  wlog hpos : 0 < A generalizing A B C
  · exact this (-A) (-B) (-C) (by simpa using hA) (by push_cast; linarith) (by push_cast; linarith) (by omega)
  have hAR : (0 : ℝ) < A := by exact_mod_cast hpos
  have s1 : (A : ℝ) * (v + w) + B = 0 := by
    apply mul_left_cancel₀ (sub_ne_zero.2 hne)
    linear_combination e1 - e2
  have s2 : (A : ℝ) * v * w = C := by linear_combination v * s1 - e1
  have hd : ((B * B - 4 * A * C : ℤ) : ℝ) = (A * (v - w)) * (A * (v - w)) := by
    push_cast
    have : (B : ℝ) = -(A * (v + w)) := by linarith
    rw [this, ← s2]; ring
  have hroot : √((B * B - 4 * A * C : ℤ) : ℝ) = A * (v - w) := by
    rw [hd]; exact Real.sqrt_mul_self (mul_nonneg hAR.le (by linarith))
  have hns : ¬ IsSquare (B * B - 4 * A * C) := by
    rintro ⟨k, hk⟩
    rw [hk] at hroot
    push_cast at hroot
    rw [Real.sqrt_mul_self_eq_abs] at hroot
    apply hirr
    refine ⟨(((|k| - B : ℤ) : ℚ) / ((2 * A : ℤ) : ℚ)), ?_⟩
    rw [Rat.cast_div, Rat.cast_intCast, Rat.cast_intCast, div_eq_iff (by push_cast; positivity)]
    push_cast
    rw [hroot]; linarith
  have h0 : 0 ≤ B * B - 4 * A * C := by
    have : (0 : ℝ) ≤ ((B * B - 4 * A * C : ℤ) : ℝ) := by rw [hd]; exact mul_self_nonneg _
    exact_mod_cast this
  have hr := root_isqrt h0 hns
  have hv : Valid (B * B - 4 * A * C) (-B) (2 * A) := ⟨by omega, ⟨-2 * C, by ring⟩⟩
  have t1 : v = th (B * B - 4 * A * C) (-B) (2 * A) := by
    unfold th; rw [hroot]; push_cast; field_simp; linarith
  have t2 : w = thc (B * B - 4 * A * C) (-B) (2 * A) := by
    unfold thc; rw [hroot]; push_cast; field_simp; linarith
  exact ⟨_, _, _, _, hr, ⟨hv, (isReduced_iff hr hv).2 (by rw [← t1, ← t2]; exact ⟨h1, h2, h3⟩)⟩, t1⟩

end Lagrange
end NumIrr
