/-
The steps of the expansion of quadratic irrationals `(p + √d)/q`.
-/
import Verif.Model.CFSurd
import Mathlib.Analysis.Real.Sqrt
import Mathlib.Tactic.FieldSimp
import Mathlib.Tactic.LinearCombination
import Mathlib.Tactic.Linarith
import Mathlib.Tactic.Ring

namespace NumIrr
namespace Lagrange

/-- `rd` is the integer square root of the non-square `d` -/
structure Root (d rd : ℤ) : Prop where
  pos : 1 ≤ rd
  lo : rd * rd < d
  hi : d < (rd + 1) * (rd + 1)

/-- `q ∣ d - p²`, `q ≠ 0` -/
structure Valid (d p q : ℤ) : Prop where
  ne : q ≠ 0
  dvd : q ∣ d - p * p

/-- `(p + √d)/q` -/
noncomputable def th (d p q : ℤ) : ℝ := (p + √(d : ℝ)) / q
/-- its conjugate -/
noncomputable def thc (d p q : ℤ) : ℝ := (p - √(d : ℝ)) / q

variable {d rd p q : ℤ}

namespace Root

theorem dpos (h : Root d rd) : 0 < d := by have := h.lo; have := h.pos; nlinarith

theorem sq (h : Root d rd) : √(d : ℝ) * √(d : ℝ) = d :=
  Real.mul_self_sqrt (by exact_mod_cast h.dpos.le)

theorem lt (h : Root d rd) : (rd : ℝ) < √(d : ℝ) := by
  apply Real.lt_sqrt_of_sq_lt
  have := h.lo
  rw [_root_.sq]
  exact_mod_cast this

theorem gt (h : Root d rd) : √(d : ℝ) < rd + 1 := by
  have h1 := h.pos
  have h2 : (0 : ℝ) < rd + 1 := by
    have : (1 : ℝ) ≤ rd := by exact_mod_cast h1
    linarith
  rw [Real.sqrt_lt' h2, _root_.sq]
  exact_mod_cast h.hi

/-- no integer equals the root -/
theorem ne_int (h : Root d rd) (n : ℤ) : √(d : ℝ) ≠ n := by
  intro e
  have h1 := h.lt
  have h2 := h.gt
  rw [e] at h1 h2
  have h1 : rd < n := by exact_mod_cast h1
  have h2 : n < rd + 1 := by exact_mod_cast h2
  omega

theorem lt_iff (h : Root d rd) (n : ℤ) : √(d : ℝ) < n ↔ rd < n := by
  constructor
  · intro hn
    have := h.lt.trans hn
    exact_mod_cast this
  · intro hn
    refine lt_of_lt_of_le h.gt ?_
    exact_mod_cast hn

theorem gt_iff (h : Root d rd) (n : ℤ) : (n : ℝ) < √(d : ℝ) ↔ n ≤ rd := by
  constructor
  · intro hn
    have := hn.trans h.gt
    have : n < rd + 1 := by exact_mod_cast this
    omega
  · intro hn
    refine lt_of_le_of_lt ?_ h.lt
    exact_mod_cast hn

theorem nsq (h : Root d rd) (n : ℤ) : d ≠ n * n := by
  rintro rfl
  have h1 := h.lo
  have h2 := h.hi
  have h3 := h.pos
  have h4 : |rd| < |n| := by rw [← sq_lt_sq, pow_two, pow_two]; exact h1
  have h5 : |n| < |rd + 1| := by rw [← sq_lt_sq, pow_two, pow_two]; exact h2
  rw [abs_of_pos (by omega : 0 < rd)] at h4
  rw [abs_of_pos (by omega : 0 < rd + 1)] at h5
  omega

end Root

theorem Valid.neR (h : Valid d p q) : (q : ℝ) ≠ 0 := by exact_mod_cast h.ne

theorem th_ne_int (hr : Root d rd) (h : Valid d p q) (k : ℤ) : th d p q ≠ k := by
  intro e
  unfold th at e
  rw [div_eq_iff h.neR] at e
  refine hr.ne_int (k * q - p) ?_
  push_cast
  linarith

theorem thc_ne_int (hr : Root d rd) (h : Valid d p q) (k : ℤ) : thc d p q ≠ k := by
  intro e
  unfold thc at e
  rw [div_eq_iff h.neR] at e
  refine hr.ne_int (p - k * q) ?_
  push_cast
  linarith

/-- the sign of `q` orders the number and its conjugate -/
theorem q_pos_iff (hr : Root d rd) (h : Valid d p q) : 0 < q ↔ thc d p q < th d p q := by
  have hs : 0 < √(d : ℝ) := Real.sqrt_pos.2 (by exact_mod_cast hr.dpos)
  have e : th d p q - thc d p q = 2 * √(d : ℝ) / q := by unfold th thc; ring
  constructor
  · intro hq
    have : (0 : ℝ) < q := by exact_mod_cast hq
    have : 0 < 2 * √(d : ℝ) / q := by positivity
    linarith
  · intro hlt
    by_contra hq
    have hq' : (q : ℝ) < 0 := by
      have := h.ne
      exact_mod_cast (by omega : q < 0)
    have : 2 * √(d : ℝ) / q < 0 := div_neg_of_pos_of_neg (by positivity) hq'
    linarith

theorem isReduced_iff (hr : Root d rd) (h : Valid d p q) :
    isReduced rd p q = true ↔ 1 < th d p q ∧ thc d p q < 0 ∧ -1 < thc d p q := by
  unfold isReduced
  simp only [Bool.and_eq_true, decide_eq_true_eq]
  constructor
  · rintro ⟨⟨h1, h2⟩, h3⟩
    have hq : (0 : ℝ) < q := by exact_mod_cast (by omega : 0 < q)
    have h1' := (hr.gt_iff p).2 h1
    have h2' := (hr.lt_iff (p + q)).2 h2
    have h3' := (hr.gt_iff (q - p)).2 h3
    push_cast at h2' h3'
    refine ⟨?_, ?_, ?_⟩
    · unfold th; rw [lt_div_iff₀ hq]; linarith
    · unfold thc; exact div_neg_of_neg_of_pos (by linarith) hq
    · unfold thc; rw [lt_div_iff₀ hq]; linarith
  · rintro ⟨h1, h2, h3⟩
    have hq0 := (q_pos_iff hr h).2 (by linarith)
    have hq : (0 : ℝ) < q := by exact_mod_cast hq0
    unfold th at h1
    unfold thc at h2 h3
    rw [lt_div_iff₀ hq] at h1 h3
    rw [div_lt_iff₀ hq] at h2
    refine ⟨⟨(hr.gt_iff p).1 (by linarith), (hr.lt_iff (p + q)).1 (by push_cast; linarith)⟩,
      (hr.gt_iff (q - p)).1 (by push_cast; linarith)⟩

/-- the coefficient and the next state -/
def coef (rd p q : ℤ) : ℤ := (rd + p).fdiv q
def nextP (rd p q : ℤ) : ℤ := coef rd p q * q - p
def nextQ (d rd p q : ℤ) : ℤ := (d - nextP rd p q * nextP rd p q).tdiv q

theorem next_dvd (h : Valid d p q) : q ∣ d - nextP rd p q * nextP rd p q := by
  have : d - nextP rd p q * nextP rd p q = (d - p * p) + q * (coef rd p q * (2 * p - coef rd p q * q)) := by
    unfold nextP; ring
  rw [this]
  exact dvd_add h.dvd (dvd_mul_right _ _)

theorem next_mul (h : Valid d p q) : q * nextQ d rd p q = d - nextP rd p q * nextP rd p q :=
  Int.mul_tdiv_cancel' (next_dvd h)

theorem rho_eq (h : Valid d p q) : rho d rd p q = .ok (coef rd p q, nextP rd p q, nextQ d rd p q) := by
  unfold rho divFloorR divR
  rw [if_neg h.ne]
  show (if q = 0 then _ else _ : Res Int) >>= _ = _
  rw [if_neg h.ne]
  rfl

theorem next_valid (hr : Root d rd) (h : Valid d p q) : Valid d (nextP rd p q) (nextQ d rd p q) := by
  have hm := next_mul (rd := rd) h
  refine ⟨fun h0 => ?_, ⟨q, by rw [← hm, mul_comm]⟩⟩
  rw [h0, mul_zero] at hm
  exact hr.nsq (nextP rd p q) (by omega)

theorem next_th (hr : Root d rd) (h : Valid d p q) :
    (th d p q - coef rd p q) * th d (nextP rd p q) (nextQ d rd p q) = 1 := by
  have hm : (q : ℝ) * nextQ d rd p q = d - nextP rd p q * nextP rd p q := by exact_mod_cast next_mul (rd := rd) h
  have hq := h.neR
  have hq' := (next_valid hr h).neR
  have hP : (nextP rd p q : ℝ) = coef rd p q * q - p := by unfold nextP; push_cast; ring
  have hs := hr.sq
  unfold th
  field_simp
  rw [hm]
  have : (coef rd p q : ℝ) * q = nextP rd p q + p := by rw [hP]; ring
  linear_combination hs - (√(d : ℝ) + nextP rd p q) * this

theorem next_thc (hr : Root d rd) (h : Valid d p q) :
    (thc d p q - coef rd p q) * thc d (nextP rd p q) (nextQ d rd p q) = 1 := by
  have hm : (q : ℝ) * nextQ d rd p q = d - nextP rd p q * nextP rd p q := by exact_mod_cast next_mul (rd := rd) h
  have hq := h.neR
  have hq' := (next_valid hr h).neR
  have hP : (nextP rd p q : ℝ) = coef rd p q * q - p := by unfold nextP; push_cast; ring
  have hs := hr.sq
  unfold thc
  field_simp
  rw [hm]
  have : (coef rd p q : ℝ) * q = nextP rd p q + p := by rw [hP]; ring
  linear_combination hs - (nextP rd p q - √(d : ℝ)) * this

/-- the computed coefficient is one too large exactly here -/
def Off (rd p q : ℤ) : Prop := q < 0 ∧ q ∣ rd + p

theorem coef_exact (hr : Root d rd) (h : Valid d p q) (hoff : ¬ Off rd p q) :
    (coef rd p q : ℝ) < th d p q ∧ th d p q < coef rd p q + 1 := by
  have e := Int.fdiv_mul_add_fmod (rd + p) q
  have e2 := Int.fdiv_mul_add_fmod (-(rd + p)) (-q)
  rw [Int.neg_fdiv_neg] at e2
  change coef rd p q * q + (rd + p).fmod q = rd + p at e
  change coef rd p q * -q + (-(rd + p)).fmod (-q) = -(rd + p) at e2
  generalize coef rd p q = a at *
  unfold th
  rcases lt_or_gt_of_ne h.ne with hq | hq
  · have hq' : (q : ℝ) < 0 := by exact_mod_cast hq
    have hmod : q < (rd + p).fmod q ∧ (rd + p).fmod q < 0 := by
      have h1 : (rd + p).fmod q = -((-(rd + p)).fmod (-q)) := by linarith
      have h2 := Int.fmod_nonneg_of_pos (-(rd + p)) (b := -q) (by omega)
      have h3 := Int.fmod_lt_of_pos (-(rd + p)) (b := -q) (by omega)
      refine ⟨by omega, ?_⟩
      rcases (show (rd + p).fmod q ≤ 0 by omega).lt_or_eq with h4 | h4
      · exact h4
      · exact absurd ⟨hq, ⟨a, by rw [← e, h4]; ring⟩⟩ hoff
    have h1 : rd < a * q - p := by omega
    have h2 : (a + 1) * q - p ≤ rd := by
      have : (a + 1) * q = a * q + q := by ring
      omega
    have h1' := (hr.lt_iff (a * q - p)).2 h1
    have h2' := (hr.gt_iff ((a + 1) * q - p)).2 h2
    push_cast at h1' h2'
    exact ⟨by rw [lt_div_iff_of_neg hq']; linarith, by rw [div_lt_iff_of_neg hq']; linarith⟩
  · have hq' : (0 : ℝ) < q := by exact_mod_cast hq
    have h2 := Int.fmod_nonneg_of_pos (rd + p) hq
    have h3 := Int.fmod_lt_of_pos (rd + p) hq
    have h4 : a * q - p ≤ rd := by omega
    have h5 : rd < (a + 1) * q - p := by
      have : (a + 1) * q = a * q + q := by ring
      omega
    have h4' := (hr.gt_iff (a * q - p)).2 h4
    have h5' := (hr.lt_iff ((a + 1) * q - p)).2 h5
    push_cast at h4' h5'
    exact ⟨by rw [lt_div_iff₀ hq']; linarith, by rw [div_lt_iff₀ hq']; linarith⟩

theorem off_next (hoff : Off rd p q) : coef rd p q * q = rd + p ∧ nextP rd p q = rd := by
  obtain ⟨k, hk⟩ := hoff.2
  have : coef rd p q = k := by unfold coef; rw [hk]; exact Int.mul_fdiv_cancel_left _ hoff.1.ne
  unfold nextP
  rw [this]
  constructor <;> linarith

theorem off_q (hr : Root d rd) (h : Valid d p q) (hoff : Off rd p q) :
    q * nextQ d rd p q = d - rd * rd ∧ nextQ d rd p q < 0 := by
  have hm := next_mul (rd := rd) h
  rw [(off_next hoff).2] at hm
  refine ⟨hm, ?_⟩
  have h1 := hr.lo
  have h2 := hoff.1
  by_contra h3
  have := mul_nonneg_of_neg_of_nonneg_aux h2 h3
  omega
where
  mul_nonneg_of_neg_of_nonneg_aux {x y : ℤ} (hx : x < 0) (hy : ¬ y < 0) : x * y ≤ 0 :=
    Int.mul_nonpos_of_nonpos_of_nonneg hx.le (by omega)

theorem off_floor (hr : Root d rd) (hoff : Off rd p q) :
    (coef rd p q : ℝ) - 1 < th d p q ∧ th d p q < coef rd p q := by
  have e : (coef rd p q : ℝ) * q = rd + p := by exact_mod_cast (off_next hoff).1
  have hq' : (q : ℝ) < 0 := by exact_mod_cast hoff.1
  have hq1 : (q : ℝ) ≤ -1 := by exact_mod_cast (show q ≤ -1 by have := hoff.1; omega)
  have h1 := hr.lt
  have h2 := hr.gt
  unfold th
  exact ⟨by rw [lt_div_iff_of_neg hq']; linarith, by rw [div_lt_iff_of_neg hq']; linarith⟩

end Lagrange
end NumIrr
