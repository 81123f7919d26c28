/-
Infinite continued fractions with positive coefficients: convergence, complete quotients, error bounds,
irrationality, uniqueness.
-/
import Mathlib.Analysis.SpecificLimits.Basic
import Mathlib.NumberTheory.Real.Irrational
import Mathlib.Tactic.Push
import Verif.Lemmas.CFTrunc

namespace NumIrr

open Filter Topology

section lin
variable {R : Type} [CommRing R]

theorem act_lin (l : List Int) (x y : R) :
    act l (x, y) = (x * (act l ((1, 0) : R × R)).1 + y * (act l ((0, 1) : R × R)).1,
      x * (act l ((1, 0) : R × R)).2 + y * (act l ((0, 1) : R × R)).2) := by
  induction l with
  | nil => simp [act]
  | cons a l ih =>
    simp only [act]
    rw [ih]
    ext
    · simp only; ring
    · simp only

theorem act_snoc (l : List Int) (a : Int) (v : R × R) : act (l ++ [a]) v = act l ((a : R) * v.1 + v.2, v.1) := by
  rw [act_append]; rfl

theorem act_snoc01 (l : List Int) (a : Int) : act (l ++ [a]) ((0, 1) : R × R) = act l (1, 0) := by
  rw [act_snoc]; simp

theorem act_cast (l : List Int) (x y : Int) :
    act l ((x : R), (y : R)) = (((act l (x, y)).1 : R), ((act l (x, y)).2 : R)) := by
  induction l with
  | nil => rfl
  | cons a l ih =>
    simp only [act, ih]
    push_cast
    rfl

end lin

/-- the first `n` coefficients of a sequence -/
def tr (c : Nat → Int) (n : Nat) : List Int := (List.range n).map c

theorem truncTo_eq_tr (a p : List Int) (n : Nat) : truncTo a p n = tr (coeffAt a p) n := rfl

/-- numerators and denominators of the convergents; index `n` uses `n` coefficients -/
def cP (c : Nat → Int) (n : Nat) : Int := (cfP (tr c n)).1
def cQ (c : Nat → Int) (n : Nat) : Int := (cfP (tr c n)).2

/-- drop the first coefficient -/
def shft (c : Nat → Int) (k : Nat) : Nat → Int := fun n => c (k + n)

theorem tr_succ (c : Nat → Int) (n : Nat) : tr c (n + 1) = tr c n ++ [c n] := by
  simp [tr, List.range_succ]

theorem tr_cons (c : Nat → Int) (n : Nat) : tr c (n + 1) = c 0 :: tr (shft c 1) n := by
  unfold tr shft
  rw [List.range_succ_eq_map, List.map_cons, List.map_map]
  congr 1
  apply List.map_congr_left
  intro i _
  simp [Function.comp, Nat.add_comm]

theorem shft_shft (c : Nat → Int) (i j : Nat) : shft (shft c i) j = shft c (i + j) := by
  funext n; simp [shft, Nat.add_assoc]

@[simp] theorem cP_zero (c : Nat → Int) : cP c 0 = 1 := rfl
@[simp] theorem cQ_zero (c : Nat → Int) : cQ c 0 = 0 := rfl
@[simp] theorem cP_one (c : Nat → Int) : cP c 1 = c 0 := by simp [cP, tr, act]
@[simp] theorem cQ_one (c : Nat → Int) : cQ c 1 = 1 := by simp [cQ, tr, act]

theorem act01_tr (c : Nat → Int) (n : Nat) : act (tr c (n + 1)) ((0, 1) : Int × Int) = (cP c n, cQ c n) := by
  rw [tr_succ, act_snoc01]; rfl

theorem cP_rec (c : Nat → Int) (n : Nat) : cP c (n + 2) = c (n + 1) * cP c (n + 1) + cP c n := by
  unfold cP
  rw [tr_succ, cfP, act_snoc]
  simp only [Int.cast_id, mul_one, add_zero]
  rw [act_lin, act01_tr]
  simp only [cP, one_mul]

theorem cQ_rec (c : Nat → Int) (n : Nat) : cQ c (n + 2) = c (n + 1) * cQ c (n + 1) + cQ c n := by
  unfold cQ
  rw [tr_succ, cfP, act_snoc]
  simp only [Int.cast_id, mul_one, add_zero]
  rw [act_lin, act01_tr]
  simp only [cQ, one_mul]

theorem det_rec (c : Nat → Int) (n : Nat) : cP c (n + 1) * cQ c n - cP c n * cQ c (n + 1) = (-1) ^ (n + 1) := by
  induction n with
  | zero => simp
  | succ n ih =>
    rw [cP_rec, cQ_rec, pow_succ, ← ih]
    ring

theorem cfVal_tr (c : Nat → Int) (n : Nat) :
    cfVal (tr c n) = if cQ c n = 0 then none else some ((cP c n : Rat) / cQ c n) := cfVal_eq _

/-- all coefficients after the first are positive -/
def PosSeq (c : Nat → Int) : Prop := ∀ n, 1 ≤ c (n + 1)

theorem PosSeq.shft {c : Nat → Int} (h : PosSeq c) (k : Nat) : PosSeq (shft c k) := by
  intro n
  have := h (k + n)
  unfold NumIrr.shft
  rw [show k + (n + 1) = k + n + 1 by omega]
  exact this

theorem cQ_pos {c : Nat → Int} (h : PosSeq c) : ∀ n, 1 ≤ cQ c (n + 1) ∧ 0 ≤ cQ c n
  | 0 => by simp
  | n + 1 => by
    obtain ⟨h1, h2⟩ := cQ_pos h n
    refine ⟨?_, by omega⟩
    rw [cQ_rec]
    have := h n
    nlinarith

theorem cQr_pos {c : Nat → Int} (h : PosSeq c) (n : Nat) : (0 : ℝ) < cQ c (n + 1) := by
  have := (cQ_pos h n).1
  exact_mod_cast (by omega : 0 < cQ c (n + 1))

theorem cQ_mono {c : Nat → Int} (h : PosSeq c) (n : Nat) : cQ c (n + 1) + cQ c n ≤ cQ c (n + 2) := by
  rw [cQ_rec]
  have := h n
  have := (cQ_pos h n).1
  nlinarith

theorem cQ_le {c : Nat → Int} (h : PosSeq c) (n : Nat) : cQ c (n + 1) ≤ cQ c (n + 2) := by
  have := cQ_mono h n
  have := (cQ_pos h n).2
  omega

theorem cQ_lt {c : Nat → Int} (h : PosSeq c) (n : Nat) : cQ c (n + 2) < cQ c (n + 3) := by
  have : cQ c (n + 2) + cQ c (n + 1) ≤ cQ c (n + 3) := cQ_mono h (n + 1)
  have := (cQ_pos h n).1
  have h3 : cQ c (n + 1) ≤ cQ c (n + 2) := cQ_le h n
  omega

theorem cQ_ge {c : Nat → Int} (h : PosSeq c) (n : Nat) : (n : Int) + 1 ≤ cQ c (n + 2) := by
  induction n with
  | zero => have := (cQ_pos h 1).1; simpa using this
  | succ n ih =>
    have := cQ_lt h n
    rw [show n + 1 + 2 = n + 3 from rfl]
    push_cast
    omega

theorem cQ_prod {c : Nat → Int} (h : PosSeq c) (n : Nat) : (2 : Int) ^ n ≤ cQ c (n + 1) * cQ c (n + 2) := by
  induction n with
  | zero => have h1 := (cQ_pos h 0).1; have h2 := (cQ_pos h 1).1; simp; nlinarith
  | succ n ih =>
    have h1 := cQ_mono h (n + 1)
    have h2 := cQ_le h n
    have h3 := (cQ_pos h n).1
    rw [pow_succ]
    nlinarith

/-- the convergents as real numbers -/
noncomputable def cv (c : Nat → Int) (n : Nat) : ℝ := (cP c n : ℝ) / (cQ c n : ℝ)

theorem cv_diff {c : Nat → Int} (h : PosSeq c) (n : Nat) :
    cv c (n + 2) - cv c (n + 1) = (-1) ^ n / ((cQ c (n + 1) : ℝ) * (cQ c (n + 2) : ℝ)) := by
  have h1 : (cQ c (n + 1) : ℝ) ≠ 0 := (cQr_pos h n).ne'
  have h2 : (cQ c (n + 2) : ℝ) ≠ 0 := (cQr_pos h (n + 1)).ne'
  have hd := det_rec c (n + 1)
  have hd' : (cP c (n + 2) : ℝ) * cQ c (n + 1) - cP c (n + 1) * cQ c (n + 2) = (-1) ^ (n + 2) := by exact_mod_cast hd
  unfold cv
  rw [div_sub_div _ _ h2 h1, div_eq_div_iff (by positivity) (by positivity)]
  rw [pow_add] at hd'
  norm_num at hd'
  rw [← hd']
  ring

theorem cv_cauchy {c : Nat → Int} (h : PosSeq c) : CauchySeq (fun n => cv c (n + 1)) := by
  refine cauchySeq_of_le_geometric (1 / 2) 1 (by norm_num) (fun n => ?_)
  rw [dist_comm, Real.dist_eq, cv_diff h, abs_div, abs_pow, abs_neg, abs_one, one_pow, one_mul]
  have h1 : (0 : ℝ) < cQ c (n + 1) := cQr_pos h n
  have h2 : (0 : ℝ) < cQ c (n + 2) := cQr_pos h (n + 1)
  rw [abs_of_pos (by positivity), one_div_pow]
  apply one_div_le_one_div_of_le (by positivity)
  exact_mod_cast cQ_prod h n

/-- the value of an infinite fraction -/
noncomputable def cfLim (c : Nat → Int) : ℝ := limUnder atTop (fun n => cv c (n + 1))

theorem cfLim_tendsto {c : Nat → Int} (h : PosSeq c) : Tendsto (fun n => cv c (n + 1)) atTop (𝓝 (cfLim c)) :=
  (cv_cauchy h).tendsto_limUnder

theorem cP_cons (c : Nat → Int) (n : Nat) : cP c (n + 1) = c 0 * cP (shft c 1) n + cQ (shft c 1) n := by
  unfold cP cQ; rw [tr_cons, cfP, act]; simp

theorem cQ_cons (c : Nat → Int) (n : Nat) : cQ c (n + 1) = cP (shft c 1) n := by
  unfold cP cQ; rw [tr_cons, cfP, act]

theorem cv_ge {c : Nat → Int} (h : PosSeq c) (n : Nat) : (c 0 : ℝ) ≤ cv c (n + 1) := by
  have h2 : (0 : ℝ) < cQ c (n + 1) := cQr_pos h n
  unfold cv
  rw [le_div_iff₀ h2]
  have h3 : c 0 * cQ c (n + 1) ≤ cP c (n + 1) := by
    rw [cP_cons, cQ_cons]
    have : 0 ≤ cQ (shft c 1) n := (cQ_pos (h.shft 1) n).2
    omega
  exact_mod_cast h3

theorem cfLim_ge {c : Nat → Int} (h : PosSeq c) : (c 0 : ℝ) ≤ cfLim c :=
  ge_of_tendsto' (cfLim_tendsto h) (cv_ge h)

theorem shft_ge {c : Nat → Int} (h : PosSeq c) (k : Nat) : (1 : ℝ) ≤ cfLim (shft c (k + 1)) := by
  refine le_trans ?_ (cfLim_ge (h.shft (k + 1)))
  have := h k
  exact_mod_cast this

/-- the first coefficient splits off -/
theorem cfLim_cons {c : Nat → Int} (h : PosSeq c) : cfLim c = c 0 + 1 / cfLim (shft c 1) := by
  have h1 := cfLim_tendsto (h.shft 1)
  have hpos : (0 : ℝ) < cfLim (shft c 1) := lt_of_lt_of_le one_pos (shft_ge h 0)
  have h2 : Tendsto (fun n => (c 0 : ℝ) + 1 / cv (shft c 1) (n + 1)) atTop (𝓝 ((c 0 : ℝ) + 1 / cfLim (shft c 1))) :=
    tendsto_const_nhds.add (tendsto_const_nhds.div h1 hpos.ne')
  have h3 : Tendsto (fun n => cv c (n + 1 + 1)) atTop (𝓝 (cfLim c)) :=
    (cfLim_tendsto h).comp (tendsto_add_atTop_nat 1)
  refine tendsto_nhds_unique h3 (h2.congr (fun n => ?_))
  have hq : (0 : ℝ) < cQ (shft c 1) (n + 1) := by
    have := (cQ_pos (h.shft 1) n).1; exact_mod_cast (by omega : 0 < cQ (shft c 1) (n + 1))
  have hp : (0 : ℝ) < cP (shft c 1) (n + 1) := by
    have := (cQ_pos h (n + 1)).1
    rw [cQ_cons] at this
    exact_mod_cast (by omega : 0 < cP (shft c 1) (n + 1))
  unfold cv
  rw [cP_cons c (n + 1), cQ_cons c (n + 1)]
  push_cast
  field_simp

/-- the complete quotient after `k` coefficients -/
noncomputable def cquot (c : Nat → Int) (k : Nat) : ℝ := cfLim (shft c k)

theorem cquot_succ {c : Nat → Int} (h : PosSeq c) (k : Nat) : cquot c k = c k + 1 / cquot c (k + 1) := by
  unfold cquot
  have := cfLim_cons (h.shft k)
  rw [shft_shft] at this
  exact this

theorem cquot_gt {c : Nat → Int} (h : PosSeq c) (k : Nat) : 1 < cquot c (k + 1) := by
  have h1 := cquot_succ h (k + 1)
  have h2 : (1 : ℝ) ≤ cquot c (k + 2) := shft_ge h (k + 1)
  have h3 : (1 : ℝ) ≤ (c (k + 1) : ℝ) := by exact_mod_cast h k
  have : 0 < 1 / cquot c (k + 2) := by positivity
  linarith

@[simp] theorem cquot_zero (c : Nat → Int) : cquot c 0 = cfLim c := by
  unfold cquot; congr 1; funext n; simp [shft]

/-- `x = (P_k t + P_{k-1}) / (Q_k t + Q_{k-1})` with `t` the complete quotient; here for `k+1` -/
theorem cfLim_quot {c : Nat → Int} (h : PosSeq c) (k : Nat) :
    cfLim c * (cQ c (k + 1) * cquot c (k + 1) + cQ c k) = cP c (k + 1) * cquot c (k + 1) + cP c k := by
  induction k with
  | zero =>
    have := cquot_succ h 0
    rw [cquot_zero] at this
    have h1 := cquot_gt h 0
    rw [this]
    simp
    field_simp
  | succ k ih =>
    have e := cquot_succ h (k + 1)
    have h1 := cquot_gt h (k + 1)
    have h0 : cquot c (k + 2) ≠ 0 := by linarith
    rw [cP_rec, cQ_rec]
    rw [e] at ih
    have h3 : cquot c (k + 2) * (1 / cquot c (k + 2)) = 1 := mul_one_div_cancel h0
    push_cast
    linear_combination (cquot c (k + 2)) * ih + (cP c (k + 1) - cfLim c * cQ c (k + 1)) * h3

/-- exact error of the convergents -/
theorem cfLim_sub {c : Nat → Int} (h : PosSeq c) (k : Nat) :
    cfLim c - cv c (k + 1) = (-1) ^ k / ((cQ c (k + 1) : ℝ) * (cQ c (k + 1) * cquot c (k + 1) + cQ c k)) := by
  have h1 : (0 : ℝ) < cQ c (k + 1) := cQr_pos h k
  have h2 : (0 : ℝ) ≤ cQ c k := by exact_mod_cast (cQ_pos h k).2
  have ht := cquot_gt h k
  have hq := cfLim_quot h k
  have hd : (cP c (k + 1) : ℝ) * cQ c k - cP c k * cQ c (k + 1) = (-1) ^ (k + 1) := by exact_mod_cast det_rec c k
  have h3 : 0 < (cQ c (k + 1) : ℝ) * cquot c (k + 1) + cQ c k := by positivity
  unfold cv
  rw [eq_div_iff (by positivity)]
  have e : (cP c (k + 1) : ℝ) / cQ c (k + 1) * cQ c (k + 1) = cP c (k + 1) := div_mul_cancel₀ _ h1.ne'
  rw [pow_succ] at hd
  linear_combination (cQ c (k + 1) : ℝ) * hq - (cQ c (k + 1) * cquot c (k + 1) + cQ c k : ℝ) * e - hd

/-- the error is less than `1/(Q_k Q_{k+1})` -/
theorem cfLim_err {c : Nat → Int} (h : PosSeq c) (k : Nat) :
    |cfLim c - cv c (k + 1)| < 1 / ((cQ c (k + 1) : ℝ) * cQ c (k + 2)) := by
  have h1 : (0 : ℝ) < cQ c (k + 1) := cQr_pos h k
  have h2 : (0 : ℝ) ≤ cQ c k := by exact_mod_cast (cQ_pos h k).2
  have h4 : (0 : ℝ) < cQ c (k + 2) := cQr_pos h (k + 1)
  have ht := cquot_gt h k
  have ht2 := cquot_gt h (k + 1)
  have e := cquot_succ h (k + 1)
  have h3 : 0 < (cQ c (k + 1) : ℝ) * cquot c (k + 1) + cQ c k := by positivity
  rw [cfLim_sub h, abs_div, abs_pow, abs_neg, abs_one, one_pow, abs_of_pos (by positivity)]
  apply one_div_lt_one_div_of_lt (by positivity)
  apply mul_lt_mul_of_pos_left _ h1
  rw [cQ_rec]
  push_cast
  have : 0 < 1 / cquot c (k + 2) := by positivity
  rw [e]
  nlinarith

/-- the convergents are not equal to the value -/
theorem cfLim_ne {c : Nat → Int} (h : PosSeq c) (k : Nat) : cfLim c - cv c (k + 1) ≠ 0 := by
  have h1 : (0 : ℝ) < cQ c (k + 1) := cQr_pos h k
  have h2 : (0 : ℝ) ≤ cQ c k := by exact_mod_cast (cQ_pos h k).2
  have ht := cquot_gt h k
  rw [cfLim_sub h]
  apply div_ne_zero
  · exact pow_ne_zero _ (by norm_num)
  · positivity

theorem cfLim_irrational {c : Nat → Int} (h : PosSeq c) : Irrational (cfLim c) := by
  rintro ⟨q, hq⟩
  -- the denominator of `q` is beaten by some `Q`
  have hk := cQ_ge h q.den
  have herr := cfLim_err h q.den
  have hne := cfLim_ne h q.den
  rw [← hq] at herr hne
  set k := q.den with hkdef
  have h1 : (0 : ℝ) < cQ c (k + 1) := cQr_pos h k
  have h2 : (k : ℝ) + 1 ≤ cQ c (k + 2) := by exact_mod_cast hk
  have hd : (0 : ℝ) < (q.den : ℝ) := by exact_mod_cast q.den_pos
  have hqq : (q : ℝ) = (q.num : ℝ) / q.den := by
    rw [← Rat.cast_natCast, ← Rat.cast_intCast, ← Rat.cast_div, Rat.num_div_den]
  have key : (q : ℝ) - cv c (k + 1) = ((q.num * cQ c (k + 1) - cP c (k + 1) * q.den : Int) : ℝ) / (q.den * cQ c (k + 1)) := by
    unfold cv
    rw [hqq]
    push_cast
    field_simp
  have hz : q.num * cQ c (k + 1) - cP c (k + 1) * q.den ≠ 0 := by
    intro hz
    rw [hz] at key
    apply hne
    rw [key]; simp
  have hz1 : (1 : ℝ) ≤ |((q.num * cQ c (k + 1) - cP c (k + 1) * q.den : Int) : ℝ)| := by
    rw [← Int.cast_abs]
    exact_mod_cast Int.one_le_abs hz
  have h2' : (0 : ℝ) < cQ c (k + 2) := cQr_pos h (k + 1)
  rw [key, abs_div, abs_of_pos (by positivity : (0 : ℝ) < q.den * cQ c (k + 1)),
    div_lt_div_iff₀ (by positivity) (by positivity)] at herr
  have : (cQ c (k + 1) : ℝ) * cQ c (k + 2) ≤ q.den * cQ c (k + 1) := by
    have h4 : (0 : ℝ) < cQ c (k + 1) * cQ c (k + 2) := by
      apply mul_pos h1; have : (0 : ℝ) ≤ k := by positivity
      linarith
    nlinarith
  have h5 : (cQ c (k + 2) : ℝ) ≤ q.den := by
    have : (cQ c (k + 1) : ℝ) * cQ c (k + 2) ≤ cQ c (k + 1) * q.den := by linarith
    exact le_of_mul_le_mul_left this h1
  linarith

theorem cfLim_floor {c : Nat → Int} (h : PosSeq c) : ⌊cfLim c⌋ = c 0 := by
  have h1 := cquot_succ h 0
  rw [cquot_zero] at h1
  have h2 := cquot_gt h 0
  rw [Int.floor_eq_iff, h1]
  have h3 : 0 < 1 / cquot c (0 + 1) := by positivity
  have h4 : 1 / cquot c (0 + 1) < 1 := by rw [div_lt_one (by linarith)]; exact h2
  constructor <;> linarith

/-- the coefficients are determined by the value -/
theorem cfLim_inj {c d : Nat → Int} (hc : PosSeq c) (hd : PosSeq d) (h : cfLim c = cfLim d) : c = d := by
  have key : ∀ n, cquot c n = cquot d n := by
    intro n
    induction n with
    | zero => simpa using h
    | succ n ih =>
      have h1 := cquot_succ hc n
      have h2 := cquot_succ hd n
      have h3 : c n = d n := by
        have e1 := cfLim_floor (hc.shft n)
        have e2 := cfLim_floor (hd.shft n)
        simp only [shft, Nat.add_zero] at e1 e2
        rw [← e1, ← e2]
        show ⌊cquot c n⌋ = ⌊cquot d n⌋
        rw [ih]
      rw [h1, h2, h3] at ih
      have h4 := cquot_gt hc n
      have h5 := cquot_gt hd n
      have h6 : 1 / cquot c (n + 1) = 1 / cquot d (n + 1) := by linarith
      rw [one_div, one_div, inv_inj] at h6
      exact h6
  funext n
  have e1 := cfLim_floor (hc.shft n)
  have e2 := cfLim_floor (hd.shft n)
  simp only [shft, Nat.add_zero] at e1 e2
  rw [← e1, ← e2]
  show ⌊cquot c n⌋ = ⌊cquot d n⌋
  rw [key]

/-- a chain of complete quotients determines the value -/
theorem cfLim_of_chain {c : Nat → Int} (h : PosSeq c) (t : Nat → ℝ) (ht : ∀ n, t n = c n + 1 / t (n + 1))
    (hpos : ∀ n, 0 < t (n + 1)) : t 0 = cfLim c := by
  -- both are the same Möbius image, and the convergents tend to both
  have hq : ∀ k, t 0 * (cQ c (k + 1) * t (k + 1) + cQ c k) = cP c (k + 1) * t (k + 1) + cP c k := by
    intro k
    induction k with
    | zero =>
      have h1 := hpos 0
      rw [ht 0]
      simp
      field_simp
    | succ k ih =>
      have h0 := (hpos (k + 1)).ne'
      have h3 : t (k + 2) * (1 / t (k + 2)) = 1 := mul_one_div_cancel h0
      rw [ht (k + 1)] at ih
      rw [cP_rec, cQ_rec]
      push_cast
      linear_combination (t (k + 2)) * ih + (cP c (k + 1) - t 0 * cQ c (k + 1)) * h3
  have herr : ∀ k, |t 0 - cv c (k + 2)| ≤ 1 / (2 : ℝ) ^ k := by
    intro k
    have h1 : (0 : ℝ) < cQ c (k + 2) := cQr_pos h (k + 1)
    have h2 : (0 : ℝ) < cQ c (k + 1) := cQr_pos h k
    have htk := hpos (k + 1)
    have hd : (cP c (k + 2) : ℝ) * cQ c (k + 1) - cP c (k + 1) * cQ c (k + 2) = (-1) ^ (k + 2) := by
      exact_mod_cast det_rec c (k + 1)
    have h3 : 0 < (cQ c (k + 2) : ℝ) * t (k + 2) + cQ c (k + 1) := by positivity
    have e : t 0 - cv c (k + 2) = (-1) ^ (k + 1) / ((cQ c (k + 2) : ℝ) * (cQ c (k + 2) * t (k + 2) + cQ c (k + 1))) := by
      unfold cv
      rw [eq_div_iff (by positivity)]
      have e : (cP c (k + 2) : ℝ) / cQ c (k + 2) * cQ c (k + 2) = cP c (k + 2) := div_mul_cancel₀ _ h1.ne'
      have hqk := hq (k + 1)
      rw [show k + 1 + 1 = k + 2 from rfl] at hqk
      rw [show (-1 : ℝ) ^ (k + 2) = (-1) ^ (k + 1) * (-1) by rw [pow_succ]] at hd
      linear_combination (cQ c (k + 2) : ℝ) * hqk - (cQ c (k + 2) * t (k + 2) + cQ c (k + 1) : ℝ) * e - hd
    rw [e, abs_div, abs_pow, abs_neg, abs_one, one_pow, abs_of_pos (by positivity)]
    apply one_div_le_one_div_of_le (by positivity)
    have h4 : (2 : ℝ) ^ k ≤ cQ c (k + 1) * cQ c (k + 2) := by exact_mod_cast cQ_prod h k
    have h5 : (cQ c (k + 1) : ℝ) * cQ c (k + 2) ≤ cQ c (k + 2) * (cQ c (k + 2) * t (k + 2) + cQ c (k + 1)) := by
      nlinarith [mul_pos (mul_pos h1 h1) htk]
    linarith
  have h1 : Tendsto (fun k => cv c (k + 2)) atTop (𝓝 (t 0)) := by
    rw [tendsto_iff_dist_tendsto_zero]
    refine squeeze_zero (fun _ => dist_nonneg) (fun k => ?_) (tendsto_pow_atTop_nhds_zero_of_lt_one (r := (1 / 2 : ℝ)) (by norm_num) (by norm_num))
    rw [dist_comm, Real.dist_eq, one_div_pow]
    exact herr k
  have h2 : Tendsto (fun k => cv c (k + 1 + 1)) atTop (𝓝 (cfLim c)) :=
    (cfLim_tendsto h).comp (tendsto_add_atTop_nat 1)
  exact tendsto_nhds_unique h1 h2

/-! ### Back to the specification -/

theorem cfVal_tr_pos {c : Nat → Int} (h : PosSeq c) (n : Nat) :
    ∃ q : Rat, cfVal (tr c (n + 1)) = some q ∧ (q : ℝ) = cv c (n + 1) ∧ q = (cP c (n + 1) : Rat) / cQ c (n + 1) := by
  have := (cQ_pos h n).1
  refine ⟨_, ?_, ?_, rfl⟩
  · rw [cfVal_tr, if_neg (by omega)]
  · unfold cv; push_cast; rfl

theorem valOf_cfLim {a p : List Int} (hp : p ≠ []) (h : PosSeq (coeffAt a p)) : ValOf a p (cfLim (coeffAt a p)) := by
  unfold ValOf
  rw [if_neg hp]
  intro ε hε
  have h1 := cfLim_tendsto h
  rw [Metric.tendsto_atTop] at h1
  obtain ⟨N, hN⟩ := h1 ε hε
  refine ⟨N + 1, fun n hn => ?_⟩
  obtain ⟨m, rfl⟩ := Nat.exists_eq_add_of_le hn
  obtain ⟨q, h2, h3, -⟩ := cfVal_tr_pos h (N + m)
  refine ⟨q, ?_, ?_⟩
  · rw [truncTo_eq_tr, show N + 1 + m = N + m + 1 by omega]; exact h2
  · rw [h3, ← Real.dist_eq]; exact hN (N + m) (by omega)

/-- a fraction has at most one value -/
theorem valOf_unique {a p : List Int} {x y : ℝ} (hx : ValOf a p x) (hy : ValOf a p y) : x = y := by
  unfold ValOf at *
  by_cases hp : p = []
  · rw [if_pos hp] at *
    obtain ⟨q, h1, h2⟩ := hx
    obtain ⟨r, h3, h4⟩ := hy
    rw [h1] at h3
    injection h3 with h3
    rw [h2, h4, h3]
  · rw [if_neg hp] at *
    by_contra hne
    have hpos : 0 < |x - y| / 2 := by
      have := abs_pos.2 (sub_ne_zero.2 hne); linarith
    obtain ⟨N, hN⟩ := hx _ hpos
    obtain ⟨M, hM⟩ := hy _ hpos
    obtain ⟨q, h1, h2⟩ := hN (N + M) (by omega)
    obtain ⟨r, h3, h4⟩ := hM (N + M) (by omega)
    rw [h1] at h3
    injection h3 with h3
    subst h3
    have : |x - y| ≤ |(q : ℝ) - x| + |(q : ℝ) - y| := by
      have := abs_sub_le x (q : ℝ) y
      rw [abs_sub_comm x (q : ℝ)] at this
      exact this
    linarith

theorem valOf_iff {a p : List Int} (hp : p ≠ []) (h : PosSeq (coeffAt a p)) {x : ℝ} :
    ValOf a p x ↔ x = cfLim (coeffAt a p) :=
  ⟨fun hx => valOf_unique hx (valOf_cfLim hp h), fun hx => hx ▸ valOf_cfLim hp h⟩

end NumIrr
