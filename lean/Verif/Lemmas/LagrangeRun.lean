/-
The first loop of the expansion of a quadratic irrational: when it ends, and what it collects.
-/
import Verif.Lemmas.Lagrange

namespace NumIrr
namespace Lagrange

variable {d rd p q : ℤ}

section inv
variable {u y : ℝ}

theorem inv_gt (h : u * y = 1) (h0 : 0 < u) (h1 : u < 1) : 1 < y := by
  have : y = 1 / u := by field_simp; linarith
  rw [this, lt_div_iff₀ h0]; linarith

theorem inv_neg' (h : u * y = 1) (h0 : u < 0) : y < 0 := by
  by_contra hy
  have := mul_nonpos_of_nonpos_of_nonneg h0.le (not_lt.1 hy)
  linarith

theorem inv_gt_neg (h : u * y = 1) (h0 : u < -1) : -1 < y := by
  have hu : u < 0 := by linarith
  have : y = 1 / u := by rw [eq_div_iff hu.ne]; linarith
  rw [this, lt_div_iff_of_neg hu]; linarith

theorem inv_lt_neg (h : u * y = 1) (h0 : u < 0) (h1 : -1 < u) : y < -1 := by
  have : y = 1 / u := by rw [eq_div_iff h0.ne]; linarith
  rw [this, div_lt_iff_of_neg h0]; linarith

theorem inv_small (h : u * y = 1) (h0 : 1 < u) : 0 < y ∧ y < 1 := by
  have hu : 0 < u := by linarith
  have : y = 1 / u := by field_simp; linarith
  rw [this]
  exact ⟨by positivity, by rw [div_lt_iff₀ hu]; linarith⟩

theorem inv_pos' (h : u * y = 1) (h0 : 0 < u) : 0 < y := by
  by_contra hy
  have := mul_nonpos_of_nonneg_of_nonpos h0.le (not_lt.1 hy)
  linarith

end inv

/-- what the first loop does from a state: coefficients and final state -/
inductive Run (d rd : ℤ) : ℤ → ℤ → List ℤ → ℤ → ℤ → Prop
  | stop (p q : ℤ) : isReduced rd (nextP rd p q) (nextQ d rd p q) = true →
      Run d rd p q [coef rd p q] (nextP rd p q) (nextQ d rd p q)
  | step (p q : ℤ) {l : List ℤ} {p' q' : ℤ} : isReduced rd (nextP rd p q) (nextQ d rd p q) = false →
      Run d rd (nextP rd p q) (nextQ d rd p q) l p' q' → Run d rd p q (coef rd p q :: l) p' q'

/-- the states of the loop without its stopping test -/
inductive Reach (d rd : ℤ) : ℤ → ℤ → ℤ → ℤ → Prop
  | refl (p q : ℤ) : Reach d rd p q p q
  | step {p q p' q' : ℤ} : Reach d rd (nextP rd p q) (nextQ d rd p q) p' q' → Reach d rd p q p' q'

/-- a state from which the coefficients come out too large for ever -/
def Stuck (d rd p q : ℤ) : Prop := q < 0 ∧ q ∣ rd + p ∧ q ∣ 2 * rd ∧ ∃ q1, q * q1 = d - rd * rd ∧ q1 ∣ 2 * rd

theorem not_reduced (hr : Root d rd) (h : Valid d p q) (hc : ¬ (1 < th d p q ∧ thc d p q < 0 ∧ -1 < thc d p q)) :
    isReduced rd p q = false := by
  rw [Bool.eq_false_iff]
  exact fun e => hc ((isReduced_iff hr h).1 e)

theorem not_off (hq : 0 < q) : ¬ Off rd p q := fun h => by have := h.1; omega

theorem coef_ge (hr : Root d rd) (h : Valid d p q) (hoff : ¬ Off rd p q) {k : ℤ} (hk : (k : ℝ) ≤ th d p q) :
    k ≤ coef rd p q := by
  have := (coef_exact hr h hoff).2
  have : (k : ℝ) < coef rd p q + 1 := by linarith
  have : k < coef rd p q + 1 := by exact_mod_cast this
  omega

theorem coef_le (hr : Root d rd) (h : Valid d p q) (hoff : ¬ Off rd p q) {k : ℤ} (hk : th d p q ≤ k) :
    coef rd p q < k := by
  have := (coef_exact hr h hoff).1
  have : (coef rd p q : ℝ) < k := by linarith
  exact_mod_cast this

theorem next_gt_one (hr : Root d rd) (h : Valid d p q) (hoff : ¬ Off rd p q) :
    1 < th d (nextP rd p q) (nextQ d rd p q) := by
  have := coef_exact hr h hoff
  exact inv_gt (next_th hr h) (by linarith) (by linarith)

/-- a number greater than one with a negative conjugate: the next one is reduced -/
theorem run_neg (hr : Root d rd) (h : Valid d p q) (h1 : 1 < th d p q) (h2 : thc d p q < 0) :
    1 ≤ coef rd p q ∧ isReduced rd (nextP rd p q) (nextQ d rd p q) = true ∧
    Run d rd p q [coef rd p q] (nextP rd p q) (nextQ d rd p q) := by
  have hq := (q_pos_iff hr h).2 (by linarith)
  have hoff := not_off (rd := rd) (p := p) hq
  have ha : 1 ≤ coef rd p q := coef_ge hr h hoff (by push_cast; linarith)
  have ha' : (1 : ℝ) ≤ coef rd p q := by exact_mod_cast ha
  have hred : isReduced rd (nextP rd p q) (nextQ d rd p q) = true := by
    rw [isReduced_iff hr (next_valid hr h)]
    exact ⟨next_gt_one hr h hoff, inv_neg' (next_thc hr h) (by linarith), inv_gt_neg (next_thc hr h) (by linarith)⟩
  exact ⟨ha, hred, .stop p q hred⟩

/-- a number greater than one with a conjugate between zero and one -/
theorem run_small (hr : Root d rd) (h : Valid d p q) (h1 : 1 < th d p q) (h2 : 0 < thc d p q) (h3 : thc d p q < 1) :
    ∃ l p' q', Run d rd p q l p' q' ∧ ((∃ C, 2 ≤ C ∧ l = [C]) ∨ ∃ D, 1 ≤ D ∧ l = [1, D]) := by
  have hq := (q_pos_iff hr h).2 (by linarith)
  have hoff := not_off (rd := rd) (p := p) hq
  have ha : 1 ≤ coef rd p q := coef_ge hr h hoff (by push_cast; linarith)
  have hv := next_valid hr h
  have hn := next_gt_one hr h hoff
  by_cases ha2 : 2 ≤ coef rd p q
  · have ha' : (2 : ℝ) ≤ coef rd p q := by exact_mod_cast ha2
    refine ⟨_, _, _, .stop p q ?_, .inl ⟨_, ha2, rfl⟩⟩
    rw [isReduced_iff hr hv]
    exact ⟨hn, inv_neg' (next_thc hr h) (by linarith), inv_gt_neg (next_thc hr h) (by linarith)⟩
  · have ha1 : coef rd p q = 1 := by omega
    have ha' : (coef rd p q : ℝ) = 1 := by exact_mod_cast ha1
    have hc := inv_lt_neg (next_thc hr h) (by linarith) (by linarith)
    obtain ⟨h4, h5, h6⟩ := run_neg hr hv hn (by linarith)
    refine ⟨_, _, _, .step p q (not_reduced hr hv (by rintro ⟨-, -, h⟩; linarith)) h6, .inr ⟨_, h4, by rw [ha1]⟩⟩

/-- what can follow the first coefficient that is too large -/
inductive Tail : List ℤ → Prop
  | a {B C : ℤ} : B ≤ -2 → 2 ≤ C → Tail [B, C]
  | b {B D : ℤ} : B ≤ -2 → 1 ≤ D → Tail [B, 1, D]
  | c {B B' C : ℤ} : B ≤ -2 → B' ≤ -2 → 2 ≤ C → Tail [B, B', C]
  | d {B B' D : ℤ} : B ≤ -2 → B' ≤ -2 → 1 ≤ D → Tail [B, B', 1, D]

theorem root_diff (hr : Root d rd) : (d : ℝ) - rd * rd < √(d : ℝ) + rd := by
  have h1 := hr.lt
  have h2 := hr.gt
  have h3 := hr.sq
  have h4 : (1 : ℝ) ≤ rd := by exact_mod_cast hr.pos
  nlinarith

/-- `(rd + √d)/q < -1` for `q` negative dividing `d - rd²` -/
theorem th_lt (hr : Root d rd) {q1 : ℤ} (hq : q < 0) (hm : q * q1 = d - rd * rd) : th d rd q < -1 := by
  have hq' : (q : ℝ) < 0 := by exact_mod_cast hq
  have h1 : q1 ≤ -1 := by
    by_contra hc
    have := Int.mul_nonpos_of_nonpos_of_nonneg hq.le (by omega : (0 : ℤ) ≤ q1)
    have := hr.lo
    omega
  have h2 : (q : ℝ) * q1 = d - rd * rd := by exact_mod_cast hm
  have h3 : (q1 : ℝ) ≤ -1 := by exact_mod_cast h1
  have h4 := root_diff hr
  unfold th
  rw [div_lt_iff_of_neg hq']
  nlinarith

/-- from `(rd + √d)/q` with `q` negative and an exact coefficient -/
theorem run_rd (hr : Root d rd) {q1 : ℤ} (hq : q < 0) (hm : q * q1 = d - rd * rd) (hn : ¬ q ∣ 2 * rd) :
    ∃ B l p' q', Run d rd rd q (B :: l) p' q' ∧ B ≤ -2 ∧ ((∃ C, 2 ≤ C ∧ l = [C]) ∨ ∃ D, 1 ≤ D ∧ l = [1, D]) := by
  have h : Valid d rd q := ⟨hq.ne, ⟨q1, hm.symm⟩⟩
  have hoff : ¬ Off rd rd q := fun ho => hn (by have := ho.2; rwa [two_mul])
  have hB : coef rd rd q ≤ -2 := by
    have := coef_le hr h hoff (k := -1) (by push_cast; exact (th_lt hr hq hm).le)
    omega
  have hB' : (coef rd rd q : ℝ) ≤ -2 := by exact_mod_cast hB
  have hq' : (q : ℝ) < 0 := by exact_mod_cast hq
  have hc : 0 < thc d rd q := by
    unfold thc
    have := hr.lt
    exact div_pos_of_neg_of_neg (by linarith) hq'
  obtain ⟨h1, h2⟩ := inv_small (next_thc hr h) (by linarith)
  have hv := next_valid hr h
  have hg := next_gt_one hr h hoff
  obtain ⟨l, p', q', h3, h4⟩ := run_small hr hv hg h1 h2
  exact ⟨_, l, p', q', .step rd q (not_reduced hr hv (by rintro ⟨-, h, -⟩; linarith)) h3, hB, h4⟩

/-- a coefficient that is too large: the loop ends soon after, or never -/
theorem run_off (hr : Root d rd) (h : Valid d p q) (hoff : Off rd p q) :
    (∃ l p' q', Run d rd p q (coef rd p q :: l) p' q' ∧ Tail l) ∨ Stuck d rd p q := by
  obtain ⟨hm, hq1⟩ := off_q hr h hoff
  have hp := (off_next hoff).2
  have hv := next_valid hr h
  have hnr : isReduced rd (nextP rd p q) (nextQ d rd p q) = false := by
    unfold isReduced
    rw [Bool.eq_false_iff]
    simp only [ne_eq, Bool.and_eq_true, decide_eq_true_eq]
    omega
  have hstep := fun {l p' q'} => Run.step (d := d) (rd := rd) p q (l := l) (p' := p') (q' := q') hnr
  rw [hp] at hv hnr hstep
  generalize nextQ d rd p q = q1 at *
  have hm' : q1 * q = d - rd * rd := by rw [mul_comm]; exact hm
  by_cases hd1 : q1 ∣ 2 * rd
  · by_cases hd : q ∣ 2 * rd
    · exact .inr ⟨hoff.1, hoff.2, hd, q1, hm, hd1⟩
    · left
      have hoff1 : Off rd rd q1 := ⟨hq1, by rwa [← two_mul]⟩
      obtain ⟨B', l, p', q', h1, h2, h3⟩ := run_rd hr hoff.1 hm hd
      have hq2 : nextQ d rd rd q1 = q := by
        have := (off_q hr hv hoff1).1
        exact mul_left_cancel₀ hv.ne (this.trans hm'.symm)
      have hp2 := (off_next hoff1).2
      have hnr2 : isReduced rd (nextP rd rd q1) (nextQ d rd rd q1) = false := by
        rw [hp2, hq2]
        unfold isReduced
        rw [Bool.eq_false_iff]
        simp only [ne_eq, Bool.and_eq_true, decide_eq_true_eq]
        have := hoff.1
        omega
      have hB : coef rd rd q1 ≤ -2 := by
        have e := (off_next hoff1).1
        have hpos := hr.pos
        by_contra hc
        rcases (by omega : coef rd rd q1 = -1 ∨ 0 ≤ coef rd rd q1) with h0 | h0
        · rw [h0] at e
          have hq1' : q1 = -(2 * rd) := by omega
          have hle : d - rd * rd ≤ 2 * rd := by have := hr.hi; nlinarith
          have : q = -1 := by
            have h5 := hoff.1
            rw [hq1'] at hm'
            by_contra hne
            have : q ≤ -2 := by omega
            nlinarith
          exact hd (by rw [this]; exact (isUnit_one.neg).dvd)
        · have := Int.mul_nonpos_of_nonneg_of_nonpos h0 hq1.le
          omega
      refine ⟨coef rd rd q1 :: B' :: l, p', q', hstep (.step rd q1 hnr2 (by rw [hp2, hq2]; exact h1)), ?_⟩
      rcases h3 with ⟨C, hC, rfl⟩ | ⟨D, hD, rfl⟩
      · exact .c hB h2 hC
      · exact .d hB h2 hD
  · left
    obtain ⟨B, l, p', q', h1, h2, h3⟩ := run_rd hr hq1 hm' hd1
    refine ⟨B :: l, p', q', hstep h1, ?_⟩
    rcases h3 with ⟨C, hC, rfl⟩ | ⟨D, hD, rfl⟩
    · exact .a h2 hC
    · exact .b h2 hD

/-- the coefficients collected from a number greater than one -/
inductive Shape : List ℤ → Prop
  | nil : Shape []
  | cons {a : ℤ} {l : List ℤ} : 1 ≤ a → Shape l → Shape (a :: l)
  | off {a : ℤ} {l : List ℤ} : 2 ≤ a → Tail l → Shape (a :: l)

/-- `q' = -q (θ - a)(θ' - a)` -/
theorem next_q_eq (hr : Root d rd) (h : Valid d p q) :
    (nextQ d rd p q : ℝ) = -q * ((th d p q - coef rd p q) * (thc d p q - coef rd p q)) := by
  have hm : (q : ℝ) * nextQ d rd p q = d - nextP rd p q * nextP rd p q := by exact_mod_cast next_mul (rd := rd) h
  have hq := h.neR
  have hP : (nextP rd p q : ℝ) = coef rd p q * q - p := by unfold nextP; push_cast; ring
  have hs := hr.sq
  have : (nextQ d rd p q : ℝ) = (d - nextP rd p q * nextP rd p q) / q := by field_simp; linarith
  rw [this, hP]
  unfold th thc
  field_simp
  linear_combination -hs

/-- Lagrange: the loop ends, unless it gets stuck. -/
theorem run_exists (hr : Root d rd) : ∀ (n : ℕ) (p q : ℤ), q.natAbs ≤ n → Valid d p q → 1 < th d p q →
    (∃ l p' q', Run d rd p q l p' q' ∧ Shape l) ∨ ∃ p' q', Reach d rd p q p' q' ∧ Stuck d rd p' q'
  | 0, p, q, hn, h, _ => absurd h.ne (by omega)
  | n + 1, p, q, hn, h, h1 => by
    by_cases hoff : Off rd p q
    · rcases run_off hr h hoff with ⟨l, p', q', h2, h3⟩ | h2
      · refine .inl ⟨_, p', q', h2, .off ?_ h3⟩
        have := (off_floor hr hoff).2
        have : (1 : ℝ) < coef rd p q := by linarith
        have : 1 < coef rd p q := by exact_mod_cast this
        omega
      · exact .inr ⟨p, q, .refl p q, h2⟩
    · obtain ⟨hlo, hhi⟩ := coef_exact hr h hoff
      have ha : 1 ≤ coef rd p q := coef_ge hr h hoff (by push_cast; linarith)
      have hv := next_valid hr h
      have hg := next_gt_one hr h hoff
      have hcc := next_thc hr h
      rcases lt_or_gt_of_ne (thc_ne_int hr h (coef rd p q)) with h2 | h2
      · have h3 := inv_neg' hcc (by linarith)
        obtain ⟨h4, h5, h6⟩ := run_neg hr hv hg h3
        left
        by_cases hred : isReduced rd (nextP rd p q) (nextQ d rd p q) = true
        · exact ⟨_, _, _, .stop p q hred, .cons ha .nil⟩
        · rw [Bool.not_eq_true] at hred
          exact ⟨_, _, _, .step p q hred h6, .cons ha (.cons h4 .nil)⟩
      · have hpos := inv_pos' hcc (by linarith)
        have hred : isReduced rd (nextP rd p q) (nextQ d rd p q) = false :=
          not_reduced hr hv (by rintro ⟨-, h, -⟩; linarith)
        have hne := thc_ne_int hr h (coef rd p q + 1)
        push_cast at hne
        rcases lt_or_gt_of_ne hne with h3 | h3
        · have hlt : (nextQ d rd p q).natAbs < q.natAbs := by
            have e := next_q_eq hr h
            have hu : 0 < (th d p q - coef rd p q) * (thc d p q - coef rd p q) :=
              mul_pos (by linarith) (by linarith)
            have hu1 : (th d p q - coef rd p q) * (thc d p q - coef rd p q) < 1 := by
              have : (th d p q - coef rd p q) * (thc d p q - coef rd p q) < 1 * 1 :=
                mul_lt_mul'' (by linarith) (by linarith) (by linarith) (by linarith)
              linarith
            have : |(nextQ d rd p q : ℝ)| < |(q : ℝ)| := by
              rw [e, abs_mul, abs_neg, abs_of_pos hu]
              have : 0 < |(q : ℝ)| := abs_pos.2 h.neR
              nlinarith
            have : |nextQ d rd p q| < |q| := by exact_mod_cast this
            rw [Int.abs_eq_natAbs, Int.abs_eq_natAbs] at this
            exact_mod_cast this
          rcases run_exists hr n _ _ (by omega) hv hg with ⟨l, p', q', h4, h5⟩ | ⟨p', q', h4, h5⟩
          · exact .inl ⟨_, p', q', .step p q hred h4, .cons ha h5⟩
          · exact .inr ⟨p', q', .step h4, h5⟩
        · obtain ⟨h4, h5⟩ := inv_small hcc (by linarith)
          obtain ⟨l, p', q', h6, h7⟩ := run_small hr hv hg h4 h5
          refine .inl ⟨_, p', q', .step p q hred h6, .cons ha ?_⟩
          rcases h7 with ⟨C, hC, rfl⟩ | ⟨D, hD, rfl⟩
          · exact .cons (by omega) .nil
          · exact .cons le_rfl (.cons hD .nil)

end Lagrange
end NumIrr
