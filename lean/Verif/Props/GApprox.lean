/-
C61: rational approximation of generalized continued fractions.
-/
import Verif.Lemmas.GBetween
import Verif.Model.Infinite
import Mathlib.Tactic.NormNum

namespace NumIrr

open Block Filter Topology

namespace GIter

theorem approxLoop_cases (ty : IntTy) (hf : ∀ n, ty.fits n = true) (g : ℕ → ℤ × ℤ) (h0 : (g 0).1 = 1) (v : ℕ → ℚ)
    (hv : ∀ m, nest g m = some (v m)) (limit : ℤ) : ∀ (fuel n : ℕ) (s : GIter),
    ConvAt g (fun k => some (g k)) (n + 1) s →
    approxLoop ty limit fuel s (v n) =
      match (List.range fuel).find? fun j => decide (limit ≤ (v (n + 1 + j)).den) with
      | none => none
      | some j => some (.ok (.approximated (v (n + j)))) := by
  intro fuel
  induction fuel with
  | zero => intro n s _; rfl
  | succ fuel ih =>
    intro n s hs
    obtain ⟨hq, he⟩ := nest_eq h0 (hv (n + 1))
    obtain ⟨s', h1, h2⟩ := (convNext_of hf hs rfl).1 hq
    rw [← he] at h1
    rw [approxLoop, h1]
    simp only
    rw [List.range_succ_eq_map, List.find?_cons]
    by_cases hl : ((v (n + 1)).den : ℤ) < limit
    · rw [if_pos hl, ih (n + 1) s' h2]
      have : decide (limit ≤ ((v (n + 1 + 0)).den : ℤ)) = false := by simpa using hl
      rw [this, List.find?_map]
      simp only [Function.comp_def, Nat.succ_eq_add_one]
      have e : (fun j => decide (limit ≤ ((v (n + 1 + (j + 1))).den : ℤ)))
          = fun j => decide (limit ≤ ((v (n + 1 + 1 + j)).den : ℤ)) := by
        funext j; rw [show n + 1 + (j + 1) = n + 1 + 1 + j by omega]
      rw [e]
      cases (List.range fuel).find? fun j => decide (limit ≤ ((v (n + 1 + 1 + j)).den : ℤ)) with
      | none => rfl
      | some j => simp only [Option.map_some]; congr 4; omega
    · rw [if_neg hl]
      have : decide (limit ≤ ((v (n + 1 + 0)).den : ℤ)) = true := by simpa using hl
      rw [this]
      rfl

/-- what the loop computes, for unbounded integers and fractions all of whose nested fractions are defined: the last
convergent before the first one (after the initial one) whose denominator reaches the limit -/
theorem approximated_eq (ty : IntTy) (hf : ∀ n, ty.fits n = true) (g : ℕ → ℤ × ℤ) (h0 : (g 0).1 = 1) (v : ℕ → ℚ)
    (hv : ∀ m, nest g m = some (v m)) (limit : ℤ) (hl : 1 ≤ limit) (fuel : ℕ) :
    approximated ty (fun k => some (g k)) limit fuel =
      match (List.range fuel).find? fun j => decide (limit ≤ (v (j + 1)).den) with
      | none => none
      | some j => some (.ok (.approximated (v j))) := by
  have hs : ConvAt g (fun k => some (g k)) 0 (GIter.new fun k => some (g k)) := ⟨rfl, rfl, Scal.refl _⟩
  obtain ⟨hq, he⟩ := nest_eq h0 (hv 0)
  obtain ⟨s', h1, h2⟩ := (convNext_of hf hs rfl).1 hq
  rw [← he] at h1
  have hd : ((v 0).den : ℤ) = 1 := by
    have := hv 0
    simp only [nest, Option.some.injEq] at this
    rw [← this]; simp
  unfold approximated
  rw [h1]
  simp only
  rw [if_neg (by omega), approxLoop_cases ty hf g h0 v hv limit fuel 0 s' h2]
  have e : (fun j => decide (limit ≤ ((v (0 + 1 + j)).den : ℤ))) = fun j => decide (limit ≤ ((v (j + 1)).den : ℤ)) := by
    funext j; rw [show 0 + 1 + j = j + 1 by omega]
  rw [e]
  cases (List.range fuel).find? fun j => decide (limit ≤ ((v (j + 1)).den : ℤ)) with
  | none => rfl
  | some j => simp

/-- C61, restricted to positive fractions and unbounded integers: a returned value is a convergent with denominator not
above the limit, the next convergent is the first one to reach the limit, and the number lies between the two.
(Missing: the error is not below `1/limit²`, see `gapprox_refuted`.) -/
theorem gapprox_partial (ty : IntTy) (hf : ∀ n, ty.fits n = true) (g : ℕ → ℤ × ℤ) (hp : PosG g) (x : ℝ) (hx : GVal g x)
    (limit : ℤ) (hl : 1 ≤ limit) (fuel : ℕ) (r : Res (Approx Rat))
    (h : approximated ty (fun k => some (g k)) limit fuel = some r) :
    ∃ (n : ℕ) (v v' : ℚ), r = .ok (.approximated v) ∧ nest g n = some v ∧ nest g (n + 1) = some v' ∧
      (v.den : ℤ) ≤ limit ∧ limit ≤ v'.den ∧ (∀ m u, 1 ≤ m → m ≤ n → nest g m = some u → (u.den : ℤ) < limit) ∧
      |x - v| ≤ |v' - v| := by
  choose v hv _ using fun n => hp.posT.nest_some n
  rw [approximated_eq ty hf g hp.1 v hv limit hl fuel] at h
  cases hf' : (List.range fuel).find? fun j => decide (limit ≤ ((v (j + 1)).den : ℤ)) with
  | none => rw [hf'] at h; cases h
  | some n =>
    rw [hf'] at h
    cases h
    obtain ⟨h1, h2⟩ := List.find?_range_eq_some.mp hf'
    have h2' : ∀ j < n, ((v (j + 1)).den : ℤ) < limit := fun j hj => by simpa using h2.2 j hj
    have hb := hx.between hp (hv n) (hv (n + 1))
    refine ⟨n, v n, v (n + 1), rfl, hv n, hv (n + 1), ?_, by simpa using h1, fun m u m1 mn hu => ?_, ?_⟩
    · cases n with
      | zero =>
        have : ((v 0).den : ℤ) = 1 := by
          have := hv 0
          simp only [nest, Option.some.injEq] at this
          rw [← this]; simp
        omega
      | succ n => exact (h2' n (by omega)).le
    · obtain ⟨m, rfl⟩ : ∃ m', m = m' + 1 := ⟨m - 1, by omega⟩
      rw [hv (m + 1)] at hu
      cases hu
      exact h2' m (by omega)
    · push_cast at hb ⊢
      rcases le_total x (v n) with hx1 | hx1 <;> rcases le_total x (v (n + 1)) with hx2 | hx2
      · rw [abs_of_nonpos (by linarith)]
        rcases le_total ((v (n + 1) : ℚ) : ℝ) (v n) with h3 | h3
        · rw [abs_of_nonpos (by linarith)]; nlinarith
        · rw [abs_of_nonneg (by linarith)]; nlinarith
      · rw [abs_of_nonpos (by linarith), abs_of_nonpos (by linarith)]; linarith
      · rw [abs_of_nonneg (by linarith), abs_of_nonneg (by linarith)]; linarith
      · rw [abs_of_nonneg (by linarith)]
        rcases le_total ((v (n + 1) : ℚ) : ℝ) (v n) with h3 | h3
        · rw [abs_of_nonpos (by linarith)]; nlinarith
        · rw [abs_of_nonneg (by linarith)]; nlinarith

/-- C61, termination: for positive fractions and unbounded integers the call always returns. -/
theorem gapprox_returns (ty : IntTy) (hf : ∀ n, ty.fits n = true) (g : ℕ → ℤ × ℤ) (hp : PosG g) (limit : ℤ)
    (hl : 1 ≤ limit) : ∃ fuel r, approximated ty (fun k => some (g k)) limit fuel = some (.ok r) := by
  choose v hv _ using fun n => hp.posT.nest_some n
  obtain ⟨n, hn⟩ := hp.den_unbounded hv limit.toNat
  cases hf' : (List.range (n + 1)).find? fun j => decide (limit ≤ ((v (j + 1)).den : ℤ)) with
  | none =>
    exfalso
    have := List.find?_eq_none.mp hf' n (by simp)
    simp at this
    omega
  | some m => exact ⟨n + 1, .approximated (v m), by rw [approximated_eq ty hf g hp.1 v hv limit hl (n + 1), hf']⟩

/-- the pairs `(1,1), (2,1), (2,1), …` -/
def two : ℕ → ℤ × ℤ := fun k => if k = 0 then (1, 1) else (2, 1)

theorem two_pos : PosG two := ⟨rfl, by simp [two], fun k => by simp [two]⟩

theorem two_err (n : ℕ) : gP two (n + 1) - 2 * gQ two (n + 1) = (-1) ^ (n + 1) ∧
    gP two (n + 2) - 2 * gQ two (n + 2) = (-1) ^ (n + 2) ∧ (n : ℤ) + 1 ≤ gQ two (n + 2) ∧ 1 ≤ gQ two (n + 1) := by
  induction n with
  | zero => decide
  | succ n ih =>
    obtain ⟨h1, h2, h3, h4⟩ := ih
    have e1 := gP_rec two (n + 1)
    have e2 := gQ_rec two (n + 1)
    have ew : two (n + 1 + 1) = (2, 1) := by simp [two]
    rw [ew] at e1 e2
    refine ⟨h2, ?_, ?_, by rw [show gQ two (n + 1 + 1) = gQ two (n + 2) from rfl]; omega⟩
    · rw [e1, e2]
      have : (-1 : ℤ) ^ (n + 1 + 2) = (-1) ^ (n + 1 + 1) + 2 * (-1) ^ (n + 1) := by ring
      rw [this, ← h1]
      have h2' : gP two (n + 1 + 1) - 2 * gQ two (n + 1 + 1) = (-1) ^ (n + 1 + 1) := h2
      rw [← h2']; ring
    · rw [e2]; push_cast
      have : gQ two (n + 1 + 1) = gQ two (n + 2) := rfl
      omega

/-- `1 + 2/(1 + 2/(1 + …)) = 2` -/
theorem two_val : GVal two 2 := by
  apply CTo.gVal two_pos
  unfold CTo
  rw [Metric.tendsto_atTop]
  intro e he
  obtain ⟨N, hN⟩ := exists_nat_gt (1 / e)
  refine ⟨N + 1, fun n hn => ?_⟩
  obtain ⟨m, rfl⟩ : ∃ m, n = m + 1 := ⟨n - 1, by omega⟩
  obtain ⟨-, h1, h2, -⟩ := two_err m
  have q0 : (0 : ℝ) < gQ two (m + 1 + 1) := by
    exact_mod_cast (by have : gQ two (m + 1 + 1) = gQ two (m + 2) := rfl; omega : (0 : ℤ) < gQ two (m + 1 + 1))
  have h1' : (gP two (m + 1 + 1) : ℝ) - 2 * gQ two (m + 1 + 1) = (-1) ^ (m + 2) := by exact_mod_cast h1
  rw [Real.dist_eq]
  have : (gP two (m + 1 + 1) : ℝ) / gQ two (m + 1 + 1) - 2 = (-1) ^ (m + 2) / gQ two (m + 1 + 1) := by
    rw [← h1']; field_simp
  rw [this, abs_div, abs_pow, abs_neg, abs_one, one_pow, abs_of_pos q0, div_lt_iff₀ q0]
  have hq : (m : ℝ) + 1 ≤ gQ two (m + 1 + 1) := by exact_mod_cast h2
  have hm : (N : ℝ) ≤ m := by exact_mod_cast (by omega : N ≤ m)
  have hN' : 1 < N * e := by rwa [div_lt_iff₀ he] at hN
  nlinarith

/-- C60 is false, also in the limit: the pairs emitted for `[1; 2, 2, …] = √2` denote `2`, while the pairs `(1, cₖ)`
denote no number above `3/2`. -/
theorem generalize_value_refuted :
    (generalize fun k => some (if k = 0 then 1 else 2)) = (fun k => some (two k)) ∧ GVal two 2 ∧
      ∀ x, GVal (fun k => (1, if k = 0 then 1 else 2)) x → x ≤ 3 / 2 := by
  refine ⟨?_, two_val, fun x hx => ?_⟩
  · funext k
    by_cases hk : k = 0 <;> simp [generalize, two, hk]
  · have h := hx.between (n := 0) (v := 1) (v' := 3 / 2) ⟨rfl, by simp, fun k => by simp⟩ (by decide +kernel)
      (by decide +kernel)
    push_cast at h
    by_contra hc
    push Not at hc
    nlinarith

/-- C61 is false as stated.  `1 + 2/(1 + 2/(1 + …)) = 2` is approximated by `5/3` for the limit `4`, an error of `1/3`
rather than below `1/16`.  On `u8` the number `200 + 1/(200 + …)` is said to be exactly `200`.  An empty sequence
panics. -/
theorem gapprox_refuted :
    (approximated IntTy.big (fun k => some (two k)) 4 10 = some (.ok (.approximated (5 / 3))) ∧ PosG two ∧ GVal two 2 ∧
      (1 : ℝ) / 4 ^ 2 < |2 - ((5 / 3 : ℚ) : ℝ)|) ∧
    (approximated (IntTy.unsigned 8) (fun _ => some (1, 200)) 100 10 = some (.ok (.exact 200)) ∧
      approximated IntTy.big (fun _ => some (1, 200)) 100 10
        = some (.ok (.approximated 200))) ∧
    approximated IntTy.big (fun _ => none) 100 10 = some (.error .unwrapNone) := by
  refine ⟨⟨by decide +kernel, two_pos, two_val, ?_⟩, by decide +kernel, by decide +kernel⟩
  push_cast
  rw [abs_of_pos] <;> norm_num

end GIter
end NumIrr
