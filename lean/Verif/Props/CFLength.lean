/-
C106: how many coefficients and steps are needed.
C107: how long the period of a surd is.
-/
import Mathlib.Data.Nat.Fib.Basic
import Verif.Props.CFBest
import Verif.Props.SurdShort
import Verif.Props.CFRat
import Verif.Lemmas.PeriodBound

namespace NumIrr
namespace CF

private theorem den0 (c : CF) : c.den 0 = 1 := by
  have := den_eq c 0
  simp only [trunc, truncTo, List.range_zero, List.map_nil, blockOf, act] at this
  rw [this]; ring

private theorem den1 (c : CF) : c.den 1 = coeffAt c.a c.p 1 := by
  have e1 := den_eq c 1
  rw [block_succ c 0] at e1
  simp only [trunc, truncTo, List.range_zero, List.map_nil, blockOf, act, Block.update] at e1
  rw [e1, den0]; ring

private theorem denSS (c : CF) (n : ℕ) : c.den (n + 2) = coeffAt c.a c.p (n + 2) * c.den (n + 1) + c.den n := by
  have e1 := den_eq c (n + 2)
  rw [block_succ c (n + 1), block_succ c n] at e1
  exact e1

private theorem coeff_pos {c : CF} (h : c.Wf) {n : ℕ} (h1 : 1 ≤ n) (hn : c.HasCoeff n) : 1 ≤ coeffAt c.a c.p n := by
  have := trunc_tail_pos (n := n + 1) h (fun i hi => hasCoeff_mono hn i (by omega))
    ((coeffAt c.a c.p n : Nat) : Int) (by
      obtain ⟨m, rfl⟩ : ∃ m, n = m + 1 := ⟨n - 1, by omega⟩
      rw [trunc_succ]
      have : c.trunc (m + 1) ≠ [] := by rw [trunc_succ]; simp
      rw [List.tail_append_of_ne_nil this]
      simp)
  exact_mod_cast this

private theorem den_fib {c : CF} (h : c.Wf) : ∀ n, c.HasCoeff n → (Nat.fib (n + 1) : ℤ) ≤ c.den n
  | 0, _ => by rw [den0]; rfl
  | 1, hn => trunc_den_pos h hn
  | n + 2, hn => by
    have i1 := den_fib h n (hasCoeff_mono hn n (by omega))
    have i2 := den_fib h (n + 1) (hasCoeff_mono hn (n + 1) (by omega))
    have hc : (1 : ℤ) ≤ coeffAt c.a c.p (n + 2) := by exact_mod_cast coeff_pos h (by omega) hn
    have hp : (1 : ℤ) ≤ c.den (n + 1) := trunc_den_pos h (hasCoeff_mono hn (n + 1) (by omega))
    rw [denSS, show n + 2 + 1 = (n + 1) + 2 by omega, Nat.fib_add_two]
    push_cast
    nlinarith

/-- **C106** denominators grow at least like the Fibonacci numbers. -/
theorem cf_conv_fib (c : CF) (h : c.Wf) (n : ℕ) (hn : c.HasCoeff n) (r : ℚ) (hr : c.conv n = some r) :
    Nat.fib (n + 1) ≤ r.den := by
  obtain ⟨q, h1, -, h3, -⟩ := Fx.conv_fields h hn
  rw [hr] at h1
  rw [Option.some.inj h1, signed_den]
  have := den_fib h n hn
  omega

/-- The bound is attained by the golden ratio. -/
theorem cf_conv_fib_sharp (n : ℕ) : ∃ r, conv ⟨[1], [1], false⟩ n = some r ∧ r.den = Nat.fib (n + 1) := by
  have hw : Wf ⟨[1], [1], false⟩ := by simp [Wf]
  have hc : ∀ m, HasCoeff ⟨[1], [1], false⟩ m := fun m => .inl (by simp)
  have h1 : ∀ m, coeffAt [1] [1] m = 1 := fun m => by
    unfold coeffAt
    split
    · rename_i h
      have : m = 0 := by simpa using h
      subst this; rfl
    · simp [Nat.mod_one]
  have key : ∀ m, den ⟨[1], [1], false⟩ m = Nat.fib (m + 1) ∧ den ⟨[1], [1], false⟩ (m + 1) = Nat.fib (m + 2) := by
    intro m
    induction m with
    | zero => exact ⟨by rw [den0]; rfl, by rw [den1, h1]; rfl⟩
    | succ m ih =>
      refine ⟨ih.2, ?_⟩
      rw [denSS, h1, ih.1, ih.2, show m + 1 + 2 = (m + 1) + 2 from rfl, Nat.fib_add_two (n := m + 1)]
      push_cast; ring
  obtain ⟨q, h2, -, h3, -⟩ := Fx.conv_fields hw (hc n)
  refine ⟨_, h2, ?_⟩
  rw [signed_den]
  have := (key n).1
  omega

/-- **C106** a fraction with `n` coefficients for a rational has a denominator of at least the Fibonacci number `n + 1`; so
`From<Ratio>` finds at most logarithmically many (Lamé's theorem). -/
theorem cf_ofRat_length (r : ℚ) : Nat.fib ((ofRat r).a.length + 1) ≤ r.den := by
  obtain ⟨hcan, hv⟩ := cf_ofRat r
  have hw := hcan.wf
  obtain ⟨hp, ha, -, hl, -⟩ := hcan
  have hpos : 0 < (ofRat r).a.length := List.length_pos_iff.2 ha
  generalize hc : ofRat r = c at *
  obtain ⟨m, hm⟩ : ∃ m, c.a.length = m + 1 := ⟨c.a.length - 1, by omega⟩
  have hn : c.HasCoeff m := .inr (by omega)
  have hconv : c.conv m = some r := by
    rw [← hv]
    show (cfVal (c.trunc (m + 1))).map _ = _
    rw [← hm, trunc_len]; rfl
  obtain ⟨q, h1, -, h3, -⟩ := Fx.conv_fields hw hn
  rw [hconv] at h1
  have hd : (r.den : ℤ) = c.den m := by rw [Option.some.inj h1, signed_den, h3]
  have key : (Nat.fib (m + 2) : ℤ) ≤ c.den m := by
    have hlast : 1 ≤ m → 2 ≤ coeffAt c.a c.p m := by
      intro h2
      have h4 := coeff_pos hw h2 hn
      have h5 : c.a.tail ≠ [] := by
        intro e
        have := congrArg List.length e
        simp at this
        omega
      have h6 := hl h5
      have h7 : coeffAt c.a c.p m = c.a.getLastD 0 := by
        rw [coeffAt_lt _ _ (by omega), List.getLastD_eq_getLast?, List.getLast?_eq_getElem?, show c.a.length - 1 = m by omega]
        simp [List.getElem?_eq_getElem (show m < c.a.length by omega)]
      omega
    match m, hn, hlast with
    | 0, _, _ => rw [den0]; rfl
    | 1, _, hlast =>
      have := hlast le_rfl
      rw [den1]
      show (2 : ℤ) ≤ _
      exact_mod_cast this
    | m + 2, hn, hlast =>
      have i1 := den_fib hw m (hasCoeff_mono hn m (by omega))
      have i2 := den_fib hw (m + 1) (hasCoeff_mono hn (m + 1) (by omega))
      have i3 : (2 : ℤ) ≤ coeffAt c.a c.p (m + 2) := by exact_mod_cast hlast (by omega)
      have e : Nat.fib (m + 2 + 2) = 2 * Nat.fib (m + 2) + Nat.fib (m + 1) := by
        rw [Nat.fib_add_two, show m + 2 + 1 = m + 1 + 2 by omega, Nat.fib_add_two (n := m + 1)]
        rw [show m + 1 + 1 = m + 2 by omega]; omega
      have i4 : (0 : ℤ) ≤ c.den (m + 1) := le_trans (by positivity) i2
      rw [denSS, e]
      push_cast
      rw [show m + 1 + 1 = m + 2 by omega] at i2
      nlinarith
  rw [hm]
  have : (Nat.fib (m + 2) : ℤ) ≤ r.den := by rw [hd]; exact key
  exact_mod_cast this

example : (ofRat (21 / 13)).a = [1, 1, 1, 1, 1, 2] ∧ Nat.fib 7 = 13 := by decide +kernel

/-- **C106** `approximated` reads at most `k + 1` convergents if the limit is at most the Fibonacci number `k + 1`. -/
theorem cf_approximated_steps (c : CF) (h : c.Wf) (limit : ℤ) (hl : 1 ≤ limit) (k : ℕ) (hk : 1 ≤ k)
    (hf : limit ≤ Nat.fib (k + 1)) (fuel : ℕ) (hfu : k ≤ fuel) : ∃ r, c.approximated .big fuel limit = some (.ok r) := by
  have h0 : c.HasCoeff 0 := .inr (List.length_pos_iff.2 h.1)
  obtain ⟨M, rfl⟩ : ∃ M, k = M + 1 := ⟨k - 1, by omega⟩
  have hM : ¬ c.HasCoeff (M + 1) ∨ limit ≤ c.den (M + 1) := by
    by_cases hc : c.HasCoeff (M + 1)
    · exact .inr (le_trans hf (den_fib h _ hc))
    · exact .inl hc
  obtain ⟨q, e1, e2⟩ := convState_next_big h (n := 0) (hasCoeff_mono h0)
  have h3 : (q.den : Int) = c.den 0 := (cfVal_den e2 (trunc_den_pos h h0)).1
  obtain ⟨r, k1, -⟩ := approxLoop_big h limit 0 fuel h0 e2 (by rw [h3, den0]; exact hl) M (by omega) hM (by omega)
  refine ⟨r, ?_⟩
  unfold approximated
  rw [← convState_zero, e1]
  simp only [signed_den]
  rw [if_neg (by rw [h3, den0]; omega)]
  exact k1

/-- For every limit that fits 64 bits 93 rounds are enough. -/
theorem cf_approximated_steps64 (c : CF) (h : c.Wf) (limit : ℤ) (hl : 1 ≤ limit) (hf : limit < 2 ^ 64) :
    ∃ r, c.approximated .big 93 limit = some (.ok r) := by
  refine cf_approximated_steps c h limit hl 93 (by norm_num) ?_ 93 le_rfl
  have : (2 : ℤ) ^ 64 ≤ Nat.fib (93 + 1) := by decide +kernel
  omega

example : approximated .big 93 ⟨[1], [1], false⟩ (2 ^ 64 - 1) =
    some (.ok (.approximated (19740274219868223167 / 12200160415121876738))) := by decide +kernel

end CF

open Lagrange

namespace Surd

/-- **C107** the period of every fraction that the conversion returns has at most `R (R + 1)` coefficients, where
`R = ⌊√d⌋` and `d` is the radicand when the number is written as `(P ± √d)/Q` with `Q ∣ d - P²`. -/
theorem surd_period_length (cfg : Cfg) (s : Surd) (h : s.RealOk) (hr : s.r ≠ 0) (fuel : Nat) (c : CF)
    (hc : s.toContfrac cfg fuel = some (.ok (some c))) : (c.p.length : ℤ) ≤ ⌊√(s.cfDisc : ℝ)⌋ * (⌊√(s.cfDisc : ℝ)⌋ + 1) := by
  obtain ⟨σ, hσ, e⟩ := toContfrac_start cfg h hr
  obtain ⟨p, q, hv, hpos, -, -, hroot, heq, -⟩ := start_spec cfg h hr σ hσ
  rw [e, heq] at hc
  cases hy : cfOfState cfg.debug fuel s.cfDisc (isqrt s.cfDisc) p q σ with
  | none => rw [hy] at hc; cases hc
  | some y =>
    rw [hy] at hc
    cases y with
    | error _ => cases hc
    | ok c' =>
      cases hc
      obtain ⟨l, p', q', ps, -, hred, hper, e', -⟩ := cfOfState_inv hroot hv hpos hy
      rw [hroot.floor]
      have := pRun_length hroot hred hper
      rw [← e'] at this
      simpa [toInts] using this

example : toContfrac ⟨false, true⟩ 20 ⟨0, 1, 1, 94⟩ =
    some (.ok (some ⟨[9], [1, 2, 3, 1, 1, 5, 1, 8, 1, 5, 1, 1, 3, 2, 1, 18], false⟩)) ∧
    cfDisc ⟨0, 1, 1, 94⟩ = 94 ∧ ¬ (16 : ℤ) ≤ 9 := by decide +kernel

/-- **C107** so numbers with a conjugate of opposite sign, in particular square roots, are converted with at most
`max 2 (R (R + 1))` rounds of either loop. -/
theorem surd_toContfrac_steps (cfg : Cfg) (s : Surd) (h : s.RealOk) (hn : s.a * s.a < s.r * s.b * s.b) (fuel : Nat)
    (hf : 2 ≤ fuel) (hf' : ⌊√(s.cfDisc : ℝ)⌋ * (⌊√(s.cfDisc : ℝ)⌋ + 1) ≤ fuel) :
    ∃ c, s.toContfrac cfg fuel = some (.ok (some c)) := by
  have hr : s.r ≠ 0 := fun e => by
    rw [e] at hn
    have := mul_self_nonneg s.a
    omega
  obtain ⟨N, c, h1, -⟩ := surd_toContfrac_returns_partial cfg s h hn
  have h2 := h1 (max N fuel) (by omega)
  obtain ⟨σ, hσ, e⟩ := toContfrac_start cfg h hr
  obtain ⟨p, q, hv, hpos, -, hneg, hroot, heq, -⟩ := start_spec cfg h hr σ hσ
  refine ⟨c, ?_⟩
  rw [← h2, e, e, heq, heq]
  congr 1
  obtain ⟨-, l, p', q', hrun, hl, -⟩ := neg_conj_run hroot hv hpos (hneg hn)
  obtain ⟨hv', hred'⟩ := hrun.valid hroot hv
  obtain ⟨ns, -, -, hper, -⟩ := period_spec hroot ⟨hv', hred'⟩
  have hlen := pRun_length hroot ⟨hv', hred'⟩ hper
  rw [hroot.floor] at hf'
  unfold cfOfState
  rw [headLoop_of_run hroot hrun hv fuel (by omega) [], headLoop_of_run hroot hrun hv (max N fuel) (by omega) []]
  simp only
  rw [periodLoop_of_pRun hroot hper hv' fuel (by omega) [], periodLoop_of_pRun hroot hper hv' (max N fuel) (by omega) []]

example : RealOk ⟨0, 1, 1, 94⟩ ∧ (0 : ℤ) * 0 < 94 * 1 * 1 ∧ isqrt 94 = 9 := by decide +kernel

end Surd
end NumIrr
