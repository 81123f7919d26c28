/-
C95: the value of the generalized continued fraction of Euler's constant.
-/
import Verif.Lemmas.GammaTails
import Verif.Props.Simplify
import Verif.Props.Decimals

namespace NumIrr

open Filter Topology

namespace GammaCoeffs

/-- the items of `Gamma::gfrac` as an input of the adapters (symbols.rs, lines 126-217); a panic would be an end -/
def src (k : ℕ) : Option (ℤ × ℤ) :=
  match streamR next new k with
  | .ok r => r
  | .error _ => none

/-- Nothing is hidden by that reading: no call panics or ends. -/
theorem gamma_src (k : ℕ) : (∃ p, src k = some p) ∧ streamR next new k = .ok (src k) := by
  obtain ⟨g, hg⟩ := stream_exists
  unfold src
  rw [hg]
  exact ⟨⟨_, rfl⟩, rfl⟩

theorem src_isGam : ∃ g : ℕ → ℤ × ℤ, src = (fun k => some (g k)) ∧ IsGam g := by
  obtain ⟨g, hg⟩ := stream_exists
  refine ⟨g, funext fun k => ?_, stream_isGam hg⟩
  unfold src
  rw [hg]

/-- C95: every nested fraction `b₀ + a₁/(b₁ + … + aₙ/bₙ)` of the emitted pairs is defined, and it is the quotient `p_n/q_n`
of the sums over binomial coefficients and harmonic numbers. -/
theorem gamma_nested (g : ℕ → ℤ × ℤ) (hg : ∀ k, src k = some (g k)) (n : ℕ) : nest g n = some (gamP n / gamQ n) := by
  obtain ⟨g', h1, h2⟩ := src_isGam
  have : g = g' := funext fun k => by have := hg k; rw [h1] at this; exact (Option.some.inj this).symm
  rw [this]
  exact gam_nest h2 n

/-- C95, the value: the generalized continued fraction converges to Euler's constant. -/
theorem gamma_value (g : ℕ → ℤ × ℤ) (hg : ∀ k, src k = some (g k)) : GVal g Real.eulerMascheroniConstant :=
  ⟨fun n => gamP n / gamQ n, Eventually.of_forall fun n => gamma_nested g hg n, gamma_tendsto⟩

/-- C95: for unbounded integers `convergents` computes for ever, and what it yields tends to Euler's constant. -/
theorem gamma_convergents (ty : IntTy) (hf : ∀ n, ty.fits n = true) :
    Tendsto (fun n => ((gamP n / gamQ n : ℚ) : ℝ)) atTop (𝓝 Real.eulerMascheroniConstant) ∧
    ∀ n, ∃ s, Outs (GIter.ConvCall ty) (GIter.new src) ((List.range n).map fun m => gamP m / gamQ m) s := by
  refine ⟨gamma_tendsto, fun n => ?_⟩
  obtain ⟨g, h1, h2⟩ := src_isGam
  rw [h1]
  exact GIter.gconv_all ty hf g (by rw [h2.1]) _ n fun m _ => gam_nest h2 m

/-- the first convergents `0, 1/2, 4/7, 59/102, 725/1254` -/
example : GIter.convRun IntTy.big 5 (GIter.new src) = ([some 0, some (1 / 2), some (4 / 7), some (59 / 102), some (725 / 1254)], none) ∧
    gamP 4 / gamQ 4 = 725 / 1254 := by decide +kernel

/-- C95: from the fourth on the convergents decrease and lie above Euler's constant. -/
theorem gamma_above (n : ℕ) : Real.eulerMascheroniConstant < ((gamP (n + 4) / gamQ (n + 4) : ℚ) : ℝ) ∧
    gamP (n + 4) / gamQ (n + 4) < gamP (n + 3) / gamQ (n + 3) :=
  ⟨gamma_lt (n + 1), gam_conv_lt n⟩

/-- the rest of the fraction behind the `k`-th pair, divided by the partial numerator -/
noncomputable def rest (g : ℕ → ℤ × ℤ) (k : ℕ) : ℝ :=
  match k with
  | 0 => Real.eulerMascheroniConstant
  | 1 => 1 / Real.eulerMascheroniConstant
  | k + 2 => gamU k / (g (k + 2)).1

theorem gamE_ne (n : ℕ) : gamE n ≠ 0 := by
  have g1 := Real.one_half_lt_eulerMascheroniConstant
  rcases n with _ | _ | _ | n
  · unfold gamE
    rw [show gamP 0 = 0 by decide +kernel, show gamQ 0 = 1 by decide +kernel]
    push_cast
    intro e; linarith
  · unfold gamE
    rw [show gamP 1 = 1 by decide +kernel, show gamQ 1 = 2 by decide +kernel]
    push_cast
    intro e; linarith
  · exact gamE_two_neg.ne
  · exact (gamE_pos n).ne'

theorem gamA_ne (n : ℕ) : gamA (n + 2) ≠ 0 := by
  unfold gamA
  exact div_ne_zero (neg_ne_zero.mpr (gamS_ne _)) (gamS_ne _)

theorem gamU_ne (k : ℕ) : gamU k ≠ 0 := by
  unfold gamU
  refine neg_ne_zero.mpr (div_ne_zero (mul_ne_zero (mul_ne_zero ?_ ?_) (gamE_ne _)) (gamE_ne _))
  · exact_mod_cast gamRho_ne _
  · exact_mod_cast gamA_ne k

theorem rest_step {g : ℕ → ℤ × ℤ} (h : IsGam g) (k : ℕ) :
    (g k).1 ≠ 0 ∧ rest g (k + 1) ≠ 0 ∧ (g k).1 * rest g k = (g k).2 + 1 / rest g (k + 1) := by
  have g1 := Real.one_half_lt_eulerMascheroniConstant
  have g0 : Real.eulerMascheroniConstant ≠ 0 := by intro e; linarith
  have num : ∀ k, (g (k + 2)).1 ≠ 0 := by
    intro k e
    have := (h.2.2 k).1
    rw [e] at this
    push_cast at this
    exact mul_ne_zero (mul_ne_zero (gamRho_ne _) (gamRho_ne _)) (gamA_ne k) this.symm
  have num' : ∀ k, ((g (k + 2)).1 : ℝ) ≠ 0 := fun k => by exact_mod_cast num k
  rcases k with _ | _ | k
  · rw [h.1]
    refine ⟨by norm_num, one_div_ne_zero g0, ?_⟩
    simp [rest]
  · rw [Nat.zero_add, h.2.1]
    refine ⟨by norm_num, div_ne_zero (gamU_ne 0) (num' 0), ?_⟩
    have a2 : (g 2).1 = -1 := by rw [(gam_first h).2.2.1]
    have u : gamU 0 = Real.eulerMascheroniConstant / (2 * Real.eulerMascheroniConstant - 1) := by
      unfold gamU gamE
      rw [show gamP 0 = 0 by decide +kernel, show gamQ 0 = 1 by decide +kernel, show gamP (0 + 1) = 1 by decide +kernel,
        show gamQ (0 + 1) = 2 by decide +kernel, show gamRho (0 + 2) = 1 by decide +kernel, show gamA (0 + 2) = -1 by decide +kernel]
      push_cast
      have d1 : 2 * Real.eulerMascheroniConstant - 1 ≠ 0 := by intro e; linarith
      have d2 : 1 - Real.eulerMascheroniConstant * 2 ≠ 0 := by intro e; linarith
      rw [zero_sub, mul_one, neg_eq_iff_eq_neg, ← neg_div, div_eq_div_iff d2 d1]
      ring
    show ((1 : ℤ) : ℝ) * (1 / Real.eulerMascheroniConstant) = ((2 : ℤ) : ℝ) + 1 / (gamU 0 / (g (0 + 2)).1)
    rw [u, show (g (0 + 2)).1 = -1 from a2]
    have d1 : 2 * Real.eulerMascheroniConstant - 1 ≠ 0 := by intro e; linarith
    push_cast
    field_simp
    ring
  · refine ⟨num k, div_ne_zero (gamU_ne (k + 1)) (num' (k + 1)), ?_⟩
    have e := (gamU_step k (gamE_ne _) (gamE_ne _) h (gamA_ne (k + 1))).1
    show ((g (k + 2)).1 : ℝ) * (gamU k / (g (k + 2)).1) = (g (k + 2)).2 + 1 / (gamU (k + 1) / (g (k + 1 + 2)).1)
    rw [mul_div_cancel₀ _ (num' k), one_div_div, ← e]

/-- C95, restricted: whatever `simplify` yields on the pairs of Euler's constant, the outputs followed by the block applied to
the rest of the fraction are Euler's constant.  Missing: the outputs need not be the coefficients of the regular expansion
(`gamma_simplify_refuted`). -/
theorem gamma_simplify_partial {outs : List ℤ} {s : GIter} (h : Outs GIter.SimpCall (GIter.new src) outs s) :
    ∃ w : ℝ, ∃ lam : ℝ, lam ≠ 0 ∧
      nestPair outs (s.block.pm1 * w + s.block.pm2, s.block.qm1 * w + s.block.qm2) = (lam * Real.eulerMascheroniConstant, lam) := by
  obtain ⟨g, h1, h2⟩ := src_isGam
  obtain ⟨-, lam, l0, e⟩ := GIter.simplify_value src (rest g) (fun k a b hk => by
    rw [h1] at hk
    have hk' : g k = (a, b) := Option.some.inj hk
    have := rest_step h2 k
    rw [hk'] at this
    exact this) h
  exact ⟨_, lam, l0, e⟩

/-- the outputs of the first `n` calls of `simplify` -/
def simpRun (fuel : ℕ) : ℕ → GIter → List ℤ
  | 0, _ => []
  | n + 1, s =>
    match GIter.simpNext fuel s with
    | some (some i, s') => i :: simpRun fuel n s'
    | _ => []

/-- C95 is false of `simplify`: the partial numerators are not positive, so two convergents with the same integer part do not
determine it.  The outputs contain negative numbers and zero; the author noticed that (symbols.rs, line 250). -/
theorem gamma_simplify_refuted :
    simpRun 20 12 (GIter.new src) = [0, 1, 1, 2, 1, 2, 1, 3, 1, -4, -1, 0] := by decide +kernel

/-- C95 is false of `decimals`: it yields `0578` and then panics, in both kinds of build, over unbounded integers and over
`i128` (over `i64` it ends there); but Euler's constant is less than `0.578` (it begins with `0.5772`). -/
theorem gamma_decimals_refuted :
    (∀ cfg ∈ [Cfg.mk false false, ⟨false, true⟩], 
      GIter.decRun cfg IntTy.big 20 5 (GIter.new src) = ([48, 53, 55, 56], some .unwrapNone) ∧
      GIter.decRun cfg (IntTy.signed 128) 20 5 (GIter.new src) = ([48, 53, 55, 56], some .unwrapNone) ∧
      GIter.decRun cfg (IntTy.signed 64) 20 5 (GIter.new src) = ([48, 53, 55, 56], none)) ∧
    Real.eulerMascheroniConstant < 0.578 := by
  refine ⟨by decide +kernel, ?_⟩
  refine (gamma_lt 2).trans ?_
  have : gamP 5 / gamQ 5 < 578 / 1000 := by decide +kernel
  have h : ((gamP 5 / gamQ 5 : ℚ) : ℝ) < ((578 / 1000 : ℚ) : ℝ) := by exact_mod_cast this
  refine h.trans_le ?_
  norm_num

/-- a run of `simplify` to which the restricted statement applies: the first output is `0` -/
example : ∃ s, Outs GIter.SimpCall (GIter.new src) [0] s := by
  refine ⟨⟨⟨2, 1, 1, 0⟩, src, 2⟩, ?_⟩
  refine Outs.snoc (Outs.nil _) ⟨5, fun fuel hf => ?_⟩
  obtain ⟨f, rfl⟩ := Nat.exists_eq_add_of_le hf
  rw [Nat.add_comm]
  rfl

end GammaCoeffs
end NumIrr
