/-
C47: the generalized continued fraction of `π`.
-/
import Verif.Lemmas.PiInt
import Verif.Model.Symbols
import Verif.Props.GConvergents
import Verif.Props.Simplify
import Verif.Props.Decimals
import Mathlib.Analysis.Real.Pi.Irrational

namespace NumIrr

open Filter Topology

namespace PiCoeffs

theorem stream_from (n k : ℕ) : stream next ⟨(n : ℤ) + 1, 2 * n + 3⟩ k = some (piPair (n + 2 + k)) := by
  induction k generalizing n with
  | zero =>
    have h1 : ((n : ℤ) + 1) ≠ 0 := by omega
    have h2 : (2 * (n : ℤ) + 3) ≠ 0 := by omega
    simp only [stream, next, if_neg h1, if_neg h2, Nat.add_zero, piPair_succ]
    congr 2
    ring
  | succ k ih =>
    have h1 : ((n : ℤ) + 1) ≠ 0 := by omega
    have h2 : (2 * (n : ℤ) + 3) ≠ 0 := by omega
    have : (next ⟨(n : ℤ) + 1, 2 * n + 3⟩).2 = ⟨((n + 1 : ℕ) : ℤ) + 1, 2 * ((n + 1 : ℕ) : ℤ) + 3⟩ := by
      simp only [next, if_neg h1, if_neg h2]
      push_cast
      congr 1
    rw [stream, this, ih (n + 1)]
    congr 2
    omega

/-- C47, the pairs: `(1,0)`, `(4,1)`, then `(k², 2k+1)` for `k = 1, 2, …`. -/
theorem pi_pairs (k : ℕ) : stream next new k =
    some (if k = 0 then (1, 0) else if k = 1 then (4, 1) else (((k : ℤ) - 1) ^ 2, 2 * ((k : ℤ) - 1) + 1)) := by
  have h : stream next new k = some (piPair k) := by
    rcases k with _ | _ | k
    · rfl
    · rfl
    · have h := stream_from 0 k
      have s : (next (next new).2).2 = ⟨((0 : ℕ) : ℤ) + 1, 2 * ((0 : ℕ) : ℤ) + 3⟩ := rfl
      rw [stream, stream, s, h]
      congr 2
      omega
  rw [h]
  unfold piPair
  congr 3
  congr 1
  ring

theorem stream_eq : stream next new = fun k => some (piPair k) := by
  funext k
  rw [pi_pairs]
  unfold piPair
  congr 3
  congr 1
  ring

/-- C47, the value: the convergents tend to `π`. -/
theorem pi_value (g : ℕ → ℤ × ℤ) (hg : ∀ k, stream next new k = some (g k)) : GVal g Real.pi := by
  have : g = piPair := by
    funext k
    have := hg k
    rw [stream_eq] at this
    exact (Option.some.inj this).symm
  rw [this]
  exact piPair_val

/-- C47: for unbounded integers `convergents` computes for ever, and what it yields tends to `π`. -/
theorem pi_convergents (ty : IntTy) (hf : ∀ n, ty.fits n = true) :
    ∃ v : ℕ → ℚ, Tendsto (fun n => (v n : ℝ)) atTop (𝓝 Real.pi) ∧
      ∀ n, ∃ s, Outs (GIter.ConvCall ty) (GIter.new (stream next new)) ((List.range n).map v) s := by
  obtain ⟨v, hv, h⟩ := GIter.gconv_positive ty hf piPair piPair_pos
  refine ⟨v, ?_, ?_⟩
  · obtain ⟨u, hu, hl⟩ := piPair_val
    refine hl.congr' ?_
    filter_upwards [hu] with n hn
    rw [hv n] at hn
    rw [Option.some.inj hn]
  · rw [stream_eq]; exact h

/-- C47: `simplify` computes the coefficients of the regular expansion of `π` for ever. -/
theorem pi_simplify (n : ℕ) :
    ∃ s, Outs GIter.SimpCall (GIter.new (stream next new)) ((List.range n).map fun k => ⌊tails Real.pi k⌋) s := by
  rw [stream_eq]
  exact GIter.simplify_productive piPair piPair_pos Real.pi piPair_val irrational_pi n

/-- C47: for unbounded integers `decimals` computes the decimal digits of `π` for ever. -/
theorem pi_decimals (cfg : Cfg) (ty : IntTy) (hf : ∀ n, ty.fits n = true) (n : ℕ) :
    ∃ s, Outs (GIter.DecCall cfg ty) (GIter.new (stream next new))
      ((List.range n).map fun k => (48 + ⌊10 ^ k * Real.pi⌋ % 10).toNat) s := by
  rw [stream_eq]
  exact GIter.decimals_productive cfg ty hf piPair piPair_pos Real.pi piPair_val (by linarith [Real.pi_le_four]) irrational_pi n

/-- C47: on every bounded integer type with overflow checks the emitted digits are digits of `π`. -/
theorem pi_decimals_bounded (cfg : Cfg) (hd : cfg.debug = true) (ty : IntTy) {outs : List ℕ} {s : GIter}
    (h : Outs (GIter.DecCall cfg ty) (GIter.new (stream next new)) outs s) (n : ℕ) (hn : n < outs.length) :
    (outs[n] : ℤ) = 48 + ⌊10 ^ n * Real.pi⌋ % 10 := by
  rw [stream_eq] at h
  exact GIter.decimals_partial cfg ty (Or.inl hd) piPair piPair_pos Real.pi piPair_val (by linarith [Real.pi_le_four]) h n hn

example : (List.range 5).map (stream next new) = [some (1, 0), some (4, 1), some (1, 3), some (4, 5), some (9, 7)] := by
  decide +kernel

end PiCoeffs
end NumIrr
