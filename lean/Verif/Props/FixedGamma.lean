/-
C86: the coefficients of Euler's constant over signed primitive integers.
-/
import Verif.Lemmas.FixedGamma
import Verif.Lemmas.FixedSqrt

namespace NumIrr

theorem gamQ_ge (n : ℕ) : n + 1 ≤ gamQ n := by
  unfold gamQ
  calc n + 1 = ∑ _k ∈ Finset.range (n + 1), 1 := by simp
    _ ≤ _ := Finset.sum_le_sum fun k hk => by
      have h1 : 0 < n.choose k := Nat.choose_pos (by have := Finset.mem_range.1 hk; omega)
      have h2 := k.factorial_pos
      exact Nat.one_le_iff_ne_zero.2 (by positivity)

/-- the pair number `k` of the fraction of the paper, made integral -/
def IsGamItem (k : Nat) (p : Int × Int) : Prop :=
  (k = 0 → p = (1, 0)) ∧ (k = 1 → p = (1, 2)) ∧
    (2 ≤ k → (p.1 : ℚ) = gamRho k * gamRho (k - 1) * gamA k ∧ (p.2 : ℚ) = gamRho k * gamB k)

namespace Fx

variable {x : Fx}

/-- the `k`-th item of `Gamma::gfrac` -/
def gamItem (x : Fx) (k : Nat) : Res (Option (Int × Int)) := do
  let s ← x.gamNew
  streamR x.gamNext s k

theorem gamStep_q (hw : 2 ≤ x.w) (s : Gam) : Ens (x.gamStep s) fun r => x.Holds r.2.qm1 := by
  unfold gamStep
  iterate 4 refine Ens.bind Ens.triv fun _ _ => ?_
  refine Ens.bind (ret_holds hw _) fun q hq => ?_
  iterate 18 refine Ens.bind Ens.triv fun _ _ => ?_
  exact Ens.pure hq

theorem gam_from (hx : x.checks = true) (hw : 2 ≤ x.w) (n : Nat) (s : GammaCoeffs) (h : GammaCoeffs.At (n + 2) s)
    (hq : x.Holds s.qm1) (k : Nat) : streamR x.gamNext (gamOf s) k = .error .overflow ∨
      ∃ p, streamR x.gamNext (gamOf s) k = .ok (some p) ∧ IsGamItem (n + 2 + k) p := by
  have hn : s.n = n + 2 := by rw [show s = _ from h]
  have hs : s.sm1 ≠ 0 := by rw [show s = _ from h]; exact gamS_ne _
  have hfit : x.fits (s.n : Int) = true := by
    apply holds_fits
    have h1 := gamQ_ge (n + 1)
    have h2 : s.qm1 = (gamQ (n + 1) : ℤ) := by rw [show s = _ from h]; rfl
    unfold Holds at hq ⊢
    rw [h2] at hq
    omega
  have hnext : x.gamNext (gamOf s) = x.gamStep (gamOf s) := by
    unfold gamNext
    have e : (gamOf s).n = s.n := rfl
    rw [e, if_neg (by omega), if_neg (by omega), if_pos hfit]
  obtain ⟨p, s', e1, e2, e3, -⟩ := gamStep_ref hx (st := s) (by omega) hs
  obtain ⟨p', s'', c1, c2, c3, c4⟩ := GammaCoeffs.next_at n s h
  unfold GammaCoeffs.Call at c1
  rw [c1] at e1
  simp only [Except.ok.injEq, Prod.mk.injEq, Option.some.injEq] at e1
  obtain ⟨rfl, rfl⟩ := e1
  rcases e2 with e2 | e2
  · have hq' : x.Holds s''.qm1 := gamStep_q hw _ _ e2
    cases k with
    | zero =>
      refine Or.inr ⟨p', ?_, fun h => by omega, fun h => by omega, fun _ => ⟨c3, c4⟩⟩
      unfold streamR
      rw [hnext, e2]
      rfl
    | succ k =>
      have := gam_from hx hw (n + 1) s'' c2 hq' k
      unfold streamR
      rw [hnext, e2, Surd.ok_bind, show n + 2 + (k + 1) = n + 1 + 2 + k by omega]
      exact this
  · left
    refine streamR_error_mono (n := 0) ?_ k (Nat.zero_le _)
    unfold streamR
    rw [hnext, e2]
    rfl
termination_by k

theorem gamNew_eq (hw : 4 ≤ x.w) : x.gamNew = .ok (gamOf GammaCoeffs.new) := by
  have h8 : (8 : Int) ≤ 2 ^ (x.w - 1) := by
    calc (8 : Int) = 2 ^ 3 := by norm_num
      _ ≤ 2 ^ (x.w - 1) := pow_le_pow_right₀ (by norm_num) (by omega)
  have r : ∀ v : Int, -8 ≤ v → v < 8 → x.ret v = .ok v := by
    intro v h1 h2
    unfold ret
    rw [if_pos (holds_fits (by unfold Holds; omega))]
  unfold gamNew add rtNeg neg
  rw [r (1 + 1) (by norm_num) (by norm_num), Surd.ok_bind]
  simp only
  rw [r (-1) (by norm_num) (by norm_num)]
  rfl

/-- C86: with overflow checks the iterator never ends; every item that it yields is exactly the one of the fraction, and
otherwise it panics with an overflow. -/
theorem prim_gamma_partial (hx : x.checks = true) (hw : 4 ≤ x.w) (k : Nat) :
    x.gamItem k = .error .overflow ∨ ∃ p, x.gamItem k = .ok (some p) ∧ IsGamItem k p := by
  unfold gamItem
  rw [gamNew_eq hw, Surd.ok_bind]
  have n0 : x.gamNext (gamOf GammaCoeffs.new) = .ok (some (1, 0), gamOf { GammaCoeffs.new with n := 1 }) := rfl
  have n1 : x.gamNext (gamOf { GammaCoeffs.new with n := 1 }) = .ok (some (1, 2), gamOf { GammaCoeffs.new with n := 2 }) := rfl
  rcases k with _ | _ | k
  · right
    unfold streamR
    rw [n0]
    exact ⟨_, rfl, fun _ => rfl, fun h => by omega, fun h => by omega⟩
  · right
    unfold streamR
    rw [n0, Surd.ok_bind]
    unfold streamR
    rw [n1]
    exact ⟨_, rfl, fun h => by omega, fun _ => rfl, fun h => by omega⟩
  · unfold streamR
    rw [n0, Surd.ok_bind]
    unfold streamR
    rw [n1, Surd.ok_bind]
    have h8 : (8 : Int) ≤ 2 ^ (x.w - 1) := by
      calc (8 : Int) = 2 ^ 3 := by norm_num
        _ ≤ 2 ^ (x.w - 1) := pow_le_pow_right₀ (by norm_num) (by omega)
    have := gam_from hx (by omega) 0 { GammaCoeffs.new with n := 2 } (by unfold GammaCoeffs.At GammaCoeffs.new; decide +kernel)
      (by show x.Holds (1 + 1); unfold Holds; omega) k
    rw [show k + 1 + 1 = 0 + 2 + k by omega]
    exact this

/-- C86, release builds: whatever a checked call yields, the unchecked one yields too. -/
theorem prim_gamma_rel (hx : x.checks = true) (k : Nat) : Refines (x.gamItem k) (x.rel.gamItem k) := by
  unfold gamItem
  refine Refines.bind ?_ fun s _ => streamR_rel (gamNext_rel hx) s k
  unfold gamNew
  refine Refines.bind (ret_rel hx _) fun _ _ => ?_
  exact Refines.bind (rtNeg_rel hx _) fun _ _ => .rfl'

/-- the number of items for each type -/
theorem gamma_count_aux : ∀ p ∈ [(8, 4), (16, 6), (32, 7), (64, 10), (128, 15)], ∀ k : Nat,
    k < p.2 → ((Fx.mk p.1 true).gamItem k).isOk = true := by
  decide +kernel

/-- C86, the number of items with checks: 4 over `i8`, 6 over `i16`, 7 over `i32`, 10 over `i64` and 15 over `i128`; the
calls after that panic. -/
theorem prim_gamma_count : ∀ p ∈ [(8, 4), (16, 6), (32, 7), (64, 10), (128, 15)], ∀ k : Nat,
    (k < p.2 → ∃ v, (Fx.mk p.1 true).gamItem k = .ok (some v) ∧ IsGamItem k v) ∧
    (p.2 ≤ k → (Fx.mk p.1 true).gamItem k = .error .overflow) := by
  intro p hp k
  have hw : 4 ≤ p.1 := by
    simp only [List.mem_cons, List.not_mem_nil, or_false] at hp
    rcases hp with rfl | rfl | rfl | rfl | rfl <;> norm_num
  constructor
  · intro hk
    have h := gamma_count_aux p hp k hk
    rcases prim_gamma_partial (x := ⟨p.1, true⟩) rfl hw k with e | e
    · rw [e] at h; cases h
    · exact e
  · intro hk
    have h : ∀ p ∈ [(8, 4), (16, 6), (32, 7), (64, 10), (128, 15)],
        streamR (Fx.mk p.1 true).gamNext (gamOf GammaCoeffs.new) p.2 = .error .overflow := by decide +kernel
    unfold gamItem
    rw [gamNew_eq (x := ⟨p.1, true⟩) hw, Surd.ok_bind]
    exact streamR_error_mono (h p hp) k hk

/-- C86 refuted: a panic does not mean that the item is not representable.  Over `i8` the fifth item is `(36, 59)`. -/
theorem prim_gamma_early_refuted : (Fx.mk 8 true).gamItem 4 = .error .overflow ∧ IsGamItem 4 (36, 59) := by
  refine ⟨by decide +kernel, fun h => by omega, fun h => by omega, fun _ => ?_⟩
  decide +kernel

/-- C86 refuted without checks: over each type some item is wrong; the partial numerators below are
`-15740`, `-1489700`, `-9335273589`, `-731699345586870931590` and
`-2254926206333017751564432761641815069842445` in truth. -/
theorem prim_gamma_refuted : ∀ p ∈ [(8, 5, (4, -108)), (16, 6, (-25, 30422)), (32, 7, (-745338997, 1483096)),
      (64, 10, (6170417361511133050, 538127688544)), (128, 15, (-75009364138916298, 44934167831612253656744))],
    (Fx.mk p.1 false).gamItem p.2.1 = .ok (some p.2.2) ∧ ¬ IsGamItem p.2.1 p.2.2 := by
  have h1 : ∀ p ∈ [(8, 5, ((4 : Int), (-108 : Int))), (16, 6, (-25, 30422)), (32, 7, (-745338997, 1483096)),
      (64, 10, (6170417361511133050, 538127688544)), (128, 15, (-75009364138916298, 44934167831612253656744))],
    (Fx.mk p.1 false).gamItem p.2.1 = .ok (some p.2.2) ∧ 2 ≤ p.2.1 ∧
      ¬ (p.2.2.1 : ℚ) = NumIrr.gamRho p.2.1 * NumIrr.gamRho (p.2.1 - 1) * gamA p.2.1 := by decide +kernel
  intro p hp
  obtain ⟨e1, e2, e3⟩ := h1 p hp
  exact ⟨e1, fun h => e3 (h.2.2 e2).1⟩

example : IsGamItem 5 (-15740, 404) ∧ (Fx.mk 16 true).gamItem 5 = .ok (some (-15740, 404)) := by
  refine ⟨⟨fun h => by omega, fun h => by omega, fun _ => ?_⟩, by decide +kernel⟩
  decide +kernel

end Fx
end NumIrr
