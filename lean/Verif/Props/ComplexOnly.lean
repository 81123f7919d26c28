/-
C140: which functions refuse complex numbers.
-/
import Verif.Props.SurdRound
import Verif.Model.FixedSurd

namespace NumIrr
namespace Surd

/-- a result that refuses exactly under the condition `p`, with the message of `panic_if_complex`, and returns otherwise -/
def RefusesIff {α : Type} (r : Res α) (p : Prop) : Prop :=
  (p → r = .error .complexUnsupported) ∧ (¬ p → ∃ v, r = .ok v)

private theorem pic_err {cfg : Cfg} {s : Surd} (hc : cfg.complex = true) (h : s.r < 0) :
    panicIfComplex cfg s = .error .complexUnsupported := by
  unfold panicIfComplex
  rw [if_pos ⟨hc, h⟩]

/-- **C140** a number of any build: `to_integer`, `to_rational`, `floor`, `is_positive` and `is_negative` panic with the
message on complex numbers exactly for the numbers that are not real, and return for all others. -/
theorem surd_refuses_complex (cfg : Cfg) (s : Surd) (h : s.Ok cfg) :
    RefusesIff (toInteger cfg s) (s.valC.im ≠ 0) ∧ RefusesIff (toRational cfg s) (s.valC.im ≠ 0) ∧
      RefusesIff (floor cfg s) (s.valC.im ≠ 0) ∧ RefusesIff (isPositive cfg s) (s.valC.im ≠ 0) ∧
      RefusesIff (isNegative cfg s) (s.valC.im ≠ 0) := by
  by_cases hr : s.r < 0
  · have hc : cfg.complex = true := by
      by_contra hc
      have := h.real (by simpa using hc)
      omega
    have e := pic_err hc hr
    have him : s.valC.im ≠ 0 := by
      have hb : s.b ≠ 0 := fun hb => absurd (h.rational.1 hb) (by omega)
      have hq : Real.sqrt (-(s.r : ℝ)) ≠ 0 := by
        have h1 : (s.r : ℝ) < 0 := by exact_mod_cast hr
        exact (Real.sqrt_pos.2 (by linarith)).ne'
      have hcc : (s.c : ℝ) ≠ 0 := by exact_mod_cast h.c_pos.ne'
      have e1 : s.valC = (((s.a : ℝ) / s.c : ℝ) : ℂ) + ((s.b * Real.sqrt (-(s.r : ℝ)) / s.c : ℝ) : ℂ) * Complex.I := by
        unfold valC quadC rootC
        rw [if_neg (by omega)]
        push_cast
        ring
      rw [e1]
      simp [hb, hq, hcc]
    refine ⟨⟨fun _ => ?_, fun n => absurd him n⟩, ⟨fun _ => ?_, fun n => absurd him n⟩, ⟨fun _ => ?_, fun n => absurd him n⟩,
      ⟨fun _ => ?_, fun n => absurd him n⟩, ⟨fun _ => ?_, fun n => absurd him n⟩⟩
    · unfold toInteger; rw [e]; rfl
    · unfold toRational; rw [e]; rfl
    · unfold floor; rw [e]; rfl
    · unfold isPositive; rw [e]; rfl
    · unfold isNegative; rw [e]; rfl
  · have hR : s.RealOk := ⟨h.toNormal, by omega⟩
    have him : ¬ s.valC.im ≠ 0 := by
      rw [hR.valC]; simp
    have hp := panicIfComplex_ok (cfg := cfg) hR.2
    refine ⟨⟨fun n => absurd n him, fun _ => ?_⟩, ⟨fun n => absurd n him, fun _ => ?_⟩, ⟨fun n => absurd n him, fun _ => ?_⟩,
      ⟨fun n => absurd n him, fun _ => ?_⟩, ⟨fun n => absurd n him, fun _ => ?_⟩⟩
    · obtain ⟨v, hv, -⟩ := surd_toInteger cfg s hR
      exact ⟨v, hv⟩
    · obtain ⟨v, hv, -⟩ := surd_toRational_partial cfg s hR
      exact ⟨v, hv⟩
    · exact ⟨_, floor_spec hR⟩
    · unfold isPositive; rw [hp]; exact ⟨_, rfl⟩
    · unfold isNegative; rw [hp]; exact ⟨_, rfl⟩

example : floor ⟨true, false⟩ ⟨1, 2, 3, -5⟩ = .error .complexUnsupported ∧
    isPositive ⟨true, true⟩ ⟨1, 2, 3, -5⟩ = .error .complexUnsupported ∧ new ⟨true, true⟩ 1 2 3 (-5) = .ok ⟨1, 2, 3, -5⟩ ∧
    toInteger ⟨true, true⟩ ⟨4, 0, 1, 0⟩ = .ok (.exact 4) := by decide +kernel

end Surd

namespace Fx

/-- **C140** the same over a primitive type, whatever the width and whether overflow is checked: a negative root is refused
before anything is computed. -/
theorem fixed_refuses_complex (x : Fx) (cfg : Cfg) (hc : cfg.complex = true) (s : Surd) (h : s.r < 0) :
    x.toInteger cfg s = .error .complexUnsupported ∧ x.toRational cfg s = .error .complexUnsupported ∧
      x.floor cfg s = .error .complexUnsupported ∧ x.isPositive cfg s = .error .complexUnsupported ∧
      x.isNegative cfg s = .error .complexUnsupported := by
  have e : s.panicIfComplex cfg = .error .complexUnsupported := by
    unfold Surd.panicIfComplex
    rw [if_pos ⟨hc, h⟩]
  refine ⟨?_, ?_, ?_, ?_, ?_⟩
  · unfold toInteger; rw [e]; rfl
  · unfold toRational; rw [e]; rfl
  · unfold floor; rw [e]; rfl
  · unfold isPositive; rw [e]; rfl
  · unfold isNegative; rw [e]; rfl

example : (⟨8, false⟩ : Fx).floor ⟨true, false⟩ ⟨127, 127, 1, -127⟩ = .error .complexUnsupported ∧
    (⟨8, false⟩ : Fx).floor ⟨true, false⟩ ⟨1, 2, 3, 5⟩ = .ok ⟨1, 0, 1, 0⟩ := by decide +kernel

end Fx
end NumIrr
