/- Decision procedures for the normal form, used only for the concrete examples. -/
import Verif.Lemmas.SurdArith

namespace NumIrr
namespace Surd

theorem normal_iff (s : Surd) : s.Normal ↔
    0 < s.c ∧ igcd (igcd s.a s.b) s.c = 1 ∧ (s.b = 0 ↔ s.r = 0) ∧
      (s.r ≠ 0 → isqrt (s.r.natAbs : ℤ) * isqrt (s.r.natAbs : ℤ) ≠ s.r) := by
  constructor
  · intro h
    refine ⟨h.c_pos, ?_, h.rational, fun hr e => h.irrational hr ((isqrt_natAbs_iff _).mp e)⟩
    have hu := h.coprime (igcd (igcd s.a s.b) s.c)
      ((igcd_dvd_left _ _).trans (igcd_dvd_left _ _))
      ((igcd_dvd_left _ _).trans (igcd_dvd_right _ _)) (igcd_dvd_right _ _)
    have := igcd_nonneg (igcd s.a s.b) s.c
    rcases Int.isUnit_iff.mp hu with h | h <;> omega
  · rintro ⟨h1, h2, h3, h4⟩
    refine ⟨h1, ?_, h3, fun hr e => h4 hr ((isqrt_natAbs_iff _).mpr e)⟩
    intro d ha hb hc
    have := dvd_igcd (dvd_igcd ha hb) hc
    rw [h2] at this
    exact isUnit_of_dvd_one this

instance (s : Surd) : Decidable s.Normal := decidable_of_iff _ (normal_iff s).symm

theorem ok_iff (cfg : Cfg) (s : Surd) : s.Ok cfg ↔ s.Normal ∧ (cfg.complex = false → 0 ≤ s.r) :=
  ⟨fun h => ⟨h.toNormal, h.real⟩, fun h => ⟨h.1, h.2⟩⟩

instance (cfg : Cfg) (s : Surd) : Decidable (s.Ok cfg) := decidable_of_iff _ (ok_iff cfg s).symm

theorem realOk_iff (s : Surd) : s.RealOk ↔ s.Normal ∧ 0 ≤ s.r :=
  ⟨fun h => ⟨h.toNormal, h.real⟩, fun h => ⟨h.1, h.2⟩⟩

instance (s : Surd) : Decidable s.RealOk := decidable_of_iff _ (realOk_iff s).symm

end Surd
end NumIrr
