/-
Printing and parsing of continued fractions (C34).
-/
import Verif.Model.CFParse
import Verif.Props.CFDisplay

namespace NumIrr
namespace CF

/-- No printed fraction can be read back: for every fraction that prints, parsing its text panics, as not implemented. -/
theorem cf_display_parse_panics (c : CF) (h : c.a ≠ []) :
    ∃ s, c.display = .ok s ∧ fromStr s = .error .unimplemented := by
  obtain ⟨s, hs⟩ := (cf_display_returns_iff c).2 h
  exact ⟨s, hs, rfl⟩

example : display ⟨[3, 7, 16], [], false⟩ = .ok "[3; 7, 16]" ∧ fromStr "[3; 7, 16]" = .error .unimplemented := by
  decide +kernel

end CF
end NumIrr
