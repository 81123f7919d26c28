/-
Model of `FromStr` for `ContinuedFraction` (/repo/src/cont_frac/simple.rs).  The module `parse` is private, but a
trait implementation is visible everywhere, so `str::parse` reaches it.
-/
import Verif.Model.CF

namespace NumIrr
namespace CF

/-- `from_str` (simple.rs:677-679): not implemented. -/
def fromStr (_s : String) : Res CF := .error .unimplemented

end CF
end NumIrr
