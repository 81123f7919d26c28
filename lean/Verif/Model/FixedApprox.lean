/-
Model of `Computable::approximated` for continued fractions and surds over fixed-width integers.
-/
import Verif.Model.FixedCFSurd

namespace NumIrr
namespace Fx

/-- the `loop` of `approximated` (/repo/src/cont_frac/simple.rs:500-511); the comparison is on the stored denominator, which
can be negative (see `fixed_cf_conv_den_min`) -/
def approxLoop (x : Fx) (limit : Int) : Nat → Rt → CF.ConvIter → Option (Res (Approx Rt))
  | 0, _, _ => none
  | fuel + 1, last, it =>
    match x.convNext it with
    | (.error e, _) => some (.error e)
    | (.ok none, _) => some (.ok (.exact last))
    | (.ok (some v), it') =>
      if v.den < limit then approxLoop x limit fuel v it' else some (.ok (.approximated last))

/-- `Computable::approximated` of a continued fraction (/repo/src/cont_frac/simple.rs:493-512) -/
def cfApproximated (x : Fx) (fuel : Nat) (c : CF) (limit : Int) : Option (Res (Approx Rt)) :=
  match x.convNext c.convergents with
  | (.error e, _) => some (.error e)
  | (.ok none, _) => some (.error .unwrapNone)
  | (.ok (some last), it) =>
    if last.den > limit then
      match c.a with
      | [] => some (.error .unwrapNone)
      | i :: _ => some (.ok (.approximated ⟨castS x.w i, 1⟩))
    else x.approxLoop limit fuel last it

/-- `Computable::approximated` of a surd (/repo/src/quadratic/surd.rs:922-934) -/
def surdApproximated (x : Fx) (cfg : Cfg) (fuel : Nat) (s : Surd) (limit : Int) : Option (Res (Approx Rt)) :=
  match x.toContfracUnwrap cfg fuel s with
  | none => none
  | some (.error e) => some (.error e)
  | some (.ok c) => x.cfApproximated fuel c limit

end Fx
end NumIrr
