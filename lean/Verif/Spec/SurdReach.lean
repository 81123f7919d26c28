/-
Surds a program can obtain through the public API of `QuadraticSurd`.
-/
import Verif.Model.SurdSqrt

namespace NumIrr

/-- Everything that can be built by finitely many calls of public functions that return a surd
(including the surd carried by a failed `from_sqrt`).  `From<ContinuedFraction>` is a composition of
`from_equation` and arithmetic and needs no case of its own. -/
inductive Surd.Reach (cfg : Cfg) (fits : ℤ → Bool) : Surd → Prop where
  | new {a b c r t} : Surd.new cfg a b c r = .ok t → Reach cfg fits t
  | fromCoeffs {x r t} : Surd.fromCoeffs cfg x r = .ok t → Reach cfg fits t
  | ofInt (n : ℤ) : Reach cfg fits (Surd.ofInt n)
  | ofRat (q : ℚ) : Reach cfg fits (Surd.ofRat q)
  | zero : Reach cfg fits Surd.zero
  | one : Reach cfg fits Surd.one
  | fromPrim {n t} : Surd.fromPrim fits n = some t → Reach cfg fits t
  | fromRationals {a b r t} : Surd.fromRationals cfg a b r = .ok t → Reach cfg fits t
  | fromEquation {a b c t} : Surd.fromEquation cfg a b c = .ok (some t) → Reach cfg fits t
  | fromSqrtInt {n t} : Surd.fromSqrtInt cfg n = .ok (.ok t) → Reach cfg fits t
  | fromSqrtRat {q t} : Surd.fromSqrtRat cfg fits q = .ok (.ok t) → Reach cfg fits t
  | fromSqrt {x t} : Reach cfg fits x → Surd.fromSqrtSurd cfg fits x = .ok (.ok t) → Reach cfg fits t
  | fromSqrtErr {x e} : Reach cfg fits x → Surd.fromSqrtSurd cfg fits x = .ok (.error e) →
      Reach cfg fits e.data
  | recip {x t} : Reach cfg fits x → Surd.recip cfg x = .ok t → Reach cfg fits t
  | conj {x} : Reach cfg fits x → Reach cfg fits (Surd.conj x)
  | neg {x} : Reach cfg fits x → Reach cfg fits (Surd.neg x)
  | trunc {x t} : Reach cfg fits x → Surd.trunc cfg x = .ok t → Reach cfg fits t
  | fract {x t} : Reach cfg fits x → Surd.fract cfg x = .ok t → Reach cfg fits t
  | floor {x t} : Reach cfg fits x → Surd.floor cfg x = .ok t → Reach cfg fits t
  | numer {x} : Reach cfg fits x → Reach cfg fits (Surd.numer x)
  | denom {x} : Reach cfg fits x → Reach cfg fits (Surd.denom x)
  | reduced {x t fuel} : Reach cfg fits x → Surd.reduced fuel fits x = some (.ok t) → Reach cfg fits t
  | add {x y t} : Reach cfg fits x → Reach cfg fits y → Surd.add cfg x y = .ok t → Reach cfg fits t
  | sub {x y t} : Reach cfg fits x → Reach cfg fits y → Surd.sub cfg x y = .ok t → Reach cfg fits t
  | mul {x y t} : Reach cfg fits x → Reach cfg fits y → Surd.mul cfg x y = .ok t → Reach cfg fits t
  | div {x y t} : Reach cfg fits x → Reach cfg fits y → Surd.div cfg x y = .ok t → Reach cfg fits t
  | addInt {x k t} : Reach cfg fits x → Surd.addInt cfg x k = .ok t → Reach cfg fits t
  | subInt {x k t} : Reach cfg fits x → Surd.subInt cfg x k = .ok t → Reach cfg fits t
  | mulInt {x k t} : Reach cfg fits x → Surd.mulInt cfg x k = .ok t → Reach cfg fits t
  | divInt {x k t} : Reach cfg fits x → Surd.divInt cfg x k = .ok t → Reach cfg fits t
  | addRat {x q t} : Reach cfg fits x → Surd.addRat cfg x q = .ok t → Reach cfg fits t
  | subRat {x q t} : Reach cfg fits x → Surd.subRat cfg x q = .ok t → Reach cfg fits t
  | mulRat {x q t} : Reach cfg fits x → Surd.mulRat cfg x q = .ok t → Reach cfg fits t
  | divRat {x q t} : Reach cfg fits x → Surd.divRat cfg x q = .ok t → Reach cfg fits t

end NumIrr
