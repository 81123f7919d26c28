/-
Comparing surds by the sign of their difference, and sorting with that comparison.  The library has no `PartialOrd` for
surds (/repo/src/quadratic/surd.rs:710), so this is how a program compares them.
-/
import Verif.Model.FixedSurd

namespace NumIrr

/-- `(x - y).is_negative()` (/repo/src/quadratic/surd.rs:1163-1181, 660-679) -/
def Surd.lessThan (cfg : Cfg) (x y : Surd) : Res Bool := do
  let d ← Surd.sub cfg x y
  Surd.isNegative cfg d

/-- the same over a primitive integer type -/
def Fx.lessThan (x : Fx) (cfg : Cfg) (s t : Surd) : Res Bool := do
  let d ← x.surdSub cfg s t
  x.isNegative cfg d

/-- insertion into a list sorted with the comparison `lt` -/
def insertBy {α : Type} (lt : α → α → Res Bool) (x : α) : List α → Res (List α)
  | [] => .ok [x]
  | y :: l => do
    let b ← lt y x
    if b then do
      let m ← insertBy lt x l
      return y :: m
    else return x :: y :: l

/-- insertion sort -/
def sortBy {α : Type} (lt : α → α → Res Bool) : List α → Res (List α)
  | [] => .ok []
  | x :: l => do
    let m ← sortBy lt l
    insertBy lt x m

end NumIrr
