/-
Representable states of the iterators on continued fractions over primitive integers, and the integers which occur in a
call of `next`.
-/
import Verif.Spec.Fixed
import Verif.Model.Infinite
import Verif.Model.General

namespace NumIrr

instance (t : Prim) (n : Int) : Decidable (t.Holds n) := by unfold Prim.Holds; infer_instance

/-- all four entries are representable -/
def Prim.HoldsB (t : Prim) (m : Block) : Prop := t.Holds m.pm1 ∧ t.Holds m.pm2 ∧ t.Holds m.qm1 ∧ t.Holds m.qm2

/-- all eight entries are representable -/
def Prim.HoldsD (t : Prim) (m : DualBlock) : Prop :=
  t.Holds m.pm11 ∧ t.Holds m.pm12 ∧ t.Holds m.pm21 ∧ t.Holds m.pm22 ∧
  t.Holds m.qm11 ∧ t.Holds m.qm12 ∧ t.Holds m.qm21 ∧ t.Holds m.qm22

/-- all entries of a block are non-negative -/
def Block.NN (m : Block) : Prop := 0 ≤ m.pm1 ∧ 0 ≤ m.pm2 ∧ 0 ≤ m.qm1 ∧ 0 ≤ m.qm2

/-- `P` holds of every new convergent `p/q` formed by a call of `next` of `homo` over the unbounded integers -/
def Homo.Through (P : Int → Int → Prop) (src : Nat → Option Int) : Nat → Block → Nat → Prop
  | 0, _, _ => True
  | fuel + 1, m, k =>
    match m.reduceRecip.1, src k with
    | none, some v => P (v * m.pm1 + m.pm2) (v * m.qm1 + m.qm2) ∧ Through P src fuel (m.rmove v) (k + 1)
    | _, _ => True

instance Homo.decThrough (P : Int → Int → Prop) [∀ p q, Decidable (P p q)] (src : Nat → Option Int) :
    ∀ fuel m k, Decidable (Homo.Through P src fuel m k)
  | 0, _, _ => isTrue trivial
  | fuel + 1, m, k => by
    have := fun m => Homo.decThrough P src fuel m (k + 1)
    unfold Homo.Through
    split <;> infer_instance

/-- `P` holds of every new convergent `p/q`, before common factors are removed, formed by a call of `next` of `simplify`
over the unbounded integers -/
def GIter.Through (P : Int → Int → Prop) (src : Nat → Option (Int × Int)) : Nat → Block → Nat → Prop
  | 0, _, _ => True
  | fuel + 1, m, k =>
    match m.reduceRecip.1, src k with
    | none, some (a, b) =>
      P (b * m.pm1 + a * m.pm2) (b * m.qm1 + a * m.qm2) ∧ Through P src fuel (m.gmove a b) (k + 1)
    | _, _ => True

instance GIter.decThrough (P : Int → Int → Prop) [∀ p q, Decidable (P p q)] (src : Nat → Option (Int × Int)) :
    ∀ fuel m k, Decidable (GIter.Through P src fuel m k)
  | 0, _, _ => isTrue trivial
  | fuel + 1, m, k => by
    have := fun m => GIter.decThrough P src fuel m (k + 1)
    unfold GIter.Through
    split <;> infer_instance

/-- the integers that the call number `k` of the iterator of `exp(x)` forms are representable -/
def Prim.ExpFits (t : Prim) (x : Int) (k : Nat) : Prop :=
  t.Holds ((k : Int) + 1) ∧
    (2 ≤ k → t.Holds (((k : Int) - 1) * x) ∧ t.Holds (-(((k : Int) - 1) * x)) ∧ t.Holds ((k : Int) + x))

end NumIrr
