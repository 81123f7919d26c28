/-
Model of /repo/src/cont_frac/infinite.rs.  All citations in this file are to that file.

Simplifications: the item type is `Int` (unbounded; the arithmetic of these iterators is unchecked in the source);
the underlying iterator is a function `Nat → Option _` giving the result of its `k`-th call, together with the number
of calls made so far; loops run on fuel and give `none` when it runs out.
-/
import Verif.Model.Block

namespace NumIrr

/-- `generalize` (lines 13-15): `self.zip(repeat(one))`, so the pairs are (coefficient, 1). -/
def generalize (src : Nat → Option Int) : Nat → Option (Int × Int) := fun k => (src k).map fun c => (c, 1)

/-- `HomographicResult` (lines 62-66). -/
structure Homo where
  block : Block
  src : Nat → Option Int
  pos : Nat

namespace Homo

/-- `homo` (lines 19-32). -/
def new (src : Nat → Option Int) (a b c d : Int) : Homo := ⟨Block.new a b c d, src, 0⟩

/-- `HomographicResult::next` (lines 74-84). -/
def next : Nat → Homo → Option (Option Int × Homo)
  | 0, _ => none
  | fuel + 1, s =>
    match s.block.reduceRecip with
    | (some i, m) => some (some i, { s with block := m })
    | (none, m) =>
      match s.src s.pos with
      | some v => next fuel { s with block := m.rmove v, pos := s.pos + 1 }
      | none => some (none, { s with block := m, pos := s.pos + 1 })

end Homo

/-- `BihomographicResult` (lines 89-93). -/
structure Bihomo where
  block : DualBlock
  xsrc : Nat → Option Int
  xpos : Nat
  ysrc : Nat → Option Int
  ypos : Nat

namespace Bihomo

/-- `bihomo` (lines 36-55). -/
def new (xsrc ysrc : Nat → Option Int) (a b c d e f g h : Int) : Bihomo :=
  ⟨DualBlock.new a b c d e f g h, xsrc, 0, ysrc, 0⟩

/-- One step `if right { match self.x_coeffs.next() … }` (lines 107-112): `none` = `break None`. -/
def stepRight (s : Bihomo) : Bool × Bihomo :=
  match s.xsrc s.xpos with
  | some v => (true, { s with block := s.block.rmoveRight v, xpos := s.xpos + 1 })
  | none => (false, { s with xpos := s.xpos + 1 })

/-- One step `if down { match self.y_coeffs.next() … }` (lines 113-118). -/
def stepDown (s : Bihomo) : Bool × Bihomo :=
  match s.ysrc s.ypos with
  | some v => (true, { s with block := s.block.rmoveDown v, ypos := s.ypos + 1 })
  | none => (false, { s with ypos := s.ypos + 1 })

/-- the two conditional steps after a failed `reduce_recip` (lines 106-119); the flag tells whether the loop goes on -/
def moves (s : Bihomo) (right down : Bool) : Bool × Bihomo :=
  let r := if right then s.stepRight else (true, s)
  if r.1 then (if down then r.2.stepDown else (true, r.2)) else (false, r.2)

/-- `BihomographicResult::next` (lines 102-122). -/
def next : Nat → Bihomo → Option (Res (Option Int × Bihomo))
  | 0, _ => none
  | fuel + 1, s =>
    match s.block.reduceRecip with
    | .error e => some (.error e)
    | .ok (.inl i, m) => some (.ok (some i, { s with block := m }))
    | .ok (.inr (right, down), _) =>
      match s.moves right down with
      | (true, s') => next fuel s'
      | (false, s') => some (.ok (none, s'))

end Bihomo
end NumIrr
