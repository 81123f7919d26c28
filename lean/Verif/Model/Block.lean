/-
Model of the convergent blocks (/repo/src/cont_frac/block.rs).
All citations in this file are to /repo/src/cont_frac/block.rs.

Simplifications: the integer type is unbounded, except that the checked operations take a predicate `fits`
telling which integers are representable; in-place updates return the new block.
-/
import Verif.Model.Basic

namespace NumIrr

/-- `Block<T>` (lines 7-13): represents `x ↦ (pm1·x + pm2)/(qm1·x + qm2)`. -/
structure Block where
  pm1 : Int
  pm2 : Int
  qm1 : Int
  qm2 : Int
  deriving DecidableEq, Repr

namespace Block

/-- `new` (lines 17-24). -/
def new (a b c d : Int) : Block := ⟨a, b, c, d⟩

/-- `update` (lines 27-30). -/
def update (m : Block) (p q : Int) : Block := ⟨p, m.pm1, q, m.qm1⟩

/-- `identity` (lines 35-42). -/
def identity : Block := ⟨1, 0, 0, 1⟩

/-- `rmove` (lines 50-54). -/
def rmove (m : Block) (a : Int) : Block := m.update (a * m.pm1 + m.pm2) (a * m.qm1 + m.qm2)

/-- `gmove` (lines 57-69). -/
def gmove (m : Block) (a b : Int) : Block :=
  let p := m.pm1 * b + m.pm2 * a
  let q := m.qm1 * b + m.qm2 * a
  let g := igcd (igcd (igcd p q) m.pm1) m.qm1
  if g > 1 then
    let m' : Block := ⟨m.pm1.tdiv g, m.pm2, m.qm1.tdiv g, m.qm2⟩
    m'.update (p.tdiv g) (q.tdiv g)
  else m.update p q

/-- `check_integer` (lines 74-87); `div_rem` truncates. -/
def checkInteger (m : Block) : Option (Int × Int × Int) :=
  if m.qm1 = 0 ∨ m.qm2 = 0 then none
  else
    let im1 := m.pm1.tdiv m.qm1
    let rm1 := m.pm1.tmod m.qm1
    let im2 := m.pm2.tdiv m.qm2
    let rm2 := m.pm2.tmod m.qm2
    if im1 = im2 then some (im1, rm1, rm2) else none

/-- `reduce_recip` (lines 92-101): the integer (if any) and the new block. -/
def reduceRecip (m : Block) : Option Int × Block :=
  match m.checkInteger with
  | some (i, rm1, rm2) => (some i, ⟨m.qm1, m.qm2, rm1, rm2⟩)
  | none => (none, m)

/-- `reduce_mul` (lines 106-115). -/
def reduceMul (m : Block) (base : Int) : Option Int × Block :=
  match m.checkInteger with
  | some (i, rm1, rm2) => (some i, ⟨rm1 * base, rm2 * base, m.qm1, m.qm2⟩)
  | none => (none, m)

/-- `checked_rmove` (lines 120-128). -/
def checkedRmove (fits : Int → Bool) (m : Block) (a : Int) : Option (Int × Int) :=
  if fits (a * m.pm1) && fits (a * m.pm1 + m.pm2) then
    if fits (a * m.qm1) && fits (a * m.qm1 + m.qm2) then
      some (a * m.pm1 + m.pm2, a * m.qm1 + m.qm2)
    else none
  else none

/-- `checked_gmove` (lines 136-152): the new convergent (if it fits) and the block, whose last convergent may
have been divided by the common factor. -/
def checkedGmove (fits : Int → Bool) (m : Block) (a b : Int) : Option (Int × Int) × Block :=
  let p := b * m.pm1 + a * m.pm2
  let q := b * m.qm1 + a * m.qm2
  if fits (b * m.pm1) && fits (a * m.pm2) && fits p && fits (b * m.qm1) && fits (a * m.qm2) && fits q then
    let g := igcd (igcd (igcd p q) m.pm1) m.qm1
    if g > 1 then
      (some (p.tdiv g, q.tdiv g), ⟨m.pm1.tdiv g, m.pm2, m.qm1.tdiv g, m.qm2⟩)
    else (some (p, q), m)
  else (none, m)

end Block

/-- `DualBlock<T>` (lines 157-167): represents
`x, y ↦ (pm11·xy + pm12·x + pm21·y + pm22)/(qm11·xy + qm12·x + qm21·y + qm22)`. -/
structure DualBlock where
  pm11 : Int
  pm12 : Int
  pm21 : Int
  pm22 : Int
  qm11 : Int
  qm12 : Int
  qm21 : Int
  qm22 : Int
  deriving DecidableEq, Repr

namespace DualBlock

/-- `new` (lines 171-182). -/
def new (a b c d e f g h : Int) : DualBlock := ⟨a, b, c, d, e, f, g, h⟩

/-- `update_right` (lines 185-191).  The last line of the source reads
`self.qm22 = replace(&mut self.qm22, q2)`: the inner `replace` stores `q2` in `qm22` and returns the old value of
`qm22`, which is then assigned to `qm22` again.  So `qm22` keeps its old value, `q2` is lost and `qm12` is not
touched. -/
def updateRight (m : DualBlock) (p1 q1 p2 _q2 : Int) : DualBlock :=
  { pm21 := m.pm11, pm11 := p1, qm21 := m.qm11, qm11 := q1,
    pm22 := m.pm12, pm12 := p2, qm22 := m.qm22, qm12 := m.qm12 }

/-- `update_down` (lines 194-200). -/
def updateDown (m : DualBlock) (p1 q1 p2 q2 : Int) : DualBlock :=
  { pm12 := m.pm11, pm11 := p1, qm12 := m.qm11, qm11 := q1,
    pm22 := m.pm21, pm21 := p2, qm22 := m.qm21, qm21 := q2 }

/-- `rmove_right` (lines 208-214). -/
def rmoveRight (m : DualBlock) (a : Int) : DualBlock :=
  m.updateRight (a * m.pm11 + m.pm21) (a * m.qm11 + m.qm21) (a * m.pm12 + m.pm22) (a * m.qm12 + m.qm22)

/-- `rmove_down` (lines 217-223). -/
def rmoveDown (m : DualBlock) (a : Int) : DualBlock :=
  m.updateDown (a * m.pm11 + m.pm12) (a * m.qm11 + m.qm12) (a * m.pm21 + m.pm22) (a * m.qm21 + m.qm22)

/-- What `check_integer` returns: the common integer and the four remainders, or the flags (right, down).
(block.rs:230-248) -/
inductive Check where
  | int (i r11 r12 r21 r22 : Int)
  | move (right down : Bool)
  deriving DecidableEq, Repr

/-- `check_integer` (lines 230-248); `div_rem` truncates and panics on a zero divisor. -/
def checkInteger (m : DualBlock) : Res Check :=
  if m.qm22 = 0 then .ok (.move (decide (m.qm21 = 0)) (decide (m.qm12 = 0)))
  else if m.qm11 = 0 then .ok (.move (decide (m.qm12 = 0)) (decide (m.qm21 = 0)))
  else if m.qm12 = 0 ∨ m.qm21 = 0 then .error .divZero
  else
    let i11 := m.pm11.tdiv m.qm11
    let i12 := m.pm12.tdiv m.qm12
    let i21 := m.pm21.tdiv m.qm21
    let i22 := m.pm22.tdiv m.qm22
    if i11 = i12 ∧ i11 = i21 ∧ i11 = i22 then
      .ok (.int i11 (m.pm11.tmod m.qm11) (m.pm12.tmod m.qm12) (m.pm21.tmod m.qm21) (m.pm22.tmod m.qm22))
    else .ok (.move (decide (i11 ≠ i12 ∨ i21 ≠ i22)) (decide (i11 ≠ i21 ∨ i12 ≠ i22)))

/-- `reduce_recip` (lines 252-263): the integer or the flags, and the new block. -/
def reduceRecip (m : DualBlock) : Res ((Int ⊕ Bool × Bool) × DualBlock) :=
  match m.checkInteger with
  | .error e => .error e
  | .ok (.int i r11 r12 r21 r22) =>
    .ok (.inl i, ⟨m.qm11, m.qm12, m.qm21, m.qm22, r11, r12, r21, r22⟩)
  | .ok (.move r d) => .ok (.inr (r, d), m)

end DualBlock
end NumIrr
