/-
How a person reads the text of an arithmetic expression with roots: a parser for the usual notation and the number
denoted by the result.  Nothing here depends on the library.

  sum     ::= ["-"] product { ("+" | "-") product }
  product ::= factors { "/" factors }
  factors ::= atom { atom }                       (juxtaposition is multiplication)
  atom    ::= number | "√" ["-"] number | "i" | "(" sum ")"
-/
import Verif.Spec.Surd

namespace NumIrr

/-- an arithmetic expression -/
inductive Expr where
  | num (n : Nat)
  | root (r : Int)
  | imag
  | neg (e : Expr)
  | add (e f : Expr)
  | sub (e f : Expr)
  | mul (e f : Expr)
  | div (e f : Expr)
  deriving DecidableEq, Repr

/-- the number denoted by an expression -/
noncomputable def Expr.val : Expr → ℂ
  | .num n => (n : ℂ)
  | .root r => rootC r
  | .imag => Complex.I
  | .neg e => -e.val
  | .add e f => e.val + f.val
  | .sub e f => e.val - f.val
  | .mul e f => e.val * f.val
  | .div e f => e.val / f.val

namespace Text

/-- a decimal number at the beginning of the text -/
def readNat (l : List Char) : Option (Nat × List Char) :=
  if l.takeWhile Char.isDigit = [] then none
  else some (Nat.ofDigitChars 10 (l.takeWhile Char.isDigit) 0, l.dropWhile Char.isDigit)

/-- an atom begins here -/
def startsAtom : List Char → Bool
  | [] => false
  | c :: _ => c = '(' || c = 'i' || c = '√' || c.isDigit

/-- what follows a root sign -/
def radicand (l : List Char) : Option (Expr × List Char) :=
  match l with
  | '-' :: l' => (readNat l').map fun t => (.root (-(t.1 : Int)), t.2)
  | _ => (readNat l).map fun t => (.root t.1, t.2)

mutual
/-- an atom; the first argument bounds the depth of the recursion -/
def atom : Nat → List Char → Option (Expr × List Char)
  | 0, _ => none
  | _ + 1, [] => none
  | f + 1, c :: l =>
    if c = '(' then
      match sum f l with
      | some (e, ')' :: r) => some (e, r)
      | _ => none
    else if c = 'i' then some (.imag, l)
    else if c = '√' then radicand l
    else (readNat (c :: l)).map fun t => (.num t.1, t.2)

/-- more factors -/
def factors : Nat → Expr → List Char → Option (Expr × List Char)
  | 0, _, _ => none
  | f + 1, e, l =>
    if startsAtom l then
      match atom f l with
      | some (a, r) => factors f (.mul e a) r
      | none => none
    else some (e, l)

/-- more divisors -/
def divisors : Nat → Expr → List Char → Option (Expr × List Char)
  | 0, _, _ => none
  | f + 1, e, l =>
    match l with
    | '/' :: l' =>
      match atom f l' with
      | some (a, r) =>
        match factors f a r with
        | some (b, r') => divisors f (.div e b) r'
        | none => none
      | none => none
    | _ => some (e, l)

/-- a product -/
def product : Nat → List Char → Option (Expr × List Char)
  | 0, _ => none
  | f + 1, l =>
    match atom f l with
    | some (a, r) =>
      match factors f a r with
      | some (b, r') => divisors f b r'
      | none => none
    | none => none

/-- more summands -/
def summands : Nat → Expr → List Char → Option (Expr × List Char)
  | 0, _, _ => none
  | f + 1, e, l =>
    match l with
    | '+' :: l' =>
      match product f l' with
      | some (t, r) => summands f (.add e t) r
      | none => none
    | '-' :: l' =>
      match product f l' with
      | some (t, r) => summands f (.sub e t) r
      | none => none
    | _ => some (e, l)

/-- a sum -/
def sum : Nat → List Char → Option (Expr × List Char)
  | 0, _ => none
  | f + 1, l =>
    if l.head? = some '-' then
      match product f l.tail with
      | some (t, r) => summands f (.neg t) r
      | none => none
    else
      match product f l with
      | some (t, r) => summands f t r
      | none => none
end

/-- Read a whole text. -/
def read (s : String) : Option Expr :=
  match sum (s.length + 20) s.toList with
  | some (e, []) => some e
  | _ => none

end Text
end NumIrr
