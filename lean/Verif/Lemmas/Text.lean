/-
Decimal notation: digits, and where a number ends inside a text.
-/
import Mathlib.Data.List.Basic
import Mathlib.Data.String.Basic
import Mathlib.Tactic.Ring

namespace NumIrr

/-- the digits of a number -/
theorem toString_toList (n : Nat) : (toString n).toList = Nat.toDigits 10 n := by
  rw [Nat.toString_eq_ofList_toDigits, String.toList_ofList]

theorem digits_isDigit {n : Nat} {c : Char} (h : c ∈ Nat.toDigits 10 n) : c.isDigit = true :=
  Nat.isDigit_of_mem_toDigits (by norm_num) (by norm_num) h

theorem digits_cons (n : Nat) : ∃ c l, Nat.toDigits 10 n = c :: l ∧ c.isDigit = true := by
  match h : Nat.toDigits 10 n with
  | [] => exact absurd h Nat.toDigits_ne_nil
  | c :: l => exact ⟨c, l, rfl, digits_isDigit (h ▸ List.mem_cons_self)⟩

/-- the text does not begin with a digit -/
def NoDigit : List Char → Prop
  | [] => True
  | c :: _ => c.isDigit = false

theorem takeWhile_digits (n : Nat) {x : List Char} (hx : NoDigit x) :
    (Nat.toDigits 10 n ++ x).takeWhile Char.isDigit = Nat.toDigits 10 n := by
  rw [List.takeWhile_append_of_pos (fun _ h => digits_isDigit h)]
  match x, hx with
  | [], _ => simp
  | c :: l, hx =>
    rw [List.takeWhile_cons_of_neg (by simpa [NoDigit] using hx)]; simp

theorem dropWhile_digits (n : Nat) {x : List Char} (hx : NoDigit x) :
    (Nat.toDigits 10 n ++ x).dropWhile Char.isDigit = x := by
  rw [List.dropWhile_append_of_pos (fun _ h => digits_isDigit h)]
  match x, hx with
  | [], _ => simp
  | c :: l, hx => rw [List.dropWhile_cons_of_neg (by simpa [NoDigit] using hx)]

theorem digits_inj {m n : Nat} (h : Nat.toDigits 10 m = Nat.toDigits 10 n) : m = n := by
  rw [← Nat.ofDigitChars_ten_toDigits (n := m), h, Nat.ofDigitChars_ten_toDigits]

theorem digits_sep {m n : Nat} {x y : List Char} (hx : NoDigit x) (hy : NoDigit y)
    (h : Nat.toDigits 10 m ++ x = Nat.toDigits 10 n ++ y) : m = n ∧ x = y := by
  have h1 := congrArg (List.takeWhile Char.isDigit) h
  have h2 := congrArg (List.dropWhile Char.isDigit) h
  rw [takeWhile_digits m hx, takeWhile_digits n hy] at h1
  rw [dropWhile_digits m hx, dropWhile_digits n hy] at h2
  exact ⟨digits_inj h1, h2⟩

end NumIrr
