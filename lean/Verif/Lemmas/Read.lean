/-
Reading the pieces of a printed surd.
-/
import Verif.Spec.Text
import Verif.Model.SurdDisplay
import Verif.Lemmas.Text

namespace NumIrr
namespace Text

/-- the characters of an integer -/
def intC (n : Int) : List Char := if n < 0 then '-' :: Nat.toDigits 10 n.natAbs else Nat.toDigits 10 n.natAbs

theorem showInt_toList (n : Int) : (showInt n).toList = intC n := by
  unfold showInt intC
  split
  · rw [String.toList_append, toString_toList]; rfl
  · rw [toString_toList]

theorem intC_nonneg {n : Int} (h : 0 ≤ n) : intC n = Nat.toDigits 10 n.natAbs := by
  unfold intC; rw [if_neg (by omega)]

/-- what can follow a product of atoms -/
def Stop (x : List Char) : Prop := x = [] ∨ ∃ c y, x = c :: y ∧ (c = '+' ∨ c = '-' ∨ c = ')' ∨ c = '/')
/-- what can follow a product -/
def End (x : List Char) : Prop := x = [] ∨ ∃ c y, x = c :: y ∧ (c = '+' ∨ c = '-' ∨ c = ')')
/-- what can follow a sum -/
def Close (x : List Char) : Prop := x = [] ∨ ∃ y, x = ')' :: y

theorem End.stop {x : List Char} (h : End x) : Stop x := by
  rcases h with rfl | ⟨c, y, rfl, h⟩
  · exact Or.inl rfl
  · exact Or.inr ⟨c, y, rfl, by tauto⟩

theorem Close.end {x : List Char} (h : Close x) : End x := by
  rcases h with rfl | ⟨y, rfl⟩
  · exact Or.inl rfl
  · exact Or.inr ⟨_, y, rfl, by simp⟩

theorem Stop.noDigit {x : List Char} (h : Stop x) : NoDigit x := by
  rcases h with rfl | ⟨c, y, rfl, rfl | rfl | rfl | rfl⟩
  · trivial
  all_goals rfl

theorem Stop.startsAtom {x : List Char} (h : Stop x) : startsAtom x = false := by
  rcases h with rfl | ⟨c, y, rfl, rfl | rfl | rfl | rfl⟩ <;> rfl

theorem stop_slash (x : List Char) : Stop ('/' :: x) := Or.inr ⟨_, x, rfl, by simp⟩
theorem end_plus (x : List Char) : End ('+' :: x) := Or.inr ⟨_, x, rfl, by simp⟩
theorem end_minus (x : List Char) : End ('-' :: x) := Or.inr ⟨_, x, rfl, by simp⟩

theorem readNat_digits (n : Nat) {x : List Char} (hx : NoDigit x) :
    readNat (Nat.toDigits 10 n ++ x) = some (n, x) := by
  unfold readNat
  rw [takeWhile_digits n hx, dropWhile_digits n hx, if_neg Nat.toDigits_ne_nil, Nat.ofDigitChars_ten_toDigits]

theorem digit_ne {c : Char} (h : c.isDigit = true) : c ≠ '(' ∧ c ≠ 'i' ∧ c ≠ '√' ∧ c ≠ '-' := by
  refine ⟨?_, ?_, ?_, ?_⟩ <;> rintro rfl <;> exact absurd h (by decide)

theorem atom_digits (f n : Nat) {x : List Char} (hx : NoDigit x) :
    atom (f + 1) (Nat.toDigits 10 n ++ x) = some (.num n, x) := by
  have h := readNat_digits n hx
  obtain ⟨c, l, h1, h2⟩ := digits_cons n
  rw [h1] at h ⊢
  obtain ⟨k1, k2, k3, -⟩ := digit_ne h2
  rw [List.cons_append, atom, if_neg k1, if_neg k2, if_neg k3]
  rw [List.cons_append] at h
  rw [h]; rfl

theorem atom_root (f : Nat) (r : Int) {x : List Char} (hx : NoDigit x) :
    atom (f + 1) ('√' :: (intC r ++ x)) = some (.root r, x) := by
  rw [atom, if_neg (by decide), if_neg (by decide), if_pos rfl]
  unfold intC radicand
  split_ifs with h
  · simp only [List.cons_append]
    rw [readNat_digits _ hx]
    simp only [Option.map_some]
    have : -(r.natAbs : Int) = r := by omega
    rw [this]
  · have hr := readNat_digits r.natAbs hx
    obtain ⟨c, l, h1, h2⟩ := digits_cons r.natAbs
    rw [h1] at hr ⊢
    rw [List.cons_append] at hr ⊢
    split
    · rename_i l' heq
      have := (List.cons.inj heq).1
      exact absurd this (digit_ne h2).2.2.2
    · rw [hr]
      simp only [Option.map_some]
      have : (r.natAbs : Int) = r := by omega
      rw [this]

theorem atom_i (f : Nat) (x : List Char) : atom (f + 1) ('i' :: x) = some (.imag, x) := by
  rw [atom, if_neg (by decide), if_pos rfl]

theorem factors_stop (f : Nat) (e : Expr) {x : List Char} (hx : Stop x) : factors (f + 1) e x = some (e, x) := by
  rw [factors, hx.startsAtom]; rfl

theorem factors_root (f : Nat) (e : Expr) (r : Int) {x : List Char} (hx : NoDigit x) :
    factors (f + 2) e ('√' :: (intC r ++ x)) = factors (f + 1) (.mul e (.root r)) x := by
  rw [factors, if_pos (by rfl), atom_root f r hx]

theorem factors_i (f : Nat) (e : Expr) (x : List Char) :
    factors (f + 2) e ('i' :: x) = factors (f + 1) (.mul e .imag) x := by
  rw [factors, if_pos (by rfl), atom_i f x]

/-- the text is a product of atoms -/
def Reads (t : List Char) (e : Expr) : Prop :=
  (∃ c l, t = c :: l ∧ c ≠ '-') ∧
  ∀ f x, Stop x → ∃ a r, atom (f + 3) (t ++ x) = some (a, r) ∧ factors (f + 3) a r = some (e, x)

theorem reads_num (n : Nat) : Reads (Nat.toDigits 10 n) (.num n) := by
  refine ⟨?_, fun f x hx => ⟨_, _, atom_digits _ n hx.noDigit, factors_stop _ _ hx⟩⟩
  obtain ⟨c, l, h1, h2⟩ := digits_cons n
  exact ⟨c, l, h1, (digit_ne h2).2.2.2⟩

theorem reads_root (r : Int) : Reads ('√' :: intC r) (.root r) :=
  ⟨⟨_, _, rfl, by decide⟩, fun f x hx => ⟨_, _, by
    rw [List.cons_append]; exact atom_root _ r hx.noDigit, factors_stop _ _ hx⟩⟩

theorem reads_i : Reads ['i'] .imag :=
  ⟨⟨_, _, rfl, by decide⟩, fun f x hx => ⟨_, _, atom_i _ x, factors_stop _ _ hx⟩⟩

theorem reads_num_root (n : Nat) (r : Int) :
    Reads (Nat.toDigits 10 n ++ '√' :: intC r) (.mul (.num n) (.root r)) := by
  refine ⟨?_, fun f x hx => ⟨.num n, '√' :: (intC r ++ x), ?_, ?_⟩⟩
  · obtain ⟨c, l, h1, h2⟩ := digits_cons n
    exact ⟨c, l ++ '√' :: intC r, by rw [h1]; rfl, (digit_ne h2).2.2.2⟩
  · rw [List.append_assoc, List.cons_append]
    exact atom_digits _ n rfl
  · rw [factors_root _ _ r hx.noDigit, factors_stop _ _ hx]

theorem reads_num_i (n : Nat) : Reads (Nat.toDigits 10 n ++ ['i']) (.mul (.num n) .imag) := by
  refine ⟨?_, fun f x hx => ⟨.num n, 'i' :: x, ?_, ?_⟩⟩
  · obtain ⟨c, l, h1, h2⟩ := digits_cons n
    exact ⟨c, l ++ ['i'], by rw [h1]; rfl, (digit_ne h2).2.2.2⟩
  · rw [List.append_assoc]
    exact atom_digits _ n rfl
  · rw [factors_i, factors_stop _ _ hx]

theorem reads_root_i (r : Int) : Reads ('√' :: (intC r ++ ['i'])) (.mul (.root r) .imag) := by
  refine ⟨⟨_, _, rfl, by decide⟩, fun f x hx => ⟨.root r, 'i' :: x, ?_, ?_⟩⟩
  · rw [List.cons_append, List.append_assoc]
    exact atom_root _ r rfl
  · rw [factors_i, factors_stop _ _ hx]

theorem reads_num_root_i (n : Nat) (r : Int) :
    Reads (Nat.toDigits 10 n ++ '√' :: (intC r ++ ['i'])) (.mul (.mul (.num n) (.root r)) .imag) := by
  refine ⟨?_, fun f x hx => ⟨.num n, '√' :: (intC r ++ 'i' :: x), ?_, ?_⟩⟩
  · obtain ⟨c, l, h1, h2⟩ := digits_cons n
    exact ⟨c, l ++ '√' :: (intC r ++ ['i']), by rw [h1]; rfl, (digit_ne h2).2.2.2⟩
  · rw [List.append_assoc, List.cons_append, List.append_assoc]
    exact atom_digits _ n rfl
  · rw [factors_root _ _ r (show NoDigit ('i' :: x) from rfl), factors_i, factors_stop _ _ hx]

theorem divisors_end (f : Nat) (e : Expr) {x : List Char} (hx : End x) : divisors (f + 1) e x = some (e, x) := by
  rcases hx with rfl | ⟨c, y, rfl, rfl | rfl | rfl⟩ <;> rw [divisors] <;> simp

theorem divisors_num (f : Nat) (e : Expr) (c : Nat) {x : List Char} (hx : End x) :
    divisors (f + 3) e ('/' :: (Nat.toDigits 10 c ++ x)) = some (.div e (.num c), x) := by
  rw [divisors]
  simp only [atom_digits (f + 1) c hx.stop.noDigit, factors_stop (f + 1) _ hx.stop, divisors_end _ _ hx]

/-- the text is a product -/
def Prod (t : List Char) (e : Expr) : Prop :=
  (∃ c l, t = c :: l ∧ c ≠ '-') ∧ ∀ f x, End x → product (f + 4) (t ++ x) = some (e, x)

theorem Reads.prod {t : List Char} {e : Expr} (h : Reads t e) : Prod t e := by
  refine ⟨h.1, fun f x hx => ?_⟩
  obtain ⟨a, r, h1, h2⟩ := h.2 f x hx.stop
  rw [product]
  simp only [h1, h2, divisors_end _ _ hx]

theorem Reads.over {t : List Char} {e : Expr} (h : Reads t e) (c : Nat) :
    Prod (t ++ '/' :: Nat.toDigits 10 c) (.div e (.num c)) := by
  refine ⟨?_, fun f x hx => ?_⟩
  · obtain ⟨k, l, rfl, hk⟩ := h.1
    exact ⟨k, _, rfl, hk⟩
  obtain ⟨a, r, h1, h2⟩ := h.2 f ('/' :: (Nat.toDigits 10 c ++ x)) (stop_slash _)
  rw [List.append_assoc, List.cons_append, product]
  simp only [h1, h2, divisors_num _ _ _ hx]

theorem summands_close (f : Nat) (e : Expr) {x : List Char} (hx : Close x) : summands (f + 1) e x = some (e, x) := by
  rcases hx with rfl | ⟨y, rfl⟩ <;> rw [summands] <;> simp

/-- the text is a sum -/
def Sum (t : List Char) (e : Expr) : Prop := ∀ f x, Close x → sum (f + 6) (t ++ x) = some (e, x)

theorem sum_pos {t : List Char} {e : Expr} (h : Prod t e) (f : Nat) {x : List Char} (hx : End x) :
    sum (f + 5) (t ++ x) = summands (f + 4) e x := by
  have h2 := h.2 f x hx
  obtain ⟨c, l, rfl, hc⟩ := h.1
  rw [sum, if_neg (by simpa using hc)]
  simp only [h2]

theorem sum_neg {t : List Char} {e : Expr} (h : Prod t e) (f : Nat) {x : List Char} (hx : End x) :
    sum (f + 5) ('-' :: t ++ x) = summands (f + 4) (.neg e) x := by
  rw [List.cons_append, sum, if_pos (by simp)]
  simp only [List.tail_cons, h.2 f x hx]

theorem summands_add {u : List Char} {g : Expr} (h : Prod u g) (f : Nat) (e : Expr) {x : List Char} (hx : Close x) :
    summands (f + 5) e ('+' :: (u ++ x)) = some (.add e g, x) := by
  rw [summands]
  simp only [h.2 f x hx.end, summands_close _ _ hx]

theorem summands_sub {u : List Char} {g : Expr} (h : Prod u g) (f : Nat) (e : Expr) {x : List Char} (hx : Close x) :
    summands (f + 5) e ('-' :: (u ++ x)) = some (.sub e g, x) := by
  rw [summands]
  simp only [h.2 f x hx.end, summands_close _ _ hx]

theorem Prod.sum {t : List Char} {e : Expr} (h : Prod t e) : Sum t e := by
  intro f x hx
  rw [sum_pos h (f + 1) hx.end, summands_close _ _ hx]

theorem Prod.negSum {t : List Char} {e : Expr} (h : Prod t e) : Sum ('-' :: t) (.neg e) := by
  intro f x hx
  rw [sum_neg h (f + 1) hx.end, summands_close _ _ hx]

theorem Prod.add {t u : List Char} {e g : Expr} (h : Prod t e) (h' : Prod u g) : Sum (t ++ '+' :: u) (.add e g) := by
  intro f x hx
  rw [List.append_assoc, List.cons_append, sum_pos h (f + 1) (end_plus _), summands_add h' f _ hx]

theorem Prod.sub {t u : List Char} {e g : Expr} (h : Prod t e) (h' : Prod u g) : Sum (t ++ '-' :: u) (.sub e g) := by
  intro f x hx
  rw [List.append_assoc, List.cons_append, sum_pos h (f + 1) (end_minus _), summands_sub h' f _ hx]

theorem Prod.negAdd {t u : List Char} {e g : Expr} (h : Prod t e) (h' : Prod u g) :
    Sum ('-' :: t ++ '+' :: u) (.add (.neg e) g) := by
  intro f x hx
  rw [List.append_assoc, show ('+' :: u ++ x) = '+' :: (u ++ x) from rfl, sum_neg h (f + 1) (end_plus _), summands_add h' f _ hx]

theorem Prod.negSub {t u : List Char} {e g : Expr} (h : Prod t e) (h' : Prod u g) :
    Sum ('-' :: t ++ '-' :: u) (.sub (.neg e) g) := by
  intro f x hx
  rw [List.append_assoc, show ('-' :: u ++ x) = '-' :: (u ++ x) from rfl, sum_neg h (f + 1) (end_minus _), summands_sub h' f _ hx]

/-- a parenthesised sum over a number -/
theorem Sum.over {t : List Char} {e : Expr} (h : Sum t e) (c f : Nat) :
    Text.sum (f + 9) ('(' :: (t ++ ')' :: '/' :: Nat.toDigits 10 c)) = some (.div e (.num c), []) := by
  have h1 : atom (f + 7) ('(' :: (t ++ ')' :: '/' :: Nat.toDigits 10 c)) = some (e, '/' :: Nat.toDigits 10 c) := by
    rw [atom, if_pos rfl, h f _ (Or.inr ⟨_, rfl⟩)]
    rfl
  have h2 : divisors (f + 7) e ('/' :: Nat.toDigits 10 c) = some (.div e (.num c), []) := by
    have := divisors_num (f + 4) e c (x := []) (Or.inl rfl)
    rwa [List.append_nil] at this
  rw [Text.sum, if_neg (by simp)]
  have h3 : product (f + 8) ('(' :: (t ++ ')' :: '/' :: Nat.toDigits 10 c)) = some (.div e (.num c), []) := by
    rw [product]
    simp only [h1, factors_stop _ _ (stop_slash _), h2]
  simp only [h3, summands_close _ _ (Or.inl rfl)]

theorem read_of_sum {s : String} {e : Expr} (h : Sum s.toList e) : read s = some e := by
  unfold read
  have := h (s.length + 14) [] (Or.inl rfl)
  rw [List.append_nil] at this
  rw [this]

theorem read_over {s : String} {t : List Char} {c : Nat} {e : Expr} (h : Sum t e)
    (hs : s.toList = '(' :: (t ++ ')' :: '/' :: Nat.toDigits 10 c)) : read s = some (.div e (.num c)) := by
  unfold read
  rw [hs, h.over c (s.length + 11)]

end Text
end NumIrr
