/-
C34: the text printed for a continued fraction determines the fraction.
-/
import Verif.Model.CF
import Verif.Lemmas.Text

namespace NumIrr
namespace CF

/-- the characters of `showRest` -/
private def restC : List Nat → List Char
  | [] => []
  | v :: vs => ',' :: ' ' :: (Nat.toDigits 10 v ++ restC vs)

private theorem showRest_toList : ∀ l, (showRest l).toList = restC l
  | [] => rfl
  | v :: vs => by
    rw [showRest, String.toList_append, String.toList_append, toString_toList, showRest_toList vs, restC]
    rfl

/-- what can follow a list of coefficients -/
private def Tail : List Char → Prop
  | ']' :: _ => True
  | ')' :: _ => True
  | ',' :: ' ' :: '(' :: _ => True
  | _ => False

private theorem tail_cases {x : List Char} (h : Tail x) :
    (∃ y, x = ']' :: y) ∨ (∃ y, x = ')' :: y) ∨ ∃ y, x = ',' :: ' ' :: '(' :: y := by
  unfold Tail at h
  split at h
  · exact Or.inl ⟨_, rfl⟩
  · exact Or.inr (Or.inl ⟨_, rfl⟩)
  · exact Or.inr (Or.inr ⟨_, rfl⟩)
  · exact h.elim

private theorem tail_noDigit {x : List Char} (h : Tail x) : NoDigit x := by
  rcases tail_cases h with ⟨y, rfl⟩ | ⟨y, rfl⟩ | ⟨y, rfl⟩ <;> rfl

private theorem rest_noDigit {x : List Char} (h : Tail x) (l : List Nat) : NoDigit (restC l ++ x) := by
  cases l with
  | nil => exact tail_noDigit h
  | cons v vs => rfl

private theorem rest_ne_tail {x : List Char} (h : Tail x) (v : Nat) (z : List Char) :
    ',' :: ' ' :: (Nat.toDigits 10 v ++ z) ≠ x := by
  obtain ⟨c, l, h1, h2⟩ := digits_cons v
  rw [h1]
  rcases tail_cases h with ⟨y, rfl⟩ | ⟨y, rfl⟩ | ⟨y, rfl⟩
  · simp
  · simp
  · simp only [List.cons_append, ne_eq, List.cons.injEq, true_and, not_and]
    rintro rfl
    exact absurd h2 (by decide)

private theorem rest_inj : ∀ {l m : List Nat} {x y : List Char}, Tail x → Tail y →
    restC l ++ x = restC m ++ y → l = m ∧ x = y
  | [], [], x, y, _, _, h => ⟨rfl, by simpa [restC] using h⟩
  | v :: vs, [], x, y, hx, hy, h => by
    simp only [restC, List.cons_append, List.nil_append, List.append_assoc] at h
    exact absurd h (rest_ne_tail hy v _)
  | [], v :: vs, x, y, hx, hy, h => by
    simp only [restC, List.cons_append, List.nil_append, List.append_assoc] at h
    exact absurd h.symm (rest_ne_tail hx v _)
  | v :: vs, w :: ws, x, y, hx, hy, h => by
    simp only [restC, List.cons_append, List.append_assoc, List.cons.injEq, true_and] at h
    obtain ⟨rfl, h2⟩ := digits_sep (rest_noDigit hx vs) (rest_noDigit hy ws) h
    obtain ⟨rfl, h3⟩ := rest_inj hx hy h2
    exact ⟨rfl, h3⟩

/-- the characters of the periodic part with the closing bracket -/
private def perC : List Nat → List Char
  | [] => [']']
  | v :: vs => '(' :: (Nat.toDigits 10 v ++ (restC vs ++ [')', ']']))

private theorem per_inj : ∀ {p q : List Nat}, perC p = perC q → p = q
  | [], [], _ => rfl
  | v :: vs, [], h => by simp [perC] at h
  | [], v :: vs, h => by simp [perC] at h
  | v :: vs, w :: ws, h => by
    simp only [perC, List.cons.injEq, true_and] at h
    obtain ⟨rfl, h2⟩ := digits_sep (rest_noDigit (x := [')', ']']) trivial vs) (rest_noDigit (x := [')', ']']) trivial ws) h
    obtain ⟨rfl, -⟩ := rest_inj (x := [')', ']']) (y := [')', ']']) trivial trivial h2
    rfl

/-- what follows the first coefficient -/
private def bodyC (as p : List Nat) : List Char :=
  match as with
  | [] => match p with
    | [] => [']']
    | _ :: _ => ';' :: ' ' :: perC p
  | a1 :: as' => ';' :: ' ' :: (Nat.toDigits 10 a1 ++ (restC as' ++
      match p with
      | [] => [']']
      | _ :: _ => ',' :: ' ' :: perC p))

private theorem display_chars (a0 : Nat) (as p : List Nat) (b : Bool) :
    ∃ s, display ⟨a0 :: as, p, b⟩ = .ok s ∧
      s.toList = (if b then ['-'] else []) ++ '[' :: (Nat.toDigits 10 a0 ++ bodyC as p) := by
  have hs : (if b then "-" else "").toList = (if b then ['-'] else []) := by cases b <;> rfl
  have h1 : "[".toList = ['['] := rfl
  have h2 : "]".toList = [']'] := rfl
  have h3 : "; ".toList = [';', ' '] := rfl
  have h4 : "(".toList = ['('] := rfl
  have h5 : ")]".toList = [')', ']'] := rfl
  have h6 : ", ".toList = [',', ' '] := rfl
  have h7 : "".toList = [] := rfl
  have hs' := hs
  generalize (if b then "-" else "") = sg at hs'
  match as, p with
  | [], [] =>
    refine ⟨_, rfl, ?_⟩
    simp only [String.toList_append, hs, h1, h2, toString_toList, bodyC, List.append_assoc, List.cons_append,
      List.nil_append]
  | [], p0 :: ps =>
    refine ⟨_, rfl, ?_⟩
    simp only [String.toList_append, hs, h1, h3, h4, h5, toString_toList, showRest_toList, bodyC, perC,
      List.append_assoc, List.cons_append, List.nil_append]
  | a1 :: as', [] =>
    refine ⟨_, rfl, ?_⟩
    simp only [String.toList_append, hs, h1, h2, h3, h7, toString_toList, showRest_toList, bodyC,
      List.append_assoc, List.cons_append, List.nil_append, List.length_nil, gt_iff_lt, lt_irrefl, if_false]
  | a1 :: as', p0 :: ps =>
    refine ⟨_, rfl, ?_⟩
    simp only [String.toList_append, hs, h1, h3, h4, h5, h6, toString_toList, showRest_toList, bodyC, perC,
      List.append_assoc, List.cons_append, List.nil_append, List.length_cons, gt_iff_lt, Nat.succ_pos, if_true]

private theorem body_noDigit (as p : List Nat) : NoDigit (bodyC as p) := by
  unfold bodyC
  cases as <;> cases p <;> rfl

private theorem body_tail (p : List Nat) : Tail (match p with
      | [] => [']']
      | _ :: _ => ',' :: ' ' :: perC p) := by
  cases p <;> trivial

private theorem body_inj {as bs p q : List Nat} (h : bodyC as p = bodyC bs q) : as = bs ∧ p = q := by
  have key : ∀ {a1 : Nat} {z : List Char} {p0 : Nat} {ps : List Nat},
      Nat.toDigits 10 a1 ++ z ≠ perC (p0 :: ps) := by
    intro a1 z p0 ps h'
    obtain ⟨c, l, e1, e2⟩ := digits_cons a1
    rw [e1, perC] at h'
    simp only [List.cons_append, List.cons.injEq] at h'
    rw [h'.1] at e2
    exact absurd e2 (by decide)
  match as, bs with
  | [], [] =>
    match p, q with
    | [], [] => exact ⟨rfl, rfl⟩
    | [], _ :: _ => simp [bodyC] at h
    | _ :: _, [] => simp [bodyC] at h
    | p0 :: ps, q0 :: qs =>
      simp only [bodyC, List.cons.injEq, true_and] at h
      exact ⟨rfl, per_inj h⟩
  | [], b1 :: bs' =>
    match p with
    | [] => simp [bodyC] at h
    | p0 :: ps =>
      simp only [bodyC, List.cons.injEq, true_and] at h
      exact absurd h.symm key
  | a1 :: as', [] =>
    match q with
    | [] => simp [bodyC] at h
    | p0 :: ps =>
      simp only [bodyC, List.cons.injEq, true_and] at h
      exact absurd h key
  | a1 :: as', b1 :: bs' =>
    simp only [bodyC, List.cons.injEq, true_and] at h
    obtain ⟨rfl, h2⟩ := digits_sep (rest_noDigit (body_tail p) as') (rest_noDigit (body_tail q) bs') h
    obtain ⟨rfl, h3⟩ := rest_inj (body_tail p) (body_tail q) h2
    refine ⟨rfl, ?_⟩
    match p, q with
    | [], [] => rfl
    | [], _ :: _ => simp at h3
    | _ :: _, [] => simp at h3
    | p0 :: ps, q0 :: qs =>
      simp only [List.cons.injEq, true_and] at h3
      exact per_inj h3

/-- Printing returns exactly when there is a first coefficient. -/
theorem cf_display_returns_iff (c : CF) : (∃ s, c.display = .ok s) ↔ c.a ≠ [] := by
  obtain ⟨a, p, b⟩ := c
  match a with
  | [] => exact ⟨fun ⟨s, hs⟩ => (by cases hs), fun h => absurd rfl h⟩
  | a0 :: as => exact ⟨fun _ => by simp, fun _ => ⟨_, (display_chars a0 as p b).choose_spec.1⟩⟩

/-- Fractions that print the same have the same sign, the same aperiodic and the same periodic coefficients. -/
theorem cf_display_inj (c d : CF) (s : String) (hc : c.display = .ok s) (hd : d.display = .ok s) : c = d := by
  obtain ⟨a, p, b⟩ := c
  obtain ⟨a', p', b'⟩ := d
  match a, a' with
  | [], _ => cases hc
  | _ :: _, [] => cases hd
  | a0 :: as, d0 :: ds =>
    obtain ⟨s1, h1, h2⟩ := display_chars a0 as p b
    obtain ⟨s2, h3, h4⟩ := display_chars d0 ds p' b'
    rw [hc] at h1
    rw [hd] at h3
    obtain rfl := Except.ok.inj h1
    obtain rfl := Except.ok.inj h3
    rw [h2] at h4
    have hb : b = b' := by
      cases b <;> cases b' <;> simp at h4 <;> rfl
    subst hb
    have h5 := List.append_cancel_left h4
    simp only [List.cons.injEq, true_and] at h5
    obtain ⟨rfl, h6⟩ := digits_sep (body_noDigit as p) (body_noDigit ds p') h5
    obtain ⟨rfl, rfl⟩ := body_inj h6
    rfl

example : display ⟨[1, 12], [3, 4], true⟩ = .ok "-[1; 12, (3, 4)]" ∧ display ⟨[1], [2], false⟩ = .ok "[1; (2)]" ∧
    display ⟨[7], [], false⟩ = .ok "[7]" := by decide +kernel

end CF
end NumIrr
