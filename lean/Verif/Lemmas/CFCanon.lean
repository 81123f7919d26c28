/-
Canonical finite fractions: value, uniqueness.
-/
import Mathlib.Tactic.Positivity
import Mathlib.Tactic.NormNum
import Mathlib.Data.Rat.Floor
import Verif.Lemmas.CFAct

namespace NumIrr
namespace CF

/-- canonical list of coefficients -/
def CanL : List Nat → Prop
  | [] => False
  | [_] => True
  | _ :: y :: l => 1 ≤ y ∧ (l = [] → 2 ≤ y) ∧ CanL (y :: l)

theorem Canonical.canL {c : CF} (h : c.Canonical) : CanL c.a := by
  obtain ⟨-, h1, h2, h3, -⟩ := h
  generalize c.a = l at *
  induction l with
  | nil => exact absurd rfl h1
  | cons x l ih =>
    match l, h2, h3, ih with
    | [], _, _, _ => trivial
    | y :: l, h2, h3, ih =>
      have hy : 1 ≤ y := h2 y (by simp)
      have hl : (y :: l).getLastD 0 ≠ 1 := by simpa using h3 (by simp)
      refine ⟨hy, ?_, ih (by simp) (fun v hv => h2 v (by simp at hv; simp [hv])) (fun _ => hl)⟩
      rintro rfl
      simp at hl
      omega

theorem canonical_of_canL {l : List Nat} {b : Bool} (h : CanL l) (h0 : l = [0] → b = false) :
    Canonical ⟨l, [], b⟩ := by
  refine ⟨rfl, ?_, ?_, ?_, h0⟩
  · rintro h1; simp only at h1; subst h1; exact h
  · simp only
    clear h0
    induction l with
    | nil => exact absurd h id
    | cons x l ih =>
      match l, h, ih with
      | [], _, _ => simp
      | y :: l, h, ih =>
        intro v hv
        rcases List.mem_cons.1 hv with rfl | hv
        · exact h.1
        · exact ih h.2.2 v hv
  · simp only
    clear h0
    induction l with
    | nil => exact absurd h id
    | cons x l ih =>
      match l, h, ih with
      | [], _, _ => simp
      | [y], h, _ => intro _; have := h.2.1 rfl; simp; omega
      | y :: z :: l, h, ih =>
        intro _
        have := ih h.2.2 (by simp)
        simpa using this

theorem canL_val : ∀ {l : List Nat}, CanL l → ∃ q : Rat, cfVal (toInts l) = some q ∧
    ((l.headD 0 : Nat) : Rat) ≤ q ∧ q < ((l.headD 0 : Nat) : Rat) + 1 ∧ (l.tail = [] ↔ q = ((l.headD 0 : Nat) : Rat))
  | [], h => absurd h id
  | [x], _ => ⟨x, by simp [toInts, cfVal], by simp, by simp, by simp⟩
  | x :: y :: l, h => by
    obtain ⟨q, h1, h2, h3, h4⟩ := canL_val h.2.2
    have hy : (1 : Rat) ≤ (y : Rat) := by exact_mod_cast h.1
    simp only [List.headD_cons, List.tail_cons] at *
    have hq1 : 1 < q := by
      rcases lt_or_eq_of_le h2 with h' | h'
      · linarith
      · have h5 := h4.2 h'.symm
        have : (2 : Rat) ≤ (y : Rat) := by exact_mod_cast h.2.1 h5
        linarith
    have hq0 : q ≠ 0 := by linarith
    have hi : 0 < 1 / q := by positivity
    have hi1 : 1 / q < 1 := by rw [div_lt_one (by linarith)]; exact hq1
    refine ⟨x + 1 / q, ?_, by linarith, by linarith, by simp; linarith⟩
    have : cfVal (toInts (x :: y :: l)) = (match cfVal (toInts (y :: l)) with
      | none => some (((x : Int)) : Rat)
      | some y => if y = 0 then none else some (((x : Int) : Rat) + 1 / y)) := rfl
    rw [this, h1]
    simp only [hq0, if_false]
    push_cast
    rfl

theorem canL_inj : ∀ {l m : List Nat}, CanL l → CanL m → cfVal (toInts l) = cfVal (toInts m) → l = m
  | [], _, h, _, _ => absurd h id
  | _, [], _, h, _ => absurd h id
  | x :: l, z :: m, hl, hm, e => by
    obtain ⟨q, h1, h2, h3, h4⟩ := canL_val hl
    obtain ⟨r, k1, k2, k3, k4⟩ := canL_val hm
    rw [h1, k1] at e
    injection e with e
    subst e
    simp only [List.headD_cons, List.tail_cons] at *
    have hxz : x = z := by
      have a1 : (x : Rat) < z + 1 := by linarith
      have a2 : (z : Rat) < x + 1 := by linarith
      have a1' : x < z + 1 := by exact_mod_cast a1
      have a2' : z < x + 1 := by exact_mod_cast a2
      omega
    subst hxz
    match l, m, hl, hm, h1, k1, h4, k4 with
    | [], [], _, _, _, _, _, _ => rfl
    | [], _ :: _, _, _, _, _, h4, k4 => exact absurd (k4.2 (h4.1 rfl)) (by simp)
    | _ :: _, [], _, _, _, _, h4, k4 => exact absurd (h4.2 (k4.1 rfl)) (by simp)
    | y :: l, w :: m, hl, hm, h1, k1, _, _ =>
      obtain ⟨q', p1, p2, -, -⟩ := canL_val hl.2.2
      obtain ⟨r', s1, s2, -, -⟩ := canL_val hm.2.2
      have hy : (1 : Rat) ≤ (y : Rat) := by exact_mod_cast hl.1
      have hw : (1 : Rat) ≤ (w : Rat) := by exact_mod_cast hm.1
      simp only [List.headD_cons] at p2 s2
      have e1 : cfVal (toInts (x :: y :: l)) = (match cfVal (toInts (y :: l)) with
        | none => some (((x : Int)) : Rat)
        | some y => if y = 0 then none else some (((x : Int) : Rat) + 1 / y)) := rfl
      have e2 : cfVal (toInts (x :: w :: m)) = (match cfVal (toInts (w :: m)) with
        | none => some (((x : Int)) : Rat)
        | some y => if y = 0 then none else some (((x : Int) : Rat) + 1 / y)) := rfl
      have hq0 : q' ≠ 0 := by linarith
      have hr0 : r' ≠ 0 := by linarith
      rw [e1, p1] at h1
      rw [e2, s1] at k1
      simp only [hq0, hr0, if_false, Option.some.injEq] at h1 k1
      have : 1 / q' = 1 / r' := by linarith
      have hqr : q' = r' := by field_simp at this; exact this.symm
      have := canL_inj hl.2.2 hm.2.2 (by rw [p1, s1, hqr])
      rw [this]

/-- a canonical list whose value is zero is `[0]` -/
theorem canL_zero {l : List Nat} (h : CanL l) (hv : cfVal (toInts l) = some 0) : l = [0] :=
  canL_inj h (show CanL [0] from trivial) (by rw [hv]; simp [toInts, cfVal])

theorem canL_nonneg {l : List Nat} (h : CanL l) {q : Rat} (hv : cfVal (toInts l) = some q) : 0 ≤ q := by
  obtain ⟨r, h1, h2, -⟩ := canL_val h
  rw [hv] at h1
  injection h1 with h1
  subst h1
  exact le_trans (by positivity) h2

end CF
end NumIrr
