/-
Continued fractions as products of matrices acting on pairs.
-/
import Mathlib.Algebra.Ring.Prod
import Mathlib.RingTheory.Coprime.Basic
import Mathlib.Data.Rat.Cast.Defs
import Mathlib.Tactic.Ring
import Mathlib.Tactic.Linarith
import Mathlib.Tactic.FieldSimp
import Mathlib.Tactic.LinearCombination
import Verif.Spec.CF

namespace NumIrr

section act
variable {R : Type} [CommRing R]

/-- the product of the matrices `[[a,1],[1,0]]` applied to a vector -/
def act : List Int → R × R → R × R
  | [], v => v
  | a :: l, v => ((a : R) * (act l v).1 + (act l v).2, (act l v).1)

/-- the same, with the list in reverse order -/
def actR : List Int → R × R → R × R
  | [], v => v
  | a :: l, v => actR l ((a : R) * v.1 + v.2, v.1)

theorem act_append (l m : List Int) (v : R × R) : act (l ++ m) v = act l (act m v) := by
  induction l with
  | nil => rfl
  | cons a l ih => simp only [List.cons_append, act, ih]

theorem actR_eq (l : List Int) (v : R × R) : actR l v = act l.reverse v := by
  induction l generalizing v with
  | nil => rfl
  | cons a l ih => rw [actR, ih, List.reverse_cons, act_append]; rfl

theorem act_eq (l : List Int) (v : R × R) : act l v = actR l.reverse v := by
  rw [actR_eq, List.reverse_reverse]

theorem act_neg (l : List Int) (v : R × R) : act l (-v) = -act l v := by
  induction l with
  | nil => rfl
  | cons a l ih =>
    simp only [act, ih, Prod.fst_neg, Prod.snd_neg]
    ext
    · simp; ring
    · simp

theorem actR_neg (l : List Int) (v : R × R) : actR l (-v) = -actR l v := by
  rw [actR_eq, actR_eq, act_neg]

/-- negate the number represented by a pair -/
def flp (b : Bool) (v : R × R) : R × R := if b then (-v.1, v.2) else v

@[simp] theorem flp_false (v : R × R) : flp false v = v := rfl
@[simp] theorem flp_true (v : R × R) : flp true v = (-v.1, v.2) := rfl

theorem flp_flp (b c : Bool) (v : R × R) : flp b (flp c v) = flp (b ^^ c) v := by
  cases b <;> cases c <;> simp [flp]

theorem flp_neg (b : Bool) (v : R × R) : flp b (-v) = -flp b v := by
  cases b <;> simp [flp]

/-- two pairs represent the same number, and differ at most by a common sign -/
def Prj (w w' : R × R) : Prop := w' = w ∨ w' = -w

theorem Prj.refl (w : R × R) : Prj w w := .inl rfl
theorem Prj.symm {w w' : R × R} (h : Prj w w') : Prj w' w := by
  rcases h with rfl | rfl
  · exact .inl rfl
  · exact .inr (by simp)
theorem Prj.trans {w w' w'' : R × R} (h : Prj w w') (h' : Prj w' w'') : Prj w w'' := by
  rcases h with rfl | rfl <;> rcases h' with rfl | rfl
  · exact .inl rfl
  · exact .inr rfl
  · exact .inr rfl
  · exact .inl (by simp)
theorem Prj.actR {w w' : R × R} (h : Prj w w') (l : List Int) : Prj (actR l w) (actR l w') := by
  rcases h with rfl | rfl
  · exact .inl rfl
  · exact .inr (actR_neg _ _)
theorem Prj.act {w w' : R × R} (h : Prj w w') (l : List Int) : Prj (act l w) (act l w') := by
  rcases h with rfl | rfl
  · exact .inl rfl
  · exact .inr (act_neg _ _)
theorem Prj.flp {w w' : R × R} (h : Prj w w') (b : Bool) : Prj (flp b w) (flp b w') := by
  rcases h with rfl | rfl
  · exact .inl rfl
  · exact .inr (flp_neg _ _)

end act

/-- the pair of integers representing a finite continued fraction -/
abbrev cfP (l : List Int) : Int × Int := act l (1, 0)

theorem cfP_ne (l : List Int) : ¬ ((cfP l).1 = 0 ∧ (cfP l).2 = 0) := by
  induction l with
  | nil => simp [cfP, act]
  | cons a l ih =>
    simp only [cfP, act] at *
    rintro ⟨h1, h2⟩
    rw [h2] at h1
    exact ih ⟨h2, by simpa using h1⟩

theorem cfP_coprime (l : List Int) : IsCoprime (cfP l).1 (cfP l).2 := by
  induction l with
  | nil => exact isCoprime_one_left
  | cons a l ih =>
    simp only [cfP, act] at *
    obtain ⟨u, v, h⟩ := ih
    refine ⟨v, u - a * v, ?_⟩
    rw [Int.cast_id]
    linear_combination h

/-- the number represented by a pair -/
def pairVal (v : Int × Int) : Option Rat := if v.2 = 0 then none else some ((v.1 : Rat) / v.2)

theorem cfVal_eq (l : List Int) : cfVal l = pairVal (cfP l) := by
  induction l with
  | nil => simp [cfVal, pairVal, act]
  | cons a l ih =>
    have hne := cfP_ne l
    rw [cfVal, ih]
    simp only [cfP, act] at *
    unfold pairVal
    by_cases h2 : (act l ((1, 0) : Int × Int)).2 = 0
    · have h1 : (act l ((1, 0) : Int × Int)).1 ≠ 0 := fun h => hne ⟨h, h2⟩
      have h1' : ((act l ((1, 0) : Int × Int)).1 : Rat) ≠ 0 := by exact_mod_cast h1
      simp only [h2, if_true, h1, if_false]
      congr 1
      push_cast
      field_simp
      simp
    · have h2' : ((act l ((1, 0) : Int × Int)).2 : Rat) ≠ 0 := by exact_mod_cast h2
      simp only [h2, if_false]
      by_cases h1 : (act l ((1, 0) : Int × Int)).1 = 0
      · simp [h1]
      · have h1' : ((act l ((1, 0) : Int × Int)).1 : Rat) ≠ 0 := by exact_mod_cast h1
        simp only [h1, if_false]
        rw [if_neg (div_ne_zero h1' h2')]
        congr 1
        push_cast
        field_simp

theorem pairVal_prj {v w : Int × Int} (h : Prj v w) : pairVal w = pairVal v := by
  rcases h with rfl | rfl
  · rfl
  · unfold pairVal
    simp only [Prod.snd_neg, Prod.fst_neg, neg_eq_zero]
    split
    · rfl
    · push_cast; rw [neg_div_neg_eq]

theorem pairVal_flp (b : Bool) (v : Int × Int) : pairVal (flp b v) = (pairVal v).map (signed b) := by
  cases b
  · rw [flp_false]
    cases pairVal v <;> rfl
  · unfold pairVal
    simp only [flp_true]
    by_cases h : v.2 = 0
    · simp [h]
    · simp only [h, if_false, Option.map_some, signed, if_true]
      push_cast; rw [neg_div]

end NumIrr
