/-
C89: equality of continued fractions.
-/
import Verif.Model.CFEq
import Verif.Lemmas.CFShort
import Verif.Props.CFNew

namespace NumIrr
namespace CF

private theorem eq_iff (c c' : CF) : c.eq c' = true ↔ c = c' := by
  obtain ⟨a, p, n⟩ := c
  obtain ⟨a', p', n'⟩ := c'
  simp [eq, and_assoc]

/-- Equality is an equivalence relation. -/
theorem cf_eq_equiv : (∀ c : CF, c.eq c = true) ∧ (∀ c c' : CF, c.eq c' = true → c'.eq c = true) ∧
    ∀ c c' c'' : CF, c.eq c' = true → c'.eq c'' = true → c.eq c'' = true := by
  refine ⟨fun c => (eq_iff _ _).2 rfl, fun c c' h => ?_, fun c c' c'' h h' => ?_⟩
  · rw [eq_iff] at *; exact h.symm
  · rw [eq_iff] at *; exact h.trans h'

/-- Equal fractions have equal values. -/
theorem cf_eq_sound (c c' : CF) (h : c.eq c' = true) (v : ℝ) : c.HasVal v ↔ c'.HasVal v := by
  rw [eq_iff] at h; rw [h]
example : eq ⟨[1], [2], false⟩ ⟨[1], [2], false⟩ = true ∧ eq ⟨[1], [2], false⟩ ⟨[1, 2], [2], false⟩ = false := by decide

/-- C89 for finite fractions: they are equal exactly if they have the same value. -/
theorem cf_eq_finite (c c' : CF) (h : c.Canonical) (h' : c'.Canonical) :
    c.eq c' = true ↔ ∃ v, c.HasVal v ∧ c'.HasVal v := by
  rw [eq_iff]
  constructor
  · rintro rfl
    obtain ⟨v, hv⟩ := Wf.hasVal (c := c) ⟨h.2.1, h.2.2.1, by rw [h.1]; simp⟩
    exact ⟨v, hv, hv⟩
  · rintro ⟨v, h1, h2⟩
    obtain ⟨q, e1, e2⟩ := (hasVal_finite h.1).1 h1
    obtain ⟨q', e1', e2'⟩ := (hasVal_finite h'.1).1 h2
    refine canonical_unique c c' h h' ?_
    rw [e1, e1']
    rw [e2] at e2'
    congr 1
    exact_mod_cast e2'

example : Canonical ⟨[3, 7, 16], [], true⟩ ∧ Canonical ⟨[3, 7, 15, 2], [], true⟩ ∧
    eq ⟨[3, 7, 16], [], true⟩ ⟨[3, 7, 15, 2], [], true⟩ = false :=
  ⟨⟨rfl, by simp, by simp, by simp, by simp⟩, ⟨rfl, by simp, by simp, by simp, by simp⟩, by decide⟩

/-- A finite and a periodic fraction are never equal, and never have the same value. -/
theorem cf_eq_mixed (c c' : CF) (h : c.p = []) (h' : c'.Wf) (hp : c'.p ≠ []) :
    c.eq c' = false ∧ ¬ ∃ v, c.HasVal v ∧ c'.HasVal v := by
  constructor
  · rw [← Bool.not_eq_true, eq_iff]
    rintro rfl
    exact hp h
  · rintro ⟨v, h1, h2⟩
    obtain ⟨q, -, rfl⟩ := (hasVal_finite h).1 h1
    have := (coeff_of_val h' hp h2).2.1
    exact this ⟨|q|, by push_cast; rfl⟩
example : Wf ⟨[1], [2], false⟩ ∧ eq ⟨[1, 2, 2], [], false⟩ ⟨[1], [2], false⟩ = false := ⟨by simp [Wf], by decide⟩

/-- Periodic fractions have the same value exactly if they have the same sign and the same coefficients. -/
theorem cf_val_periodic_iff (c c' : CF) (h : c.Wf) (hp : c.p ≠ []) (h' : c'.Wf) (hp' : c'.p ≠ []) :
    (∃ v, c.HasVal v ∧ c'.HasVal v) ↔ c.neg = c'.neg ∧ ∀ n, coeffAt c.a c.p n = coeffAt c'.a c'.p n := by
  constructor
  · rintro ⟨v, h1, h2⟩
    obtain ⟨-, -, k1, -, k2⟩ := coeff_of_val h hp h1
    obtain ⟨-, -, k1', -, k2'⟩ := coeff_of_val h' hp' h2
    exact ⟨by rw [k1, k1'], fun n => by exact_mod_cast (k2 n).trans (k2' n).symm⟩
  · rintro ⟨h1, h2⟩
    obtain ⟨v, hv⟩ := h.hasVal
    refine ⟨v, hv, ?_⟩
    rw [hasVal_periodic h hp] at hv
    rw [hasVal_periodic h' hp', hv, h1]
    congr 2
    funext n
    unfold toInts
    rw [coeffAt_map (fun n : Nat => (n : Int)) rfl, coeffAt_map (fun n : Nat => (n : Int)) rfl, h2]
example : Wf ⟨[1], [2], false⟩ ∧ Wf ⟨[1, 2], [2, 2], false⟩ ∧
    (∀ n < 6, coeffAt [1] [2] n = coeffAt [1, 2] [2, 2] n) := ⟨by simp [Wf], by simp [Wf], by decide⟩

/-- C89, restricted: fractions written in the shortest way are equal exactly if they have the same value.  (Missing from
the full claim: periodic fractions written in a longer way, for which it is false, see `cf_eq_refuted`.) -/
theorem cf_eq_partial (c c' : CF) (h : c.Wf) (hp : c.p ≠ []) (h' : c'.Wf) (hp' : c'.p ≠ [])
    (hs : c.ShortestHead ∧ c.ShortestPeriod) (hs' : c'.ShortestHead ∧ c'.ShortestPeriod) :
    c.eq c' = true ↔ ∃ v, c.HasVal v ∧ c'.HasVal v := by
  rw [eq_iff]
  constructor
  · rintro rfl
    obtain ⟨v, hv⟩ := h.hasVal
    exact ⟨v, hv, hv⟩
  · rintro ⟨v, h1, h2⟩
    exact eq_of_val h hp h' hp' h1 h2 hs.1 hs.2 hs'.1 hs'.2

/-- A fraction with one coefficient before a period of one is written in the shortest way. -/
theorem cf_shortest_one (x y : ℕ) (n : Bool) : ShortestHead ⟨[x], [y], n⟩ ∧ ShortestPeriod ⟨[x], [y], n⟩ := by
  constructor
  · intro a p h
    exact Nat.one_le_iff_ne_zero.2 fun e => h.1 (List.length_eq_zero_iff.1 e)
  · intro a p h
    exact Nat.one_le_iff_ne_zero.2 fun e => h.2.1 (List.length_eq_zero_iff.1 e)

/-- C89 is false: `[1; 2, (2)]` and `[1; (2, 2)]` are accepted by `new`, have the value of `[1; (2)]`, and are different
from it and from each other. -/
theorem cf_eq_refuted (debug : Bool) : ∃ c c' c'' : CF, ∃ v : ℝ, new debug [1] [2] false = .ok c ∧
    new debug [1, 2] [2] false = .ok c' ∧ new debug [1] [2, 2] false = .ok c'' ∧
    c.HasVal v ∧ c'.HasVal v ∧ c''.HasVal v ∧ c.eq c' = false ∧ c.eq c'' = false ∧ c'.eq c'' = false := by
  have w : ∀ l m : List ℕ, l ≠ [] → (∀ v ∈ l.tail, 1 ≤ v) → (∀ v ∈ m, 1 ≤ v) → Wf ⟨l, m, false⟩ :=
    fun l m h1 h2 h3 => ⟨h1, h2, h3⟩
  have w1 := w [1] [2] (by decide) (by decide) (by decide)
  have w2 := w [1, 2] [2] (by decide) (by decide) (by decide)
  have w3 := w [1] [2, 2] (by decide) (by decide) (by decide)
  have e : ∀ n, coeffAt [1] [2] (n + 1) = 2 := fun n => by
    unfold coeffAt
    rw [if_neg (by simp)]
    simp [Nat.mod_one]
  have e1 : ∀ n, coeffAt [1] [2] n = coeffAt [1, 2] [2] n := fun n => by
    match n with
    | 0 => rfl
    | 1 => rfl
    | n + 2 =>
      rw [e]
      unfold coeffAt
      rw [if_neg (by simp)]
      simp [Nat.mod_one]
  have e2 : ∀ n, coeffAt [1] [2] n = coeffAt [1] [2, 2] n := fun n => by
    match n with
    | 0 => rfl
    | n + 1 =>
      rw [e]
      unfold coeffAt
      rw [if_neg (by simp)]
      have : n % 2 = 0 ∨ n % 2 = 1 := by omega
      rcases this with h | h <;> simp [h]
  obtain ⟨v, hv⟩ := w1.hasVal
  obtain ⟨v', h1, h2⟩ := (cf_val_periodic_iff _ _ w1 (by decide) w2 (by decide)).2 ⟨rfl, e1⟩
  obtain ⟨v'', h3, h4⟩ := (cf_val_periodic_iff _ _ w1 (by decide) w3 (by decide)).2 ⟨rfl, e2⟩
  obtain rfl := hv.unique h1
  obtain rfl := hv.unique h3
  exact ⟨_, _, _, v, by cases debug <;> decide +kernel, by cases debug <;> decide +kernel,
    by cases debug <;> decide +kernel, h1, h2, h4, by decide, by decide, by decide⟩

end CF
end NumIrr
