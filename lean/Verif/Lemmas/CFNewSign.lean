/-
Inputs for which `ContinuedFraction::new` gets the sign right.
-/
import Verif.Lemmas.CFNewFin
import Verif.Lemmas.CFCanon

namespace NumIrr
namespace CF

/-- the sign is decided and everything that follows is non-negative -/
structure PB (s : NewSt) (n : Bool) : Prop where
  sign : s.negative = some n
  carry : s.negate = false
  inv : SInv s.stack
  ne : s.stack ≠ []
  ne0 : s.stack ≠ [0]
  ne00 : s.stack ≠ [0, 0]

theorem PB.step (debug : Bool) {s : NewSt} {n : Bool} (h : PB s n) {a : Int} (ha : 0 ≤ a) :
    ∃ s', newStep debug s a = .ok s' ∧ PB s' n := by
  obtain ⟨stack, negative, negate⟩ := s
  obtain ⟨h1, h2, h3, h4, h5, h6⟩ := h
  simp only at *
  subst h1 h2
  unfold newStep
  simp only
  rw [if_neg (by decide : ¬ (false = true))]
  match stack, h3, h4, h5, h6 with
  | top :: rest, h3, _, h5, h6 =>
    simp only
    by_cases ha0 : a = 0
    · subst ha0
      simp only [if_true]
      by_cases ht : top = 0
      · subst ht
        simp only [if_true]
        refine ⟨_, rfl, rfl, rfl, h3.2.sinv, ?_, ?_, ?_⟩
        · rintro rfl; exact h5 rfl
        · rintro rfl; exact h6 rfl
        · rintro rfl; have := h3.2.1; omega
      · simp only [ht, if_false]
        refine ⟨_, rfl, rfl, rfl, ⟨by omega, TInv.push (by have := h3.1; omega) h3.2⟩, by simp, by simp, by simp [ht]⟩
    · simp only [ha0, if_false]
      rw [if_neg (by omega)]
      match rest, h3, h5, h6 with
      | am2 :: rest', h3, h5, h6 =>
        simp only
        by_cases ht : top = 0
        · simp only [ht, if_true]
          have := h3.2.nonneg
          refine ⟨_, rfl, rfl, rfl, (TInv.bump (by omega) h3.2).sinv, by simp, ?_, ?_⟩
          · intro h; injection h with h _; omega
          · intro h; injection h with h _; omega
        · simp only [ht, if_false]
          refine ⟨_, rfl, by simp, rfl, ⟨by omega, by have := h3.1; omega, h3.2⟩, by simp, by simp, by simp⟩
      | [], h3, h5, _ =>
        simp only
        refine ⟨_, rfl, by simp, rfl, ⟨by omega, h3.1⟩, by simp, by simp, ?_⟩
        intro h; injection h with h _; omega

section
variable {R : Type} [CommRing R]

theorem PB.loop (debug : Bool) {as : List Int} (has : ∀ a ∈ as, 0 ≤ a) {s : NewSt} {n : Bool} (h : PB s n) :
    ∃ s', newLoop debug s as = .ok s' ∧ PB s' n ∧
      ∀ v : R × R, Prj (actR s.stack (act as v)) (actR s'.stack v) := by
  induction as generalizing s with
  | nil => exact ⟨s, rfl, h, fun v => .inl rfl⟩
  | cons a as ih =>
    have ha : 0 ≤ a := has a (by simp)
    obtain ⟨s1, e1, h1⟩ := h.step debug ha
    obtain ⟨s2, e2, h2, h3⟩ := ih (fun b hb => has b (by simp [hb])) h1
    obtain ⟨f, hf, -, -, h4⟩ := newStep_act (R := R) debug s a s1 e1
    have hf0 : f = false := (h4 h.ne (.inl (by unfold eff; rw [h.carry]; simpa using ha))).1
    refine ⟨s2, by rw [newLoop, e1]; exact e2, h2, fun v => ?_⟩
    have := hf (act as v)
    rw [hf0, h.carry, h1.carry] at this
    exact this.trans (h3 v)

/-- the whole loop on non-negative coefficients: either the sign is decided correctly, or all coefficients were
zero -/
theorem newLoop_nonneg (debug : Bool) {as : List Int} (has : ∀ a ∈ as, 0 ≤ a) (n : Bool) (st : List Int)
    (hst : st = [] ∨ st = [0]) :
    ∃ s', newLoop debug ⟨st, none, n⟩ as = .ok s' ∧
      ((PB s' n ∧ ∀ v : R × R, Prj (actR st (act as v)) (actR s'.stack v)) ∨
       (s'.negative = none ∧ s'.negate = n ∧ (s'.stack = [] ∨ s'.stack = [0]) ∧
        ∀ v : R × R, actR st (act as v) = actR s'.stack v)) := by
  induction as generalizing st with
  | nil => exact ⟨_, rfl, .inr ⟨rfl, rfl, hst, fun v => rfl⟩⟩
  | cons a as ih =>
    have ha : 0 ≤ a := has a (by simp)
    have has' : ∀ b ∈ as, 0 ≤ b := fun b hb => has b (by simp [hb])
    have done : ∀ s1 : NewSt, newStep debug ⟨st, none, n⟩ a = .ok s1 → PB s1 n →
        (∀ v : R × R, Prj (actR st ((a : R) * v.1 + v.2, v.1)) (actR s1.stack v)) →
        ∃ s', newLoop debug ⟨st, none, n⟩ (a :: as) = .ok s' ∧
      ((PB s' n ∧ ∀ v : R × R, Prj (actR st (act (a :: as) v)) (actR s'.stack v)) ∨
       (s'.negative = none ∧ s'.negate = n ∧ (s'.stack = [] ∨ s'.stack = [0]) ∧
        ∀ v : R × R, actR st (act (a :: as) v) = actR s'.stack v)) := by
      intro s1 e1 h1 hv
      obtain ⟨s2, e2, h2, h3⟩ := h1.loop (R := R) debug has'
      exact ⟨s2, by rw [newLoop, e1]; exact e2, .inl ⟨h2, fun v => (hv (act as v)).trans (h3 v)⟩⟩
    rcases hst with rfl | rfl
    · by_cases ha0 : a = 0
      · subst ha0
        obtain ⟨s', e, h⟩ := ih has' [0] (.inr rfl)
        refine ⟨s', ?_, ?_⟩
        · rw [newLoop]
          have : newStep debug ⟨[], none, n⟩ 0 = .ok ⟨[0], none, n⟩ := by cases n <;> rfl
          rw [this]; exact e
        · exact h
      · cases n
        · refine done ⟨[a], some false, false⟩ ?_ ⟨rfl, rfl, ⟨ha, trivial⟩, by simp, by simp [ha0], by simp⟩ ?_
          · have : ¬ a < 0 := by omega
            simp [newStep, this, ha0]
          · intro v; exact .inl (by simp [actR])
        · refine done ⟨[a], some true, false⟩ ?_ ⟨rfl, rfl, ⟨ha, trivial⟩, by simp, by simp [ha0], by simp⟩ ?_
          · have : 0 < a := by omega
            simp [newStep, this]
          · intro v; exact .inl (by simp [actR])
    · by_cases ha0 : a = 0
      · subst ha0
        obtain ⟨s', e, h⟩ := ih has' [] (.inl rfl)
        refine ⟨s', ?_, ?_⟩
        · rw [newLoop]
          have : newStep debug ⟨[0], none, n⟩ 0 = .ok ⟨[], none, n⟩ := by cases n <;> rfl
          rw [this]; exact e
        · rcases h with ⟨h, hv⟩ | ⟨h1, h2, h3, hv⟩
          · refine .inl ⟨h, fun v => ?_⟩
            have := hv v
            simpa [actR, act] using this
          · refine .inr ⟨h1, h2, h3, fun v => ?_⟩
            have := hv v
            simpa [actR, act] using this
      · cases n
        · refine done ⟨[a, 0], some false, false⟩ ?_
            ⟨rfl, rfl, ⟨ha, by show (0:Int) ≤ 0; omega⟩, by simp, by simp, by simp [ha0]⟩ ?_
          · have : ¬ a < 0 := by omega
            simp [newStep, this, ha0]
          · intro v; exact .inl (by simp [actR])
        · refine done ⟨[a, 0], some true, false⟩ ?_
            ⟨rfl, rfl, ⟨ha, by show (0:Int) ≤ 0; omega⟩, by simp, by simp, by simp [ha0]⟩ ?_
          · have : 0 < a := by omega
            simp [newStep, this, ha0, propagate]
          · intro v; exact .inl (by simp [actR])

/-- the sign is decided and no later coefficient can disturb it -/
structure PC (s : NewSt) (n : Bool) : Prop where
  sign : s.negative = some n
  inv : SInv s.stack
  len : 2 ≤ s.stack.length
  top : 1 ≤ s.stack.headD 0

theorem PC.step (debug : Bool) {s : NewSt} {n : Bool} (h : PC s n) {a : Int} (ha : 2 ≤ |a|) :
    ∃ s', newStep debug s a = .ok s' ∧ PC s' n := by
  obtain ⟨stack, negative, negate⟩ := s
  obtain ⟨h1, h3, h4, h5⟩ := h
  simp only at *
  subst h1
  unfold newStep
  simp only
  have he : 2 ≤ (if negate = true then 0 - a else a) ∨ (if negate = true then 0 - a else a) ≤ -2 := by
    rcases le_abs.1 ha with h | h <;> cases negate <;> simp <;> omega
  generalize (if negate = true then 0 - a else a) = e at he
  match stack, h3, h4, h5 with
  | top :: am2 :: rest, h3, _, h5 =>
    simp only [List.headD_cons] at h5
    simp only
    rw [if_neg (by omega)]
    by_cases hn : e < 0
    · rw [if_pos hn]
      unfold propagate
      rw [if_neg (by omega)]
      by_cases ht1 : top = 1
      · rw [if_pos ht1]
        exact ⟨_, rfl, rfl, ⟨by omega, TInv.bump (by omega) h3.2⟩, by simp, by simp; omega⟩
      · rw [if_neg ht1, if_neg (by omega), if_neg (by omega)]
        exact ⟨_, rfl, rfl, ⟨by omega, by omega, by omega, h3.2⟩, by simp, by simp; omega⟩
    · rw [if_neg hn, if_neg (by omega)]
      exact ⟨_, rfl, by simp, ⟨by omega, by omega, h3.2⟩, by simp, by simp; omega⟩

theorem PC.loop (debug : Bool) {as : List Int} (has : ∀ a ∈ as, 2 ≤ |a|) {s : NewSt} {n : Bool} (h : PC s n) :
    ∃ s', newLoop debug s as = .ok s' ∧ PC s' n ∧
      ∀ v : R × R, Prj (actR s.stack (flp s.negate (act as v))) (actR s'.stack (flp s'.negate v)) := by
  induction as generalizing s with
  | nil => exact ⟨s, rfl, h, fun v => .inl rfl⟩
  | cons a as ih =>
    obtain ⟨s1, e1, h1⟩ := h.step debug (has a (by simp))
    obtain ⟨s2, e2, h2, h3⟩ := ih (fun b hb => has b (by simp [hb])) h1
    obtain ⟨f, hf, -, -, h4⟩ := newStep_act (R := R) debug s a s1 e1
    have hne : s.stack ≠ [] := by intro h0; have := h.len; rw [h0] at this; simp at this
    have hh : s.stack.head? ≠ some 0 ∧ s.stack ≠ [1] := by
      constructor
      · intro h0
        have := h.top
        rw [List.headD_eq_head?_getD, h0] at this
        simp at this
      · intro h0; have := h.len; rw [h0] at this; simp at this
    have hf0 : f = false := (h4 hne (.inr hh)).1
    refine ⟨s2, by rw [newLoop, e1]; exact e2, h2, fun v => ?_⟩
    have := hf (act as v)
    rw [hf0] at this
    exact this.trans (h3 v)

end

end CF
end NumIrr
