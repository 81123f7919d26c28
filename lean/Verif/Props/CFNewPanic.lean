/-
C25: the panics of `ContinuedFraction::new` that come from the periodic part.
-/
import Verif.Model.CF
import Mathlib.Tactic.Common

namespace NumIrr
namespace CF

/-! ### when the sign is undecided -/

private theorem propagate_some {debug b ng : Bool} : ∀ (l : List Int) (t : Int) {s : NewSt},
    propagate debug (some b) ng l t = .ok s → s.negative ≠ none
  | [], _, s, h => by simp [propagate] at h
  | [x], t, s, h => by
    unfold propagate at h
    repeat' split at h
    all_goals cases h
    all_goals simp
  | x :: y :: r, t, s, h => by
    unfold propagate at h
    split at h
    · cases h
    split at h
    · cases h; simp
    split at h
    · split at h
      · exact propagate_some r _ h
      · cases h; simp
    split at h
    · cases h
    · cases h; simp

private theorem propagate_err {debug ng : Bool} {o : Option Bool} : ∀ (l : List Int) (t : Int),
    propagate debug o ng l t ≠ .error .unimplemented
  | [], _ => by simp [propagate]
  | [x], t => by unfold propagate; repeat' split
                 all_goals simp
  | x :: y :: r, t => by
    unfold propagate
    split
    · simp
    split
    · simp
    split
    · split
      · exact propagate_err r _
      · simp
    split <;> simp

/-- as long as the sign is undecided, only zeros have been read -/
private def J (s : NewSt) : Prop := s.negative = none → s.stack = [] ∨ s.stack = [0]

private theorem step_sign {debug : Bool} {s s' : NewSt} {a : Int} (hj : J s) (h : newStep debug s a = .ok s') :
    J s' ∧ (s'.negative = none ↔ s.negative = none ∧ a = 0) := by
  obtain ⟨st, sg, ng⟩ := s
  unfold newStep at h
  have ha : (if ng = true then 0 - a else a) = 0 ↔ a = 0 := by split <;> omega
  simp only at h
  generalize (if ng = true then 0 - a else a) = x at h ha
  cases sg with
  | none =>
    rcases hj rfl with e | e
    · simp only at e; subst e
      simp only at h
      split at h
      · cases h; simp [J, ← ha]; omega
      · cases h
        by_cases hx : x = 0 <;> simp [J, hx, ← ha]
    · simp only at e; subst e
      simp only at h
      by_cases hx : x = 0
      · simp only [hx, if_true] at h; cases h; simp [J, ← ha, hx]
      · rw [if_neg hx] at h
        split at h
        · simp [propagate] at h
          cases h; simp [J, ← ha, hx]
        · cases h; simp [J, ← ha, hx]
  | some b =>
    have hne : s'.negative ≠ none := by
      cases st with
      | nil =>
        simp only at h
        split at h
        · cases h; simp
        · cases h; by_cases hx : x = 0 <;> simp [hx]
      | cons top rest =>
        simp only at h
        split at h
        · split at h <;> (cases h; simp)
        · split at h
          · exact propagate_some _ _ h
          · cases rest with
            | nil => cases h; simp
            | cons y r => simp only at h; split at h <;> (cases h; simp)
    exact ⟨fun e => absurd e hne, by simp [hne]⟩

private theorem loop_sign {debug : Bool} : ∀ (l : List Int) {s s' : NewSt}, J s → newLoop debug s l = .ok s' →
    (s'.negative = none ↔ s.negative = none ∧ ∀ v ∈ l, v = 0)
  | [], s, s', _, h => by cases h; simp
  | a :: l, s, s', hj, h => by
    unfold newLoop at h
    simp only [bind, Except.bind] at h
    cases e : newStep debug s a with
    | error x => rw [e] at h; cases h
    | ok t =>
      rw [e] at h
      obtain ⟨h1, h2⟩ := step_sign hj e
      rw [loop_sign l h1 h, h2]
      simp [and_assoc]

private theorem step_err {debug : Bool} {s : NewSt} {a : Int} : newStep debug s a ≠ .error .unimplemented := by
  obtain ⟨st, sg, ng⟩ := s
  unfold newStep
  simp only
  generalize (if ng = true then 0 - a else a) = x
  cases st with
  | nil => simp only; split <;> simp
  | cons top rest =>
    simp only
    split
    · split <;> simp
    · split
      · exact propagate_err _ _
      · cases rest with
        | nil => simp
        | cons y r => simp only; split <;> simp

private theorem loop_err {debug : Bool} : ∀ (l : List Int) (s : NewSt), newLoop debug s l ≠ .error .unimplemented
  | [], s => by simp [newLoop]
  | a :: l, s => by
    unfold newLoop
    simp only [bind, Except.bind]
    cases e : newStep debug s a with
    | error x => exact fun h => step_err (e.trans (by simpa using h))
    | ok t => exact loop_err l t

/-- zeros only: nothing is left of an even number of them, one zero of an odd number -/
private theorem loop_zeros {debug n : Bool} : ∀ (l : List Int), (∀ v ∈ l, v = 0) →
    newLoop debug ⟨[], none, n⟩ l = .ok ⟨if l.length % 2 = 0 then [] else [0], none, n⟩ ∧
    newLoop debug ⟨[0], none, n⟩ l = .ok ⟨if l.length % 2 = 0 then [0] else [], none, n⟩
  | [], _ => by simp [newLoop]
  | a :: l, h => by
    obtain rfl : a = 0 := h a (by simp)
    obtain ⟨h1, h2⟩ := loop_zeros (debug := debug) (n := n) l fun v hv => h v (by simp [hv])
    constructor
    · unfold newLoop
      simp only [newStep, bind, Except.bind]
      cases n <;> simp [h2] <;> split <;> split <;> first | rfl | omega
    · unfold newLoop
      simp only [newStep, bind, Except.bind]
      cases n <;> simp [h1] <;> split <;> split <;> first | rfl | omega

private theorem unsigned_err : ∀ (l : List Int), toUnsignedAll l ≠ .error .unimplemented
  | [] => by simp [toUnsignedAll]
  | v :: l => by
    unfold toUnsignedAll toUnsigned
    simp only [bind, Except.bind]
    split
    · rename_i h
      split at h <;> simp at h
      subst h; simp
    · split
      · rename_i h; exact fun e => unsigned_err l (h.trans (by simpa using e))
      · simp [pure, Except.pure]

private theorem unsigned_nonneg : ∀ (l : List Int) {r : List Nat}, toUnsignedAll l = .ok r →
    r.map (fun n : Nat => (n : Int)) = l
  | [], r, h => by cases h; rfl
  | v :: l, r, h => by
    unfold toUnsignedAll toUnsigned at h
    simp only [bind, Except.bind] at h
    split at h
    · cases h
    · rename_i k hk
      split at hk
      · cases hk
      · cases hk
        split at h
        · cases h
        · rename_i m hm
          cases h
          rw [List.map_cons, unsigned_nonneg l hm]
          congr 1
          omega

private theorem unsigned_ok : ∀ (l : List Nat), toUnsignedAll (l.map fun n : Nat => (n : Int)) = .ok l
  | [] => rfl
  | v :: l => by
    rw [List.map_cons]
    unfold toUnsignedAll toUnsigned
    have hv : ¬ ((v : Nat) : Int) < 0 := by omega
    simp [unsigned_ok l, bind, Except.bind, pure, Except.pure, hv]

/-- **C25** when `new` reaches its `unimplemented!()`: exactly if all aperiodic coefficients are zero (or there are none) and the first
periodic one is not positive. -/
theorem new_unimplemented_iff (debug : Bool) (a p : List Int) (n : Bool) :
    new debug a p n = .error .unimplemented ↔ (∀ v ∈ a, v = 0) ∧ ∃ q l, p = q :: l ∧ q ≤ 0 := by
  have hj : J ⟨[], none, n⟩ := fun _ => .inl rfl
  constructor
  · intro h
    unfold new at h
    split at h
    · cases h
    simp only [bind, Except.bind] at h
    cases e : newLoop debug ⟨[], none, n⟩ a with
    | error x =>
      rw [e] at h
      exact absurd (e.trans (by simpa using h)) (loop_err _ _)
    | ok s =>
      rw [e] at h
      simp only at h
      split at h
      · cases h
      cases p with
      | nil =>
        exfalso
        simp only [List.length_nil, if_true] at h
        have hf : ∀ o, ∃ b, finalSign o s.negate [] = .ok b := fun o => by cases o <;> exact ⟨_, rfl⟩
        obtain ⟨b, hb⟩ := hf (if cleanup s.stack.length s.stack = [0] then some false else s.negative)
        rw [hb] at h
        simp only at h
        split at h
        · rename_i hx; exact unsigned_err _ (hx.trans (by simpa using h))
        · split at h
          · rename_i hx; exact unsigned_err _ (hx.trans (by simpa using h))
          · cases h
      | cons q l =>
        simp only [List.length_cons, Nat.add_one_ne_zero, if_false] at h
        by_cases hn : s.negative = none
        · refine ⟨((loop_sign a hj e).1 hn).2, q, l, rfl, ?_⟩
          by_contra hq
          rw [hn] at h
          simp only [finalSign] at h
          rw [if_neg hq] at h
          simp only at h
          split at h
          · rename_i hx; exact unsigned_err _ (hx.trans (by simpa using h))
          · split at h
            · rename_i hx; exact unsigned_err _ (hx.trans (by simpa using h))
            · cases h
        · exfalso
          obtain ⟨b, hb⟩ := Option.ne_none_iff_exists'.1 hn
          rw [hb] at h
          simp only [finalSign] at h
          split at h
          · rename_i hx; exact unsigned_err _ (hx.trans (by simpa using h))
          · split at h
            · rename_i hx; exact unsigned_err _ (hx.trans (by simpa using h))
            · cases h
  · rintro ⟨h0, q, l, rfl, hq⟩
    unfold new
    rw [if_neg (by simp)]
    simp only [bind, Except.bind, (loop_zeros (debug := debug) (n := n) a h0).1]
    simp [finalSign, hq]

/-- **C25** zeros before a period that begins with a positive coefficient: an even number of them is dropped, of an odd number one is
kept, and the sign is the flag. -/
theorem new_zeros_period (debug : Bool) (a : List Int) (h0 : ∀ v ∈ a, v = 0) (q : Nat) (p : List Nat) (hq : 1 ≤ q)
    (n : Bool) :
    new debug a ((q :: p).map fun n : Nat => (n : Int)) n = .ok ⟨if a.length % 2 = 0 then [] else [0], q :: p, n⟩ := by
  unfold new
  rw [if_neg (by simp)]
  simp only [bind, Except.bind, (loop_zeros (debug := debug) (n := n) a h0).1]
  have hf : finalSign none n ((q :: p).map fun n : Nat => (n : Int)) = .ok n := by
    simp only [finalSign, List.map_cons]
    rw [if_neg (by omega)]
  have hu : toUnsignedAll (if a.length % 2 = 0 then ([] : List Int) else [0]).reverse
      = .ok (if a.length % 2 = 0 then [] else [0]) := by
    split <;> rfl
  rw [if_neg (by simp)]
  simp only [List.length_map, List.length_cons, Nat.add_one_ne_zero, if_false, hf, hu, unsigned_ok]
  rfl

/-- **C25** the periodic coefficients are taken over unchanged; so none of them is negative if `new` returns. -/
theorem new_period_kept (debug : Bool) (a p : List Int) (n : Bool) (c : CF) (h : new debug a p n = .ok c) :
    c.p.map (fun n : Nat => (n : Int)) = p ∧ ∀ v ∈ p, 0 ≤ v := by
  have key : c.p.map (fun n : Nat => (n : Int)) = p := by
    unfold new at h
    split at h
    · cases h
    simp only [bind, Except.bind] at h
    cases e : newLoop debug ⟨[], none, n⟩ a with
    | error x => rw [e] at h; cases h
    | ok s =>
      rw [e] at h
      simp only at h
      split at h
      · cases h
      split at h
      · cases h
      split at h
      · cases h
      split at h
      · cases h
      rename_i p' hp
      cases h
      exact unsigned_nonneg p hp
  refine ⟨key, fun v hv => ?_⟩
  rw [← key] at hv
  obtain ⟨m, -, rfl⟩ := List.mem_map.1 hv
  exact Int.natCast_nonneg m

example : new true [0, 0] [0, 1] false = .error .unimplemented ∧ new true [0] [-2] true = .error .unimplemented ∧
    new true [0, 0] [1, 2] true = .ok ⟨[], [1, 2], true⟩ ∧ new true [0, 2] [0, 1] false = .ok ⟨[0, 2], [0, 1], false⟩ ∧
    new true [0, 2] [3, -1] false = .error .unwrapNone := by decide +kernel

end CF
end NumIrr
