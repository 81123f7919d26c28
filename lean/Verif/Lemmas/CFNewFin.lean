/-
`ContinuedFraction::new` on finite fractions: result in terms of the loop.
-/
import Verif.Lemmas.CFNew

namespace NumIrr
namespace CF

theorem toUnsignedAll_ok (l : List Int) (h : ∀ v ∈ l, 0 ≤ v) : toUnsignedAll l = .ok (l.map Int.toNat) := by
  induction l with
  | nil => rfl
  | cons v l ih =>
    have hv : 0 ≤ v := h v (by simp)
    rw [toUnsignedAll, toUnsigned, if_neg (by omega), ih (fun w hw => h w (by simp [hw]))]
    rfl

theorem toUnsignedAll_inv (l : List Int) (r : List Nat) (h : toUnsignedAll l = .ok r) :
    (∀ v ∈ l, 0 ≤ v) ∧ r = l.map Int.toNat := by
  induction l generalizing r with
  | nil => cases h; simp
  | cons v l ih =>
    rw [toUnsignedAll, toUnsigned] at h
    by_cases hv : v < 0
    · rw [if_pos hv] at h; cases h
    · rw [if_neg hv] at h
      cases hl : toUnsignedAll l with
      | error e => rw [hl] at h; cases h
      | ok m =>
        rw [hl] at h
        obtain ⟨h1, h2⟩ := ih m hl
        cases h
        refine ⟨?_, by rw [h2]; rfl⟩
        intro w hw
        rcases List.mem_cons.1 hw with rfl | hw
        · omega
        · exact h1 w hw

theorem toInts_toNat (l : List Int) (h : ∀ v ∈ l, 0 ≤ v) : toInts (l.map Int.toNat) = l := by
  induction l with
  | nil => rfl
  | cons v l ih =>
    have hv : 0 ≤ v := h v (by simp)
    have := ih (fun w hw => h w (by simp [hw]))
    simp only [toInts, List.map_cons, List.map_map] at *
    rw [this, Int.toNat_of_nonneg hv]

theorem TInv.all : ∀ {l : List Int}, TInv l → ∀ v ∈ l, 0 ≤ v
  | [], _ => by simp
  | [b], h => by intro v hv; rw [List.mem_singleton] at hv; subst hv; exact h
  | x :: y :: l, h => by
    intro v hv
    rcases List.mem_cons.1 hv with rfl | hv
    · have := h.1; omega
    · exact TInv.all h.2 v hv

theorem SInv.all {l : List Int} (h : SInv l) : ∀ v ∈ l, 0 ≤ v := by
  match l, h with
  | [], _ => simp
  | x :: l, h =>
    intro v hv
    rcases List.mem_cons.1 hv with rfl | hv
    · exact h.1
    · exact TInv.all h.2 v hv

theorem CInv.all {l : List Int} (h : CInv l) : ∀ v ∈ l, 0 ≤ v := by
  match l, h with
  | [], _ => simp
  | [b], h => intro v hv; rw [List.mem_singleton] at hv; subst hv; exact h
  | x :: y :: l, h =>
    intro v hv
    rcases List.mem_cons.1 hv with rfl | hv
    · have := h.1; omega
    · exact TInv.all h.2 v hv

/-- the sign chosen at the end for a finite fraction -/
def finSign (s : NewSt) : Bool :=
  match (if cleanup s.stack.length s.stack = [0] then some false else s.negative) with
  | some b => b
  | none => s.negate

/-- the result for a finite fraction -/
def finRes (s : NewSt) : CF :=
  ⟨((cleanup s.stack.length s.stack).reverse).map Int.toNat, [], finSign s⟩

theorem newLoop_nil_stack (debug : Bool) (a : List Int) (n : Bool) (s : NewSt)
    (h : newLoop debug ⟨[], none, n⟩ a = .ok s) : SInv s.stack :=
  newLoop_inv debug a ⟨[], none, n⟩ s trivial h

theorem new_fin_ok (debug : Bool) (a : List Int) (n : Bool) (s : NewSt)
    (h : newLoop debug ⟨[], none, n⟩ a = .ok s) (hs : s.stack ≠ []) :
    new debug a [] n = .ok (finRes s) := by
  have hinv := newLoop_nil_stack debug a n s h
  have hc := cleanup_inv _ _ le_rfl hinv
  have ha : a ≠ [] := by rintro rfl; cases h; exact hs rfl
  unfold new
  rw [if_neg (by simp [ha]), h]
  have h1 : toUnsignedAll (cleanup s.stack.length s.stack).reverse
      = .ok ((cleanup s.stack.length s.stack).reverse.map Int.toNat) :=
    toUnsignedAll_ok _ (fun v hv => hc.all v (List.mem_reverse.1 hv))
  show (if s.stack.length = 0 ∧ ([] : List Int).length = 0 then _ else _) = _
  rw [if_neg (by simp [hs])]
  simp only [List.length_nil, if_true]
  unfold finRes finSign
  cases (if cleanup s.stack.length s.stack = [0] then some false else s.negative) with
  | none =>
    show (toUnsignedAll _ >>= _) = _
    rw [h1]; rfl
  | some b =>
    show (toUnsignedAll _ >>= _) = _
    rw [h1]; rfl

theorem new_fin_inv (debug : Bool) (a : List Int) (n : Bool) (c : CF) (h : new debug a [] n = .ok c) :
    ∃ s, newLoop debug ⟨[], none, n⟩ a = .ok s ∧ s.stack ≠ [] ∧ c = finRes s := by
  cases hl : newLoop debug ⟨[], none, n⟩ a with
  | error e =>
    unfold new at h
    rw [hl] at h
    split at h <;> cases h
  | ok s =>
    have hs : s.stack ≠ [] := by
      intro hs
      unfold new at h
      rw [hl] at h
      split at h
      · cases h
      · change (if s.stack.length = 0 ∧ ([] : List Int).length = 0 then _ else _) = _ at h
        rw [if_pos (by simp [hs])] at h
        cases h
    refine ⟨s, rfl, hs, ?_⟩
    rw [new_fin_ok debug a n s hl hs] at h
    cases h; rfl

theorem finRes_ints (s : NewSt) (h : SInv s.stack) :
    toInts (finRes s).a = (cleanup s.stack.length s.stack).reverse :=
  toInts_toNat _ (fun v hv => (cleanup_inv _ _ le_rfl h).all v (List.mem_reverse.1 hv))

theorem finRes_cfP (s : NewSt) (h : SInv s.stack) : cfP (toInts (finRes s).a) = actR s.stack (1, 0) := by
  rw [finRes_ints s h, cfP, act_eq, List.reverse_reverse, cleanup_act]

theorem finRes_canonical (s : NewSt) (h : SInv s.stack) : (finRes s).a = [] ∨ (finRes s).Canonical := by
  have hc := cleanup_inv _ _ le_rfl h
  unfold finRes finSign Canonical
  generalize cleanup s.stack.length s.stack = l at *
  match l, hc with
  | [], _ => left; rfl
  | [b], hb =>
    right
    refine ⟨rfl, by simp, by simp, by simp, ?_⟩
    intro h0
    have : b = 0 := by
      have h2 : b.toNat = 0 := by simpa using h0
      have : 0 ≤ b := hb
      omega
    subst this
    rfl
  | x :: y :: l, hc =>
    right
    have hx : 2 ≤ x := hc.1
    have key : ∀ (m : List Int), TInv m → ∀ v ∈ (m.reverse.map Int.toNat).tail, 1 ≤ v := by
      intro m
      induction m with
      | nil => simp
      | cons z m ih =>
        intro hm
        match m, hm, ih with
        | [], _, _ => simp
        | w :: m, hm, ih =>
          intro v hv
          rw [List.reverse_cons, List.map_append, List.tail_append_of_ne_nil (by simp)] at hv
          rcases List.mem_append.1 hv with hv | hv
          · exact ih hm.2 v hv
          · have hz := hm.1
            simp only [List.map_cons, List.map_nil, List.mem_singleton] at hv
            omega
    refine ⟨rfl, by simp, ?_, ?_, ?_⟩
    · intro v hv
      have hv' : v ∈ ((x :: y :: l).reverse.map Int.toNat).tail := hv
      rw [List.reverse_cons, List.map_append, List.tail_append_of_ne_nil (by simp)] at hv'
      rcases List.mem_append.1 hv' with hv | hv
      · exact key _ hc.2 v hv
      · simp only [List.map_cons, List.map_nil, List.mem_singleton] at hv
        omega
    · intro _
      show (((x :: y :: l).reverse.map Int.toNat)).getLastD 0 ≠ 1
      rw [List.reverse_cons, List.map_append]
      simp only [List.map_cons, List.map_nil]
      rw [List.getLastD_eq_getLast?, List.getLast?_concat]
      simp only [Option.getD_some]
      omega
    · intro h0
      exfalso
      have := congrArg List.length h0
      simp at this

end CF
end NumIrr
