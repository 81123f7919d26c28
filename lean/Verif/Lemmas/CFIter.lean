/-
The coefficient and convergent iterators.
-/
import Verif.Spec.Iter
import Verif.Lemmas.CFPeriod
import Verif.Lemmas.CFCanon

namespace NumIrr

theorem runIter_succ {σ β : Type} (next : σ → β × σ) (n : Nat) (s : σ) :
    runIter next (n + 1) s = (next (runIter next n s)).2 := by
  induction n generalizing s with
  | zero => rfl
  | succ n ih => rw [runIter, ih]; rfl

namespace CF

/-- the state of `Coefficients` after `n` items -/
def iterState (c : CF) (n : Nat) : CoeffIter :=
  if n ≤ c.a.length then ⟨some (c.a.drop n), c.p, none⟩
  else if c.p = [] then ⟨none, c.p, none⟩
  else ⟨none, c.p, some (c.p.drop ((n - c.a.length - 1) % c.p.length + 1))⟩

theorem iterState_next (c : CF) (n : Nat) :
    (iterState c n).next = (if c.HasCoeff n then some (coeffAt c.a c.p n) else none, iterState c (n + 1)) := by
  rcases Nat.lt_trichotomy n c.a.length with h | h | h
  · rw [if_pos (show c.HasCoeff n from Or.inr h), coeffAt_lt _ _ h]
    unfold iterState
    rw [if_pos (show n ≤ c.a.length by omega), if_pos (show n + 1 ≤ c.a.length by omega)]
    unfold CoeffIter.next
    rw [List.drop_eq_getElem_cons h]
  · subst h
    unfold iterState
    rw [if_pos le_rfl, if_neg (show ¬ c.a.length + 1 ≤ c.a.length by omega), List.drop_length]
    unfold CoeffIter.next
    simp only
    by_cases hp : c.p = []
    · have hn : ¬ c.HasCoeff c.a.length := by rintro (h | h); exact h hp; omega
      rw [if_neg hn, if_neg (by simp [hp]), if_pos hp]
    · have hl : 0 < c.p.length := List.length_pos_iff.2 hp
      rw [if_pos hl, if_neg hp]
      have e1 : coeffAt c.a c.p c.a.length = c.p[0] := by
        have h1 := coeffAt_add c.a c.p 0
        rw [Nat.add_zero] at h1
        rw [h1, coeffAt_period_lt _ hl]
      rw [if_pos (show c.HasCoeff c.a.length from Or.inl hp), e1]
      simp only [Nat.add_sub_cancel_left, Nat.sub_self, Nat.zero_mod, Nat.zero_add]
      unfold CoeffIter.restart
      match hq : c.p, hl with
      | v :: vs, _ => simp
  · obtain ⟨m, rfl⟩ := Nat.exists_eq_add_of_lt h
    unfold iterState
    rw [if_neg (show ¬ c.a.length + m + 1 ≤ c.a.length by omega),
      if_neg (show ¬ c.a.length + m + 1 + 1 ≤ c.a.length by omega)]
    by_cases hp : c.p = []
    · have hn : ¬ c.HasCoeff (c.a.length + m + 1) := by rintro (h | h); exact h hp; omega
      rw [if_neg hn, if_pos hp, if_pos hp]
      rfl
    · have hl : 0 < c.p.length := List.length_pos_iff.2 hp
      rw [if_pos (show c.HasCoeff (c.a.length + m + 1) from Or.inl hp), if_neg hp, if_neg hp]
      have e0 : c.a.length + m + 1 - c.a.length - 1 = m := by omega
      have e1 : c.a.length + m + 1 + 1 - c.a.length - 1 = m + 1 := by omega
      rw [e0, e1]
      have e2 : coeffAt c.a c.p (c.a.length + m + 1) = coeffAt [] c.p (m + 1) := by
        rw [Nat.add_assoc, coeffAt_add]
      rw [e2]
      have hm := Nat.mod_lt m hl
      have hm1 := Nat.mod_lt (m + 1) hl
      by_cases hk : m % c.p.length + 1 < c.p.length
      · have e3 : (m + 1) % c.p.length = m % c.p.length + 1 := by
          rw [Nat.add_mod, Nat.mod_eq_of_lt (show 1 < c.p.length by omega), Nat.mod_eq_of_lt hk]
        have e4 : coeffAt [] c.p (m + 1) = c.p[m % c.p.length + 1] := by
          unfold coeffAt
          rw [if_neg (by simp), List.length_nil, Nat.sub_zero, e3, List.getD_eq_getElem?_getD,
            List.getElem?_eq_getElem hk]
          rfl
        unfold CoeffIter.next
        simp only
        rw [List.drop_eq_getElem_cons hk]
        simp only
        rw [e4, e3]
      · have e3 : m % c.p.length + 1 = c.p.length := by omega
        have e5 : (m + 1) % c.p.length = 0 := by
          rw [← Nat.mod_add_div m c.p.length, Nat.add_right_comm, e3, Nat.add_mul_mod_self_left, Nat.mod_self]
        have e4 : coeffAt [] c.p (m + 1) = c.p[0] := by
          unfold coeffAt
          rw [if_neg (by simp), List.length_nil, Nat.sub_zero, e5, List.getD_eq_getElem?_getD,
            List.getElem?_eq_getElem hl]
          rfl
        unfold CoeffIter.next
        simp only
        rw [e3, List.drop_length]
        simp only
        rw [e4, e5]
        unfold CoeffIter.restart
        match hq : c.p, hl with
        | v :: vs, _ => simp

theorem iterState_zero (c : CF) : iterState c 0 = c.coeffsUnsigned := by
  simp [iterState, coeffsUnsigned]

theorem run_coeffs (c : CF) (n : Nat) : runIter CoeffIter.next n c.coeffsUnsigned = iterState c n := by
  induction n with
  | zero => exact (iterState_zero c).symm
  | succ n ih => rw [runIter_succ, ih, iterState_next]

theorem run_signed (c : CF) (n : Nat) : runIter SignedIter.next n c.coeffs = ⟨iterState c n, c.neg⟩ := by
  induction n with
  | zero => rw [iterState_zero]; rfl
  | succ n ih => rw [runIter_succ, ih, SignedIter.next, iterState_next]

theorem run_general (c : CF) (n : Nat) : runIter SignedIter.nextGeneral n c.generalized = ⟨iterState c n, c.neg⟩ := by
  induction n with
  | zero => rw [iterState_zero]; rfl
  | succ n ih => rw [runIter_succ, ih, SignedIter.nextGeneral, iterState_next]

/-! ### Convergents -/

/-- the block holding the last two convergents of a list -/
def blockOf (l : List Int) : Block :=
  ⟨(act l ((1, 0) : Int × Int)).1, (act l ((0, 1) : Int × Int)).1,
   (act l ((1, 0) : Int × Int)).2, (act l ((0, 1) : Int × Int)).2⟩

theorem blockOf_nil : blockOf [] = Block.identity := rfl

theorem blockOf_snoc (l : List Int) (a : Int) :
    blockOf (l ++ [a]) = (blockOf l).update (a * (blockOf l).pm1 + (blockOf l).pm2) (a * (blockOf l).qm1 + (blockOf l).qm2) := by
  unfold blockOf Block.update
  simp only [act_snoc, Int.cast_id, mul_one, mul_zero, add_zero, zero_add]
  rw [act_lin l a 1]
  simp

/-- the first `n` coefficients as integers -/
def trunc (c : CF) (n : Nat) : List Int := truncTo (toInts c.a) (toInts c.p) n

theorem coeffAt_toInts (c : CF) (n : Nat) : coeffAt (toInts c.a) (toInts c.p) n = ((coeffAt c.a c.p n : Nat) : Int) :=
  coeffAt_map (fun n : Nat => (n : Int)) rfl c.a c.p n

theorem trunc_succ (c : CF) (n : Nat) : c.trunc (n + 1) = c.trunc n ++ [((coeffAt c.a c.p n : Nat) : Int)] := by
  unfold trunc; rw [truncTo_succ, coeffAt_toInts]

/-- the state of `Convergents` after `n` items, without overflow -/
def convState (c : CF) (n : Nat) : ConvIter := ⟨iterState c n, blockOf (c.trunc n), c.neg⟩

theorem convState_zero (c : CF) : convState c 0 = c.convergents := by
  unfold convState convergents; rw [iterState_zero]; rfl

theorem trunc_len (c : CF) : c.trunc c.a.length = toInts c.a := by
  unfold trunc
  have : c.a.length = (toInts c.a).length := by simp [toInts]
  rw [this]; exact truncTo_self _ _

theorem trunc_tail_pos {c : CF} (h : c.Wf) {n : Nat} (hn : ∀ i < n, c.HasCoeff i) :
    ∀ v ∈ (c.trunc n).tail, 1 ≤ v := by
  intro v hv
  match n, hv with
  | 0, hv => simp [trunc, truncTo] at hv
  | n + 1, hv =>
    unfold trunc at hv
    rw [truncTo_eq_tr, tr_cons, List.tail_cons] at hv
    unfold tr at hv
    obtain ⟨i, hi, rfl⟩ := List.mem_map.1 hv
    have hi := List.mem_range.1 hi
    unfold shft
    rw [coeffAt_toInts]
    obtain ⟨h1, h2, h3⟩ := h
    suffices 1 ≤ coeffAt c.a c.p (1 + i) by exact_mod_cast this
    by_cases hl : 1 + i < c.a.length
    · rw [coeffAt_lt _ _ hl]
      apply h2
      match ha : c.a, h1, hl with
      | x :: l, _, hl =>
        have : (x :: l)[1 + i] = l[i]'(by simp at hl; omega) := by
          simp [Nat.add_comm 1 i]
        rw [this]
        exact List.getElem_mem _
    · have hp : c.p ≠ [] := by
        rcases hn (1 + i) (by omega) with h | h
        · exact h
        · exact absurd h hl
      exact h3 _ (coeffAt_mem c.a c.p hp (by omega))

theorem cfP_pos : ∀ (l : List Int), (∀ v ∈ l, 1 ≤ v) → 1 ≤ (cfP l).1 ∧ 0 ≤ (cfP l).2 ∧ (cfP l).2 ≤ (cfP l).1
  | [], _ => by simp [cfP, act]
  | a :: l, h => by
    obtain ⟨h1, h2, h3⟩ := cfP_pos l (fun v hv => h v (by simp [hv]))
    have ha : 1 ≤ a := h a (by simp)
    simp only [cfP, act, Int.cast_id] at *
    refine ⟨by nlinarith, by omega, by nlinarith⟩

/-- a non-empty list whose later entries are positive has a positive denominator -/
theorem cfP_den_pos (l : List Int) (hl : l ≠ []) (h : ∀ v ∈ l.tail, 1 ≤ v) : 1 ≤ (cfP l).2 := by
  match l, hl, h with
  | a :: l, _, h => exact (cfP_pos l h).1

theorem ratioNew_cfP (l : List Int) (h : 1 ≤ (cfP l).2) :
    ∃ q : Rat, ratioNew (cfP l).1 (cfP l).2 = .ok q ∧ cfVal l = some q := by
  refine ⟨Rat.divInt (cfP l).1 (cfP l).2, ?_, ?_⟩
  · unfold ratioNew; rw [if_neg (by omega)]
  · rw [cfVal_eq, pairVal, if_neg (by omega), Rat.divInt_eq_div]

theorem convState_next_big {c : CF} (h : c.Wf) {n : Nat} (hn : ∀ i ≤ n, c.HasCoeff i) :
    ∃ q : Rat, (convState c n).next .big = (.ok (some (signed c.neg q)), convState c (n + 1)) ∧
      cfVal (c.trunc (n + 1)) = some q := by
  have hpos : 1 ≤ (cfP (c.trunc (n + 1))).2 := by
    refine cfP_den_pos _ ?_ (trunc_tail_pos h (fun i hi => hn i (by omega)))
    rw [trunc_succ]; simp
  obtain ⟨q, hq1, hq2⟩ := ratioNew_cfP _ hpos
  refine ⟨q, ?_, hq2⟩
  have hb := blockOf_snoc (c.trunc n) ((coeffAt c.a c.p n : Nat) : Int)
  rw [← trunc_succ] at hb
  have hP : (cfP (c.trunc (n + 1))).1 = ((coeffAt c.a c.p n : Nat) : Int) * (blockOf (c.trunc n)).pm1 + (blockOf (c.trunc n)).pm2 :=
    congrArg Block.pm1 hb
  have hQ : (cfP (c.trunc (n + 1))).2 = ((coeffAt c.a c.p n : Nat) : Int) * (blockOf (c.trunc n)).qm1 + (blockOf (c.trunc n)).qm2 :=
    congrArg Block.qm1 hb
  unfold convState ConvIter.next
  rw [iterState_next, if_pos (hn n le_rfl)]
  simp only [Block.checkedRmove, Width.big, Bool.and_self, if_true]
  rw [← hP, ← hQ, hq1, hb, hP, hQ]
  rfl

theorem convState_next_end {c : CF} {w : Width} {n : Nat} (hn : ¬ c.HasCoeff n) :
    ((convState c n).next w).1 = .ok none := by
  unfold convState ConvIter.next
  rw [iterState_next, if_neg hn]

theorem hasCoeff_mono {c : CF} {n : Nat} (h : c.HasCoeff n) : ∀ i ≤ n, c.HasCoeff i := by
  intro i hi
  rcases h with h | h
  · exact .inl h
  · exact .inr (by omega)

/-- `nth` reads off the convergents -/
theorem nth_big {c : CF} (h : c.Wf) (k n : Nat) (hn : c.HasCoeff (k + n)) :
    ∃ q : Rat, ConvIter.nth .big n (convState c k) = .ok (some (signed c.neg q)) ∧
      cfVal (c.trunc (k + n + 1)) = some q := by
  induction n generalizing k with
  | zero =>
    simp only [Nat.add_zero] at hn
    obtain ⟨q, h1, h2⟩ := convState_next_big h (hasCoeff_mono hn)
    exact ⟨q, by rw [ConvIter.nth, h1], h2⟩
  | succ n ih =>
    obtain ⟨q, h1, h2⟩ := convState_next_big h (hasCoeff_mono (n := k) (hasCoeff_mono hn k (by omega)))
    obtain ⟨r, h3, h4⟩ := ih (k + 1) (by rw [show k + 1 + n = k + (n + 1) by omega]; exact hn)
    refine ⟨r, ?_, by rw [show k + (n + 1) + 1 = k + 1 + n + 1 by omega]; exact h4⟩
    rw [ConvIter.nth, h1]
    exact h3

theorem nth_big_end {c : CF} (h : c.Wf) (k n : Nat) (hn : ¬ c.HasCoeff (k + n)) :
    ConvIter.nth .big n (convState c k) = .ok none := by
  induction n generalizing k with
  | zero => rw [ConvIter.nth]; exact convState_next_end hn
  | succ n ih =>
    by_cases hk : c.HasCoeff k
    · obtain ⟨q, h1, h2⟩ := convState_next_big h (hasCoeff_mono hk)
      rw [ConvIter.nth, h1]
      exact ih (k + 1) (by rw [show k + 1 + n = k + (n + 1) by omega]; exact hn)
    · have := convState_next_end (w := .big) hk
      rw [ConvIter.nth]
      generalize hx : (convState c k).next .big = x at *
      obtain ⟨r, it⟩ := x
      simp only at this
      rw [this]

/-- `last` of a finite fraction -/
theorem last_big {c : CF} (h : c.Wf) (hp : c.p = []) (k fuel : Nat) (acc : Option Rat) (hk : k ≤ c.a.length)
    (hf : c.a.length < k + fuel) :
    ∃ r, ConvIter.last .big fuel acc (convState c k) = some (.ok r) ∧
      (k = c.a.length → r = acc) ∧ (k < c.a.length → ∃ q, cfVal (toInts c.a) = some q ∧ r = some (signed c.neg q)) := by
  induction fuel generalizing k acc with
  | zero => omega
  | succ fuel ih =>
    by_cases hlt : k < c.a.length
    · obtain ⟨q, h1, h2⟩ := convState_next_big h (hasCoeff_mono (n := k) (.inr hlt))
      obtain ⟨r, h3, h4, h5⟩ := ih (k + 1) (some (signed c.neg q)) (by omega) (by omega)
      refine ⟨r, by rw [ConvIter.last, h1]; exact h3, by omega, fun _ => ?_⟩
      by_cases he : k + 1 = c.a.length
      · refine ⟨q, ?_, h4 he⟩
        rw [he, trunc_len] at h2
        exact h2
      · exact h5 (by omega)
    · have he : k = c.a.length := by omega
      have := convState_next_end (c := c) (w := .big) (n := k) (by rintro (h | h); exact h hp; omega)
      refine ⟨acc, ?_, fun _ => rfl, fun h => absurd h hlt⟩
      rw [ConvIter.last]
      generalize hx : (convState c k).next .big = x at *
      obtain ⟨r, it⟩ := x
      simp only at this
      rw [this]

theorem Canonical.wf {c : CF} (h : c.Canonical) : c.Wf := ⟨h.2.1, h.2.2.1, by rw [h.1]; simp⟩

theorem lastConvergent_big {c : CF} (h : c.Wf) (hp : c.p = []) :
    ∃ q, c.lastConvergent .big = .ok q ∧ c.valQ = some q := by
  have hl : 0 < c.a.length := List.length_pos_iff.2 h.1
  obtain ⟨r, h1, -, h3⟩ := last_big h hp 0 (c.a.length + 1) none (by omega) (by omega)
  obtain ⟨q, h4, h5⟩ := h3 hl
  refine ⟨signed c.neg q, ?_, by unfold valQ; rw [h4]; rfl⟩
  unfold lastConvergent
  rw [← convState_zero, h1, h5]

end CF
end NumIrr
