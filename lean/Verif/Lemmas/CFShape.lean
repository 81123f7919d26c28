/-
`ContinuedFraction::new` on the lists of coefficients collected from a quadratic irrational.
-/
import Verif.Lemmas.LagrangeLoop
import Verif.Lemmas.CFNewVal
import Verif.Lemmas.CFTrunc
import Verif.Lemmas.CFErr

namespace NumIrr

theorem valOf_signed {a a' p : List Int} (g : Bool) (hp : p ≠ [])
    (h : ∀ l, cfVal (a' ++ l) = (cfVal (a ++ l)).map (signed g)) {x : ℝ}
    (hx : ValOf a p x) : ValOf a' p (signed g x) := by
  unfold ValOf at *
  rw [if_neg hp] at *
  intro ε hε
  obtain ⟨N, hN⟩ := hx ε hε
  refine ⟨a'.length + N, fun n hn => ?_⟩
  obtain ⟨m, rfl⟩ := Nat.exists_eq_add_of_le (show a'.length ≤ n by omega)
  obtain ⟨q, h1, h2⟩ := hN (a.length + m) (by omega)
  refine ⟨signed g q, ?_, ?_⟩
  · rw [truncTo_add] at h1
    rw [truncTo_add, h, h1]; rfl
  · cases g
    · exact h2
    · have : |((signed true q : ℚ) : ℝ) - signed true x| = |(q : ℝ) - x| := by
        simp only [signed, if_true]
        push_cast
        rw [← abs_neg]
        congr 1; ring
      rw [this]; exact h2

namespace CF

theorem newLoop_append (debug : Bool) (s : NewSt) (l m : List Int) :
    newLoop debug s (l ++ m) = (do let s' ← newLoop debug s l; newLoop debug s' m) := by
  induction l generalizing s with
  | nil => rfl
  | cons a l ih =>
    rw [List.cons_append, newLoop, newLoop]
    cases newStep debug s a with
    | error e => rfl
    | ok s1 => exact ih s1

theorem newLoop_snoc (debug : Bool) {s s1 s2 : NewSt} {l : List Int} {a : Int} (h : newLoop debug s l = .ok s1)
    (h' : newStep debug s1 a = .ok s2) : newLoop debug s (l ++ [a]) = .ok s2 := by
  rw [newLoop_append, h]
  show newLoop debug s1 [a] = _
  rw [newLoop, h']
  rfl

theorem step_push (debug : Bool) {top : Int} {rest : List Int} (ht : rest ≠ [] → 1 ≤ top) (n : Bool) {a : Int}
    (ha : 1 ≤ a) : newStep debug ⟨top :: rest, some n, false⟩ a = .ok ⟨a :: top :: rest, some n, false⟩ := by
  unfold newStep
  simp only [Bool.false_eq_true, if_false]
  rw [if_neg (by omega), if_neg (by omega)]
  cases rest with
  | nil => simp
  | cons y rest =>
    have := ht (by simp)
    simp only
    rw [if_neg (by omega)]
    simp

theorem loop_push (debug : Bool) (n : Bool) : ∀ (l : List Int) (top : Int) (rest : List Int),
    (rest ≠ [] → 1 ≤ top) → (∀ v ∈ l, 1 ≤ v) →
    newLoop debug ⟨top :: rest, some n, false⟩ l = .ok ⟨l.reverse ++ top :: rest, some n, false⟩
  | [], _, _, _, _ => rfl
  | a :: l, top, rest, ht, hl => by
    have ha : 1 ≤ a := hl a (by simp)
    rw [newLoop, step_push debug ht n ha]
    show newLoop debug _ l = _
    rw [loop_push debug n l a (top :: rest) (fun _ => ha) (fun v hv => hl v (by simp [hv]))]
    simp

/-- the loop on a regular list of coefficients -/
theorem loop_regular (debug : Bool) (n : Bool) {a : Int} {l : List Int} (ha : 0 ≤ a) (hl : ∀ v ∈ l, 1 ≤ v)
    (h : l ≠ [] ∨ 1 ≤ a) : newLoop debug ⟨[], none, n⟩ (a :: l) = .ok ⟨(a :: l).reverse, some n, false⟩ := by
  by_cases h0 : a = 0
  · subst h0
    match l, hl, h with
    | [], _, h => rcases h with h | h <;> simp at h
    | b :: l, hl, _ =>
      have hb : 1 ≤ b := hl b (by simp)
      have : newLoop debug ⟨[], none, n⟩ [0, b] = .ok ⟨[b, 0], some n, false⟩ := by
        cases n
        · simp only [newLoop, newStep]
          simp [Bind.bind, Except.bind, show ¬ b = 0 by omega, show ¬ b < 0 by omega]
        · simp only [newLoop, newStep]
          simp [Bind.bind, Except.bind, propagate, show ¬ b = 0 by omega, show 0 < b by omega]
      rw [show (0 : Int) :: b :: l = [0, b] ++ l from rfl, newLoop_append, this]
      show newLoop debug _ l = _
      rw [loop_push debug n l b [0] (fun _ => hb) (fun v hv => hl v (by simp [hv]))]
      simp
  · have : newStep debug ⟨[], none, n⟩ a = .ok ⟨[a], some n, false⟩ := by
      cases n
      · simp [newStep, show ¬ a < 0 by omega, h0]
      · simp [newStep, show 0 < a by omega]
    rw [newLoop, this]
    show newLoop debug _ l = _
    rw [loop_push debug n l a [] (by simp) hl]
    simp

/-- after the first coefficient that is too large -/
theorem step_neg_first (debug : Bool) (n : Bool) {A B : Int} {st : List Int} (hA : 1 ≤ A) (hB : B ≤ -2)
    (h : st ≠ [] → 2 ≤ A) : newStep debug ⟨A :: st, some n, false⟩ B =
      .ok ⟨(-B - 1) :: 1 :: (A - 1) :: st, if A = 1 then some false else some n, true⟩ := by
  unfold newStep
  simp only [Bool.false_eq_true, if_false]
  rw [if_neg (by omega), if_pos (by omega)]
  cases st with
  | nil =>
    rw [propagate]
    rw [if_neg (by omega)]
    by_cases h1 : A = 1
    · simp [h1]
    · rw [if_neg h1, if_neg (by omega), if_neg (by omega), if_neg h1]
      rfl
  | cons x st =>
    have := h (by simp)
    rw [propagate]
    rw [if_neg (by omega), if_neg (by omega), if_neg (by omega), if_neg (by omega), if_neg (by omega)]
    rfl

/-- a positive coefficient while the sign is flipped -/
theorem step_back (debug : Bool) (ng : Option Bool) {x y C : Int} {st : List Int} (hx : 1 ≤ x) (hC : 1 ≤ C)
    (hst : TInv (y :: st)) :
    ∃ m st', newStep debug ⟨x :: y :: st, ng, true⟩ C = .ok ⟨(C - 1) :: m :: st', ng, false⟩ ∧ TInv (m :: st') := by
  unfold newStep
  simp only [if_true]
  rw [if_neg (by omega), if_pos (by omega), propagate, if_neg (by omega)]
  by_cases h1 : x = 1
  · rw [if_pos h1]
    exact ⟨y + 1, st, by simp, hst.bump (by omega)⟩
  · rw [if_neg h1, if_neg (by omega), if_neg (by omega)]
    exact ⟨1, (x - 1) :: y :: st, by simp, by omega, by omega, hst⟩

theorem step_merge (debug : Bool) (ng : Option Bool) {m D : Int} {st : List Int} (hD : 1 ≤ D) :
    newStep debug ⟨0 :: m :: st, ng, false⟩ D = .ok ⟨(m + D) :: st, ng, false⟩ := by
  unfold newStep
  simp only [Bool.false_eq_true, if_false]
  rw [if_neg (by omega), if_neg (by omega)]
  simp

/-- the end of the list: `[C]` with `C ≥ 2`, or `[1, D]` -/
theorem loop_back (debug : Bool) (ng : Option Bool) {x y : Int} {st l : List Int} (hx : 1 ≤ x) (hst : TInv (y :: st))
    (hl : (∃ C, 2 ≤ C ∧ l = [C]) ∨ ∃ D, 1 ≤ D ∧ l = [1, D]) :
    ∃ st', newLoop debug ⟨x :: y :: st, ng, true⟩ l = .ok ⟨st', ng, false⟩ ∧ TInv st' ∧ st' ≠ [] := by
  rcases hl with ⟨C, hC, rfl⟩ | ⟨D, hD, rfl⟩
  · obtain ⟨m, st', h1, h2⟩ := step_back debug ng hx (show 1 ≤ C by omega) hst
    refine ⟨(C - 1) :: m :: st', ?_, ⟨by omega, h2⟩, by simp⟩
    rw [newLoop, h1]; rfl
  · obtain ⟨m, st', h1, h2⟩ := step_back debug ng hx (le_refl 1) hst
    refine ⟨(m + D) :: st', ?_, h2.bump (by omega), by simp⟩
    rw [newLoop, h1]
    show newLoop debug ⟨(1 - 1 : Int) :: m :: st', ng, false⟩ [D] = _
    rw [newLoop, show (1 - 1 : Int) = 0 from rfl, step_merge debug ng hD]
    rfl

open Lagrange in
theorem loop_tail (debug : Bool) (n : Bool) {A : Int} {st l : List Int} (hA : 1 ≤ A) (h : st ≠ [] → 2 ≤ A)
    (hst : TInv st) (hl : Tail l) :
    ∃ st', newLoop debug ⟨A :: st, some n, false⟩ l = .ok ⟨st', if A = 1 then some false else some n, false⟩ ∧
      TInv st' ∧ st' ≠ [] := by
  have hst' : TInv ((A - 1) :: st) := by
    cases st with
    | nil => show 0 ≤ A - 1; omega
    | cons y st => exact ⟨by have := h (by simp); omega, hst⟩
  have key : ∀ {B : Int} {t : List Int}, B ≤ -2 → ((∃ C, 2 ≤ C ∧ t = [C]) ∨ ∃ D, 1 ≤ D ∧ t = [1, D]) →
      ∃ st', newLoop debug ⟨A :: st, some n, false⟩ (B :: t) = .ok ⟨st', if A = 1 then some false else some n, false⟩ ∧
      TInv st' ∧ st' ≠ [] := by
    intro B t hB ht
    obtain ⟨st', h1, h2⟩ := loop_back debug (if A = 1 then some false else some n) (x := -B - 1) (by omega)
      (hst'.push (le_refl 1)) ht
    exact ⟨st', by rw [newLoop, step_neg_first debug n hA hB h]; exact h1, h2⟩
  have key2 : ∀ {B B' : Int} {t : List Int}, B ≤ -2 → B' ≤ -2 → ((∃ C, 2 ≤ C ∧ t = [C]) ∨ ∃ D, 1 ≤ D ∧ t = [1, D]) →
      ∃ st', newLoop debug ⟨A :: st, some n, false⟩ (B :: B' :: t) =
        .ok ⟨st', if A = 1 then some false else some n, false⟩ ∧ TInv st' ∧ st' ≠ [] := by
    intro B B' t hB hB' ht
    obtain ⟨st', h1, h2⟩ := loop_back debug (if A = 1 then some false else some n) (x := -B') (y := -B - 1) (by omega)
      ((hst'.push (le_refl 1)).push (by omega)) ht
    refine ⟨st', ?_, h2⟩
    rw [newLoop, step_neg_first debug n hA hB h]
    show newLoop debug _ (B' :: t) = _
    rw [newLoop]
    have : newStep debug ⟨(-B - 1) :: 1 :: (A - 1) :: st, if A = 1 then some false else some n, true⟩ B' =
        .ok ⟨(-B') :: (-B - 1) :: 1 :: (A - 1) :: st, if A = 1 then some false else some n, true⟩ := by
      unfold newStep
      simp only [if_true]
      rw [if_neg (by omega), if_neg (by omega), if_neg (by omega)]
      by_cases h1 : A = 1 <;> simp [h1]
    rw [this]
    exact h1
  cases hl with
  | a hB hC => exact key hB (.inl ⟨_, hC, rfl⟩)
  | b hB hD => exact key hB (.inr ⟨_, hD, rfl⟩)
  | c hB hB' hC => exact key2 hB hB' (.inl ⟨_, hC, rfl⟩)
  | d hB hB' hD => exact key2 hB hB' (.inr ⟨_, hD, rfl⟩)

theorem tInv_rev : ∀ {l : List Int}, TInv l → ∀ v ∈ l.reverse.tail, 1 ≤ v
  | [], _ => by simp
  | [b], _ => by simp
  | x :: y :: l, h => by
    intro v hv
    rw [List.reverse_cons, List.tail_append_of_ne_nil (by simp)] at hv
    rcases List.mem_append.1 hv with hv | hv
    · exact tInv_rev h.2 v hv
    · rw [List.mem_singleton.1 hv]; exact h.1

theorem regular_tInv {a : Int} {l : List Int} (ha : 0 ≤ a) (hl : ∀ v ∈ l, 1 ≤ v) : TInv (a :: l).reverse := by
  induction l using List.reverseRecOn with
  | nil => exact ha
  | append_singleton l x ih =>
    have : (a :: (l ++ [x])).reverse = x :: (a :: l).reverse := by simp
    rw [this]
    exact (ih (fun v hv => hl v (by simp [hv]))).push (hl x (by simp))

/-- what `new` makes of a finished loop -/
theorem new_of_newLoop (debug : Bool) {a p : List Int} (hp : p ≠ []) (hp1 : ∀ v ∈ p, 1 ≤ v) {n f : Bool}
    {s : NewSt} (hl : newLoop debug ⟨[], none, n⟩ a = .ok s) (hs : finalSign s.negative s.negate p = .ok f)
    (ht : TInv s.stack) (hne : s.stack ≠ []) :
    ∃ c, new debug a p n = .ok c ∧ c.Wf ∧ toInts c.a = s.stack.reverse ∧ toInts c.p = p ∧ c.neg = f := by
  have hinv := ht.sinv
  have hst : toUnsignedAll s.stack.reverse = .ok (s.stack.reverse.map Int.toNat) :=
    toUnsignedAll_ok _ (fun v hv => hinv.all v (List.mem_reverse.1 hv))
  have hpu : toUnsignedAll p = .ok (p.map Int.toNat) :=
    toUnsignedAll_ok _ (fun v hv => by have := hp1 v hv; omega)
  have hints : toInts (s.stack.reverse.map Int.toNat) = s.stack.reverse :=
    toInts_toNat _ (fun v hv => hinv.all v (List.mem_reverse.1 hv))
  have hpints : toInts (p.map Int.toNat) = p := toInts_toNat _ (fun v hv => by have := hp1 v hv; omega)
  refine ⟨⟨s.stack.reverse.map Int.toNat, p.map Int.toNat, f⟩, ?_, ⟨?_, ?_, ?_⟩, hints, hpints, rfl⟩
  · unfold new
    rw [if_neg (by simp [hp]), hl]
    show (if s.stack.length = 0 ∧ p.length = 0 then _ else _) = _
    rw [if_neg (by simp [hp])]
    simp only [show ¬ (p.length = 0) by simp [hp], if_false]
    rw [hs]
    show (toUnsignedAll _ >>= _) = _
    rw [hst]
    show (toUnsignedAll _ >>= _) = _
    rw [hpu]
    rfl
  · simpa using hne
  · intro v hv
    rw [← List.map_tail] at hv
    obtain ⟨w, hw, rfl⟩ := List.mem_map.1 hv
    have := tInv_rev ht w hw
    omega
  · intro v hv
    obtain ⟨w, hw, rfl⟩ := List.mem_map.1 hv
    have := hp1 w hw
    omega

theorem wf_val_pos {c : CF} (h : c.Wf) (hp : c.p ≠ []) {y : ℝ} (hy : ValOf (toInts c.a) (toInts c.p) y) : 0 < y := by
  have hs := wf_posSeq h hp
  rw [(valOf_iff (toInts_ne_nil hp) hs).1 hy, cfLim_cons hs]
  have h1 : (1 : ℝ) ≤ cfLim (shft (coeffAt (toInts c.a) (toInts c.p)) 1) := shft_ge hs 0
  have h2 : (0 : ℝ) < 1 / cfLim (shft (coeffAt (toInts c.a) (toInts c.p)) 1) := by positivity
  have h3 : (0 : ℝ) ≤ coeffAt (toInts c.a) (toInts c.p) 0 := by
    have : 0 ≤ coeffAt (toInts c.a) (toInts c.p) 0 := by
      obtain ⟨ha, -, -⟩ := h
      match hc : c.a, ha with
      | x :: l, _ => simp [coeffAt, toInts]
    exact_mod_cast this
  linarith

/-- the value of the fraction made from a finished loop -/
theorem new_of_newLoop_val (debug : Bool) {a p : List Int} (hp : p ≠ []) {n : Bool}
    {s : NewSt} (hl : newLoop debug ⟨[], none, n⟩ a = .ok s) (hg : s.negate = false) {c : CF} (hc : c.Wf)
    (hca : toInts c.a = s.stack.reverse) (hcp : toInts c.p = p) {x : ℝ} (hx : ValOf a p x) (h0 : 0 < x) :
    c.HasVal (signed c.neg x) := by
  obtain ⟨f, hf⟩ := newLoop_act (R := Int) debug a _ s hl
  refine ⟨x, ?_, rfl⟩
  have h1 : ValOf (toInts c.a) p (signed (f ^^ n) x) := by
    rw [hca]
    refine valOf_signed (f ^^ n) hp (fun l => ?_) hx
    rw [cfVal_eq, cfVal_eq, cfP, cfP, act_append, act_append, ← pairVal_flp, ← flp_flp, ← actR_eq]
    have := hf (act l (1, 0))
    rw [hg, flp_false] at this
    exact pairVal_prj this
  rw [hcp]
  have hcp' : c.p ≠ [] := by rintro h; rw [h] at hcp; exact hp hcp.symm
  have h2 := wf_val_pos hc hcp' (by rw [hcp]; exact h1)
  cases hfn : (f ^^ n)
  · rwa [hfn] at h1
  · rw [hfn] at h2; simp only [signed, if_true] at h2; linarith

/-! ### All shapes -/

open Lagrange

theorem tail_head {l : List Int} (h : Tail l) : ∃ B t, l = B :: t ∧ B ≤ -2 := by
  cases h with
  | a hB => exact ⟨_, _, rfl, hB⟩
  | b hB => exact ⟨_, _, rfl, hB⟩
  | c hB => exact ⟨_, _, rfl, hB⟩
  | d hB => exact ⟨_, _, rfl, hB⟩

theorem shape_cases {l : List Int} (h : Shape l) :
    (∀ v ∈ l, 1 ≤ v) ∨ ∃ pre A t, l = pre ++ A :: t ∧ (∀ v ∈ pre, 1 ≤ v) ∧ 2 ≤ A ∧ Tail t := by
  induction h with
  | nil => exact .inl (by simp)
  | cons ha _ ih =>
    rcases ih with h | ⟨pre, A, t, rfl, h1, h2, h3⟩
    · left; intro v hv
      rcases List.mem_cons.1 hv with rfl | hv
      · exact ha
      · exact h v hv
    · refine .inr ⟨_ :: pre, A, t, rfl, ?_, h2, h3⟩
      intro v hv
      rcases List.mem_cons.1 hv with rfl | hv
      · exact ha
      · exact h1 v hv
  | off ha ht => exact .inr ⟨[], _, _, rfl, by simp, ha, ht⟩

/-- `new` on the coefficients of a positive quadratic irrational: it returns, and only the sign can be wrong -/
theorem new_shape (debug : Bool) {l p : List Int} (hl : Shape0 l) (hp : p ≠ []) (hp1 : ∀ v ∈ p, 1 ≤ v) (n : Bool)
    {x : ℝ} (hx : ValOf l p x) (h0 : 0 < x) :
    ∃ c, new debug l p n = .ok c ∧ c.Wf ∧ toInts c.p = p ∧ c.HasVal (signed c.neg x) ∧
      ((∃ t, l = 1 :: t ∧ Tail t) ∧ c.neg = false ∨ ¬ (∃ t, l = 1 :: t ∧ Tail t) ∧ c.neg = n) ∧
      ((∀ v ∈ l.tail, 1 ≤ v) → toInts c.a = l) := by
  have irr : ∀ (pre : List Int) (A : Int) (t : List Int), l = pre ++ A :: t → (∀ v ∈ pre.tail, 1 ≤ v) →
      (∀ v ∈ pre, 0 ≤ v) → 1 ≤ A → (pre ≠ [] → 2 ≤ A) → Tail t →
      ∃ c, new debug l p n = .ok c ∧ c.Wf ∧ toInts c.p = p ∧ c.HasVal (signed c.neg x) ∧
      ((∃ t, l = 1 :: t ∧ Tail t) ∧ c.neg = false ∨ ¬ (∃ t, l = 1 :: t ∧ Tail t) ∧ c.neg = n) ∧
      ((∀ v ∈ l.tail, 1 ≤ v) → toInts c.a = l) := by
    intro pre A t hlt hpre hpre0 hA hA2 ht
    have h1 : newLoop debug ⟨[], none, n⟩ (pre ++ [A]) = .ok ⟨A :: pre.reverse, some n, false⟩ ∧ TInv pre.reverse := by
      cases pre with
      | nil => exact ⟨loop_regular debug n (by omega) (by simp) (.inr hA), trivial⟩
      | cons b pre =>
        refine ⟨?_, regular_tInv (hpre0 b (by simp)) hpre⟩
        have := loop_regular debug n (a := b) (l := pre ++ [A]) (hpre0 b (by simp))
          (fun v hv => by
            rcases List.mem_append.1 hv with hv | hv
            · exact hpre v hv
            · rw [List.mem_singleton.1 hv]; exact hA) (.inl (by simp))
        simpa using this
    obtain ⟨st', h2, h3, h4⟩ := loop_tail debug n (st := pre.reverse) hA (fun h => hA2 (by simpa using h)) h1.2 ht
    have hloop : newLoop debug ⟨[], none, n⟩ l = .ok ⟨st', if A = 1 then some false else some n, false⟩ := by
      rw [hlt, show pre ++ A :: t = (pre ++ [A]) ++ t by simp, newLoop_append, h1.1]
      exact h2
    obtain ⟨c, k1, k2, k3, k4, k5⟩ := new_of_newLoop debug hp hp1 (f := if A = 1 then false else n) hloop
      (by unfold finalSign; by_cases h : A = 1 <;> simp [h]) h3 h4
    refine ⟨c, k1, k2, k4, new_of_newLoop_val debug hp hloop rfl k2 k3 k4 hx h0, ?_, fun hall => ?_⟩
    · by_cases hA1 : A = 1
      · subst hA1
        have : pre = [] := by
          by_contra h; have := hA2 h; omega
        subst this
        exact .inl ⟨⟨t, hlt, ht⟩, by simpa using k5⟩
      · refine .inr ⟨?_, by simpa [hA1] using k5⟩
        rintro ⟨t', ht', htt⟩
        rw [hlt] at ht'
        cases pre with
        | nil => exact hA1 (by simpa using congrArg List.head? ht')
        | cons b pre =>
          simp only [List.cons_append, List.cons.injEq] at ht'
          obtain ⟨-, rfl⟩ := ht'
          obtain ⟨B, t'', e, hB⟩ := tail_head htt
          cases pre with
          | nil => simp at e; have := hA; omega
          | cons b' pre =>
            simp at e
            have := hpre b' (by simp)
            omega
    · exfalso
      obtain ⟨B, t', e', hB2⟩ := tail_head ht
      have hB : B ∈ t := by rw [e']; simp
      have := hall B (by rw [hlt]; cases pre <;> simp [hB])
      omega
  have reg : ∀ (a : Int) (m : List Int), l = a :: m → 0 ≤ a → (∀ v ∈ m, 1 ≤ v) →
      ∃ c, new debug l p n = .ok c ∧ c.Wf ∧ toInts c.p = p ∧ c.HasVal (signed c.neg x) ∧
      ((∃ t, l = 1 :: t ∧ Tail t) ∧ c.neg = false ∨ ¬ (∃ t, l = 1 :: t ∧ Tail t) ∧ c.neg = n) ∧
      ((∀ v ∈ l.tail, 1 ≤ v) → toInts c.a = l) := by
    intro a m hlm ha hm
    have hnt : ¬ (∃ t, l = 1 :: t ∧ Tail t) := by
      rintro ⟨t, e, ht⟩
      rw [hlm] at e
      cases e
      obtain ⟨B, t', e', hB2⟩ := tail_head ht
      have hB : B ∈ m := by rw [e']; simp
      have := hm B hB
      omega
    have htI := regular_tInv ha hm
    have main : ∃ s : NewSt, newLoop debug ⟨[], none, n⟩ l = .ok s ∧ s.stack = l.reverse ∧
        finalSign s.negative s.negate p = .ok n := by
      by_cases h : m ≠ [] ∨ 1 ≤ a
      · exact ⟨_, by rw [hlm]; exact loop_regular debug n ha hm h, by rw [hlm], by simp [finalSign]⟩
      · simp only [not_or, not_not] at h
        obtain ⟨rfl, ha'⟩ := h
        have : a = 0 := by omega
        subst this
        refine ⟨⟨[0], none, n⟩, ?_, by rw [hlm]; rfl, ?_⟩
        · rw [hlm]; cases n <;> rfl
        · unfold finalSign
          match p, hp, hp1 with
          | q :: p, _, hp1 =>
            have := hp1 q (by simp)
            simp only
            rw [if_neg (by omega)]
    obtain ⟨s, m1, m2, m3⟩ := main
    obtain ⟨c, k1, k2, k3, k4, k5⟩ := new_of_newLoop debug hp hp1 m1 m3 (by rw [m2, hlm]; exact htI) (by rw [m2, hlm]; simp)
    rw [m2, List.reverse_reverse] at k3
    exact ⟨c, k1, k2, k4, ⟨x, by rw [k3, k4]; exact hx, rfl⟩, .inr ⟨hnt, k5⟩, fun _ => k3⟩
  cases hl with
  | @cons a m ha hm =>
    rcases shape_cases hm with h | ⟨pre, A, t, rfl, h1, h2, h3⟩
    · exact reg a m rfl ha h
    · refine irr (a :: pre) A t rfl h1 ?_ (by omega) (fun _ => h2) h3
      intro v hv
      rcases List.mem_cons.1 hv with rfl | hv
      · exact ha
      · have := h1 v hv; omega
  | @off a t ha ht => exact irr [] a t rfl (by simp) (by simp) ha (by simp) ht

end CF
end NumIrr
