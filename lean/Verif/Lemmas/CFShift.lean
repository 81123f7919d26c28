/-
Integer shifts of continued fractions.
-/
import Verif.Lemmas.CFNewVal
import Verif.Lemmas.CFErr2

namespace NumIrr

/-- changing the first coefficient shifts the value -/
theorem cfVal_shift (i j : Int) (l : List Int) : cfVal (j :: l) = (cfVal (i :: l)).map (fun y => y + ((j : Rat) - i)) := by
  simp only [cfVal]
  cases cfVal l with
  | none => simp
  | some y =>
    simp only
    split
    · rfl
    · simp only [Option.map_some]; congr 1; ring

theorem valOf_shift {i : Int} {r p : List Int} {y : ℝ} (h : ValOf (i :: r) p y) (j : Int) :
    ValOf (j :: r) p (y + ((j : ℝ) - i)) := by
  unfold ValOf at *
  by_cases hp : p = []
  · rw [if_pos hp] at *
    obtain ⟨q, h1, rfl⟩ := h
    exact ⟨q + ((j : Rat) - i), by rw [cfVal_shift i j, h1]; rfl, by push_cast; ring⟩
  · rw [if_neg hp] at *
    intro ε hε
    obtain ⟨N, hN⟩ := h ε hε
    refine ⟨N + 1, fun n hn => ?_⟩
    obtain ⟨m, rfl⟩ : ∃ m, n = m + 1 := ⟨n - 1, by omega⟩
    obtain ⟨q, h1, h2⟩ := hN (m + 1) (by omega)
    refine ⟨q + ((j : Rat) - i), ?_, ?_⟩
    · rw [truncTo_cons] at h1 ⊢
      rw [cfVal_shift i j, h1]; rfl
    · push_cast
      rw [show (q : ℝ) + ((j : ℝ) - i) - (y + ((j : ℝ) - i)) = (q : ℝ) - y by ring]
      exact h2

/-- replacing a prefix by one that always gives the opposite value -/
theorem valOf_neg_prefix {a a' p : List Int} (h : ∀ l, cfVal (a' ++ l) = (cfVal (a ++ l)).map (fun y => -y)) {x : ℝ}
    (hx : ValOf a p x) : ValOf a' p (-x) := by
  unfold ValOf at *
  by_cases hp : p = []
  · rw [if_pos hp] at *
    obtain ⟨q, h1, rfl⟩ := hx
    have := h []
    rw [List.append_nil, List.append_nil] at this
    exact ⟨-q, by rw [this, h1]; rfl, by push_cast; ring⟩
  · rw [if_neg hp] at *
    intro ε hε
    obtain ⟨N, hN⟩ := hx ε hε
    refine ⟨a'.length + N, fun n hn => ?_⟩
    obtain ⟨m, rfl⟩ := Nat.exists_eq_add_of_le (show a'.length ≤ n by omega)
    obtain ⟨q, h1, h2⟩ := hN (a.length + m) (by omega)
    rw [truncTo_add] at h1
    refine ⟨-q, by rw [truncTo_add, h, h1]; rfl, ?_⟩
    push_cast
    rw [show -(q : ℝ) - -x = -((q : ℝ) - x) by ring, abs_neg]
    exact h2

namespace CF

theorem new_of_loop (debug : Bool) (a p : List Int) (n f : Bool) (s : NewSt)
    (hl : newLoop debug ⟨[], none, n⟩ a = .ok s) (hne : s.stack ≠ []) (hf : s.negative = some f)
    (hp1 : ∀ v ∈ p, 1 ≤ v) :
    ∃ c, new debug a p n = .ok c ∧ toInts c.p = p ∧ (∀ y, ValOf s.stack.reverse p y → c.HasVal (signed f y)) ∧
      (p = [] → (∃ y, ValOf s.stack.reverse p y) → c.Canonical) ∧
      (p ≠ [] → toInts c.a = s.stack.reverse ∧ c.neg = f) := by
  have hinv := newLoop_nil_stack debug a n s hl
  by_cases hp : p = []
  · subst hp
    have hv : (finRes s).valQ = (cfVal s.stack.reverse).map (signed f) := by
      rw [finRes_val s hinv (flp f (actR s.stack (1, 0))) f hf (by rw [flp_flp]; cases f <;> exact .inl rfl),
        pairVal_flp, cfVal_eq, cfP, act_eq, List.reverse_reverse]
    have hval : ∀ y, ValOf s.stack.reverse [] y → ∃ q : Rat, (finRes s).valQ = some q ∧ signed f y = q := by
      rintro y ⟨q, h1, rfl⟩
      exact ⟨signed f q, by rw [hv, h1]; rfl, (signed_cast f q).symm⟩
    refine ⟨finRes s, new_fin_ok debug a n s hl hne, rfl, fun y hy => ?_, fun _ ⟨y, hy⟩ => ?_, fun h => absurd rfl h⟩
    · obtain ⟨q, h1, h2⟩ := hval y hy
      exact (hasVal_finite rfl).2 ⟨q, h1, h2⟩
    · obtain ⟨q, h1, h2⟩ := hval y hy
      exact finRes_ne_nil hinv h1
  · have hst : toUnsignedAll s.stack.reverse = .ok (s.stack.reverse.map Int.toNat) :=
      toUnsignedAll_ok _ (fun v hv => hinv.all v (List.mem_reverse.1 hv))
    have hpu : toUnsignedAll p = .ok (p.map Int.toNat) :=
      toUnsignedAll_ok _ (fun v hv => by have := hp1 v hv; omega)
    have hints : toInts (s.stack.reverse.map Int.toNat) = s.stack.reverse :=
      toInts_toNat _ (fun v hv => hinv.all v (List.mem_reverse.1 hv))
    have hpints : toInts (p.map Int.toNat) = p := toInts_toNat _ (fun v hv => by have := hp1 v hv; omega)
    refine ⟨⟨s.stack.reverse.map Int.toNat, p.map Int.toNat, f⟩, ?_, hpints, fun y hy => ⟨y, ?_, rfl⟩,
      fun h => absurd h hp, fun _ => ⟨hints, rfl⟩⟩
    · unfold new
      rw [if_neg (by simp [hp]), hl]
      show (if s.stack.length = 0 ∧ p.length = 0 then _ else _) = _
      rw [if_neg (by simp [hp])]
      simp only [show ¬ (p.length = 0) by simp [hp], if_false]
      have hneg : finalSign s.negative s.negate p = .ok f := by unfold finalSign; rw [hf]
      rw [hneg]
      show (toUnsignedAll _ >>= _) = _
      rw [hst]
      show (toUnsignedAll _ >>= _) = _
      rw [hpu]
      rfl
    · simp only
      rw [hints, hpints]
      exact hy

/-- a positive coefficient leaves a positive top -/
theorem step_top (debug : Bool) {s s' : NewSt} (hc : s.negate = false) (hinv : SInv s.stack) {a : Int} (ha : 1 ≤ a)
    (h : newStep debug s a = .ok s') : 1 ≤ s'.stack.headD 0 := by
  obtain ⟨stack, negative, negate⟩ := s
  simp only at hc hinv
  subst hc
  unfold newStep at h
  simp only [Bool.false_eq_true, if_false] at h
  match stack, hinv, h with
  | [], _, h =>
    simp only at h
    rw [if_neg (by omega)] at h
    cases h
    exact ha
  | [top], _, h =>
    simp only at h
    rw [if_neg (by omega), if_neg (by omega)] at h
    cases h
    exact ha
  | top :: am2 :: rest, hinv, h =>
    simp only at h
    rw [if_neg (by omega), if_neg (by omega)] at h
    split at h
    · cases h
      have := hinv.2.nonneg
      simp only [List.headD_cons]; omega
    · cases h
      exact ha

theorem loop_top (debug : Bool) {as : List Int} (has : ∀ a ∈ as, 1 ≤ a) {s s' : NewSt} {n : Bool} (hb : PB s n)
    (h : newLoop debug s as = .ok s') (htop : as = [] → 1 ≤ s.stack.headD 0) : 1 ≤ s'.stack.headD 0 := by
  induction as generalizing s with
  | nil => cases h; exact htop rfl
  | cons a as ih =>
    have ha := has a (by simp)
    obtain ⟨s1, e1, h1⟩ := hb.step debug (show 0 ≤ a by omega)
    rw [newLoop, e1] at h
    exact ih (fun b hb => has b (by simp [hb])) h1 h (fun _ => step_top debug hb.carry hb.inv ha e1)

/-- a stack with positive top is a well-formed fraction -/
theorem sinv_wf {st : List Int} (h : SInv st) (htop : 1 ≤ st.headD 0) : st.reverse ≠ [] ∧ ∀ v ∈ st.reverse.tail, 1 ≤ v := by
  have key : ∀ l : List Int, TInv l → ∀ v ∈ l.reverse.tail, 1 ≤ v := by
    intro l
    induction l with
    | nil => intro _ v hv; simp at hv
    | cons x l ih =>
      intro h v hv
      match l, ih, h, hv with
      | [], _, _, hv => simp at hv
      | y :: l, ih, h, hv =>
        rw [List.reverse_cons, List.tail_append_of_ne_nil (by simp), List.mem_append] at hv
        rcases hv with hv | hv
        · exact ih h.2 v hv
        · rw [List.mem_singleton] at hv; subst hv; exact h.1
  match st, h, htop with
  | [x], _, _ => simp
  | x :: y :: l, h, htop =>
    refine ⟨by simp, key (x :: y :: l) ⟨htop, h.2⟩⟩

/-- `new` on a negative first coefficient followed by positive ones -/
theorem new_flip (debug : Bool) (t : Int) (ht : 1 ≤ t) (v : Int) (hv : 1 ≤ v) (more p : List Int)
    (hm : ∀ u ∈ more, 1 ≤ u) (hp1 : ∀ u ∈ p, 1 ≤ u) (n : Bool) :
    ∃ c, new debug (-t :: v :: more) p n = .ok c ∧ toInts c.p = p ∧
      (∀ z, ValOf (-t :: v :: more) p z → c.HasVal (if n = false ∧ t = 1 then -z else signed n z)) ∧
      (p = [] → (∃ z, ValOf (-t :: v :: more) p z) → c.Canonical) ∧
      (p ≠ [] → ¬ (v = 1 ∧ more = []) → c.Wf) := by
  obtain ⟨f, hfdef⟩ : ∃ f : Bool, f = if n = false ∧ t = 1 then false else !n := ⟨_, rfl⟩
  have h1 : newStep debug ⟨[], none, n⟩ (-t) = .ok ⟨[t], some (!n), true⟩ := by
    unfold newStep
    cases n
    · simp only [Bool.false_eq_true, if_false]
      rw [if_pos (by omega)]
      simp
    · simp only [if_true]
      rw [if_neg (by omega)]
      simp only [zero_sub, neg_neg]
      rw [if_neg (by omega)]
      rfl
  have h2 : newStep debug ⟨[t], some (!n), true⟩ v = .ok ⟨[v - 1, 1, t - 1], some f, false⟩ := by
    unfold newStep
    simp only [if_true, zero_sub]
    rw [if_neg (by omega), if_pos (by omega)]
    unfold propagate
    rw [if_neg (by omega)]
    by_cases ht1 : t = 1
    · subst ht1
      rw [if_pos rfl, hfdef]
      simp only [neg_neg, sub_self, Bool.not_true]
      cases n <;> rfl
    · rw [if_neg ht1, if_neg (by omega), if_neg (by rintro ⟨-, h⟩; omega), hfdef]
      rw [if_neg (fun h => ht1 h.2)]
      simp only [neg_neg, Bool.not_true]
  have hpb : PB ⟨[v - 1, 1, t - 1], some f, false⟩ f := by
    refine ⟨rfl, rfl, ⟨by omega, by omega, ?_⟩, by simp, by simp, by simp⟩
    show (0 : Int) ≤ t - 1
    omega
  obtain ⟨s, hs, hb, hact⟩ := hpb.loop (R := Int) debug (as := more) (fun a ha => by have := hm a ha; omega)
  have hl : newLoop debug ⟨[], none, n⟩ (-t :: v :: more) = .ok s := by
    rw [newLoop, h1]
    show newLoop debug _ (v :: more) = _
    rw [newLoop, h2]
    exact hs
  obtain ⟨c, hc, hcp, hval, hcan, hper⟩ := new_of_loop debug _ p n f s hl hb.ne hb.sign hp1
  have hpre : ∀ l, cfVal (s.stack.reverse ++ l) = (cfVal ((-t :: v :: more) ++ l)).map (fun y => -y) := by
    intro l
    have e1 : cfVal (s.stack.reverse ++ l) = pairVal (actR s.stack (act l (1, 0))) := by
      rw [cfVal_eq, cfP, act_append, act_eq, List.reverse_reverse]
    have e2 : pairVal (actR [v - 1, 1, t - 1] (act more (act l (1, 0)))) = pairVal (actR s.stack (act l (1, 0))) :=
      (pairVal_prj (hact (act l (1, 0)))).symm
    have e3 : actR [v - 1, 1, t - 1] (act more (act l ((1, 0) : Int × Int))) = flp true (cfP ((-t :: v :: more) ++ l)) := by
      rw [cfP, act_append]
      simp only [act, actR, flp_true, Int.cast_id]
      ext <;> simp <;> ring
    have e4 : (cfVal ((-t :: v :: more) ++ l)).map (fun y => -y) = pairVal (flp true (cfP ((-t :: v :: more) ++ l))) := by
      rw [pairVal_flp, cfVal_eq]; rfl
    rw [e1, ← e2, e3, e4]
  refine ⟨c, hc, hcp, fun z hz => ?_, fun hp ⟨z, hz⟩ => hcan hp ⟨-z, valOf_neg_prefix hpre hz⟩, fun hp hvm => ?_⟩
  · have := hval _ (valOf_neg_prefix hpre hz)
    rw [hfdef] at this
    by_cases hb' : n = false ∧ t = 1
    · rw [if_pos hb'] at this ⊢
      exact this
    · rw [if_neg hb'] at this ⊢
      cases n <;> simpa [signed] using this
  · obtain ⟨w1, -⟩ := hper hp
    have htop := loop_top debug hm hpb hs (by
      intro h0
      simp only [List.headD_cons]
      by_contra hcon
      exact hvm ⟨by omega, h0⟩)
    obtain ⟨g1, g2⟩ := sinv_wf hb.inv htop
    rw [← w1] at g1 g2
    refine ⟨by rintro h0; rw [h0] at g1; exact g1 rfl, ?_, ?_⟩
    · intro u hu
      have : ((u : Nat) : Int) ∈ (toInts c.a).tail := by
        unfold toInts
        rw [← List.map_tail]
        exact List.mem_map_of_mem hu
      exact_mod_cast g2 _ this
    · intro u hu
      have : ((u : Nat) : Int) ∈ p := by
        rw [← hcp]
        exact List.mem_map_of_mem hu
      exact_mod_cast hp1 _ this

end CF
end NumIrr
