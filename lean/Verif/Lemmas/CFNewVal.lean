/-
Values of the results of `ContinuedFraction::new`.
-/
import Verif.Lemmas.CFNewSign

namespace NumIrr

theorem signed_signed {α : Type} [InvolutiveNeg α] (b c : Bool) (x : α) : signed b (signed c x) = signed (b ^^ c) x := by
  cases b <;> cases c <;> simp [signed]

theorem signed_self {α : Type} [InvolutiveNeg α] (b : Bool) (x : α) : signed b (signed b x) = x := by
  rw [signed_signed]; cases b <;> rfl

theorem signed_zero_rat (b : Bool) : signed b (0 : Rat) = 0 := by cases b <;> simp [signed]

theorem prj_flp_one (b : Bool) : Prj (flp b ((1, 0) : Int × Int)) (1, 0) := by
  cases b
  · exact .inl rfl
  · exact .inr (by simp [flp])

theorem flp_cfVal (n : Bool) (a : List Int) : pairVal (flp n (cfP a)) = (cfVal a).map (signed n) := by
  rw [pairVal_flp, cfVal_eq]

namespace CF

theorem finRes_val (s : NewSt) (h : SInv s.stack) (w : Int × Int) (f : Bool) (hs : s.negative = some f)
    (hw : Prj (flp f w) (actR s.stack (1, 0))) : (finRes s).valQ = pairVal w := by
  have hc := finRes_cfP s h
  have hv : cfVal (toInts (finRes s).a) = (pairVal w).map (signed f) := by
    rw [cfVal_eq, hc, pairVal_prj hw, pairVal_flp]
  unfold valQ
  by_cases h0 : cleanup s.stack.length s.stack = [0]
  · have h1 : cfVal (toInts (finRes s).a) = some 0 := by
      unfold finRes; rw [h0]; simp [toInts, cfVal]
    rw [h1] at hv
    rw [h1, Option.map_some, signed_zero_rat]
    cases hp : pairVal w with
    | none => rw [hp] at hv; cases hv
    | some q =>
      rw [hp] at hv
      simp only [Option.map_some, Option.some.injEq] at hv
      have : signed f (signed f q) = 0 := by rw [← hv, signed_zero_rat]
      rw [signed_self] at this
      rw [this]
  · have : (finRes s).neg = f := by
      unfold finRes finSign
      simp only [h0, if_false, hs]
    rw [hv, this, Option.map_map]
    cases pairVal w with
    | none => rfl
    | some q => simp [signed_self]

theorem finRes_ne_nil {s : NewSt} (h : SInv s.stack) {q : Rat} (hq : (finRes s).valQ = some q) :
    (finRes s).Canonical := by
  rcases finRes_canonical s h with h0 | h0
  · unfold valQ at hq
    rw [h0] at hq
    cases hq
  · exact h0

theorem new_value_abs (debug : Bool) (a : List Int) (n : Bool) (c : CF) (h : new debug a [] n = .ok c) :
    ∃ f, c.valQ = (cfVal a).map (signed f) := by
  obtain ⟨s, hl, hs, rfl⟩ := new_fin_inv debug a n c h
  have hinv := newLoop_nil_stack debug a n s hl
  obtain ⟨f, hf⟩ := newLoop_act (R := Int) debug a _ s hl
  have h1 := hf (1, 0)
  simp only [actR] at h1
  have h2 := h1.trans ((prj_flp_one s.negate).actR s.stack)
  have hv : cfVal (toInts (finRes s).a) = (cfVal a).map (signed (f ^^ n)) := by
    rw [cfVal_eq, finRes_cfP s hinv, pairVal_prj h2, flp_flp, pairVal_flp, cfVal_eq]
  refine ⟨(finRes s).neg ^^ (f ^^ n), ?_⟩
  unfold valQ
  rw [hv, Option.map_map]
  cases cfVal a with
  | none => rfl
  | some q => simp [signed_signed]

theorem new_nonneg_fin (debug : Bool) (a : List Int) (ha : ∀ v ∈ a, 0 ≤ v) (n : Bool) (q : Rat)
    (hq : cfVal a = some q) :
    ∃ c, new debug a [] n = .ok c ∧ c.Canonical ∧ c.valQ = some (signed n q) := by
  obtain ⟨s, hl, h⟩ := newLoop_nonneg (R := Int) debug ha n [] (.inl rfl)
  have hinv := newLoop_nil_stack debug a n s hl
  rcases h with ⟨hb, hv⟩ | ⟨h1, h2, h3, hv⟩
  · have hval : (finRes s).valQ = some (signed n q) := by
      rw [finRes_val s hinv (flp n (cfP a)) n hb.sign, flp_cfVal, hq, Option.map_some]
      rw [flp_flp, Bool.xor_self]
      exact hv (1, 0)
    exact ⟨finRes s, new_fin_ok debug a n s hl hb.ne, finRes_ne_nil hinv hval, hval⟩
  · have hv1 : cfP a = actR s.stack (1, 0) := hv (1, 0)
    rw [cfVal_eq, hv1] at hq
    rcases h3 with h3 | h3
    · rw [h3] at hq; simp [actR, pairVal] at hq
    · have hq0 : q = 0 := by
        rw [h3] at hq; simp [actR, pairVal] at hq; exact hq.symm
      have hval : (finRes s).valQ = some (signed n q) := by
        rw [hq0, signed_zero_rat]
        unfold valQ
        rw [cfVal_eq, finRes_cfP s hinv, hq, hq0]
        simp [signed_zero_rat]
      exact ⟨finRes s, new_fin_ok debug a n s hl (by rw [h3]; simp), finRes_ne_nil hinv hval, hval⟩

/-- after a non-zero coefficient the carried sign is the sign of that coefficient -/
theorem newStep_negate (debug : Bool) (s s' : NewSt) (a : Int) (h : newStep debug s a = .ok s') (ha : a ≠ 0)
    (hs : s.stack.head? ≠ some 0 ∨ s.stack = [0]) : s'.negate = decide (a < 0) := by
  obtain ⟨stack, negative, negate⟩ := s
  simp only at hs
  unfold newStep at h
  simp only at h
  have e1 : negate = false → (if negate = true then 0 - a else a) = a := by rintro rfl; simp
  have e2 : negate = true → (if negate = true then 0 - a else a) = -a := by rintro rfl; simp
  have fl : (if negate = true then 0 - a else a) < 0 → (!negate) = decide (a < 0) := by
    cases negate <;> simp at e1 e2 ⊢ <;> intro <;> omega
  have kp : ¬ (if negate = true then 0 - a else a) < 0 → negate = decide (a < 0) := by
    cases negate <;> simp at e1 e2 ⊢ <;> intro <;> omega
  have nz : (if negate = true then 0 - a else a) ≠ 0 := by cases negate <;> simp <;> omega
  generalize (if negate = true then 0 - a else a) = e at h fl kp nz
  match stack, h, hs with
  | [], h, _ =>
    simp only at h
    split at h <;> cases h
    · exact fl (by assumption)
    · exact kp (by assumption)
  | [top], h, _ =>
    simp only at h
    rw [if_neg nz] at h
    split at h
    · rw [propagate] at h
      split at h
      · cases h
      · split at h
        · cases h; exact fl (by assumption)
        · split at h
          · cases h; exact fl (by assumption)
          · split at h <;> cases h
            exact fl (by assumption)
    · cases h; exact kp (by assumption)
  | top :: am2 :: rest, h, hs =>
    have ht : top ≠ 0 := by
      rcases hs with hs | hs
      · simpa using hs
      · simp at hs
    simp only at h
    rw [if_neg nz] at h
    split at h
    · rw [propagate] at h
      split at h
      · cases h
      · split at h
        · cases h; exact fl (by assumption)
        · split at h <;> cases h
          exact fl (by assumption)
    · cases h; exact kp (by assumption)

theorem newLoop_negate (debug : Bool) (as : List Int) (has : ∀ a ∈ as, 2 ≤ |a|) (s s' : NewSt) (n : Bool)
    (h : PC s n) (d : Int) (hd : s.negate = decide (d < 0)) (hl : newLoop debug s as = .ok s') :
    s'.negate = decide (as.getLastD d < 0) := by
  induction as generalizing s d with
  | nil => cases hl; simpa using hd
  | cons a as ih =>
    obtain ⟨s1, e1, h1⟩ := h.step debug (has a (by simp))
    rw [newLoop, e1] at hl
    have ha : a ≠ 0 := by
      have := has a (by simp)
      rintro rfl
      simp at this
    have hh : s.stack.head? ≠ some 0 := by
      intro h0
      have := h.top
      rw [List.headD_eq_head?_getD, h0] at this
      simp at this
    rw [List.getLastD_cons]
    exact ih (fun b hb => has b (by simp [hb])) s1 h1 a (newStep_negate debug s s1 a e1 ha (.inl hh)) hl

section
variable {R : Type} [CommRing R]

/-- the loop on coefficients of absolute value at least two: the sign is right -/
theorem newLoop_large (debug : Bool) (a0 a1 : Int) (as : List Int) (has : ∀ v ∈ a1 :: as, 2 ≤ |v|) (n : Bool)
    (ha0 : signed n a0 ≠ -1) :
    ∃ (s : NewSt) (f : Bool), newLoop debug ⟨[], none, n⟩ (a0 :: a1 :: as) = .ok s ∧ PC s f ∧
      s.negate = decide ((a1 :: as).getLastD 0 < 0) ∧
      ∀ v : R × R, Prj (flp f (flp n (act (a0 :: a1 :: as) v))) (actR s.stack (flp s.negate v)) := by
  have he : signed n a0 = if n then 0 - a0 else a0 := by cases n <;> simp [signed]
  have ha1 : 2 ≤ |a1| := has a1 (by simp)
  -- after the first two steps the sign is settled
  have two : ∃ (s1 s2 : NewSt) (f : Bool), newStep debug ⟨[], none, n⟩ a0 = .ok s1 ∧ newStep debug s1 a1 = .ok s2 ∧
      PC s2 f ∧ ∀ v : R × R, Prj (flp f (flp n ((a0 : R) * ((a1 : R) * v.1 + v.2) + v.1, (a1 : R) * v.1 + v.2)))
        (actR s2.stack (flp s2.negate v)) := by
    have key : ∀ (s1 s2 : NewSt) (g : Bool), newStep debug ⟨[], none, n⟩ a0 = .ok s1 →
        newStep debug s1 a1 = .ok s2 → PC s2 g →
        (s1.negative = some true → s1.stack ≠ [] ∧ s1.stack.head? ≠ some 0 ∧ s1.stack ≠ [1]) →
        ∃ (s1 s2 : NewSt) (f : Bool), newStep debug ⟨[], none, n⟩ a0 = .ok s1 ∧ newStep debug s1 a1 = .ok s2 ∧
      PC s2 f ∧ ∀ v : R × R, Prj (flp f (flp n ((a0 : R) * ((a1 : R) * v.1 + v.2) + v.1, (a1 : R) * v.1 + v.2)))
        (actR s2.stack (flp s2.negate v)) := by
      intro s1 s2 g e1 e2 hg hs1
      obtain ⟨f1, hf1, ht1, hn1, -⟩ := newStep_act (R := R) debug _ a0 s1 e1
      obtain ⟨f2, hf2, ht2, hn2, hq2⟩ := newStep_act (R := R) debug s1 a1 s2 e2
      refine ⟨s1, s2, g, e1, e2, hg, fun v => ?_⟩
      have hgf : g = (f2 ^^ f1) := by
        cases f1
        · cases f2
          · have h1 := hn1 rfl
            have h2 := hn2 rfl
            rw [hg.sign] at h2
            simp only at h1
            cases g
            · rfl
            · rcases h2 with h2 | h2
              · rcases h1 with h1 | h1 <;> rw [h1] at h2 <;> cases h2
              · cases h2
          · have h2 := ht2 rfl
            rw [hg.sign] at h2
            injection h2 with h2
        · have h1 := ht1 rfl
          obtain ⟨k1, k2, k3⟩ := hs1 h1
          obtain ⟨k4, k5⟩ := hq2 k1 (.inr ⟨k2, k3⟩)
          have h2 := k5 (by rw [h1]; simp)
          rw [h1, hg.sign] at h2
          rw [k4]
          injection h2 with h2
      have h1 := hf1 ((a1 : R) * v.1 + v.2, v.1)
      have h2 := hf2 v
      simp only [actR] at h1 h2
      have h3 := (h1.flp f2).trans h2
      rw [flp_flp] at h3
      rw [hgf]
      exact h3
    have hne : ∀ m : Bool, 2 ≤ (if m = true then 0 - a1 else a1) ∨ (if m = true then 0 - a1 else a1) ≤ -2 := by
      intro m
      rcases le_abs.1 ha1 with h | h <;> cases m <;> simp <;> omega
    have e0 : ∀ k : Int, k ≠ -1 → (if n = true then 0 - a0 else a0) = k → ∃ s1 s2 g,
        newStep debug ⟨[], none, n⟩ a0 = .ok s1 ∧ newStep debug s1 a1 = .ok s2 ∧ PC s2 g ∧
        (s1.negative = some true → s1.stack ≠ [] ∧ s1.stack.head? ≠ some 0 ∧ s1.stack ≠ [1]) := by
      intro k hk1 hk
      have hz : (0 : Int) ≤ 0 := le_refl _
      by_cases hneg : k < 0
      · have s1e : newStep debug ⟨[], none, n⟩ a0 = .ok ⟨[0 - k], some true, !n⟩ := by
          unfold newStep; simp only; rw [hk, if_pos hneg]
        have hh := hne (!n)
        have hc : ∀ s2, newStep debug ⟨[0 - k], some true, !n⟩ a1 = .ok s2 → PC s2 true → ∃ s1 s2 g,
            newStep debug ⟨[], none, n⟩ a0 = .ok s1 ∧ newStep debug s1 a1 = .ok s2 ∧ PC s2 g ∧
            (s1.negative = some true → s1.stack ≠ [] ∧ s1.stack.head? ≠ some 0 ∧ s1.stack ≠ [1]) := by
          intro s2 e2 hp
          refine ⟨_, s2, true, s1e, e2, hp, fun _ => ⟨by simp, by simp; omega, by simp; omega⟩⟩
        by_cases h1 : (if (!n) = true then 0 - a1 else a1) < 0
        · refine hc _ (by
            unfold newStep; simp only
            rw [if_neg (by omega), if_pos h1, propagate, if_neg (by omega), if_neg (by omega), if_neg (by omega),
              if_neg (by omega)]) ?_
          exact ⟨rfl, ⟨by omega, by omega, by show (0:Int) ≤ _; omega⟩, by simp, by
              simp only [List.headD_cons]; omega⟩
        · refine hc _ (by
            unfold newStep; simp only
            rw [if_neg (by omega), if_neg h1]) ?_
          exact ⟨by simp, ⟨by omega, by show (0:Int) ≤ _; omega⟩, by simp, by
              simp only [List.headD_cons]; omega⟩
      · have s1e : newStep debug ⟨[], none, n⟩ a0 = .ok ⟨[k], if k = 0 then none else some false, n⟩ := by
          unfold newStep; simp only; rw [hk, if_neg hneg]
        have hh := hne n
        have hc : ∀ g s2, newStep debug ⟨[k], if k = 0 then none else some false, n⟩ a1 = .ok s2 → PC s2 g →
            ∃ s1 s2 g, newStep debug ⟨[], none, n⟩ a0 = .ok s1 ∧ newStep debug s1 a1 = .ok s2 ∧ PC s2 g ∧
            (s1.negative = some true → s1.stack ≠ [] ∧ s1.stack.head? ≠ some 0 ∧ s1.stack ≠ [1]) := by
          intro g s2 e2 hp
          refine ⟨_, s2, g, s1e, e2, hp, fun h => ?_⟩
          simp only at h
          split at h <;> cases h
        by_cases h1 : (if n = true then 0 - a1 else a1) < 0
        · by_cases hk0 : k = 0
          · refine hc true _ (by
              unfold newStep; simp only
              rw [if_neg (by omega), if_pos h1, propagate, if_neg (by omega), if_neg (by omega), if_pos (by omega)]) ?_
            exact ⟨rfl, ⟨by omega, hz⟩, by simp, by simp only [List.headD_cons]; omega⟩
          · by_cases hk2 : k = 1
            · refine hc false _ (by
                unfold newStep; simp only
                rw [if_neg (by omega), if_pos h1, propagate, if_neg (by omega), if_pos (by omega)]) ?_
              exact ⟨rfl, ⟨by omega, by omega, hz⟩, by simp, by simp only [List.headD_cons]; omega⟩
            · refine hc false _ (by
                unfold newStep; simp only
                rw [if_neg (by omega), if_pos h1, propagate, if_neg (by omega), if_neg (by omega),
                  if_neg (by omega), if_neg (by omega), if_neg hk0]) ?_
              exact ⟨rfl, ⟨by omega, by omega, by show (0:Int) ≤ _; omega⟩, by simp, by
                  simp only [List.headD_cons]; omega⟩
        · refine hc false _ (by
            unfold newStep; simp only
            rw [if_neg (by omega), if_neg h1]) ?_
          exact ⟨by by_cases hk0 : k = 0 <;> simp [hk0],
              ⟨by omega, by show (0:Int) ≤ _; omega⟩, by simp, by
              simp only [List.headD_cons]; omega⟩
    obtain ⟨s1, s2, g, q1, q2, q3, q4⟩ := e0 _ (by rw [← he]; exact ha0) rfl
    exact key s1 s2 g q1 q2 q3 q4
  obtain ⟨s1, s2, f, e1, e2, hpc, hv⟩ := two
  obtain ⟨s3, e3, hpc3, hv3⟩ := hpc.loop (R := R) debug (as := as) (fun b hb => has b (by simp [hb]))
  have hl : newLoop debug ⟨[], none, n⟩ (a0 :: a1 :: as) = .ok s3 := by
    rw [newLoop, e1]
    show newLoop debug s1 (a1 :: as) = _
    rw [newLoop, e2]
    exact e3
  refine ⟨s3, f, hl, hpc3, ?_, fun v => (hv (act as v)).trans (hv3 v)⟩
  have hst : ∃ x, s1.stack = [x] := by
    unfold newStep at e1
    simp only at e1
    generalize (if n = true then 0 - a0 else a0) = e at e1
    split at e1 <;> cases e1 <;> exact ⟨_, rfl⟩
  obtain ⟨x, hx⟩ := hst
  rw [List.getLastD_cons]
  refine newLoop_negate debug as (fun b hb => has b (by simp [hb])) s2 s3 f hpc a1 ?_ e3
  refine newStep_negate debug s1 s2 a1 e2 (by rintro rfl; simp at ha1) ?_
  rw [hx]
  by_cases h0 : x = 0
  · right; rw [h0]
  · left; simpa using h0

end

theorem new_large_fin (debug : Bool) (a0 : Int) (as : List Int) (has : ∀ v ∈ as, 2 ≤ |v|) (n : Bool)
    (ha0 : signed n a0 ≠ -1) :
    ∃ c, new debug (a0 :: as) [] n = .ok c ∧ c.Canonical ∧ c.valQ = (cfVal (a0 :: as)).map (signed n) := by
  have fin : ∀ (s : NewSt) (f : Bool), newLoop debug ⟨[], none, n⟩ (a0 :: as) = .ok s → s.negative = some f →
      s.stack ≠ [] → (∀ v : Int × Int, Prj (flp f (flp n (act (a0 :: as) v))) (actR s.stack (flp s.negate v))) →
      (finRes s).a ≠ [] →
      ∃ c, new debug (a0 :: as) [] n = .ok c ∧ c.Canonical ∧ c.valQ = (cfVal (a0 :: as)).map (signed n) := by
    intro s f hl hs hne hv hne'
    have hinv := newLoop_nil_stack debug _ n s hl
    refine ⟨finRes s, new_fin_ok debug _ n s hl hne, ?_, ?_⟩
    · exact (finRes_canonical s hinv).resolve_left hne'
    · rw [← flp_cfVal]
      refine finRes_val s hinv _ f hs ?_
      exact (hv (1, 0)).trans ((prj_flp_one s.negate).actR s.stack)
  have he : signed n a0 = if n then 0 - a0 else a0 := by cases n <;> simp [signed]
  match as, has, fin with
  | [], _, _ =>
    have hval : cfVal [a0] = some (a0 : Rat) := rfl
    by_cases hz : a0 = 0
    · subst hz
      have : new debug [0] [] n = .ok ⟨[0], [], false⟩ := by cases n <;> cases debug <;> rfl
      exact ⟨_, this, ⟨rfl, by simp, by simp, by simp, by simp⟩, by cases n <;> simp [valQ, toInts, cfVal, signed]⟩
    · have hpos : ∀ b : Bool, ∀ k : Int, 0 < k →
          finRes ⟨[k], some b, b ^^ n⟩ = ⟨[k.toNat], [], b⟩ := by
        intro b k hk
        have : k ≠ 0 := by omega
        simp [finRes, finSign, cleanup, this]
      by_cases hn : signed n a0 < 0
      · have hl : newLoop debug ⟨[], none, n⟩ [a0] = .ok ⟨[-(signed n a0)], some true, true ^^ n⟩ := by
          rw [newLoop, newStep]
          simp only
          rw [← he, if_pos hn]
          simp [newLoop, bind, Except.bind]
        have h1 := new_fin_ok debug [a0] n _ hl (by simp)
        rw [hpos _ _ (by omega)] at h1
        refine ⟨_, h1, ⟨rfl, by simp, by simp, by simp, ?_⟩, ?_⟩
        · simp; omega
        · have : ((-signed n a0).toNat : Int) = -signed n a0 := Int.toNat_of_nonneg (by omega)
          rw [hval]
          simp only [valQ, toInts, List.map_cons, List.map_nil, this]
          cases n <;> simp [cfVal, signed]
      · have hl : newLoop debug ⟨[], none, n⟩ [a0] = .ok ⟨[signed n a0], some false, false ^^ n⟩ := by
          rw [newLoop, newStep]
          simp only
          rw [← he, if_neg hn, if_neg (by cases n <;> simp [signed, hz])]
          simp [newLoop, bind, Except.bind]
        have h1 := new_fin_ok debug [a0] n _ hl (by simp)
        have hne : signed n a0 ≠ 0 := by cases n <;> simp [signed, hz]
        rw [hpos _ _ (by omega)] at h1
        refine ⟨_, h1, ⟨rfl, by simp, by simp, by simp, ?_⟩, ?_⟩
        · simp
        · have : ((signed n a0).toNat : Int) = signed n a0 := Int.toNat_of_nonneg (by omega)
          rw [hval]
          simp only [valQ, toInts, List.map_cons, List.map_nil, this]
          cases n <;> simp [cfVal, signed]
  | a1 :: as, has, fin =>
    obtain ⟨s3, f, hl, hpc3, -, hv⟩ := newLoop_large (R := Int) debug a0 a1 as has n ha0
    have hne : s3.stack ≠ [] := by intro h0; have := hpc3.len; rw [h0] at this; simp at this
    refine fin s3 f hl hpc3.sign hne ?_ ?_
    · exact hv
    · have hlen := hpc3.len
      have htop := hpc3.top
      have hi := hpc3.inv
      unfold finRes
      simp only
      intro h0
      have h0' : cleanup s3.stack.length s3.stack = [] := by
        have := congrArg List.length h0
        simp at this
        exact this
      match hst : s3.stack, hlen, htop, hi with
      | x :: y :: l, _, htop, hi =>
        rw [hst] at h0'
        simp only [List.headD_cons] at htop
        simp only [List.length_cons, cleanup] at h0'
        rw [if_neg (by omega)] at h0'
        by_cases hx : x = 1
        · rw [if_pos hx] at h0'
          match l, hi, h0' with
          | [], _, h0' => simp [cleanup] at h0'
          | z :: l, hi, h0' =>
            have := hi.2.1
            rw [cleanup, if_neg (by omega), if_neg (by omega)] at h0'
            simp at h0'
        · rw [if_neg hx] at h0'; simp at h0'

end CF
end NumIrr
