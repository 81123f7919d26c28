/-
`ContinuedFraction::new` on fractions with a period: the value of the result.
-/
import Verif.Lemmas.CFNewVal
import Verif.Lemmas.CFPeriod

namespace NumIrr

/-- the real number represented by a pair -/
noncomputable def rq (w : ℝ × ℝ) : ℝ := w.1 / w.2

theorem rq_prj {v w : ℝ × ℝ} (h : Prj v w) : rq w = rq v := by
  rcases h with rfl | rfl
  · rfl
  · simp [rq]

theorem rq_flp (b : Bool) (w : ℝ × ℝ) : rq (flp b w) = signed b (rq w) := by
  cases b
  · rfl
  · simp [rq, signed, neg_div]

theorem valOf_act {p : List Int} (hp : p ≠ []) {t : ℝ} (ht : ValOf [] p t) (hi : Irrational t) (a : List Int) :
    (act a (t, 1)).2 ≠ 0 ∧ Irrational (rq (act a (t, 1))) ∧ ValOf a p (rq (act a (t, 1))) := by
  induction a with
  | nil => exact ⟨one_ne_zero, by simpa [rq, act] using hi, by simpa [rq, act] using ht⟩
  | cons b a ih =>
    obtain ⟨h1, h2, h3⟩ := ih
    have h0 := h2.ne_zero
    have h4 : (act a (t, 1)).1 ≠ 0 := fun h => h0 (by simp [rq, h])
    have e : rq (act (b :: a) (t, 1)) = b + 1 / rq (act a (t, 1)) := by
      simp only [rq, act]
      field_simp
    refine ⟨h4, ?_, ?_⟩
    · rw [e]
      have : Irrational (1 / rq (act a (t, 1))) := by rw [one_div]; exact h2.inv
      exact this.intCast_add b
    · rw [e]; exact valOf_cons hp h3 h0 b

theorem cfVal_neg (l : List Int) : cfVal (l.map (- ·)) = (cfVal l).map (- ·) := by
  induction l with
  | nil => rfl
  | cons a l ih =>
    rw [List.map_cons, cfVal, ih, cfVal]
    cases cfVal l with
    | none => simp
    | some y =>
      simp only [Option.map_some, neg_eq_zero]
      by_cases h : y = 0
      · simp [h]
      · simp only [h, if_false, Option.map_some]
        congr 1
        push_cast
        rw [one_div_neg_eq_neg_one_div]
        ring

theorem coeffAt_neg (a p : List Int) (n : Nat) :
    coeffAt (a.map (- ·)) (p.map (- ·)) n = - coeffAt a p n := by
  unfold coeffAt
  simp only [List.length_map]
  have g : ∀ (l : List Int) (i : Nat), (l.map (- ·)).getD i 0 = - l.getD i 0 := by
    intro l i
    simp only [List.getD_eq_getElem?_getD, List.getElem?_map]
    cases l[i]? <;> simp
  split <;> rw [g]

theorem valOf_neg {a p : List Int} {x : ℝ} (h : ValOf a p x) : ValOf (a.map (- ·)) (p.map (- ·)) (-x) := by
  unfold ValOf at *
  by_cases hp : p = []
  · subst hp
    simp only [if_true, List.map_nil] at *
    obtain ⟨q, h1, h2⟩ := h
    exact ⟨-q, by rw [cfVal_neg, h1]; rfl, by rw [h2]; push_cast; rfl⟩
  · rw [if_neg hp] at h
    rw [if_neg (by simpa using hp)]
    intro ε hε
    obtain ⟨N, hN⟩ := h ε hε
    refine ⟨N, fun n hn => ?_⟩
    obtain ⟨q, h1, h2⟩ := hN n hn
    refine ⟨-q, ?_, ?_⟩
    · have : truncTo (a.map (- ·)) (p.map (- ·)) n = (truncTo a p n).map (- ·) := by
        unfold truncTo
        rw [List.map_map]
        apply List.map_congr_left
        intro i _
        exact coeffAt_neg a p i
      rw [this, cfVal_neg, h1]; rfl
    · push_cast
      rw [← abs_neg]
      convert h2 using 2
      ring

/-- the determinant of the action is a unit -/
theorem act_detR (a : List Int) (v w : ℝ × ℝ) :
    (act a v).1 * (act a w).2 - (act a w).1 * (act a v).2 = v.1 * w.2 - w.1 * v.2 ∨
    (act a v).1 * (act a w).2 - (act a w).1 * (act a v).2 = -(v.1 * w.2 - w.1 * v.2) := by
  induction a with
  | nil => exact .inl rfl
  | cons b a ih =>
    simp only [act]
    rcases ih with h | h
    · right; rw [← h]; ring
    · left; linear_combination -h

theorem rq_act_ne (a : List Int) {t : ℝ} (h0 : t ≠ 0) (h1 : (act a (t, 1)).2 ≠ 0) (h2 : (act a (-t, 1)).2 ≠ 0) :
    rq (act a (t, 1)) ≠ rq (act a (-t, 1)) := by
  intro h
  unfold rq at h
  rw [div_eq_div_iff h1 h2] at h
  rcases act_detR a (t, 1) (-t, 1) with h' | h' <;> rw [h] at h' <;> simp at h' <;> apply h0 <;> linarith

namespace CF

/-- periods negated according to a flag -/
def negP (b : Bool) (p : List Int) : List Int := if b then p.map (- ·) else p

theorem new_period_inv (debug : Bool) (a p : List Int) (hp : p ≠ []) (hp1 : ∀ v ∈ p, 1 ≤ v) (n : Bool) (c : CF)
    (h : new debug a p n = .ok c) :
    ∃ s, newLoop debug ⟨[], none, n⟩ a = .ok s ∧ toInts c.a = s.stack.reverse ∧ toInts c.p = p ∧
      finalSign s.negative s.negate p = .ok c.neg := by
  unfold new at h
  rw [if_neg (by simp [hp])] at h
  cases hl : newLoop debug ⟨[], none, n⟩ a with
  | error e => rw [hl] at h; cases h
  | ok s =>
    rw [hl] at h
    have hinv := newLoop_nil_stack debug a n s hl
    change (if s.stack.length = 0 ∧ p.length = 0 then _ else _) = _ at h
    rw [if_neg (by simp [hp])] at h
    simp only [show ¬ (p.length = 0) by simp [hp], if_false] at h
    cases hf : finalSign s.negative s.negate p with
    | error e => rw [hf] at h; cases h
    | ok b =>
      rw [hf] at h
      change (toUnsignedAll _ >>= _) = _ at h
      rw [toUnsignedAll_ok _ (fun v hv => hinv.all v (List.mem_reverse.1 hv))] at h
      change (toUnsignedAll _ >>= _) = _ at h
      rw [toUnsignedAll_ok p (fun v hv => by have := hp1 v hv; omega)] at h
      cases h
      exact ⟨s, rfl, toInts_toNat _ (fun v hv => hinv.all v (List.mem_reverse.1 hv)),
        toInts_toNat _ (fun v hv => by have := hp1 v hv; omega), hf⟩

theorem new_period_ok (debug : Bool) (a p : List Int) (hp : p ≠ []) (hp1 : ∀ v ∈ p, 1 ≤ v) (n b : Bool) (s : NewSt)
    (hl : newLoop debug ⟨[], none, n⟩ a = .ok s) (hf : finalSign s.negative s.negate p = .ok b) :
    ∃ c, new debug a p n = .ok c ∧ toInts c.a = s.stack.reverse ∧ toInts c.p = p ∧ c.neg = b := by
  have hinv := newLoop_nil_stack debug a n s hl
  refine ⟨⟨s.stack.reverse.map Int.toNat, p.map Int.toNat, b⟩, ?_,
    toInts_toNat _ (fun v hv => hinv.all v (List.mem_reverse.1 hv)),
    toInts_toNat _ (fun v hv => by have := hp1 v hv; omega), rfl⟩
  unfold new
  rw [if_neg (by simp [hp]), hl]
  show (if s.stack.length = 0 ∧ p.length = 0 then _ else _) = _
  rw [if_neg (by simp [hp])]
  simp only [show ¬ (p.length = 0) by simp [hp], if_false]
  rw [hf]
  show (toUnsignedAll _ >>= _) = _
  rw [toUnsignedAll_ok _ (fun v hv => hinv.all v (List.mem_reverse.1 hv))]
  show (toUnsignedAll _ >>= _) = _
  rw [toUnsignedAll_ok p (fun v hv => by have := hp1 v hv; omega)]
  rfl

theorem valOf_tail (p : List Int) (hp : p ≠ []) (hp1 : ∀ v ∈ p, 1 ≤ v) :
    ∃ t : ℝ, ∀ b : Bool, negP b p ≠ [] ∧ ValOf [] (negP b p) (signed b t) ∧ Irrational (signed b t) := by
  obtain ⟨t, h1, h2⟩ := valOf_exists [] p hp hp1
  refine ⟨t, fun b => ?_⟩
  cases b
  · exact ⟨hp, h1, h2⟩
  · exact ⟨by simpa [negP] using hp, by simpa [negP, signed] using valOf_neg h1, by simpa [signed] using h2.neg⟩

/-- the value of a result, from the state at the end of the loop -/
theorem period_value {a p : List Int} (hp : p ≠ []) (hp1 : ∀ v ∈ p, 1 ≤ v) {n g : Bool} {s : NewSt}
    (hv : ∀ v : ℝ × ℝ, Prj (flp g (flp n (act a v))) (actR s.stack (flp s.negate v))) {c : CF}
    (ha : toInts c.a = s.stack.reverse) (hcp : toInts c.p = p) :
    ∃ x : ℝ, ValOf a (negP s.negate p) x ∧ c.HasVal (signed (c.neg ^^ (g ^^ n)) x) := by
  obtain ⟨t, ht⟩ := valOf_tail p hp hp1
  obtain ⟨k1, k2, k3⟩ := ht s.negate
  obtain ⟨-, -, m3⟩ := valOf_act k1 k2 k3 a
  refine ⟨_, m3, rq (actR s.stack (t, 1)), ?_, ?_⟩
  · obtain ⟨k1, k2, k3⟩ := ht false
    obtain ⟨-, -, l3⟩ := valOf_act k1 k2 k3 s.stack.reverse
    rw [ha, hcp, actR_eq]
    exact l3
  · have h1 := hv (signed s.negate t, 1)
    have h2 : flp s.negate ((signed s.negate t, 1) : ℝ × ℝ) = (t, 1) := by
      cases s.negate <;> simp [signed]
    rw [h2] at h1
    rw [rq_prj h1, rq_flp, rq_flp, signed_signed, signed_signed]
    congr 1
    cases c.neg <;> cases g <;> cases n <;> rfl

/-! ### Coefficients of absolute value at least two -/

/-- the one case in which the sign is lost: the first coefficient is `-1` and the second positive, after applying
the requested sign -/
def lost (n : Bool) (a0 a1 : Int) : Bool := decide (signed n a0 = -1 ∧ 0 < signed n a1)

section
variable {R : Type} [CommRing R]

theorem newLoop_minus_one (debug : Bool) (a0 a1 : Int) (as : List Int) (has : ∀ v ∈ a1 :: as, 2 ≤ |v|) (n : Bool)
    (ha0 : signed n a0 = -1) :
    ∃ (s : NewSt) (f : Bool), newLoop debug ⟨[], none, n⟩ (a0 :: a1 :: as) = .ok s ∧ PC s f ∧
      s.negate = decide ((a1 :: as).getLastD 0 < 0) ∧
      ∀ v : R × R, Prj (flp f (flp (n ^^ lost n a0 a1) (act (a0 :: a1 :: as) v))) (actR s.stack (flp s.negate v)) := by
  have ha1 : 2 ≤ |a1| := has a1 (by simp)
  have e1 : newStep debug ⟨[], none, n⟩ a0 = .ok ⟨[1], some true, !n⟩ := by
    unfold newStep
    cases n <;> simp [signed] at ha0 <;> subst ha0 <;> rfl
  have rest : ∀ (s2 : NewSt) (f : Bool), newStep debug ⟨[1], some true, !n⟩ a1 = .ok s2 → PC s2 f →
      (∀ v : R × R, Prj (flp f (flp (n ^^ lost n a0 a1)
        ((a0 : R) * ((a1 : R) * v.1 + v.2) + v.1, (a1 : R) * v.1 + v.2))) (actR s2.stack (flp s2.negate v))) →
      ∃ (s : NewSt) (f : Bool), newLoop debug ⟨[], none, n⟩ (a0 :: a1 :: as) = .ok s ∧ PC s f ∧
      s.negate = decide ((a1 :: as).getLastD 0 < 0) ∧
      ∀ v : R × R, Prj (flp f (flp (n ^^ lost n a0 a1) (act (a0 :: a1 :: as) v))) (actR s.stack (flp s.negate v)) := by
    intro s2 f e2 hpc hv
    obtain ⟨s3, e3, hpc3, hv3⟩ := hpc.loop (R := R) debug (as := as) (fun b hb => has b (by simp [hb]))
    refine ⟨s3, f, ?_, hpc3, ?_, fun v => (hv (act as v)).trans (hv3 v)⟩
    · rw [newLoop, e1]
      show newLoop debug _ (a1 :: as) = _
      rw [newLoop, e2]
      exact e3
    · rw [List.getLastD_cons]
      refine newLoop_negate debug as (fun b hb => has b (by simp [hb])) s2 s3 f hpc a1 ?_ e3
      exact newStep_negate debug _ s2 a1 e2 (by rintro rfl; simp at ha1) (.inl (by simp))
  have hee : (if (!n) = true then 0 - a1 else a1) = - signed n a1 := by cases n <;> simp [signed]
  have hcase : 2 ≤ signed n a1 ∨ signed n a1 ≤ -2 := by
    rcases le_abs.1 ha1 with h | h <;> cases n <;> simp [signed] <;> omega
  rcases hcase with h | h
  · have hl : lost n a0 a1 = true := by simp [lost, ha0]; omega
    refine rest ⟨[signed n a1 - 1, 1, 0], some false, n⟩ false ?_ ⟨rfl, ⟨?_, ?_, ?_⟩, ?_, ?_⟩ ?_
    · unfold newStep
      simp only
      rw [hee, if_neg (by omega), if_pos (by omega), propagate, if_neg (by omega), if_pos rfl]
      simp
    · omega
    · omega
    · show (0 : Int) ≤ 0; omega
    · simp
    · simp only [List.headD_cons]; omega
    · intro v
      rw [hl]
      cases n
      · have : a0 = -1 := by simpa [signed] using ha0
        subst this
        first
          | exact .inl (by ext <;> simp [actR, signed] <;> ring)
          | exact .inr (by ext <;> simp [actR, signed] <;> ring)
      · have : a0 = 1 := by simp [signed] at ha0; omega
        subst this
        first
          | exact .inl (by ext <;> simp [actR, signed] <;> ring)
          | exact .inr (by ext <;> simp [actR, signed] <;> ring)
  · have hl : lost n a0 a1 = false := by simp [lost, ha0]; omega
    refine rest ⟨[-signed n a1, 1], some true, !n⟩ true ?_ ⟨rfl, ⟨?_, ?_⟩, ?_, ?_⟩ ?_
    · unfold newStep
      simp only
      rw [hee, if_neg (by omega), if_neg (by omega)]
      simp
    · omega
    · show (0 : Int) ≤ 1; omega
    · simp
    · simp only [List.headD_cons]; omega
    · intro v
      rw [hl]
      cases n
      · have : a0 = -1 := by simpa [signed] using ha0
        subst this
        first
          | exact .inl (by ext <;> simp [actR, signed] <;> ring)
          | exact .inr (by ext <;> simp [actR, signed] <;> ring)
      · have : a0 = 1 := by simp [signed] at ha0; omega
        subst this
        first
          | exact .inl (by ext <;> simp [actR, signed] <;> ring)
          | exact .inr (by ext <;> simp [actR, signed] <;> ring)

theorem newLoop_large_all (debug : Bool) (a0 a1 : Int) (as : List Int) (has : ∀ v ∈ a1 :: as, 2 ≤ |v|) (n : Bool) :
    ∃ (s : NewSt) (f : Bool), newLoop debug ⟨[], none, n⟩ (a0 :: a1 :: as) = .ok s ∧ PC s f ∧
      s.negate = decide ((a1 :: as).getLastD 0 < 0) ∧
      ∀ v : R × R, Prj (flp f (flp (n ^^ lost n a0 a1) (act (a0 :: a1 :: as) v))) (actR s.stack (flp s.negate v)) := by
  by_cases h : signed n a0 = -1
  · exact newLoop_minus_one debug a0 a1 as has n h
  · have : lost n a0 a1 = false := by simp [lost, h]
    rw [this, Bool.xor_false]
    exact newLoop_large debug a0 a1 as has n h

end

theorem finRes_PC {s : NewSt} {f : Bool} (h : PC s f) : (finRes s).a ≠ [] := by
  have hlen := h.len
  have htop := h.top
  have hi := h.inv
  unfold finRes
  simp only
  intro h0
  have h0' : cleanup s.stack.length s.stack = [] := by
    have := congrArg List.length h0
    simp at this
    exact this
  match hst : s.stack, hlen, htop, hi with
  | x :: y :: l, _, htop, hi =>
    rw [hst] at h0'
    simp only [List.headD_cons] at htop
    simp only [List.length_cons, cleanup] at h0'
    rw [if_neg (by omega)] at h0'
    by_cases hx : x = 1
    · rw [if_pos hx] at h0'
      match l, hi, h0' with
      | [], _, h0' => simp [cleanup] at h0'
      | z :: l, hi, h0' =>
        have := hi.2.1
        rw [cleanup, if_neg (by omega), if_neg (by omega)] at h0'
        simp at h0'
    · rw [if_neg hx] at h0'; simp at h0'

theorem PC.fin {debug : Bool} {l : List Int} {n m f : Bool} {s : NewSt} (hl : newLoop debug ⟨[], none, n⟩ l = .ok s)
    (h : PC s f) (hv : ∀ v : Int × Int, Prj (flp f (flp m (act l v))) (actR s.stack (flp s.negate v))) :
    ∃ c, new debug l [] n = .ok c ∧ c.Canonical ∧ c.valQ = (cfVal l).map (signed m) := by
  have hinv := newLoop_nil_stack debug _ n s hl
  have hne : s.stack ≠ [] := by intro h0; have := h.len; rw [h0] at this; simp at this
  refine ⟨finRes s, new_fin_ok debug _ n s hl hne, (finRes_canonical s hinv).resolve_left (finRes_PC h), ?_⟩
  rw [← flp_cfVal]
  refine finRes_val s hinv _ f h.sign ?_
  exact (hv (1, 0)).trans ((prj_flp_one s.negate).actR s.stack)

/-- a finite fraction whose coefficients have absolute value at least two is larger than one -/
theorem cfVal_large (a : Int) (as : List Int) (has : ∀ v ∈ a :: as, 2 ≤ |v|) :
    ∃ q : Rat, cfVal (a :: as) = some q ∧ 1 < |q| := by
  induction as generalizing a with
  | nil =>
    have h : 2 ≤ |a| := has a (by simp)
    refine ⟨a, rfl, ?_⟩
    rw [← Int.cast_abs]
    have : (2 : Rat) ≤ ((|a| : Int) : Rat) := by exact_mod_cast h
    linarith
  | cons b as ih =>
    obtain ⟨y, h1, h2⟩ := ih b (fun v hv => has v (by simp at hv ⊢; tauto))
    have h : 2 ≤ |a| := has a (by simp)
    have h' : (2 : Rat) ≤ |(a : Rat)| := by rw [← Int.cast_abs]; exact_mod_cast h
    have hy0 : y ≠ 0 := by rintro rfl; simp at h2; linarith
    refine ⟨a + 1 / y, ?_, ?_⟩
    · rw [cfVal, h1]; simp [hy0]
    · have h3 : |1 / y| < 1 := by
        rw [abs_div, abs_one, div_lt_one (by linarith)]; exact h2
      have h4 := abs_sub_abs_le_abs_sub (a : Rat) (-(1 / y))
      rw [abs_neg, sub_neg_eq_add] at h4
      linarith

end CF
end NumIrr
