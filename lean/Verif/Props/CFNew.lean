/-
Properties of `ContinuedFraction::new` (C23, C24, C25).
-/
import Verif.Lemmas.CFNewVal
import Verif.Lemmas.CFPeriod

namespace NumIrr
namespace CF

/-! ## C23: the value of finite fractions -/

/-- Whenever `new` returns on finite input, the result has the value of the input up to its sign
(infinite values included). -/
theorem new_value_up_to_sign (debug : Bool) (a : List Int) (n : Bool) (c : CF) (h : new debug a [] n = .ok c) :
    c.p = [] ∧ ∃ f, c.valQ = (cfVal a).map (signed f) := by
  refine ⟨?_, new_value_abs debug a n c h⟩
  obtain ⟨s, -, -, rfl⟩ := new_fin_inv debug a n c h
  rfl

example : ∃ c, new true [2, -3, 0, 0, 5, -1] [] true = .ok c ∧ c = ⟨[1, 1, 1, 1, 3], [], true⟩ ∧
    c.valQ = some (-18 / 11) ∧ cfVal [2, -3, 0, 0, 5, -1] = some (18 / 11) :=
  ⟨_, by decide +kernel, rfl, by decide +kernel, by decide +kernel⟩

/-- On non-negative coefficients with a finite value, `new` returns that value (negated on request), in canonical
form. -/
theorem new_nonneg_value_partial (debug : Bool) (a : List Int) (ha : ∀ v ∈ a, 0 ≤ v) (n : Bool) (q : Rat)
    (hq : cfVal a = some q) :
    ∃ c, new debug a [] n = .ok c ∧ c.Canonical ∧ c.valQ = some (signed n q) :=
  new_nonneg_fin debug a ha n q hq

example : (∀ v ∈ [(0 : Int), 0, 3, 0, 4, 1, 1], 0 ≤ v) ∧ cfVal [0, 0, 3, 0, 4, 1, 1] = some (15 / 2) ∧
    new true [0, 0, 3, 0, 4, 1, 1] [] true = .ok ⟨[7, 2], [], true⟩ :=
  ⟨by decide, by decide +kernel, by decide +kernel⟩

/-- If every coefficient after the first has absolute value at least two and the first one, with its sign, is not
`-1`, then `new` returns the exact value, in canonical form. -/
theorem new_large_value_partial (debug : Bool) (a0 : Int) (as : List Int) (has : ∀ v ∈ as, 2 ≤ |v|) (n : Bool)
    (ha0 : signed n a0 ≠ -1) :
    ∃ c, new debug (a0 :: as) [] n = .ok c ∧ c.Canonical ∧ c.valQ = (cfVal (a0 :: as)).map (signed n) :=
  new_large_fin debug a0 as has n ha0

example : (∀ v ∈ [(3 : Int), -2, -5, 4], 2 ≤ |v|) ∧ signed true (-4 : Int) ≠ -1 ∧
    new true [-4, 3, -2, -5, 4] [] true = .ok ⟨[3, 1, 1, 1, 1, 4, 1, 3], [], false⟩ :=
  ⟨by decide, by decide, by decide +kernel⟩

/-- The sign can be wrong: `[-1; 4] = -3/4` becomes `3/4`, and `[-2; 0, 2, 3] = 1/3` becomes `-1/3`. -/
theorem new_sign_wrong (debug : Bool) :
    (new debug [-1, 4] [] false = .ok ⟨[0, 1, 3], [], false⟩ ∧ cfVal [-1, 4] = some (-3 / 4) ∧
      valQ ⟨[0, 1, 3], [], false⟩ = some (3 / 4)) ∧
    (new debug [-2, 0, 2, 3] [] false = .ok ⟨[0, 3], [], true⟩ ∧ cfVal [-2, 0, 2, 3] = some (1 / 3) ∧
      valQ ⟨[0, 3], [], true⟩ = some (-1 / 3)) := by
  cases debug <;> decide +kernel

/-- `new` can panic on inputs with a finite value: `[2; 0, -5] = -3`, `[0; 3, 0, -3, -1] = -1`. -/
theorem new_panics (debug : Bool) :
    (new debug [2, 0, -5] [] false = .error .unwrapNone ∧ cfVal [2, 0, -5] = some (-3)) ∧
    (new debug [0, 3, 0, -3, -1] [] false = .error .unwrapNone ∧ cfVal [0, 3, 0, -3, -1] = some (-1)) := by
  cases debug <;> decide +kernel

/-- An infinite value is not rejected: `[3; 0]` gives a fraction without coefficients. -/
theorem new_infinite (debug : Bool) : new debug [3, 0] [] false = .ok ⟨[], [], false⟩ ∧ cfVal [3, 0] = none := by
  cases debug <;> decide +kernel

/-- `new` never fails a debug assertion and never reads past its stack for any other reason than the one of
`new_panics`: on finite input every panic is an `unwrap` of an empty stack or the explicit "no coefficient" one. -/
theorem new_panic_kinds (debug : Bool) (a : List Int) (n : Bool) (e : Panic) (h : new debug a [] n = .error e) :
    e = .unwrapNone ∨ e = .noCoeff := by
  cases hl : newLoop debug ⟨[], none, n⟩ a with
  | error e' =>
    have hst : ∀ (s : NewSt) (as : List Int) (e' : Panic), SInv s.stack → newLoop debug s as = .error e' →
        e' = .unwrapNone := by
      intro s as
      induction as generalizing s with
      | nil => intro e' _ h; cases h
      | cons b as ih =>
        intro e' hi h
        rw [newLoop] at h
        cases hs1 : newStep debug s b with
        | ok s1 => rw [hs1] at h; exact ih s1 e' (newStep_inv debug s b s1 hi hs1) h
        | error e1 =>
          rw [hs1] at h
          cases h
          have hp : ∀ (ng : Option Bool) (neg : Bool) (st : List Int) (t : Int), SInv st →
              propagate debug ng neg st t = .error e' → e' = .unwrapNone := by
            intro ng neg st t hst hpr
            fun_induction propagate debug ng neg st t with
            | case1 => cases hpr; rfl
            | case2 am1 t hd => exact absurd hst.1 (by omega)
            | case3 => cases hpr
            | case4 => cases hpr
            | case5 am1 t _ h1 h0 hd => exact absurd hst.1 (by omega)
            | case6 => cases hpr
            | case7 am1 t _ _ hd => exact absurd hst.1 (by omega)
            | case8 => cases hpr
            | case9 am2 rest t _ h1 hlt ih => exact ih hst.2.tail.sinv hpr
            | case10 => cases hpr
            | case11 am1 am2 rest t _ h1 h0 hd => exact absurd hst.1 (by omega)
            | case12 => cases hpr
          obtain ⟨stack, negative, negate⟩ := s
          unfold newStep at hs1
          simp only at hs1 hi
          generalize (if negate = true then 0 - b else b) = e at hs1
          match stack, hs1, hi with
          | [], hs1, _ =>
            simp only at hs1
            split at hs1 <;> cases hs1
          | top :: rest, hs1, hi =>
            simp only at hs1
            split at hs1
            · split at hs1 <;> cases hs1
            · split at hs1
              · exact hp _ _ _ _ hi hs1
              · match rest, hs1 with
                | am2 :: rest', hs1 =>
                  simp only at hs1
                  split at hs1 <;> cases hs1
                | [], hs1 => cases hs1
    have := hst _ _ _ (show SInv [] from trivial) hl
    unfold new at h
    split at h
    · cases h; right; rfl
    · rw [hl] at h
      cases h
      left; exact this
  | ok s =>
    by_cases hs : s.stack = []
    · unfold new at h
      split at h
      · cases h; right; rfl
      · rw [hl] at h
        change (if s.stack.length = 0 ∧ ([] : List Int).length = 0 then _ else _) = _ at h
        rw [if_pos (by simp [hs])] at h
        cases h; right; rfl
    · rw [new_fin_ok debug a n s hl hs] at h
      cases h

example : new true [] [] false = .error .noCoeff ∧ new true [0, 0] [] false = .error .noCoeff := by
  decide +kernel

/-! ## C24: canonical form -/

/-- A result with a finite value is in canonical form, whatever the signs of the input. -/
theorem new_canonical (debug : Bool) (a : List Int) (n : Bool) (c : CF) (h : new debug a [] n = .ok c)
    (ha : cfVal a ≠ none) : c.Canonical := by
  obtain ⟨f, hf⟩ := new_value_abs debug a n c h
  obtain ⟨s, hl, hs, rfl⟩ := new_fin_inv debug a n c h
  cases hq : cfVal a with
  | none => exact absurd hq ha
  | some q =>
    rw [hq] at hf
    exact finRes_ne_nil (newLoop_nil_stack debug a n s hl) hf

example : ∃ c, new false [-7, 2, -1, 3, 1] [] false = .ok c ∧ cfVal [-7, 2, -1, 3, 1] ≠ none :=
  ⟨⟨[5, 2], [], true⟩, by decide +kernel, by decide +kernel⟩

/-- Canonical finite fractions with the same value are identical. -/
theorem canonical_unique (c c' : CF) (h : c.Canonical) (h' : c'.Canonical) (hv : c.valQ = c'.valQ) : c = c' := by
  obtain ⟨q, h1, h2, -⟩ := canL_val h.canL
  obtain ⟨q', h1', h2', -⟩ := canL_val h'.canL
  have hq : 0 ≤ q := le_trans (by positivity) h2
  have hq' : 0 ≤ q' := le_trans (by positivity) h2'
  unfold valQ at hv
  rw [h1, h1'] at hv
  simp only [Option.map_some, Option.some.injEq] at hv
  have ha : c.a = c'.a := by
    apply canL_inj h.canL h'.canL
    rw [h1, h1']
    congr 1
    cases hn : c.neg <;> cases hn' : c'.neg <;> simp only [hn, hn', signed, if_true] at hv <;>
      simp at hv <;> linarith
  have hp : c.p = c'.p := by rw [h.1, h'.1]
  have hn : c.neg = c'.neg := by
    have hqq : q = q' := by rw [ha, h1'] at h1; injection h1 with h1; exact h1.symm
    subst hqq
    by_cases h0 : q = 0
    · subst h0
      have z := canL_zero h.canL h1
      have z' := canL_zero h'.canL h1'
      rw [h.2.2.2.2 z, h'.2.2.2.2 z']
    · cases hn : c.neg <;> cases hn' : c'.neg <;> simp only [hn, hn', signed, if_true] at hv <;>
        first | rfl | (exfalso; apply h0; simp at hv; linarith)
  cases c; cases c'; simp_all

example : Canonical ⟨[3, 7, 16], [], true⟩ ∧ valQ ⟨[3, 7, 16], [], true⟩ = some (-355 / 113) :=
  ⟨⟨rfl, by simp, by simp, by simp, by simp⟩, by decide +kernel⟩

/-- Inputs with the same finite value up to sign give the same coefficients. -/
theorem new_unique_partial (debug debug' : Bool) (a a' : List Int) (n n' : Bool) (c c' : CF) (q : Rat)
    (h : new debug a [] n = .ok c) (h' : new debug' a' [] n' = .ok c')
    (hq : cfVal a = some q) (hq' : cfVal a' = some q ∨ cfVal a' = some (-q)) : c.a = c'.a ∧ c.p = c'.p := by
  have hc := new_canonical debug a n c h (by rw [hq]; simp)
  have hc' := new_canonical debug' a' n' c' h' (by rcases hq' with h | h <;> rw [h] <;> simp)
  refine ⟨?_, by rw [hc.1, hc'.1]⟩
  obtain ⟨f, hf⟩ := new_value_abs debug a n c h
  obtain ⟨f', hf'⟩ := new_value_abs debug' a' n' c' h'
  obtain ⟨r, h1, h2, -⟩ := canL_val hc.canL
  obtain ⟨r', h1', h2', -⟩ := canL_val hc'.canL
  have hr : 0 ≤ r := le_trans (by positivity) h2
  have hr' : 0 ≤ r' := le_trans (by positivity) h2'
  apply canL_inj hc.canL hc'.canL
  rw [h1, h1']
  congr 1
  unfold valQ at hf hf'
  rw [h1, hq] at hf
  rw [h1'] at hf'
  have e1 : |r| = |q| := by
    simp only [Option.map_some, Option.some.injEq] at hf
    have := congrArg abs hf
    cases hn : c.neg <;> cases f <;> simp [hn, signed] at this <;> exact this
  have e2 : |r'| = |q| := by
    rcases hq' with hq' | hq' <;> rw [hq'] at hf' <;> simp only [Option.map_some, Option.some.injEq] at hf' <;>
    · have := congrArg abs hf'
      cases hn : c'.neg <;> cases f' <;> simp [hn, signed] at this <;> exact this
  rw [abs_of_nonneg hr] at e1
  rw [abs_of_nonneg hr'] at e2
  rw [e1, e2]

example : ∃ c c', new true [3, -7] [] false = .ok c ∧ new true [2, 1, 5, 1] [] false = .ok c' ∧ c = c' ∧
    cfVal [3, -7] = cfVal [2, 1, 5, 1] :=
  ⟨⟨[2, 1, 6], [], false⟩, _, by decide +kernel, by decide +kernel, rfl, by decide +kernel⟩

/-- The unrestricted uniqueness claim fails: `[-1; 4]` and `[0; -1, -3]` are both `-3/4`, but give different
fractions. -/
theorem new_not_unique (debug : Bool) : ∃ c c', new debug [-1, 4] [] false = .ok c ∧
    new debug [0, -1, -3] [] false = .ok c' ∧ cfVal [-1, 4] = cfVal [0, -1, -3] ∧ c ≠ c' :=
  ⟨⟨[0, 1, 3], [], false⟩, ⟨[0, 1, 3], [], true⟩, by cases debug <;> decide +kernel,
    by cases debug <;> decide +kernel, by decide +kernel, by decide⟩

/-! ## C25: periodic fractions -/

/-- On non-negative aperiodic coefficients and positive periodic ones, the input has a value, `new` returns, and
the result has that value (negated on request). -/
theorem new_periodic_value_partial (debug : Bool) (a p : List Int) (ha : ∀ v ∈ a, 0 ≤ v) (hp : p ≠ [])
    (hp1 : ∀ v ∈ p, 1 ≤ v) (n : Bool) :
    ∃ c, new debug a p n = .ok c ∧ toInts c.p = p ∧ ∃ x : ℝ, ValOf a p x ∧ c.HasVal (signed n x) := by
  obtain ⟨s, hl, h⟩ := newLoop_nonneg (R := Int) debug ha n [] (.inl rfl)
  have hinv := newLoop_nil_stack debug a n s hl
  have hst : toUnsignedAll s.stack.reverse = .ok (s.stack.reverse.map Int.toNat) :=
    toUnsignedAll_ok _ (fun v hv => hinv.all v (List.mem_reverse.1 hv))
  have hpu : toUnsignedAll p = .ok (p.map Int.toNat) :=
    toUnsignedAll_ok _ (fun v hv => by have := hp1 v hv; omega)
  have hints : toInts (s.stack.reverse.map Int.toNat) = s.stack.reverse :=
    toInts_toNat _ (fun v hv => hinv.all v (List.mem_reverse.1 hv))
  have hpints : toInts (p.map Int.toNat) = p := toInts_toNat _ (fun v hv => by have := hp1 v hv; omega)
  have hneg : finalSign s.negative s.negate p = .ok n := by
    unfold finalSign
    rcases h with ⟨hb, -⟩ | ⟨h1, h2, -, -⟩
    · rw [hb.sign]
    · rw [h1, h2]
      match p, hp, hp1 with
      | q :: p, _, hp1 =>
        have := hp1 q (by simp)
        simp only
        rw [if_neg (by omega)]
  refine ⟨⟨s.stack.reverse.map Int.toNat, p.map Int.toNat, n⟩, ?_, hpints, ?_⟩
  · unfold new
    rw [if_neg (by simp [hp]), hl]
    show (if s.stack.length = 0 ∧ p.length = 0 then _ else _) = _
    rw [if_neg (by simp [hp])]
    simp only [show ¬ (p.length = 0) by simp [hp], if_false]
    rw [hneg]
    show (toUnsignedAll _ >>= _) = _
    rw [hst]
    show (toUnsignedAll _ >>= _) = _
    rw [hpu]
    rfl
  · obtain ⟨x, hx, -⟩ := valOf_exists a p hp hp1
    refine ⟨x, hx, x, ?_, rfl⟩
    simp only
    rw [hints, hpints]
    refine valOf_prefix hp (fun l => ?_) hx
    rw [cfVal_eq, cfVal_eq, cfP, cfP, act_append, act_append]
    rw [show act s.stack.reverse (act l ((1, 0) : Int × Int)) = actR s.stack (act l (1, 0)) by rw [actR_eq]]
    rcases h with ⟨-, hv⟩ | ⟨-, -, -, hv⟩
    · exact (pairVal_prj (hv (act l (1, 0)))).symm
    · have := hv (act l (1, 0))
      rw [← this]
      rfl

example : new true [0, 0, 3, 0, 4] [1, 2] true = .ok ⟨[7], [1, 2], true⟩ := by decide +kernel

/-- The period is not negated along with the aperiodic part: `[-1; (2)] = √2 - 2` becomes `-[1; (2)] = -√2`.
-/
theorem new_periodic_wrong (debug : Bool) : new debug [-1] [2] false = .ok ⟨[1], [2], true⟩ ∧
    (∃ x : ℝ, ValOf [-1] [2] x) ∧ (∀ x y : ℝ, ValOf [-1] [2] x → HasVal ⟨[1], [2], true⟩ y → y ≠ x) := by
  refine ⟨by cases debug <;> rfl, (valOf_exists [-1] [2] (by simp) (by simp)).imp fun _ h => h.1, ?_⟩
  intro x y hx hy hxy
  subst hxy
  obtain ⟨z, hz, rfl⟩ := hy
  unfold ValOf at hx hz
  rw [if_neg (by simp)] at hx
  rw [if_neg (by simp [toInts])] at hz
  obtain ⟨N, hN⟩ := hx (1 / 4) (by norm_num)
  obtain ⟨M, hM⟩ := hz (1 / 4) (by norm_num)
  obtain ⟨q, h1, h2⟩ := hN (1 + (N + M + 2)) (by omega)
  obtain ⟨r, k1, k2⟩ := hM (1 + (N + M + 2)) (by omega)
  simp only [signed, if_true] at h2
  rw [show (1 : Nat) = [(-1 : Int)].length from rfl, truncTo_add] at h1
  change cfVal (truncTo [1] [2] ([(1 : Int)].length + (N + M + 2))) = some r at k1
  rw [truncTo_add] at k1
  -- the common tail has a value between 2 and 3
  have tail : ∀ m : Nat, ∃ t : Rat, cfVal (truncTo [] [(2 : Int)] (m + 1)) = some t ∧ 2 ≤ t ∧ t ≤ 3 := by
    intro m
    induction m with
    | zero => exact ⟨2, by decide +kernel, by norm_num, by norm_num⟩
    | succ m ih =>
      obtain ⟨t, t1, t2, t3⟩ := ih
      have h5 := truncTo_period [(2 : Int)] (m + 1)
      rw [show [(2 : Int)].length + (m + 1) = m + 1 + 1 by simp; omega] at h5
      rw [h5]
      refine ⟨2 + 1 / t, ?_, ?_, ?_⟩
      · show cfVal (2 :: truncTo [] [2] (m + 1)) = _
        rw [cfVal, t1]
        have : t ≠ 0 := by linarith
        simp [this]
      · have : 0 < 1 / t := by apply one_div_pos.2; linarith
        linarith
      · have : 1 / t ≤ 1 := by rw [div_le_one (by linarith)]; linarith
        linarith
  obtain ⟨t, t1, t2, t3⟩ := tail (N + M + 1)
  have ht : t ≠ 0 := by linarith
  have f1 : (q : Rat) = -1 + 1 / t := by
    change cfVal (-1 :: truncTo [] [2] (N + M + 1 + 1)) = some q at h1
    rw [cfVal, t1] at h1
    simp [ht] at h1
    rw [← h1, one_div]
  have f2 : (r : Rat) = 1 + 1 / t := by
    change cfVal (1 :: truncTo [] [2] (N + M + 1 + 1)) = some r at k1
    rw [cfVal, t1] at k1
    simp [ht] at k1
    rw [← k1, one_div]
  have p1 : (1 : Rat) / t ≥ 1 / 3 := by
    rw [ge_iff_le, div_le_div_iff₀ (by norm_num) (by linarith)]; linarith
  have g1 : (q : ℝ) ≥ -1 + 1 / 3 := by
    have : -1 + 1 / 3 ≤ q := by rw [f1]; linarith
    have := (Rat.cast_le (K := ℝ)).2 this
    push_cast at this
    exact this
  have g2 : (r : ℝ) ≥ 1 + 1 / 3 := by
    have : 1 + 1 / 3 ≤ r := by rw [f2]; linarith
    have := (Rat.cast_le (K := ℝ)).2 this
    push_cast at this
    exact this
  have := abs_lt.1 h2
  have := abs_lt.1 k2
  linarith [this.1, this.2]

/-- `new` does not bring periodic fractions into a unique form: `[1; 2, (2)]` and `[1; (2)]` list the same
coefficients but differ; `[1; 0, (2)]` keeps its zero; `[(2)]` has no first coefficient; a negative coefficient in
the period panics. -/
theorem new_periodic_not_canonical (debug : Bool) :
    (new debug [1, 2] [2] false = .ok ⟨[1, 2], [2], false⟩ ∧ new debug [1] [2] false = .ok ⟨[1], [2], false⟩ ∧
      (∀ n, coeffAt [1, 2] [2] n = coeffAt [1] [2] n)) ∧
    new debug [1, 0] [2] false = .ok ⟨[1, 0], [2], false⟩ ∧
    new debug [] [2] false = .ok ⟨[], [2], false⟩ ∧
    new debug [1] [3, -4] false = .error .unwrapNone ∧
    new debug [0] [-4] false = .error .unimplemented := by
  refine ⟨⟨by cases debug <;> rfl, by cases debug <;> rfl, ?_⟩, by cases debug <;> rfl, by cases debug <;> rfl,
    by cases debug <;> rfl, by cases debug <;> rfl⟩
  intro n
  unfold coeffAt
  match n with
  | 0 => rfl
  | 1 => rfl
  | n + 2 => simp [Nat.mod_one]

end CF
end NumIrr
