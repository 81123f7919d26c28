/-
Exact results of `ContinuedFraction::new` on coefficients of any sign (C23, C25).
-/
import Verif.Lemmas.CFNewPeriod

namespace NumIrr
namespace CF

/-! ## C23: when the sign is lost -/

/-- If every coefficient after the first has absolute value at least two, `new` always returns, in canonical form.
The result has the value of the input, negated on request, unless the first coefficient is `-1` and the second is
positive (after applying the requested sign): then it has the opposite sign. -/
theorem new_large_value_exact (debug : Bool) (a0 a1 : Int) (as : List Int) (has : ∀ v ∈ a1 :: as, 2 ≤ |v|)
    (n : Bool) :
    ∃ c, new debug (a0 :: a1 :: as) [] n = .ok c ∧ c.Canonical ∧ ∃ q : Rat, cfVal (a0 :: a1 :: as) = some q ∧
      q ≠ 0 ∧ c.valQ = some (if signed n a0 = -1 ∧ 0 < signed n a1 then - signed n q else signed n q) := by
  obtain ⟨s, f, hl, hpc, -, hv⟩ := newLoop_large_all (R := Int) debug a0 a1 as has n
  obtain ⟨c, h1, h2, h3⟩ := hpc.fin hl hv
  obtain ⟨y, hy, hy1⟩ := cfVal_large a1 as has
  have hy0 : y ≠ 0 := by rintro rfl; simp at hy1; linarith
  have hval : cfVal (a0 :: a1 :: as) = some (a0 + 1 / y) := by rw [cfVal, hy]; simp [hy0]
  refine ⟨c, h1, h2, _, hval, ?_, ?_⟩
  · intro h0
    have e1 : (a0 : Rat) = -(1 / y) := by linarith
    have e2 : |(a0 : Rat)| < 1 := by
      rw [e1, abs_neg, abs_div, abs_one, div_lt_one (by linarith)]; exact hy1
    have e3 : |a0| < 1 := by rw [← Int.cast_abs] at e2; exact_mod_cast e2
    have e4 : a0 = 0 := by rw [abs_lt] at e3; omega
    rw [e4] at h0
    simp [hy0] at h0
  · rw [h3, hval, Option.map_some]
    congr 1
    by_cases h : signed n a0 = -1 ∧ 0 < signed n a1
    · rw [if_pos h, show lost n a0 a1 = true by simp [lost, h]]
      cases n <;> simp [signed]
    · rw [if_neg h, show lost n a0 a1 = false by simpa [lost] using h]
      cases n <;> simp [signed]

example : new true [-1, 4, -3] [] false = .ok ⟨[0, 1, 2, 1, 2], [], false⟩ ∧
    cfVal [-1, 4, -3] = some (-8 / 11) ∧ new true [-1, -4, -3] [] false = .ok ⟨[1, 4, 3], [], true⟩ ∧
    cfVal [-1, -4, -3] = some (-16 / 13) := by decide +kernel

/-- So for such input the value is right exactly when the sign is not lost. -/
theorem new_large_value_iff (debug : Bool) (a0 a1 : Int) (as : List Int) (has : ∀ v ∈ a1 :: as, 2 ≤ |v|)
    (n : Bool) :
    ∃ c, new debug (a0 :: a1 :: as) [] n = .ok c ∧
      (c.valQ = (cfVal (a0 :: a1 :: as)).map (signed n) ↔ ¬ (signed n a0 = -1 ∧ 0 < signed n a1)) := by
  obtain ⟨c, h1, -, q, hq, hq0, hv⟩ := new_large_value_exact debug a0 a1 as has n
  refine ⟨c, h1, ?_⟩
  rw [hv, hq, Option.map_some]
  by_cases h : signed n a0 = -1 ∧ 0 < signed n a1
  · rw [if_pos h]
    simp only [h, and_self, not_true_eq_false, iff_false, Option.some.injEq]
    intro h'
    apply hq0
    cases n <;> simp [signed] at h' <;> linarith
  · rw [if_neg h]
    simp [h]

example : (∀ v ∈ [(4 : Int), -3], 2 ≤ |v|) ∧ signed false (-1 : Int) = -1 ∧ 0 < signed false (4 : Int) := by decide

/-! ## C25: the period is not negated -/

/-- Whatever the aperiodic coefficients, a result of `new` with a positive period has, up to its sign, the value of
the input or the value of the input with its period negated. -/
theorem new_periodic_up_to_sign (debug : Bool) (a p : List Int) (hp : p ≠ []) (hp1 : ∀ v ∈ p, 1 ≤ v) (n : Bool)
    (c : CF) (h : new debug a p n = .ok c) :
    toInts c.p = p ∧ ∃ (f : Bool) (x : ℝ), (ValOf a p x ∨ ValOf a (p.map (- ·)) x) ∧ c.HasVal (signed f x) := by
  obtain ⟨s, hl, ha, hcp, hf⟩ := new_period_inv debug a p hp hp1 n c h
  obtain ⟨g, hg⟩ := newLoop_act (R := ℝ) debug a _ s hl
  obtain ⟨x, hx, hv⟩ := period_value hp hp1 (n := n) (g := g) (s := s) (fun v => hg v) ha hcp
  refine ⟨hcp, _, x, ?_, hv⟩
  cases hn : s.negate
  · left; simpa [hn, negP] using hx
  · right; simpa [hn, negP] using hx

example : new true [3, -1, 0, -2] [1, 4] true = .ok ⟨[2, 1, 2], [1, 4], true⟩ := by decide +kernel

/-- If every coefficient after the first has absolute value at least two, and the period is positive, `new` returns.
The result has the value of the input, negated on request and with the sign lost as for finite fractions, if the last
aperiodic coefficient is not negative; otherwise that of the input with its period negated. -/
theorem new_periodic_large_exact (debug : Bool) (a0 a1 : Int) (as p : List Int) (has : ∀ v ∈ a1 :: as, 2 ≤ |v|)
    (hp : p ≠ []) (hp1 : ∀ v ∈ p, 1 ≤ v) (n : Bool) :
    ∃ c, new debug (a0 :: a1 :: as) p n = .ok c ∧ toInts c.p = p ∧
      ∃ x : ℝ, ValOf (a0 :: a1 :: as) (if (a1 :: as).getLastD 0 < 0 then p.map (- ·) else p) x ∧
        c.HasVal (if signed n a0 = -1 ∧ 0 < signed n a1 then - signed n x else signed n x) := by
  obtain ⟨s, f, hl, hpc, hneg, hv⟩ := newLoop_large_all (R := ℝ) debug a0 a1 as has n
  obtain ⟨c, h1, ha, hcp, hcn⟩ := new_period_ok debug _ p hp hp1 n f s hl (by rw [hpc.sign]; rfl)
  obtain ⟨x, hx, hxv⟩ := period_value hp hp1 hv ha hcp
  refine ⟨c, h1, hcp, x, ?_, ?_⟩
  · rw [hneg] at hx
    simpa [negP] using hx
  · convert hxv using 1
    rw [hcn]
    by_cases h : signed n a0 = -1 ∧ 0 < signed n a1
    · rw [if_pos h, show lost n a0 a1 = true by simp [lost, h]]
      cases n <;> cases f <;> simp [signed]
    · rw [if_neg h, show lost n a0 a1 = false by simpa [lost] using h]
      cases n <;> cases f <;> simp [signed]

example : (∀ v ∈ [(-2 : Int), 5, -3], 2 ≤ |v|) ∧
    new true [4, -2, 5, -3] [1, 2] false = .ok ⟨[3, 2, 3, 1, 2], [1, 2], false⟩ := by decide +kernel

/-- One aperiodic coefficient: the same, and the sign is never lost. -/
theorem new_periodic_one_exact (debug : Bool) (a0 : Int) (p : List Int) (hp : p ≠ []) (hp1 : ∀ v ∈ p, 1 ≤ v)
    (n : Bool) :
    ∃ c, new debug [a0] p n = .ok c ∧ toInts c.p = p ∧
      ∃ x : ℝ, ValOf [a0] (if a0 < 0 then p.map (- ·) else p) x ∧ c.HasVal (signed n x) := by
  have he : signed n a0 = if n then 0 - a0 else a0 := by cases n <;> simp [signed]
  by_cases hz : a0 = 0
  · subst hz
    have hl : newLoop debug ⟨[], none, n⟩ [0] = .ok ⟨[0], none, n⟩ := by cases n <;> rfl
    have hf : finalSign none n p = .ok n := by
      match p, hp, hp1 with
      | q :: p, _, hp1 =>
        have := hp1 q (by simp)
        simp only [finalSign]
        rw [if_neg (by omega)]
    obtain ⟨c, h1, ha, hcp, hcn⟩ := new_period_ok debug _ p hp hp1 n n _ hl hf
    have ha' : toInts c.a = [0] := by simpa using ha
    obtain ⟨x, hx, -⟩ := valOf_exists [0] p hp hp1
    refine ⟨c, h1, hcp, x, by simpa using hx, x, by rw [ha', hcp]; exact hx, by rw [hcn]⟩
  · have hl : newLoop debug ⟨[], none, n⟩ [a0] =
        .ok ⟨[|a0|], some (decide (signed n a0 < 0)), decide (a0 < 0)⟩ := by
      rw [newLoop, newStep]
      simp only
      rw [← he]
      by_cases hn : signed n a0 < 0
      · rw [if_pos hn]
        cases n <;> simp only [signed, if_true] at hn ⊢ <;> simp at hn ⊢
        · simp [newLoop, bind, Except.bind, hn, abs_of_neg hn]
        · simp [newLoop, bind, Except.bind, hn, abs_of_pos hn]; omega
      · rw [if_neg hn]
        cases n <;> simp only [signed, if_true] at hn ⊢ <;> simp at hn ⊢
        · have : ¬ a0 < 0 := by omega
          simp [newLoop, bind, Except.bind, hz, this, abs_of_nonneg hn]
        · have : a0 < 0 := by omega
          have : ¬ 0 < a0 := by omega
          simp [newLoop, bind, Except.bind, hz, *, abs_of_nonpos hn]
    obtain ⟨c, h1, ha, hcp, hcn⟩ := new_period_ok debug _ p hp hp1 n (decide (signed n a0 < 0)) _ hl rfl
    obtain ⟨x, hx, hxv⟩ := period_value (a := [a0]) hp hp1 (n := n) (g := decide (signed n a0 < 0)) (fun v => by
      simp only [actR, act]
      by_cases hn : a0 < 0
      · rw [abs_of_neg hn]
        cases n
        · simp only [signed, hn, decide_true]
          exact .inr (by ext <;> simp [hn])
        · have : ¬ 0 < a0 := by omega
          simp only [signed, hn, decide_true, if_true, Int.neg_neg_iff_pos, this, decide_false]
          exact .inr (by ext <;> simp [hn])
      · have h0 : 0 < a0 := by omega
        rw [abs_of_pos h0]
        cases n
        · simp only [signed, hn, decide_false]
          exact .inl (by ext <;> simp [hn])
        · simp only [signed, hn, decide_false, if_true, Int.neg_neg_iff_pos, h0, decide_true]
          exact .inl (by ext <;> simp [hn])) ha hcp
    refine ⟨c, h1, hcp, x, by simpa [negP] using hx, ?_⟩
    convert hxv using 1
    rw [hcn]
    cases n <;> simp

example : new true [-3] [2, 5] false = .ok ⟨[3], [2, 5], true⟩ ∧ new true [-3] [2, 5] true = .ok ⟨[3], [2, 5], false⟩ := by
  decide +kernel

/-- Negating the period changes the number. -/
theorem valOf_negated_period_ne (a p : List Int) (hp : p ≠ []) (hp1 : ∀ v ∈ p, 1 ≤ v) (x y : ℝ) (hx : ValOf a p x)
    (hy : ValOf a (p.map (- ·)) y) : x ≠ y := by
  obtain ⟨t, ht⟩ := valOf_tail p hp hp1
  obtain ⟨k1, k2, k3⟩ := ht false
  obtain ⟨l1, l2, l3⟩ := ht true
  obtain ⟨m1, -, m3⟩ := valOf_act k1 k2 k3 a
  obtain ⟨n1, -, n3⟩ := valOf_act l1 l2 l3 a
  rw [valOf_unique hx m3, valOf_unique hy n3]
  exact rq_act_ne a k3.ne_zero m1 n1

example : (∃ x, ValOf [-1] [2] x) ∧ ∃ y, ValOf [-1] ([2].map (- ·)) y :=
  ⟨(valOf_exists _ _ (by simp) (by simp)).imp fun _ h => h.1, by
    obtain ⟨x, h, -⟩ := valOf_exists [1] [2] (by simp) (by simp)
    exact ⟨-x, by simpa using valOf_neg h⟩⟩

/-- One aperiodic coefficient: the value is right exactly when it is not negative. -/
theorem new_periodic_one_iff (debug : Bool) (a0 : Int) (p : List Int) (hp : p ≠ []) (hp1 : ∀ v ∈ p, 1 ≤ v)
    (n : Bool) (x : ℝ) (hx : ValOf [a0] p x) :
    ∃ c, new debug [a0] p n = .ok c ∧ (c.HasVal (signed n x) ↔ 0 ≤ a0) := by
  obtain ⟨c, h1, -, y, hy, hv⟩ := new_periodic_one_exact debug a0 p hp hp1 n
  refine ⟨c, h1, fun h => ?_, fun h => ?_⟩
  · by_contra h0
    rw [if_pos (by omega)] at hy
    obtain ⟨u, hu, e1⟩ := h
    obtain ⟨v, hv, e2⟩ := hv
    have := valOf_unique hu hv
    subst this
    have : signed n x = signed n y := by rw [e1, e2]
    exact valOf_negated_period_ne [a0] p hp hp1 x y hx hy (by cases n <;> simpa [signed] using this)
  · rw [if_neg (by omega)] at hy
    rw [valOf_unique hx hy]; exact hv

example : ∃ x, ValOf [-7] [2, 3] x := (valOf_exists _ _ (by simp) (by simp)).imp fun _ h => h.1

/-- Several coefficients of absolute value at least two after a first one other than `-1`: the value is right exactly
when the last one is positive. -/
theorem new_periodic_large_iff (debug : Bool) (a0 a1 : Int) (as p : List Int) (has : ∀ v ∈ a1 :: as, 2 ≤ |v|)
    (hp : p ≠ []) (hp1 : ∀ v ∈ p, 1 ≤ v) (n : Bool) (ha0 : signed n a0 ≠ -1) (x : ℝ)
    (hx : ValOf (a0 :: a1 :: as) p x) :
    ∃ c, new debug (a0 :: a1 :: as) p n = .ok c ∧ (c.HasVal (signed n x) ↔ 0 < (a1 :: as).getLastD 0) := by
  obtain ⟨c, h1, -, y, hy, hv⟩ := new_periodic_large_exact debug a0 a1 as p has hp hp1 n
  rw [if_neg (fun h => ha0 h.1)] at hv
  refine ⟨c, h1, fun h => ?_, fun h => ?_⟩
  · by_contra h0
    have hl : (a1 :: as).getLastD 0 ≠ 0 := by
      have hm : (a1 :: as).getLastD 0 ∈ a1 :: as := by
        rw [List.getLastD_eq_getLast?, List.getLast?_eq_getLast_of_ne_nil (by simp)]
        exact List.getLast_mem _
      have := has _ hm
      intro h'
      rw [h'] at this
      simp at this
    rw [if_pos (by omega)] at hy
    obtain ⟨u, hu, e1⟩ := h
    obtain ⟨v, hv, e2⟩ := hv
    have := valOf_unique hu hv
    subst this
    have : signed n x = signed n y := by rw [e1, e2]
    exact valOf_negated_period_ne _ p hp hp1 x y hx hy (by cases n <;> simpa [signed] using this)
  · rw [if_neg (by omega)] at hy
    rw [valOf_unique hx hy]; exact hv

example : (∃ x, ValOf [4, -2, 5, -3] [1, 2] x) ∧ signed false (4 : Int) ≠ -1 ∧ ¬ 0 < [(-2 : Int), 5, -3].getLastD 0 :=
  ⟨(valOf_exists _ _ (by simp) (by simp)).imp fun _ h => h.1, by decide, by decide⟩

end CF
end NumIrr
