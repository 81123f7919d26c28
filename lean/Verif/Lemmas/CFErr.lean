/-
Denominators and errors of convergents; the Euclidean loop.
-/
import Mathlib.Data.Rat.Lemmas
import Verif.Lemmas.CFIter

namespace NumIrr

theorem act_det (l : List Int) : (act l ((1, 0) : Int × Int)).1 * (act l ((0, 1) : Int × Int)).2 -
    (act l ((0, 1) : Int × Int)).1 * (act l ((1, 0) : Int × Int)).2 = (-1) ^ l.length := by
  induction l with
  | nil => simp [act]
  | cons a l ih =>
    simp only [act, Int.cast_id, List.length_cons, pow_succ]
    linear_combination -ih

theorem cfP_append (l r : List Int) : cfP (l ++ r) =
    ((cfP r).1 * (cfP l).1 + (cfP r).2 * (act l ((0, 1) : Int × Int)).1,
     (cfP r).1 * (cfP l).2 + (cfP r).2 * (act l ((0, 1) : Int × Int)).2) := by
  show act (l ++ r) (1, 0) = _
  rw [act_append]
  rw [show act r ((1, 0) : Int × Int) = ((cfP r).1, (cfP r).2) from rfl, act_lin]

/-- the denominator of the value is the second component -/
theorem cfVal_den {l : List Int} {q : Rat} (h : cfVal l = some q) (hpos : 1 ≤ (cfP l).2) :
    (q.den : Int) = (cfP l).2 ∧ q.num = (cfP l).1 := by
  rw [cfVal_eq, pairVal, if_neg (by omega)] at h
  injection h with h
  have hc : Nat.Coprime (cfP l).1.natAbs (cfP l).2.natAbs := by
    have := cfP_coprime l
    rw [Int.isCoprime_iff_gcd_eq_one] at this
    exact this
  subst h
  exact ⟨Rat.den_div_eq_of_coprime (by omega) hc, Rat.num_div_eq_of_coprime (by omega) hc⟩

theorem signed_den (b : Bool) (q : Rat) : (signed b q).den = q.den := by
  cases b
  · rfl
  · simp [signed]

theorem signed_cast (b : Bool) (q : Rat) : ((signed b q : Rat) : ℝ) = signed b (q : ℝ) := by
  cases b
  · rfl
  · simp [signed]

theorem signed_sub (b : Bool) (x y : ℝ) : signed b x - signed b y = signed b (x - y) := by
  cases b
  · rfl
  · simp only [signed, if_true]; ring

theorem signed_abs (b : Bool) (x : ℝ) : |signed b x| = |x| := by
  cases b
  · rfl
  · simp [signed]

theorem signed_mul_signed (b : Bool) (x y : ℝ) : signed b x * signed b y = x * y := by
  cases b
  · rfl
  · simp [signed]

namespace CF

theorem wf_posSeq {c : CF} (h : c.Wf) (hp : c.p ≠ []) : PosSeq (coeffAt (toInts c.a) (toInts c.p)) := by
  intro n
  have := trunc_tail_pos (n := n + 2) h (fun i _ => .inl hp)
  apply this
  unfold trunc
  rw [truncTo_eq_tr, tr_cons, List.tail_cons]
  unfold tr
  rw [List.mem_map]
  exact ⟨n, List.mem_range.2 (by omega), by unfold shft; rw [Nat.add_comm]⟩

theorem toInts_ne_nil {l : List Nat} (h : l ≠ []) : toInts l ≠ [] := by
  simpa [toInts] using h

theorem hasVal_periodic {c : CF} (h : c.Wf) (hp : c.p ≠ []) {x : ℝ} :
    c.HasVal x ↔ x = signed c.neg (cfLim (coeffAt (toInts c.a) (toInts c.p))) := by
  constructor
  · rintro ⟨y, hy, rfl⟩
    rw [(valOf_iff (toInts_ne_nil hp) (wf_posSeq h hp)).1 hy]
  · intro hx
    exact ⟨_, valOf_cfLim (toInts_ne_nil hp) (wf_posSeq h hp), hx⟩

theorem hasVal_finite {c : CF} (hp : c.p = []) {x : ℝ} : c.HasVal x ↔ ∃ q : Rat, c.valQ = some q ∧ x = (q : ℝ) := by
  unfold HasVal ValOf valQ
  have h0 : toInts c.p = [] := by rw [hp]; rfl
  simp only [h0, if_true]
  constructor
  · rintro ⟨y, ⟨q, h1, rfl⟩, rfl⟩
    exact ⟨signed c.neg q, by rw [h1]; rfl, (signed_cast _ _).symm⟩
  · rintro ⟨q, h1, rfl⟩
    cases hv : cfVal (toInts c.a) with
    | none => rw [hv] at h1; cases h1
    | some r =>
      rw [hv] at h1
      simp only [Option.map_some, Option.some.injEq] at h1
      exact ⟨r, ⟨r, rfl, rfl⟩, by rw [← h1, signed_cast]⟩

theorem HasVal.unique {c : CF} {x y : ℝ} (hx : c.HasVal x) (hy : c.HasVal y) : x = y := by
  obtain ⟨u, h1, rfl⟩ := hx
  obtain ⟨v, h2, rfl⟩ := hy
  rw [valOf_unique h1 h2]

theorem Wf.hasVal {c : CF} (h : c.Wf) : ∃ x, c.HasVal x := by
  by_cases hp : c.p = []
  · obtain ⟨q, -, h2⟩ := lastConvergent_big h hp
    exact ⟨q, (hasVal_finite hp).2 ⟨q, h2, rfl⟩⟩
  · exact ⟨_, (hasVal_periodic h hp).2 rfl⟩

/-! ### The Euclidean loop -/

theorem euclid_spec : ∀ (fuel n d : Nat), 0 < d → d < fuel →
    CanL (euclid fuel n d) ∧ cfVal (toInts (euclid fuel n d)) = some ((n : Rat) / d) ∧
      (euclid fuel n d).headD 0 = n / d
  | 0, _, _, _, h => absurd h (by omega)
  | fuel + 1, n, d, hd, hf => by
    have hr := Nat.mod_lt n hd
    have hd' : (d : Rat) ≠ 0 := by exact_mod_cast hd.ne'
    have hdiv := Nat.div_add_mod n d
    rw [euclid, if_neg (by omega)]
    by_cases h0 : n % d = 0
    · have : euclid fuel d (n % d) = [] := by
        cases fuel with
        | zero => rfl
        | succ f => rw [euclid, if_pos h0]
      rw [this]
      refine ⟨trivial, ?_, rfl⟩
      simp only [toInts, List.map_cons, List.map_nil, cfVal]
      congr 1
      rw [h0, Nat.add_zero] at hdiv
      rw [eq_div_iff hd']
      rw [Int.cast_natCast]
      have : d * (n / d) = n := hdiv
      rw [mul_comm]
      exact_mod_cast this
    · obtain ⟨h1, h2, h3⟩ := euclid_spec fuel d (n % d) (by omega) (by omega)
      obtain ⟨q, k1, k2, k3, k4⟩ := canL_val h1
      have hr' : ((n % d : Nat) : Rat) ≠ 0 := by exact_mod_cast h0
      match hl : euclid fuel d (n % d), h1, h2, h3, k1, k2, k3, k4 with
      | y :: l, h1, h2, h3, k1, k2, k3, k4 =>
        simp only [List.headD_cons] at h3 k2 k3
        have hy : 1 ≤ y := by rw [h3]; exact Nat.div_pos hr.le (by omega)
        refine ⟨⟨hy, ?_, h1⟩, ?_, rfl⟩
        · intro hl0
          have e := k4.1 hl0
          rw [h2] at k1
          injection k1 with k1
          rw [← k1] at e
          simp only [List.headD_cons] at e
          rw [div_eq_iff hr'] at e
          have e' : d = y * (n % d) := by exact_mod_cast e
          by_contra hlt
          have : y = 1 := by omega
          rw [this] at e'
          omega
        · have : cfVal (toInts (n / d :: y :: l)) = (match cfVal (toInts (y :: l)) with
            | none => some (((n / d : Nat) : Int) : Rat)
            | some y => if y = 0 then none else some ((((n / d : Nat) : Int) : Rat) + 1 / y)) := rfl
          rw [this, h2]
          have hne : (d : Rat) / ((n % d : Nat) : Rat) ≠ 0 := div_ne_zero hd' hr'
          simp only
          rw [if_neg hne]
          congr 1
          rw [Int.cast_natCast]
          have hdiv' : (d : Rat) * ((n / d : Nat) : Rat) + ((n % d : Nat) : Rat) = n := by exact_mod_cast hdiv
          rw [eq_div_iff hd', ← hdiv']
          field_simp

end CF
end NumIrr
