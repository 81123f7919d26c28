/-
C26: rationals and integers as continued fractions and back; classification; truncation.
-/
import Verif.Lemmas.CFErr2
import Verif.Props.CFNew

namespace NumIrr
namespace CF

private theorem signed_ratabs (r : Rat) :
    signed (decide (r.num < 0)) ((r.num.natAbs : Rat) / r.den) = r := by
  have hd : (r.den : Rat) ≠ 0 := by exact_mod_cast r.den_nz
  by_cases h : r.num < 0
  · simp only [h, decide_true, signed, if_true]
    have : ((r.num.natAbs : Nat) : Int) = -r.num := by omega
    have h2 : (r.num.natAbs : Rat) = -(r.num : Rat) := by
      rw [← Int.cast_natCast, this, Int.cast_neg]
    rw [h2, neg_div, neg_neg, Rat.num_div_den]
  · simp only [h, decide_false, signed]
    have : ((r.num.natAbs : Nat) : Int) = r.num := by omega
    have h2 : (r.num.natAbs : Rat) = (r.num : Rat) := by
      rw [← Int.cast_natCast, this]
    rw [h2]
    simp [Rat.num_div_den]

/-- `From<Ratio>` gives the canonical fraction of the rational.  With `canonical_unique` this determines it. -/
theorem cf_ofRat (r : Rat) : (ofRat r).Canonical ∧ (ofRat r).valQ = some r := by
  unfold ofRat
  by_cases h0 : r = 0
  · subst h0
    rw [if_pos rfl]
    exact ⟨⟨rfl, by simp [zero], by simp [zero], by simp [zero], fun _ => rfl⟩,
      by simp [zero, valQ, toInts, cfVal, signed]⟩
  · rw [if_neg h0]
    have hn : r.num.natAbs ≠ 0 := by
      intro h; apply h0; rw [← Rat.num_eq_zero]; omega
    have hd := r.den_nz
    have hn' : (r.num.natAbs : Rat) ≠ 0 := by exact_mod_cast hn
    have hd' : (r.den : Rat) ≠ 0 := by exact_mod_cast hd
    simp only
    by_cases hlt : r.num.natAbs < r.den
    · rw [if_pos hlt]
      obtain ⟨h1, h2, h3⟩ := euclid_spec (r.num.natAbs + 1) r.den r.num.natAbs (by omega) (by omega)
      have hhead : 1 ≤ (euclid (r.num.natAbs + 1) r.den r.num.natAbs).headD 0 := by
        rw [h3]; exact Nat.div_pos hlt.le (by omega)
      obtain ⟨q, k1, k2, k3, k4⟩ := canL_val h1
      have hcan : CanL (0 :: euclid (r.num.natAbs + 1) r.den r.num.natAbs) := by
        match hl : euclid (r.num.natAbs + 1) r.den r.num.natAbs, h1, h2, h3, hhead, k1, k4 with
        | y :: l, h1, h2, h3, hhead, k1, k4 =>
          refine ⟨hhead, ?_, h1⟩
          intro hl0
          have e := k4.1 hl0
          rw [h2] at k1
          injection k1 with k1
          rw [← k1, div_eq_iff hn'] at e
          simp only [List.headD_cons] at e hhead
          have e' : r.den = y * r.num.natAbs := by exact_mod_cast e
          by_contra hy
          have : y = 1 := by omega
          rw [this] at e'
          omega
      refine ⟨canonical_of_canL hcan ?_, ?_⟩
      · intro h
        have : euclid (r.num.natAbs + 1) r.den r.num.natAbs = [] := (List.cons.inj h).2
        rw [this] at hhead
        simp at hhead
      · unfold valQ
        have : cfVal (toInts (0 :: euclid (r.num.natAbs + 1) r.den r.num.natAbs)) =
            (match cfVal (toInts (euclid (r.num.natAbs + 1) r.den r.num.natAbs)) with
            | none => some (((0 : Nat) : Int) : Rat)
            | some y => if y = 0 then none else some ((((0 : Nat) : Int) : Rat) + 1 / y)) := rfl
        simp only
        rw [this, h2]
        simp only
        rw [if_neg (div_ne_zero hd' hn')]
        simp only [Option.map_some]
        congr 1
        rw [← signed_ratabs r]
        congr 1
        · rw [signed_ratabs]
        · rw [signed_ratabs]; simp
    · rw [if_neg hlt]
      obtain ⟨h1, h2, h3⟩ := euclid_spec (r.den + 1) r.num.natAbs r.den (by omega) (by omega)
      refine ⟨canonical_of_canL h1 ?_, ?_⟩
      · intro h
        rw [h] at h3
        simp only [List.headD_cons] at h3
        have := Nat.div_pos (show r.den ≤ r.num.natAbs by omega) (by omega)
        omega
      · unfold valQ
        simp only
        rw [h2, Option.map_some, signed_ratabs]

example : ofRat (-415 / 93) = ⟨[4, 2, 6, 7], [], true⟩ := by decide +kernel

/-- `From<T>` is the same as going through the rational, hence canonical too. -/
theorem cf_ofInt (t : Int) : (ofInt t).Canonical ∧ (ofInt t).valQ = some (t : Rat) ∧ ofInt t = ofRat t := by
  have h : (ofInt t).Canonical ∧ (ofInt t).valQ = some (t : Rat) := by
    unfold ofInt
    by_cases h : t < 0
    · rw [if_pos h]
      refine ⟨canonical_of_canL (show CanL [(0 - t).toNat] from trivial) ?_, ?_⟩
      · intro h'
        simp at h'
        omega
      · simp only [valQ, toInts, List.map_cons, List.map_nil, cfVal, Option.map_some, signed, if_true]
        congr 1
        have : (((0 - t).toNat : Nat) : Int) = -t := by omega
        rw [this]; simp
    · rw [if_neg h]
      refine ⟨canonical_of_canL (show CanL [t.toNat] from trivial) (fun _ => rfl), ?_⟩
      simp only [valQ, toInts, List.map_cons, List.map_nil, cfVal, Option.map_some, signed]
      congr 1
      have : ((t.toNat : Nat) : Int) = t := by omega
      rw [this]; simp
  exact ⟨h.1, h.2, canonical_unique _ _ h.1 (cf_ofRat t).1 (by rw [h.2, (cf_ofRat t).2])⟩

example : ofInt (-7) = ⟨[7], [], true⟩ := by decide +kernel

/-- `to_rational` of a finite fraction is exact. -/
theorem cf_toRational_finite (c : CF) (h : c.Wf) (hp : c.p = []) :
    ∃ q, c.toRational .big = .ok (.exact q) ∧ c.valQ = some q ∧ c.HasVal q := by
  obtain ⟨q, h1, h2⟩ := lastConvergent_big h hp
  refine ⟨q, ?_, h2, (hasVal_finite hp).2 ⟨q, h2, rfl⟩⟩
  unfold toRational
  rw [if_pos (by simp [isRational, hp]), h1]
  rfl

example : Wf ⟨[4, 2, 6, 7], [], true⟩ ∧ toRational .big ⟨[4, 2, 6, 7], [], true⟩ = .ok (.exact (-415 / 93)) := by
  refine ⟨by simp [Wf], by decide +kernel⟩

/-- The round trip. -/
theorem cf_rat_roundtrip (r : Rat) : (ofRat r).toRational .big = .ok (.exact r) := by
  obtain ⟨h1, h2⟩ := cf_ofRat r
  obtain ⟨q, h3, h4, -⟩ := cf_toRational_finite (ofRat r) h1.wf h1.1
  rw [h2] at h4
  rw [h3, Option.some.inj h4]

example : toRational .big (ofRat (22 / 7)) = .ok (.exact (22 / 7)) := by decide +kernel

/-- The other round trip: a canonical fraction is what `From<Ratio>` makes of its value. -/
theorem cf_ofRat_toRational (c : CF) (h : c.Canonical) (q : Rat) (hq : c.toRational .big = .ok (.exact q)) :
    ofRat q = c := by
  obtain ⟨q', h3, h4, -⟩ := cf_toRational_finite c h.wf h.1
  rw [hq] at h3
  have : q = q' := by injection h3 with h3; injection h3
  subst this
  exact canonical_unique _ _ (cf_ofRat q).1 h (by rw [h4, (cf_ofRat q).2])

example : Canonical ⟨[0, 1, 3], [], true⟩ := canonical_of_canL (by simp [CanL]) (by simp)

/-- `to_rational` of a periodic fraction is an approximation: the value of the fraction cut after the aperiodic
part, one period and one more coefficient; it is closer than `1/q²`. -/
theorem cf_toRational_periodic (c : CF) (h : c.Wf) (hp : c.p ≠ []) (x : ℝ) (hx : c.HasVal x) :
    ∃ q r, c.toRational .big = .ok (.approximated q) ∧
      cfVal (toInts (c.a ++ c.p ++ c.p.take 1)) = some r ∧ q = signed c.neg r ∧ |x - q| < 1 / (q.den : ℝ) ^ 2 := by
  obtain ⟨r, h1, h2⟩ := nth_big h 0 (c.a.length + c.p.length) (.inl hp)
  rw [convState_zero] at h1
  rw [Nat.zero_add] at h2
  refine ⟨signed c.neg r, r, ?_, ?_, rfl, ?_⟩
  · unfold toRational
    rw [if_neg (by simpa [isRational] using hp), h1]
    rfl
  · rw [← h2]
    congr 1
    unfold trunc
    have e1 : c.a.length = (toInts c.a).length := by simp [toInts]
    have e2 : c.p.length = (toInts c.p).length := by simp [toInts]
    rw [Nat.add_assoc, e1, e2, truncTo_add, truncTo_period, truncTo_succ]
    have e3 : truncTo [] (toInts c.p) 0 = [] := rfl
    rw [e3]
    match hq : c.p, hp with
    | v :: vs, _ => simp [toInts, coeffAt]
  · have h3 := (conv_err h hx (n := c.a.length + c.p.length) (.inl hp) h2).2.2.2 ⟨h, fun h' => absurd h' hp⟩
    obtain ⟨h4, -⟩ := cfVal_den h2 (trunc_den_pos h (.inl hp))
    rw [signed_den, ← signed_abs c.neg, ← signed_sub, signed_cast]
    have h5 : ((r.den : Nat) : ℝ) = ((cfP (c.trunc (c.a.length + c.p.length + 1))).2 : ℝ) := by exact_mod_cast h4
    rw [h5]
    have h6 : signed c.neg (signed c.neg (r : ℝ)) = r := by cases c.neg <;> simp [signed]
    rw [h6]
    exact h3

example : Wf ⟨[1], [2], false⟩ ∧ toRational .big ⟨[1], [2], false⟩ = .ok (.approximated (7 / 5)) := by
  refine ⟨by simp [Wf], by decide +kernel⟩

/-- `is_rational` is right on all well-formed fractions. -/
theorem cf_isRational (c : CF) (h : c.Wf) (x : ℝ) (hx : c.HasVal x) :
    c.isRational = true ↔ ∃ q : ℚ, x = q := by
  constructor
  · intro hr
    have hp : c.p = [] := by simpa [isRational] using hr
    obtain ⟨q, -, h2⟩ := (hasVal_finite hp).1 hx
    exact ⟨q, h2⟩
  · rintro ⟨q, rfl⟩
    by_contra hr
    have hp : c.p ≠ [] := by simpa [isRational] using hr
    have := (hasVal_periodic h hp).1 hx
    rw [signed_eq_iff, ← signed_cast] at this
    exact cfLim_irrational (wf_posSeq h hp) ⟨_, this⟩

example : Wf ⟨[1], [2], false⟩ ∧ ∃ x, HasVal ⟨[1], [2], false⟩ x :=
  ⟨by simp [Wf], Wf.hasVal (by simp [Wf])⟩

/-- the absolute value of a fraction in standard form lies in `[a₀, a₀ + 1)`, with equality only for integers -/
private theorem std_floor (c : CF) (h : c.Std) (x : ℝ) (hx : c.HasVal x) :
    ((c.a.headD 0 : Nat) : ℝ) ≤ signed c.neg x ∧ signed c.neg x < ((c.a.headD 0 : Nat) : ℝ) + 1 ∧
      (c.isInteger = true ↔ signed c.neg x = ((c.a.headD 0 : Nat) : ℝ)) := by
  by_cases hp : c.p = []
  · obtain ⟨q, h1, h2, h3, h4⟩ := canL_val (h.2 hp).canL
    obtain ⟨v, hv, rfl⟩ := (hasVal_finite hp).1 hx
    have hvq : signed c.neg (v : ℝ) = (q : ℝ) := by
      rw [← signed_cast]
      congr 1
      unfold valQ at hv
      rw [h1] at hv
      simp only [Option.map_some, Option.some.injEq] at hv
      rw [← hv]
      cases c.neg <;> simp [signed]
    rw [hvq]
    refine ⟨by exact_mod_cast h2, by exact_mod_cast h3, ?_⟩
    have hi : c.isInteger = true ↔ c.a.tail = [] := by
      simp only [isInteger, hp, List.length_nil, decide_true, Bool.and_true, decide_eq_true_eq]
      constructor
      · intro h'
        rw [List.length_eq_one_iff] at h'
        obtain ⟨a, ha⟩ := h'
        rw [ha]; rfl
      · intro h'
        match hc : c.a, h.1.1, h' with
        | [a], _, _ => rfl
    rw [hi, h4]
    exact_mod_cast Iff.rfl
  · have hs := wf_posSeq h.1 hp
    have hxl := (hasVal_periodic h.1 hp).1 hx
    rw [signed_eq_iff] at hxl
    rw [hxl]
    have hfl := cfLim_floor hs
    have h0 : coeffAt (toInts c.a) (toInts c.p) 0 = ((c.a.headD 0 : Nat) : Int) := by
      rw [coeffAt_toInts]
      match hc : c.a, h.1.1 with
      | a :: l, _ => simp [coeffAt]
    rw [h0, Int.floor_eq_iff] at hfl
    refine ⟨by exact_mod_cast hfl.1, by exact_mod_cast hfl.2, ?_⟩
    constructor
    · intro hi
      simp only [isInteger, Bool.and_eq_true, decide_eq_true_eq, List.length_eq_zero_iff] at hi
      exact absurd hi.2 hp
    · intro he
      refine absurd ⟨((c.a.headD 0 : Nat) : ℚ), ?_⟩ (cfLim_irrational hs)
      rw [he]; norm_cast

/-- `is_integer` is right on fractions in standard form. -/
theorem cf_isInteger (c : CF) (h : c.Std) (x : ℝ) (hx : c.HasVal x) :
    c.isInteger = true ↔ ∃ z : ℤ, x = z := by
  obtain ⟨h1, h2, h3⟩ := std_floor c h x hx
  rw [h3]
  constructor
  · intro he
    refine ⟨signed c.neg ((c.a.headD 0 : Nat) : Int), ?_⟩
    rw [← signed_eq_iff] at he
    rw [he]
    cases c.neg <;> simp [signed]
  · rintro ⟨z, rfl⟩
    obtain ⟨z', hz'⟩ : ∃ z' : ℤ, signed c.neg (z : ℝ) = z' := ⟨signed c.neg z, by cases c.neg <;> simp [signed]⟩
    rw [hz'] at h1 h2 ⊢
    have h1' : ((c.a.headD 0 : Nat) : Int) ≤ z' := by exact_mod_cast h1
    have h2' : z' < ((c.a.headD 0 : Nat) : Int) + 1 := by exact_mod_cast h2
    have : z' = ((c.a.headD 0 : Nat) : Int) := by omega
    rw [this]; norm_cast

example : Std ⟨[2, 3], [], true⟩ ∧ Std ⟨[0, 1], [2, 3], true⟩ :=
  ⟨⟨by simp [Wf], fun _ => canonical_of_canL (by simp [CanL]) (by simp)⟩, by simp [Wf], by simp⟩

/-- Without standard form `is_integer` can be wrong: `[1; 1]` is `2`.  (`new` never produces such a fraction.) -/
theorem cf_isInteger_needs_std : Wf ⟨[1, 1], [], false⟩ ∧ HasVal ⟨[1, 1], [], false⟩ 2 ∧
    isInteger ⟨[1, 1], [], false⟩ = false := by
  refine ⟨by simp [Wf], (hasVal_finite rfl).2 ⟨2, by decide +kernel, by norm_num⟩, by decide⟩

/-- `to_integer` rounds towards zero and says `Exact` exactly for integers. -/
theorem cf_toInteger (c : CF) (h : c.Std) (x : ℝ) (hx : c.HasVal x) :
    ∃ r : Approx Int, c.toInteger .big = .ok r ∧ r.value = (if 0 ≤ x then ⌊x⌋ else ⌈x⌉) ∧
      ((∃ z, r = .exact z) ↔ ∃ z : ℤ, x = z) := by
  have hint := cf_isInteger c h x hx
  obtain ⟨h1, h2, h3⟩ := std_floor c h x hx
  match hc : c.a, h.1.1 with
  | a :: l, _ =>
    rw [hc] at h1 h2 h3
    simp only [List.headD_cons] at h1 h2 h3
    have hval : (if c.neg = true then -((a : Nat) : Int) else ((a : Nat) : Int)) = if 0 ≤ x then ⌊x⌋ else ⌈x⌉ := by
      cases hn : c.neg with
      | false =>
        rw [hn] at h1 h2
        simp only [signed] at h1 h2
        have : 0 ≤ x := le_trans (by positivity) h1
        rw [if_pos this]
        simp only [Bool.false_eq_true, if_false]
        symm
        rw [Int.floor_eq_iff]
        exact ⟨by exact_mod_cast h1, by exact_mod_cast h2⟩
      | true =>
        rw [hn] at h1 h2
        simp only [signed, if_true] at h1 h2 ⊢
        by_cases hx0 : 0 ≤ x
        · rw [if_pos hx0]
          have ha0 : (0 : ℝ) ≤ (a : ℝ) := by positivity
          have hx00 : x = 0 := by linarith
          have : (a : ℝ) = 0 := by linarith
          have : a = 0 := by exact_mod_cast this
          rw [hx00, this]; simp
        · rw [if_neg hx0]
          symm
          rw [Int.ceil_eq_iff]
          push_cast
          exact ⟨by linarith, by linarith⟩
    unfold toInteger
    rw [hc]
    simp only [Width.big]
    by_cases hi : c.isInteger = true
    · rw [if_pos hi]
      exact ⟨_, rfl, hval, fun _ => hint.1 hi, fun _ => ⟨_, rfl⟩⟩
    · rw [if_neg hi]
      exact ⟨_, rfl, hval, fun ⟨z, hz⟩ => by (cases hz), fun hz => absurd (hint.2 hz) hi⟩

example : toInteger .big ⟨[2, 3], [], true⟩ = .ok (.approximated (-2)) := by decide +kernel

/-- The constants and their tests. -/
theorem cf_zero_one (c : CF) (h : c.Canonical) :
    zero.valQ = some 0 ∧ one.valQ = some 1 ∧ (c.isZero = true ↔ c.valQ = some 0) ∧
    (c.isOne = true ∧ c.neg = false ↔ c.valQ = some 1) := by
  have hz : zero.Canonical := canonical_of_canL (show CanL [0] from trivial) (fun _ => rfl)
  have ho : one.Canonical := canonical_of_canL (show CanL [1] from trivial) (fun _ => rfl)
  have vz : zero.valQ = some 0 := by decide +kernel
  have vo : one.valQ = some 1 := by decide +kernel
  obtain ⟨ca, cp, cn⟩ := c
  have hp : cp = [] := h.1
  subst hp
  refine ⟨vz, vo, ?_, ?_⟩
  · constructor
    · intro h'
      simp [isZero] at h'
      have hn := h.2.2.2.2 h'
      simp only at hn
      rw [h', hn]; exact vz
    · intro h'
      have := canonical_unique _ _ h hz (by rw [h', vz])
      rw [this]; rfl
  · constructor
    · rintro ⟨h', hn⟩
      simp [isOne] at h' hn
      rw [h', hn]; exact vo
    · intro h'
      have := canonical_unique _ _ h ho (by rw [h', vo])
      rw [this]; exact ⟨rfl, rfl⟩

/-- `is_one` ignores the sign: it answers `true` for `-1`. -/
theorem cf_isOne_refuted : ∃ c : CF, c.Canonical ∧ c.isOne = true ∧ c.valQ = some (-1) :=
  ⟨ofInt (-1), (cf_ofInt (-1)).1, by decide, by decide +kernel⟩

end CF
end NumIrr
