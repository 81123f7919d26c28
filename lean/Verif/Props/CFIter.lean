/-
C27: coefficient iterators.  C28: convergents.  C29: convergents over fixed-width integers.
C30: `approximated`.
-/
import Verif.Lemmas.CFWidth

namespace NumIrr
namespace CF
open Filter Topology

/-! ### C27 -/

/-- `coeffs_unsigned` yields the aperiodic part and then the period for ever; after the end of a finite fraction it
keeps answering `None`. -/
theorem cf_coeffsUnsigned (c : CF) (n : Nat) :
    itemAt CoeffIter.next n c.coeffsUnsigned = if c.HasCoeff n then some (coeffAt c.a c.p n) else none := by
  unfold itemAt; rw [run_coeffs, iterState_next]
example : itemAt CoeffIter.next 4 (coeffsUnsigned ⟨[1], [1, 2], true⟩) = some 2 ∧ HasCoeff ⟨[1], [1, 2], true⟩ 4 := by
  decide +kernel

/-- `coeffs` applies the sign. -/
theorem cf_coeffs (c : CF) (n : Nat) :
    itemAt SignedIter.next n c.coeffs =
      if c.HasCoeff n then some (signed c.neg ((coeffAt c.a c.p n : Nat) : Int)) else none := by
  unfold itemAt; rw [run_signed, SignedIter.next, iterState_next]
  by_cases h : c.HasCoeff n
  · simp only [if_pos h]; rfl
  · simp only [if_neg h]; rfl

/-- `generalized` yields pairs of a numerator `1` and the signed coefficient. -/
theorem cf_generalized (c : CF) (n : Nat) :
    itemAt SignedIter.nextGeneral n c.generalized =
      if c.HasCoeff n then some (1, signed c.neg ((coeffAt c.a c.p n : Nat) : Int)) else none := by
  unfold itemAt; rw [run_general, SignedIter.nextGeneral, iterState_next]
  by_cases h : c.HasCoeff n
  · simp only [if_pos h]; rfl
  · simp only [if_neg h]; rfl

example : coeffAt [1] [1, 2] 4 = 2 ∧ HasCoeff ⟨[1], [1, 2], true⟩ 4 := by decide

/-- `into_coeffs` never advances inside the period: it repeats the first periodic coefficient. -/
theorem cf_intoCoeffs (c : CF) (n : Nat) :
    itemAt OwnedIter.next n c.intoCoeffs =
      .ok (if c.HasCoeff n then some (signed c.neg ((coeffAt c.a (c.p.take 1) n : Nat) : Int)) else none) := by
  unfold itemAt; rw [run_owned, ownState_next]
example : itemAt OwnedIter.next 2 (intoCoeffs ⟨[1], [1, 2], true⟩) = .ok (some (-1)) ∧
    itemAt SignedIter.next 2 (coeffs ⟨[1], [1, 2], true⟩) = some (-2) := by decide +kernel

/-- Hence it differs from `coeffs`: for `√3 = [1; (1, 2)]` the third coefficient is `1` instead of `2`. -/
theorem cf_intoCoeffs_refuted : itemAt OwnedIter.next 2 (intoCoeffs ⟨[1], [1, 2], false⟩) = .ok (some 1) ∧
    itemAt SignedIter.next 2 (coeffs ⟨[1], [1, 2], false⟩) = some 2 := by decide

/-- `into_coeffs` agrees with `coeffs` when the period has at most one coefficient.
Missing: longer periods, where it is false. -/
theorem cf_intoCoeffs_partial (c : CF) (hp : c.p.length ≤ 1) (n : Nat) :
    itemAt OwnedIter.next n c.intoCoeffs = .ok (itemAt SignedIter.next n c.coeffs) := by
  rw [cf_intoCoeffs, cf_coeffs, List.take_of_length_le hp]
example : (CF.mk [1, 5] [2] true).p.length ≤ 1 ∧
    itemAt OwnedIter.next 6 (intoCoeffs ⟨[1, 5], [2], true⟩) = .ok (some (-2)) := by decide +kernel

/-- … and, for a longer period, exactly when all periodic coefficients are equal. -/
theorem cf_intoCoeffs_iff (c : CF) :
    (∀ n, itemAt OwnedIter.next n c.intoCoeffs = .ok (itemAt SignedIter.next n c.coeffs)) ↔
      ∀ v ∈ c.p, ∀ w ∈ c.p, v = w := by
  constructor
  · intro h
    match hp : c.p with
    | [] => intro v hv; cases hv
    | u :: us =>
      have key : ∀ v ∈ u :: us, v = u := by
        intro v hv
        obtain ⟨i, hi, rfl⟩ := List.getElem_of_mem hv
        have := h (c.a.length + i)
        have hc : c.HasCoeff (c.a.length + i) := .inl (by rw [hp]; simp)
        rw [cf_intoCoeffs, cf_coeffs, if_pos hc, if_pos hc, coeffAt_add, coeffAt_add, hp] at this
        have e1 : coeffAt [] (List.take 1 (u :: us)) i = u := by simp [coeffAt, Nat.mod_one]
        rw [e1, coeffAt_period_lt _ hi] at this
        have h2 : signed c.neg (((u : Nat) : Int)) = signed c.neg ((((u :: us)[i] : Nat)) : Int) := by
          injection this with this
          injection this
        have h3 : ((u : Nat) : Int) = (((u :: us)[i] : Nat) : Int) := by
          cases hb : c.neg
          · rw [hb] at h2; exact h2
          · rw [hb] at h2
            simp only [signed, if_true] at h2
            omega
        omega
      intro v hv w hw
      rw [key v hv, key w hw]
  · intro h n
    rw [cf_intoCoeffs, cf_coeffs]
    by_cases hn : n < c.a.length
    · rw [coeffAt_lt _ _ hn, coeffAt_lt _ _ hn]
    · by_cases hp : c.p = []
      · rw [hp]; rfl
      · have h1 := coeffAt_mem c.a c.p hp (n := n) (by omega)
        have hp1 : c.p.take 1 ≠ [] := by
          intro h'; apply hp
          match hq : c.p, h' with
          | [], _ => rfl
        have h2 := List.mem_of_mem_take (coeffAt_mem c.a (c.p.take 1) hp1 (n := n) (by omega))
        rw [h _ h1 _ h2]

example : (∀ v ∈ [2, 2], ∀ w ∈ [2, 2], v = w) ∧ ¬ (∀ v ∈ [1, 2], ∀ w ∈ [1, 2], v = w) := by decide

/-! ### C28 -/

private theorem conv_some {c : CF} (h : c.Wf) {n : Nat} (hn : c.HasCoeff n) :
    ∃ q, cfVal (c.trunc (n + 1)) = some q ∧ c.conv n = some (signed c.neg q) ∧ (q.den : Int) = c.den n ∧ q.num = c.num n := by
  obtain ⟨q, -, h2⟩ := ratioNew_cfP _ (trunc_den_pos h hn)
  obtain ⟨h3, h4⟩ := cfVal_den h2 (trunc_den_pos h hn)
  refine ⟨q, h2, ?_, h3, h4⟩
  have h5 : cfVal (truncTo (toInts c.a) (toInts c.p) (n + 1)) = some q := h2
  unfold conv
  rw [h5]
  rfl

/-- The `n`-th item of `convergents()` is the value of the fraction cut after `n + 1` coefficients, which is always
a number; past the end the iterator keeps answering `None`. -/
theorem cf_convergents (c : CF) (h : c.Wf) (n : Nat) :
    itemAt (ConvIter.next .big) n c.convergents = .ok (if c.HasCoeff n then c.conv n else none) ∧
    (c.HasCoeff n → c.conv n ≠ none) := by
  obtain ⟨b, h1, h2⟩ := run_conv_big h n
  unfold itemAt
  rw [h1]
  by_cases hn : c.HasCoeff n
  · have hb := h2 (fun i hi => hasCoeff_mono hn i (by omega))
    subst hb
    obtain ⟨q, h3, h4⟩ := convState_next_big h (hasCoeff_mono hn)
    obtain ⟨q', h5, h6, -⟩ := conv_some h hn
    rw [h4] at h5
    have hqq := Option.some.inj h5
    subst hqq
    rw [if_pos hn, h6]
    exact ⟨congrArg Prod.fst h3, fun _ => by simp⟩
  · rw [if_neg hn]
    refine ⟨?_, fun h' => absurd h' hn⟩
    unfold ConvIter.next
    rw [iterState_next, if_neg hn]

example : Wf ⟨[1], [2], true⟩ ∧ itemAt (ConvIter.next .big) 3 (convergents ⟨[1], [2], true⟩) = .ok (some (-17 / 12)) :=
  ⟨by simp [Wf], by decide +kernel⟩

/-- `nth` (used by `to_rational`) agrees with stepping. -/
theorem cf_convergents_nth (c : CF) (h : c.Wf) (n : Nat) :
    ConvIter.nth .big n c.convergents = .ok (if c.HasCoeff n then c.conv n else none) := by
  rw [← convState_zero]
  by_cases hn : c.HasCoeff n
  · obtain ⟨q, h1, h2⟩ := nth_big h 0 n (by rw [Nat.zero_add]; exact hn)
    rw [Nat.zero_add] at h2
    obtain ⟨q', h5, h6, -⟩ := conv_some h hn
    rw [h2] at h5
    have hqq := Option.some.inj h5
    subst hqq
    rw [h1, if_pos hn, h6]
  · rw [nth_big_end h 0 n (by rw [Nat.zero_add]; exact hn), if_neg hn]
example : Wf ⟨[0, 1], [2, 3], false⟩ ∧ HasCoeff ⟨[0, 1], [2, 3], false⟩ 3 ∧
    ConvIter.nth .big 3 (convergents ⟨[0, 1], [2, 3], false⟩) = .ok (some (7 / 10)) :=
  ⟨by simp [Wf], by decide, by decide +kernel⟩

/-- The denominators never decrease, and increase strictly from the second one on. -/
theorem cf_conv_den_mono (c : CF) (h : c.Wf) (n : Nat) (hn : c.HasCoeff (n + 1)) (r s : Rat)
    (hr : c.conv n = some r) (hs : c.conv (n + 1) = some s) : r.den ≤ s.den ∧ (1 ≤ n → r.den < s.den) := by
  have hn0 : c.HasCoeff n := hasCoeff_mono hn n (by omega)
  obtain ⟨q, h1, h2, h3, -⟩ := conv_some h hn0
  obtain ⟨q', h1', h2', h3', -⟩ := conv_some h hn
  rw [hr] at h2
  rw [hs] at h2'
  rw [Option.some.inj h2, Option.some.inj h2', signed_den, signed_den]
  have hv : 1 ≤ coeffAt c.a c.p (n + 1) := by
    have := trunc_tail_pos (n := n + 2) h (fun i hi => hasCoeff_mono hn i (by omega))
      ((coeffAt c.a c.p (n + 1) : Nat) : Int) (by
        rw [trunc_succ]
        have : c.trunc (n + 1) ≠ [] := by rw [trunc_succ]; simp
        rw [List.tail_append_of_ne_nil this]
        simp)
    exact_mod_cast this
  have hv' : (1 : Int) ≤ ((coeffAt c.a c.p (n + 1) : Nat) : Int) := by exact_mod_cast hv
  have e := den_eq c (n + 1)
  have e1 : (blockOf (c.trunc (n + 1))).qm1 = c.den n := rfl
  have e2 : (blockOf (c.trunc (n + 1))).qm2 = (blockOf (c.trunc n)).qm1 := by rw [block_succ]; rfl
  rw [e1, e2] at e
  have hp := (trunc_num_nonneg c n).2.2.1
  have hd : 1 ≤ c.den n := trunc_den_pos h hn0
  constructor
  · have : c.den n ≤ c.den (n + 1) := by rw [e]; nlinarith
    omega
  · intro hn1
    obtain ⟨m, rfl⟩ : ∃ m, n = m + 1 := ⟨n - 1, by omega⟩
    have hp1 : 1 ≤ (blockOf (c.trunc (m + 1))).qm1 := trunc_den_pos h (hasCoeff_mono hn0 m (by omega))
    have : c.den (m + 1) < c.den (m + 1 + 1) := by rw [e]; nlinarith
    omega

example : Wf ⟨[0, 1], [2, 3], false⟩ ∧ conv ⟨[0, 1], [2, 3], false⟩ 2 = some (2 / 3) ∧
    conv ⟨[0, 1], [2, 3], false⟩ 3 = some (7 / 10) := ⟨by simp [Wf], by decide +kernel, by decide +kernel⟩

private theorem signed_le {c : CF} {x : ℝ} {q : Rat} {n : Nat} (h : 0 ≤ (-1 : ℝ) ^ n * (signed c.neg x - q)) :
    (Even n → (q : ℝ) ≤ signed c.neg x) ∧ (Odd n → signed c.neg x ≤ q) := by
  constructor
  · intro he; rw [he.neg_one_pow] at h; linarith
  · intro ho; rw [ho.neg_one_pow] at h; linarith

private theorem signed_signed_real (b : Bool) (q : Rat) : signed b ((signed b q : Rat) : ℝ) = (q : ℝ) := by
  rw [signed_cast]; cases b <;> simp [signed]

/-- The convergents of the absolute value lie alternately below and above it, strictly unless it is reached. -/
theorem cf_conv_alternate (c : CF) (h : c.Wf) (x : ℝ) (hx : c.HasVal x) (n : Nat) (hn : c.HasCoeff n) (r : Rat)
    (hr : c.conv n = some r) :
    (Even n → signed c.neg (r : ℝ) ≤ signed c.neg x) ∧ (Odd n → signed c.neg x ≤ signed c.neg (r : ℝ)) ∧
    (x = r ↔ ¬ c.HasCoeff (n + 1)) := by
  obtain ⟨q, h1, h2, -⟩ := conv_some h hn
  rw [hr] at h2
  have := Option.some.inj h2
  subst this
  obtain ⟨k1, k2, k3, -⟩ := conv_err h hx hn h1
  obtain ⟨m1, m2⟩ := signed_le k1
  rw [signed_signed_real]
  refine ⟨m1, m2, ?_⟩
  rw [signed_cast, signed_eq_iff]
  constructor
  · intro he hc; exact (k3 hc).1 he
  · exact k2

example : Wf ⟨[1], [2], true⟩ ∧ conv ⟨[1], [2], true⟩ 1 = some (-3 / 2) := ⟨by simp [Wf], by decide +kernel⟩

/-- The error of a convergent of a fraction in standard form is below `1/q²`. -/
theorem cf_conv_error (c : CF) (h : c.Std) (x : ℝ) (hx : c.HasVal x) (n : Nat) (hn : c.HasCoeff n) (r : Rat)
    (hr : c.conv n = some r) : |x - r| < 1 / (r.den : ℝ) ^ 2 := by
  obtain ⟨q, h1, h2, h3, -⟩ := conv_some h.1 hn
  rw [hr] at h2
  have := Option.some.inj h2
  subst this
  have k := (conv_err h.1 hx hn h1).2.2.2 h
  have e : ((q.den : Nat) : ℝ) = (c.den n : ℝ) := by exact_mod_cast h3
  rw [signed_den, e, ← signed_abs c.neg, ← signed_sub, signed_signed_real]
  exact k

/-- The error of a convergent followed by another one is at most `1/(q q')`. -/
theorem cf_conv_error_next (c : CF) (h : c.Wf) (x : ℝ) (hx : c.HasVal x) (n : Nat) (hn : c.HasCoeff (n + 1)) (r s : Rat)
    (hr : c.conv n = some r) (hs : c.conv (n + 1) = some s) : |x - r| ≤ 1 / ((r.den : ℝ) * s.den) := by
  have hn0 : c.HasCoeff n := hasCoeff_mono hn n (by omega)
  obtain ⟨q, h1, h2, h3, -⟩ := conv_some h hn0
  obtain ⟨q', h1', h2', h3', -⟩ := conv_some h hn
  rw [hr] at h2
  rw [hs] at h2'
  have e1 := Option.some.inj h2
  have e2 := Option.some.inj h2'
  subst e1 e2
  have k := ((conv_err h hx hn0 h1).2.2.1 hn).2
  have e : ((q.den : Nat) : ℝ) = (c.den n : ℝ) := by exact_mod_cast h3
  have e' : ((q'.den : Nat) : ℝ) = (c.den (n + 1) : ℝ) := by exact_mod_cast h3'
  rw [signed_den, signed_den, e, e', ← signed_abs c.neg, ← signed_sub, signed_signed_real]
  exact k

example : Std ⟨[3, 7, 16], [], false⟩ ∧ conv ⟨[3, 7, 16], [], false⟩ 1 = some (22 / 7) ∧
    HasVal ⟨[3, 7, 16], [], false⟩ ((355 / 113 : ℚ) : ℝ) :=
  ⟨⟨by simp [Wf], fun _ => canonical_of_canL (by simp [CanL]) (by simp)⟩, by decide +kernel,
    (hasVal_finite rfl).2 ⟨_, by decide +kernel, rfl⟩⟩

/-- The convergents of a periodic fraction converge to its value. -/
theorem cf_conv_tendsto (c : CF) (h : c.Wf) (hp : c.p ≠ []) (x : ℝ) (hx : c.HasVal x) (r : Nat → Rat)
    (hr : ∀ n, itemAt (ConvIter.next .big) n c.convergents = .ok (some (r n))) :
    Tendsto (fun n => (r n : ℝ)) atTop (𝓝 x) := by
  have hs := wf_posSeq h hp
  have hx' := (hasVal_periodic h hp).1 hx
  have ht := cfLim_tendsto hs
  have e : ∀ n, (r n : ℝ) = signed c.neg (cv (coeffAt (toInts c.a) (toInts c.p)) (n + 1)) := by
    intro n
    have h1 := (cf_convergents c h n).1
    have hn : c.HasCoeff n := .inl hp
    rw [hr n, if_pos hn] at h1
    have h1 : c.conv n = some (r n) := (Except.ok.inj h1).symm
    obtain ⟨q, k1, k2, -⟩ := conv_some h hn
    obtain ⟨q', k3, k4, -⟩ := cfVal_tr_pos hs n
    have : q = q' := by
      have : cfVal (tr (coeffAt (toInts c.a) (toInts c.p)) (n + 1)) = some q := k1
      rw [this] at k3
      exact Option.some.inj k3
    rw [h1] at k2
    rw [Option.some.inj k2, signed_cast, this, k4]
  rw [hx']
  simp only [e]
  cases c.neg
  · exact ht
  · simp only [signed, if_true]; exact ht.neg

example : Wf ⟨[1], [1, 2], false⟩ ∧ ∃ x, HasVal ⟨[1], [1, 2], false⟩ x := ⟨by simp [Wf], Wf.hasVal (by simp [Wf])⟩

/-- The last item of a finite fraction is its value. -/
theorem cf_conv_last (c : CF) (h : c.Wf) (hp : c.p = []) (fuel : Nat) (hf : c.a.length < fuel) :
    ∃ q, ConvIter.last .big fuel none c.convergents = some (.ok (some q)) ∧ c.valQ = some q := by
  have hl : 0 < c.a.length := List.length_pos_iff.2 h.1
  obtain ⟨r, h1, -, h3⟩ := last_big h hp 0 fuel none (by omega) (by omega)
  obtain ⟨q, h4, h5⟩ := h3 hl
  refine ⟨signed c.neg q, ?_, by unfold valQ; rw [h4]; rfl⟩
  rw [← convState_zero, h1, h5]

example : ConvIter.last .big 5 none (convergents ⟨[3, 7, 16], [], false⟩) = some (.ok (some (355 / 113))) := by
  decide +kernel

/-! ### C29 -/

/-- With `w`-bit integers the items are right as long as the true numerators and denominators fit the *signed* type.
Missing: values between `2^(w-1)` and `2^w`, where the claim is false (`cf_conv_prim_wrong`). -/
theorem cf_conv_prim_partial (c : CF) (h : c.Wf) (w n : Nat) (hn : c.HasCoeff n)
    (hfit : ∀ i ≤ n, ∀ r, c.conv i = some r → (r.num.natAbs : Int) < 2 ^ (w - 1) ∧ (r.den : Int) < 2 ^ (w - 1)) :
    ConvIter.nth (.prim w) n c.convergents = .ok (c.conv n) := by
  have hfit' : ∀ i ≤ n, c.num i < 2 ^ (w - 1) ∧ c.den i < 2 ^ (w - 1) := by
    intro i hi
    obtain ⟨q, -, h2, h3, h4⟩ := conv_some h (hasCoeff_mono hn i hi)
    obtain ⟨f1, f2⟩ := hfit i hi _ h2
    rw [signed_den] at f2
    have : (signed c.neg q).num.natAbs = q.num.natAbs := by cases c.neg <;> simp [signed]
    rw [this] at f1
    omega
  have hpow : (2 : Int) ^ (w - 1) ≤ 2 ^ w := pow_le_pow_right₀ (by norm_num) (by omega)
  have h0 := nth_prim h (w := w) 0 n (by rw [Nat.zero_add]; exact hn)
  rw [convState_zero] at h0
  simp only [Nat.zero_add] at h0
  rw [h0, if_pos (fun i hi => by have := hfit' i hi; omega)]
  obtain ⟨q, h1, h2, h3, h4⟩ := conv_some h hn
  obtain ⟨f1, f2⟩ := hfit' n le_rfl
  have s1 : (Width.prim w).sgn (c.num n) = c.num n := by simp only [Width.prim]; rw [if_pos f1]
  have s2 : (Width.prim w).sgn (c.den n) = c.den n := by simp only [Width.prim]; rw [if_pos f2]
  rw [s1, s2, h2, ← h3, ← h4, Int.cast_natCast, Rat.num_div_den]

example : Wf ⟨[1], [2], false⟩ ∧ ConvIter.nth (.prim 8) 4 (convergents ⟨[1], [2], false⟩) = .ok (some (41 / 29)) ∧
    conv ⟨[1], [2], false⟩ 4 = some (41 / 29) := ⟨by simp [Wf], by decide +kernel, by decide +kernel⟩

/-- The iterator stops at (or before) a convergent that does not fit the unsigned type, and at the end. -/
theorem cf_conv_prim_stops (c : CF) (h : c.Wf) (w n : Nat)
    (hbig : ¬ c.HasCoeff n ∨
      ∃ i ≤ n, ∃ r, c.conv i = some r ∧ ((2 : Int) ^ w ≤ (r.num.natAbs : Int) ∨ (2 : Int) ^ w ≤ r.den)) :
    ConvIter.nth (.prim w) n c.convergents = .ok none := by
  by_cases hn : c.HasCoeff n
  · obtain ⟨i, hi, r, hr, hb⟩ := hbig.resolve_left (fun h => h hn)
    have h0 := nth_prim h (w := w) 0 n (by rw [Nat.zero_add]; exact hn)
    rw [convState_zero] at h0
    simp only [Nat.zero_add] at h0
    rw [h0, if_neg]
    intro hall
    obtain ⟨f1, f2⟩ := hall i hi
    obtain ⟨q, -, h2, h3, h4⟩ := conv_some h (hasCoeff_mono hn i hi)
    rw [hr] at h2
    have := Option.some.inj h2
    subst this
    rw [signed_den] at hb
    have e : (signed c.neg q).num.natAbs = q.num.natAbs := by cases c.neg <;> simp [signed]
    rw [e] at hb
    have hnn : 0 ≤ q.num := by rw [h4, num_eq]; have t := trunc_num_nonneg c i; have := t.1; have := t.2.1; positivity
    omega
  · rw [← convState_zero]
    exact nth_prim_end h 0 n (by rw [Nat.zero_add]; exact hn)

example : conv ⟨[1], [2], false⟩ 7 = some (577 / 408) ∧
    ConvIter.nth (.prim 8) 7 (convergents ⟨[1], [2], false⟩) = .ok none := ⟨by decide +kernel, by decide +kernel⟩

/-- Between the two bounds the claim is false for every width from two bits on: the conversion to the signed type wraps around, and
the integer `2^(w-1)` has the convergent `-2^(w-1)`. -/
theorem cf_conv_prim_wrong (w : Nat) (hw : 2 ≤ w) :
    ConvIter.nth (.prim w) 0 (convergents ⟨[2 ^ (w - 1)], [], false⟩) = .ok (some (-(2 ^ (w - 1)))) ∧
    conv ⟨[2 ^ (w - 1)], [], false⟩ 0 = some (2 ^ (w - 1)) := by
  have hwf : Wf ⟨[2 ^ (w - 1)], [], false⟩ := by simp [Wf]
  have hc : HasCoeff ⟨[2 ^ (w - 1)], [], false⟩ 0 := .inr (by simp)
  have h0 := nth_prim hwf (w := w) 0 0 hc
  rw [convState_zero] at h0
  have e1 : num ⟨[2 ^ (w - 1)], [], false⟩ 0 = 2 ^ (w - 1) := by
    simp [num, trunc, truncTo, coeffAt, toInts, cfP, act]
  have e2 : den ⟨[2 ^ (w - 1)], [], false⟩ 0 = 1 := by
    simp [den, trunc, truncTo, coeffAt, toInts, cfP, act]
  have hpow : (2 : Int) ^ w = 2 * 2 ^ (w - 1) := by
    rw [← pow_succ', Nat.sub_add_cancel (by omega)]
  have hpos : (1 : Int) ≤ 2 ^ (w - 1) := one_le_pow₀ (by norm_num)
  constructor
  · rw [h0, if_pos]
    · simp only [Nat.add_zero, e1, e2, signed, Width.prim]
      congr 1
      rw [if_neg (lt_irrefl _), hpow]
      have : (1 : Int) < 2 ^ (w - 1) := one_lt_pow₀ (by norm_num) (by omega)
      rw [if_pos this]
      simp only [Bool.false_eq_true, if_false]
      push_cast
      congr 1
      ring
    · intro i hi
      have : i = 0 := by omega
      subst this
      simp only [Nat.add_zero, e1, e2]
      omega
  · simp [conv, truncTo, coeffAt, toInts, cfVal, signed]

/-- The iterator is not fused: after `None` it can yield values again, and these are not convergents.
Here `[1; 1, 200, 1, 1]` over `u8`. -/
theorem cf_conv_prim_not_fused :
    itemAt (ConvIter.next (.prim 8)) 2 (convergents ⟨[1, 1, 200, 1, 1], [], false⟩) = .ok none ∧
    itemAt (ConvIter.next (.prim 8)) 3 (convergents ⟨[1, 1, 200, 1, 1], [], false⟩) = .ok (some (3 / 2)) ∧
    (∀ n < 5, conv ⟨[1, 1, 200, 1, 1], [], false⟩ n ≠ some (3 / 2)) := by
  refine ⟨by decide +kernel, by decide +kernel, by decide +kernel⟩

/-! ### C30 -/

/-- `approximated` on a well-formed fraction, arbitrary precision, limit at least one: it terminates, returns a
convergent whose denominator is at most the limit, `Exact` results are exact, and an `Approximated` one differs from
the number by at most `1/(q·limit)`.  Missing: the documented bound `1/limit²`, which is false
(`cf_approximated_refuted`), and limits below one. -/
theorem cf_approximated_partial (c : CF) (h : c.Wf) (x : ℝ) (hx : c.HasVal x) (limit : Int) (hl : 1 ≤ limit) :
    ∃ F, ∀ fuel, F ≤ fuel → ∃ r n, c.approximated .big fuel limit = some (.ok r) ∧ c.conv n = some r.value ∧
      (r.value.den : Int) ≤ limit ∧ ((∃ v, r = .exact v) ↔ x = r.value) ∧
      |x - r.value| ≤ 1 / ((r.value.den : ℝ) * limit) := by
  have h0 : c.HasCoeff 0 := .inr (List.length_pos_iff.2 h.1)
  obtain ⟨q, h1, h2, h3, h4⟩ := conv_some h h0
  have hd0 : c.den 0 = 1 := by
    have := den_eq c 0
    simp only [trunc, truncTo, List.range_zero, List.map_nil, blockOf, act] at this
    rw [this]; ring
  obtain ⟨M, hM⟩ : ∃ M, ¬ c.HasCoeff (M + 1) ∨ limit ≤ c.den (M + 1) := by
    by_cases hp : c.p = []
    · exact ⟨c.a.length, .inl (by rintro (h' | h'); exact h' hp; omega)⟩
    · refine ⟨limit.toNat, .inr ?_⟩
      have := cQ_ge (wf_posSeq h hp) limit.toNat
      have e : c.den (limit.toNat + 1) = cQ (coeffAt (toInts c.a) (toInts c.p)) (limit.toNat + 2) := rfl
      rw [e]; omega
  refine ⟨M + 1, fun fuel hf => ?_⟩
  obtain ⟨r, k1, n, s, k2, k3, k4, k5, k6, k7⟩ :=
    approxLoop_big h limit 0 fuel h0 h1 (by rw [h3, hd0]; exact hl) M (by omega) hM (by omega)
  obtain ⟨s', m1, m2, m3, m4⟩ := conv_some h k2
  rw [k3] at m1
  have := Option.some.inj m1
  subst this
  have hnext : c.convergents.next .big = (.ok (some (signed c.neg q)), convState c 1) := by
    rw [← convState_zero]
    obtain ⟨q', e1, e2⟩ := convState_next_big h (n := 0) (hasCoeff_mono h0)
    rw [h1] at e2
    rw [e1, Option.some.inj e2]
  refine ⟨r, n, ?_, by rw [k4, m2], by rw [k4, signed_den]; exact k5, ?_, ?_⟩
  · unfold approximated
    rw [hnext]
    simp only [signed_den]
    rw [if_neg (by rw [h3, hd0]; omega)]
    exact k1
  · obtain ⟨-, c2, c3, -⟩ := conv_err h hx k2 k3
    rw [k4, signed_cast, signed_eq_iff]
    constructor
    · intro he; exact c2 (k6 he)
    · intro he
      cases r with
      | exact v => exact ⟨v, rfl⟩
      | approximated v => exact absurd he (c3 (k7 ⟨v, rfl⟩).1).1
  · obtain ⟨-, c2, c3, -⟩ := conv_err h hx k2 k3
    have e : ((s.den : Nat) : ℝ) = (c.den n : ℝ) := by exact_mod_cast m3
    have hden : (0 : ℝ) < c.den n := by
      rw [← e]; exact_mod_cast s.den_pos
    have hlim : (0 : ℝ) < limit := by exact_mod_cast (by omega : 0 < limit)
    rw [k4, signed_den, e, ← signed_abs c.neg, ← signed_sub, signed_signed_real]
    cases hr : r with
    | exact v =>
      rw [c2 (k6 ⟨v, hr⟩), sub_self, abs_zero]
      positivity
    | approximated v =>
      obtain ⟨g1, g2⟩ := k7 ⟨v, hr⟩
      refine le_trans (c3 g1).2 ?_
      have g2' : (limit : ℝ) ≤ (cfP (c.trunc (n + 2))).2 := by exact_mod_cast g2
      apply one_div_le_one_div_of_le (by positivity)
      exact mul_le_mul_of_nonneg_left g2' hden.le

example : Wf ⟨[1], [2], false⟩ ∧ approximated .big 10 ⟨[1], [2], false⟩ 100 = some (.ok (.approximated (99 / 70))) :=
  ⟨by simp [Wf], by decide +kernel⟩

private theorem sqrt2_val (x : ℝ) (hx : HasVal ⟨[1], [2], false⟩ x) : 1 < x ∧ x ^ 2 = 2 := by
  have hwf : Wf ⟨[1], [2], false⟩ := by simp [Wf]
  have hp : (⟨[1], [2], false⟩ : CF).p ≠ [] := by simp
  have hs := wf_posSeq hwf hp
  have e := (hasVal_periodic hwf hp).1 hx
  simp only [signed] at e
  have c1 := cquot_succ hs 0
  have c2 := cquot_succ hs 1
  have hsh : ∀ k, cquot (coeffAt (toInts [1]) (toInts [2])) (k + 1) = cquot (coeffAt (toInts [1]) (toInts [2])) 1 := by
    intro k
    unfold cquot
    congr 1
    funext n
    have : ∀ m, coeffAt (toInts [1]) (toInts [2]) (m + 1) = 2 := by
      intro m; simp [coeffAt, toInts, Nat.mod_one]
    unfold shft
    rw [show k + 1 + n = (k + n) + 1 by omega, this, show 1 + n = n + 1 by omega, this]
  have h2 : cquot (coeffAt (toInts [1]) (toInts [2])) 2 = cquot (coeffAt (toInts [1]) (toInts [2])) 1 := hsh 1
  have hgt := cquot_gt hs 0
  simp only [Nat.zero_add] at c1 c2 hgt
  rw [h2] at c2
  rw [cquot_zero] at c1
  have ex : x = cfLim (coeffAt (toInts [1]) (toInts [2])) := by simpa using e
  rw [← ex] at c1
  have a0 : coeffAt (toInts [1]) (toInts [2]) 0 = 1 := by decide
  have a1 : coeffAt (toInts [1]) (toInts [2]) 1 = 2 := by decide
  rw [a0] at c1
  rw [a1] at c2
  push_cast at c1 c2
  set t := cquot (coeffAt (toInts [1]) (toInts [2])) 1 with ht
  have ht0 : (0 : ℝ) < t := by linarith
  have hinv : 0 < 1 / t := by positivity
  refine ⟨by linarith, ?_⟩
  have q1 : t * t = 2 * t + 1 := by
    have : t * t = t * (2 + 1 / t) := by rw [← c2]
    rw [this]; field_simp
  have q2 : x * t = t + 1 := by rw [c1]; field_simp
  have q3 : x = t - 1 := by
    have : (x - (t - 1)) * t = 0 := by linear_combination q2 - q1
    rcases mul_eq_zero.1 this with h | h
    · linarith
    · exact absurd h ht0.ne'
  rw [q3]; linear_combination q1

/-- The documented bound `1/limit²` fails: for `√2` and limit `169` the answer is `99/70`, which is further than
`1/169²` from `√2`. -/
theorem cf_approximated_refuted :
    (∀ fuel, 7 ≤ fuel → approximated .big fuel ⟨[1], [2], false⟩ 169 = some (.ok (.approximated (99 / 70)))) ∧
    Wf ⟨[1], [2], false⟩ ∧ ∀ x, HasVal ⟨[1], [2], false⟩ x → 1 / (169 : ℝ) ^ 2 < |x - (99 / 70 : ℚ)| := by
  refine ⟨?_, by simp [Wf], ?_⟩
  · intro fuel hf
    obtain ⟨k, rfl⟩ := Nat.exists_eq_add_of_le hf
    have h7 : approximated .big 7 ⟨[1], [2], false⟩ 169 = some (.ok (.approximated (99 / 70))) := by decide +kernel
    have mono : ∀ (f g : Nat) (l : Rat) (it : ConvIter) (r), approxLoop .big 169 f l it = some r →
        approxLoop .big 169 (f + g) l it = some r := by
      intro f
      induction f with
      | zero => intro g l it r h; cases h
      | succ f ih =>
        intro g l it r h
        rw [show f + 1 + g = (f + g) + 1 by omega, approxLoop]
        rw [approxLoop] at h
        split at h
        · exact h
        · exact h
        · split at h
          · rename_i hlt; simp only [hlt, if_true]; exact ih g _ _ r h
          · rename_i hlt; simp only [hlt, if_false]; exact h
    unfold approximated at *
    split at h7
    · exact h7
    · exact h7
    · split at h7
      · rename_i hlt; simp only [hlt, if_true]; exact h7
      · rename_i hlt; simp only [hlt, if_false]; exact mono 7 k _ _ _ h7
  · intro x hx
    obtain ⟨h1, h2⟩ := sqrt2_val x hx
    push_cast
    rw [lt_abs]
    right
    have : (-(x - 99 / 70) - 1 / 169 ^ 2) > 0 := by nlinarith
    linarith

/-- Limits below one return the unsigned first coefficient, so the sign is lost. -/
theorem cf_approximated_small_limit (fuel : Nat) : approximated .big fuel ⟨[1], [2], true⟩ 0 = some (.ok (.approximated 1)) ∧
    ∀ x, HasVal ⟨[1], [2], true⟩ x → x < -1 := by
  refine ⟨by rfl, ?_⟩
  rintro x ⟨y, hy, rfl⟩
  have := (sqrt2_val y ⟨y, hy, by simp [signed]⟩).1
  simp only [signed, if_true]
  linarith

/-- With fixed-width integers the answer can claim to be exact although the iterator only stopped because of an
overflow: for `√2` over `u8` and limit `127` it is `Exact(17/87)`. -/
theorem cf_approximated_overflow :
    approximated (.prim 8) 20 ⟨[1], [2], false⟩ 127 = some (.ok (.exact (17 / 87))) ∧
    ∀ x, HasVal ⟨[1], [2], false⟩ x → x ≠ (17 / 87 : ℚ) := by
  refine ⟨by decide +kernel, ?_⟩
  intro x hx he
  have := (sqrt2_val x hx).1
  rw [he] at this
  norm_num at this

end CF
end NumIrr
