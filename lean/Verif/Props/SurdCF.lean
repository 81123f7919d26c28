/-
C35, C36, C38: from quadratic surds to continued fractions.
-/
import Verif.Lemmas.SurdCF
import Verif.Props.CFSurd
import Verif.Props.SurdRound
import Verif.Props.SurdNew
import Verif.Props.SurdSqrt

namespace NumIrr
namespace Surd

open Lagrange

private theorem signed_quad (σ : Bool) (a b c r : ℤ) :
    quadR (signed σ a) (signed σ b) c r = signed σ (quadR a b c r) := by
  cases σ
  · rfl
  · simp only [signed, if_true, quadR]; push_cast; rw [← neg_div]; congr 1; ring

private theorem signed_quad' (σ : Bool) (a b c r : ℤ) :
    quadR (signed σ a) (-signed σ b) c r = signed σ (quadR a (-b) c r) := by
  cases σ
  · rfl
  · simp only [signed, if_true, quadR]; push_cast; rw [← neg_div]; congr 1; ring

private theorem signed_sq (σ : Bool) (b : ℤ) (r : ℤ) : r * signed σ b * signed σ b = r * b * b := by
  cases σ
  · rfl
  · simp only [signed, if_true]; ring

private theorem val_ne {s : Surd} (h : s.RealOk) (hr : s.r ≠ 0) : s.val ≠ 0 := by
  have hb : s.b ≠ 0 := fun e => hr (h.rational.1 e)
  have := valC_ne_zero_of_b h.c_pos.ne' hb (h.irrational hr)
  rw [h.valC] at this
  exact_mod_cast this

open Classical in
/-- all that happens after the sign has been taken off -/
theorem start_spec (cfg : Cfg) {s : Surd} (h : s.RealOk) (hr : s.r ≠ 0) (σ : Bool) (hσ : 0 < signed σ s.val) :
    ∃ p q, Valid s.cfDisc p q ∧ 0 < th s.cfDisc p q ∧
      th s.cfDisc p q = signed σ (if Swapped s then s.conjVal else s.val) ∧
      (s.a * s.a < s.r * s.b * s.b → thc s.cfDisc p q < 0) ∧
      Root s.cfDisc (isqrt s.cfDisc) ∧
      (∀ fuel, quadsurdToContfrac cfg fuel (signed σ s.a) (signed σ s.b) s.c s.r σ =
        cfOfState cfg.debug fuel s.cfDisc (isqrt s.cfDisc) p q σ) ∧
      (Swapped s → ¬ (q < 0 ∧ isqrt s.cfDisc + p = q)) ∧
      (q < 0 ∧ isqrt s.cfDisc + p = q → σ = true → Flipped s) ∧
      (Flipped s → σ = true → q < 0 ∧ isqrt s.cfDisc + p = q) := by
  have hb : s.b ≠ 0 := fun e => hr (h.rational.1 e)
  have hb' : signed σ s.b ≠ 0 := by cases σ <;> simp [signed, hb]
  have hdisc : disc (signed σ s.a) (signed σ s.b) s.c s.r = s.cfDisc := by
    unfold disc cfDisc; rw [signed_sq]
    have : signed σ s.a * signed σ s.a = s.a * s.a := by cases σ <;> simp [signed]
    rw [this]
  have hdvd : (s.c ∣ s.r * signed σ s.b * signed σ s.b - signed σ s.a * signed σ s.a) ↔
      s.c ∣ s.r * s.b * s.b - s.a * s.a := by
    rw [signed_sq]
    have : signed σ s.a * signed σ s.a = s.a * s.a := by cases σ <;> simp [signed]
    rw [this]
  have hroot := disc_root (a := signed σ s.a) h.c_pos h.real (h.irrational hr) hb'
  obtain ⟨p, q, h1, h2, h3, h4, h5⟩ := pqForm_spec (a := signed σ s.a) (b := signed σ s.b) (r := s.r) h.c_pos
  rw [hdisc] at h1 h2 h3 h4 h5 hroot
  rw [hdvd] at h5
  have hcp : (0 : ℝ) < s.c := by exact_mod_cast h.c_pos
  have hsr : 0 < √(s.r : ℝ) := Real.sqrt_pos.2 (by exact_mod_cast (lt_of_le_of_ne h.real (Ne.symm hr)))
  have hbsig : ((signed σ s.b : ℤ) : ℝ) = signed σ (s.b : ℝ) := by cases σ <;> simp [signed]
  have hsgn : (signed σ s.b < 0) ↔ (s.b : ℝ) * s.val < 0 := by
    have e : (s.b : ℝ) * s.val = signed σ (s.b : ℝ) * signed σ s.val := by cases σ <;> simp [signed]
    rw [e, ← hbsig]
    constructor
    · intro h; exact mul_neg_of_neg_of_pos (by exact_mod_cast h) hσ
    · intro h
      by_contra h'
      have : (0 : ℝ) ≤ ((signed σ s.b : ℤ) : ℝ) := by exact_mod_cast (by omega : 0 ≤ signed σ s.b)
      have := mul_nonneg this hσ.le
      linarith
  have hval : startVal (signed σ s.a) (signed σ s.b) s.c s.r = signed σ (if Swapped s then s.conjVal else s.val) := by
    unfold startVal
    rw [if_congr hdvd rfl rfl]
    by_cases hd : s.c ∣ s.r * s.b * s.b - s.a * s.a
    · rw [if_pos hd, if_neg (fun h => h.1 hd), signed_quad]; rfl
    · rw [if_neg hd]
      by_cases hn : signed σ s.b < 0
      · rw [if_pos ⟨hd, hsgn.1 hn⟩, abs_of_neg hn, signed_quad']; rfl
      · rw [if_neg (fun h => hn (hsgn.2 h.2)), abs_of_nonneg (by omega), signed_quad]; rfl
  have hpos : 0 < th s.cfDisc p q := by
    rw [h3]
    unfold startVal
    rw [if_congr hdvd rfl rfl]
    have hle : quadR (signed σ s.a) (signed σ s.b) s.c s.r ≤ quadR (signed σ s.a) |signed σ s.b| s.c s.r := by
      unfold quadR
      apply div_le_div_of_nonneg_right _ hcp.le
      have : ((signed σ s.b : ℤ) : ℝ) ≤ ((|signed σ s.b| : ℤ) : ℝ) := by exact_mod_cast le_abs_self _
      nlinarith
    have : 0 < quadR (signed σ s.a) (signed σ s.b) s.c s.r := by rw [signed_quad]; exact hσ
    split
    · exact this
    · linarith
  refine ⟨p, q, h2, hpos, by rw [h3, hval], ?_, hroot, ?_, ?_, ?_, ?_⟩
  · intro hneg
    -- the product of the number and its conjugate is negative
    have hprod : th s.cfDisc p q * thc s.cfDisc p q = (s.a * s.a - s.r * s.b * s.b) / (s.c * s.c) := by
      rw [h3, h4]
      unfold startVal startConj
      have e1 : √(s.r : ℝ) * √(s.r : ℝ) = s.r := Real.mul_self_sqrt (by exact_mod_cast h.real)
      have key : ∀ b' : ℤ, b' * b' = s.b * s.b →
          quadR (signed σ s.a) b' s.c s.r * quadR (signed σ s.a) (-b') s.c s.r
            = (s.a * s.a - s.r * s.b * s.b) / (s.c * s.c) := by
        intro b' hb'
        have e2 : (b' : ℝ) * b' = s.b * s.b := by exact_mod_cast hb'
        have e3 : ((signed σ s.a : ℤ) : ℝ) * ((signed σ s.a : ℤ) : ℝ) = s.a * s.a := by
          cases σ <;> simp [signed]
        unfold quadR
        rw [div_mul_div_comm]
        congr 1
        push_cast
        linear_combination e3 - (s.r : ℝ) * e2 - (b' : ℝ) * b' * e1
      split
      · refine key _ ?_
        cases σ <;> simp [signed]
      · refine key _ ?_
        rw [abs_mul_abs_self]; cases σ <;> simp [signed]
    have hneg' : (s.a : ℝ) * s.a < s.r * s.b * s.b := by exact_mod_cast hneg
    have : th s.cfDisc p q * thc s.cfDisc p q < 0 := by
      rw [hprod]; exact div_neg_of_neg_of_pos (by linarith) (by positivity)
    by_contra hc
    have := mul_nonneg hpos.le (not_lt.1 hc)
    linarith
  · intro fuel
    exact quadsurd_eq cfg fuel σ h.c_pos.ne' h.real (h.irrational hr) h1 hroot.dpos.le
  · intro hsw hq
    exact hsw.1 (h5.1 hq).2.1
  · rintro hq rfl
    obtain ⟨k1, k2, k3⟩ := h5.1 hq
    simp only [signed, if_true] at k1 k3 hσ
    refine ⟨by linarith, by omega, k2, ?_⟩
    have : s.cfDisc = s.r * s.b * s.b := by unfold cfDisc; rw [if_pos k2]
    rw [← this, hroot.floor]
    omega
  · rintro ⟨k1, k2, k3, k4⟩ rfl
    apply h5.2
    have : s.cfDisc = s.r * s.b * s.b := by unfold cfDisc; rw [if_pos k3]
    rw [← this, hroot.floor] at k4
    simp only [signed, if_true]
    exact ⟨by omega, k3, by omega⟩

/-- the sign taken off -/
theorem toContfrac_start (cfg : Cfg) {s : Surd} (h : s.RealOk) (hr : s.r ≠ 0) :
    ∃ σ, 0 < signed σ s.val ∧ ∀ fuel, s.toContfrac cfg fuel =
      (quadsurdToContfrac cfg fuel (signed σ s.a) (signed σ s.b) s.c s.r σ).map fun x => x.map some := by
  obtain ⟨b, h1, h2⟩ := surd_isNegative cfg s h
  have hne := val_ne h hr
  have hr0 := h.real
  cases b with
  | false =>
    refine ⟨false, ?_, fun fuel => ?_⟩
    · have : ¬ s.val < 0 := fun h => by have := h2.2 h; cases this
      exact lt_of_le_of_ne (not_lt.1 this) (Ne.symm hne)
    · unfold toContfrac
      rw [if_neg (by omega), h1]; rfl
  | true =>
    refine ⟨true, ?_, fun fuel => ?_⟩
    · have := h2.1 rfl
      simp only [signed, if_true]; linarith
    · unfold toContfrac
      rw [if_neg (by omega), h1]; rfl

theorem eq_abs_of_signed (σ : Bool) (x y : ℝ) (h : y = signed σ x) (hy : 0 < y) : y = |x| := by
  cases σ
  · rw [h] at hy ⊢; exact (abs_of_pos hy).symm
  · rw [h] at hy ⊢
    simp only [signed, if_true] at *
    rw [abs_of_neg (by linarith)]

private theorem dichotomy (cfg : Cfg) {s : Surd} (h : s.RealOk) (hr : s.r ≠ 0) :
    (Hangs s.cfDisc s.cfStart ∧ ∀ fuel, s.toContfrac cfg fuel = none) ∨
    (¬ Hangs s.cfDisc s.cfStart ∧ ∃ N c, (∀ fuel, N ≤ fuel → s.toContfrac cfg fuel = some (.ok (some c))) ∧
      (∀ fuel x, s.toContfrac cfg fuel = some x → x = .ok (some c)) ∧ c.Wf ∧ c.p ≠ [] ∧ c.HasVal s.cfValue ∧
      (s.a * s.a < s.r * s.b * s.b → c.a.length ≤ 2)) := by
  obtain ⟨σ, hσ, e⟩ := toContfrac_start cfg h hr
  obtain ⟨p, q, hv, hpos, hth, hneg, hroot, heq, f1, f2, f3⟩ := start_spec cfg h hr σ hσ
  have hstart : s.cfStart = th s.cfDisc p q := (eq_abs_of_signed σ _ _ hth hpos).symm
  have hiff := stuck_reach_iff hroot hv
  rw [← hstart] at hiff
  by_cases hst : ∃ p' q', Reach s.cfDisc (isqrt s.cfDisc) p q p' q' ∧ Stuck s.cfDisc (isqrt s.cfDisc) p' q'
  · refine .inl ⟨hiff.1 hst, fun fuel => ?_⟩
    obtain ⟨p', q', h1, h2⟩ := hst
    rw [e, heq, cfOfState_stuck cfg.debug fuel σ hroot hv h1 h2]
    rfl
  · refine .inr ⟨fun hh => hst (hiff.2 hh), ?_⟩
    obtain ⟨N, c, k1, k2, k3, k4, k5, k6, k7⟩ := cfOfState_spec cfg.debug σ hroot hv hpos hst
    refine ⟨N, c, fun fuel hf => by rw [e, heq, k1 fuel hf]; rfl, fun fuel x hx => ?_, k3, k4, ?_, fun hn => ?_⟩
    · rw [e, heq] at hx
      cases hy : cfOfState cfg.debug fuel s.cfDisc (isqrt s.cfDisc) p q σ with
      | none => rw [hy] at hx; cases hx
      | some y =>
        rw [hy] at hx
        rw [k2 fuel y hy] at hx
        exact (Option.some.inj hx).symm
    · rw [k6, hth] at k5
      unfold cfValue
      by_cases hsw : Swapped s
      · rw [if_neg (f1 hsw)] at k5
        rw [if_pos hsw] at k5 ⊢
        convert k5 using 1
        cases σ <;> simp [signed]
      · rw [if_neg hsw] at k5 ⊢
        by_cases hq : q < 0 ∧ isqrt s.cfDisc + p = q
        · rw [if_pos hq] at k5
          cases σ
          · rw [if_neg (fun hf => by
              have := hf.1
              simp only [signed, Bool.false_eq_true, if_false] at hσ; linarith)]
            exact k5
          · rw [if_pos (f2 hq rfl)]
            exact k5
        · rw [if_neg hq] at k5
          rw [if_neg (fun hf => by
            cases σ
            · have := hf.1
              simp only [signed, Bool.false_eq_true, if_false] at hσ; linarith
            · exact hq (f3 hf rfl))]
          convert k5 using 1
          cases σ <;> simp [signed]
    · obtain ⟨-, l, p', q', h1, h2, h3⟩ := neg_conj_run hroot hv hpos (hneg hn)
      have := k7 l p' q' h1 h3
      have : (toInts c.a).length = l.length := by rw [this]
      simp [toInts] at this
      omega

/-! ### C35: the value -/

/-- Every computed fraction has the value `cfValue`: the number itself, except that some numbers are replaced by their
conjugate and some by their opposite. -/
theorem surd_toContfrac_value (cfg : Cfg) (s : Surd) (h : s.RealOk) (hr : s.r ≠ 0) (fuel : Nat) (c : CF)
    (hc : s.toContfrac cfg fuel = some (.ok (some c))) : c.Wf ∧ c.p ≠ [] ∧ c.HasVal s.cfValue := by
  rcases dichotomy cfg h hr with ⟨-, h1⟩ | ⟨-, N, c', -, h1, h2, h3, h4, -⟩
  · rw [h1] at hc; cases hc
  · have := h1 fuel _ hc
    cases this
    exact ⟨h2, h3, h4⟩
example : RealOk ⟨5, 1, 3, 7⟩ ∧
    toContfrac ⟨false, true⟩ 10 ⟨5, 1, 3, 7⟩ = some (.ok (some ⟨[2], [1, 1, 4, 1], false⟩)) := by decide +kernel

/-- C35, restricted: outside the two cases the fraction has the value of the number.  (Missing from the full claim:
numbers with `Swapped` or `Flipped`, for which it is false, see `surd_toContfrac_refuted`.) -/
theorem surd_toContfrac_value_partial (cfg : Cfg) (s : Surd) (h : s.RealOk) (hr : s.r ≠ 0) (h1 : ¬ Swapped s)
    (h2 : ¬ Flipped s) (fuel : Nat) (c : CF) (hc : s.toContfrac cfg fuel = some (.ok (some c))) : c.HasVal s.val := by
  have := (surd_toContfrac_value cfg s h hr fuel c hc).2.2
  unfold cfValue at this
  rwa [if_neg h1, if_neg h2] at this

/-- In particular when the number and its irrational part have the same sign. -/
theorem surd_toContfrac_value_same_sign (cfg : Cfg) (s : Surd) (h : s.RealOk) (hs : 0 < (s.b : ℝ) * s.val) (fuel : Nat)
    (c : CF) (hc : s.toContfrac cfg fuel = some (.ok (some c))) : c.HasVal s.val := by
  have hr : s.r ≠ 0 := fun e => by
    rw [h.rational.2 e] at hs
    simp at hs
  refine surd_toContfrac_value_partial cfg s h hr (fun hh => by have := hh.2; linarith) (fun hh => ?_) fuel c hc
  have h1 : (0 : ℝ) < s.b := by exact_mod_cast hh.2.1
  have := mul_neg_of_pos_of_neg h1 hh.1
  linarith

example : toContfrac ⟨false, true⟩ 10 ⟨1, 1, 3, 7⟩ = some (.ok (some ⟨[1], [4, 1, 1, 1], false⟩)) := by decide +kernel
example : toContfrac ⟨false, true⟩ 10 ⟨5, 1, 3, 7⟩ = some (.ok (some ⟨[2], [1, 1, 4, 1], false⟩)) := by decide +kernel
example : toContfrac ⟨false, true⟩ 10 ⟨-1, -2, 3, 11⟩ = some (.ok (some ⟨[2], [1, 1, 5, 7, 1, 3], true⟩)) := by decide +kernel

private theorem w1 : RealOk ⟨2, -1, 3, 2⟩ := by
  have h := surd_new_normal ⟨false, false⟩ 2 (-1) 3 2 ⟨2, -1, 3, 2⟩ (by decide +kernel)
  exact ⟨h.toNormal, by decide⟩

private theorem w2 : RealOk ⟨-3, 1, 1, 7⟩ := by
  have h := surd_new_normal ⟨false, false⟩ (-3) 1 1 7 ⟨-3, 1, 1, 7⟩ (by decide +kernel)
  exact ⟨h.toNormal, by decide⟩

/-- C35 is false: `(2 - √2)/3` is converted to a fraction of a different value, and so is `-3 + √7`. -/
theorem surd_toContfrac_refuted (cfg : Cfg) :
    (RealOk ⟨2, -1, 3, 2⟩ ∧ ∃ c, toContfrac cfg 10 ⟨2, -1, 3, 2⟩ = some (.ok (some c)) ∧
      c.HasVal (conjVal ⟨2, -1, 3, 2⟩) ∧ ¬ c.HasVal (val ⟨2, -1, 3, 2⟩)) ∧
    (RealOk ⟨-3, 1, 1, 7⟩ ∧ ∃ c, toContfrac cfg 10 ⟨-3, 1, 1, 7⟩ = some (.ok (some c)) ∧
      c.HasVal (-val ⟨-3, 1, 1, 7⟩) ∧ ¬ c.HasVal (val ⟨-3, 1, 1, 7⟩)) := by
  constructor
  · refine ⟨w1, ⟨[1, 7], [4, 8], false⟩, ?_⟩
    have e : toContfrac cfg 10 ⟨2, -1, 3, 2⟩ = some (.ok (some ⟨[1, 7], [4, 8], false⟩)) := by
      obtain ⟨c, d⟩ := cfg; cases c <;> cases d <;> decide +kernel
    have h2 : √(2 : ℝ) < 2 := by rw [Real.sqrt_lt' (by norm_num)]; norm_num
    have h0 : 0 < √(2 : ℝ) := by positivity
    have hv : 0 < val ⟨2, -1, 3, 2⟩ := by
      unfold val quadR; push_cast; apply div_pos <;> linarith
    have hsw : Swapped ⟨2, -1, 3, 2⟩ := ⟨by decide, by push_cast; linarith⟩
    have hval := (surd_toContfrac_value cfg _ w1 (by decide) 10 _ e).2.2
    unfold cfValue at hval
    rw [if_pos hsw] at hval
    refine ⟨e, hval, fun hc => ?_⟩
    have := CF.HasVal.unique hval hc
    unfold conjVal val quadR at this
    push_cast at this
    linarith
  · refine ⟨w2, ⟨[0, 2, 1], [4, 1, 1, 1], false⟩, ?_⟩
    have e : toContfrac cfg 10 ⟨-3, 1, 1, 7⟩ = some (.ok (some ⟨[0, 2, 1], [4, 1, 1, 1], false⟩)) := by
      obtain ⟨c, d⟩ := cfg; cases c <;> cases d <;> decide +kernel
    have h2 : √(7 : ℝ) < 3 := by rw [Real.sqrt_lt' (by norm_num)]; norm_num
    have h3 : 2 < √(7 : ℝ) := by rw [Real.lt_sqrt (by norm_num)]; norm_num
    have hv : val ⟨-3, 1, 1, 7⟩ < 0 := by
      unfold val quadR; push_cast; simp; linarith
    have hfl : Flipped ⟨-3, 1, 1, 7⟩ := by
      refine ⟨hv, by decide, by decide, ?_⟩
      have : ⌊√(((7 * 1 * 1 : ℤ)) : ℝ)⌋ = 2 := by
        rw [Int.floor_eq_iff]; push_cast; norm_num; constructor <;> linarith
      show ⌊√(((7 * 1 * 1 : ℤ)) : ℝ)⌋ + (-3) = -1
      rw [this]; norm_num
    have hsw : ¬ Swapped ⟨-3, 1, 1, 7⟩ := fun h => h.1 (by decide)
    have hval := (surd_toContfrac_value cfg _ w2 (by decide) 10 _ e).2.2
    unfold cfValue at hval
    rw [if_neg hsw, if_pos hfl] at hval
    refine ⟨e, hval, fun hc => ?_⟩
    have := CF.HasVal.unique hval hc
    linarith

/-! ### C36: termination -/

/-- Complex surds are refused. -/
theorem surd_toContfrac_complex (cfg : Cfg) (s : Surd) (h : s.r < 0) (fuel : Nat) :
    s.toContfrac cfg fuel = some (.ok none) := by
  unfold toContfrac
  rw [if_pos h]

/-- For irrational numbers: never a panic; it returns a fraction, independently of the fuel, exactly if `Hangs` fails,
and runs for ever otherwise. -/
theorem surd_toContfrac_returns_iff (cfg : Cfg) (s : Surd) (h : s.RealOk) (hr : s.r ≠ 0) :
    (¬ Hangs s.cfDisc s.cfStart ↔ ∃ N c, ∀ fuel, N ≤ fuel → s.toContfrac cfg fuel = some (.ok (some c))) ∧
    (Hangs s.cfDisc s.cfStart ↔ ∀ fuel, s.toContfrac cfg fuel = none) ∧
    (∀ fuel e, s.toContfrac cfg fuel ≠ some (.error e)) := by
  rcases dichotomy cfg h hr with ⟨h1, h2⟩ | ⟨h1, N, c, h2, h3, -⟩
  · refine ⟨⟨fun h => absurd h1 h, ?_⟩, ⟨fun _ => h2, fun _ => h1⟩, fun fuel e h => by rw [h2] at h; cases h⟩
    rintro ⟨N, c, h3⟩
    have := h3 N le_rfl
    rw [h2] at this; cases this
  · refine ⟨⟨fun _ => ⟨N, c, h2⟩, fun _ => h1⟩, ⟨fun h => absurd h h1, fun h => ?_⟩, fun fuel e h => ?_⟩
    · have := h2 N le_rfl
      rw [h] at this; cases this
    · have := h3 fuel _ h; cases this
example : RealOk ⟨30, -1, 1, 7⟩ ∧ (Surd.mk 30 (-1) 1 7).r ≠ 0 := by decide +kernel

/-- C36, restricted: numbers with a conjugate of opposite sign (`a² < b²r`; in particular all square roots) are
converted, to a fraction of their value with at most two coefficients before the period.  (Missing from the full claim:
the numbers for which it is false, see `surd_toContfrac_returns_refuted` and `surd_toContfrac_returns_iff`.) -/
theorem surd_toContfrac_returns_partial (cfg : Cfg) (s : Surd) (h : s.RealOk) (hn : s.a * s.a < s.r * s.b * s.b) :
    ∃ N c, (∀ fuel, N ≤ fuel → s.toContfrac cfg fuel = some (.ok (some c))) ∧ c.Wf ∧ c.p ≠ [] ∧ c.a.length ≤ 2 ∧
      c.HasVal s.val := by
  have hr : s.r ≠ 0 := fun e => by
    rw [e] at hn
    have := mul_self_nonneg s.a
    omega
  have hcp : (0 : ℝ) < s.c := by exact_mod_cast h.c_pos
  have hne := val_ne h hr
  have hsame : 0 < (s.b : ℝ) * s.val := by
    have e1 : √(s.r : ℝ) * √(s.r : ℝ) = s.r := Real.mul_self_sqrt (by exact_mod_cast h.real)
    have e2 : s.val * s.c = s.a + s.b * √(s.r : ℝ) := by unfold val quadR; field_simp
    have hn' : (s.a : ℝ) * s.a < s.r * s.b * s.b := by exact_mod_cast hn
    have hs0 : 0 < √(s.r : ℝ) := Real.sqrt_pos.2 (by exact_mod_cast (lt_of_le_of_ne h.real (Ne.symm hr)))
    by_contra hc
    have hc := not_lt.1 hc
    have h3 : (s.val * s.c) * (s.b * √(s.r : ℝ)) ≤ 0 := by
      have : (s.val * s.c) * (s.b * √(s.r : ℝ)) = ((s.b : ℝ) * s.val) * (s.c * √(s.r : ℝ)) := by ring
      rw [this]; exact mul_nonpos_of_nonpos_of_nonneg hc (by positivity)
    rw [e2] at h3
    have e3 : (s.b * √(s.r : ℝ)) * (s.b * √(s.r : ℝ)) = s.r * s.b * s.b := by linear_combination (s.b : ℝ) * s.b * e1
    nlinarith [mul_self_nonneg ((s.a : ℝ) + s.b * √(s.r : ℝ))]
  obtain ⟨σ, hσ, -⟩ := toContfrac_start cfg h hr
  rcases dichotomy cfg h hr with ⟨h1, h2⟩ | ⟨h1, N, c, h2, h3, h4, h5, h6, h7⟩
  · exfalso
    obtain ⟨p, q, hv, hpos, hth, hneg, hroot, heq, -⟩ := start_spec cfg h hr σ hσ
    have hstart : s.cfStart = th s.cfDisc p q := (eq_abs_of_signed σ _ _ hth hpos).symm
    rw [hstart] at h1
    exact (neg_conj_run hroot hv hpos (hneg hn)).1 ((stuck_reach_iff hroot hv).2 h1)
  · exact ⟨N, c, h2, h4, h5, h7 hn, surd_toContfrac_value_same_sign cfg s h hsame N c (h2 N le_rfl)⟩

example : (1 : ℤ) * 1 < 7 * 1 * 1 ∧ toContfrac ⟨false, false⟩ 20 ⟨1, 1, 3, 7⟩ =
    some (.ok (some ⟨[1], [4, 1, 1, 1], false⟩)) := by decide +kernel

/-- Another sufficient condition: `d - ⌊√d⌋²` does not divide `4⌊√d⌋²`. -/
theorem surd_toContfrac_returns_of_not_dvd (cfg : Cfg) (s : Surd) (h : s.RealOk) (hr : s.r ≠ 0)
    (hn : ¬ s.cfDisc - ⌊√(s.cfDisc : ℝ)⌋ * ⌊√(s.cfDisc : ℝ)⌋ ∣ 4 * (⌊√(s.cfDisc : ℝ)⌋ * ⌊√(s.cfDisc : ℝ)⌋)) :
    ∃ N c, ∀ fuel, N ≤ fuel → s.toContfrac cfg fuel = some (.ok (some c)) := by
  refine (surd_toContfrac_returns_iff cfg s h hr).1.1 ?_
  rintro ⟨n, ⟨P, Q, -, -, -, -, h1, Q', h2, h3⟩, -⟩
  apply hn
  rw [← h2, show 4 * (⌊√(s.cfDisc : ℝ)⌋ * ⌊√(s.cfDisc : ℝ)⌋) = 2 * ⌊√(s.cfDisc : ℝ)⌋ * (2 * ⌊√(s.cfDisc : ℝ)⌋) by ring]
  exact mul_dvd_mul h1 h3

example : toContfrac ⟨false, false⟩ 20 ⟨30, -1, 1, 7⟩ = some (.ok (some ⟨[27, 2, 1], [4, 1, 1, 1], false⟩)) ∧
    ¬ ((7 : ℤ) - 2 * 2 ∣ 4 * (2 * 2)) := by decide +kernel

private theorem w3 : RealOk ⟨3, -1, 1, 2⟩ := by
  have h := surd_new_normal ⟨false, false⟩ 3 (-1) 1 2 ⟨3, -1, 1, 2⟩ (by decide +kernel)
  exact ⟨h.toNormal, by decide⟩

private theorem floor_sqrt2 : ⌊√((2 : ℤ) : ℝ)⌋ = 1 := by
  have := (root_isqrt (d := 2) (by decide) (by decide +kernel)).floor
  rw [this]; decide +kernel

/-- C36 is false: the conversion of `3 - √2` never ends. -/
theorem surd_toContfrac_returns_refuted (cfg : Cfg) :
    RealOk ⟨3, -1, 1, 2⟩ ∧ ∀ fuel, toContfrac cfg fuel ⟨3, -1, 1, 2⟩ = none := by
  refine ⟨w3, (surd_toContfrac_returns_iff cfg _ w3 (by decide)).2.1.1 ?_⟩
  have h2 : √(2 : ℝ) < 2 := by rw [Real.sqrt_lt' (by norm_num)]; norm_num
  have hsw : ¬ Swapped ⟨3, -1, 1, 2⟩ := fun h => h.1 (by decide)
  have e1 : cfStart ⟨3, -1, 1, 2⟩ = 3 - √2 := by
    unfold cfStart
    rw [if_neg hsw]
    unfold val quadR
    push_cast
    rw [abs_of_pos (by linarith)]
    ring
  have e2 : cfDisc ⟨3, -1, 1, 2⟩ = 2 := by decide +kernel
  rw [e1, e2]
  refine ⟨0, ?_, fun m hm => absurd hm (Nat.not_lt_zero m)⟩
  refine ⟨-3, -1, by decide, by decide, ?_, ?_, ?_, -1, ?_, ?_⟩
  · unfold tails; push_cast; ring
  all_goals rw [floor_sqrt2]; decide

/-- A rational number makes it panic: on the assertion in debug builds, on a division by zero otherwise. -/
theorem surd_toContfrac_rational (cfg : Cfg) (s : Surd) (h : s.RealOk) (hr : s.r = 0) :
    ∃ N, ∀ fuel, s.toContfrac cfg fuel =
      if N ≤ fuel then some (.error (if cfg.debug then .debugAssert else .divZero)) else none := by
  obtain ⟨b, h1, -⟩ := surd_isNegative cfg s h
  have hb : s.b = 0 := h.rational.2 hr
  cases b with
  | false =>
    obtain ⟨N, hN⟩ := quadsurd_rational cfg (a := s.a) h.c_pos false
    refine ⟨N, fun fuel => ?_⟩
    unfold toContfrac
    rw [if_neg (by omega), h1]
    simp only
    rw [hb, hr, hN fuel]
    by_cases hf : N ≤ fuel
    · rw [if_pos hf, if_pos hf]; rfl
    · rw [if_neg hf, if_neg hf]; rfl
  | true =>
    obtain ⟨N, hN⟩ := quadsurd_rational cfg (a := -s.a) h.c_pos true
    refine ⟨N, fun fuel => ?_⟩
    unfold toContfrac
    rw [if_neg (by omega), h1]
    simp only
    rw [hb, hr, neg_zero, hN fuel]
    by_cases hf : N ≤ fuel
    · rw [if_pos hf, if_pos hf]; rfl
    · rw [if_neg hf, if_neg hf]; rfl

example : toContfrac ⟨false, false⟩ 20 ⟨22, 0, 7, 0⟩ = some (.error .divZero) := by decide +kernel

/-! ### C38: round trip of square roots -/

/-- Numbers with a conjugate of opposite sign survive the conversion to a fraction and back. -/
theorem surd_round_trip (cfg : Cfg) (s : Surd) (h : s.RealOk) (hn : s.a * s.a < s.r * s.b * s.b) :
    ∃ N c t, (∀ fuel, N ≤ fuel → s.toContfrac cfg fuel = some (.ok (some c))) ∧ c.HasVal s.val ∧
      c.toSurd cfg = .ok t ∧ t.RealOk ∧ t.val = s.val := by
  obtain ⟨N, c, h1, h2, -, h4, h5⟩ := surd_toContfrac_returns_partial cfg s h hn
  obtain ⟨t, h6, h7, h8⟩ := CF.cf_toSurd_partial cfg c h2 (.inr (.inl h4))
  exact ⟨N, c, t, h1, h5, h6, h7, (CF.HasVal.unique h8 h5)⟩

/-- a normalised square root of a non-square integer has no rational part -/
private theorem pure_of_sq {s : Surd} (h : s.RealOk) {n : ℤ} (hn : ¬ IsSquare n) (e : s.valC = rootC n) :
    s.a = 0 ∧ s.b ≠ 0 ∧ s.r ≠ 0 := by
  have hc : (s.c : ℚ) ≠ 0 := by exact_mod_cast h.c_pos.ne'
  have e2 : s.valC * s.valC = n := by rw [e, rootC_mul_self]
  have e3 := rootC_mul_self s.r
  rw [valC_coords, Rat.divInt_eq_div, Rat.divInt_eq_div] at e2
  by_cases hr : s.r = 0
  · exfalso
    rw [h.rational.2 hr] at e2
    refine hn (isSquare_of_rat (q := (s.a : ℚ) / s.c) ?_)
    simp only [Int.cast_zero, zero_div, Rat.cast_zero, zero_mul, add_zero] at e2
    exact_mod_cast e2
  · have hb : s.b ≠ 0 := fun e => hr (h.rational.1 e)
    refine ⟨?_, hb, hr⟩
    generalize hx : (s.a : ℚ) / s.c = x at *
    generalize hy : (s.b : ℚ) / s.c = y at *
    have hli := root_lin_indep (h.irrational hr) (x := x * x + y * y * s.r - n) (y := 2 * (x * y)) (by
      push_cast
      linear_combination e2 - (y : ℂ) * y * e3)
    have hy0 : y ≠ 0 := by
      rw [← hy]
      exact div_ne_zero (by exact_mod_cast hb) hc
    have hx0 : x = 0 := by
      have := hli.2
      simpa [hy0] using this
    rw [← hx, div_eq_zero_iff] at hx0
    exact_mod_cast hx0.resolve_right hc

/-- C38: for `n` not a square, `√n` is converted to a fraction of its value, and back to `√n`. -/
theorem sqrt_round_trip (cfg : Cfg) (n : ℤ) (h0 : 0 ≤ n) (hn : ¬ IsSquare n) :
    ∃ s N c t, Surd.fromSqrtInt cfg n = .ok (.ok s) ∧ s.val = √(n : ℝ) ∧
      (∀ fuel, N ≤ fuel → s.toContfrac cfg fuel = some (.ok (some c))) ∧ c.Wf ∧ c.HasVal √(n : ℝ) ∧
      c.toSurd cfg = .ok t ∧ t.val = √(n : ℝ) := by
  obtain ⟨s, h1, h2, h3⟩ := (surd_fromSqrtInt cfg n).2 (fun h => absurd h.2 (by omega))
  have h3 : s.valC = rootC n := (h3.1 h0).trans (rootC_of_nonneg h0).symm
  obtain ⟨h4, h5⟩ := real_transfer h2.toNormal (h3.trans (rootC_of_nonneg h0))
  obtain ⟨h6, h7, h8⟩ := pure_of_sq h4 hn h3
  have hpos : s.a * s.a < s.r * s.b * s.b := by
    rw [h6, mul_assoc]
    have := lt_of_le_of_ne h4.real (Ne.symm h8)
    have := mul_self_pos.2 h7
    positivity
  obtain ⟨N, c, t, h9, h10, h11, -, h12⟩ := surd_round_trip cfg s h4 hpos
  have hwf := (surd_toContfrac_value cfg s h4 h8 N c (h9 N le_rfl)).1
  rw [h5] at h10 h12
  exact ⟨s, N, c, t, h1, h5, h9, hwf, h10, h11, h12⟩

example : (Surd.fromSqrtInt ⟨false, false⟩ 14 = .ok (.ok ⟨0, 1, 1, 14⟩)) ∧
    toContfrac ⟨false, false⟩ 20 ⟨0, 1, 1, 14⟩ = some (.ok (some ⟨[3], [1, 2, 1, 6], false⟩)) ∧
    CF.toSurd ⟨false, false⟩ ⟨[3], [1, 2, 1, 6], false⟩ = .ok ⟨0, 1, 1, 14⟩ := by decide +kernel

end Surd
end NumIrr
