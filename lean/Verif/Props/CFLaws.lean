/-
C94: the laws of arithmetic for continued fractions.  All statements are about the fractions as they are stored, not
only about their values.
-/
import Verif.Lemmas.CFVia
import Verif.Spec.CFLaws
import Verif.Props.CFShift
import Verif.Props.CFEq
import Verif.Props.SurdLaws

namespace NumIrr
namespace CF

/-! ### Laws that hold for all fractions -/

private theorem rat_eq {c : CF} (h : c.Wf) (hp : c.p = []) :
    ∃ q : ℚ, c.toRational .big = .ok (.exact q) ∧ c.HasVal q := by
  obtain ⟨q, h1, -, h3⟩ := cf_toRational_finite c h hp
  exact ⟨q, h1, h3⟩

private theorem bin_finite (cfg : Cfg) (fuel : Nat) {c e : CF} (hc : c.p = []) (he : e.p = []) {q r : ℚ}
    (h1 : c.toRational .big = .ok (.exact q)) (h2 : e.toRational .big = .ok (.exact r)) :
    c.add cfg fuel e = some (.ok (ofRat (q + r))) ∧ c.sub cfg fuel e = some (.ok (ofRat (q - r))) ∧
    c.mul cfg fuel e = some (.ok (ofRat (q * r))) ∧ (r ≠ 0 → c.div cfg fuel e = some (.ok (ofRat (q / r)))) := by
  have hr : c.isRational = true := by simp [isRational, hc]
  have hr' : e.isRational = true := by simp [isRational, he]
  refine ⟨?_, ?_, ?_, fun h0 => ?_⟩ <;>
    simp only [CF.add, CF.sub, CF.mul, CF.div, opCF, hr', if_true, h2, Approx.value, CF.addRat, CF.subRat, CF.mulRat,
      CF.divRat, opNumber, hr, h1, Surd.ok_bind]
  simp only [ratioDiv, if_neg h0]

private theorem binSurd_swap (cfg : Cfg) {c e : CF} (hc : c.Wf) (he : e.Wf) {o : BinOp}
    (ho : ∀ s t : Surd, s.Ok cfg → t.Ok cfg → o.surd cfg s t = o.surd cfg t s) :
    binSurd cfg o c e = binSurd cfg o e c := by
  unfold binSurd
  cases h1 : c.toSurd cfg with
  | error p =>
    cases h2 : e.toSurd cfg with
    | error p' =>
      rw [(cf_toSurd_panics cfg c hc p h1).1, (cf_toSurd_panics cfg e he p' h2).1]
    | ok t => rfl
  | ok s =>
    cases h2 : e.toSurd cfg with
    | error p => rfl
    | ok t =>
      exact ho s t ((cf_toSurd_value cfg c hc s h1).1.toOk cfg) ((cf_toSurd_value cfg e he t h2).1.toOk cfg)

/-- `x + y` and `y + x` are the same fraction, panic in the same way, or are both still running. -/
theorem cf_add_comm (cfg : Cfg) (fuel : Nat) (x y : CF) (hx : x.Wf) (hy : y.Wf) :
    x.add cfg fuel y = y.add cfg fuel x := by
  by_cases h : x.p = [] ∧ y.p = []
  · obtain ⟨q, h1, -⟩ := rat_eq hx h.1
    obtain ⟨r, h2, -⟩ := rat_eq hy h.2
    rw [(bin_finite cfg fuel h.1 h.2 h1 h2).1, (bin_finite cfg fuel h.2 h.1 h2 h1).1, add_comm]
  · have hp : x.p ≠ [] ∨ y.p ≠ [] := by tauto
    have e1 := bin_via cfg fuel hy hp .add
    have e2 := bin_via cfg fuel hx hp.symm .add
    rw [binSurd_swap cfg hx hy (o := .add) fun s t hs ht => Surd.add_swap cfg hs ht] at e1
    exact e1.trans e2.symm
example : CF.add ⟨false, true⟩ 20 ⟨[0, 2], [], true⟩ ⟨[1], [1], false⟩ =
    CF.add ⟨false, true⟩ 20 ⟨[1], [1], false⟩ ⟨[0, 2], [], true⟩ ∧
    Wf ⟨[0, 2], [], true⟩ ∧ Wf ⟨[1], [1], false⟩ := by
  refine ⟨by decide +kernel, by simp [Wf], by simp [Wf]⟩

/-- The same for products. -/
theorem cf_mul_comm (cfg : Cfg) (fuel : Nat) (x y : CF) (hx : x.Wf) (hy : y.Wf) :
    x.mul cfg fuel y = y.mul cfg fuel x := by
  by_cases h : x.p = [] ∧ y.p = []
  · obtain ⟨q, h1, -⟩ := rat_eq hx h.1
    obtain ⟨r, h2, -⟩ := rat_eq hy h.2
    rw [(bin_finite cfg fuel h.1 h.2 h1 h2).2.2.1, (bin_finite cfg fuel h.2 h.1 h2 h1).2.2.1, mul_comm]
  · have hp : x.p ≠ [] ∨ y.p ≠ [] := by tauto
    have e1 := bin_via cfg fuel hy hp .mul
    have e2 := bin_via cfg fuel hx hp.symm .mul
    rw [binSurd_swap cfg hx hy (o := .mul) fun s t hs ht => Surd.mul_swap cfg hs ht] at e1
    exact e1.trans e2.symm

example : CF.add ⟨false, true⟩ 20 ⟨[0, 2], [], true⟩ ⟨[1], [1], false⟩ = some (.ok ⟨[1], [8, 2], false⟩) ∧
    Wf ⟨[0, 2], [], true⟩ ∧ Wf ⟨[1], [1], false⟩ := by
  refine ⟨by decide +kernel, by simp [Wf], by simp [Wf]⟩

/-- The surd operations are commutative in the same sense: the same fields, not only equal by `==` (C91). -/
theorem surd_comm_fields (cfg : Cfg) (x y : Surd) (hx : x.Ok cfg) (hy : y.Ok cfg) :
    Surd.add cfg x y = Surd.add cfg y x ∧ Surd.mul cfg x y = Surd.mul cfg y x ∧
    Surd.sub cfg x y = Surd.add cfg x (Surd.neg y) :=
  ⟨Surd.add_swap cfg hx hy, Surd.mul_swap cfg hx hy, Surd.sub_eq_add_neg' cfg hy hx⟩

example : (Surd.mk 1 1 2 5).Ok ⟨false, false⟩ ∧ (Surd.mk 0 1 1 45).Ok ⟨false, false⟩ ∧
    Surd.sub ⟨false, false⟩ ⟨1, 1, 2, 5⟩ ⟨0, 1, 1, 45⟩ = .ok ⟨1, -5, 2, 5⟩ := by decide +kernel

/-- Negating twice gives the same fraction. -/
theorem cf_neg_neg (x : CF) : x.neg'.neg' = x := by
  unfold neg'
  by_cases h : x.isZero = true
  · rw [if_pos h, if_pos h]
  · rw [if_neg h]
    have : ({ x with neg := !x.neg } : CF).isZero = x.isZero := rfl
    rw [this, if_neg h]
    simp

private theorem neg_p (x : CF) : x.neg'.p = x.p := by
  unfold neg'; split <;> rfl

private theorem toSurd_neg (cfg : Cfg) {c : CF} (hc : c.Wf) : c.neg'.toSurd cfg = (c.toSurd cfg).map Surd.neg := by
  by_cases hp : c.p = []
  · obtain ⟨q, h1, h2⟩ := rat_eq hc hp
    obtain ⟨k1, k2, -⟩ := cf_neg c q h2
    obtain ⟨r, h3, h4⟩ := rat_eq (k2 hc) (by rw [neg_p, hp])
    have e : r = -q := by
      have := HasVal.unique h4 k1
      exact_mod_cast this
    rw [toSurd_finite cfg hp h1, toSurd_finite cfg (by rw [neg_p, hp]) h3, e]
    simp [Except.map, Surd.neg, Surd.ofRat]
  · have hz : ¬ c.isZero = true := by simp [isZero, hp]
    have hr : ¬ c.isRational = true := by simp [isRational, hp]
    unfold neg'
    rw [if_neg hz]
    unfold toSurd
    have hr' : ¬ ({ c with neg := !c.neg } : CF).isRational = true := hr
    rw [if_neg hr, if_neg hr']
    simp only
    cases periodSurd cfg c.p with
    | error e => rfl
    | ok ps =>
      simp only [Surd.ok_bind]
      cases tailSurd cfg c.a ps with
      | error e => rfl
      | ok s =>
        simp only [Surd.ok_bind]
        match c.a with
        | [] => rfl
        | a0 :: _ =>
          simp only
          cases s.addInt cfg a0 with
          | error e => rfl
          | ok t =>
            simp only [Surd.ok_bind]
            change Except.ok _ = Except.ok _
            cases c.neg <;> simp [Surd.neg_neg']

/-- `x - y` and `x + (-y)` are the same fraction, panic in the same way, or are both still running. -/
theorem cf_sub_eq_add_neg (cfg : Cfg) (fuel : Nat) (x y : CF) (hx : x.Wf) (hy : y.Wf) :
    x.sub cfg fuel y = x.add cfg fuel y.neg' := by
  obtain ⟨v, hv⟩ := hy.hasVal
  obtain ⟨k1, k2, -⟩ := cf_neg y v hv
  by_cases h : x.p = [] ∧ y.p = []
  · obtain ⟨q, h1, -⟩ := rat_eq hx h.1
    obtain ⟨r, h2, h2'⟩ := rat_eq hy h.2
    obtain ⟨r', h3, h3'⟩ := rat_eq (k2 hy) (by rw [neg_p, h.2])
    have e : r' = -r := by
      have := HasVal.unique h3' ((cf_neg y r h2').1)
      exact_mod_cast this
    rw [(bin_finite cfg fuel h.1 h.2 h1 h2).2.1, (bin_finite cfg fuel h.1 (by rw [neg_p, h.2]) h1 h3).1, e,
      sub_eq_add_neg]
  · have hp : x.p ≠ [] ∨ y.p ≠ [] := by tauto
    have e1 := bin_via cfg fuel hy hp .sub
    have e2 := bin_via cfg fuel (k2 hy) (c := x) (by rw [neg_p]; exact hp) .add
    have e3 : binSurd cfg .sub x y = binSurd cfg .add x y.neg' := by
      unfold binSurd
      rw [toSurd_neg cfg hy]
      cases h1 : x.toSurd cfg with
      | error p => rfl
      | ok s =>
        cases h2 : y.toSurd cfg with
        | error p => rfl
        | ok t =>
          exact Surd.sub_eq_add_neg' cfg ((cf_toSurd_value cfg y hy t h2).1.toOk cfg)
            ((cf_toSurd_value cfg x hx s h1).1.toOk cfg)
    rw [e3] at e1
    exact e1.trans e2.symm
example : CF.sub ⟨false, true⟩ 20 ⟨[1], [1], false⟩ ⟨[0, 2], [], false⟩ = some (.ok ⟨[1], [8, 2], false⟩) ∧
    CF.neg' ⟨[0, 2], [], false⟩ = ⟨[0, 2], [], true⟩ ∧ Wf ⟨[0, 2], [], false⟩ ∧ Wf ⟨[1], [1], false⟩ := by
  refine ⟨by decide +kernel, rfl, by simp [Wf], by simp [Wf]⟩

/-! ### Rational fractions: all laws of a field -/

private theorem canonical_ofRat {x : CF} (hx : x.Canonical) : ∃ q : ℚ, x = ofRat q ∧ x.HasVal q := by
  obtain ⟨q, h1, h2⟩ := rat_eq hx.wf hx.1
  exact ⟨q, (cf_ofRat_toRational x hx q h1).symm, h2⟩

private theorem ofRat_ops (cfg : Cfg) (fuel : Nat) (q r : ℚ) :
    (ofRat q).add cfg fuel (ofRat r) = some (.ok (ofRat (q + r))) ∧
    (ofRat q).sub cfg fuel (ofRat r) = some (.ok (ofRat (q - r))) ∧
    (ofRat q).mul cfg fuel (ofRat r) = some (.ok (ofRat (q * r))) ∧
    (r ≠ 0 → (ofRat q).div cfg fuel (ofRat r) = some (.ok (ofRat (q / r)))) :=
  bin_finite cfg fuel (cf_ofRat q).1.1 (cf_ofRat r).1.1 (cf_rat_roundtrip q) (cf_rat_roundtrip r)

private theorem ofRat_zero : ofRat 0 = zero := by decide +kernel

private theorem ofRat_one : ofRat 1 = one := by decide +kernel

private theorem hasVal_ofRat (q : ℚ) : (ofRat q).HasVal q :=
  (hasVal_finite (cf_ofRat q).1.1).2 ⟨q, (cf_ofRat q).2, rfl⟩

private theorem ofRat_ne_zero {r : ℚ} (h : ofRat r ≠ zero) : r ≠ 0 := by
  rintro rfl; exact h ofRat_zero

private theorem neg_ofRat (q : ℚ) : (ofRat q).neg' = ofRat (-q) := by
  obtain ⟨h1, h2, h3⟩ := cf_neg (ofRat q) q (hasVal_ofRat q)
  have hs := h3 ⟨(cf_ofRat q).1.wf, fun _ => (cf_ofRat q).1⟩
  have hc := hs.2 (by rw [neg_p]; exact (cf_ofRat q).1.1)
  obtain ⟨r, e, hr⟩ := canonical_ofRat hc
  have : r = -q := by
    have := HasVal.unique hr h1
    exact_mod_cast this
  rw [e, this]

/-- For rational fractions in canonical form, all laws of a field hold with equality of the stored fractions. -/
theorem cf_rational_field (cfg : Cfg) (fuel : Nat) (x y z : CF) (hx : x.Canonical) (hy : y.Canonical) (hz : z.Canonical) :
    andThen (x.add cfg fuel y) (fun s => s.add cfg fuel z) = andThen (y.add cfg fuel z) (fun s => x.add cfg fuel s) ∧
    andThen (x.mul cfg fuel y) (fun s => s.mul cfg fuel z) = andThen (y.mul cfg fuel z) (fun s => x.mul cfg fuel s) ∧
    andThen (y.add cfg fuel z) (fun s => x.mul cfg fuel s) =
      andThen (x.mul cfg fuel y) (fun s => andThen (x.mul cfg fuel z) (fun t => s.add cfg fuel t)) ∧
    x.add cfg fuel zero = some (.ok x) ∧ x.mul cfg fuel one = some (.ok x) ∧ x.mul cfg fuel zero = some (.ok zero) ∧
    x.sub cfg fuel x = some (.ok zero) ∧ x.add cfg fuel x.neg' = some (.ok zero) ∧
    (x ≠ zero → x.div cfg fuel x = some (.ok one)) ∧
    andThen (x.add cfg fuel y) (fun s => s.sub cfg fuel y) = some (.ok x) ∧
    (y ≠ zero → andThen (x.mul cfg fuel y) (fun s => s.div cfg fuel y) = some (.ok x) ∧
      andThen (x.div cfg fuel y) (fun s => s.mul cfg fuel y) = some (.ok x)) := by
  obtain ⟨p, rfl, -⟩ := canonical_ofRat hx
  obtain ⟨q, rfl, -⟩ := canonical_ofRat hy
  obtain ⟨r, rfl, -⟩ := canonical_ofRat hz
  have A := fun a b => (ofRat_ops cfg fuel a b).1
  have S := fun a b => (ofRat_ops cfg fuel a b).2.1
  have M := fun a b => (ofRat_ops cfg fuel a b).2.2.1
  have D := fun a b => (ofRat_ops cfg fuel a b).2.2.2
  rw [← ofRat_zero, ← ofRat_one, neg_ofRat]
  simp only [A, S, M, andThen]
  refine ⟨by rw [add_assoc], by rw [mul_assoc], by rw [mul_add], by rw [add_zero], by rw [mul_one], by rw [mul_zero],
    by rw [sub_self], by rw [add_neg_cancel], fun h => ?_, by rw [add_sub_cancel_right], fun h => ?_⟩
  · rw [ofRat_zero] at h
    rw [D _ _ (ofRat_ne_zero h), div_self (ofRat_ne_zero h)]
  · rw [ofRat_zero] at h
    have h0 := ofRat_ne_zero h
    rw [D _ _ h0, D _ _ h0]
    simp only [M]
    rw [mul_div_cancel_right₀ _ h0, div_mul_cancel₀ _ h0]
    exact ⟨rfl, rfl⟩

example : Canonical ⟨[3, 7, 16], [], true⟩ ∧ Canonical ⟨[0, 2], [], false⟩ ∧ Canonical ⟨[5], [], true⟩ := by
  refine ⟨?_, ?_, ?_⟩ <;> simp [Canonical]

/-! ### Irrational fractions -/

private theorem unwrap_const (cfg : Cfg) (fuel : Nat) : ∀ s ∈ [Surd.zero, Surd.one],
    s.toContfracUnwrap cfg (fuel + 2) = some (.error (if cfg.debug then .debugAssert else .divZero)) := by
  obtain ⟨c, d⟩ := cfg
  intro s hs
  simp only [List.mem_cons, List.not_mem_nil, or_false] at hs
  rcases hs with rfl | rfl <;> cases c <;> cases d <;> rfl

/-- `x - x` and `x / x` panic for every irrational fraction `x`, although `0` and `1` are fractions. -/
theorem cf_sub_self_refuted (cfg : Cfg) (fuel : Nat) (x : CF) (hx : x.Wf) (hp : x.p ≠ []) :
    ∃ e, x.sub cfg (fuel + 2) x = some (.error e) ∧ x.div cfg (fuel + 2) x = some (.error e) ∧
      x.add cfg (fuel + 2) x.neg' = some (.error e) ∧
      e = (if x.toSurd cfg = .error .incompatible then .incompatible else if cfg.debug then .debugAssert else .divZero) := by
  have e1 := bin_via cfg (fuel + 2) (c := x) hx (.inl hp) .sub
  have e2 := bin_via cfg (fuel + 2) (c := x) hx (.inl hp) .div
  rw [← cf_sub_eq_add_neg cfg (fuel + 2) x x hx hx]
  change x.sub cfg (fuel + 2) x = _ at e1
  change x.div cfg (fuel + 2) x = _ at e2
  rw [e1, e2]
  unfold binSurd
  cases h : x.toSurd cfg with
  | error e =>
    obtain ⟨rfl, -⟩ := cf_toSurd_panics cfg x hx e h
    exact ⟨_, rfl, rfl, rfl, by simp⟩
  | ok s =>
    obtain ⟨h1, h2⟩ := cf_toSurd_value cfg x hx s h
    have h3 := (surd_sub_self cfg s (h1.toOk cfg)).1
    have h4 := surd_div_self cfg s h1 (coeff_of_val hx hp h2).1
    simp only [Surd.ok_bind, BinOp.surd, h3, h4]
    refine ⟨if cfg.debug then .debugAssert else .divZero, unwrap_const cfg fuel _ (by simp),
      unwrap_const cfg fuel _ (by simp), unwrap_const cfg fuel _ (by simp), by simp⟩

example : Wf ⟨[1], [2], false⟩ ∧ toSurd ⟨false, false⟩ ⟨[1], [2], false⟩ = .ok ⟨0, 1, 1, 2⟩ :=
  ⟨by simp [Wf], by decide +kernel⟩

/-- If the exact result of an operation is irrational and its conjugate has the opposite sign, the fraction returned is
the shortest way of writing it. -/
theorem cf_bin_shortest_partial (cfg : Cfg) (fuel : Nat) (x y : CF) (hx : x.Wf) (hy : y.Wf) (hp : x.p ≠ [] ∨ y.p ≠ [])
    (v w : ℝ) (hv : x.HasVal v) (hw : y.HasVal w) (o : BinOp) (hz : OppConj (o.real v w)) (z : CF)
    (h : o.run cfg fuel x y = some (.ok z)) :
    z.Wf ∧ z.p ≠ [] ∧ z.HasVal (o.real v w) ∧ z.ShortestHead ∧ z.ShortestPeriod := by
  obtain ⟨u, h1, h2, h3⟩ := bin_result cfg fuel hx hy hp hv hw o h
  rw [← h2] at hz ⊢
  obtain ⟨h4, h5⟩ := opp_conj_surd h1 hz
  obtain ⟨k1, k2, -⟩ := Surd.surd_toContfrac_value cfg u h1 h4 fuel z h3
  obtain ⟨N, z', g1, -, -, -, g2⟩ := Surd.surd_toContfrac_returns_partial cfg u h1 h5
  have hval : z.HasVal u.val := by
    rwa [Surd.surd_toContfrac_same_neg_conj cfg u u h1 h1 h5 h5 rfl fuel N z z' h3 (g1 N le_rfl)]
  exact ⟨k1, k2, hval, Surd.surd_toContfrac_shortest_neg_conj cfg u h1 h5 fuel z h3⟩

/-- Therefore two such operations with the same exact result return the same fraction. -/
theorem cf_bin_same_partial (cfg : Cfg) (fuel fuel' : Nat) (x y x' y' : CF) (hx : x.Wf) (hy : y.Wf) (hx' : x'.Wf)
    (hy' : y'.Wf) (hp : x.p ≠ [] ∨ y.p ≠ []) (hp' : x'.p ≠ [] ∨ y'.p ≠ []) (v w v' w' : ℝ) (hv : x.HasVal v)
    (hw : y.HasVal w) (hv' : x'.HasVal v') (hw' : y'.HasVal w') (o o' : BinOp) (he : o.real v w = o'.real v' w')
    (hz : OppConj (o.real v w)) (z z' : CF) (h : o.run cfg fuel x y = some (.ok z))
    (h' : o'.run cfg fuel' x' y' = some (.ok z')) : z = z' := by
  obtain ⟨a1, a2, a3, a4, a5⟩ := cf_bin_shortest_partial cfg fuel x y hx hy hp v w hv hw o hz z h
  rw [he] at hz
  obtain ⟨b1, b2, b3, b4, b5⟩ := cf_bin_shortest_partial cfg fuel' x' y' hx' hy' hp' v' w' hv' hw' o' hz z' h'
  rw [← he] at b3
  exact eq_of_val a1 a2 b1 b2 a3 b3 a4 a5 b4 b5

private theorem oppConj_irr {v : ℝ} (hz : OppConj v) (q : ℚ) : v ≠ q := by
  intro hq
  obtain ⟨A, B, R, hR, hs, e, hAB⟩ := hz
  have hB : B ≠ 0 := by
    rintro rfl
    have := mul_self_nonneg A
    simp at hAB
    linarith
  rw [e] at hq
  have h3 : ((A - q : ℚ) : ℂ) + B * rootC R = 0 := by
    rw [rootC_of_nonneg hR]
    have h2 : ((A - q : ℚ) : ℝ) + B * √(R : ℝ) = 0 := by push_cast; linarith
    exact_mod_cast congrArg ((↑) : ℝ → ℂ) h2
  exact hB (root_lin_indep hs h3).2

private theorem periodic_of_opp {x : CF} (hx : x.Wf) {u : ℝ} (hu : x.HasVal u) (hz : OppConj u) : x.p ≠ [] := fun hp => by
  obtain ⟨q, -, h⟩ := rat_eq hx hp
  exact oppConj_irr hz q (HasVal.unique hu h)

private theorem operand_periodic {x y : CF} (hx : x.Wf) (hy : y.Wf) {u v : ℝ} (hu : x.HasVal u) (hv : y.HasVal v)
    (o : BinOp) (hz : OppConj (o.real u v)) : x.p ≠ [] ∨ y.p ≠ [] := by
  by_contra h
  push Not at h
  obtain ⟨q, -, h1⟩ := rat_eq hx h.1
  obtain ⟨r, -, h2⟩ := rat_eq hy h.2
  rw [HasVal.unique hu h1, HasVal.unique hv h2] at hz
  cases o
  · exact oppConj_irr hz (q + r) (by simp [BinOp.real])
  · exact oppConj_irr hz (q - r) (by simp [BinOp.real])
  · exact oppConj_irr hz (q * r) (by simp [BinOp.real])
  · exact oppConj_irr hz (q / r) (by simp [BinOp.real])

private theorem same_of_opp (cfg : Cfg) (fuel : Nat) {x y x' y' : CF} (hx : x.Wf) (hy : y.Wf) (hx' : x'.Wf)
    (hy' : y'.Wf) {v w v' w' : ℝ} (hv : x.HasVal v) (hw : y.HasVal w) (hv' : x'.HasVal v') (hw' : y'.HasVal w')
    (o o' : BinOp) (he : o.real v w = o'.real v' w') (hz : OppConj (o.real v w)) {z z' : CF}
    (h : o.run cfg fuel x y = some (.ok z)) (h' : o'.run cfg fuel x' y' = some (.ok z')) : z = z' :=
  cf_bin_same_partial cfg fuel fuel x y x' y' hx hy hx' hy' (operand_periodic hx hy hv hw o hz)
    (operand_periodic hx' hy' hv' hw' o' (he ▸ hz)) v w v' w' hv hw hv' hw' o o' he hz z z' h h'

private theorem back_of_opp (cfg : Cfg) (fuel : Nat) {x s y : CF} (hx : x.Wf) (hs : s.Wf) (hy : y.Wf) {u v w : ℝ}
    (hu : x.HasVal u) (hv : s.HasVal v) (hw : y.HasVal w) (o : BinOp) (he : o.real v w = u) (hz : OppConj u)
    (h1 : x.ShortestHead) (h2 : x.ShortestPeriod) {a : CF} (h : o.run cfg fuel s y = some (.ok a)) : a = x := by
  rw [← he] at hz
  obtain ⟨a1, a2, a3, a4, a5⟩ := cf_bin_shortest_partial cfg fuel s y hs hy (operand_periodic hs hy hv hw o hz) v w hv hw
    o hz a h
  rw [he] at a3 hz
  exact eq_of_val a1 a2 hx (periodic_of_opp hx hu hz) a3 hu a4 a5 h1 h2

/-- C94, restricted: associativity, distributivity and cancellation for periodic fractions, with equality of the stored
fractions.  The operations are supposed to return, the intermediate results to have the right value, and the exact
result to be irrational with a conjugate of the opposite sign.  (Missing: the other results, for which the laws fail, see
`cf_laws_refuted`.) -/
theorem cf_laws_partial (cfg : Cfg) (fuel : Nat) (x y z : CF) (hx : x.Wf) (hy : y.Wf) (hz : z.Wf) (u v w : ℝ)
    (hu : x.HasVal u) (hv : y.HasVal v) (hw : z.HasVal w) :
    (∀ s t a b, OppConj (u + v + w) →
      x.add cfg fuel y = some (.ok s) → s.add cfg fuel z = some (.ok a) →
      y.add cfg fuel z = some (.ok t) → x.add cfg fuel t = some (.ok b) →
      s.Wf → s.HasVal (u + v) → t.Wf → t.HasVal (v + w) → a = b) ∧
    (∀ s t a b, OppConj (u * v * w) →
      x.mul cfg fuel y = some (.ok s) → s.mul cfg fuel z = some (.ok a) →
      y.mul cfg fuel z = some (.ok t) → x.mul cfg fuel t = some (.ok b) →
      s.Wf → s.HasVal (u * v) → t.Wf → t.HasVal (v * w) → a = b) ∧
    (∀ s t r a b, OppConj (u * (v + w)) →
      y.add cfg fuel z = some (.ok s) → x.mul cfg fuel s = some (.ok a) →
      x.mul cfg fuel y = some (.ok t) → x.mul cfg fuel z = some (.ok r) → t.add cfg fuel r = some (.ok b) →
      s.Wf → s.HasVal (v + w) → t.Wf → t.HasVal (u * v) → r.Wf → r.HasVal (u * w) → a = b) ∧
    (∀ s a, OppConj u → x.ShortestHead → x.ShortestPeriod →
      (x.add cfg fuel y = some (.ok s) → s.Wf → s.HasVal (u + v) → s.sub cfg fuel y = some (.ok a) → a = x) ∧
      (x.sub cfg fuel y = some (.ok s) → s.Wf → s.HasVal (u - v) → s.add cfg fuel y = some (.ok a) → a = x) ∧
      (v ≠ 0 → x.mul cfg fuel y = some (.ok s) → s.Wf → s.HasVal (u * v) → s.div cfg fuel y = some (.ok a) → a = x) ∧
      (v ≠ 0 → x.div cfg fuel y = some (.ok s) → s.Wf → s.HasVal (u / v) → s.mul cfg fuel y = some (.ok a) → a = x)) := by
  refine ⟨fun s t a b ho h1 h2 h3 h4 hs hs' ht ht' => ?_, fun s t a b ho h1 h2 h3 h4 hs hs' ht ht' => ?_,
    fun s t r a b ho h1 h2 h3 h4 h5 hs hs' ht ht' hr hr' => ?_, fun s a ho hh hp => ⟨fun h1 hs hs' h2 => ?_,
      fun h1 hs hs' h2 => ?_, fun h0 h1 hs hs' h2 => ?_, fun h0 h1 hs hs' h2 => ?_⟩⟩
  · exact same_of_opp cfg fuel hs hz hx ht hs' hw hu ht' .add .add (add_assoc u v w) ho h2 h4
  · exact same_of_opp cfg fuel hs hz hx ht hs' hw hu ht' .mul .mul (mul_assoc u v w) ho h2 h4
  · exact same_of_opp cfg fuel hx hs ht hr hu hs' ht' hr' .mul .add (mul_add u v w) ho h2 h5
  · exact back_of_opp cfg fuel hx hs hy hu hs' hv .sub (add_sub_cancel_right u v) ho hh hp h2
  · exact back_of_opp cfg fuel hx hs hy hu hs' hv .add (sub_add_cancel u v) ho hh hp h2
  · exact back_of_opp cfg fuel hx hs hy hu hs' hv .div (mul_div_cancel_right₀ u h0) ho hh hp h2
  · exact back_of_opp cfg fuel hx hs hy hu hs' hv .mul (div_mul_cancel₀ u h0) ho hh hp h2

example : OppConj (1 + √2) ∧ CF.add ⟨false, true⟩ 20 ⟨[1], [2], false⟩ ⟨[1], [], false⟩ = some (.ok ⟨[2], [2], false⟩) ∧
    CF.sub ⟨false, true⟩ 20 ⟨[2], [2], false⟩ ⟨[1], [], false⟩ = some (.ok ⟨[1], [2], false⟩) := by
  refine ⟨⟨1, 1, 2, by decide, ?_, by push_cast; ring, by norm_num⟩, by decide +kernel, by decide +kernel⟩
  rintro ⟨k, hk⟩
  have h1 : k ≤ 1 := by nlinarith
  have h2 : -1 ≤ k := by nlinarith
  interval_cases k <;> omega

/-- The laws fail without these conditions: `(√2 + √2) - √2` is `√2` while `√2 + (√2 - √2)` panics; `(√7 - 3) + 3` is a
fraction for `6 - √7`, and `√7 - 3` and `-√7 + 3` are the same fraction. -/
theorem cf_laws_refuted (cfg : Cfg) :
    (let x : CF := ⟨[1], [2], false⟩
     andThen (x.add cfg 20 x) (fun s => s.add cfg 20 x.neg') = some (.ok x) ∧
     ∃ e, andThen (x.add cfg 20 x.neg') (fun s => x.add cfg 20 s) = some (.error e)) ∧
    (let x : CF := ⟨[2], [1, 1, 1, 4], false⟩
     let y : CF := ⟨[3], [], false⟩
     x.HasVal √7 ∧ y.HasVal 3 ∧
     (∃ a, andThen (x.sub cfg 20 y) (fun s => s.add cfg 20 y) = some (.ok a) ∧ ¬ a.HasVal √7) ∧
     ∃ b, x.sub cfg 20 y = some (.ok b) ∧ x.neg'.add cfg 20 y = some (.ok b)) := by
  have hx : Wf ⟨[2], [1, 1, 1, 4], false⟩ := by simp [Wf]
  refine ⟨⟨?_, ?_⟩, ?_, ?_, ⟨⟨[3, 2, 1], [4, 1, 1, 1], false⟩, ?_, ?_⟩, ⟨⟨[0, 2, 1], [4, 1, 1, 1], false⟩, ?_, ?_⟩⟩
  · obtain ⟨c, d⟩ := cfg; cases c <;> cases d <;> decide +kernel
  · refine ⟨if cfg.debug then .debugAssert else .divZero, ?_⟩
    obtain ⟨c, d⟩ := cfg; cases c <;> cases d <;> decide +kernel
  · have := (cf_toSurd_value cfg ⟨[2], [1, 1, 1, 4], false⟩ hx ⟨0, 1, 1, 7⟩ (by
      obtain ⟨c, d⟩ := cfg; cases c <;> cases d <;> decide +kernel)).2
    simpa [Surd.val, quadR] using this
  · have := hasVal_ofRat 3
    rw [show ofRat 3 = ⟨[3], [], false⟩ by decide +kernel] at this
    exact_mod_cast this
  · obtain ⟨c, d⟩ := cfg; cases c <;> cases d <;> decide +kernel
  · intro h
    have h1 := (cf_toSurd_value cfg ⟨[2], [1, 1, 1, 4], false⟩ hx ⟨0, 1, 1, 7⟩ (by
      obtain ⟨c, d⟩ := cfg; cases c <;> cases d <;> decide +kernel)).2
    have h2 : Surd.val ⟨0, 1, 1, 7⟩ = √7 := by simp [Surd.val, quadR]
    rw [h2] at h1
    have := ((cf_val_periodic_iff _ _ (by simp [Wf]) (by simp) hx (by simp)).1 ⟨_, h, h1⟩).2 0
    simp [coeffAt] at this
  · obtain ⟨c, d⟩ := cfg; cases c <;> cases d <;> decide +kernel
  · obtain ⟨c, d⟩ := cfg; cases c <;> cases d <;> decide +kernel

end CF
end NumIrr
