/-
C32, C33: arithmetic of continued fractions.
-/
import Verif.Spec.CFArith
import Verif.Props.SurdCF
import Verif.Props.SurdArith
import Verif.Props.CFRat
import Verif.Lemmas.SurdEq

namespace NumIrr

/-! ### Numbers on the right -/

def NumOp.rat : NumOp → ℚ → Res ℚ
  | .mulInt k, q => .ok (q * k)
  | .divInt k, q => ratioDiv q k
  | .addRat k, q => .ok (q + k)
  | .subRat k, q => .ok (q - k)
  | .mulRat k, q => .ok (q * k)
  | .divRat k, q => ratioDiv q k

def NumOp.surd (cfg : Cfg) : NumOp → Surd → Res Surd
  | .mulInt k, s => s.mulInt cfg k
  | .divInt k, s => s.divInt cfg k
  | .addRat k, s => s.addRat cfg k
  | .subRat k, s => s.subRat cfg k
  | .mulRat k, s => s.mulRat cfg k
  | .divRat k, s => s.divRat cfg k

theorem NumOp.run_eq (cfg : Cfg) (fuel : Nat) (c : CF) (o : NumOp) :
    o.run cfg fuel c = c.opNumber cfg fuel o.rat (o.surd cfg) := by cases o <;> rfl

theorem NumOp.rat_spec (o : NumOp) (q : ℚ) :
    (o.Defined → ∃ r : ℚ, o.rat q = .ok r ∧ (r : ℝ) = o.real q) ∧ (¬ o.Defined → o.rat q = .error .divZero) := by
  cases o <;> simp only [NumOp.rat, NumOp.real, NumOp.Defined, ratioDiv]
  case divInt k =>
    refine ⟨fun h => ⟨q / k, ?_, by push_cast; rfl⟩, fun h => ?_⟩
    · rw [if_neg (by exact_mod_cast h)]
    · rw [not_not] at h; rw [if_pos (by exact_mod_cast h)]
  case divRat k =>
    refine ⟨fun h => ⟨q / k, ?_, by push_cast; rfl⟩, fun h => ?_⟩
    · rw [if_neg h]
    · rw [not_not] at h; rw [if_pos h]
  all_goals exact ⟨fun _ => ⟨_, rfl, by push_cast; rfl⟩, fun h => absurd trivial h⟩

theorem NumOp.surd_spec (cfg : Cfg) (o : NumOp) {s : Surd} (h : s.RealOk) :
    (o.Defined → ∃ t, o.surd cfg s = .ok t ∧ t.RealOk ∧ t.val = o.real s.val) ∧
    (¬ o.Defined → o.surd cfg s = .error .denomZero) := by
  have key : ∀ {f : Res Surd} {v : ℂ} {w : ℝ}, (∃ t, f = .ok t ∧ t.valC = v ∧ t.Ok cfg) → v = w →
      ∃ t, f = .ok t ∧ t.RealOk ∧ t.val = w := by
    rintro f v w ⟨t, h1, h2, h3⟩ e
    obtain ⟨h4, h5⟩ := Surd.real_transfer h3.toNormal (h2.trans e)
    exact ⟨t, h1, h4, h5⟩
  have hx := h.toOk cfg
  have hv := h.valC
  cases o <;> simp only [NumOp.surd, NumOp.real, NumOp.Defined]
  case mulInt k =>
    exact ⟨fun _ => key (surd_mulInt_value cfg s k hx) (by rw [hv]; push_cast; rfl), fun h => absurd trivial h⟩
  case divInt k =>
    refine ⟨fun hk => key (surd_divInt_value cfg s k hx hk) (by rw [hv]; push_cast; rfl), fun h => ?_⟩
    rw [not_not] at h; subst h; exact surd_divInt_zero cfg s hx
  case addRat k =>
    exact ⟨fun _ => key (surd_addRat_value cfg s k hx) (by rw [hv]; push_cast; rfl), fun h => absurd trivial h⟩
  case subRat k =>
    exact ⟨fun _ => key (surd_subRat_value cfg s k hx) (by rw [hv]; push_cast; rfl), fun h => absurd trivial h⟩
  case mulRat k =>
    exact ⟨fun _ => key (surd_mulRat_value cfg s k hx) (by rw [hv]; push_cast; rfl), fun h => absurd trivial h⟩
  case divRat k =>
    refine ⟨fun hk => key (surd_divRat_value cfg s k hx hk) (by rw [hv]; push_cast; rfl), fun h => ?_⟩
    rw [not_not] at h; subst h; exact surd_divRat_zero cfg s hx

namespace CF

theorem finite_val {c : CF} {x : ℝ} (h : c.Wf) (hp : c.p = []) (hx : c.HasVal x) :
    ∃ q : ℚ, c.toRational .big = .ok (.exact q) ∧ x = q := by
  obtain ⟨q, h1, -, h3⟩ := cf_toRational_finite c h hp
  exact ⟨q, h1, HasVal.unique hx h3⟩

theorem ofRat_hasVal (q : ℚ) : (ofRat q).Canonical ∧ (ofRat q).HasVal q :=
  ⟨(cf_ofRat q).1, (hasVal_finite (cf_ofRat q).1.1).2 ⟨q, (cf_ofRat q).2, rfl⟩⟩

/-- C32 for numbers: the canonical fraction of the exact result; division by zero panics. -/
theorem cf_num_rational (cfg : Cfg) (fuel : Nat) (c : CF) (h : c.Wf) (hp : c.p = []) (x : ℝ) (hx : c.HasVal x)
    (o : NumOp) :
    (o.Defined → ∃ e, o.run cfg fuel c = some (.ok e) ∧ e.Canonical ∧ e.HasVal (o.real x)) ∧
    (¬ o.Defined → o.run cfg fuel c = some (.error .divZero)) := by
  obtain ⟨q, h1, rfl⟩ := finite_val h hp hx
  obtain ⟨h2, h3⟩ := NumOp.rat_spec o q
  rw [NumOp.run_eq]
  unfold opNumber
  rw [if_pos (by simp [isRational, hp]), h1]
  constructor
  · intro hd
    obtain ⟨r, h4, h5⟩ := h2 hd
    refine ⟨ofRat r, ?_, (ofRat_hasVal r).1, ?_⟩
    · simp only [Surd.ok_bind, Approx.value, h4]
    · rw [← h5]; exact (ofRat_hasVal r).2
  · intro hd
    simp only [Surd.ok_bind, Approx.value, h3 hd]

example : Wf ⟨[1, 2], [], true⟩ ∧ CF.mulInt ⟨false, true⟩ 0 ⟨[1, 2], [], true⟩ 3 = some (.ok ⟨[4, 2], [], true⟩) ∧
    CF.addRat ⟨false, true⟩ 0 ⟨[1, 2], [], true⟩ (5 / 3) = some (.ok ⟨[0, 6], [], false⟩) :=
  ⟨⟨by decide, by decide, by decide⟩, by decide +kernel⟩

/-! ### Fractions on the right -/

def numOp : BinOp → ℚ → NumOp
  | .add, q => .addRat q
  | .sub, q => .subRat q
  | .mul, q => .mulRat q
  | .div, q => .divRat q

theorem numOp_real (o : BinOp) (q : ℚ) (x : ℝ) : (numOp o q).real x = o.real x q := by cases o <;> rfl

theorem bin_run_finite (cfg : Cfg) (fuel : Nat) (c : CF) {e : CF} (he : e.p = []) {q : ℚ}
    (h : e.toRational .big = .ok (.exact q)) (o : BinOp) : o.run cfg fuel c e = (numOp o q).run cfg fuel c := by
  have hr : e.isRational = true := by simp [isRational, he]
  cases o <;> simp only [BinOp.run, numOp, NumOp.run, CF.add, CF.sub, CF.mul, CF.div, opCF, hr, if_true, h, Approx.value]

theorem bin_run_periodic (cfg : Cfg) (fuel : Nat) (c : CF) {e : CF} (he : e.p ≠ []) (o : BinOp) :
    o.run cfg fuel c e = viaSurd cfg fuel c (fun s => do let t ← e.toSurd cfg; o.surd cfg s t) := by
  have hr : ¬ e.isRational = true := by simp [isRational, he]
  cases o <;> simp only [BinOp.run, CF.add, CF.sub, CF.mul, CF.div, opCF, if_neg hr] <;> rfl

theorem numOp_defined (o : BinOp) (q : ℚ) : (numOp o q).Defined ↔ (o = .div → q ≠ 0) := by
  cases o <;> simp [numOp, NumOp.Defined]

/-- C32 for two rational fractions. -/
theorem cf_bin_rational (cfg : Cfg) (fuel : Nat) (c e : CF) (hc : c.Wf) (he : e.Wf) (hcp : c.p = []) (hep : e.p = [])
    (x y : ℝ) (hx : c.HasVal x) (hy : e.HasVal y) (o : BinOp) :
    ((o = .div → y ≠ 0) → ∃ w, o.run cfg fuel c e = some (.ok w) ∧ w.Canonical ∧ w.HasVal (o.real x y)) ∧
    (o = .div ∧ y = 0 → o.run cfg fuel c e = some (.error .divZero)) := by
  obtain ⟨q, h1, rfl⟩ := finite_val he hep hy
  rw [bin_run_finite cfg fuel c hep h1]
  obtain ⟨h2, h3⟩ := cf_num_rational cfg fuel c hc hcp x hx (numOp o q)
  rw [numOp_real] at h2
  rw [numOp_defined] at h2 h3
  refine ⟨fun h => h2 (fun ho => by exact_mod_cast h ho), fun h => h3 (fun hh => hh h.1 (by exact_mod_cast h.2))⟩

example : CF.div ⟨false, true⟩ 0 ⟨[1, 2], [], true⟩ ⟨[0, 6], [], false⟩ = some (.ok ⟨[9], [], true⟩) := by decide +kernel

/-! ### C33: periodic fractions -/

theorem unwrap_sound (cfg : Cfg) (fuel : Nat) {s : Surd} (h : s.RealOk) {w : CF}
    (hw : s.toContfracUnwrap cfg fuel = some (.ok w)) : s.r ≠ 0 ∧ w.Wf ∧ w.p ≠ [] ∧ w.HasVal s.cfValue := by
  have hs : s.toContfrac cfg fuel = some (.ok (some w)) := by
    unfold Surd.toContfracUnwrap at hw
    generalize s.toContfrac cfg fuel = t at hw
    match t, hw with
    | some (.ok (some c)), hw => cases hw; rfl
  have hr : s.r ≠ 0 := fun hr => by
    obtain ⟨N, hN⟩ := Surd.surd_toContfrac_rational cfg s h hr
    rw [hN fuel] at hs
    split at hs <;> cases hs
  exact ⟨hr, Surd.surd_toContfrac_value cfg s h hr fuel w hs⟩

private theorem via_sound (cfg : Cfg) (fuel : Nat) {c : CF} (hc : c.Wf) {f : Surd → Res Surd} {w : CF}
    (hw : viaSurd cfg fuel c f = some (.ok w)) (hf : ∀ s t, s.RealOk → f s = .ok t → t.RealOk) :
    ∃ s t, c.toSurd cfg = .ok s ∧ s.RealOk ∧ c.HasVal s.val ∧ f s = .ok t ∧ t.RealOk ∧ t.r ≠ 0 ∧ w.Wf ∧ w.p ≠ [] ∧
      w.HasVal t.cfValue := by
  unfold viaSurd at hw
  match h1 : c.toSurd cfg with
  | .error e => rw [h1] at hw; cases hw
  | .ok s =>
    obtain ⟨h2, h3⟩ := cf_toSurd_value cfg c hc s h1
    rw [h1, Surd.ok_bind] at hw
    match h4 : f s with
    | .error e => rw [h4] at hw; cases hw
    | .ok t =>
      rw [h4] at hw
      exact ⟨s, t, rfl, h2, h3, h4, hf s t h2 h4, unwrap_sound cfg fuel (hf s t h2 h4) hw⟩

theorem bin_surd_val (cfg : Cfg) (o : BinOp) {s t u : Surd} (hs : s.RealOk) (ht : t.RealOk)
    (h : o.surd cfg s t = .ok u) : u.RealOk ∧ u.val = o.real s.val t.val := by
  cases o
  · exact surd_add_value_real cfg s t u hs ht h
  · exact surd_sub_value_real cfg s t u hs ht h
  · exact surd_mul_value_real cfg s t u hs ht h
  · exact (surd_div_value_real cfg s t u hs ht h).2

/-- The value of every fraction returned: that of the surd of the exact result, up to the two defects of the conversion
of surds. -/
theorem cf_num_periodic_value (cfg : Cfg) (fuel : Nat) (c : CF) (h : c.Wf) (hp : c.p ≠ []) (x : ℝ) (hx : c.HasVal x)
    (o : NumOp) (w : CF) (hw : o.run cfg fuel c = some (.ok w)) :
    w.Wf ∧ w.p ≠ [] ∧ ∃ s : Surd, s.RealOk ∧ s.r ≠ 0 ∧ s.val = o.real x ∧ w.HasVal s.cfValue := by
  rw [NumOp.run_eq, opNumber, if_neg (by simp [isRational, hp])] at hw
  have hd : ∀ s t : Surd, s.RealOk → o.surd cfg s = .ok t → t.RealOk ∧ t.val = o.real s.val := fun s t hs ht => by
    by_cases hd : o.Defined
    · obtain ⟨t', e, h1⟩ := (NumOp.surd_spec cfg o hs).1 hd
      rw [ht] at e; cases e; exact h1
    · rw [(NumOp.surd_spec cfg o hs).2 hd] at ht; cases ht
  obtain ⟨s, t, -, h1, h2, h3, h4, h5, h6, h7, h8⟩ := via_sound cfg fuel h hw (fun s t hs ht => (hd s t hs ht).1)
  refine ⟨h6, h7, t, h4, h5, ?_, h8⟩
  rw [(hd s t h1 h3).2, HasVal.unique hx h2]
example : Wf ⟨[1], [2], false⟩ ∧ (∃ x, HasVal ⟨[1], [2], false⟩ x) ∧
    CF.mulInt ⟨false, true⟩ 30 ⟨[1], [2], false⟩ 3 = some (.ok ⟨[4], [4, 8], false⟩) :=
  ⟨by simp [Wf], Wf.hasVal (by simp [Wf]), by decide +kernel⟩

theorem cf_bin_periodic_value (cfg : Cfg) (fuel : Nat) (c e : CF) (hc : c.Wf) (he : e.Wf) (hp : c.p ≠ [] ∨ e.p ≠ [])
    (x y : ℝ) (hx : c.HasVal x) (hy : e.HasVal y) (o : BinOp) (w : CF) (hw : o.run cfg fuel c e = some (.ok w)) :
    w.Wf ∧ w.p ≠ [] ∧ ∃ s : Surd, s.RealOk ∧ s.r ≠ 0 ∧ s.val = o.real x y ∧ w.HasVal s.cfValue := by
  by_cases hep : e.p = []
  · obtain ⟨q, h1, rfl⟩ := finite_val he hep hy
    rw [bin_run_finite cfg fuel c hep h1] at hw
    have := cf_num_periodic_value cfg fuel c hc (hp.resolve_right (fun h => h hep)) x hx _ w hw
    rwa [numOp_real] at this
  · rw [bin_run_periodic cfg fuel c hep] at hw
    have hd : ∀ s u : Surd, s.RealOk → (do let t ← e.toSurd cfg; o.surd cfg s t) = .ok u →
        u.RealOk ∧ u.val = o.real s.val y := fun s u hs hu => by
      match h1 : e.toSurd cfg with
      | .error p => rw [h1] at hu; cases hu
      | .ok t =>
        obtain ⟨h2, h3⟩ := cf_toSurd_value cfg e he t h1
        rw [h1, Surd.ok_bind] at hu
        rw [HasVal.unique hy h3]
        exact bin_surd_val cfg o hs h2 hu
    obtain ⟨s, t, -, h1, h2, h3, h4, h5, h6, h7, h8⟩ := via_sound cfg fuel hc hw (fun s t hs ht => (hd s t hs ht).1)
    refine ⟨h6, h7, t, h4, h5, ?_, h8⟩
    rw [(hd s t h1 h3).2, HasVal.unique hx h2]
example : Wf ⟨[0, 3], [], true⟩ ∧ Wf ⟨[1], [2], false⟩ ∧
    CF.add ⟨false, true⟩ 30 ⟨[0, 3], [], true⟩ ⟨[1], [2], false⟩ = 
      some (.ok ⟨[1], [12, 2, 1, 2, 1, 24, 1, 2, 1, 2], false⟩) :=
  ⟨by simp [Wf], by simp [Wf], by decide +kernel⟩

private theorem root_eq_sqrt {R : ℤ} (h : 0 ≤ R) : rootC R = ((√(R : ℝ) : ℝ) : ℂ) := rootC_of_nonneg h

/-- two ways of writing a quadratic irrational -/
private theorem coords_eq {s : Surd} (h : s.RealOk) (hr : s.r ≠ 0) {A B : ℚ} {R : ℤ} (hR : 0 ≤ R)
    (e : s.val = A + B * √(R : ℝ)) :
    (A : ℝ) = s.a / s.c ∧ (B : ℝ) * √(R : ℝ) = s.b / s.c * √(s.r : ℝ) := by
  have hc : (s.c : ℚ) ≠ 0 := by exact_mod_cast h.c_pos.ne'
  have hb : s.b ≠ 0 := fun e => hr (h.rational.1 e)
  have e1 : (A : ℂ) + B * rootC R = ((s.a / s.c : ℚ) : ℂ) + ((s.b / s.c : ℚ) : ℂ) * rootC s.r := by
    rw [root_eq_sqrt hR, root_eq_sqrt h.real]
    have : s.val = (s.a / s.c : ℚ) + (s.b / s.c : ℚ) * √(s.r : ℝ) := by
      unfold Surd.val quadR; push_cast; ring
    rw [e] at this
    exact_mod_cast congrArg ((↑) : ℝ → ℂ) this
  obtain ⟨h1, h2⟩ := two_root_eq (h.irrational hr) (div_ne_zero (by exact_mod_cast hb) hc) e1
  refine ⟨by rw [h1]; push_cast; rfl, ?_⟩
  rw [root_eq_sqrt hR, root_eq_sqrt h.real] at h2
  have : (B : ℝ) * √(R : ℝ) = (s.b / s.c : ℚ) * √(s.r : ℝ) := by exact_mod_cast h2
  rw [this]; push_cast; rfl

theorem irr_of_nonsquare {R : ℤ} (hs : ¬ IsSquare R) {A B : ℚ} (hB : B ≠ 0) (hR : 0 ≤ R) (q : ℚ) :
    (A : ℝ) + B * √(R : ℝ) ≠ q := by
  intro e
  have : ((A - q : ℚ) : ℂ) + B * rootC R = 0 := by
    rw [root_eq_sqrt hR]
    have h2 : ((A - q : ℚ) : ℝ) + B * √(R : ℝ) = 0 := by push_cast; linarith
    exact_mod_cast congrArg ((↑) : ℝ → ℂ) h2
  exact hB (root_lin_indep hs this).2

private theorem r_ne_zero {s : Surd} (h : s.RealOk) {A B : ℚ} {R : ℤ} (hR : 0 ≤ R) (hs : ¬ IsSquare R) (hB : B ≠ 0)
    (e : s.val = A + B * √(R : ℝ)) : s.r ≠ 0 := by
  intro hr
  apply irr_of_nonsquare hs (A := A) hB hR (s.a / s.c : ℚ)
  rw [← e]
  unfold Surd.val quadR
  rw [h.rational.2 hr]
  push_cast
  ring

theorem same_sign_surd {s : Surd} (h : s.RealOk) (hz : SameSign s.val) : 0 < (s.b : ℝ) * s.val := by
  obtain ⟨A, B, R, hR, hs, e, hB⟩ := hz
  have hB0 : B ≠ 0 := by rintro rfl; simp at hB
  have hr := r_ne_zero h hR hs hB0 e
  have h1 := (coords_eq h hr hR e).2
  have hc : (0 : ℝ) < s.c := by exact_mod_cast h.c_pos
  have hsr : 0 < √(s.r : ℝ) := Real.sqrt_pos.2 (by exact_mod_cast (lt_of_le_of_ne h.real (Ne.symm hr)))
  have hsR : 0 < √(R : ℝ) := Real.sqrt_pos.2 (by
    have : R ≠ 0 := fun h => hs ⟨0, by simpa using h⟩
    exact_mod_cast (lt_of_le_of_ne hR (Ne.symm this)))
  have h2 : (s.b : ℝ) * s.val * (√(s.r : ℝ) / s.c) = (B : ℝ) * s.val * √(R : ℝ) := by
    have : (s.b : ℝ) / s.c * √(s.r : ℝ) = s.b * (√(s.r : ℝ) / s.c) := by ring
    rw [this] at h1
    linear_combination -s.val * h1
  have h3 : 0 < (B : ℝ) * s.val * √(R : ℝ) := mul_pos hB hsR
  rw [← h2] at h3
  exact pos_of_mul_pos_left h3 (by positivity)

theorem opp_conj_surd {s : Surd} (h : s.RealOk) (hz : OppConj s.val) : s.r ≠ 0 ∧ s.a * s.a < s.r * s.b * s.b := by
  obtain ⟨A, B, R, hR, hs, e, hAB⟩ := hz
  have hB0 : B ≠ 0 := by rintro rfl; have := mul_self_nonneg A; simp at hAB; linarith
  have hr := r_ne_zero h hR hs hB0 e
  refine ⟨hr, ?_⟩
  obtain ⟨h1, h2⟩ := coords_eq h hr hR e
  have hc : (0 : ℝ) < s.c := by exact_mod_cast h.c_pos
  have e1 : √(s.r : ℝ) * √(s.r : ℝ) = s.r := Real.mul_self_sqrt (by exact_mod_cast h.real)
  have e2 : √(R : ℝ) * √(R : ℝ) = R := Real.mul_self_sqrt (by exact_mod_cast hR)
  have h3 : (A : ℝ) * A < (B * √(R : ℝ)) * (B * √(R : ℝ)) := by
    have : (A : ℝ) * A < B * B * R := by exact_mod_cast hAB
    have h4 : (B * √(R : ℝ)) * (B * √(R : ℝ)) = (B : ℝ) * B * R := by linear_combination (B : ℝ) * B * e2
    rw [h4]; exact this
  rw [h2, h1] at h3
  have h4 : (s.b / s.c * √(s.r : ℝ)) * (s.b / s.c * √(s.r : ℝ)) = s.r * s.b * s.b / (s.c * s.c) := by
    field_simp
    rw [Real.sq_sqrt (by exact_mod_cast h.real)]
  rw [h4, div_mul_div_comm, div_lt_div_iff_of_pos_right (by positivity)] at h3
  exact_mod_cast h3

/-- a result that is rational is never returned -/
theorem cf_num_rational_result (cfg : Cfg) (fuel : Nat) (c : CF) (h : c.Wf) (hp : c.p ≠ []) (x : ℝ) (hx : c.HasVal x)
    (o : NumOp) (q : ℚ) (hq : o.real x = q) (w : CF) : o.run cfg fuel c ≠ some (.ok w) := by
  intro hw
  obtain ⟨-, -, s, h1, h2, h3, -⟩ := cf_num_periodic_value cfg fuel c h hp x hx o w hw
  rw [hq] at h3
  refine irr_of_nonsquare (h1.irrational h2) (A := s.a / s.c) (B := s.b / s.c) ?_ h1.real q ?_
  · refine div_ne_zero ?_ (by exact_mod_cast h1.c_pos.ne')
    exact_mod_cast fun e => h2 (h1.rational.1 e)
  · rw [← h3]; unfold Surd.val quadR; push_cast; ring
example : Wf ⟨[1], [2], false⟩ ∧ NumOp.real (.mulInt 0) (√2) = (0 : ℚ) ∧
    CF.mulInt ⟨false, true⟩ 30 ⟨[1], [2], false⟩ 0 = some (.error .debugAssert) :=
  ⟨by simp [Wf], by simp [NumOp.real], by decide +kernel⟩

theorem cf_bin_rational_result (cfg : Cfg) (fuel : Nat) (c e : CF) (hc : c.Wf) (he : e.Wf) (hp : c.p ≠ [] ∨ e.p ≠ [])
    (x y : ℝ) (hx : c.HasVal x) (hy : e.HasVal y) (o : BinOp) (q : ℚ) (hq : o.real x y = q) (w : CF) :
    o.run cfg fuel c e ≠ some (.ok w) := by
  intro hw
  obtain ⟨-, -, s, h1, h2, h3, -⟩ := cf_bin_periodic_value cfg fuel c e hc he hp x y hx hy o w hw
  rw [hq] at h3
  refine irr_of_nonsquare (h1.irrational h2) (A := s.a / s.c) (B := s.b / s.c) ?_ h1.real q ?_
  · refine div_ne_zero ?_ (by exact_mod_cast h1.c_pos.ne')
    exact_mod_cast fun e => h2 (h1.rational.1 e)
  · rw [← h3]; unfold Surd.val quadR; push_cast; ring
example : Wf ⟨[1], [2], false⟩ ∧ BinOp.real .sub (√2) (√2) = (0 : ℚ) ∧
    CF.sub ⟨false, true⟩ 30 ⟨[1], [2], false⟩ ⟨[1], [2], false⟩ = some (.error .debugAssert) :=
  ⟨by simp [Wf], by simp [BinOp.real], by decide +kernel⟩

private theorem cfValue_same_sign {s : Surd} (h : s.RealOk) (hz : SameSign s.val) : s.cfValue = s.val := by
  have hs := same_sign_surd h hz
  unfold Surd.cfValue
  rw [if_neg (fun hh => by have := hh.2; linarith), if_neg (fun hh => ?_)]
  have h1 : (0 : ℝ) < s.b := by exact_mod_cast hh.2.1
  have := mul_neg_of_pos_of_neg h1 hh.1
  linarith

/-- C33, value, restricted: the fraction returned denotes the exact result `A + B√R` if `B√R` has the sign of the
result.  (Missing: the other irrational results, for which it can fail, see `cf_arith_refuted`.) -/
theorem cf_num_periodic_value_partial (cfg : Cfg) (fuel : Nat) (c : CF) (h : c.Wf) (hp : c.p ≠ []) (x : ℝ)
    (hx : c.HasVal x) (o : NumOp) (hz : SameSign (o.real x)) (w : CF) (hw : o.run cfg fuel c = some (.ok w)) :
    w.Wf ∧ w.HasVal (o.real x) := by
  obtain ⟨h0, -, s, h1, -, h3, h4⟩ := cf_num_periodic_value cfg fuel c h hp x hx o w hw
  rw [← h3] at hz
  rw [cfValue_same_sign h1 hz, h3] at h4
  exact ⟨h0, h4⟩

theorem cf_bin_periodic_value_partial (cfg : Cfg) (fuel : Nat) (c e : CF) (hc : c.Wf) (he : e.Wf)
    (hp : c.p ≠ [] ∨ e.p ≠ []) (x y : ℝ) (hx : c.HasVal x) (hy : e.HasVal y) (o : BinOp) (hz : SameSign (o.real x y))
    (w : CF) (hw : o.run cfg fuel c e = some (.ok w)) : w.Wf ∧ w.HasVal (o.real x y) := by
  obtain ⟨h0, -, s, h1, -, h3, h4⟩ := cf_bin_periodic_value cfg fuel c e hc he hp x y hx hy o w hw
  rw [← h3] at hz
  rw [cfValue_same_sign h1 hz, h3] at h4
  exact ⟨h0, h4⟩

private theorem via_returns (cfg : Cfg) {c : CF} {f : Surd → Res Surd} {s t : Surd} (h1 : c.toSurd cfg = .ok s)
    (h2 : f s = .ok t) (ht : t.RealOk) (hz : OppConj t.val) :
    ∃ N w, (∀ fuel, N ≤ fuel → viaSurd cfg fuel c f = some (.ok w)) ∧ w.Wf ∧ w.HasVal t.val := by
  obtain ⟨N, w, h3, h4, -, -, h5⟩ := Surd.surd_toContfrac_returns_partial cfg t ht (opp_conj_surd ht hz).2
  refine ⟨N, w, fun fuel hf => ?_, h4, h5⟩
  unfold viaSurd
  rw [h1, Surd.ok_bind, h2]
  simp only
  unfold Surd.toContfracUnwrap
  rw [h3 fuel hf]

/-- C33, return, restricted: results whose conjugate has the opposite sign are returned, if the fraction has a surd. -/
theorem cf_num_periodic_returns_partial (cfg : Cfg) (c : CF) (h : c.Wf) (hp : c.p ≠ []) (x : ℝ) (hx : c.HasVal x)
    (hs : c.a.length ≤ 2) (o : NumOp) (ho : o.Defined) (hz : OppConj (o.real x)) :
    ∃ N w, (∀ fuel, N ≤ fuel → o.run cfg fuel c = some (.ok w)) ∧ w.Wf ∧ w.HasVal (o.real x) := by
  obtain ⟨s, h1, h2, h3⟩ := cf_toSurd_partial cfg c h (.inr (.inl hs))
  obtain ⟨t, h4, h5, h6⟩ := (NumOp.surd_spec cfg o h2).1 ho
  rw [HasVal.unique hx h3] at hz ⊢
  rw [← h6] at hz ⊢
  obtain ⟨N, w, h7⟩ := via_returns cfg h1 h4 h5 hz
  refine ⟨N, w, ?_, h7.2⟩
  intro fuel hf
  rw [NumOp.run_eq, opNumber, if_neg (by simp [isRational, hp])]
  exact h7.1 fuel hf

/-- The same for two fractions, if both have a surd and the operation on the surds returns. -/
theorem cf_bin_periodic_returns_partial (cfg : Cfg) (c e : CF) (hc : c.Wf) (he : e.Wf) (hp : e.p ≠ []) (x y : ℝ)
    (hx : c.HasVal x) (hy : e.HasVal y) (o : BinOp) (s t u : Surd) (hs : c.toSurd cfg = .ok s)
    (ht : e.toSurd cfg = .ok t) (hu : o.surd cfg s t = .ok u) (hz : OppConj (o.real x y)) :
    ∃ N w, (∀ fuel, N ≤ fuel → o.run cfg fuel c e = some (.ok w)) ∧ w.Wf ∧ w.HasVal (o.real x y) := by
  obtain ⟨h1, h2⟩ := cf_toSurd_value cfg c hc s hs
  obtain ⟨h3, h4⟩ := cf_toSurd_value cfg e he t ht
  obtain ⟨h5, h6⟩ := bin_surd_val cfg o h1 h3 hu
  rw [HasVal.unique hx h2, HasVal.unique hy h4] at hz ⊢
  rw [← h6] at hz ⊢
  obtain ⟨N, w, h7⟩ := via_returns cfg (f := fun s => do let t ← e.toSurd cfg; o.surd cfg s t) hs
    (by simp only [ht, Surd.ok_bind, hu]) h5 hz
  refine ⟨N, w, ?_, h7.2⟩
  intro fuel hf
  rw [bin_run_periodic cfg fuel c hp]
  exact h7.1 fuel hf

/-- `(1 + √2)/3 + √2 = 1/3 + (4/3)√2` -/
example : OppConj (1 / 3 + 4 / 3 * √2) ∧ CF.add ⟨false, true⟩ 30 ⟨[0, 1], [4, 8], false⟩ ⟨[1], [2], false⟩ =
    some (.ok ⟨[2], [4, 1, 1, 3], false⟩) := by
  refine ⟨⟨1 / 3, 4 / 3, 2, by norm_num, by decide +kernel, by push_cast; ring, by norm_num⟩, by decide +kernel⟩

/-- C33 is false: `√2 - √2` panics; `√7 - 3` is returned as `3 - √7`; `3 - √2`, as a sum of a fraction and a rational,
never returns. -/
theorem cf_arith_refuted (cfg : Cfg) :
    (HasVal ⟨[1], [2], false⟩ √2 ∧ ∃ p, CF.sub cfg 10 ⟨[1], [2], false⟩ ⟨[1], [2], false⟩ = some (.error p)) ∧
    (HasVal ⟨[2], [1, 1, 1, 4], false⟩ √7 ∧ ∃ w, CF.subRat cfg 10 ⟨[2], [1, 1, 1, 4], false⟩ 3 = some (.ok w) ∧
      w.HasVal (3 - √7) ∧ ¬ w.HasVal (√7 - 3)) ∧
    (HasVal ⟨[1], [2], true⟩ (-√2) ∧ ∀ fuel, CF.addRat cfg fuel ⟨[1], [2], true⟩ 3 = none) := by
  refine ⟨⟨?_, ?_⟩, ⟨?_, ?_⟩, ?_, ?_⟩
  · have := (cf_toSurd_value cfg ⟨[1], [2], false⟩ ⟨by decide, by decide, by decide⟩ ⟨0, 1, 1, 2⟩ (by
      obtain ⟨c, d⟩ := cfg; cases c <;> cases d <;> decide +kernel)).2
    simpa [Surd.val, quadR] using this
  · refine ⟨if cfg.debug then .debugAssert else .divZero, ?_⟩
    obtain ⟨c, d⟩ := cfg; cases c <;> cases d <;> decide +kernel
  · have := (cf_toSurd_value cfg ⟨[2], [1, 1, 1, 4], false⟩ ⟨by decide, by decide, by decide⟩ ⟨0, 1, 1, 7⟩ (by
      obtain ⟨c, d⟩ := cfg; cases c <;> cases d <;> decide +kernel)).2
    simpa [Surd.val, quadR] using this
  · obtain ⟨-, w, h1, h2, h3⟩ := (Surd.surd_toContfrac_refuted cfg).2
    have e : Surd.toContfrac cfg 10 ⟨-3, 1, 1, 7⟩ = some (.ok (some ⟨[0, 2, 1], [4, 1, 1, 1], false⟩)) := by
      obtain ⟨c, d⟩ := cfg; cases c <;> cases d <;> decide +kernel
    rw [h1] at e
    cases e
    refine ⟨⟨[0, 2, 1], [4, 1, 1, 1], false⟩, ?_, ?_, ?_⟩
    · obtain ⟨c, d⟩ := cfg; cases c <;> cases d <;> decide +kernel
    · convert h2 using 1; simp [Surd.val, quadR]; ring
    · convert h3 using 1; simp [Surd.val, quadR]; ring_nf
  · have := (cf_toSurd_value cfg ⟨[1], [2], true⟩ ⟨by decide, by decide, by decide⟩ ⟨0, -1, 1, 2⟩ (by
      obtain ⟨c, d⟩ := cfg; cases c <;> cases d <;> decide +kernel)).2
    simpa [Surd.val, quadR] using this
  · intro fuel
    have h1 : CF.toSurd cfg ⟨[1], [2], true⟩ = .ok ⟨0, -1, 1, 2⟩ := by
      obtain ⟨c, d⟩ := cfg; cases c <;> cases d <;> decide +kernel
    have h2 : Surd.addRat cfg ⟨0, -1, 1, 2⟩ 3 = .ok ⟨3, -1, 1, 2⟩ := by
      obtain ⟨c, d⟩ := cfg; cases c <;> cases d <;> decide +kernel
    unfold CF.addRat opNumber viaSurd
    rw [if_neg (by decide), h1, Surd.ok_bind]
    simp only [h2]
    unfold Surd.toContfracUnwrap
    rw [(Surd.surd_toContfrac_returns_refuted cfg).2 fuel]

end CF
end NumIrr
