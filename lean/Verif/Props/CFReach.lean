/-
C108: the continued fractions a program can build.
-/
import Verif.Spec.CFReach
import Verif.Lemmas.CFAny
import Verif.Lemmas.CFVia
import Verif.Props.CFShift
import Verif.Props.CFRebuild

namespace NumIrr
namespace CF

/-! ### Shape -/

private theorem Canonical.tame {c : CF} (h : c.Canonical) : c.Tame := ⟨fun _ => .inr h, fun hp => absurd h.1 hp⟩

private theorem Wf.tame {c : CF} (h : c.Wf) (hp : c.p ≠ []) : c.Tame :=
  ⟨fun h => absurd h hp, fun _ => ⟨h.2.2, fun v hv => h.2.1 v (List.mem_of_mem_dropLast hv)⟩⟩

private theorem new_tame {debug : Bool} {a p : List Int} {n : Bool} {c : CF} (hp : ∀ v ∈ p, 1 ≤ v)
    (h : new debug a p n = .ok c) : c.Tame := by
  by_cases h0 : p = []
  · subst h0
    obtain ⟨s, h1, -, rfl⟩ := new_fin_inv debug a n c h
    exact ⟨fun _ => finRes_canonical s (newLoop_nil_stack debug a n s h1), fun hp => absurd rfl hp⟩
  · obtain ⟨h1, h2⟩ := new_per_shape debug a p n c h0 h
    have hcp : c.p ≠ [] := by intro e; rw [e] at h1; exact h0 h1.symm
    refine ⟨fun e => absurd e hcp, fun _ => ⟨fun v hv => ?_, h2⟩⟩
    have : (v : Int) ∈ p := by rw [← h1]; exact List.mem_map.2 ⟨v, hv, rfl⟩
    exact_mod_cast hp _ this

private theorem surd_tame {cfg : Cfg} {s : Surd} {fuel : Nat} {c : CF} (hs : s.RealOk)
    (h : s.toContfrac cfg fuel = some (.ok (some c))) : c.Wf ∧ c.p ≠ [] := by
  have := unwrap_sound cfg fuel hs (w := c) (by unfold Surd.toContfracUnwrap; rw [h])
  exact ⟨this.2.1, this.2.2.1⟩

private theorem neg_tame {c : CF} (h : c.Tame) : c.neg'.Tame := by
  unfold neg'
  split
  · exact h
  · rename_i hz
    refine ⟨fun hp => ?_, h.2⟩
    rcases h.1 hp with h1 | h1
    · exact .inl h1
    · refine .inr ⟨h1.1, h1.2.1, h1.2.2.1, h1.2.2.2.1, fun h0 => ?_⟩
      have hp : c.p = [] := hp
      have h0 : c.a = [0] := h0
      exact absurd (by simp [isZero, h0, hp]) hz

/-- the two ways `addInt` can go -/
private theorem addInt_cases {debug : Bool} {c c' : CF} {k : Int} (h : c.addInt debug k = .ok c') :
    ∃ i rest, c.a = i :: rest ∧ ((((i : Int) + signed c.neg k < 0) ∧
        ∃ j : Int, new debug (j :: toInts rest) (toInts c.p) c.neg = .ok c') ∨
      (0 ≤ (i : Int) + signed c.neg k ∧ ∃ j b, c' = ⟨j :: rest, c.p, b⟩ ∧ (c'.isZero = true → b = false))) := by
  obtain ⟨a, p, n⟩ := c
  match a, h with
  | [], h => cases h
  | i :: rest, h =>
    refine ⟨i, rest, rfl, ?_⟩
    unfold addInt at h
    simp only at h ⊢
    have key : ∀ j : Nat, (Except.ok (if isZero ⟨j :: rest, p, n⟩ = true then (⟨j :: rest, p, false⟩ : CF) else ⟨j :: rest, p, n⟩) : Res CF)
        = .ok c' → ∃ j b, c' = ⟨j :: rest, p, b⟩ ∧ (c'.isZero = true → b = false) := by
      intro j h
      cases h
      split
      · exact ⟨j, false, rfl, fun _ => rfl⟩
      · rename_i hz
        exact ⟨j, n, rfl, fun h => absurd h hz⟩
    cases n with
    | false =>
      simp only [signed, Bool.false_eq_true, if_false]
      by_cases hk : k < 0
      · have hk' : decide (k < 0) = true := by simpa using hk
        simp only [hk'] at h
        by_cases hi : i < k.natAbs
        · rw [if_pos hi] at h
          simp only [if_true] at h
          exact .inl ⟨by omega, _, h⟩
        · rw [if_neg hi] at h
          exact .inr ⟨by omega, key _ h⟩
      · have hk' : decide (k < 0) = false := by simpa using hk
        simp only [hk'] at h
        exact .inr ⟨by omega, key _ h⟩
    | true =>
      simp only [signed, if_true]
      by_cases hk : k < 0
      · have hk' : decide (k < 0) = true := by simpa using hk
        simp only [hk'] at h
        exact .inr ⟨by omega, key _ h⟩
      · have hk' : decide (k < 0) = false := by simpa using hk
        simp only [hk'] at h
        by_cases hi : i < k.natAbs
        · rw [if_pos hi] at h
          simp only [if_true] at h
          exact .inl ⟨by omega, _, h⟩
        · rw [if_neg hi] at h
          exact .inr ⟨by omega, key _ h⟩

private theorem toInts_pos {p : List Nat} (h : ∀ v ∈ p, 1 ≤ v) : ∀ v ∈ toInts p, 1 ≤ v := by
  intro v hv
  obtain ⟨u, hu, rfl⟩ := List.mem_map.1 hv
  exact_mod_cast h u hu

private theorem head_canonical {i j : Nat} {rest p : List Nat} {n b : Bool} (h : Canonical ⟨i :: rest, p, n⟩)
    (h0 : isZero ⟨j :: rest, p, b⟩ = true → b = false) : Canonical ⟨j :: rest, p, b⟩ := by
  obtain ⟨h1, h2, h3, h4, h5⟩ := h
  have h1 : p = [] := h1
  refine ⟨h1, by simp, h3, ?_, fun e => h0 (by simp only [isZero, h1]; simpa using e)⟩
  intro hr
  simp only [List.tail_cons] at hr h4
  have := h4 hr
  match rest, hr, this with
  | r :: rs, _, this => simpa using this

private theorem Tame.period {c : CF} (h : c.Tame) : ∀ v ∈ c.p, 1 ≤ v := by
  by_cases hp : c.p = []
  · rw [hp]; simp
  · exact (h.2 hp).1

private theorem addInt_tame {debug : Bool} {c c' : CF} {k : Int} (hc : c.Tame) (h : c.addInt debug k = .ok c') :
    c'.Tame := by
  obtain ⟨i, rest, e, ⟨-, j, h1⟩ | ⟨-, j, b, rfl, h1⟩⟩ := addInt_cases h
  · exact new_tame (toInts_pos hc.period) h1
  · obtain ⟨a, p, n⟩ := c
    have e : a = i :: rest := e
    subst e
    refine ⟨fun hp => .inr ?_, hc.2⟩
    rcases hc.1 hp with h2 | h2
    · cases h2
    · exact head_canonical h2 h1

private theorem empty_toRational {c : CF} (hp : c.p = []) (ha : c.a = []) : c.toRational .big = .error .unwrapNone := by
  obtain ⟨a, p, n⟩ := c
  subst hp ha
  rfl

private theorem empty_toSurd (cfg : Cfg) {c : CF} (hp : ∀ v ∈ c.p, 1 ≤ v) (ha : c.a = []) :
    c.toSurd cfg = .error .unwrapNone := by
  obtain ⟨a, p, n⟩ := c
  have ha : a = [] := ha
  subst ha
  by_cases h : p = []
  · subst h; rfl
  · exact cf_toSurd_no_head cfg p h hp n

/-- the conversion of everything that can be built -/
private theorem toSurd_tame (cfg : Cfg) {c : CF} (hc : c.Tame) (ha : c.a ≠ []) :
    (∃ s, c.toSurd cfg = .ok s ∧ s.RealOk ∧ c.HasVal s.val) ∨
    (c.p ≠ [] ∧ c.toSurd cfg = .error .incompatible) := by
  by_cases hp : c.p = []
  · rcases hc.1 hp with h | h
    · exact absurd h ha
    · exact .inl (cf_toSurd_partial cfg c h.wf (.inl hp))
  · rcases toSurd_any cfg c ha hp hc.period with h | h
    · exact .inl h
    · exact .inr ⟨hp, h⟩

private theorem toSurd_tame_ok (cfg : Cfg) {c : CF} (hc : c.Tame) {s : Surd} (h : c.toSurd cfg = .ok s) :
    s.RealOk ∧ c.HasVal s.val := by
  by_cases ha : c.a = []
  · rw [empty_toSurd cfg hc.period ha] at h; cases h
  · rcases toSurd_tame cfg hc ha with ⟨s', h1, h2⟩ | ⟨-, h1⟩
    · rw [h] at h1; cases h1; exact h2
    · rw [h] at h1; cases h1

private theorem via_tame (cfg : Cfg) (fuel : Nat) {c : CF} (hc : c.Tame) {f : Surd → Res Surd} {w : CF}
    (hw : viaSurd cfg fuel c f = some (.ok w)) (hf : ∀ s t, s.RealOk → f s = .ok t → t.RealOk) : w.Wf ∧ w.p ≠ [] := by
  unfold viaSurd at hw
  match h1 : c.toSurd cfg with
  | .error e => rw [h1] at hw; cases hw
  | .ok s =>
    obtain ⟨h2, h3⟩ := toSurd_tame_ok cfg hc h1
    rw [h1, Surd.ok_bind] at hw
    match h4 : f s with
    | .error e => rw [h4] at hw; cases hw
    | .ok t =>
      rw [h4] at hw
      have := unwrap_sound cfg fuel (hf s t h2 h4) hw
      exact ⟨this.2.1, this.2.2.1⟩

private theorem num_real (cfg : Cfg) (o : NumOp) {s t : Surd} (hs : s.RealOk) (h : o.surd cfg s = .ok t) : t.RealOk := by
  by_cases hd : o.Defined
  · obtain ⟨t', e, h1, -⟩ := (NumOp.surd_spec cfg o hs).1 hd
    rw [h] at e; cases e; exact h1
  · rw [(NumOp.surd_spec cfg o hs).2 hd] at h; cases h

private theorem num_shape {cfg : Cfg} {fuel : Nat} {c c' : CF} {o : NumOp} (hc : c.Tame)
    (h : o.run cfg fuel c = some (.ok c')) : c'.Wf ∧ (c'.p = [] → c'.Canonical) := by
  by_cases hp : c.p = []
  · rcases hc.1 hp with ha | hcan
    · rw [NumOp.run_eq, opNumber, if_pos (by simp [isRational, hp]), empty_toRational hp ha] at h
      cases h
    · obtain ⟨q, -, -, hx⟩ := cf_toRational_finite c hcan.wf hp
      obtain ⟨h1, h2⟩ := cf_num_rational cfg fuel c hcan.wf hp q hx o
      by_cases hd : o.Defined
      · obtain ⟨e, h3, h4, -⟩ := h1 hd
        rw [h] at h3; cases h3; exact ⟨h4.wf, fun _ => h4⟩
      · rw [h2 hd] at h; cases h
  · rw [NumOp.run_eq, opNumber, if_neg (by simp [isRational, hp])] at h
    obtain ⟨h1, h2⟩ := via_tame cfg fuel hc h (fun s t hs ht => num_real cfg o hs ht)
    exact ⟨h1, fun e => absurd e h2⟩

private theorem bin_shape {cfg : Cfg} {fuel : Nat} {c e c' : CF} {o : BinOp} (hc : c.Tame) (he : e.Tame)
    (h : o.run cfg fuel c e = some (.ok c')) : c'.Wf ∧ (c'.p = [] → c'.Canonical) := by
  by_cases hp : e.p = []
  · rcases he.1 hp with ha | hcan
    · have hr : e.isRational = true := by simp [isRational, hp]
      have h0 := empty_toRational hp ha
      cases o <;> simp only [BinOp.run, CF.add, CF.sub, CF.mul, CF.div, opCF, hr, if_true, h0] at h <;> cases h
    · obtain ⟨q, h1, -⟩ := cf_toRational_finite e hcan.wf hp
      rw [bin_run_finite cfg fuel c hp h1] at h
      exact num_shape hc h
  · rw [bin_run_periodic cfg fuel c hp] at h
    obtain ⟨h1, h2⟩ := via_tame cfg fuel hc h (fun s u hs hu => by
      match h1 : e.toSurd cfg with
      | .error p => rw [h1] at hu; cases hu
      | .ok t =>
        rw [h1, Surd.ok_bind] at hu
        exact (bin_surd_val cfg o hs (toSurd_tame_ok cfg he h1).1 hu).1)
    exact ⟨h1, fun e => absurd e h2⟩

private theorem std_tame {c : CF} (h : c.Wf ∧ (c.p = [] → c.Canonical)) : c.Tame := by
  by_cases hp : c.p = []
  · exact (h.2 hp).tame
  · exact h.1.tame hp

/-- **C108** (shape) Every fraction a program can build is finite and empty or canonical, or periodic with a positive
period and positive aperiodic coefficients except possibly the first and the last. -/
theorem cf_reach_tame (cfg : Cfg) (c : CF) (h : Reach cfg c) : c.Tame := by
  induction h with
  | zero => exact (cf_ofInt 0).1.tame
  | one => exact (cf_ofInt 1).1.tame
  | ofInt t => exact (cf_ofInt t).1.tame
  | ofRat r => exact (cf_ofRat r).1.tame
  | new hp h => exact new_tame hp h
  | fromIter h => exact new_tame (by simp) h
  | ofSurd hs h => exact (surd_tame hs h).1.tame (surd_tame hs h).2
  | neg _ ih => exact neg_tame ih
  | addInt _ h ih => exact addInt_tame ih h
  | subInt _ h ih => exact addInt_tame ih h
  | num _ h ih => exact std_tame (num_shape ih h)
  | bin _ _ h ih1 ih2 => exact std_tame (bin_shape ih1 ih2 h)

/-- `[1; 0, (2)]` is built by `new`, and `[0; 1, (2)] - 2` by a subtraction. -/
example : Reach ⟨false, true⟩ ⟨[1, 1, 0], [2], true⟩ ∧ Reach ⟨false, true⟩ ⟨[], [2], false⟩ :=
  ⟨.subInt (c := ⟨[0, 1], [2], false⟩) (k := 2) (.new (a := [0, 1]) (p := [2]) (n := false) (by simp) (by decide +kernel))
    (by decide +kernel), .new (a := []) (p := [2]) (n := false) (by simp) (by decide +kernel)⟩

/-- **C108** (value) Whatever is built has exactly one value unless it is empty, and this is irrational exactly if there
is a period. -/
theorem cf_reach_value (cfg : Cfg) (c : CF) (h : Reach cfg c) (he : c.a ≠ [] ∨ c.p ≠ []) :
    ∃ x, c.HasVal x ∧ (∀ y, c.HasVal y → y = x) ∧ (Irrational x ↔ c.p ≠ []) := by
  have ht := cf_reach_tame cfg c h
  by_cases hp : c.p = []
  · have hcan := (ht.1 hp).resolve_left (he.resolve_right (fun h => h hp))
    obtain ⟨q, -, -, hx⟩ := cf_toRational_finite c hcan.wf hp
    refine ⟨q, hx, fun y hy => HasVal.unique hy hx, ?_⟩
    simp [hp]
  · obtain ⟨x, hx, hi⟩ := valOf_exists (toInts c.a) (toInts c.p) (toInts_ne_nil hp) (toInts_pos ht.period)
    refine ⟨signed c.neg x, ⟨x, hx, rfl⟩, fun y hy => HasVal.unique hy ⟨x, hx, rfl⟩, ?_⟩
    simp only [ne_eq, hp, not_false_eq_true, iff_true]
    cases c.neg
    · exact hi
    · exact hi.neg

/-- **C108** (equality) Two finite fractions built by a program are the same exactly if they have the same value. -/
theorem cf_reach_finite_eq (cfg : Cfg) (c c' : CF) (h : Reach cfg c) (h' : Reach cfg c') (hp : c.p = []) (hp' : c'.p = [])
    (ha : c.a ≠ []) (ha' : c'.a ≠ []) : c = c' ↔ ∃ x, c.HasVal x ∧ c'.HasVal x := by
  have h1 := ((cf_reach_tame cfg c h).1 hp).resolve_left ha
  have h2 := ((cf_reach_tame cfg c' h').1 hp').resolve_left ha'
  obtain ⟨q, -, e1, hx⟩ := cf_toRational_finite c h1.wf hp
  obtain ⟨q', -, e2, hx'⟩ := cf_toRational_finite c' h2.wf hp'
  constructor
  · rintro rfl; exact ⟨_, hx, hx⟩
  · rintro ⟨x, k1, k2⟩
    refine canonical_unique c c' h1 h2 ?_
    rw [e1, e2]
    have := (HasVal.unique hx k1).trans (HasVal.unique k2 hx')
    exact congrArg some (by exact_mod_cast this)

example : Reach ⟨false, true⟩ ⟨[2, 1, 6], [], false⟩ ∧ CF.fromIter true [3, -7] = .ok ⟨[2, 1, 6], [], false⟩ ∧
    CF.ofRat (20 / 7) = ⟨[2, 1, 6], [], false⟩ :=
  ⟨.fromIter (l := [3, -7]) (by decide +kernel), by decide +kernel, by decide +kernel⟩

/-! ### Panics -/

/-- **C108** (conversion) The surd of whatever is built has its value; otherwise the roots of two intermediate surds are
found incompatible, or there is no first coefficient. -/
theorem cf_reach_toSurd (cfg : Cfg) (c : CF) (h : Reach cfg c) :
    (∃ s, c.toSurd cfg = .ok s ∧ s.RealOk ∧ c.HasVal s.val ∧ c.a ≠ []) ∨
    (c.toSurd cfg = .error .incompatible ∧ c.p ≠ [] ∧ c.a ≠ []) ∨ (c.toSurd cfg = .error .unwrapNone ∧ c.a = []) := by
  have ht := cf_reach_tame cfg c h
  by_cases ha : c.a = []
  · exact .inr (.inr ⟨empty_toSurd cfg ht.period ha, ha⟩)
  · rcases toSurd_tame cfg ht ha with ⟨s, h1, h2, h3⟩ | ⟨h1, h2⟩
    · exact .inl ⟨s, h1, h2, h3, ha⟩
    · exact .inr (.inl ⟨h2, h1, ha⟩)

example : toSurd ⟨false, true⟩ ⟨[1, 1, 0], [2], true⟩ = .ok ⟨-4, 1, 2, 2⟩ := by decide +kernel

private theorem unwrap_panics (cfg : Cfg) {s : Surd} (h : s.RealOk) :
    (∃ fuel e, s.toContfracUnwrap cfg fuel = some (.error e)) ↔ ∃ q : ℚ, s.val = q := by
  have hiff : s.r = 0 ↔ ∃ q : ℚ, s.val = q := by
    constructor
    · intro hr
      refine ⟨s.a / s.c, ?_⟩
      unfold Surd.val quadR
      rw [h.rational.2 hr]
      push_cast
      simp
    · rintro ⟨q, hq⟩
      by_contra hr
      have hb : s.b ≠ 0 := fun e => hr (h.rational.1 e)
      refine irr_of_nonsquare (h.irrational hr) (A := s.a / s.c) (B := s.b / s.c) ?_ h.real q ?_
      · exact div_ne_zero (by exact_mod_cast hb) (by exact_mod_cast h.c_pos.ne')
      · rw [← hq]; unfold Surd.val quadR; push_cast; ring
  rw [← hiff]
  constructor
  · rintro ⟨fuel, e, he⟩
    by_contra hr
    unfold Surd.toContfracUnwrap at he
    match ht : s.toContfrac cfg fuel with
    | none => rw [ht] at he; cases he
    | some (.error e') => exact (Surd.surd_toContfrac_returns_iff cfg s h hr).2.2 fuel e' ht
    | some (.ok (some c)) => rw [ht] at he; cases he
    | some (.ok none) =>
      unfold Surd.toContfrac at ht
      rw [if_neg (by have := h.real; omega)] at ht
      match hn : s.isNegative cfg with
      | .error e => rw [hn] at ht; cases ht
      | .ok true =>
        rw [hn] at ht
        simp only at ht
        match hq : quadsurdToContfrac cfg fuel (-s.a) (-s.b) s.c s.r true with
        | none => rw [hq] at ht; cases ht
        | some (.error e) => rw [hq] at ht; cases ht
        | some (.ok c) => rw [hq] at ht; cases ht
      | .ok false =>
        rw [hn] at ht
        simp only at ht
        match hq : quadsurdToContfrac cfg fuel s.a s.b s.c s.r false with
        | none => rw [hq] at ht; cases ht
        | some (.error e) => rw [hq] at ht; cases ht
        | some (.ok c) => rw [hq] at ht; cases ht
  · intro hr
    obtain ⟨N, hN⟩ := Surd.surd_toContfrac_rational cfg s h hr
    refine ⟨N, if cfg.debug then .debugAssert else .divZero, ?_⟩
    unfold Surd.toContfracUnwrap
    rw [hN N, if_pos le_rfl]

/-- **C108** (panics) An operation with a number panics exactly on a division by zero, and for a periodic fraction if its
conversion finds incompatible roots, or if the result is rational. -/
theorem cf_reach_num_panics (cfg : Cfg) (c : CF) (h : Reach cfg c) (ha : c.a ≠ []) (x : ℝ) (hx : c.HasVal x) (o : NumOp) :
    (∃ fuel e, o.run cfg fuel c = some (.error e)) ↔
      ¬ o.Defined ∨ (c.p ≠ [] ∧ (c.toSurd cfg = .error .incompatible ∨ ∃ q : ℚ, o.real x = q)) := by
  have ht := cf_reach_tame cfg c h
  by_cases hp : c.p = []
  · have hcan := (ht.1 hp).resolve_left ha
    simp only [hp, ne_eq, not_true_eq_false, false_and, or_false]
    constructor
    · rintro ⟨fuel, e, he⟩ hd
      obtain ⟨w, h1, -⟩ := (cf_num_rational cfg fuel c hcan.wf hp x hx o).1 hd
      rw [h1] at he; cases he
    · intro hd
      exact ⟨0, _, (cf_num_rational cfg 0 c hcan.wf hp x hx o).2 hd⟩
  · have hrun : ∀ fuel, o.run cfg fuel c = viaSurd cfg fuel c (o.surd cfg) := fun fuel => by
      rw [NumOp.run_eq, opNumber, if_neg (by simp [isRational, hp])]
    simp only [hrun, ne_eq, hp, not_false_eq_true, true_and]
    rcases toSurd_tame cfg ht ha with ⟨s, h1, h2, h3⟩ | ⟨-, h1⟩
    · have hs : ¬ c.toSurd cfg = .error .incompatible := by rw [h1]; intro e; cases e
      simp only [hs, false_or]
      by_cases hd : o.Defined
      · obtain ⟨t, h4, h5, h6⟩ := (NumOp.surd_spec cfg o h2).1 hd
        have hv : ∀ fuel, viaSurd cfg fuel c (o.surd cfg) = t.toContfracUnwrap cfg fuel := fun fuel => by
          unfold viaSurd; rw [h1, Surd.ok_bind, h4]
        simp only [hv, hd, not_true_eq_false, false_or]
        rw [unwrap_panics cfg h5, h6, HasVal.unique hx h3]
      · simp only [hd, not_false_eq_true, true_or, iff_true]
        refine ⟨0, .denomZero, ?_⟩
        unfold viaSurd; rw [h1, Surd.ok_bind, (NumOp.surd_spec cfg o h2).2 hd]
    · simp only [h1, true_or, or_true, iff_true]
      refine ⟨0, .incompatible, ?_⟩
      unfold viaSurd; rw [h1]; rfl

example : CF.mulInt ⟨false, true⟩ 30 ⟨[1, 1, 0], [2], true⟩ 0 = some (.error .debugAssert) ∧
    CF.mulInt ⟨false, true⟩ 30 ⟨[1, 1, 0], [2], true⟩ 1 ≠ some (.error .debugAssert) := by decide +kernel

private theorem bin_via_tame (cfg : Cfg) (fuel : Nat) {c e : CF} (he : e.Tame) (ha : e.a ≠ []) (hp : c.p ≠ [] ∨ e.p ≠ [])
    (o : BinOp) : o.run cfg fuel c e = match binSurd cfg o c e with
      | .error p => some (.error p)
      | .ok s => s.toContfracUnwrap cfg fuel := by
  by_cases hep : e.p = []
  · exact bin_via cfg fuel ((he.1 hep).resolve_left ha).wf hp o
  · rw [bin_run_periodic cfg fuel c hep]; rfl

/-- **C108** (panics) An operation on two fractions panics exactly on a division of rationals by zero, and if one of them
is periodic, if the operation on their surds panics, or if the result is rational. -/
theorem cf_reach_bin_panics (cfg : Cfg) (c e : CF) (h : Reach cfg c) (h' : Reach cfg e) (ha : c.a ≠ []) (ha' : e.a ≠ [])
    (x y : ℝ) (hx : c.HasVal x) (hy : e.HasVal y) (o : BinOp) :
    (∃ fuel p, o.run cfg fuel c e = some (.error p)) ↔
      if c.p = [] ∧ e.p = [] then o = .div ∧ y = 0
      else (∃ p, c.toSurd cfg = .error p) ∨ (∃ p, e.toSurd cfg = .error p) ∨
        (∃ s t p, c.toSurd cfg = .ok s ∧ e.toSurd cfg = .ok t ∧ o.surd cfg s t = .error p) ∨ ∃ q : ℚ, o.real x y = q := by
  have ht := cf_reach_tame cfg c h
  have ht' := cf_reach_tame cfg e h'
  by_cases hp : c.p = [] ∧ e.p = []
  · rw [if_pos hp]
    have hc := (ht.1 hp.1).resolve_left ha
    have hc' := (ht'.1 hp.2).resolve_left ha'
    have key := fun fuel => cf_bin_rational cfg fuel c e hc.wf hc'.wf hp.1 hp.2 x y hx hy o
    constructor
    · rintro ⟨fuel, p, hr⟩
      by_contra hn
      obtain ⟨w, h1, -⟩ := (key fuel).1 (fun ho hy => hn ⟨ho, hy⟩)
      rw [h1] at hr; cases hr
    · intro hd
      exact ⟨0, _, (key 0).2 hd⟩
  · rw [if_neg hp]
    have hp' : c.p ≠ [] ∨ e.p ≠ [] := by
      by_cases h1 : c.p = []
      · exact .inr fun h2 => hp ⟨h1, h2⟩
      · exact .inl h1
    simp only [bin_via_tame cfg _ ht' ha' hp' o]
    rcases toSurd_tame cfg ht ha with ⟨s, h1, h2, h3⟩ | ⟨-, h1⟩
    · rcases toSurd_tame cfg ht' ha' with ⟨t, k1, k2, k3⟩ | ⟨-, k1⟩
      · have n1 : ¬ ∃ p, c.toSurd cfg = .error p := by rintro ⟨p, e⟩; rw [h1] at e; cases e
        have n2 : ¬ ∃ p, CF.toSurd cfg e = .error p := by rintro ⟨p, e⟩; rw [k1] at e; cases e
        simp only [n1, n2, false_or]
        have hb : binSurd cfg o c e = o.surd cfg s t := by unfold binSurd; rw [h1, k1]; rfl
        rw [hb]
        match hs : o.surd cfg s t with
        | .error p =>
          simp only
          exact ⟨fun _ => .inl ⟨s, t, p, h1, k1, hs⟩, fun _ => ⟨0, p, rfl⟩⟩
        | .ok u =>
          simp only
          obtain ⟨g1, g2⟩ := bin_surd_val cfg o h2 k2 hs
          rw [unwrap_panics cfg g1, g2, HasVal.unique hx h3, HasVal.unique hy k3]
          refine ⟨.inr, ?_⟩
          rintro (⟨s', t', p, q1, q2, q3⟩ | h)
          · rw [h1] at q1; rw [k1] at q2
            cases q1; cases q2
            rw [hs] at q3; cases q3
          · exact h
      · refine ⟨fun _ => .inr (.inl ⟨_, k1⟩), fun _ => ⟨0, .incompatible, ?_⟩⟩
        have hb : binSurd cfg o c e = .error .incompatible := by unfold binSurd; rw [h1, k1]; rfl
        rw [hb]
    · refine ⟨fun _ => .inl ⟨_, h1⟩, fun _ => ⟨0, .incompatible, ?_⟩⟩
      have hb : binSurd cfg o c e = .error .incompatible := by unfold binSurd; rw [h1]; rfl
      rw [hb]

example : CF.div ⟨false, true⟩ 30 ⟨[0], [], false⟩ ⟨[1], [2], false⟩ = some (.error .denomZero) ∧
    CF.sub ⟨false, true⟩ 30 ⟨[1], [2], false⟩ ⟨[1], [2], false⟩ = some (.error .debugAssert) ∧
    CF.sub ⟨false, true⟩ 30 ⟨[1], [2], false⟩ ⟨[1], [1, 2], false⟩ = some (.error .incompatible) := by decide +kernel

/-! ### Well-formedness -/

/-- Well-formedness is not kept: a subtraction of an integer leaves a zero, `new` keeps one and then `convergents` divides
by zero and `to_rational` panics; `new` without aperiodic coefficients builds a fraction on which printing, `to_integer`
and every operation with an integer panic; so it does for the infinite `[3; 0]`. -/
theorem cf_reach_refuted (cfg : Cfg) :
    (Reach cfg ⟨[0, 1], [2], false⟩ ∧ Wf ⟨[0, 1], [2], false⟩ ∧
      subInt cfg.debug ⟨[0, 1], [2], false⟩ 2 = .ok ⟨[1, 1, 0], [2], true⟩ ∧ ¬ Wf ⟨[1, 1, 0], [2], true⟩) ∧
    (Reach cfg ⟨[1, 0], [2], false⟩ ∧
      itemAt (ConvIter.next .big) 1 (convergents ⟨[1, 0], [2], false⟩) = .error .divZero ∧
      toRational .big ⟨[1, 0], [2], false⟩ = .error .divZero) ∧
    (Reach cfg ⟨[], [2], false⟩ ∧ display ⟨[], [2], false⟩ = .error .unwrapNone ∧
      toInteger .big ⟨[], [2], false⟩ = .error .unwrapNone ∧
      ∀ k, addInt cfg.debug ⟨[], [2], false⟩ k = .error .unwrapNone) ∧
    (Reach cfg ⟨[], [], false⟩ ∧ display ⟨[], [], false⟩ = .error .unwrapNone ∧
      toRational .big ⟨[], [], false⟩ = .error .unwrapNone) := by
  refine ⟨⟨.new (a := [0, 1]) (p := [2]) (n := false) (by simp) ?_, by simp [Wf], ?_, by simp [Wf]⟩,
    ⟨.new (a := [1, 0]) (p := [2]) (n := false) (by simp) ?_, by decide +kernel, by decide +kernel⟩,
    ⟨.new (a := []) (p := [2]) (n := false) (by simp) ?_, rfl, rfl, fun _ => rfl⟩,
    ⟨.new (a := [3, 0]) (p := []) (n := false) (by simp) ?_, rfl, rfl⟩⟩ <;>
  · obtain ⟨c, d⟩ := cfg
    cases c <;> cases d <;> decide +kernel

/-- Well-formedness of what is built without zeros and without adding integers that turn the sign of the integer part of
a periodic fraction; finite fractions are canonical.  Missing: the excluded steps (`cf_reach_refuted`). -/
theorem cf_built_wf_partial (cfg : Cfg) (c : CF) (h : Built cfg c) : c.Std := by
  have cw : ∀ {c : CF}, c.Canonical → c.Std := fun h => ⟨h.wf, fun _ => h⟩
  have shift : ∀ {c c' : CF} {k : Int}, c.Std → (c.p ≠ [] → 0 ≤ ((c.a.headD 0 : Nat) : Int) + signed c.neg k) →
      c.addInt cfg.debug k = .ok c' → c'.Std := by
    intro c c' k hc hk h
    by_cases hp : c.p = []
    · have hp' : c'.p = [] := by
        obtain ⟨i, rest, e, ⟨-, j, h1⟩ | ⟨-, j, b, rfl, h1⟩⟩ := addInt_cases h
        · rw [hp] at h1
          obtain ⟨s, -, -, rfl⟩ := new_fin_inv cfg.debug _ c.neg c' h1
          rfl
        · exact hp
      have hne : c'.a ≠ [] := by
        obtain ⟨i, rest, e, ⟨h0, j, h1⟩ | ⟨-, j, b, rfl, h1⟩⟩ := addInt_cases h
        · have hcan := hc.2 hp
          obtain ⟨q, -, -, y, hy, -⟩ := cf_toRational_finite c hcan.wf hp
          rw [e, hp] at hy
          rw [hp] at h1
          refine (new_canonical cfg.debug _ _ _ h1 ?_).2.1
          obtain ⟨q, hq, -⟩ := valOf_shift (i := (i : Int)) (r := toInts rest) (p := []) hy j
          rw [hq]; simp
        · simp
      have := ((addInt_tame (hc.2 hp).tame h).1 hp').resolve_left hne
      exact cw this
    · obtain ⟨i, rest, e, ⟨h0, -⟩ | ⟨-, j, b, rfl, h1⟩⟩ := addInt_cases h
      · have := hk hp
        rw [e] at this
        simp only [List.headD_cons] at this
        omega
      · refine ⟨⟨by simp, ?_, hc.1.2.2⟩, fun h => absurd h hp⟩
        have := hc.1.2.1
        rwa [e] at this
  induction h with
  | zero => exact cw (cf_ofInt 0).1
  | one => exact cw (cf_ofInt 1).1
  | ofInt t => exact cw (cf_ofInt t).1
  | ofRat r => exact cw (cf_ofRat r).1
  | newFinite ha h => exact cw (new_canonical cfg.debug _ _ _ h ha)
  | newPeriodic h0 ha hp hp0 h =>
    rename_i a0 a p n c
    have e1 : toInts ((a0 :: a).map Int.toNat) = a0 :: a := toInts_toNat _ (fun v hv => by
      rcases List.mem_cons.1 hv with rfl | hv
      · exact h0
      · have := ha v hv; omega)
    have e2 : toInts (p.map Int.toNat) = p := toInts_toNat _ (fun v hv => by have := hp v hv; omega)
    have hs : Std ⟨(a0 :: a).map Int.toNat, p.map Int.toNat, n⟩ := by
      refine ⟨⟨by simp, fun v hv => ?_, fun v hv => ?_⟩, fun e => absurd e (by simpa using hp0)⟩
      · obtain ⟨w, hw, rfl⟩ := List.mem_map.1 hv
        have := ha w hw; omega
      · obtain ⟨w, hw, rfl⟩ := List.mem_map.1 hv
        have := hp w hw; omega
    have := cf_rebuild cfg.debug _ hs
    simp only [e1, e2] at this
    rw [h] at this
    cases this
    exact hs
  | ofSurd hs h => exact ⟨(surd_tame hs h).1, fun hp => absurd hp (surd_tame hs h).2⟩
  | neg _ ih =>
    rename_i c _
    have e : c.neg'.a = c.a ∧ c.neg'.p = c.p := by unfold neg'; split <;> exact ⟨rfl, rfl⟩
    have hw : c.neg'.Wf := by unfold Wf; rw [e.1, e.2]; exact ih.1
    exact ⟨hw, fun hp => ((neg_tame (std_tame ih)).1 hp).resolve_left hw.1⟩
  | addInt _ hk h ih => exact shift ih hk h
  | subInt _ hk h ih =>
    refine shift (k := -_) ih (fun hp => ?_) h
    have := hk hp
    rename_i c _ k _
    have e : (signed c.neg (-k) : Int) = - signed c.neg k := by cases c.neg <;> simp [signed]
    rw [e, ← sub_eq_add_neg]; exact this
  | num _ h ih => exact num_shape (std_tame ih) h
  | bin _ _ h ih1 ih2 => exact bin_shape (std_tame ih1) (std_tame ih2) h

example : Built ⟨false, true⟩ ⟨[2], [4, 1, 1, 3], false⟩ :=
  .bin (fuel := 30) (c := ⟨[0, 1], [4, 8], false⟩) (e := ⟨[1], [2], false⟩) (o := .add)
    (.newPeriodic (a0 := 0) (a := [1]) (p := [4, 8]) (n := false) (by omega) (by simp) (by simp) (by simp) (by decide +kernel))
    (.newPeriodic (a0 := 1) (a := []) (p := [2]) (n := false) (by omega) (by simp) (by simp) (by simp) (by decide +kernel))
    (by show CF.add _ _ _ _ = _; decide +kernel)

end CF
end NumIrr
