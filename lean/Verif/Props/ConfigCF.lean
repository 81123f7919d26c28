/-
C138, continued: continued fractions and quadratic integers.
-/
import Verif.Props.Config
import Verif.Lemmas.CFNew
import Verif.Props.SurdCF
import Verif.Lemmas.CFAny
import Verif.Lemmas.SurdReach

namespace NumIrr

private theorem bind_same {α β : Type} {r r' : Res α} {f f' : α → Res β} (h : r = r') (hf : ∀ a, r' = .ok a → f a = f' a) :
    (r >>= f) = (r' >>= f') := by
  subst h
  cases r with
  | error e => rfl
  | ok a => exact hf a rfl

namespace CF

/-! ### `new` -/

private theorem prop_same (debug : Bool) (ng : Option Bool) (neg : Bool) (st : List Int) (t : Int) (hst : SInv st) :
    propagate debug ng neg st t = propagate false ng neg st t := by
  fun_induction propagate debug ng neg st t with
  | case1 => rfl
  | case2 t am1 h => exact absurd hst.1 (by omega)
  | case3 t h => simp [propagate]
  | case4 t h => simp [propagate]
  | case5 am1 t h1 h2 h3 h4 => exact absurd hst.1 (by omega)
  | case6 am1 t h h1 h0 h2 => simp [propagate, h1, h0]
  | case7 t am1 am2 rest h => exact absurd hst.1 (by omega)
  | case8 am2 rest t h => simp [propagate]
  | case9 am2 rest t h h1 hlt ih =>
    rw [ih hst.2.tail.sinv]
    simp only [propagate, Bool.false_eq_true, false_and, if_false, hlt, if_true, h]
  | case10 am2 rest t h h1 hlt =>
    simp only [propagate, Bool.false_eq_true, false_and, if_false, hlt, if_true, h]
  | case11 am1 am2 rest t h h1 h2 h3 => exact absurd hst.1 (by omega)
  | case12 am1 am2 rest t h h1 h0 h2 => simp [propagate, h1, h0]

private theorem step_same (debug : Bool) (s : NewSt) (a : Int) (hs : SInv s.stack) :
    newStep debug s a = newStep false s a := by
  unfold newStep
  obtain ⟨stack, negative, negate⟩ := s
  cases stack with
  | nil => rfl
  | cons top rest => dsimp only; rw [prop_same debug _ _ _ _ hs]

private theorem loop_same (debug : Bool) : ∀ (as : List Int) (s : NewSt), SInv s.stack →
    newLoop debug s as = newLoop false s as
  | [], _, _ => rfl
  | a :: as, s, hs => bind_same (step_same debug s a hs) fun s' h => loop_same debug as s' (newStep_inv false s a s' hs h)

/-- **C138** the debug assertions of `ContinuedFraction::new` never fail: whatever the coefficients, debug and release
builds return the same fraction or the same panic. -/
theorem cf_config_new (debug debug' : Bool) (a p : List Int) (negate : Bool) :
    new debug a p negate = new debug' a p negate := by
  have h : ∀ d, newLoop d ⟨[], none, negate⟩ a = newLoop false ⟨[], none, negate⟩ a := fun d => loop_same d a _ trivial
  unfold new
  rw [h debug, h debug']

/-- so do the functions made of it -/
theorem cf_config_int (debug debug' : Bool) (c : CF) (k : Int) (l : List Int) :
    c.addInt debug k = c.addInt debug' k ∧ c.subInt debug k = c.subInt debug' k ∧ fromIter debug l = fromIter debug' l := by
  have h : ∀ k, c.addInt debug k = c.addInt debug' k := by
    intro k
    unfold addInt
    cases c.a with
    | nil => rfl
    | cons i rest => dsimp only; rw [cf_config_new debug debug']
  exact ⟨h k, h (-k), cf_config_new _ _ _ _ _⟩

example : new true [3, -2, 0, 5, -1, 4] [] false = new false [3, -2, 0, 5, -1, 4] [] false ∧
    new true [3, -2, 0, 5, -1, 4] [] false = .ok ⟨[3, 1, 1, 2], [], false⟩ ∧
    new true [1, 0, -5] [] false = .error .unwrapNone := by decide +kernel

/-! ### surds -/

variable (cfg cfg' : Cfg)

private theorem period_same (p : List Nat) : periodSurd cfg p = periodSurd cfg' p := by
  unfold periodSurd
  refine bind_same rfl fun m _ => bind_same ?_ fun _ _ => rfl
  refine ((Surd.surd_config_new cfg cfg' 0 0 0 0 _ _ _ ⟨0, 0, 0⟩).2.2 ?_)
  have h1 : (0 : ℚ) ≤ (m.c : ℚ) * m.b := by positivity
  push_cast
  nlinarith [mul_self_nonneg (((m.d : ℚ) - m.a))]

private theorem period_real {p : List Nat} {s : Surd} (h : periodSurd cfg p = .ok s) : 0 ≤ s.r := by
  unfold periodSurd at h
  obtain ⟨m, -, h⟩ := Surd.bind_ok_inv h
  obtain ⟨o, h1, h⟩ := Surd.bind_ok_inv h
  cases o with
  | none => cases h
  | some s' =>
    have h : s' = s := Except.ok.inj h
    subst h
    have hd : (0 : ℚ) ≤ (((m.d : Int) - m.a : Int) : ℚ) * (((m.d : Int) - m.a : Int) : ℚ) -
        4 * ((m.c : Int) : ℚ) * ((-(m.b : Int) : Int) : ℚ) := by
      have h1 : (0 : ℚ) ≤ (m.c : ℚ) * m.b := by positivity
      push_cast
      nlinarith [mul_self_nonneg (((m.d : ℚ) - m.a))]
    unfold Surd.fromEquation at h1
    split at h1
    · split at h1
      · cases h1
      · cases h1; exact le_rfl
    · dsimp only at h1
      rw [if_neg (fun e => absurd e.2 (not_lt.2 hd))] at h1
      obtain ⟨t, h2, h3⟩ := Surd.bind_ok_inv h1
      cases h3
      rw [Surd.fromRationals_eq] at h2
      exact Surd.new_real (mul_nonneg (Rat.num_nonneg.2 hd) (by omega)) h2

private theorem tail_real {a : List Nat} {ps s : Surd} (h0 : 0 ≤ ps.r) (hs : tailSurd cfg a ps = .ok s) : 0 ≤ s.r := by
  unfold tailSurd at hs
  split at hs
  · cases hs; exact h0
  · obtain ⟨m, -, hs⟩ := Surd.bind_ok_inv hs
    obtain ⟨n, h1, hs⟩ := Surd.bind_ok_inv hs
    obtain ⟨n', h2, hs⟩ := Surd.bind_ok_inv hs
    obtain ⟨d, h3, hs⟩ := Surd.bind_ok_inv hs
    obtain ⟨d', h4, hs⟩ := Surd.bind_ok_inv hs
    exact Surd.surd_config_root cfg n' d' s (Surd.fromCoeffs_real (Surd.fromCoeffs_real h0 h1) h2)
      (Surd.fromCoeffs_real (Surd.fromCoeffs_real h0 h3) h4) (.inr (.inr (.inr hs)))

/-- **C138** the surd of a continued fraction, whatever the coefficients -/
theorem cf_config_toSurd (c : CF) : c.toSurd cfg = c.toSurd cfg' ∧ ∀ s, c.toSurd cfg = .ok s → 0 ≤ s.r := by
  constructor
  · unfold toSurd
    split
    · rfl
    · refine bind_same (period_same cfg cfg' c.p) fun ps hps => ?_
      have h0 := period_real cfg' hps
      have tl : tailSurd cfg c.a ps = tailSurd cfg' c.a ps := by
        unfold tailSurd
        split
        · rfl
        · refine bind_same rfl fun m _ => bind_same (Surd.fromCoeffs_config _ _ h0) fun n hn => ?_
          have hn0 := Surd.fromCoeffs_real h0 hn
          refine bind_same (Surd.fromCoeffs_config _ _ hn0) fun n' hn' => ?_
          have hn1 := Surd.fromCoeffs_real hn0 hn'
          refine bind_same (Surd.fromCoeffs_config _ _ h0) fun d hd => ?_
          have hd0 := Surd.fromCoeffs_real h0 hd
          refine bind_same (Surd.fromCoeffs_config _ _ hd0) fun d' hd' => ?_
          exact (Surd.surd_config_binary cfg cfg' n' d' hn1 (Surd.fromCoeffs_real hd0 hd')).2.2.2
      refine bind_same tl fun s hs => ?_
      have hs0 := tail_real cfg' h0 hs
      cases c.a with
      | nil => rfl
      | cons a0 as => exact bind_same (Surd.fromCoeffs_config _ _ hs0) fun _ _ => rfl
  · intro s h
    unfold toSurd at h
    split at h
    · obtain ⟨q, -, h⟩ := Surd.bind_ok_inv h
      cases h
      exact le_rfl
    · obtain ⟨ps, h1, h⟩ := Surd.bind_ok_inv h
      obtain ⟨t, h2, h⟩ := Surd.bind_ok_inv h
      have ht := tail_real cfg (period_real cfg h1) h2
      split at h
      · cases h
      · obtain ⟨u, h3, h⟩ := Surd.bind_ok_inv h
        have hu := Surd.fromCoeffs_real ht h3
        cases h
        split
        · exact hu
        · exact hu

example : (⟨[1], [2], true⟩ : CF).toSurd ⟨false, true⟩ = .ok ⟨0, -1, 1, 2⟩ ∧
    (⟨[1], [2], true⟩ : CF).toSurd ⟨true, false⟩ = .ok ⟨0, -1, 1, 2⟩ := by decide +kernel

end CF

namespace Surd

variable (cfg cfg' : Cfg)

private theorem quad_same (fuel : Nat) {a b c r : ℤ} (n : Bool) (hc : c ≠ 0) (h0 : 0 ≤ r) (hs : ¬ IsSquare r) :
    quadsurdToContfrac cfg fuel a b c r n = quadsurdToContfrac cfg' fuel a b c r n := by
  have h1 : ∀ d : Cfg, ¬ (d.debug = true ∧ ¬ (c ≠ 0 ∧ 0 ≤ r)) := fun d h => h.2 ⟨hc, h0⟩
  have h2 : ∀ d : Cfg, ¬ (d.debug = true ∧ isqrt r * isqrt r = r) := fun d h => hs ⟨isqrt r, h.2.symm⟩
  unfold quadsurdToContfrac
  rw [if_neg (h1 cfg), if_neg (h2 cfg), if_neg (h1 cfg'), if_neg (h2 cfg')]
  simp only [CF.cf_config_new cfg.debug cfg'.debug]

/-- **C138** the expansion of an irrational surd, step by step: the same fraction, the same panic, or not finished after the
same number of rounds. -/
theorem surd_config_toContfrac (fuel : Nat) (s : Surd) (hc : s.c ≠ 0) (h0 : 0 ≤ s.r) (hs : ¬ IsSquare s.r) :
    s.toContfrac cfg fuel = s.toContfrac cfg' fuel ∧ s.toContfracUnwrap cfg fuel = s.toContfracUnwrap cfg' fuel ∧
      ∀ limit, s.approximated cfg fuel limit = s.approximated cfg' fuel limit := by
  have h1 : s.toContfrac cfg fuel = s.toContfrac cfg' fuel := by
    unfold toContfrac
    rw [(surd_config_unary cfg cfg' s h0).2.2.2.2.2.2.2.1, quad_same cfg cfg' fuel true hc h0 hs,
      quad_same cfg cfg' fuel false hc h0 hs]
  have h2 : s.toContfracUnwrap cfg fuel = s.toContfracUnwrap cfg' fuel := by
    unfold toContfracUnwrap; rw [h1]
  refine ⟨h1, h2, fun limit => ?_⟩
  unfold approximated
  rw [h2]

example : (⟨1, 1, 2, 5⟩ : Surd).toContfrac ⟨false, true⟩ 9 = some (.ok (some ⟨[1], [1], false⟩)) ∧
    (⟨1, 1, 2, 5⟩ : Surd).toContfrac ⟨true, false⟩ 9 = some (.ok (some ⟨[1], [1], false⟩)) := by decide +kernel

/-- not so for rational numbers, where it panics: debug builds on an assertion, release builds on a division by zero later
on -/
theorem surd_config_toContfrac_refuted :
    RealOk ⟨1, 0, 2, 0⟩ ∧ toContfrac ⟨false, true⟩ 5 ⟨1, 0, 2, 0⟩ = some (.error .debugAssert) ∧
      toContfrac ⟨false, false⟩ 5 ⟨1, 0, 2, 0⟩ = some (.error .divZero) := by decide +kernel

/-- **C138** whatever is returned for a real number in normal form is returned in every build. -/
theorem surd_config_toContfrac_partial (fuel : Nat) (s : Surd) (h : s.RealOk) (o : Option CF)
    (e : s.toContfrac cfg fuel = some (.ok o)) : s.toContfrac cfg' fuel = some (.ok o) := by
  by_cases hr : s.r = 0
  · obtain ⟨N, hN⟩ := surd_toContfrac_rational cfg s h hr
    rw [hN fuel] at e
    split at e <;> cases e
  · rw [← e]
    exact (surd_config_toContfrac cfg' cfg fuel s h.c_pos.ne' h.2 (h.irrational hr)).1

end Surd

/-! ### arithmetic of continued fractions -/

namespace CF

variable (cfg cfg' : Cfg)

private theorem unwrap_same {fuel : Nat} {s : Surd} (h : s.RealOk) {v : CF}
    (e : s.toContfracUnwrap cfg fuel = some (.ok v)) : s.toContfracUnwrap cfg' fuel = some (.ok v) := by
  unfold Surd.toContfracUnwrap at e ⊢
  split at e
  · cases e
  · cases e
  · cases e
  · next c hc =>
    rw [Surd.surd_config_toContfrac_partial cfg cfg' fuel s h _ hc]
    exact e

private theorem via_same {fuel : Nat} {c v : CF} {f f' : Surd → Res Surd} (hf : ∀ s, 0 ≤ s.r → f s = f' s)
    (hr : ∀ s t, 0 ≤ s.r → f s = .ok t → t.RealOk) (e : viaSurd cfg fuel c f = some (.ok v)) :
    viaSurd cfg' fuel c f' = some (.ok v) := by
  obtain ⟨h1, h2⟩ := cf_config_toSurd cfg cfg' c
  unfold viaSurd at e ⊢
  rw [← h1]
  cases hs : c.toSurd cfg with
  | error p => rw [hs] at e; cases e
  | ok s =>
    rw [hs, Surd.ok_bind] at e
    rw [Surd.ok_bind, ← hf s (h2 s hs)]
    cases ht : f s with
    | error p => rw [ht] at e; cases e
    | ok t =>
      rw [ht] at e
      exact unwrap_same cfg cfg' (hr s t (h2 s hs) ht) e

private theorem number_same {fuel : Nat} {c v : CF} {q : Rat → Res Rat} {f f' : Surd → Res Surd}
    (hf : ∀ s, 0 ≤ s.r → f s = f' s) (hr : ∀ s t, 0 ≤ s.r → f s = .ok t → t.RealOk)
    (e : opNumber cfg fuel c q f = some (.ok v)) : opNumber cfg' fuel c q f' = some (.ok v) := by
  unfold opNumber at e ⊢
  split at e
  · next h => rw [if_pos h]; exact e
  · next h => rw [if_neg h]; exact via_same cfg cfg' hf hr e

private theorem fc_ok {cfg : Cfg} {x : Coeffs} {r : ℤ} {t : Surd} (h0 : 0 ≤ r) (h : Surd.fromCoeffs cfg x r = .ok t) :
    t.RealOk := ⟨(Surd.fromCoeffs_good h).ok.toNormal, Surd.fromCoeffs_real h0 h⟩

/-- **C138** arithmetic of a continued fraction with an integer or a rational number: whatever is returned is returned in
every build. -/
theorem cf_config_number_partial (fuel : Nat) (c v : CF) (k : ℤ) (q : ℚ) :
    (c.mulInt cfg fuel k = some (.ok v) → c.mulInt cfg' fuel k = some (.ok v)) ∧
    (c.divInt cfg fuel k = some (.ok v) → c.divInt cfg' fuel k = some (.ok v)) ∧
    (c.addRat cfg fuel q = some (.ok v) → c.addRat cfg' fuel q = some (.ok v)) ∧
    (c.subRat cfg fuel q = some (.ok v) → c.subRat cfg' fuel q = some (.ok v)) ∧
    (c.mulRat cfg fuel q = some (.ok v) → c.mulRat cfg' fuel q = some (.ok v)) ∧
    (c.divRat cfg fuel q = some (.ok v) → c.divRat cfg' fuel q = some (.ok v)) := by
  have h := fun (s : Surd) (h0 : 0 ≤ s.r) => Surd.surd_config_number cfg cfg' s h0 k q
  exact ⟨number_same cfg cfg' (fun s h0 => (h s h0).2.2.1) fun s t h0 e => fc_ok h0 e,
    number_same cfg cfg' (fun s h0 => (h s h0).2.2.2.1) fun s t h0 e => fc_ok h0 e,
    number_same cfg cfg' (fun s h0 => (h s h0).2.2.2.2.1) fun s t h0 e => fc_ok h0 e,
    number_same cfg cfg' (fun s h0 => (h s h0).2.2.2.2.2.1) fun s t h0 e => fc_ok h0 e,
    number_same cfg cfg' (fun s h0 => (h s h0).2.2.2.2.2.2.1) fun s t h0 e => fc_ok h0 e,
    number_same cfg cfg' (fun s h0 => (h s h0).2.2.2.2.2.2.2) fun s t h0 e => fc_ok h0 e⟩

private theorem op_same {fuel : Nat} {c e v : CF} {f f' : CF → Rat → Option (Res CF)} {g g' : Surd → Surd → Res Surd}
    (hf : ∀ q, f c q = some (.ok v) → f' c q = some (.ok v))
    (hg : ∀ s t, 0 ≤ s.r → 0 ≤ t.r → g s t = g' s t) (hr : ∀ s t u, 0 ≤ s.r → 0 ≤ t.r → g s t = .ok u → u.RealOk)
    (h : opCF cfg fuel c e f g = some (.ok v)) : opCF cfg' fuel c e f' g' = some (.ok v) := by
  obtain ⟨h1, h2⟩ := cf_config_toSurd cfg cfg' e
  unfold opCF at h ⊢
  split at h
  · next hr =>
    rw [if_pos hr]
    split at h
    · cases h
    · next q hq => exact hf _ h
  · next hn =>
    rw [if_neg hn]
    refine via_same cfg cfg' (fun s h0 => bind_same h1 fun t ht => hg s t h0 (h2 t (h1.trans ht))) (fun s u h0 e1 => ?_) h
    obtain ⟨t, h3, h4⟩ := Surd.bind_ok_inv e1
    exact hr s t u h0 (h2 t h3) h4

/-- **C138** arithmetic of two continued fractions. -/
theorem cf_config_binary_partial (fuel : Nat) (c e v : CF) :
    (add cfg fuel c e = some (.ok v) → add cfg' fuel c e = some (.ok v)) ∧
    (sub cfg fuel c e = some (.ok v) → sub cfg' fuel c e = some (.ok v)) ∧
    (mul cfg fuel c e = some (.ok v) → mul cfg' fuel c e = some (.ok v)) ∧
    (div cfg fuel c e = some (.ok v) → div cfg' fuel c e = some (.ok v)) := by
  have h := fun (s t : Surd) (h0 : 0 ≤ s.r) (h1 : 0 ≤ t.r) => Surd.surd_config_binary cfg cfg' s t h0 h1
  have hq := fun q => cf_config_number_partial cfg cfg' fuel c v 0 q
  have hr := fun (s t u : Surd) (h0 : 0 ≤ s.r) (h1 : 0 ≤ t.r) => Surd.surd_config_root cfg s t u h0 h1
  exact ⟨op_same cfg cfg' (fun q => (hq q).2.2.1) (fun s t h0 h1 => (h s t h0 h1).1) fun s t u h0 h1 e =>
      ⟨(Surd.add_good e).ok.toNormal, hr s t u h0 h1 (.inl e)⟩,
    op_same cfg cfg' (fun q => (hq q).2.2.2.1) (fun s t h0 h1 => (h s t h0 h1).2.1) fun s t u h0 h1 e =>
      ⟨(Surd.sub_good e).ok.toNormal, hr s t u h0 h1 (.inr (.inl e))⟩,
    op_same cfg cfg' (fun q => (hq q).2.2.2.2.1) (fun s t h0 h1 => (h s t h0 h1).2.2.1) fun s t u h0 h1 e =>
      ⟨(Surd.mul_good e).ok.toNormal, hr s t u h0 h1 (.inr (.inr (.inl e)))⟩,
    op_same cfg cfg' (fun q => (hq q).2.2.2.2.2) (fun s t h0 h1 => (h s t h0 h1).2.2.2) fun s t u h0 h1 e =>
      ⟨(Surd.div_good e).ok.toNormal, hr s t u h0 h1 (.inr (.inr (.inr e)))⟩⟩

example : add ⟨false, true⟩ 20 ⟨[1], [2], false⟩ ⟨[1], [2], false⟩ = some (.ok ⟨[2], [1, 4], false⟩) ∧
    add ⟨true, false⟩ 20 ⟨[1], [2], false⟩ ⟨[1], [2], false⟩ = some (.ok ⟨[2], [1, 4], false⟩) := by decide +kernel

/-- which of two panics it is does depend on the build, as it does for surds -/
theorem cf_config_binary_refuted :
    sub ⟨false, true⟩ 20 ⟨[1], [2], false⟩ ⟨[1], [2], false⟩ = some (.error .debugAssert) ∧
      sub ⟨false, false⟩ 20 ⟨[1], [2], false⟩ ⟨[1], [2], false⟩ = some (.error .divZero) := by decide +kernel

end CF

/-! ### quadratic integers -/

namespace QInt

variable (cfg cfg' : Cfg)

private theorem fc {c : QCoeffs} {d : ℤ} (h : 0 ≤ d) : fromCoeffs cfg c d = fromCoeffs cfg' c d := by
  unfold fromCoeffs
  rw [if_neg (by omega : ¬ (cfg.complex = false ∧ d < 0)), if_neg (by omega : ¬ (cfg'.complex = false ∧ d < 0))]

private theorem hinted {x : QInt} (h : 0 ≤ x.d) (k : ℤ) : reduceRootHinted cfg x k = reduceRootHinted cfg' x k := by
  unfold reduceRootHinted
  dsimp only
  split
  · rfl
  · next hk =>
    have hq : 0 ≤ x.d.tdiv (k.natAbs : ℤ) := Int.tdiv_nonneg h (by omega)
    rw [fc cfg cfg' hq, fc cfg cfg' hq]

private theorem fc_d {cfg : Cfg} {c : QCoeffs} {d : ℤ} {x : QInt} (h : 0 ≤ d) (e : fromCoeffs cfg c d = .ok x) : 0 ≤ x.d := by
  unfold fromCoeffs at e
  rw [if_neg (by omega)] at e
  split at e
  · cases e
  · dsimp only at e
    rw [if_neg (by omega : ¬ d < 0)] at e
    split at e <;> split at e <;> cases e <;> first | exact h | exact le_rfl

private theorem hinted_d {cfg : Cfg} {x z : QInt} (h : 0 ≤ x.d) {k : ℤ} (e : reduceRootHinted cfg x k = .ok z) : 0 ≤ z.d := by
  unfold reduceRootHinted at e
  dsimp only at e
  split at e
  · cases e; exact h
  · have hq : 0 ≤ x.d.tdiv (k.natAbs : ℤ) := Int.tdiv_nonneg h (by omega)
    split at e
    · split at e
      · split at e
        · exact fc_d hq e
        · exact fc_d hq e
        · cases e
      · cases e; exact h
    · cases e; exact h

private theorem rbo {x y : QInt} (hx : 0 < x.d) (hy : 0 < y.d) : reduceBinOp cfg x y = reduceBinOp cfg' x y := by
  have e1 : ((decide (x.d < 0)) ^^ (decide (y.d < 0))) = false := by
    rw [decide_eq_false (by omega), decide_eq_false (by omega)]; rfl
  have e2 : (x.d.natAbs > y.d.natAbs) = (x.d > y.d) := by apply propext; omega
  have e3 : (y.d.natAbs > x.d.natAbs) = (y.d > x.d) := by apply propext; omega
  have e4 : ¬ (x.d = 0 ∨ y.d = 0) := by omega
  have key : ∀ c d, reduceBinOp ⟨c, d⟩ x y = reduceBinOp ⟨false, false⟩ x y := by
    intro c d
    unfold reduceBinOp
    simp only [hinted ⟨c, d⟩ ⟨false, false⟩ hx.le, hinted ⟨c, d⟩ ⟨false, false⟩ hy.le]
    cases c <;> cases d <;> simp [e1, e2, e3, e4]
  rw [key cfg.complex cfg.debug, key cfg'.complex cfg'.debug]

private theorem rbu {x y : QInt} (hx : 0 < x.d) (hy : 0 < y.d) :
    reduceBinOpUnwrap cfg x y = reduceBinOpUnwrap cfg' x y := by
  unfold reduceBinOpUnwrap
  rw [rbo cfg cfg' hx hy]

private theorem rbu_d {cfg : Cfg} {x y : QInt} (hy : 0 ≤ y.d) {p : QInt × QInt}
    (h : reduceBinOpUnwrap cfg x y = .ok p) : 0 ≤ p.2.d := by
  unfold reduceBinOpUnwrap at h
  obtain ⟨o, h1, h2⟩ := Surd.bind_ok_inv h
  cases o with
  | none => cases h2
  | some q =>
    have h2 : q = p := Except.ok.inj h2
    subst h2
    have fin : ∀ {a b : QInt}, 0 ≤ b.d → (if a.d = b.d then some (a, b) else none) = some q → 0 ≤ q.2.d := by
      intro a b ha h
      split at h
      · cases h; exact ha
      · cases h
    have key : ∀ {a b : QInt}, 0 ≤ b.d →
        (pure (if a.d = b.d then some (a, b) else none) : Res (Option (QInt × QInt))) = .ok (some q) → 0 ≤ q.2.d :=
      fun ha h => fin ha (Except.ok.inj h)
    unfold reduceBinOp at h1
    dsimp only at h1
    split at h1
    · split at h1
      · cases h1
      · split at h1
        · obtain ⟨k, -, h3⟩ := Surd.bind_ok_inv h1
          obtain ⟨z, -, h4⟩ := Surd.bind_ok_inv h3
          exact key hy h4
        · split at h1
          · obtain ⟨k, -, h3⟩ := Surd.bind_ok_inv h1
            obtain ⟨z, hz, h4⟩ := Surd.bind_ok_inv h3
            exact key (hinted_d hy hz) h4
          · exact key hy h1
    · split at h1
      · cases h1
      · split at h1
        · obtain ⟨k, -, h3⟩ := Surd.bind_ok_inv h1
          obtain ⟨z, -, h4⟩ := Surd.bind_ok_inv h3
          exact key hy h4
        · split at h1
          · obtain ⟨k, -, h3⟩ := Surd.bind_ok_inv h1
            obtain ⟨z, hz, h4⟩ := Surd.bind_ok_inv h3
            exact key (hinted_d hy hz) h4
          · exact key hy h1

/-- a real quadratic integer: the stored number under the root is positive if there is a root at all -/
def RealD (x : QInt) : Prop := 0 ≤ x.d ∧ (x.b ≠ 0 → x.d ≠ 0)

private theorem pos_of {x : QInt} (hx : x.RealD) (h : ¬ x.isRational = true) : 0 < x.d := by
  have := hx.2 (by simpa [isRational] using h)
  have := hx.1
  omega

/-- **C138** the operations of two real quadratic integers; `%` only if the first is not rational (or the second is). -/
theorem qint_config_binary (x y : QInt) (hx : x.RealD) (hy : y.RealD) :
    add cfg x y = add cfg' x y ∧ sub cfg x y = sub cfg' x y ∧ mul cfg x y = mul cfg' x y ∧ div cfg x y = div cfg' x y ∧
      (x.b ≠ 0 ∨ y.b = 0 → rem cfg x y = rem cfg' x y) := by
  refine ⟨?_, ?_, ?_, ?_, fun h => ?_⟩
  · unfold add
    split
    · rfl
    · next h1 =>
      split
      · rfl
      · next h2 =>
        exact bind_same (rbu cfg cfg' (pos_of hx h2) (pos_of hy h1)) fun p hp => fc _ _ (rbu_d hy.1 hp)
  · unfold sub
    split
    · rfl
    · next h1 =>
      split
      · rfl
      · next h2 =>
        exact bind_same (rbu cfg cfg' (pos_of hx h2) (pos_of hy h1)) fun p hp => fc _ _ (rbu_d hy.1 hp)
  · unfold mul
    split
    · rfl
    · next h1 =>
      split
      · rfl
      · next h2 =>
        exact bind_same (rbu cfg cfg' (pos_of hx h2) (pos_of hy h1)) fun p hp =>
          bind_same rfl fun _ _ => fc _ _ (rbu_d hy.1 hp)
  · unfold div
    split
    · rfl
    · next h1 =>
      split
      · exact bind_same rfl fun _ _ => fc _ _ hy.1
      · next h2 =>
        exact bind_same (rbu cfg cfg' (pos_of hx h2) (pos_of hy h1)) fun p hp =>
          bind_same rfl fun _ _ => fc _ _ (rbu_d hy.1 hp)
  · unfold rem
    split
    · rfl
    · next h1 =>
      have h2 : x.b ≠ 0 := h.resolve_right (by simpa [isRational] using h1)
      exact bind_same (rbu cfg cfg' (pos_of hx (by simpa [isRational] using h2)) (pos_of hy h1)) fun p hp =>
        bind_same rfl fun _ _ => fc _ _ (rbu_d hy.1 hp)

private theorem strip_nonneg : ∀ (fuel : Nat) (b r : ℤ), 0 ≤ r → 0 ≤ (strip4 fuel b r).2
  | 0, _, _, h => h
  | fuel + 1, b, r, h => by
    unfold strip4
    split
    · exact strip_nonneg fuel _ _ (Int.tdiv_nonneg h (by omega))
    · exact h

/-- **C138** constructors of quadratic integers -/
theorem qint_config_new (a b r : ℤ) (c : QCoeffs) (h : 0 ≤ r) :
    new cfg a b r = new cfg' a b r ∧ fromCoeffs cfg c r = fromCoeffs cfg' c r := by
  refine ⟨?_, fc _ _ h⟩
  have h1 : 0 ≤ (if 0 < r then strip4 r.toNat b r else (b, r)).2 := by
    split
    · exact strip_nonneg _ _ _ h
    · exact h
  unfold new
  dsimp only
  rw [fc cfg cfg' h1, fc cfg cfg' h1]

example : RealD ⟨7, 5, 2⟩ ∧ rem ⟨false, true⟩ ⟨7, 5, 2⟩ ⟨1, 2, 2⟩ = rem ⟨true, false⟩ ⟨7, 5, 2⟩ ⟨1, 2, 2⟩ ∧
    mul ⟨true, false⟩ ⟨7, 5, 2⟩ ⟨1, 2, 2⟩ = .ok ⟨27, 19, 2⟩ := by
  refine ⟨⟨by decide, by decide⟩, by decide +kernel, by decide +kernel⟩

/-- `5 % √2` is a failed assertion or a division by zero, depending on the build -/
theorem qint_config_rem_refuted :
    rem ⟨false, true⟩ ⟨5, 0, 0⟩ ⟨0, 1, 2⟩ = .error .debugAssert ∧ rem ⟨false, false⟩ ⟨5, 0, 0⟩ ⟨0, 1, 2⟩ = .error .divZero := by
  decide +kernel

end QInt

/-- **C138** the quadratic integer of a surd -/
theorem surd_config_toQuadint (cfg cfg' : Cfg) (s : Surd) (h : 0 ≤ s.r) :
    s.toQuadint cfg = s.toQuadint cfg' ∧ s.toGaussint cfg = s.toGaussint cfg' := by
  constructor
  · unfold Surd.toQuadint
    split
    · exact bind_same (QInt.qint_config_new cfg cfg' _ _ _ ⟨0, 0⟩ h).1 fun _ _ => rfl
    · exact bind_same rfl fun x _ => bind_same rfl fun y _ =>
        bind_same (QInt.qint_config_new cfg cfg' _ _ _ ⟨0, 0⟩ h).1 fun _ _ => rfl
  · unfold Surd.toGaussint
    split
    · rfl
    · exact bind_same (Surd.surd_config_unary cfg cfg' s h).2.1 fun _ _ => rfl

end NumIrr
