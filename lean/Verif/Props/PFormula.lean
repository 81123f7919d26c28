/-
C127: whole calculations with continued fractions, finite and periodic.
-/
import Verif.Spec.PFormula
import Verif.Props.CFLaws
import Verif.Props.CFShift
import Verif.Lemmas.CFShort

namespace NumIrr
namespace PFormula
open CF

private theorem andThen_ok {r : Option (Res CF)} {k : CF → Option (Res CF)} {w : CF} (h : andThen r k = some (.ok w)) :
    ∃ c, r = some (.ok c) ∧ k c = some (.ok w) := by
  match r, h with
  | some (.ok c), h => exact ⟨c, rfl, h⟩

/-- a well-formed fraction is finite iff its value is rational -/
private theorem finite_iff {c : CF} (h : c.Wf) {x : ℝ} (hx : c.HasVal x) : c.p = [] ↔ ¬ Irrational x := by
  constructor
  · intro hp
    obtain ⟨q, -, rfl⟩ := finite_val h hp hx
    exact fun hi => hi ⟨q, rfl⟩
  · intro hi
    by_contra hp
    obtain ⟨-, h2, -⟩ := coeff_of_val h hp hx
    exact hi (by rcases abs_choice x with e | e <;> rw [e] at h2
                 · exact h2
                 · simpa using h2.neg)

private theorem rat_of {x : ℝ} (h : ¬ Irrational x) : ∃ q : ℚ, x = q := by
  unfold Irrational at h
  rw [not_not] at h
  exact h.imp fun _ h => h.symm

/-- **C127** Whatever is calculated, the fraction returned is well-formed and stands for the number the steps keep: the
exact result as long as the operands are rational, otherwise the exact result up to the two defects of the conversion of a
surd (C35). -/
theorem pformula_stored (cfg : Cfg) (fuel : ℕ) (f : PFormula) (hf : f.Leaves) (w : CF)
    (h : f.run cfg fuel = some (.ok w)) : w.Wf ∧ ∃ x, Stored f x ∧ w.HasVal x := by
  induction f generalizing w with
  | frac c v => cases h; exact ⟨hf.1, v, .frac c v, hf.2⟩
  | neg f ih =>
    obtain ⟨c, h1, h2⟩ := andThen_ok h
    obtain ⟨k1, x, k2, k3⟩ := ih hf c h1
    cases h2
    obtain ⟨g1, g2, -⟩ := cf_neg c x k3
    exact ⟨g2 k1, -x, .neg k2, g1⟩
  | num o f ih =>
    obtain ⟨c, h1, h2⟩ := andThen_ok h
    obtain ⟨k1, x, k2, k3⟩ := ih hf c h1
    by_cases hp : c.p = []
    · obtain ⟨q, rfl⟩ := rat_of ((finite_iff k1 k3).1 hp)
      obtain ⟨g1, g2⟩ := cf_num_rational cfg fuel c k1 hp q k3 o
      by_cases hd : o.Defined
      · obtain ⟨e, e1, e2, e3⟩ := g1 hd
        rw [h2] at e1; cases e1
        exact ⟨e2.wf, _, .numRat k2, e3⟩
      · rw [g2 hd] at h2; cases h2
    · obtain ⟨g1, -, s, g2, g3, g4, g5⟩ := cf_num_periodic_value cfg fuel c k1 hp x k3 o w h2
      exact ⟨g1, _, .num k2 (by by_contra hi; exact hp ((finite_iff k1 k3).2 hi)) ⟨s, g2, g3, g4, rfl⟩, g5⟩
  | bin o f g ihf ihg =>
    obtain ⟨c, h1, h2⟩ := andThen_ok h
    obtain ⟨e, h3, h4⟩ := andThen_ok h2
    obtain ⟨k1, x, k2, k3⟩ := ihf hf.1 c h1
    obtain ⟨l1, y, l2, l3⟩ := ihg hf.2 e h3
    by_cases hp : c.p = [] ∧ e.p = []
    · obtain ⟨q, rfl⟩ := rat_of ((finite_iff k1 k3).1 hp.1)
      obtain ⟨r, rfl⟩ := rat_of ((finite_iff l1 l3).1 hp.2)
      obtain ⟨g1, g2⟩ := cf_bin_rational cfg fuel c e k1 l1 hp.1 hp.2 q r k3 l3 o
      by_cases hd : o = .div ∧ (r : ℝ) = 0
      · rw [g2 hd] at h4; cases h4
      · obtain ⟨e', e1, e2, e3⟩ := g1 (fun ho hr => hd ⟨ho, hr⟩)
        rw [h4] at e1; cases e1
        exact ⟨e2.wf, _, .binRat k2 l2, e3⟩
    · have hp' : c.p ≠ [] ∨ e.p ≠ [] := by tauto
      obtain ⟨g1, -, s, g2, g3, g4, g5⟩ := cf_bin_periodic_value cfg fuel c e k1 l1 hp' x y k3 l3 o w h4
      refine ⟨g1, _, .bin k2 l2 ?_ ⟨s, g2, g3, g4, rfl⟩, g5⟩
      rcases hp' with hp | hp
      · left; by_contra hi; exact hp ((finite_iff k1 k3).2 hi)
      · right; by_contra hi; exact hp ((finite_iff l1 l3).2 hi)

private theorem kept_same {z x : ℝ} (h : Kept z x) (hz : SameSign z) : x = z := by
  obtain ⟨s, h1, h2, rfl, rfl⟩ := h
  have hs := same_sign_surd h1 hz
  unfold Surd.cfValue
  rw [if_neg (fun hh => by have := hh.2; linarith), if_neg (fun hh => ?_)]
  have h1 : (0 : ℝ) < s.b := by exact_mod_cast hh.2.1
  have := mul_neg_of_pos_of_neg h1 hh.1
  linarith

private theorem stored_same {f : PFormula} (hf : f.Every SameSign) {x : ℝ} (h : Stored f x) : x = f.val := by
  induction h with
  | frac c v => rfl
  | neg _ ih => rw [ih hf]; rfl
  | numRat _ ih => rw [ih hf.1]; rfl
  | num _ hi hk ih => rw [ih hf.1] at hi hk; exact kept_same hk (hf.2 hi)
  | binRat _ _ ih ih' => rw [ih hf.1, ih' hf.2.1]; rfl
  | bin _ _ hi hk ih ih' => rw [ih hf.1, ih' hf.2.1] at hi hk; exact kept_same hk (hf.2.2 hi)

/-- **C127** partial: the fraction returned has the value of the formula if every result with an irrational operand is
`A + B√R` with `B√R` of its own sign.  (Missing: other signs, for which it fails, see `pformula_refuted`.) -/
theorem pformula_value_partial (cfg : Cfg) (fuel : ℕ) (f : PFormula) (hf : f.Leaves) (hs : f.Every SameSign) (w : CF)
    (h : f.run cfg fuel = some (.ok w)) : w.Wf ∧ w.HasVal f.val := by
  obtain ⟨h1, x, h2, h3⟩ := pformula_stored cfg fuel f hf w h
  rw [stored_same hs h2] at h3
  exact ⟨h1, h3⟩

private theorem oppConj_irr {v : ℝ} (hz : OppConj v) : Irrational v := by
  rintro ⟨q, hq⟩
  obtain ⟨A, B, R, hR, hs, e, hAB⟩ := hz
  refine irr_of_nonsquare hs (A := A) (B := B) ?_ hR q (e.symm.trans hq.symm)
  rintro rfl
  have := mul_self_nonneg A
  simp at hAB
  linarith

private theorem oppConj_neg {v : ℝ} (hz : OppConj (-v)) : OppConj v := by
  obtain ⟨A, B, R, hR, hs, e, hAB⟩ := hz
  refine ⟨-A, -B, R, hR, hs, ?_, by linarith⟩
  push_cast
  linarith

private theorem via_ok {cfg : Cfg} {fuel : ℕ} {c : CF} {k : Surd → Res Surd} {w : CF}
    (h : viaSurd cfg fuel c k = some (.ok w)) :
    ∃ s t, c.toSurd cfg = .ok s ∧ k s = .ok t ∧ t.toContfrac cfg fuel = some (.ok (some w)) := by
  unfold viaSurd at h
  cases h1 : c.toSurd cfg with
  | error e => rw [h1] at h; cases h
  | ok s =>
    rw [h1, Surd.ok_bind] at h
    cases h2 : k s with
    | error e => rw [h2] at h; cases h
    | ok t =>
      rw [h2] at h
      refine ⟨s, t, rfl, h2, ?_⟩
      simp only [Surd.toContfracUnwrap] at h
      generalize t.toContfrac cfg fuel = r at h
      match r, h with
      | some (.ok (some c)), h => cases h; rfl

private theorem num_shortest (cfg : Cfg) (fuel : ℕ) (c : CF) (h : c.Wf) (hp : c.p ≠ []) (x : ℝ) (hx : c.HasVal x) (o : NumOp)
    (hz : OppConj (o.real x)) (w : CF) (hw : o.run cfg fuel c = some (.ok w)) :
    w.a.length ≤ 2 ∧ w.HasVal (o.real x) ∧ w.ShortestHead ∧ w.ShortestPeriod := by
  rw [NumOp.run_eq, opNumber, if_neg (by simp [isRational, hp])] at hw
  obtain ⟨s, t, h1, h2, h3⟩ := via_ok hw
  obtain ⟨k1, k2⟩ := cf_toSurd_value cfg c h s h1
  have hd : o.Defined := by
    by_contra hd
    rw [(NumOp.surd_spec cfg o k1).2 hd] at h2; cases h2
  obtain ⟨t', e, k3, k4⟩ := (NumOp.surd_spec cfg o k1).1 hd
  rw [h2] at e; cases e
  rw [HasVal.unique hx k2, ← k4] at hz ⊢
  obtain ⟨h4, h5⟩ := opp_conj_surd k3 hz
  obtain ⟨N, z', g1, -, -, g3, g2⟩ := Surd.surd_toContfrac_returns_partial cfg t k3 h5
  have e := Surd.surd_toContfrac_same_neg_conj cfg t t k3 k3 h5 h5 rfl fuel N w z' h3 (g1 N le_rfl)
  subst e
  exact ⟨g3, g2, Surd.surd_toContfrac_shortest_neg_conj cfg t k3 h5 fuel w h3⟩

/-- the fractions written in the formula without an operation on them have no shorter form -/
def Neat : PFormula → Prop
  | frac c _ => c.ShortestHead ∧ c.ShortestPeriod
  | neg f => f.Neat
  | _ => True

private theorem neg_shortest {c : CF} (h : c.ShortestHead ∧ c.ShortestPeriod) :
    c.neg'.ShortestHead ∧ c.neg'.ShortestPeriod := by
  unfold neg'
  split
  · exact h
  · exact h

private theorem neat_shortest (cfg : Cfg) (fuel : ℕ) (f : PFormula) (hf : f.Leaves) (hs : f.Every SameSign) (hn : f.Neat)
    (hz : OppConj f.val) (w : CF) (h : f.run cfg fuel = some (.ok w)) : w.ShortestHead ∧ w.ShortestPeriod := by
  induction f generalizing w with
  | frac c v => cases h; exact hn
  | neg f ih =>
    obtain ⟨c, h1, h2⟩ := andThen_ok h
    cases h2
    exact neg_shortest (ih hf hs hn (oppConj_neg hz) c h1)
  | num o f _ =>
    obtain ⟨c, h1, h2⟩ := andThen_ok h
    obtain ⟨k1, k2⟩ := pformula_value_partial cfg fuel f hf hs.1 c h1
    have hp : c.p ≠ [] := by
      intro hp
      obtain ⟨q, e⟩ := rat_of ((finite_iff k1 k2).1 hp)
      refine oppConj_irr hz ?_
      show o.real f.val ∈ _
      rw [e]
      cases o with
      | mulInt k => exact ⟨q * k, by simp [NumOp.real]⟩
      | divInt k => exact ⟨q / k, by simp [NumOp.real]⟩
      | addRat k => exact ⟨q + k, by simp [NumOp.real]⟩
      | subRat k => exact ⟨q - k, by simp [NumOp.real]⟩
      | mulRat k => exact ⟨q * k, by simp [NumOp.real]⟩
      | divRat k => exact ⟨q / k, by simp [NumOp.real]⟩
    exact (num_shortest cfg fuel c k1 hp _ k2 o hz w h2).2.2
  | bin o f g _ _ =>
    obtain ⟨c, h1, h2⟩ := andThen_ok h
    obtain ⟨e, h3, h4⟩ := andThen_ok h2
    obtain ⟨k1, k2⟩ := pformula_value_partial cfg fuel f hf.1 hs.1 c h1
    obtain ⟨l1, l2⟩ := pformula_value_partial cfg fuel g hf.2 hs.2.1 e h3
    have hp : c.p ≠ [] ∨ e.p ≠ [] := by
      by_contra hp
      push Not at hp
      obtain ⟨q, e1⟩ := rat_of ((finite_iff k1 k2).1 hp.1)
      obtain ⟨r, e2⟩ := rat_of ((finite_iff l1 l2).1 hp.2)
      refine oppConj_irr hz ?_
      show o.real f.val g.val ∈ _
      rw [e1, e2]
      cases o with
      | add => exact ⟨q + r, by simp [BinOp.real]⟩
      | sub => exact ⟨q - r, by simp [BinOp.real]⟩
      | mul => exact ⟨q * r, by simp [BinOp.real]⟩
      | div => exact ⟨q / r, by simp [BinOp.real]⟩
    exact (cf_bin_shortest_partial cfg fuel c e k1 l1 hp _ _ k2 l2 o hz w h4).2.2.2

/-- **C127** partial: two calculations of the same number, whose conjugate has the opposite sign, return the same
fraction.  (Missing: other numbers; a fraction that is only written down and has a shorter form.) -/
theorem pformula_same_partial (cfg : Cfg) (fuel fuel' : ℕ) (f g : PFormula) (hf : f.Leaves) (hg : g.Leaves)
    (hsf : f.Every SameSign) (hsg : g.Every SameSign) (hnf : f.Neat) (hng : g.Neat) (hz : OppConj f.val)
    (he : f.val = g.val) (w w' : CF) (h : f.run cfg fuel = some (.ok w)) (h' : g.run cfg fuel' = some (.ok w')) : w = w' := by
  obtain ⟨a1, a2⟩ := pformula_value_partial cfg fuel f hf hsf w h
  obtain ⟨b1, b2⟩ := pformula_value_partial cfg fuel' g hg hsg w' h'
  obtain ⟨a3, a4⟩ := neat_shortest cfg fuel f hf hsf hnf hz w h
  rw [he] at hz a2
  obtain ⟨b3, b4⟩ := neat_shortest cfg fuel' g hg hsg hng hz w' h'
  have p : ∀ c : CF, c.Wf → c.HasVal g.val → c.p ≠ [] := fun c h1 h2 hp => (finite_iff h1 h2).1 hp (oppConj_irr hz)
  exact eq_of_val a1 (p w a1 a2) b1 (p w' b1 b2) a2 b2 a3 a4 b3 b4

/-- **C127** partial: changing a periodic fraction by numbers, step after step, returns the fraction of the result, if no
result has a conjugate of its own sign. -/
theorem pformula_chain_partial (cfg : Cfg) (f : PFormula) (hc : f.Chain) (hl : f.Leaves) (he : f.Every OppConj)
    (hp : f.leaf.1.p ≠ []) (ha : f.leaf.1.a.length ≤ 2) :
    ∃ N w, (∀ fuel, N ≤ fuel → f.run cfg fuel = some (.ok w)) ∧ w.Wf ∧ w.HasVal f.val := by
  suffices H : ∃ N w, (∀ fuel, N ≤ fuel → f.run cfg fuel = some (.ok w)) ∧ w.Wf ∧ w.HasVal f.val ∧ w.p ≠ [] ∧ w.a.length ≤ 2 by
    obtain ⟨N, w, h1, h2, h3, -⟩ := H
    exact ⟨N, w, h1, h2, h3⟩
  induction f with
  | frac c v => exact ⟨0, c, fun _ _ => rfl, hl.1, hl.2, hp, ha⟩
  | neg f ih =>
    obtain ⟨N, w, h1, h2, h3, h4, h5⟩ := ih hc hl he hp ha
    obtain ⟨g1, g2, -⟩ := cf_neg w _ h3
    refine ⟨N, w.neg', fun fuel hf => ?_, g2 h2, g1, ?_, ?_⟩
    · show andThen (f.run cfg fuel) _ = _
      rw [h1 fuel hf]; rfl
    · unfold neg'; split <;> exact h4
    · unfold neg'; split <;> exact h5
  | num o f ih =>
    obtain ⟨N, w, h1, h2, h3, h4, h5⟩ := ih hc.1 hl he.1 hp ha
    have hz : OppConj (o.real f.val) := he.2 (by by_contra hi; exact h4 ((finite_iff h2 h3).2 hi))
    obtain ⟨M, w', k1, k2, k3⟩ := cf_num_periodic_returns_partial cfg w h2 h4 _ h3 h5 o hc.2 hz
    refine ⟨max N M, w', fun fuel hf => ?_, k2, k3, fun e => (finite_iff k2 k3).1 e (oppConj_irr hz),
      (num_shortest cfg M w h2 h4 _ h3 o hz w' (k1 M le_rfl)).1⟩
    show andThen (f.run cfg fuel) (fun c => o.run cfg fuel c) = _
    rw [h1 fuel (le_trans (le_max_left _ _) hf)]
    exact k1 fuel (le_trans (le_max_right _ _) hf)
  | bin o f g => exact hc.elim

/-- `3√2 + 1/2` -/
noncomputable def sample : PFormula := .num (.addRat (1 / 2)) (.num (.mulInt 3) (.frac ⟨[1], [2], false⟩ √2))

/-- `1/2 + √2·3`, with two fractions and a rational number -/
noncomputable def sample' : PFormula :=
  .bin .add (.num (.mulRat 3) (.frac ⟨[1], [2], false⟩ √2)) (.frac ⟨[0, 2], [], false⟩ (1 / 2))

private theorem sqrt2 : CF.HasVal ⟨[1], [2], false⟩ √2 := by
  have h := (cf_arith_refuted ⟨false, true⟩).2.2.1
  have := (cf_neg _ _ h).1
  rw [neg_neg] at this
  exact this

private theorem two_ns : ¬ IsSquare (2 : ℤ) := by
  rintro ⟨r, hr⟩
  have h1 : r < 2 := by nlinarith
  have h2 : -2 < r := by nlinarith
  interval_cases r <;> omega

private theorem sample_every {P : ℝ → Prop} (h : ∀ A B : ℚ, 0 ≤ A → A < 1 → B = 3 → P (A + B * √((2 : ℤ) : ℝ))) :
    sample.Every P ∧ sample'.Every P ∧ P sample.val := by
  have e1 : NumOp.real (.mulInt 3) √2 = ((0 : ℚ) : ℝ) + ((3 : ℚ) : ℝ) * √((2 : ℤ) : ℝ) := by
    simp [NumOp.real, mul_comm]
  have e2 : NumOp.real (.addRat (1 / 2)) (NumOp.real (.mulInt 3) √2) =
      ((1 / 2 : ℚ) : ℝ) + ((3 : ℚ) : ℝ) * √((2 : ℤ) : ℝ) := by
    simp [NumOp.real]; ring
  have e3 : NumOp.real (.mulRat 3) √2 = ((0 : ℚ) : ℝ) + ((3 : ℚ) : ℝ) * √((2 : ℤ) : ℝ) := by
    simp [NumOp.real, mul_comm]
  have e4 : BinOp.real .add (NumOp.real (.mulRat 3) √2) (1 / 2) =
      ((1 / 2 : ℚ) : ℝ) + ((3 : ℚ) : ℝ) * √((2 : ℤ) : ℝ) := by
    simp [NumOp.real, BinOp.real]; ring
  refine ⟨⟨⟨trivial, fun _ => ?_⟩, fun _ => ?_⟩, ⟨⟨trivial, fun _ => ?_⟩, trivial, fun _ => ?_⟩, ?_⟩
  · show P (NumOp.real (.mulInt 3) √2)
    rw [e1]; exact h 0 3 (by norm_num) (by norm_num) rfl
  · show P (NumOp.real (.addRat (1 / 2)) (NumOp.real (.mulInt 3) √2))
    rw [e2]; exact h (1 / 2) 3 (by norm_num) (by norm_num) rfl
  · show P (NumOp.real (.mulRat 3) √2)
    rw [e3]; exact h 0 3 (by norm_num) (by norm_num) rfl
  · show P (BinOp.real .add (NumOp.real (.mulRat 3) √2) (1 / 2))
    rw [e4]; exact h (1 / 2) 3 (by norm_num) (by norm_num) rfl
  · show P (NumOp.real (.addRat (1 / 2)) (NumOp.real (.mulInt 3) √2))
    rw [e2]; exact h (1 / 2) 3 (by norm_num) (by norm_num) rfl

/-- the two samples satisfy what is supposed above, and return the same fraction -/
example : sample.Leaves ∧ sample'.Leaves ∧ sample.Every SameSign ∧ sample'.Every SameSign ∧ sample.Every OppConj ∧
    OppConj sample.val ∧ sample.val = sample'.val ∧ sample.Neat ∧ sample'.Neat ∧ sample.Chain ∧ sample.leaf.1.p ≠ [] ∧
    sample.leaf.1.a.length ≤ 2 ∧
    sample.run ⟨false, true⟩ 40 = some (.ok ⟨[4], [1, 2, 1, 7], false⟩) ∧
    sample'.run ⟨false, true⟩ 40 = some (.ok ⟨[4], [1, 2, 1, 7], false⟩) := by
  have w : CF.Wf ⟨[1], [2], false⟩ := by simp [Wf]
  have l1 : sample.Leaves := ⟨w, sqrt2⟩
  have l2 : sample'.Leaves := by
    refine ⟨⟨w, sqrt2⟩, by simp [Wf], (hasVal_finite rfl).2 ⟨1 / 2, by decide +kernel, by norm_num⟩⟩
  obtain ⟨s1, s2, -⟩ := sample_every (P := SameSign) fun A B hA _ hB => by
    subst hB
    refine ⟨A, 3, 2, by norm_num, two_ns, rfl, ?_⟩
    have : (0 : ℝ) ≤ A := by exact_mod_cast hA
    positivity
  obtain ⟨o1, -, o2⟩ := sample_every (P := OppConj) fun A B hA hA' hB => by
    subst hB
    exact ⟨A, 3, 2, by norm_num, two_ns, rfl, by norm_num; nlinarith⟩
  refine ⟨l1, l2, s1, s2, o1, o2, ?_, trivial, trivial, ⟨⟨trivial, by simp [NumOp.Defined]⟩, trivial⟩, by simp [sample, leaf],
    by simp [sample, leaf], by simp only [sample, run]; decide +kernel, by simp only [sample', run]; decide +kernel⟩
  simp [sample, sample', val, NumOp.real, BinOp.real]

/-- **C127** refuted as it stands: `√7 - 3 + 3` returns `6 - √7`, and `3 - √2` never returns. -/
theorem pformula_refuted (cfg : Cfg) :
    (∃ (f : PFormula) (w : CF), f.Leaves ∧ f.val = √7 ∧ f.run cfg 40 = some (.ok w) ∧ ¬ w.HasVal √7) ∧
    ∃ f : PFormula, f.Leaves ∧ f.val = 3 - √2 ∧ ∀ fuel, f.run cfg fuel = none := by
  constructor
  · refine ⟨.num (.addRat 3) (.num (.subRat 3) (.frac ⟨[2], [1, 1, 1, 4], false⟩ √7)), ⟨[3, 2, 1], [4, 1, 1, 1], false⟩,
      ⟨by simp [Wf], (cf_arith_refuted cfg).2.1.1⟩, by simp [val, NumOp.real], ?_, fun h => ?_⟩
    · simp only [run]
      obtain ⟨c, d⟩ := cfg; cases c <;> cases d <;> decide +kernel
    · obtain ⟨-, -, -, -, h1⟩ := coeff_of_val (by simp [Wf]) (by simp) h
      have h2 := h1 0
      have h3 : ⌊|√7|⌋ = 2 := by
        rw [abs_of_nonneg (Real.sqrt_nonneg 7), Int.floor_eq_iff]
        constructor
        · exact Real.le_sqrt_of_sq_le (by norm_num)
        · rw [Real.sqrt_lt' (by norm_num)]; norm_num
      simp only [tails] at h2
      rw [h3] at h2
      simp [coeffAt] at h2
  · refine ⟨.num (.addRat 3) (.neg (.frac ⟨[1], [2], false⟩ √2)), ⟨by simp [Wf], sqrt2⟩, ?_, fun fuel => ?_⟩
    · simp [val, NumOp.real]; ring
    · exact (cf_arith_refuted cfg).2.2.2 fuel

end PFormula
end NumIrr
