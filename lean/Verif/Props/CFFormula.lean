/-
C123: whole calculations with finite continued fractions.
-/
import Verif.Spec.CFFormula
import Verif.Lemmas.FixedCFArith
import Verif.Props.CFLaws
import Verif.Props.CFShift
import Verif.Props.FixedCFSurd

namespace NumIrr
namespace CFFormula
open Fx CF

private theorem hasVal_ofRat (q : ℚ) : (CF.ofRat q).HasVal q :=
  (hasVal_finite (cf_ofRat q).1.1).2 ⟨q, (cf_ofRat q).2, rfl⟩

private theorem eq_ofRat {w : CF} (h : w.Canonical) {q : ℚ} (hv : w.HasVal q) : w = CF.ofRat q := by
  obtain ⟨r, h1, h2, h3⟩ := cf_toRational_finite w h.wf h.1
  have : r = q := by exact_mod_cast HasVal.unique h3 hv
  rw [← cf_ofRat_toRational w h r h1, this]

private theorem neg_ofRat (q : ℚ) : (CF.ofRat q).neg' = CF.ofRat (-q) := by
  obtain ⟨h1, h2, h3⟩ := cf_neg (CF.ofRat q) q (hasVal_ofRat q)
  have hs := h3 ⟨(cf_ofRat q).1.wf, fun _ => (cf_ofRat q).1⟩
  refine eq_ofRat (hs.2 ?_) (by exact_mod_cast h1)
  unfold neg'; split <;> exact (cf_ofRat q).1.1

private theorem bin_real (o : BinOp) (f g : CFFormula) : ((bin o f g).rat : ℝ) = o.real f.rat g.rat := by
  cases o <;> simp [rat, BinOp.real]

/-- **C123** With arbitrary precision every calculation ends: with the canonical fraction of the number its formula
denotes, or, if it divides by zero somewhere, with that panic. -/
theorem cf_formula (cfg : Cfg) (fuel : ℕ) (f : CFFormula) :
    (f.Defined → f.run cfg fuel = some (.ok (CF.ofRat f.rat))) ∧
    (¬ f.Defined → f.run cfg fuel = some (.error .divZero)) := by
  induction f with
  | lit q => exact ⟨fun _ => rfl, fun h => absurd trivial h⟩
  | neg f ih =>
    constructor
    · intro h
      show andThen (f.run cfg fuel) _ = _
      rw [ih.1 h]
      show some (Except.ok (CF.ofRat f.rat).neg') = _
      rw [neg_ofRat]; rfl
    · intro h
      show andThen (f.run cfg fuel) _ = _
      rw [ih.2 h]; rfl
  | bin o f g ihf ihg =>
    by_cases hf : f.Defined
    swap
    · refine ⟨fun h => absurd h.1 hf, fun _ => ?_⟩
      show andThen (f.run cfg fuel) _ = _
      rw [ihf.2 hf]; rfl
    by_cases hg : g.Defined
    swap
    · refine ⟨fun h => absurd h.2.1 hg, fun _ => ?_⟩
      show andThen (f.run cfg fuel) (fun c => andThen (g.run cfg fuel) _) = _
      rw [ihf.1 hf, ihg.2 hg]; rfl
    have e : (bin o f g).run cfg fuel = o.run cfg fuel (CF.ofRat f.rat) (CF.ofRat g.rat) := by
      show andThen (f.run cfg fuel) (fun c => andThen (g.run cfg fuel) fun e => o.run cfg fuel c e) = _
      rw [ihf.1 hf, ihg.1 hg]; rfl
    obtain ⟨h1, h2⟩ := cf_bin_rational cfg fuel _ _ (cf_ofRat f.rat).1.wf (cf_ofRat g.rat).1.wf (cf_ofRat f.rat).1.1
      (cf_ofRat g.rat).1.1 _ _ (hasVal_ofRat f.rat) (hasVal_ofRat g.rat) o
    rw [e]
    constructor
    · intro h
      obtain ⟨w, k1, k2, k3⟩ := h1 (fun ho => by exact_mod_cast h.2.2 ho)
      rw [k1, eq_ofRat k2 (q := (bin o f g).rat) (by rw [bin_real]; exact k3)]
    · intro h
      have : ¬ (o = .div → g.rat ≠ 0) := fun hh => h ⟨hf, hg, hh⟩
      push Not at this
      exact h2 ⟨this.1, by exact_mod_cast this.2⟩

/-- **C123** Two calculations return the same fraction exactly when they denote the same number. -/
theorem cf_formula_same (cfg : Cfg) (fuel : ℕ) (f g : CFFormula) (hf : f.Defined) (hg : g.Defined) :
    f.run cfg fuel = g.run cfg fuel ↔ f.rat = g.rat := by
  rw [(cf_formula cfg fuel f).1 hf, (cf_formula cfg fuel g).1 hg]
  constructor
  · intro h
    have h' : CF.ofRat f.rat = CF.ofRat g.rat := by simpa using h
    have := (cf_ofRat f.rat).2
    rw [h', (cf_ofRat g.rat).2] at this
    simpa using this.symm
  · intro h; rw [h]

/-- `(1/2 - 3/4) / (5/3)` -/
def sample : CFFormula := .bin .div (.bin .sub (.lit (1 / 2)) (.lit (3 / 4))) (.lit (5 / 3))

example : sample.Defined ∧ sample.rat = -3 / 20 ∧ sample.run ⟨false, true⟩ 0 = some (.ok ⟨[0, 6, 1, 2], [], true⟩) := by
  refine ⟨by simp [sample, Defined, rat], by norm_num [sample, rat], by decide +kernel⟩

/-! ### primitive integers -/

theorem reads_ofRat {x : Fx} {q : ℚ} (h : x.HoldsR (.of q)) (hm : q.num ≠ -2 ^ (x.w - 1)) :
    (CF.ofRat q).Reads x.w := by
  obtain ⟨h1, h2⟩ := h
  have h1' : x.Holds q.num := h1
  have h2' : x.Holds (q.den : Int) := h2
  unfold CF.Reads
  rw [if_pos (cf_ofRat q).1.1]
  refine ⟨q, (cf_ofRat q).2, ?_, h2'.2⟩
  unfold Fx.Holds at h1'
  omega

/-- the conversion of a fraction of the type: the exact one, which can be read back, or an overflow -/
theorem lit_step {x : Fx} (hw : 2 ≤ x.w) (hc : x.checks = true) {fuel : ℕ} (hf : 2 ^ x.w ≤ fuel) {q : ℚ}
    (h : x.HoldsR (.of q)) :
    (x.ofRat fuel (.of q) = some (.ok (CF.ofRat q)) ∧ (CF.ofRat q).Reads x.w) ∨
    x.ofRat fuel (.of q) = some (.error .overflow) := by
  by_cases hm : q.num = -2 ^ (x.w - 1)
  · right
    rcases ofRat_ref hw hc h hf with e | e
    · exfalso
      unfold Fx.ofRat Rt.of at e
      simp only at e
      have hq := Prim.two_pow_pos (x.w - 1)
      rw [if_neg (by omega), if_pos (by omega), show x.sub 0 q.num = x.neg q.num by unfold Fx.sub Fx.neg; rw [zero_sub],
        hm, neg_min hc] at e
      cases e
    · exact e
  · rcases ofRat_ref hw hc h hf with e | e
    · exact .inl ⟨e, reads_ofRat h hm⟩
    · exact .inr e

theorem bin_step {x : Fx} (hw : 2 ≤ x.w) (hc : x.checks = true) (cfg : Cfg) {fuel : ℕ} (hf : 2 ^ x.w ≤ fuel)
    {p q : ℚ} (hp : (CF.ofRat p).Reads x.w) (hq : (CF.ofRat q).Reads x.w) (o : BinOp) (w : CF)
    (h : o.runFx x cfg fuel (CF.ofRat p) (CF.ofRat q) = some (.ok w)) : w.Reads x.w := by
  have fin : ∀ r : ℚ, (CF.ofRat r).isRational = true := fun r => by simp [CF.isRational, (cf_ofRat r).1.1]
  have rd : ∀ r : ℚ, (CF.ofRat r).Reads x.w → x.ratValue (CF.ofRat r) = .ok (.of r) := by
    intro r hr
    obtain ⟨r', h1, -, h3, -⟩ := Fx.ratValue_exact (cf_ofRat r).1.wf (cf_ofRat r).1.1 hr
    rw [(cf_ofRat r).2] at h3
    cases h3; exact h1
  have key : ∀ (F : Rt → Rt → Res Rt) (G : ℚ → Res ℚ) (g : Surd → Res Surd),
      Refines (F (.of p) (.of q)) ((G q).map Rt.of) → Ens (F (.of p) (.of q)) x.HoldsR →
      x.opNumber cfg fuel (CF.ofRat p) (fun u => F u (.of q)) g = some (.ok w) → w.Reads x.w := by
    intro F G g h1 h2 h3
    unfold Fx.opNumber at h3
    rw [if_pos (fin p), rd p hp] at h3
    simp only [Surd.ok_bind] at h3
    cases e : F (.of p) (.of q) with
    | error e' => rw [e] at h3; cases h3
    | ok t =>
      rw [e] at h3
      have ht := h2 t e
      have h4 := h1.returns e
      cases e2 : G q with
      | error e' => rw [e2] at h4; cases h4
      | ok v =>
        rw [e2] at h4
        have : t = .of v := by
          have : (Except.ok (Rt.of v) : Res Rt) = .ok t := h4
          cases this; rfl
        subst this
        rcases lit_step hw hc hf ht with ⟨k1, k2⟩ | k
        · simp only at h3
          rw [k1] at h3; cases h3; exact k2
        · simp only at h3
          rw [k] at h3; cases h3
  have un : ∀ (f : CF → Rt → Option (Res CF)) (g : Surd → Surd → Res Surd),
      x.opCF cfg fuel (CF.ofRat p) (CF.ofRat q) f g = f (CF.ofRat p) (.of q) := by
    intro f g
    unfold Fx.opCF
    rw [if_pos (fin q), rd q hq]
  cases o with
  | add =>
    change x.opCF cfg fuel _ _ _ _ = _ at h
    rw [un] at h
    exact key x.rtAdd (fun q => .ok (p + q)) _ (rtAdd_ref hc p q) (rtAdd_holds hw _ _) h
  | sub =>
    change x.opCF cfg fuel _ _ _ _ = _ at h
    rw [un] at h
    exact key x.rtSub (fun q => .ok (p - q)) _ (rtSub_ref hc p q) (rtSub_holds hw _ _) h
  | mul =>
    change x.opCF cfg fuel _ _ _ _ = _ at h
    rw [un] at h
    exact key x.rtMul (fun q => .ok (p * q)) _ (rtMul_ref hc p q) (rtMul_holds hw _ _) h
  | div =>
    change x.opCF cfg fuel _ _ _ _ = _ at h
    rw [un] at h
    exact key x.rtDiv (fun q => ratioDiv p q) _ (rtDiv_refR hc p q) (rtDiv_holds hw _ _) h

theorem reads_neg {w : Nat} {q : ℚ} (h : (CF.ofRat q).Reads w) : (CF.ofRat (-q)).Reads w := by
  unfold CF.Reads at *
  rw [if_pos (cf_ofRat _).1.1] at *
  obtain ⟨r, h1, h2, h3⟩ := h
  rw [(cf_ofRat q).2] at h1
  cases h1
  exact ⟨-q, (cf_ofRat _).2, by simpa using h2, by simpa using h3⟩

/-- **C123** Over primitive integers with overflow checks, for numbers that can be written in the type, a calculation
does what it does with arbitrary precision, or panics with an overflow. -/
theorem cf_formula_fixed (x : Fx) (hw : 2 ≤ x.w) (hc : x.checks = true) (cfg : Cfg) (fuel : ℕ) (hf : 2 ^ x.w ≤ fuel)
    (f : CFFormula) (hx : f.Fits x.w) : RefinesO (f.runFx x cfg fuel) (f.run cfg fuel) := by
  have key : (∃ w, f.runFx x cfg fuel = some (.ok w) ∧ f.run cfg fuel = some (.ok w) ∧ f.Defined ∧
      w = CF.ofRat f.rat ∧ w.Reads x.w) ∨
      (f.runFx x cfg fuel = some (.error .divZero) ∧ f.run cfg fuel = some (.error .divZero)) ∨
      f.runFx x cfg fuel = some (.error .overflow) := by
    induction f with
    | lit q =>
      have hq : x.HoldsR (.of q) := by
        have := Prim.two_pow_pos (x.w - 1)
        refine ⟨⟨hx.1, hx.2.1⟩, ⟨?_, hx.2.2⟩⟩
        show -2 ^ (x.w - 1) ≤ (q.den : Int)
        omega
      rcases lit_step hw hc hf hq with ⟨h1, h2⟩ | h
      · exact .inl ⟨_, h1, rfl, trivial, rfl, h2⟩
      · exact .inr (.inr h)
    | neg f ih =>
      show (∃ w, andThen (f.runFx x cfg fuel) _ = _ ∧ andThen (f.run cfg fuel) _ = _ ∧ _ ∧ _ ∧ _) ∨ (andThen (f.runFx x cfg fuel) _ = _ ∧
        andThen (f.run cfg fuel) _ = _) ∨ andThen (f.runFx x cfg fuel) _ = _
      rcases ih hx with ⟨w, h1, h2, h3, rfl, h5⟩ | ⟨h1, h2⟩ | h
      · rw [h1, h2]
        exact .inl ⟨_, rfl, rfl, h3, neg_ofRat f.rat, by rw [neg_ofRat]; exact reads_neg h5⟩
      · rw [h1, h2]; exact .inr (.inl ⟨rfl, rfl⟩)
      · rw [h]; exact .inr (.inr rfl)
    | bin o f g ihf ihg =>
      show (∃ w, andThen (f.runFx x cfg fuel) (fun c => andThen (g.runFx x cfg fuel) _) = _ ∧
        andThen (f.run cfg fuel) (fun c => andThen (g.run cfg fuel) _) = _ ∧ _ ∧ _ ∧ _) ∨
        (andThen (f.runFx x cfg fuel) (fun c => andThen (g.runFx x cfg fuel) _) = _ ∧
        andThen (f.run cfg fuel) (fun c => andThen (g.run cfg fuel) _) = _) ∨
        andThen (f.runFx x cfg fuel) (fun c => andThen (g.runFx x cfg fuel) _) = _
      rcases ihf hx.1 with ⟨w, h1, h2, h3, rfl, h5⟩ | ⟨h1, h2⟩ | h
      · rcases ihg hx.2 with ⟨v, k1, k2, k3, rfl, k5⟩ | ⟨k1, k2⟩ | k
        · have hb := cf_formula cfg fuel (bin o f g)
          have e : (bin o f g).run cfg fuel = o.run cfg fuel (CF.ofRat f.rat) (CF.ofRat g.rat) := by
            show andThen (f.run cfg fuel) (fun c => andThen (g.run cfg fuel) fun e => o.run cfg fuel c e) = _
            rw [h2, k2]; rfl
          rw [e] at hb
          rw [h1, h2, k1, k2]
          show (∃ w, o.runFx x cfg fuel _ _ = _ ∧ o.run cfg fuel _ _ = _ ∧ _ ∧ _ ∧ _) ∨
            (o.runFx x cfg fuel _ _ = _ ∧ o.run cfg fuel _ _ = _) ∨ o.runFx x cfg fuel _ _ = _
          rcases fixed_cf_bin_partial x hw hc cfg fuel hf _ _ (cf_ofRat f.rat).1.wf h5 (cf_ofRat g.rat).1.wf k5 o
            with r | r
          · by_cases hd : (bin o f g).Defined
            · have := hb.1 hd
              exact .inl ⟨_, r.trans this, this, hd, rfl, bin_step hw hc cfg hf h5 k5 o _ (r.trans this)⟩
            · have := hb.2 hd
              exact .inr (.inl ⟨r.trans this, this⟩)
          · exact .inr (.inr r)
        · rw [h1, h2, k1, k2]; exact .inr (.inl ⟨rfl, rfl⟩)
        · rw [h1, k]; exact .inr (.inr rfl)
      · rw [h1, h2]; exact .inr (.inl ⟨rfl, rfl⟩)
      · rw [h]; exact .inr (.inr rfl)
  rcases key with ⟨w, h1, h2, -⟩ | ⟨h1, h2⟩ | h
  · left; rw [h1, h2]
  · left; rw [h1, h2]
  · exact .inr h

/-- **C123** so over primitive integers with overflow checks every identity between rational numbers holds for the
fractions calculated, wherever both sides return -/
theorem cf_formula_fixed_same (x : Fx) (hw : 2 ≤ x.w) (hc : x.checks = true) (cfg : Cfg) (fuel : ℕ)
    (hf : 2 ^ x.w ≤ fuel) (f g : CFFormula) (hxf : f.Fits x.w) (hxg : g.Fits x.w) (c e : CF)
    (h1 : f.runFx x cfg fuel = some (.ok c)) (h2 : g.runFx x cfg fuel = some (.ok e)) :
    f.Defined ∧ g.Defined ∧ c = CF.ofRat f.rat ∧ e = CF.ofRat g.rat ∧ (c = e ↔ f.rat = g.rat) := by
  have val : ∀ (f : CFFormula) (c : CF), f.Fits x.w → f.runFx x cfg fuel = some (.ok c) →
      f.Defined ∧ c = CF.ofRat f.rat := by
    intro f c hx h
    rcases cf_formula_fixed x hw hc cfg fuel hf f hx with r | r
    · rw [h] at r
      by_cases hd : f.Defined
      · rw [(cf_formula cfg fuel f).1 hd] at r
        exact ⟨hd, by simpa using r⟩
      · rw [(cf_formula cfg fuel f).2 hd] at r
        cases r
    · rw [h] at r; cases r
  obtain ⟨a1, a2⟩ := val f c hxf h1
  obtain ⟨b1, b2⟩ := val g e hxg h2
  refine ⟨a1, b1, a2, b2, ?_⟩
  have := cf_formula_same cfg fuel f g a1 b1
  rw [(cf_formula cfg fuel f).1 a1, (cf_formula cfg fuel g).1 b1, ← a2, ← b2] at this
  rw [← this]
  constructor
  · rintro rfl; rfl
  · intro h; simpa using h

/-- the sample over `i8`; `100/3 + 100/3 + 100/3` overflows there -/
example : sample.Fits 8 ∧ sample.runFx ⟨8, true⟩ ⟨false, true⟩ 256 = some (.ok ⟨[0, 6, 1, 2], [], true⟩) ∧
    (bin .add (lit (100 / 3)) (bin .add (lit (100 / 3)) (lit (100 / 3)))).runFx ⟨8, true⟩ ⟨false, true⟩ 256 =
      some (.error .overflow) := by
  refine ⟨?_, by decide +kernel, by decide +kernel⟩
  simp only [sample, Fits]; decide +kernel

/-- **C123** without overflow checks a calculation that returns may be wrong: `100/3 + 100/3` over `i8` -/
theorem cf_formula_release_refuted : ∃ (f : CFFormula) (c : CF), f.Fits 8 ∧ f.Defined ∧
    f.runFx ⟨8, false⟩ ⟨false, true⟩ 256 = some (.ok c) ∧ c ≠ CF.ofRat f.rat := by
  refine ⟨bin .add (lit (100 / 3)) (lit (100 / 3)), ⟨[18, 1, 2], [], true⟩, ?_, by simp [Defined], by decide +kernel, ?_⟩
  · simp only [Fits]; decide +kernel
  · simp only [rat]; decide +kernel

end CFFormula
end NumIrr
