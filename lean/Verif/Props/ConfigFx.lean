/-
C139: the build configuration, over primitive integers with overflow checks.
-/
import Verif.Props.Config
import Verif.Model.FixedSurd

namespace NumIrr

private theorem bind_same {α β : Type} {r r' : Res α} {f f' : α → Res β} (h : r = r') (hf : ∀ a, r' = .ok a → f a = f' a) :
    (r >>= f) = (r' >>= f') := by
  subst h
  cases r with
  | error e => rfl
  | ok a => exact hf a rfl

private theorem bind_ok {α β : Type} {r : Res α} {f : α → Res β} {v : β} (h : (r >>= f) = .ok v) :
    ∃ a, r = .ok a ∧ f a = .ok v := by
  cases r with
  | error e => cases h
  | ok a => exact ⟨a, rfl, h⟩

namespace Fx

variable {x : Fx} (cfg cfg' : Cfg)

/-- the number under the root is not negative and representable -/
def RealR (x : Fx) (s : Surd) : Prop := 0 ≤ s.r ∧ x.fits s.r = true

private theorem ret_ok (hx : x.checks = true) {v u : ℤ} (h : x.ret v = .ok u) : u = v ∧ x.fits v = true := by
  unfold ret at h
  rw [hx] at h
  split at h
  · next hf => cases h; exact ⟨rfl, hf⟩
  · cases h

private theorem ret_of {v : ℤ} (h : x.fits v = true) : x.ret v = .ok v := by
  unfold ret; rw [if_pos h]

private theorem div_nn {a b u : ℤ} (ha : 0 ≤ a) (hb : 0 ≤ b) (h : x.div a b = .ok u) : 0 ≤ u ∧ x.fits u = true := by
  unfold div at h
  split at h
  · cases h
  · split at h
    · next hf => cases h; exact ⟨Int.tdiv_nonneg ha hb, hf⟩
    · cases h

private theorem zero_fits : x.fits 0 = true := by
  unfold fits
  simp [IntTy.signed]

private theorem gcd_nn (hx : x.checks = true) {a b u : ℤ} (h : x.gcd a b = .ok u) : 0 ≤ u := by
  obtain ⟨h1, -⟩ := ret_ok hx h
  rw [h1]
  unfold igcd
  omega

/-! ### roots stay real -/

private theorem reduce_real (hx : x.checks = true) {s t : Surd} (h0 : 0 ≤ s.r) (hf : x.fits s.r = true)
    (h : x.reduce s = .ok t) : x.RealR t := by
  unfold reduce at h
  split at h
  · cases h
  · obtain ⟨u, h1, h⟩ := bind_ok h
    obtain ⟨v, h2, h⟩ := bind_ok h
    have hu : x.RealR u := by
      unfold reduceSquare at h1
      obtain ⟨m, -, h1⟩ := bind_ok h1
      obtain ⟨rt, -, h1⟩ := bind_ok h1
      obtain ⟨sq, -, h1⟩ := bind_ok h1
      split at h1
      · rw [if_neg (by omega)] at h1
        obtain ⟨_, -, h1⟩ := bind_ok h1
        obtain ⟨_, -, h1⟩ := bind_ok h1
        cases h1
        exact ⟨le_rfl, zero_fits⟩
      · cases h1; exact ⟨h0, hf⟩
    have hv : x.RealR v := by
      split at h2
      · unfold reduceRat at h2
        obtain ⟨_, -, h2⟩ := bind_ok h2
        obtain ⟨_, -, h2⟩ := bind_ok h2
        obtain ⟨_, -, h2⟩ := bind_ok h2
        cases h2
        exact ⟨le_rfl, zero_fits⟩
      · unfold reduceIrr at h2
        obtain ⟨w, h3, h2⟩ := bind_ok h2
        obtain ⟨_, -, h2⟩ := bind_ok h2
        obtain ⟨_, -, h2⟩ := bind_ok h2
        obtain ⟨_, -, h2⟩ := bind_ok h2
        obtain ⟨_, -, h2⟩ := bind_ok h2
        cases h2
        unfold reduceFactor at h3
        obtain ⟨gac, -, h3⟩ := bind_ok h3
        obtain ⟨gac2, -, h3⟩ := bind_ok h3
        obtain ⟨gacr, h4, h3⟩ := bind_ok h3
        obtain ⟨groot, -, h3⟩ := bind_ok h3
        obtain ⟨sq, -, h3⟩ := bind_ok h3
        split at h3
        · obtain ⟨r, h5, h3⟩ := bind_ok h3
          obtain ⟨_, -, h3⟩ := bind_ok h3
          obtain ⟨_, -, h3⟩ := bind_ok h3
          obtain ⟨_, -, h3⟩ := bind_ok h3
          cases h3
          exact div_nn hu.1 (gcd_nn hx h4) h5
        · cases h3; exact hu
    unfold reduceSign at h
    split at h
    · obtain ⟨_, -, h⟩ := bind_ok h
      obtain ⟨_, -, h⟩ := bind_ok h
      obtain ⟨_, -, h⟩ := bind_ok h
      cases h
      exact hv
    · cases h; exact hv

private theorem new_same {a b c r : ℤ} (h : 0 ≤ r) : x.surdNew cfg a b c r = x.surdNew cfg' a b c r := by
  unfold surdNew
  rw [if_neg (by omega), if_neg (by omega)]

private theorem fc_same {l : Coeffs} {r : ℤ} (h : 0 ≤ r) : x.fromCoeffs cfg l r = x.fromCoeffs cfg' l r := by
  unfold fromCoeffs
  rw [if_neg (by omega), if_neg (by omega)]

private theorem new_real {cfg : Cfg} (hx : x.checks = true) {a b c r : ℤ} {t : Surd} (h0 : 0 ≤ r) (hf : x.fits r = true)
    (h : x.surdNew cfg a b c r = .ok t) : x.RealR t := by
  unfold surdNew at h
  rw [if_neg (by omega)] at h
  exact reduce_real hx h0 hf h

private theorem fw_same {s : Surd} (h : 0 ≤ s.r) (op : Res Coeffs) : x.forward cfg s op = x.forward cfg' s op :=
  bind_same rfl fun _ _ => fc_same _ _ h

private theorem fw_real {cfg : Cfg} (hx : x.checks = true) {s t : Surd} (h0 : x.RealR s) {op : Res Coeffs}
    (h : x.forward cfg s op = .ok t) : x.RealR t := by
  obtain ⟨l, -, h⟩ := bind_ok h
  exact new_real (cfg := cfg) hx h0.1 h0.2 (h : x.surdNew cfg _ _ _ _ = _)

private theorem hinted_real (hx : x.checks = true) {s t : Surd} (h0 : x.RealR s) {k : ℤ}
    (h : x.reduceRootHinted s k = .ok t) : x.RealR t := by
  unfold reduceRootHinted at h
  obtain ⟨a, ha, h⟩ := bind_ok h
  have ha0 : 0 ≤ a := by
    obtain ⟨e, -⟩ := ret_ok hx ha
    omega
  split at h
  · cases h; exact h0
  · obtain ⟨quo, hq, h⟩ := bind_ok h
    obtain ⟨rem, -, h⟩ := bind_ok h
    split at h
    · obtain ⟨_, -, h⟩ := bind_ok h
      obtain ⟨_, -, h⟩ := bind_ok h
      split at h
      · obtain ⟨_, -, h⟩ := bind_ok h
        obtain ⟨_, -, h⟩ := bind_ok h
        obtain ⟨_, -, h⟩ := bind_ok h
        obtain ⟨_, -, h⟩ := bind_ok h
        obtain ⟨_, -, h⟩ := bind_ok h
        obtain ⟨_, -, h⟩ := bind_ok h
        cases h
        exact div_nn h0.1 ha0 hq
      · cases h; exact h0
    · cases h; exact h0

private theorem abs_real {s : Surd} (h : x.RealR s) : x.abs s.r = .ok s.r := by
  unfold abs
  rw [show (s.r.natAbs : ℤ) = s.r by have := h.1; omega]
  exact ret_of h.2

private theorem rbo {l r : Surd} (hl : x.RealR l) (hr : x.RealR r) (hl0 : l.r ≠ 0) (hr0 : r.r ≠ 0) :
    x.reduceBinOp cfg l r = x.reduceBinOp cfg' l r := by
  have h1 := hl.1
  have h2 := hr.1
  have e1 : ((decide (l.r < 0)) ^^ (decide (r.r < 0))) = false := by
    rw [decide_eq_false (by omega), decide_eq_false (by omega)]; rfl
  have e4 : ¬ (l.r = 0 ∨ r.r = 0) := by omega
  have key : ∀ c d, x.reduceBinOp ⟨c, d⟩ l r = x.reduceBinOp ⟨false, false⟩ l r := by
    intro c d
    unfold reduceBinOp
    rw [abs_real hl, abs_real hr]
    cases c <;> cases d <;> simp [e1, e4, Surd.ok_bind]
  rw [key cfg.complex cfg.debug, key cfg'.complex cfg'.debug]

private theorem rbu {l r : Surd} (hl : x.RealR l) (hr : x.RealR r) (hl0 : l.r ≠ 0) (hr0 : r.r ≠ 0) :
    x.reduceBinOpUnwrap cfg l r = x.reduceBinOpUnwrap cfg' l r := by
  unfold reduceBinOpUnwrap
  rw [rbo cfg cfg' hl hr hl0 hr0]

private theorem rbu_real (hx : x.checks = true) {cfg : Cfg} {l r : Surd} (hl : x.RealR l) {p : Surd × Surd}
    (h : x.reduceBinOpUnwrap cfg l r = .ok p) : x.RealR p.1 := by
  unfold reduceBinOpUnwrap at h
  obtain ⟨o, h1, h2⟩ := bind_ok h
  cases o with
  | none => cases h2
  | some q =>
    have h2 : q = p := Except.ok.inj h2
    subst h2
    have key : ∀ {a b : Surd}, x.RealR a →
        (pure (sameRoot (a, b)) : Res (Option (Surd × Surd))) = .ok (some q) → x.RealR q.1 := by
      intro a b ha h
      have h := Except.ok.inj h
      unfold sameRoot at h
      split at h
      · cases h; exact ha
      · cases h
    unfold reduceBinOp at h1
    split at h1
    · split at h1
      · cases h1
      · obtain ⟨_, -, h1⟩ := bind_ok h1
        obtain ⟨_, -, h1⟩ := bind_ok h1
        split at h1
        · obtain ⟨_, -, h1⟩ := bind_ok h1
          obtain ⟨_, h3, h1⟩ := bind_ok h1
          exact key (hinted_real hx hl h3) h1
        · obtain ⟨_, -, h1⟩ := bind_ok h1
          obtain ⟨_, -, h1⟩ := bind_ok h1
          split at h1
          · obtain ⟨_, -, h1⟩ := bind_ok h1
            obtain ⟨_, -, h1⟩ := bind_ok h1
            exact key hl h1
          · exact key hl h1
    · split at h1
      · cases h1
      · split at h1
        · obtain ⟨_, -, h1⟩ := bind_ok h1
          obtain ⟨_, h3, h1⟩ := bind_ok h1
          exact key (hinted_real hx hl h3) h1
        · split at h1
          · obtain ⟨_, -, h1⟩ := bind_ok h1
            obtain ⟨_, -, h1⟩ := bind_ok h1
            exact key hl h1
          · exact key hl h1

private theorem nz {s : Surd} (h : ¬ s.isRational = true) : s.r ≠ 0 := by
  intro e
  exact h (by simp [Surd.isRational, e])

/-! ### arithmetic -/

/-- **C139** the four operations of two real surds over a primitive type with overflow checks: the same result or the same
panic, overflow included, in every build; and a result is real again. -/
theorem fixed_config_binary (hx : x.checks = true) (l r : Surd) (hl : x.RealR l) (hr : x.RealR r) :
    (x.surdAdd cfg l r = x.surdAdd cfg' l r ∧ x.surdSub cfg l r = x.surdSub cfg' l r ∧
      x.surdMul cfg l r = x.surdMul cfg' l r ∧ x.surdDiv cfg l r = x.surdDiv cfg' l r) ∧
    ∀ z, x.surdAdd cfg l r = .ok z ∨ x.surdSub cfg l r = .ok z ∨ x.surdMul cfg l r = .ok z ∨ x.surdDiv cfg l r = .ok z →
      x.RealR z := by
  have mulnn : ∀ {a b u : ℤ}, 0 ≤ a → 0 ≤ b → x.mul a b = .ok u → 0 ≤ u ∧ x.fits u = true := by
    intro a b u ha hb h
    obtain ⟨e, hf⟩ := ret_ok hx h
    rw [e]
    exact ⟨mul_nonneg ha hb, hf⟩
  refine ⟨⟨?_, ?_, ?_, ?_⟩, ?_⟩
  · unfold surdAdd
    split
    · exact bind_same rfl fun q _ => fw_same _ _ hl.1 _
    · next h1 =>
      split
      · exact bind_same rfl fun q _ => fw_same _ _ hr.1 _
      · next h2 =>
        exact bind_same (rbu cfg cfg' hl hr (nz h2) (nz h1)) fun p hp => fw_same _ _ (rbu_real hx hl hp).1 _
  · unfold surdSub
    split
    · exact bind_same rfl fun q _ => fw_same _ _ hl.1 _
    · next h1 =>
      split
      · exact bind_same rfl fun q _ => bind_same (fw_same _ _ hr.1 _) fun _ _ => rfl
      · next h2 =>
        exact bind_same (rbu cfg cfg' hl hr (nz h2) (nz h1)) fun p hp => fw_same _ _ (rbu_real hx hl hp).1 _
  · unfold surdMul
    split
    · exact bind_same rfl fun q _ => fw_same _ _ hl.1 _
    · next h1 =>
      split
      · exact bind_same rfl fun q _ => fw_same _ _ hr.1 _
      · next h2 =>
        split
        · refine bind_same rfl fun g hg => bind_same rfl fun t1 h1 => bind_same rfl fun t2 h2 =>
            bind_same rfl fun d hd => bind_same rfl fun _ _ => bind_same rfl fun _ _ => bind_same rfl fun _ _ => ?_
          exact new_same _ _ (mulnn (div_nn hl.1 (gcd_nn hx hg) h1).1 (div_nn hr.1 (gcd_nn hx hg) h2).1 hd).1
        · exact bind_same (rbu cfg cfg' hl hr (nz h2) (nz h1)) fun p hp => fw_same _ _ (rbu_real hx hl hp).1 _
  · unfold surdDiv
    split
    · exact bind_same rfl fun q _ => fw_same _ _ hl.1 _
    · next h1 =>
      split
      · refine bind_same rfl fun q _ => bind_same (fw_same _ _ hr.1 _) fun d hd => ?_
        have hd := fw_real hx hr hd
        exact bind_same rfl fun _ _ => bind_same rfl fun _ _ => bind_same rfl fun _ _ => bind_same rfl fun _ _ =>
          bind_same rfl fun _ _ => bind_same rfl fun _ _ => bind_same rfl fun _ _ => new_same _ _ hd.1
      · next h2 =>
        split
        · refine bind_same rfl fun g hg => bind_same rfl fun t1 h1 => bind_same rfl fun t2 h2 =>
            bind_same rfl fun _ _ => bind_same rfl fun _ _ => bind_same rfl fun _ _ => bind_same rfl fun d hd => ?_
          exact new_same _ _ (mulnn (div_nn hl.1 (gcd_nn hx hg) h1).1 (div_nn hr.1 (gcd_nn hx hg) h2).1 hd).1
        · exact bind_same (rbu cfg cfg' hl hr (nz h2) (nz h1)) fun p hp => fw_same _ _ (rbu_real hx hl hp).1 _
  · intro z h
    rcases h with h | h | h | h
    · unfold surdAdd at h
      split at h
      · obtain ⟨q, -, h⟩ := bind_ok h
        exact fw_real hx hl h
      · split at h
        · obtain ⟨q, -, h⟩ := bind_ok h
          exact fw_real hx hr h
        · obtain ⟨p, hp, h⟩ := bind_ok h
          exact fw_real hx (rbu_real hx hl hp) h
    · unfold surdSub at h
      split at h
      · obtain ⟨q, -, h⟩ := bind_ok h
        exact fw_real hx hl h
      · split at h
        · obtain ⟨q, -, h⟩ := bind_ok h
          obtain ⟨d, hd, h⟩ := bind_ok h
          have hd := fw_real hx hr hd
          obtain ⟨_, -, h⟩ := bind_ok h
          obtain ⟨_, -, h⟩ := bind_ok h
          cases h
          exact hd
        · obtain ⟨p, hp, h⟩ := bind_ok h
          exact fw_real hx (rbu_real hx hl hp) h
    · unfold surdMul at h
      split at h
      · obtain ⟨q, -, h⟩ := bind_ok h
        exact fw_real hx hl h
      · split at h
        · obtain ⟨q, -, h⟩ := bind_ok h
          exact fw_real hx hr h
        · split at h
          · obtain ⟨g, hg, h⟩ := bind_ok h
            obtain ⟨t1, h1, h⟩ := bind_ok h
            obtain ⟨t2, h2, h⟩ := bind_ok h
            obtain ⟨d, hd, h⟩ := bind_ok h
            obtain ⟨_, -, h⟩ := bind_ok h
            obtain ⟨_, -, h⟩ := bind_ok h
            obtain ⟨_, -, h⟩ := bind_ok h
            have := mulnn (div_nn hl.1 (gcd_nn hx hg) h1).1 (div_nn hr.1 (gcd_nn hx hg) h2).1 hd
            exact new_real hx this.1 this.2 h
          · obtain ⟨p, hp, h⟩ := bind_ok h
            exact fw_real hx (rbu_real hx hl hp) h
    · unfold surdDiv at h
      split at h
      · obtain ⟨q, -, h⟩ := bind_ok h
        exact fw_real hx hl h
      · split at h
        · obtain ⟨q, -, h⟩ := bind_ok h
          obtain ⟨d, hd, h⟩ := bind_ok h
          have hd := fw_real hx hr hd
          unfold recip at h
          obtain ⟨_, -, h⟩ := bind_ok h
          obtain ⟨_, -, h⟩ := bind_ok h
          obtain ⟨_, -, h⟩ := bind_ok h
          obtain ⟨_, -, h⟩ := bind_ok h
          obtain ⟨_, -, h⟩ := bind_ok h
          obtain ⟨_, -, h⟩ := bind_ok h
          obtain ⟨_, -, h⟩ := bind_ok h
          exact new_real hx hd.1 hd.2 h
        · split at h
          · obtain ⟨g, hg, h⟩ := bind_ok h
            obtain ⟨t1, h1, h⟩ := bind_ok h
            obtain ⟨t2, h2, h⟩ := bind_ok h
            obtain ⟨_, -, h⟩ := bind_ok h
            obtain ⟨_, -, h⟩ := bind_ok h
            obtain ⟨_, -, h⟩ := bind_ok h
            obtain ⟨d, hd, h⟩ := bind_ok h
            have := mulnn (div_nn hl.1 (gcd_nn hx hg) h1).1 (div_nn hr.1 (gcd_nn hx hg) h2).1 hd
            exact new_real hx this.1 this.2 h
          · obtain ⟨p, hp, h⟩ := bind_ok h
            exact fw_real hx (rbu_real hx hl hp) h

example : RealR ⟨8, true⟩ ⟨1, 1, 1, 8⟩ ∧ RealR ⟨8, true⟩ ⟨1, 1, 3, 2⟩ ∧
    surdAdd ⟨8, true⟩ ⟨false, true⟩ ⟨1, 1, 1, 8⟩ ⟨1, 1, 3, 2⟩ = .ok ⟨4, 7, 3, 2⟩ ∧
    surdMul ⟨8, true⟩ ⟨true, false⟩ ⟨0, 1, 1, 13⟩ ⟨0, 1, 1, 11⟩ = .error .overflow := by
  refine ⟨⟨by decide, by decide⟩, ⟨by decide, by decide⟩, by decide +kernel, by decide +kernel⟩

/-- not so without overflow checks: the product of `√13` and `√11` over `i8` wraps around to the root of `-113`, which is a
panic or a complex number depending on the feature -/
theorem fixed_config_mul_refuted :
    surdMul ⟨8, false⟩ ⟨false, false⟩ ⟨0, 1, 1, 13⟩ ⟨0, 1, 1, 11⟩ = .error .negRoot ∧
      surdMul ⟨8, false⟩ ⟨true, false⟩ ⟨0, 1, 1, 13⟩ ⟨0, 1, 1, 11⟩ = .ok ⟨0, 1, 1, -113⟩ := by decide +kernel

/-- **C139** functions of one surd. -/
theorem fixed_config_unary (s : Surd) (h : 0 ≤ s.r) (k : ℤ) (q : Rt) :
    x.recip cfg s = x.recip cfg' s ∧ x.trunc cfg s = x.trunc cfg' s ∧ x.floor cfg s = x.floor cfg' s ∧
      x.toInteger cfg s = x.toInteger cfg' s ∧ x.toRational cfg s = x.toRational cfg' s ∧
      x.isPositive cfg s = x.isPositive cfg' s ∧ x.isNegative cfg s = x.isNegative cfg' s ∧
      (x.surdAddInt cfg s k = x.surdAddInt cfg' s k ∧ x.surdSubInt cfg s k = x.surdSubInt cfg' s k ∧
        x.surdMulInt cfg s k = x.surdMulInt cfg' s k ∧ x.surdDivInt cfg s k = x.surdDivInt cfg' s k) ∧
      (x.surdAddRat cfg s q = x.surdAddRat cfg' s q ∧ x.surdSubRat cfg s q = x.surdSubRat cfg' s q ∧
        x.surdMulRat cfg s q = x.surdMulRat cfg' s q ∧ x.surdDivRat cfg s q = x.surdDivRat cfg' s q) := by
  have hp : ∀ c, s.panicIfComplex c = .ok () := by
    intro c
    unfold Surd.panicIfComplex
    rw [if_neg (by omega)]
  have ht : x.trunc cfg s = x.trunc cfg' s := by
    unfold trunc
    rw [if_neg (by omega), if_neg (by omega)]
  refine ⟨?_, ht, ?_, ?_, ?_, ?_, ?_, ⟨fw_same _ _ h _, fw_same _ _ h _, fw_same _ _ h _, fw_same _ _ h _⟩,
    fw_same _ _ h _, fw_same _ _ h _, fw_same _ _ h _, fw_same _ _ h _⟩
  · exact bind_same rfl fun _ _ => bind_same rfl fun _ _ => bind_same rfl fun _ _ => bind_same rfl fun _ _ =>
      bind_same rfl fun _ _ => bind_same rfl fun _ _ => bind_same rfl fun _ _ => new_same _ _ h
  · unfold floor; rw [hp cfg, hp cfg']
  · unfold toInteger; rw [hp cfg, hp cfg', ht]
  · unfold toRational; rw [hp cfg, hp cfg']
  · unfold isPositive; rw [hp cfg, hp cfg']
  · unfold isNegative; rw [hp cfg, hp cfg']

end Fx

/-! ### programs -/

namespace SProg

/-- no root of a negative or of an unrepresentable number is written in it -/
def Expr.RealFx (x : Fx) : Expr → Prop
  | var _ => True
  | lit _ _ _ r => 0 ≤ r ∧ x.fits r = true
  | op1 _ e => e.RealFx x
  | op2 _ e f => e.RealFx x ∧ f.RealFx x

def Test.RealFx (x : Fx) : Test → Prop
  | positive e | negative e | zero e | one e | rational e | integer e => e.RealFx x
  | equal e f => e.RealFx x ∧ f.RealFx x
  | not t => t.RealFx x
  | and t u => t.RealFx x ∧ u.RealFx x

def Prog.RealFx (x : Fx) : Prog → Prop
  | skip => True
  | assign _ e => e.RealFx x
  | seq p q => p.RealFx x ∧ q.RealFx x
  | ite t p q => t.RealFx x ∧ p.RealFx x ∧ q.RealFx x
  | .while t p => t.RealFx x ∧ p.RealFx x

variable {x : Fx} (cfg cfg' : Cfg)

private theorem op1_same (o : Op1) (s : Surd) (h : x.RealR s) : o.runFx x cfg s = o.runFx x cfg' s := by
  have h1 := fun k q => Fx.fixed_config_unary (x := x) cfg cfg' s h.1 k q
  cases o with
  | neg => rfl
  | recip => exact (h1 0 ⟨0, 0⟩).1
  | floor => exact (h1 0 ⟨0, 0⟩).2.2.1
  | addI k => exact (h1 k ⟨0, 0⟩).2.2.2.2.2.2.2.1.1
  | subI k => exact (h1 k ⟨0, 0⟩).2.2.2.2.2.2.2.1.2.1
  | mulI k => exact (h1 k ⟨0, 0⟩).2.2.2.2.2.2.2.1.2.2.1
  | divI k => exact (h1 k ⟨0, 0⟩).2.2.2.2.2.2.2.1.2.2.2
  | addR q => exact (h1 0 _).2.2.2.2.2.2.2.2.1
  | subR q => exact (h1 0 _).2.2.2.2.2.2.2.2.2.1
  | mulR q => exact (h1 0 _).2.2.2.2.2.2.2.2.2.2.1
  | divR q => exact (h1 0 _).2.2.2.2.2.2.2.2.2.2.2

private theorem op1_real (hx : x.checks = true) (o : Op1) (s t : Surd) (h : x.RealR s) (e : o.runFx x cfg s = .ok t) :
    x.RealR t := by
  cases o with
  | neg =>
    obtain ⟨_, -, e⟩ := bind_ok e
    obtain ⟨_, -, e⟩ := bind_ok e
    cases e
    exact h
  | recip =>
    obtain ⟨_, -, e⟩ := bind_ok e
    obtain ⟨_, -, e⟩ := bind_ok e
    obtain ⟨_, -, e⟩ := bind_ok e
    obtain ⟨_, -, e⟩ := bind_ok e
    obtain ⟨_, -, e⟩ := bind_ok e
    obtain ⟨_, -, e⟩ := bind_ok e
    obtain ⟨_, -, e⟩ := bind_ok e
    exact Fx.new_real hx h.1 h.2 e
  | floor =>
    have e : x.floor cfg s = .ok t := e
    unfold Fx.floor at e
    obtain ⟨_, -, e⟩ := bind_ok e
    obtain ⟨_, -, e⟩ := bind_ok e
    obtain ⟨_, -, e⟩ := bind_ok e
    obtain ⟨_, -, e⟩ := bind_ok e
    obtain ⟨_, -, e⟩ := bind_ok e
    obtain ⟨_, -, e⟩ := bind_ok e
    obtain ⟨_, -, e⟩ := bind_ok e
    cases e
    exact ⟨le_rfl, Fx.zero_fits⟩
  | addI k => exact Fx.fw_real hx h e
  | subI k => exact Fx.fw_real hx h e
  | mulI k => exact Fx.fw_real hx h e
  | divI k => exact Fx.fw_real hx h e
  | addR q => exact Fx.fw_real hx h e
  | subR q => exact Fx.fw_real hx h e
  | mulR q => exact Fx.fw_real hx h e
  | divR q => exact Fx.fw_real hx h e

private theorem op2_same (hx : x.checks = true) (o : Op2) (s t : Surd) (h : x.RealR s) (h' : x.RealR t) :
    o.runFx x cfg s t = o.runFx x cfg' s t := by
  obtain ⟨⟨h1, h2, h3, h4⟩, -⟩ := Fx.fixed_config_binary cfg cfg' hx s t h h'
  cases o with
  | add => exact h1
  | sub => exact h2
  | mul => exact h3
  | div => exact h4

private theorem op2_real (hx : x.checks = true) (o : Op2) (s t u : Surd) (h : x.RealR s) (h' : x.RealR t)
    (e : o.runFx x cfg s t = .ok u) : x.RealR u := by
  refine (Fx.fixed_config_binary cfg cfg hx s t h h').2 u ?_
  cases o with
  | add => exact .inl e
  | sub => exact .inr (.inl e)
  | mul => exact .inr (.inr (.inl e))
  | div => exact .inr (.inr (.inr e))

private theorem expr_real (hx : x.checks = true) {σ : Nat → Surd} (hσ : ∀ i, x.RealR (σ i)) :
    ∀ (e : Expr) (s : Surd), e.RealFx x → e.runFx x cfg σ = .ok s → x.RealR s
  | .var i, s, _, h => by
    have h : σ i = s := Except.ok.inj h
    subst h; exact hσ i
  | .lit a b c r, s, hl, h => Fx.new_real hx hl.1 hl.2 h
  | .op1 o e, s, hl, h => by
    obtain ⟨t, h1, h2⟩ := bind_ok h
    exact op1_real cfg hx o t s (expr_real hx hσ e t hl h1) h2
  | .op2 o e f, s, hl, h => by
    obtain ⟨t, h1, h2⟩ := bind_ok h
    obtain ⟨u, h3, h4⟩ := bind_ok h2
    exact op2_real cfg hx o t u s (expr_real hx hσ e t hl.1 h1) (expr_real hx hσ f u hl.2 h3) h4

private theorem expr_same (hx : x.checks = true) {σ : Nat → Surd} (hσ : ∀ i, x.RealR (σ i)) :
    ∀ (e : Expr), e.RealFx x → e.runFx x cfg σ = e.runFx x cfg' σ
  | .var _, _ => rfl
  | .lit _ _ _ _, hl => Fx.new_same cfg cfg' hl.1
  | .op1 o e, hl => bind_same (expr_same hx hσ e hl) fun t ht => op1_same cfg cfg' o t (expr_real cfg' hx hσ e t hl ht)
  | .op2 o e f, hl => bind_same (expr_same hx hσ e hl.1) fun t ht => bind_same (expr_same hx hσ f hl.2) fun u hu =>
      op2_same cfg cfg' hx o t u (expr_real cfg' hx hσ e t hl.1 ht) (expr_real cfg' hx hσ f u hl.2 hu)

private theorem test_same (hx : x.checks = true) {σ : Nat → Surd} (hσ : ∀ i, x.RealR (σ i)) :
    ∀ (t : Test), t.RealFx x → t.runFx x cfg σ = t.runFx x cfg' σ
  | .positive e, hl => bind_same (expr_same cfg cfg' hx hσ e hl) fun s hs =>
      (Fx.fixed_config_unary cfg cfg' s (expr_real cfg' hx hσ e s hl hs).1 0 ⟨0, 0⟩).2.2.2.2.2.1
  | .negative e, hl => bind_same (expr_same cfg cfg' hx hσ e hl) fun s hs =>
      (Fx.fixed_config_unary cfg cfg' s (expr_real cfg' hx hσ e s hl hs).1 0 ⟨0, 0⟩).2.2.2.2.2.2.1
  | .zero e, hl => bind_same (expr_same cfg cfg' hx hσ e hl) fun _ _ => rfl
  | .one e, hl => bind_same (expr_same cfg cfg' hx hσ e hl) fun _ _ => rfl
  | .rational e, hl => bind_same (expr_same cfg cfg' hx hσ e hl) fun _ _ => rfl
  | .integer e, hl => bind_same (expr_same cfg cfg' hx hσ e hl) fun _ _ => rfl
  | .equal e f, hl => bind_same (expr_same cfg cfg' hx hσ e hl.1) fun _ _ =>
      bind_same (expr_same cfg cfg' hx hσ f hl.2) fun _ _ => rfl
  | .not t, hl => bind_same (test_same hx hσ t hl) fun _ _ => rfl
  | .and t u, hl => bind_same (test_same hx hσ t hl.1) fun b _ => by
      cases b with
      | false => rfl
      | true => exact test_same hx hσ u hl.2

/-- **C139** whole programs over a primitive type with overflow checks. -/
theorem fixed_prog_config (hx : x.checks = true) : ∀ (n : Nat) (p : Prog) (σ : Nat → Surd), p.RealFx x →
    (∀ i, x.RealR (σ i)) → p.runFx x cfg n σ = p.runFx x cfg' n σ ∧
      ∀ σ', p.runFx x cfg n σ = some (.ok σ') → ∀ i, x.RealR (σ' i)
  | 0, _, _, _, _ => ⟨rfl, fun _ h => by cases h⟩
  | n + 1, .skip, σ, _, hσ => ⟨rfl, fun σ' h => by cases h; exact hσ⟩
  | n + 1, .assign i e, σ, hl, hσ => by
    have h1 := expr_same cfg cfg' hx hσ e hl
    refine ⟨by simp only [Prog.runFx, h1], fun σ' h j => ?_⟩
    simp only [Prog.runFx] at h
    split at h
    · cases h
    · next s hs =>
      cases h
      by_cases hj : j = i
      · subst hj
        rw [Function.update_self]
        exact expr_real cfg hx hσ e s hl hs
      · rw [Function.update_of_ne hj]
        exact hσ j
  | n + 1, .seq p q, σ, hl, hσ => by
    obtain ⟨h1, h2⟩ := fixed_prog_config hx n p σ hl.1 hσ
    cases hp : p.runFx x cfg n σ with
    | none => refine ⟨by simp only [Prog.runFx, ← h1, hp], fun σ' h => by simp [Prog.runFx, hp] at h⟩
    | some r =>
      cases r with
      | error e => refine ⟨by simp only [Prog.runFx, ← h1, hp], fun σ' h => by simp [Prog.runFx, hp] at h⟩
      | ok σ1 =>
        obtain ⟨h3, h4⟩ := fixed_prog_config hx n q σ1 hl.2 (h2 σ1 hp)
        exact ⟨by simp only [Prog.runFx, ← h1, hp]; exact h3, fun σ' h => h4 σ' (by simpa only [Prog.runFx, hp] using h)⟩
  | n + 1, .ite t p q, σ, hl, hσ => by
    have h1 := test_same cfg cfg' hx hσ t hl.1
    obtain ⟨h2, h3⟩ := fixed_prog_config hx n p σ hl.2.1 hσ
    obtain ⟨h4, h5⟩ := fixed_prog_config hx n q σ hl.2.2 hσ
    cases ht : t.runFx x cfg σ with
    | error e => refine ⟨by simp only [Prog.runFx, ← h1, ht], fun σ' h => by simp [Prog.runFx, ht] at h⟩
    | ok b =>
      cases b with
      | true => exact ⟨by simp only [Prog.runFx, ← h1, ht]; exact h2, fun σ' h => h3 σ' (by simpa only [Prog.runFx, ht] using h)⟩
      | false => exact ⟨by simp only [Prog.runFx, ← h1, ht]; exact h4, fun σ' h => h5 σ' (by simpa only [Prog.runFx, ht] using h)⟩
  | n + 1, .while t p, σ, hl, hσ => by
    have h1 := test_same cfg cfg' hx hσ t hl.1
    obtain ⟨h2, h3⟩ := fixed_prog_config hx n p σ hl.2 hσ
    cases ht : t.runFx x cfg σ with
    | error e => refine ⟨by simp only [Prog.runFx, ← h1, ht], fun σ' h => by simp [Prog.runFx, ht] at h⟩
    | ok b =>
      cases b with
      | false =>
        refine ⟨by simp only [Prog.runFx, ← h1, ht], fun σ' h => ?_⟩
        simp only [Prog.runFx, ht] at h
        cases h
        exact hσ
      | true =>
        cases hp : p.runFx x cfg n σ with
        | none => refine ⟨by simp only [Prog.runFx, ← h1, ht, ← h2, hp], fun σ' h => by simp [Prog.runFx, ht, hp] at h⟩
        | some r =>
          cases r with
          | error e => refine ⟨by simp only [Prog.runFx, ← h1, ht, ← h2, hp], fun σ' h => by simp [Prog.runFx, ht, hp] at h⟩
          | ok σ1 =>
            obtain ⟨h4, h5⟩ := fixed_prog_config hx n (.while t p) σ1 hl (h3 σ1 hp)
            exact ⟨by simp only [Prog.runFx, ← h1, ht, ← h2, hp]; exact h4,
              fun σ' h => h5 σ' (by simpa only [Prog.runFx, ht, hp] using h)⟩

/-- multiplying `√2` by `√3` for ever -/
private def growing : Prog :=
  .seq (.assign 0 (.lit 0 1 1 2)) (.while (.positive (.var 0)) (.assign 0 (.op2 .mul (.var 0) (.lit 0 1 1 3))))

example : growing.RealFx ⟨8, true⟩ ∧
    ((growing.runFx ⟨8, true⟩ ⟨false, true⟩ 30 fun _ => ⟨0, 0, 1, 0⟩).map fun r => r.map fun σ => σ 0) =
      some (.error .overflow) ∧
    ((growing.runFx ⟨8, true⟩ ⟨true, false⟩ 30 fun _ => ⟨0, 0, 1, 0⟩).map fun r => r.map fun σ => σ 0) =
      some (.error .overflow) := by
  refine ⟨⟨⟨by decide, by decide⟩, trivial, trivial, by decide, by decide⟩, by decide +kernel, by decide +kernel⟩

end SProg
end NumIrr
