/-
C120: swapping the operands of `+` and `*` on continued fractions over primitive integers; surds that are rational
numbers are not converted.
-/
import Verif.Lemmas.FixedCFComm
import Verif.Spec.FixedCFComm
import Verif.Props.FixedCFSurd

namespace NumIrr
open Fx
open Surd (ok_bind)

variable {x : Fx}

/-- The conversion of a surd without an irrational part to a continued fraction panics in every build, whatever wraps
around on the way: it never returns a fraction and never runs on. -/
theorem fixed_rational_to_cf (x : Fx) (hw : 2 ≤ x.w) (cfg : Cfg) (fuel : ℕ) (hf : 2 ^ x.w ≤ fuel) (s : Surd)
    (hs : x.HoldsS s) (hr : s.r = 0) : ∃ e, x.toContfrac cfg fuel s = some (.error e) :=
  toContfrac_rational hw cfg hf hs hr

/-- `100/63` in `i8`: the square of the denominator is not representable -/
example : (Fx.mk 8 false).HoldsS ⟨100, 0, 63, 0⟩ ∧
    (Fx.mk 8 false).toContfrac ⟨false, false⟩ 256 ⟨100, 0, 63, 0⟩ = some (.error .divZero) ∧
    (Fx.mk 8 true).toContfrac ⟨false, false⟩ 256 ⟨100, 0, 63, 0⟩ = some (.error .overflow) := by
  refine ⟨?_, by decide +kernel, by decide +kernel⟩
  simp [Fx.HoldsS, Fx.Holds]

/-- what `+` and `*` have in common -/
private structure Op (x : Fx) (cfg : Cfg) (f : Rt → Rt → Res Rt) (F : Surd → Rt → Res Surd) (G : Surd → Surd → Res Surd) :
    Prop where
  swap : ∀ p q : Rt, x.HoldsR p → x.HoldsR q → Alike (f p q) (f q p)
  right : ∀ s t : Surd, t.isRational = true → G s t = x.ratio t.a t.c >>= F s
  left : ∀ s t : Surd, s.isRational = true → t.isRational = false → G s t = x.ratio s.a s.c >>= F t
  irr : ∀ s t : Surd, s.isRational = false → t.isRational = false → G s t = G t s
  rat : ∀ (s : Surd) (q : Rt), s.isRational = true → Ens (F s q) (·.r = 0)
  holdsF : ∀ (s : Surd) (q : Rt), x.HoldsS s → Ens (F s q) x.HoldsS
  holdsG : ∀ s t : Surd, x.HoldsS s → x.HoldsS t → Ens (G s t) x.HoldsS

private theorem op_add (hw : 2 ≤ x.w) (cfg : Cfg) : Op x cfg x.rtAdd (x.surdAddRat cfg) (x.surdAdd cfg) where
  swap p q hp hq := rtAdd_alike hw hp hq
  right s t h := by unfold surdAdd; rw [if_pos h]
  left s t h h' := by unfold surdAdd; rw [if_neg (by simp [h']), if_pos h]
  irr s t h h' := surdAdd_irr_swap cfg h h'
  rat s q h := surdAddRat_rational hw cfg h q
  holdsF s q h := surdAddRat_holds hw cfg h q
  holdsG s t h h' := surdAdd_holds hw cfg h h'

private theorem op_mul (hw : 2 ≤ x.w) (cfg : Cfg) : Op x cfg x.rtMul (x.surdMulRat cfg) (x.surdMul cfg) where
  swap p q _ _ := rtMul_alike p q
  right s t h := by unfold surdMul; rw [if_pos h]
  left s t h h' := by unfold surdMul; rw [if_neg (by simp [h']), if_pos h]
  irr s t h h' := surdMul_irr_swap cfg h h'
  rat s q h := surdMulRat_rational hw cfg h q
  holdsF s q h := surdMulRat_holds hw cfg h q
  holdsG s t h h' := surdMul_holds hw cfg h h'

private theorem ratio_of (hw : 2 ≤ x.w) {q : ℚ} (hq : x.HoldsR (.of q)) : x.ratio q.num q.den = .ok (.of q) :=
  ratio_normal hw (s := Surd.ofRat q) (surd_ofRat_normal ⟨true, false⟩ q).toNormal
    ⟨hq.1, holds_zero x, hq.2, holds_zero x⟩ rfl

/-- the last step of an operation on surds: the conversion, or the panic -/
private def back (x : Fx) (cfg : Cfg) (fuel : ℕ) (r : Res Surd) : Option (Res CF) :=
  match r with
  | .error e => some (.error e)
  | .ok s => x.toContfracUnwrap cfg fuel s

private theorem back_rational (hw : 2 ≤ x.w) (cfg : Cfg) {fuel : ℕ} (hf : 2 ^ x.w ≤ fuel) {r : Res Surd}
    (h : Ens r x.HoldsS) (h0 : Ens r (·.r = 0)) : ∃ e, back x cfg fuel r = some (.error e) := by
  cases r with
  | error e => exact ⟨e, rfl⟩
  | ok s => exact toContfracUnwrap_rational hw cfg hf (h s rfl) (h0 s rfl)

section
variable {cfg : Cfg} {f : Rt → Rt → Res Rt} {F : Surd → Rt → Res Surd} {G : Surd → Surd → Res Surd}

private theorem Op.ratG (o : Op x cfg f F G) {s t : Surd} (hs : s.isRational = true) (ht : t.isRational = true) :
    Ens (G s t) (·.r = 0) := by
  rw [o.right s t ht]
  exact Ens.bind Ens.triv fun q _ => o.rat s q hs

private theorem Op.swapG (hw : 2 ≤ x.w) (o : Op x cfg f F G) {fuel : ℕ} (hf : 2 ^ x.w ≤ fuel) {s t : Surd} (hs : x.HoldsS s)
    (ht : x.HoldsS t) : SameRun (back x cfg fuel (G s t)) (back x cfg fuel (G t s)) := by
  cases h1 : s.isRational <;> cases h2 : t.isRational
  · rw [o.irr s t h1 h2]; exact .inl rfl
  · rw [o.right s t h2, o.left t s h2 h1]; exact .inl rfl
  · rw [o.left s t h1 h2, o.right t s h1]; exact .inl rfl
  · obtain ⟨e, he⟩ := back_rational hw cfg hf (o.holdsG s t hs ht) (o.ratG h1 h2)
    obtain ⟨e', he'⟩ := back_rational hw cfg hf (o.holdsG t s ht hs) (o.ratG h2 h1)
    exact .inr ⟨e, e', he, he'⟩

/-- an operation of a periodic fraction with a finite one and the other way round -/
private theorem Op.mixed (hw : 2 ≤ x.w) (o : Op x cfg f F G) {fuel : ℕ} (hf : 2 ^ x.w ≤ fuel) {q : ℚ} (hq : x.HoldsR (.of q))
    (r : Res Surd) (hr : Ens r x.HoldsS) :
    SameRun (back x cfg fuel (r >>= fun t => G (surdOfRt (.of q)) t)) (back x cfg fuel (r >>= fun t => F t (.of q))) := by
  have hrat : (surdOfRt (.of q)).isRational = true := by simp [surdOfRt, Surd.isRational]
  cases r with
  | error e => exact .inl rfl
  | ok t =>
    have ht := hr t rfl
    simp only [ok_bind]
    cases h2 : t.isRational
    · left
      rw [o.left _ t hrat h2]
      show back x cfg fuel (x.ratio q.num q.den >>= F t) = _
      rw [ratio_of hw hq]
      rfl
    · obtain ⟨e, he⟩ := back_rational hw cfg hf (o.holdsG _ t (surdOfRt_holds hq) ht) (o.ratG hrat h2)
      obtain ⟨e', he'⟩ := back_rational hw cfg hf (o.holdsF t (.of q) ht) (o.rat t _ h2)
      exact .inr ⟨e, e', he, he'⟩

private theorem ratValue_holds (hw : 2 ≤ x.w) {c : CF} (hp : c.p = []) : Ens (x.ratValue c) x.HoldsR := by
  unfold ratValue cfToRational
  rw [if_pos (by simp [CF.isRational, hp])]
  have h := lastConvergent_holds hw c
  cases e : x.lastConvergent c with
  | error p => exact Ens.err
  | ok v => exact Ens.pure (h v e)

private theorem SameRun.symm {α : Type} {u v : Option (Res α)} (h : SameRun u v) : SameRun v u := by
  rcases h with h | ⟨e, e', h1, h2⟩
  · exact .inl h.symm
  · exact .inr ⟨e', e, h2, h1⟩

private theorem Op.comm (hw : 2 ≤ x.w) (o : Op x cfg f F G) {fuel : ℕ} (hf : 2 ^ x.w ≤ fuel) {c e : CF}
    (hc : c.p = [] → e.p ≠ [] → c.Wf ∧ c.Reads x.w)
    (he : e.p = [] → c.p ≠ [] → e.Wf ∧ e.Reads x.w) :
    SameRun (x.opCF cfg fuel c e (fun c k => x.opNumber cfg fuel c (fun q => f q k) (fun s => F s k)) G)
      (x.opCF cfg fuel e c (fun c k => x.opNumber cfg fuel c (fun q => f q k) (fun s => F s k)) G) := by
  have fin : ∀ {c : CF}, c.p = [] → c.isRational = true := fun h => by simp [CF.isRational, h]
  have per : ∀ {c : CF}, c.p ≠ [] → ¬ c.isRational = true := fun h => by simp [CF.isRational, h]
  have read : ∀ {c : CF}, c.p = [] → c.Wf → c.Reads x.w → ∃ q : ℚ, x.ratValue c = .ok (.of q) ∧
      x.toSurd cfg c = .ok (surdOfRt (.of q)) ∧ x.HoldsR (.of q) := fun {c} hp h hr => by
    obtain ⟨q, h1, -, h3, h4⟩ := ratValue_exact h hp hr
    refine ⟨q, h1, ?_, h4⟩
    unfold toSurd
    unfold ratValue cfToRational at h1
    rw [if_pos (fin hp)] at h1 ⊢
    cases h5 : x.lastConvergent c with
    | error e => rw [h5] at h1; cases h1
    | ok v => rw [h5] at h1; cases h1; rfl
  have mix : ∀ {c e : CF}, c.p = [] → e.p ≠ [] → (c.p = [] → c.Wf ∧ c.Reads x.w) →
      SameRun (x.opCF cfg fuel c e (fun c k => x.opNumber cfg fuel c (fun q => f q k) (fun s => F s k)) G)
        (x.opCF cfg fuel e c (fun c k => x.opNumber cfg fuel c (fun q => f q k) (fun s => F s k)) G) := fun {c e} h1 h2 hc => by
    obtain ⟨q, e1, e2, e3⟩ := read h1 (hc h1).1 (hc h1).2
    unfold opCF
    rw [if_neg (per h2), if_pos (fin h1), e1]
    simp only
    unfold opNumber
    rw [if_neg (per h2)]
    have := o.mixed hw hf e3 (x.toSurd cfg e) (toSurd_holds hw cfg e)
    unfold viaSurd
    rw [e2]
    simp only [ok_bind]
    exact this
  by_cases h1 : c.p = [] <;> by_cases h2 : e.p = []
  · unfold opCF
    rw [if_pos (fin h1), if_pos (fin h2)]
    have v1 := ratValue_holds hw h1
    have v2 := ratValue_holds hw h2
    simp only [opNumber, fin h1, fin h2, if_true]
    cases e1 : x.ratValue c with
    | error p =>
      cases e2 : x.ratValue e with
      | error p' => exact .inr ⟨p', p, rfl, rfl⟩
      | ok r => exact .inr ⟨p, p, rfl, rfl⟩
    | ok q =>
      cases e2 : x.ratValue e with
      | error p' => exact .inr ⟨p', p', rfl, rfl⟩
      | ok r =>
        simp only [ok_bind]
        rcases o.swap q r (v1 q e1) (v2 r e2) with h | ⟨⟨p, h⟩, p', h'⟩
        · left; rw [h]
        · right; rw [h, h']; exact ⟨p, p', rfl, rfl⟩
  · exact mix h1 h2 fun h => hc h h2
  · exact (mix h2 h1 fun h => he h h1).symm
  · unfold opCF
    rw [if_neg (per h1), if_neg (per h2)]
    unfold viaSurd
    have hh1 := toSurd_holds hw cfg c
    have hh2 := toSurd_holds hw cfg e
    cases e1 : x.toSurd cfg c with
    | error p =>
      cases e2 : x.toSurd cfg e with
      | error p' => exact .inr ⟨p, p', rfl, rfl⟩
      | ok t => exact .inr ⟨p, p, rfl, rfl⟩
    | ok s =>
      cases e2 : x.toSurd cfg e with
      | error p' => exact .inr ⟨p', p', rfl, rfl⟩
      | ok t => exact o.swapG hw hf (hh1 s e1) (hh2 t e2)
end

/-- `c + e` and `e + c` return the same fraction, both panic, or are both still running, in every build, with overflow
checks or without.  Nothing is asked of two finite or two periodic fractions, even if they are misread as other numbers.
If only one is finite, that one must be readable in the type. -/
theorem fixed_cf_add_comm (x : Fx) (hw : 2 ≤ x.w) (cfg : Cfg) (fuel : ℕ) (hf : 2 ^ x.w ≤ fuel) (c e : CF)
    (hc : c.p = [] → e.p ≠ [] → c.Wf ∧ c.Reads x.w)
    (he : e.p = [] → c.p ≠ [] → e.Wf ∧ e.Reads x.w) :
    SameRun (x.cfAdd cfg fuel c e) (x.cfAdd cfg fuel e c) :=
  (op_add hw cfg).comm hw hf hc he

/-- The same for products. -/
theorem fixed_cf_mul_comm (x : Fx) (hw : 2 ≤ x.w) (cfg : Cfg) (fuel : ℕ) (hf : 2 ^ x.w ≤ fuel) (c e : CF)
    (hc : c.p = [] → e.p ≠ [] → c.Wf ∧ c.Reads x.w)
    (he : e.p = [] → c.p ≠ [] → e.Wf ∧ e.Reads x.w) :
    SameRun (x.cfMul cfg fuel c e) (x.cfMul cfg fuel e c) :=
  (op_mul hw cfg).comm hw hf hc he

/-- `1/2 + √2` in `i16`, where both orders return, and two fractions which are misread in `i8` without checks -/
example : (Fx.mk 16 true).cfAdd ⟨false, true⟩ 65536 ⟨[0, 2], [], false⟩ ⟨[1], [2], false⟩ =
      some (.ok ⟨[1], [1, 10, 1, 1], false⟩) ∧
    (CF.mk [0, 2] [] false).Wf ∧ CF.Reads 16 ⟨[0, 2], [], false⟩ ∧ ¬ CF.Reads 8 ⟨[0, 50, 3], [], false⟩ ∧
    (Fx.mk 8 false).cfAdd ⟨false, false⟩ 256 ⟨[0, 50, 3], [], false⟩ ⟨[0, 150], [], false⟩ =
      some (.ok ⟨[0, 31, 2], [], true⟩) := by
  refine ⟨by decide +kernel, by simp [CF.Wf], ⟨1 / 2, by decide +kernel, by decide +kernel, by decide +kernel⟩, ?_, by decide +kernel⟩
  rintro ⟨r, h1, -, h3⟩
  rw [show CF.valQ ⟨[0, 50, 3], [], false⟩ = some (3 / 151) by decide +kernel] at h1
  cases h1
  exact absurd h3 (by decide +kernel)

/-- If both fractions are finite and readable the two runs are the same down to the panic. -/
theorem fixed_cf_comm_finite (x : Fx) (cfg : Cfg) (fuel : ℕ) (c e : CF) (hc : c.Wf) (he : e.Wf) (hpc : c.p = [])
    (hpe : e.p = []) (hrc : c.Reads x.w) (hre : e.Reads x.w) :
    x.cfAdd cfg fuel c e = x.cfAdd cfg fuel e c ∧ x.cfMul cfg fuel c e = x.cfMul cfg fuel e c := by
  obtain ⟨q, e1, -, -, e3⟩ := ratValue_exact hc hpc hrc
  obtain ⟨r, k1, -, -, k3⟩ := ratValue_exact he hpe hre
  have fc : c.isRational = true := by simp [CF.isRational, hpc]
  have fe : e.isRational = true := by simp [CF.isRational, hpe]
  have d1 : (0 : ℤ) < (Rt.of q).den := by show (0 : ℤ) < q.den; exact_mod_cast q.pos
  have d2 : (0 : ℤ) < (Rt.of r).den := by show (0 : ℤ) < r.den; exact_mod_cast r.pos
  constructor
  · simp only [cfAdd, opCF, fc, fe, if_true, e1, k1, cfAddRat, opNumber, ok_bind, rtAdd_swap d1 e3.2 d2 k3.2]
  · simp only [cfMul, opCF, fc, fe, if_true, e1, k1, cfMulRat, opNumber, ok_bind, rtMul_swap d1 e3 d2 k3]

end NumIrr
