/-
All operations on two continued fractions, of which at least one is periodic, go through the surds of both.
-/
import Verif.Props.CFArith
import Verif.Props.SurdShort
import Verif.Lemmas.SurdNegOps

namespace NumIrr
namespace CF

theorem toSurd_finite (cfg : Cfg) {c : CF} (hp : c.p = []) {q : ℚ} (h : c.toRational .big = .ok (.exact q)) :
    c.toSurd cfg = .ok (Surd.ofRat q) := by
  have hr : c.isRational = true := by simp [isRational, hp]
  unfold toRational at h
  unfold toSurd
  rw [if_pos hr] at h ⊢
  cases hl : c.lastConvergent .big with
  | error e => rw [hl] at h; cases h
  | ok r =>
    rw [hl, Surd.ok_bind] at h
    cases h
    rfl

private theorem surd_ofRat_right (cfg : Cfg) (s : Surd) (q : ℚ) :
    Surd.add cfg s (.ofRat q) = s.addRat cfg q ∧ Surd.sub cfg s (.ofRat q) = s.subRat cfg q ∧
    Surd.mul cfg s (.ofRat q) = s.mulRat cfg q ∧ Surd.div cfg s (.ofRat q) = s.divRat cfg q := by
  have h1 : (Surd.ofRat q).isRational = true := by simp [Surd.isRational, Surd.ofRat]
  have h2 : ratioNew (Surd.ofRat q).a (Surd.ofRat q).c = .ok q := by
    have : (Surd.ofRat q).c ≠ 0 := by
      change ((q.den : Nat) : Int) ≠ 0
      exact_mod_cast q.den_nz
    unfold ratioNew
    rw [if_neg this]
    simp only [Surd.ofRat]
    rw [Rat.num_divInt_den]
  refine ⟨?_, ?_, ?_, ?_⟩
  · unfold Surd.add; rw [if_pos h1, h2, Surd.ok_bind]
  · unfold Surd.sub; rw [if_pos h1, h2, Surd.ok_bind]
  · unfold Surd.mul; rw [if_pos h1, h2, Surd.ok_bind]
  · unfold Surd.div; rw [if_pos h1, h2, Surd.ok_bind]

/-- the surds of both, and the operation on them -/
def binSurd (cfg : Cfg) (o : BinOp) (c e : CF) : Res Surd := do
  let s ← c.toSurd cfg
  let t ← e.toSurd cfg
  o.surd cfg s t

theorem bin_via (cfg : Cfg) (fuel : Nat) {c e : CF} (he : e.Wf) (hp : c.p ≠ [] ∨ e.p ≠ []) (o : BinOp) :
    o.run cfg fuel c e = match binSurd cfg o c e with
      | .error p => some (.error p)
      | .ok s => s.toContfracUnwrap cfg fuel := by
  by_cases hep : e.p = []
  · obtain ⟨q, h1, -⟩ := cf_toRational_finite e he hep
    have hr : e.isRational = true := by simp [isRational, hep]
    have hcr : ¬ c.isRational = true := by simp [isRational, hp.resolve_right (fun h => h hep)]
    have h2 := toSurd_finite cfg hep h1
    unfold binSurd
    cases o <;>
      simp only [BinOp.run, BinOp.surd, CF.add, CF.sub, CF.mul, CF.div, opCF, hr, if_true, h1, Approx.value,
        CF.addRat, CF.subRat, CF.mulRat, CF.divRat, opNumber, if_neg hcr, h2, Surd.ok_bind, surd_ofRat_right] <;>
      rfl
  · have hr : ¬ e.isRational = true := by simp [isRational, hep]
    cases o <;> simp only [BinOp.run, CF.add, CF.sub, CF.mul, CF.div, opCF, if_neg hr] <;> rfl

private theorem unwrap_ok (cfg : Cfg) (fuel : Nat) {s : Surd} {w : CF}
    (hw : s.toContfracUnwrap cfg fuel = some (.ok w)) : s.toContfrac cfg fuel = some (.ok (some w)) := by
  unfold Surd.toContfracUnwrap at hw
  generalize s.toContfrac cfg fuel = t at hw
  match t, hw with
  | some (.ok (some c)), hw => cases hw; rfl

theorem binSurd_val (cfg : Cfg) (o : BinOp) {c e : CF} (hc : c.Wf) (he : e.Wf) {x y : ℝ} (hx : c.HasVal x)
    (hy : e.HasVal y) {u : Surd} (hu : binSurd cfg o c e = .ok u) : u.RealOk ∧ u.val = o.real x y := by
  unfold binSurd at hu
  cases h1 : c.toSurd cfg with
  | error p => rw [h1] at hu; cases hu
  | ok s =>
    cases h2 : e.toSurd cfg with
    | error p => rw [h1, h2] at hu; cases hu
    | ok t =>
      rw [h1, h2] at hu
      obtain ⟨k1, k2⟩ := cf_toSurd_value cfg c hc s h1
      obtain ⟨k3, k4⟩ := cf_toSurd_value cfg e he t h2
      rw [HasVal.unique hx k2, HasVal.unique hy k4]
      exact bin_surd_val cfg o k1 k3 hu

theorem bin_result (cfg : Cfg) (fuel : Nat) {c e : CF} (hc : c.Wf) (he : e.Wf) (hp : c.p ≠ [] ∨ e.p ≠ []) {x y : ℝ}
    (hx : c.HasVal x) (hy : e.HasVal y) (o : BinOp) {w : CF} (hw : o.run cfg fuel c e = some (.ok w)) :
    ∃ u : Surd, u.RealOk ∧ u.val = o.real x y ∧ u.toContfrac cfg fuel = some (.ok (some w)) := by
  rw [bin_via cfg fuel he hp] at hw
  cases h : binSurd cfg o c e with
  | error p => rw [h] at hw; cases hw
  | ok u =>
    rw [h] at hw
    obtain ⟨h1, h2⟩ := binSurd_val cfg o hc he hx hy h
    exact ⟨u, h1, h2, unwrap_ok cfg fuel hw⟩

end CF
end NumIrr
