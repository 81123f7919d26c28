/- Helper lemmas: which roots appear when calculating with surds over one square-free root. -/
import Verif.Lemmas.SurdBin
import Verif.Lemmas.SurdEq
import Verif.Lemmas.FixedRef
import Verif.Props.SurdNew
import Verif.Props.SurdArith
import Verif.Spec.Formula
import Mathlib.Algebra.Squarefree.Basic

namespace NumIrr
namespace Surd

variable {cfg : Cfg} {x y z : Surd} {d : ℤ}

theorem new_root (hd : Squarefree d) {a b c r : ℤ} (hr : r = 0 ∨ r = d ∨ r = 1) (h : new cfg a b c r = .ok z) :
    z.r = 0 ∨ z.r = d := by
  obtain ⟨h1, h2⟩ := new_inv h
  obtain ⟨t, e, -, -, -, h3⟩ := new_spec (cfg := cfg) (a := a) (b := b) h1 h2
  rw [h] at e; cases e
  rcases h3 with h3 | ⟨-, h4, k, hk, h5⟩
  · exact .inl h3.1
  · rcases hr with rfl | rfl | rfl
    · exact absurd ⟨0, by simp⟩ h4
    · right
      have hu : IsUnit k := hd k ⟨z.r, h5⟩
      have : k = 1 := by
        rcases Int.isUnit_iff.1 hu with e | e
        · exact e
        · omega
      rw [this] at h5; omega
    · exact absurd ⟨1, by simp⟩ h4

theorem reduceBinOpUnwrap_sameRoot (hr : x.r = y.r) (h0 : y.r ≠ 0) : reduceBinOpUnwrap cfg x y = .ok (x, y) := by
  unfold reduceBinOpUnwrap reduceBinOp
  have h1 : ¬ (x.r < 0 ∧ ¬ y.r < 0) := by omega
  obtain ⟨c, g⟩ := cfg
  cases c <;> cases g <;> simp [hr, h0, pure, Except.pure, bind, Except.bind]

/-- a root is none, or the one root of the calculation -/
def InF (d : ℤ) (x : Surd) : Prop := x.r = 0 ∨ x.r = d

theorem InF.compat (hx : InF d x) (hy : InF d y) : x.r = 0 ∨ y.r = 0 ∨ x.Compatible y := by
  rcases hx with h | h
  · exact .inl h
  · rcases hy with h' | h'
    · exact .inr (.inl h')
    · exact .inr (.inr ⟨1, .inl (by rw [h, h']; ring)⟩)

private theorem InF.rat (hx : InF d x) : x.r = 0 ∨ x.r = d ∨ x.r = 1 := by
  rcases hx with h | h
  · exact .inl h
  · exact .inr (.inl h)

private theorem bind_ok {α β : Type} {r : Res α} {f : α → Res β} {v : β} (h : (r >>= f) = .ok v) :
    ∃ u, r = .ok u ∧ f u = .ok v := by
  cases r with
  | error e => cases h
  | ok u => exact ⟨u, rfl, h⟩

private theorem irr_root (hx : InF d x) (h : ¬ x.isRational = true) : x.r = d ∧ x.r ≠ 0 := by
  have : ¬ (x.b = 0 ∨ x.r = 0) := by simpa [isRational] using h
  rcases hx with h' | h'
  · exact absurd (.inr h') this
  · exact ⟨h', fun e => this (.inr e)⟩

theorem add_root (hd : Squarefree d) (hx : InF d x) (hy : InF d y) (h : add cfg x y = .ok z) : InF d z := by
  unfold add at h
  split at h
  · obtain ⟨q, -, h⟩ := bind_ok h
    exact new_root hd hx.rat h
  split at h
  · obtain ⟨q, -, h⟩ := bind_ok h
    exact new_root hd hy.rat h
  · next h1 h2 =>
    obtain ⟨y1, y2⟩ := irr_root hy h1
    obtain ⟨x1, x2⟩ := irr_root hx h2
    rw [reduceBinOpUnwrap_sameRoot (x1.trans y1.symm) y2] at h
    exact new_root hd hx.rat h

theorem sub_root (hd : Squarefree d) (hx : InF d x) (hy : InF d y) (h : sub cfg x y = .ok z) : InF d z := by
  unfold sub at h
  split at h
  · obtain ⟨q, -, h⟩ := bind_ok h
    exact new_root hd hx.rat h
  split at h
  · obtain ⟨q, -, h⟩ := bind_ok h
    obtain ⟨t, h', h⟩ := bind_ok h
    cases h
    have := new_root (z := t) hd hy.rat h'
    exact this
  · next h1 h2 =>
    obtain ⟨y1, y2⟩ := irr_root hy h1
    obtain ⟨x1, x2⟩ := irr_root hx h2
    rw [reduceBinOpUnwrap_sameRoot (x1.trans y1.symm) y2] at h
    exact new_root hd hx.rat h

private theorem pure_unit {r : ℤ} (h : r ≠ 0) : r.tdiv (igcd r r) * r.tdiv (igcd r r) = 1 := by
  have e : igcd r r = (r.natAbs : ℤ) := by unfold igcd; rw [Int.gcd_self]
  rw [e]
  rcases le_total 0 r with h0 | h0
  · rw [Int.natAbs_of_nonneg h0, Int.tdiv_self h]; rfl
  · rw [Int.ofNat_natAbs_of_nonpos h0, Int.tdiv_neg, Int.tdiv_self h]; rfl

theorem mul_root (hd : Squarefree d) (hx : InF d x) (hy : InF d y) (h : mul cfg x y = .ok z) : InF d z := by
  unfold mul at h
  split at h
  · obtain ⟨q, -, h⟩ := bind_ok h
    exact new_root hd hx.rat h
  split at h
  · obtain ⟨q, -, h⟩ := bind_ok h
    exact new_root hd hy.rat h
  · next h1 h2 =>
    obtain ⟨y1, y2⟩ := irr_root hy h1
    obtain ⟨x1, x2⟩ := irr_root hx h2
    split at h
    · refine new_root hd (.inr (.inr ?_)) h
      rw [x1, y1]; exact pure_unit (x1 ▸ x2)
    · rw [reduceBinOpUnwrap_sameRoot (x1.trans y1.symm) y2] at h
      exact new_root hd hx.rat h

theorem recip_root (hd : Squarefree d) (hx : InF d x) (h : recip cfg x = .ok z) : InF d z := new_root hd hx.rat h

theorem div_root (hd : Squarefree d) (hx : InF d x) (hy : InF d y) (h : div cfg x y = .ok z) : InF d z := by
  unfold div at h
  split at h
  · obtain ⟨q, -, h⟩ := bind_ok h
    exact new_root hd hx.rat h
  split at h
  · obtain ⟨q, -, h⟩ := bind_ok h
    obtain ⟨t, h', h⟩ := bind_ok h
    exact recip_root hd (new_root hd hy.rat h') h
  · next h1 h2 =>
    obtain ⟨y1, y2⟩ := irr_root hy h1
    obtain ⟨x1, x2⟩ := irr_root hx h2
    split at h
    · refine new_root hd (.inr (.inr ?_)) h
      rw [x1, y1]; exact pure_unit (x1 ▸ x2)
    · rw [reduceBinOpUnwrap_sameRoot (x1.trans y1.symm) y2] at h
      exact new_root hd hx.rat h

/-- a real surd with a root is an irrational number -/
theorem irrational_iff (hx : x.RealOk) : Irrational x.val ↔ x.r ≠ 0 := by
  constructor
  · intro h e
    apply h
    have := valC_of_r_zero hx.toNormal e
    rw [hx.valC] at this
    exact ⟨Rat.divInt x.a x.c, by exact_mod_cast this.symm⟩
  · rintro h ⟨q, e⟩
    have h1 : (ofRat q).Normal := by
      refine ⟨by simp [ofRat, q.den_pos], fun t h1 _ h3 => ?_, by simp [ofRat], by simp [ofRat]⟩
      have := q.reduced
      rw [Int.isUnit_iff_natAbs_eq]
      have h1' : t.natAbs ∣ q.num.natAbs := Int.natAbs_dvd_natAbs.2 h1
      have h3' : t.natAbs ∣ q.den := by
        have := Int.natAbs_dvd_natAbs.2 h3
        simpa [ofRat] using this
      exact Nat.dvd_one.1 (this ▸ Nat.dvd_gcd h1' h3')
    refine valC_ne_of_rational h1 hx.toNormal rfl h ?_
    rw [hx.valC, ← e, valC_of_r_zero h1 rfl]
    have : Rat.divInt q.num q.den = q := Rat.num_divInt_den q
    simp only [ofRat, this]
    push_cast; rfl

end Surd
end NumIrr
