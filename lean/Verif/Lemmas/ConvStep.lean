/-
One call of `next` on the convergents of a generalized continued fraction.
-/
import Verif.Lemmas.HomoReg

namespace NumIrr

open Block

namespace GIter

/-- the state after `n` convergents -/
def ConvAt (g : ℕ → ℤ × ℤ) (src : ℕ → Option (ℤ × ℤ)) (n : ℕ) (s : GIter) : Prop :=
  s.src = src ∧ s.pos = n ∧ Scal s.block (rawN Block.identity g n)

theorem ratioNew_of_ne {p q : ℤ} (h : q ≠ 0) : ratioNew p q = .ok ((p : ℚ) / q) := by
  unfold ratioNew; rw [if_neg h, Rat.divInt_eq_div]

theorem convNext_ok {ty : IntTy} {g : ℕ → ℤ × ℤ} {src : ℕ → Option (ℤ × ℤ)} {n : ℕ} {s s' : GIter} {v : ℚ}
    (hg : ∀ k p, src k = some p → g k = p) (hs : ConvAt g src n s) (h : s.convNext ty = .ok (some v, s')) :
    ConvAt g src (n + 1) s' ∧ gQ g (n + 1) ≠ 0 ∧ v = (gP g (n + 1) : ℚ) / gQ g (n + 1) := by
  obtain ⟨h1, h2, h3⟩ := hs
  unfold convNext at h
  split at h
  · cases h
  · rename_i a b hv
    split at h
    · cases h
    · rename_i p q m hm
      split at h
      · cases h
      · rename_i r hr
        cases h
        have hab : g n = (a, b) := by rw [h1, h2] at hv; exact hg n _ hv
        have hsc : Scal (m.update p q) (rawN Block.identity g (n + 1)) := by
          rw [rawN, hab]
          exact (checkedGmove_scal hm).trans (h3.raw a b)
        refine ⟨⟨h1, by simp [h2], hsc⟩, ?_⟩
        obtain ⟨lam, l0, e1, -, e3, -⟩ := hsc
        have e1' : gP g (n + 1) = lam * p := e1
        have e3' : gQ g (n + 1) = lam * q := e3
        have hq : q ≠ 0 := by
          rintro rfl
          simp [ratioNew] at hr
        rw [ratioNew_of_ne hq] at hr
        cases hr
        refine ⟨by rw [e3']; exact mul_ne_zero l0.ne' hq, ?_⟩
        rw [e1', e3']
        push_cast
        rw [mul_div_mul_left]
        exact_mod_cast l0.ne'

theorem convNext_of {ty : IntTy} (hf : ∀ n, ty.fits n = true) {g : ℕ → ℤ × ℤ} {src : ℕ → Option (ℤ × ℤ)} {n : ℕ}
    {s : GIter} (hs : ConvAt g src n s) (hn : src n = some (g n)) :
    (gQ g (n + 1) ≠ 0 → ∃ s', s.convNext ty = .ok (some ((gP g (n + 1) : ℚ) / gQ g (n + 1)), s') ∧ ConvAt g src (n + 1) s') ∧
    (gQ g (n + 1) = 0 → s.convNext ty = .error .divZero) := by
  obtain ⟨h1, h2, h3⟩ := hs
  have hfun : ty.fits = fun _ => true := funext hf
  obtain ⟨p, q, m', hm⟩ := checkedGmove_big s.block (g n).1 (g n).2
  have hsc : Scal (m'.update p q) (rawN Block.identity g (n + 1)) := (checkedGmove_scal hm).trans (h3.raw _ _)
  have hsc' := hsc
  obtain ⟨lam, l0, e1, -, e3, -⟩ := hsc'
  have e1' : gP g (n + 1) = lam * p := e1
  have e3' : gQ g (n + 1) = lam * q := e3
  have e : s.convNext ty = match ratioNew p q with
      | .error e => .error e
      | .ok r => .ok (some r, { s with block := m'.update p q, pos := s.pos + 1 }) := by
    unfold convNext
    rw [h1, h2, hn, hfun]
    simp only
    rw [hm]
    rfl
  constructor
  · intro hq
    have hq' : q ≠ 0 := by rintro rfl; simp [e3'] at hq
    refine ⟨{ s with block := m'.update p q, pos := s.pos + 1 }, ?_, h1, by simp [h2], hsc⟩
    rw [e, ratioNew_of_ne hq', e1', e3']
    push_cast
    rw [mul_div_mul_left]
    exact_mod_cast l0.ne'
  · intro hq
    have hq' : q = 0 := by
      rw [e3'] at hq
      exact (mul_eq_zero.mp hq).resolve_left l0.ne'
    rw [e, hq']
    rfl

end GIter
end NumIrr
