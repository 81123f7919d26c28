/-
Without overflow checks the ring operations of quadratic and Gaussian integers are those of `(ℤ/2^w)[ω]`.
-/
import Verif.Spec.QIntMod
import Verif.Lemmas.FixedWrap
import Verif.Lemmas.FixedQRel
import Mathlib.Data.ZMod.Basic

namespace NumIrr
namespace Fx

variable {x : Fx} {cfg : Cfg} {D : ℤ} {u v : QInt}

/-- the image of an integer modulo `2^w` -/
abbrev md (x : Fx) (n : ℤ) : ZMod (2 ^ x.w) := (n : ZMod (2 ^ x.w))

theorem md_iff (m n : ℤ) : x.md m = x.md n ↔ m ≡ n [ZMOD 2 ^ x.w] := by
  rw [md, md, ZMod.intCast_eq_intCast_iff]
  push_cast
  rfl

theorem md_wr (n : ℤ) : x.md (x.wr n) = x.md n := (md_iff _ _).2 (wr_modEq x n)

theorem md_inj (hw : 2 ≤ x.w) {m n : ℤ} (hm : x.Holds m) (hn : x.Holds n) (h : x.md m = x.md n) : m = n := by
  rw [← wr_of_holds hw hm, ← wr_of_holds hw hn]
  exact wr_congr ((md_iff _ _).1 h)

/-- what a result is congruent to -/
structure Is (x : Fx) (D : ℤ) (z : QInt) (a b : ZMod (2 ^ x.w)) : Prop where
  ring : x.InRing D z
  a : x.md z.a = a
  b : x.md z.b = b

theorem Is.unique (hw : 2 ≤ x.w) {s t : QInt} {a b a' b' : ZMod (2 ^ x.w)} (hs : x.Is D s a b) (ht : x.Is D t a' b')
    (ha : a = a') (hb : b = b') : s.a = t.a ∧ s.b = t.b :=
  ⟨md_inj hw hs.ring.a ht.ring.a (by rw [hs.a, ht.a, ha]), md_inj hw hs.ring.b ht.ring.b (by rw [hs.b, ht.b, hb])⟩

theorem store_is (hw : 3 ≤ x.w) (hD : x.Discr cfg D) (p q : ℤ) :
    ∃ z, x.qFromCoeffs cfg ⟨x.wr p, x.wr q⟩ D = .ok z ∧ x.Is D z (x.md p) (x.md q) := by
  have hw' : 2 ≤ x.w := by omega
  refine ⟨_, qFromCoeffs_ok hw cfg _ hD.holds hD.mod4 hD.irrational hD.real, ?_⟩
  split
  · next h =>
    exact ⟨⟨wr_holds hw' _, holds_zero x, fun h => absurd rfl h⟩, md_wr p, by rw [← md_wr q]; simp only at h; rw [h]⟩
  · exact ⟨⟨wr_holds hw' _, wr_holds hw' _, fun _ => rfl⟩, md_wr p, md_wr q⟩

theorem addInt_is (hw : 2 ≤ x.w) (hx : x.checks = false) (hu : x.InRing D u) (k : ℤ) :
    ∃ z, x.qAddInt u k = .ok z ∧ x.Is D z (x.md u.a + x.md k) (x.md u.b) := by
  unfold qAddInt
  rw [qcAddInt_wr hw hx]
  refine ⟨_, rfl, ⟨wr_holds hw _, hu.b, hu.discr⟩, ?_, rfl⟩
  show x.md (x.wr (u.a + k)) = _
  rw [md_wr]; simp [md]

theorem subInt_is (hw : 2 ≤ x.w) (hx : x.checks = false) (hu : x.InRing D u) (k : ℤ) :
    ∃ z, x.qSubInt u k = .ok z ∧ x.Is D z (x.md u.a - x.md k) (x.md u.b) := by
  unfold qSubInt
  rw [qcSubInt_wr hw hx]
  refine ⟨_, rfl, ⟨wr_holds hw _, hu.b, hu.discr⟩, ?_, rfl⟩
  show x.md (x.wr (u.a - k)) = _
  rw [md_wr]; simp [md]

theorem neg_is (hw : 2 ≤ x.w) (hx : x.checks = false) (hu : x.InRing D u) :
    ∃ z, x.qNeg u = .ok z ∧ x.Is D z (-x.md u.a) (-x.md u.b) := by
  unfold qNeg
  simp only [neg_wr hw hx, bind, Except.bind, pure, Except.pure]
  refine ⟨_, rfl, ⟨wr_holds hw _, wr_holds hw _, fun h => hu.discr fun h0 => h ?_⟩, ?_, ?_⟩
  · simp only [h0]; exact wr_of_holds hw (holds_zero x)
  · simp only [md_wr]; simp [md]
  · simp only [md_wr]; simp [md]

theorem mulInt_is (hw : 2 ≤ x.w) (hx : x.checks = false) (hu : x.InRing D u) (k : ℤ) :
    ∃ z, x.qMulInt u k = .ok z ∧ x.Is D z (x.md u.a * x.md k) (x.md u.b * x.md k) := by
  unfold qMulInt
  split
  · next h =>
    subst h
    exact ⟨_, rfl, ⟨holds_zero x, holds_zero x, fun h => absurd rfl h⟩, by simp [md, QInt.zero], by simp [md, QInt.zero]⟩
  · rw [qcMulInt_wr hw hx]
    refine ⟨_, rfl, ⟨wr_holds hw _, wr_holds hw _, fun h => hu.discr fun h0 => h ?_⟩, ?_, ?_⟩
    · show x.wr (u.b * k) = 0
      rw [h0, zero_mul]; exact wr_of_holds hw (holds_zero x)
    · show x.md (x.wr (u.a * k)) = _
      rw [md_wr]; simp [md]
    · show x.md (x.wr (u.b * k)) = _
      rw [md_wr]; simp [md]

theorem add_is (hw : 3 ≤ x.w) (hx : x.checks = false) (hD : x.Discr cfg D) (hu : x.InRing D u) (hv : x.InRing D v) :
    ∃ z, x.qAdd cfg u v = .ok z ∧ x.Is D z (x.md u.a + x.md v.a) (x.md u.b + x.md v.b) := by
  have hw' : 2 ≤ x.w := by omega
  unfold qAdd
  split
  · next h =>
    simp only [QInt.isRational, decide_eq_true_eq] at h
    obtain ⟨z, h1, h2⟩ := addInt_is hw' hx hu v.a
    exact ⟨z, h1, h2.ring, h2.a, by rw [h2.b, h]; simp [md]⟩
  · next h =>
    split
    · next h' =>
      simp only [QInt.isRational, decide_eq_true_eq] at h'
      obtain ⟨z, h1, h2⟩ := addInt_is hw' hx hv u.a
      exact ⟨z, h1, h2.ring, by rw [h2.a, add_comm], by rw [h2.b, h']; simp [md]⟩
    · next h' =>
      simp only [QInt.isRational, decide_eq_true_eq] at h h'
      have e : v.d = D := hv.discr h
      have e' : u.d = v.d := by rw [e, hu.discr h']
      rw [(qReduceBinOpUnwrap_same hw cfg u v (by rw [e]; exact hD.holds) e' (by rw [e]; exact hD.mod4)).1]
      show ∃ z, (x.qcAdd u.coeffs v.coeffs >>= fun c => x.qFromCoeffs cfg c v.d) = _ ∧ _
      rw [qcAdd_wr hw' hx, e]
      obtain ⟨z, h1, h2⟩ := store_is hw hD (u.coeffs.add v.coeffs).a (u.coeffs.add v.coeffs).b
      refine ⟨z, h1, h2.ring, ?_, ?_⟩
      · rw [h2.a]; simp [md, QCoeffs.add, QInt.coeffs]
      · rw [h2.b]; simp [md, QCoeffs.add, QInt.coeffs]

theorem sub_is (hw : 3 ≤ x.w) (hx : x.checks = false) (hD : x.Discr cfg D) (hu : x.InRing D u) (hv : x.InRing D v) :
    ∃ z, x.qSub cfg u v = .ok z ∧ x.Is D z (x.md u.a - x.md v.a) (x.md u.b - x.md v.b) := by
  have hw' : 2 ≤ x.w := by omega
  unfold qSub
  split
  · next h =>
    simp only [QInt.isRational, decide_eq_true_eq] at h
    obtain ⟨z, h1, h2⟩ := subInt_is hw' hx hu v.a
    exact ⟨z, h1, h2.ring, h2.a, by rw [h2.b, h]; simp [md]⟩
  · next h =>
    split
    · next h' =>
      simp only [QInt.isRational, decide_eq_true_eq] at h'
      obtain ⟨z, h1, h2⟩ := subInt_is hw' hx hv u.a
      obtain ⟨z', h3, h4⟩ := neg_is hw' hx h2.ring
      refine ⟨z', by rw [h1]; exact h3, h4.ring, by rw [h4.a, h2.a]; ring, by rw [h4.b, h2.b, h']; simp [md]⟩
    · next h' =>
      simp only [QInt.isRational, decide_eq_true_eq] at h h'
      have e : v.d = D := hv.discr h
      have e' : u.d = v.d := by rw [e, hu.discr h']
      rw [(qReduceBinOpUnwrap_same hw cfg u v (by rw [e]; exact hD.holds) e' (by rw [e]; exact hD.mod4)).1]
      show ∃ z, (x.qcSub u.coeffs v.coeffs >>= fun c => x.qFromCoeffs cfg c v.d) = _ ∧ _
      rw [qcSub_wr hw' hx, e]
      obtain ⟨z, h1, h2⟩ := store_is hw hD (u.coeffs.sub v.coeffs).a (u.coeffs.sub v.coeffs).b
      refine ⟨z, h1, h2.ring, ?_, ?_⟩
      · rw [h2.a]; simp [md, QCoeffs.sub, QInt.coeffs]
      · rw [h2.b]; simp [md, QCoeffs.sub, QInt.coeffs]

/-- the exact product -/
theorem coeffs_mul_eq (h4 : D % 4 ≠ 0) (p q : QCoeffs) :
    p.mul q D = .ok ⟨p.a * q.a + omegaSq D * (p.b * q.b), p.a * q.b + p.b * q.a + omegaLin D * (p.b * q.b)⟩ := by
  unfold QCoeffs.mul omegaSq omegaLin
  rw [mod4d2_eq, if_neg h4]
  by_cases h1 : D % 4 = 1
  · rw [if_pos h1, if_pos h1, if_pos h1]
    simp only [(QCoeffs.tdiv4 h1).1, Except.ok.injEq, QCoeffs.mk.injEq]
    constructor <;> ring
  · rw [if_neg h1, if_neg h1, if_neg h1]
    simp only [Except.ok.injEq, QCoeffs.mk.injEq]
    constructor <;> ring

theorem mul_is (hw : 3 ≤ x.w) (hx : x.checks = false) (hD : x.Discr cfg D) (hu : x.InRing D u) (hv : x.InRing D v) :
    ∃ z, x.qMul cfg u v = .ok z ∧ x.Is D z (x.md u.a * x.md v.a + x.md (omegaSq D) * (x.md u.b * x.md v.b))
      (x.md u.a * x.md v.b + x.md u.b * x.md v.a + x.md (omegaLin D) * (x.md u.b * x.md v.b)) := by
  have hw' : 2 ≤ x.w := by omega
  unfold qMul
  split
  · next h =>
    simp only [QInt.isRational, decide_eq_true_eq] at h
    obtain ⟨z, h1, h2⟩ := mulInt_is hw' hx hu v.a
    exact ⟨z, h1, h2.ring, by rw [h2.a, h]; simp [md], by rw [h2.b, h]; simp [md]⟩
  · next h =>
    split
    · next h' =>
      simp only [QInt.isRational, decide_eq_true_eq] at h'
      obtain ⟨z, h1, h2⟩ := mulInt_is hw' hx hv u.a
      exact ⟨z, h1, h2.ring, by rw [h2.a, h']; simp [md, mul_comm], by rw [h2.b, h']; simp [md, mul_comm]⟩
    · next h' =>
      simp only [QInt.isRational, decide_eq_true_eq] at h h'
      have e : v.d = D := hv.discr h
      have e' : u.d = v.d := by rw [e, hu.discr h']
      rw [(qReduceBinOpUnwrap_same hw cfg u v (by rw [e]; exact hD.holds) e' (by rw [e]; exact hD.mod4)).1]
      show ∃ z, (x.qcMul u.coeffs v.coeffs u.d >>= fun c => x.qFromCoeffs cfg c v.d) = _ ∧ _
      rw [e', e, qcMul_wr hw hx _ _ _ hD.holds (coeffs_mul_eq hD.mod4 _ _)]
      obtain ⟨z, h1, h2⟩ := store_is hw hD (u.a * v.a + omegaSq D * (u.b * v.b)) (u.a * v.b + u.b * v.a + omegaLin D * (u.b * v.b))
      exact ⟨z, h1, h2.ring, by rw [h2.a]; simp [md], by rw [h2.b]; simp [md]⟩

/-- the discriminant of a product is that of the ring or zero -/
theorem mul_d (hw : 3 ≤ x.w) (hx : x.checks = false) (hD : x.Discr cfg D) (hu : x.InRing D u) (hv : x.InRing D v)
    (hu' : u.d = 0 ∨ u.d = D) (hv' : v.d = 0 ∨ v.d = D) {z : QInt} (h : x.qMul cfg u v = .ok z) : z.d = 0 ∨ z.d = D := by
  have hw' : 2 ≤ x.w := by omega
  have int : ∀ (u : QInt) k, (u.d = 0 ∨ u.d = D) → x.qMulInt u k = .ok z → z.d = 0 ∨ z.d = D := by
    intro u k hu h
    unfold qMulInt at h
    split at h
    · cases h; exact Or.inl rfl
    · rw [qcMulInt_wr hw' hx] at h
      cases h; exact hu
  unfold qMul at h
  split at h
  · exact int _ _ hu' h
  · next h0 =>
    split at h
    · exact int _ _ hv' h
    · next h0' =>
      simp only [QInt.isRational, decide_eq_true_eq] at h0 h0'
      have e : v.d = D := hv.discr h0
      have e' : u.d = v.d := by rw [e, hu.discr h0']
      rw [(qReduceBinOpUnwrap_same hw cfg u v (by rw [e]; exact hD.holds) e' (by rw [e]; exact hD.mod4)).1] at h
      replace h : (x.qcMul u.coeffs v.coeffs u.d >>= fun c => x.qFromCoeffs cfg c v.d) = _ := h
      rw [e', e, qcMul_wr hw hx _ _ _ hD.holds (coeffs_mul_eq hD.mod4 _ _)] at h
      replace h := (qFromCoeffs_ok hw cfg _ hD.holds hD.mod4 hD.irrational hD.real).symm.trans h
      cases h
      split
      · exact Or.inl rfl
      · exact Or.inr rfl

theorem norm_is (hw : 3 ≤ x.w) (hx : x.checks = false) (hD : x.Discr cfg D) (hm : D ≠ -2 ^ (x.w - 1) + 1) (hu : x.InRing D u)
    (hu' : u.d = 0 ∨ u.d = D) :
    ∃ n, x.qNorm u = .ok n ∧ x.Holds n ∧
      x.md n = x.md u.a * x.md u.a + x.md (omegaLin D) * (x.md u.a * x.md u.b) - x.md (omegaSq D) * (x.md u.b * x.md u.b) := by
  have hw' : 2 ≤ x.w := by omega
  unfold qNorm qcNorm
  by_cases h0 : u.d = 0
  · rw [if_pos h0, mul_wr hw' hx]
    refine ⟨_, rfl, wr_holds hw' _, ?_⟩
    have hb : u.b = 0 := by
      by_contra hb
      have := hu.discr hb
      exact hD.mod4 (by rw [← this, h0]; rfl)
    rw [md_wr, hb]; simp [md, QInt.coeffs]
  · rw [if_neg h0]
    have hd : u.d = D := hu'.resolve_left h0
    rw [hd]
    have hdh := hD.holds
    unfold omegaSq omegaLin
    rcases mod4d2_cases D with h4 | h4 | h4
    · have h1 := mod4d2_zero h4
      rw [if_pos h1, if_pos h1, h4]
      have hd' : x.Holds (1 - D) := by
        obtain ⟨k, hk, _⟩ := four_dvd hw
        unfold Holds at hdh ⊢; omega
      have e : (1 - D).tdiv 4 = -((D - 1) / 4) := by
        rw [← (QCoeffs.tdiv4 h1).1, ← Int.neg_tdiv]; congr 1; ring
      have hq : x.Holds ((1 - D).tdiv 4) := by
        rw [e]
        obtain ⟨k, hk, _⟩ := four_dvd hw
        unfold Holds at hdh ⊢; omega
      simp only [mul_wr hw' hx, add_wr hw' hx, sub_wr hw' hx, wr_of_holds hw' hd', div_ok (by decide) hq,
        wr_add_left, wr_add_right, wr_mul_left, bind, Except.bind]
      refine ⟨_, rfl, wr_holds hw' _, ?_⟩
      rw [md_wr, e]
      simp only [md, QInt.coeffs]
      push_cast
      ring
    · have h1 : D % 4 ≠ 1 := fun h1 => by
        have := mod4d2_eq D
        rw [if_neg hD.mod4, if_pos h1] at this; omega
      rw [if_neg h1, if_neg h1, h4]
      simp only [mul_wr hw' hx, sub_wr hw' hx, wr_sub_left, wr_sub_right, wr_mul_left, bind, Except.bind]
      refine ⟨_, rfl, wr_holds hw' _, ?_⟩
      rw [md_wr]
      simp only [md, QInt.coeffs]
      push_cast
      ring
    · exfalso
      have := mod4d2_eq D
      rw [if_neg hD.mod4] at this
      split at this <;> omega

theorem conj_is (hw : 3 ≤ x.w) (hx : x.checks = false) (hD : x.Discr cfg D) (hu : x.InRing D u) (hu' : u.d = 0 ∨ u.d = D) :
    ∃ z, x.qConj u = .ok z ∧ z.d = u.d ∧ x.Is D z (x.md u.a + x.md (omegaLin D) * x.md u.b) (-x.md u.b) := by
  have hw' : 2 ≤ x.w := by omega
  unfold qConj qcConj
  have hb0 : u.d = 0 → u.b = 0 := fun h0 => by
    by_contra hb
    have := hu.discr hb
    exact hD.mod4 (by rw [← this, h0]; rfl)
  by_cases h0 : u.d = 0
  · rw [if_pos h0]
    refine ⟨_, rfl, rfl, ⟨hu.a, hu.b, hu.discr⟩, ?_, ?_⟩
    · show x.md u.a = _
      rw [hb0 h0]; simp [md]
    · show x.md u.b = _
      rw [hb0 h0]; simp [md]
  · rw [if_neg h0]
    have hd : u.d = D := hu'.resolve_left h0
    unfold omegaLin
    rw [hd]
    rcases mod4d2_cases D with h4 | h4 | h4
    · rw [if_pos (mod4d2_zero h4), h4]
      simp only [add_wr hw' hx, neg_wr hw' hx, bind, Except.bind, pure, Except.pure]
      refine ⟨_, rfl, rfl, ⟨wr_holds hw' _, wr_holds hw' _, fun _ => rfl⟩, (md_wr _).trans ?_, (md_wr _).trans ?_⟩ <;>
        simp [md, QInt.coeffs]
    · have h1 : D % 4 ≠ 1 := fun h1 => by
        have := mod4d2_eq D
        rw [if_neg hD.mod4, if_pos h1] at this; omega
      rw [if_neg h1, h4]
      simp only [neg_wr hw' hx, bind, Except.bind, pure, Except.pure]
      refine ⟨_, rfl, rfl, ⟨hu.a, wr_holds hw' _, fun _ => rfl⟩, ?_, (md_wr _).trans ?_⟩
      · show x.md u.a = _
        simp [md]
      · simp [md, QInt.coeffs]
    · exfalso
      have := mod4d2_eq D
      rw [if_neg hD.mod4] at this
      split at this <;> omega

/-! ### Gaussian integers -/

/-- what a Gaussian result is congruent to -/
structure IsG (x : Fx) (z : GInt) (a b : ZMod (2 ^ x.w)) : Prop where
  holds : x.HoldsG z
  a : x.md z.re = a
  b : x.md z.im = b

theorem IsG.unique (hw : 2 ≤ x.w) {s t : GInt} {a b a' b' : ZMod (2 ^ x.w)} (hs : x.IsG s a b) (ht : x.IsG t a' b')
    (ha : a = a') (hb : b = b') : s = t := by
  have h1 := md_inj hw hs.holds.1 ht.holds.1 (by rw [hs.a, ht.a, ha])
  have h2 := md_inj hw hs.holds.2 ht.holds.2 (by rw [hs.b, ht.b, hb])
  cases s; cases t; simp_all

theorem gAdd_is (hw : 2 ≤ x.w) (hx : x.checks = false) (u v : GInt) :
    ∃ z, x.gAdd u v = .ok z ∧ x.IsG z (x.md u.re + x.md v.re) (x.md u.im + x.md v.im) := by
  unfold gAdd
  rw [qcAdd_wr hw hx]
  refine ⟨_, rfl, ⟨wr_holds hw _, wr_holds hw _⟩, (md_wr _).trans ?_, (md_wr _).trans ?_⟩ <;>
    simp [md, QCoeffs.add, GInt.coeffs]

theorem gSub_is (hw : 2 ≤ x.w) (hx : x.checks = false) (u v : GInt) :
    ∃ z, x.gSub u v = .ok z ∧ x.IsG z (x.md u.re - x.md v.re) (x.md u.im - x.md v.im) := by
  unfold gSub
  rw [qcSub_wr hw hx]
  refine ⟨_, rfl, ⟨wr_holds hw _, wr_holds hw _⟩, (md_wr _).trans ?_, (md_wr _).trans ?_⟩ <;>
    simp [md, QCoeffs.sub, GInt.coeffs]

theorem gMul_is (hw : 3 ≤ x.w) (hx : x.checks = false) (u v : GInt) :
    ∃ z, x.gMul u v = .ok z ∧ x.IsG z (x.md u.re * x.md v.re - x.md u.im * x.md v.im)
      (x.md u.re * x.md v.im + x.md u.im * x.md v.re) := by
  have hw' : 2 ≤ x.w := by omega
  have h1 : x.Holds (-1) := by
    obtain ⟨k, hk, _⟩ := four_dvd hw
    unfold Holds; omega
  have e : x.neg 1 = .ok (-1) := ret_ok h1
  unfold gMul
  rw [e]
  show ∃ z, (x.qcMul u.coeffs v.coeffs (-1) >>= fun c => pure (GInt.ofCoeffs c)) = _ ∧ _
  rw [qcMul_wr hw hx _ _ _ h1 (coeffs_mul_eq (by decide) _ _)]
  refine ⟨_, rfl, ⟨wr_holds hw' _, wr_holds hw' _⟩, (md_wr _).trans ?_, (md_wr _).trans ?_⟩
  · simp [md, omegaSq, GInt.coeffs, sub_eq_add_neg]
  · simp [md, omegaLin, GInt.coeffs]

theorem gConj_is (hw : 2 ≤ x.w) (hx : x.checks = false) (u : GInt) (hu : x.HoldsG u) :
    ∃ z, x.gConj u = .ok z ∧ x.IsG z (x.md u.re) (-x.md u.im) := by
  unfold gConj
  rw [neg_wr hw hx]
  refine ⟨_, rfl, ⟨hu.1, wr_holds hw _⟩, rfl, (md_wr _).trans ?_⟩
  simp [md]

theorem gNorm_is (hw : 2 ≤ x.w) (hx : x.checks = false) (u : GInt) :
    ∃ n, x.gNorm u = .ok n ∧ x.Holds n ∧ x.md n = x.md u.re * x.md u.re + x.md u.im * x.md u.im := by
  unfold gNorm
  simp only [mul_wr hw hx, add_wr hw hx, wr_add_left, wr_add_right, bind, Except.bind]
  refine ⟨_, rfl, wr_holds hw _, (md_wr _).trans ?_⟩
  simp [md]

end Fx
end NumIrr
