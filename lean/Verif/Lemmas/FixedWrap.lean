/-
Without overflow checks the operators compute modulo `2^w`: sums, differences and products of wrapped numbers are the
wrapped sums, differences and products.
-/
import Verif.Lemmas.FixedHolds
import Verif.Lemmas.FixedQRef
import Verif.Lemmas.QIntBasic
import Mathlib.Data.Int.ModEq

namespace NumIrr
namespace Fx

variable {x : Fx}

/-- the representable number congruent to `v` modulo `2^w` -/
def wr (x : Fx) (v : Int) : Int := (IntTy.signed x.w).wrap v

theorem wr_eq (x : Fx) (v : Int) : x.wr v = (v + 2 ^ (x.w - 1)) % 2 ^ x.w - 2 ^ (x.w - 1) := rfl

theorem wr_modEq (x : Fx) (v : Int) : x.wr v ≡ v [ZMOD 2 ^ x.w] := by
  have h := (Int.mod_modEq (v + 2 ^ (x.w - 1)) (2 ^ x.w)).sub_right (2 ^ (x.w - 1))
  rw [add_sub_cancel_right] at h
  exact h

theorem wr_congr {u v : Int} (h : u ≡ v [ZMOD 2 ^ x.w]) : x.wr u = x.wr v := by
  rw [wr_eq, wr_eq, h.add_right (2 ^ (x.w - 1))]

theorem wr_of_holds (hw : 2 ≤ x.w) {v : Int} (h : x.Holds v) : x.wr v = v := by
  have hp : (2 : Int) ^ x.w = 2 * 2 ^ (x.w - 1) := by
    rw [← pow_succ', Nat.sub_add_cancel (by omega)]
  unfold Holds at h
  rw [wr_eq, Int.emod_eq_of_lt (by omega) (by omega)]
  ring

theorem wr_holds (hw : 2 ≤ x.w) (v : Int) : x.Holds (x.wr v) := wrap_holds hw v

theorem ret_wr (hw : 2 ≤ x.w) (hx : x.checks = false) (v : Int) : x.ret v = .ok (x.wr v) := by
  unfold ret
  split
  · rename_i h
    rw [wr_of_holds hw (fits_holds h)]
  · rw [hx]; rfl

theorem add_wr (hw : 2 ≤ x.w) (hx : x.checks = false) (a b : Int) : x.add a b = .ok (x.wr (a + b)) := ret_wr hw hx _
theorem sub_wr (hw : 2 ≤ x.w) (hx : x.checks = false) (a b : Int) : x.sub a b = .ok (x.wr (a - b)) := ret_wr hw hx _
theorem mul_wr (hw : 2 ≤ x.w) (hx : x.checks = false) (a b : Int) : x.mul a b = .ok (x.wr (a * b)) := ret_wr hw hx _
theorem neg_wr (hw : 2 ≤ x.w) (hx : x.checks = false) (a : Int) : x.neg a = .ok (x.wr (-a)) := ret_wr hw hx _

theorem wr_add_left (a b : Int) : x.wr (x.wr a + b) = x.wr (a + b) := wr_congr ((wr_modEq x a).add_right b)
theorem wr_add_right (a b : Int) : x.wr (a + x.wr b) = x.wr (a + b) := wr_congr ((wr_modEq x b).add_left a)
theorem wr_sub_left (a b : Int) : x.wr (x.wr a - b) = x.wr (a - b) := wr_congr ((wr_modEq x a).sub_right b)
theorem wr_sub_right (a b : Int) : x.wr (a - x.wr b) = x.wr (a - b) := wr_congr ((wr_modEq x b).sub_left a)
theorem wr_mul_left (a b : Int) : x.wr (x.wr a * b) = x.wr (a * b) := wr_congr ((wr_modEq x a).mul_right b)
theorem wr_mul_right (a b : Int) : x.wr (a * x.wr b) = x.wr (a * b) := wr_congr ((wr_modEq x b).mul_left a)
theorem wr_neg (a : Int) : x.wr (-x.wr a) = x.wr (-a) := wr_congr (wr_modEq x a).neg

/-- a minimum divisible by 4 -/
theorem four_dvd (hw : 3 ≤ x.w) : ∃ k : Int, (2 : Int) ^ (x.w - 1) = 4 * k ∧ 1 ≤ k := by
  obtain ⟨k, hk⟩ : ∃ k, x.w - 1 = k + 2 := ⟨x.w - 3, by omega⟩
  rw [hk]
  exact ⟨2 ^ k, by ring, one_le_pow₀ (by norm_num)⟩

/-- `(d - 1) / 4` does not overflow when `d ≡ 1 (mod 4)` -/
theorem sub_one_wr (hw : 3 ≤ x.w) {d : Int} (hd : x.Holds d) (h : d % 4 = 1) : x.wr (d - 1) = d - 1 := by
  obtain ⟨k, hk, _⟩ := four_dvd hw
  apply wr_of_holds (by omega)
  unfold Holds at hd ⊢
  omega

theorem div_ok {a b : Int} (hb : b ≠ 0) (h : x.Holds (a.tdiv b)) : x.div a b = .ok (a.tdiv b) := by
  unfold div
  rw [if_neg hb, if_pos (by simpa [fits, IntTy.signed, Holds] using h)]

theorem mod4d2_zero {d : Int} (h : mod4d2 d = 0) : d % 4 = 1 := by
  rw [mod4d2_eq] at h
  split at h
  · cases h
  · split at h
    · assumption
    · cases h

theorem tdiv4_holds (hw : 3 ≤ x.w) {d : Int} (hd : x.Holds d) (h : d % 4 = 1) : x.Holds ((d - 1).tdiv 4) := by
  rw [(QCoeffs.tdiv4 h).1]
  obtain ⟨k, hk, _⟩ := four_dvd hw
  unfold Holds at hd ⊢
  omega

/-- the result is the exact result reduced modulo `2^w` -/
theorem qcMul_wr (hw : 3 ≤ x.w) (hx : x.checks = false) (u v c : QCoeffs) {d : Int} (hd : x.Holds d)
    (h : u.mul v d = .ok c) : x.qcMul u v d = .ok ⟨x.wr c.a, x.wr c.b⟩ := by
  have hw' : 2 ≤ x.w := by omega
  unfold qcMul
  unfold QCoeffs.mul at h
  rcases mod4d2_cases d with h4 | h4 | h4 <;> rw [h4] at h ⊢
  · cases h
    have h1 := mod4d2_zero h4
    simp only [mul_wr hw' hx, add_wr hw' hx, sub_wr hw' hx, sub_one_wr hw hd h1, div_ok (by decide) (tdiv4_holds hw hd h1),
      wr_add_left, wr_add_right, wr_mul_left, wr_mul_right, bind, Except.bind, pure, Except.pure]
  · cases h
    simp only [mul_wr hw' hx, add_wr hw' hx,
      wr_add_left, wr_add_right, wr_mul_left, bind, Except.bind, pure, Except.pure]
  · cases h

theorem qcAdd_wr (hw : 2 ≤ x.w) (hx : x.checks = false) (u v : QCoeffs) :
    x.qcAdd u v = .ok ⟨x.wr (u.add v).a, x.wr (u.add v).b⟩ := by
  unfold qcAdd
  simp only [add_wr hw hx, bind, Except.bind, pure, Except.pure, QCoeffs.add]

theorem qcSub_wr (hw : 2 ≤ x.w) (hx : x.checks = false) (u v : QCoeffs) :
    x.qcSub u v = .ok ⟨x.wr (u.sub v).a, x.wr (u.sub v).b⟩ := by
  unfold qcSub
  simp only [sub_wr hw hx, bind, Except.bind, pure, Except.pure, QCoeffs.sub]

theorem qcAddInt_wr (hw : 2 ≤ x.w) (hx : x.checks = false) (u : QCoeffs) (k : Int) :
    x.qcAddInt u k = .ok ⟨x.wr (u.addInt k).a, (u.addInt k).b⟩ := by
  unfold qcAddInt
  simp only [add_wr hw hx, bind, Except.bind, pure, Except.pure, QCoeffs.addInt]

theorem qcSubInt_wr (hw : 2 ≤ x.w) (hx : x.checks = false) (u : QCoeffs) (k : Int) :
    x.qcSubInt u k = .ok ⟨x.wr (u.subInt k).a, (u.subInt k).b⟩ := by
  unfold qcSubInt
  simp only [sub_wr hw hx, bind, Except.bind, pure, Except.pure, QCoeffs.subInt]

theorem qcMulInt_wr (hw : 2 ≤ x.w) (hx : x.checks = false) (u : QCoeffs) (k : Int) :
    x.qcMulInt u k = .ok ⟨x.wr (u.mulInt k).a, x.wr (u.mulInt k).b⟩ := by
  unfold qcMulInt
  simp only [mul_wr hw hx, bind, Except.bind, pure, Except.pure, QCoeffs.mulInt]

theorem ret_ok {v : Int} (h : x.Holds v) : x.ret v = .ok v := by
  unfold ret
  rw [if_pos (by simpa [fits, IntTy.signed, Holds] using h)]

/-- `from_coeffs` on a non-square discriminant only stores its arguments -/
theorem qFromCoeffs_ok (hw : 3 ≤ x.w) (cfg : Cfg) (c : QCoeffs) {d : Int} (hd : x.Holds d) (h4 : d % 4 ≠ 0)
    (hs : ¬ IsSquare d) (hr : cfg.complex = false → 0 ≤ d) :
    x.qFromCoeffs cfg c d = .ok (if c.b = 0 then ⟨c.a, 0, 0⟩ else ⟨c.a, c.b, d⟩) := by
  obtain ⟨k, hk, hk1⟩ := four_dvd hw
  have h4' : d.tmod 4 ≠ 0 := by
    intro e
    have := Int.dvd_of_tmod_eq_zero e
    omega
  have hd0 : d ≠ 0 := by rintro rfl; exact h4 rfl
  have hm : x.Holds ((d.natAbs : Nat) : Int) := by
    unfold Holds at hd ⊢; omega
  have h1 := isqrt_le ((d.natAbs : Nat) : Int) (Int.natCast_nonneg _)
  have h2 := isqrt_nonneg ((d.natAbs : Nat) : Int)
  have hsq : x.Holds (isqrt ((d.natAbs : Nat) : Int) * isqrt ((d.natAbs : Nat) : Int)) := by
    have := mul_nonneg h2 h2
    unfold Holds at hm ⊢; omega
  have key : x.qSquare c d = .ok (c.a, c.b, d) := by
    unfold qSquare
    have e1 : x.abs d = .ok ((d.natAbs : Nat) : Int) := ret_ok hm
    have e2 : sqrtR ((d.natAbs : Nat) : Int) = .ok (isqrt ((d.natAbs : Nat) : Int)) := by
      unfold sqrtR; rw [if_neg (by omega)]
    have e3 : x.mul (isqrt ((d.natAbs : Nat) : Int)) (isqrt ((d.natAbs : Nat) : Int)) = .ok _ := ret_ok hsq
    simp only [e1, e2, e3, bind, Except.bind]
    rw [if_neg (fun e => hs ⟨_, e.symm⟩)]
    rfl
  unfold qFromCoeffs
  rw [if_neg (fun h => absurd (hr h.1) (by omega)), if_neg h4', key]
  simp only [bind, Except.bind, pure, Except.pure, hd0, or_false]
  split
  · rfl
  · rfl

theorem fromCoeffs_ok (cfg : Cfg) (c : QCoeffs) {d : Int} (h4 : d % 4 ≠ 0)
    (hs : ¬ IsSquare d) (hr : cfg.complex = false → 0 ≤ d) :
    QInt.fromCoeffs cfg c d = .ok (if c.b = 0 then ⟨c.a, 0, 0⟩ else ⟨c.a, c.b, d⟩) := by
  have h4' : d.tmod 4 ≠ 0 := by
    intro e
    have := Int.dvd_of_tmod_eq_zero e
    omega
  have hd0 : d ≠ 0 := by rintro rfl; exact h4 rfl
  unfold QInt.fromCoeffs
  rw [if_neg (fun h => absurd (hr h.1) (by omega)), if_neg h4']
  have hne : ¬ isqrt ((d.natAbs : Nat) : Int) * isqrt ((d.natAbs : Nat) : Int) = d := fun e => hs ⟨_, e.symm⟩
  simp only [hne, if_false, hd0, or_false]
  split
  · rfl
  · rfl

/-- operands with the same discriminant need no reduction -/
theorem qReduceBinOpUnwrap_same (hw : 3 ≤ x.w) (cfg : Cfg) (u v : QInt) (hd : x.Holds v.d) (h : u.d = v.d) (h4 : v.d % 4 ≠ 0) :
    x.qReduceBinOpUnwrap cfg u v = .ok (u, v) ∧ QInt.reduceBinOpUnwrap cfg u v = .ok (u, v) := by
  obtain ⟨k, hk, hk1⟩ := four_dvd hw
  have h0 : v.d ≠ 0 := by intro e; rw [e] at h4; exact h4 rfl
  have e : x.abs v.d = .ok ((v.d.natAbs : Nat) : Int) := ret_ok (by unfold Holds at hd ⊢; omega)
  constructor
  · unfold qReduceBinOpUnwrap qReduceBinOp qMatch
    rw [h]
    simp only [Bool.xor_self, e, bind, Except.bind, pure, Except.pure, gt_iff_lt, lt_irrefl, if_false, if_true, h0, or_self,
      and_false, h, Bool.false_eq_true]
    split
    · rename_i he; split at he <;> cases he
    · rename_i he; split at he <;> cases he <;> rfl
  · unfold QInt.reduceBinOpUnwrap QInt.reduceBinOp
    rw [h]
    simp only [Bool.xor_self, bind, Except.bind, pure, Except.pure, gt_iff_lt, lt_irrefl, if_false, if_true, h0, or_self,
      and_false, h, Bool.false_eq_true]
    split
    · rename_i he; split at he <;> cases he
    · rename_i he; split at he <;> cases he <;> rfl

/-- storing a wrapped result that fits -/
theorem qFromCoeffs_wr (hw : 3 ≤ x.w) (cfg : Cfg) (c : QCoeffs) {d : Int} {t : QInt} (hd : x.Holds d) (h4 : d % 4 ≠ 0)
    (hs : ¬ IsSquare d) (hr : cfg.complex = false → 0 ≤ d) (h : QInt.fromCoeffs cfg c d = .ok t) (ht : x.HoldsQ t) :
    x.qFromCoeffs cfg ⟨x.wr c.a, x.wr c.b⟩ d = .ok t := by
  rw [fromCoeffs_ok cfg c h4 hs hr] at h
  rw [qFromCoeffs_ok hw cfg _ hd h4 hs hr, ← h]
  have hw' : 2 ≤ x.w := by omega
  by_cases hb : c.b = 0
  · rw [if_pos hb] at h
    cases h
    have : x.wr (0 : Int) = 0 := wr_of_holds hw' (holds_zero x)
    simp only [hb, this, if_true]
    rw [wr_of_holds hw' ht.1]
  · rw [if_neg hb] at h
    cases h
    have h1 : x.wr c.a = c.a := wr_of_holds hw' ht.1
    have h2 : x.wr c.b = c.b := wr_of_holds hw' ht.2.1
    simp only [h1, h2]

theorem qAddInt_wr (hw : 2 ≤ x.w) (hx : x.checks = false) (u : QInt) (k : Int) (h : x.HoldsQ (u.addInt k)) :
    x.qAddInt u k = .ok (u.addInt k) := by
  unfold qAddInt
  rw [qcAddInt_wr hw hx]
  have h1 : x.wr (u.coeffs.addInt k).a = (u.coeffs.addInt k).a := wr_of_holds hw h.1
  rw [h1]; rfl

theorem qSubInt_wr (hw : 2 ≤ x.w) (hx : x.checks = false) (u : QInt) (k : Int) (h : x.HoldsQ (u.subInt k)) :
    x.qSubInt u k = .ok (u.subInt k) := by
  unfold qSubInt
  rw [qcSubInt_wr hw hx]
  have h1 : x.wr (u.coeffs.subInt k).a = (u.coeffs.subInt k).a := wr_of_holds hw h.1
  rw [h1]; rfl

theorem qMulInt_wr (hw : 2 ≤ x.w) (hx : x.checks = false) (u : QInt) (k : Int) (h : x.HoldsQ (u.mulInt k)) :
    x.qMulInt u k = .ok (u.mulInt k) := by
  unfold qMulInt
  unfold QInt.mulInt at h ⊢
  split
  · rfl
  · rename_i hk
    rw [if_neg hk] at h
    rw [qcMulInt_wr hw hx]
    have h1 : x.wr (u.coeffs.mulInt k).a = (u.coeffs.mulInt k).a := wr_of_holds hw h.1
    have h2 : x.wr (u.coeffs.mulInt k).b = (u.coeffs.mulInt k).b := wr_of_holds hw h.2.1
    rw [h1, h2]; rfl

theorem qNeg_wr (hw : 2 ≤ x.w) (hx : x.checks = false) (u : QInt) (h : x.HoldsQ u.neg) :
    x.qNeg u = .ok u.neg := by
  unfold qNeg
  rw [neg_wr hw hx, neg_wr hw hx]
  have h1 : x.wr (-u.a) = -u.a := wr_of_holds hw h.1
  have h2 : x.wr (-u.b) = -u.b := wr_of_holds hw h.2.1
  rw [h1, h2]; rfl

/-- operands for which no reduction of the discriminants is needed -/
theorem qAdd_wr (hw : 3 ≤ x.w) (hx : x.checks = false) (cfg : Cfg) {u v t : QInt} (hv : v.Ok cfg) (hvd : x.Holds v.d)
    (hd : u.d = v.d ∨ u.b = 0 ∨ v.b = 0) (h : QInt.add cfg u v = .ok t) (ht : x.HoldsQ t) : x.qAdd cfg u v = .ok t := by
  have hw' : 2 ≤ x.w := by omega
  unfold QInt.add at h
  unfold qAdd
  split
  · rename_i n1; rw [if_pos n1] at h; cases h; exact qAddInt_wr hw' hx _ _ ht
  · rename_i n1; rw [if_neg n1] at h
    split
    · rename_i n2; rw [if_pos n2] at h; cases h; exact qAddInt_wr hw' hx _ _ ht
    · rename_i n2; rw [if_neg n2] at h
      simp only [QInt.isRational, decide_eq_true_eq] at n1 n2
      have hd : u.d = v.d := by tauto
      have hv0 : v.d ≠ 0 := fun e => n1 (hv.rational e)
      obtain ⟨e1, e2⟩ := qReduceBinOpUnwrap_same hw cfg u v hvd hd (hv.mod4 hv0)
      rw [e2] at h
      rw [e1]
      show (x.qcAdd u.coeffs v.coeffs >>= fun c => x.qFromCoeffs cfg c v.d) = _
      rw [qcAdd_wr hw' hx]
      exact qFromCoeffs_wr hw cfg _ hvd (hv.mod4 hv0) (hv.irrational hv0) hv.real h ht

theorem qSub_wr (hw : 3 ≤ x.w) (hx : x.checks = false) (cfg : Cfg) {u v t : QInt} (hv : v.Ok cfg) (hvd : x.Holds v.d)
    (hd : u.d = v.d ∨ u.b = 0 ∨ v.b = 0) (h : QInt.sub cfg u v = .ok t) (ht : x.HoldsQ t) : x.qSub cfg u v = .ok t := by
  have hw' : 2 ≤ x.w := by omega
  unfold QInt.sub at h
  unfold qSub
  split
  · rename_i n1; rw [if_pos n1] at h; cases h; exact qSubInt_wr hw' hx _ _ ht
  · rename_i n1; rw [if_neg n1] at h
    split
    · rename_i n2; rw [if_pos n2] at h; cases h
      unfold qSubInt qNeg
      rw [qcSubInt_wr hw' hx]
      simp only [bind, Except.bind, pure, Except.pure, QInt.mk', neg_wr hw' hx, wr_neg]
      have h1 : x.wr (-(v.coeffs.subInt u.a).a) = _ := wr_of_holds hw' ht.1
      have h2 : x.wr (-(v.coeffs.subInt u.a).b) = _ := wr_of_holds hw' ht.2.1
      rw [h1, h2]; rfl
    · rename_i n2; rw [if_neg n2] at h
      simp only [QInt.isRational, decide_eq_true_eq] at n1 n2
      have hd : u.d = v.d := by tauto
      have hv0 : v.d ≠ 0 := fun e => n1 (hv.rational e)
      obtain ⟨e1, e2⟩ := qReduceBinOpUnwrap_same hw cfg u v hvd hd (hv.mod4 hv0)
      rw [e2] at h
      rw [e1]
      show (x.qcSub u.coeffs v.coeffs >>= fun c => x.qFromCoeffs cfg c v.d) = _
      rw [qcSub_wr hw' hx]
      exact qFromCoeffs_wr hw cfg _ hvd (hv.mod4 hv0) (hv.irrational hv0) hv.real h ht

theorem qMul_wr (hw : 3 ≤ x.w) (hx : x.checks = false) (cfg : Cfg) {u v t : QInt} (hv : v.Ok cfg) (hvd : x.Holds v.d)
    (hd : u.d = v.d ∨ u.b = 0 ∨ v.b = 0) (h : QInt.mul cfg u v = .ok t) (ht : x.HoldsQ t) : x.qMul cfg u v = .ok t := by
  have hw' : 2 ≤ x.w := by omega
  unfold QInt.mul at h
  unfold qMul
  split
  · rename_i n1; rw [if_pos n1] at h; cases h; exact qMulInt_wr hw' hx _ _ ht
  · rename_i n1; rw [if_neg n1] at h
    split
    · rename_i n2; rw [if_pos n2] at h; cases h; exact qMulInt_wr hw' hx _ _ ht
    · rename_i n2; rw [if_neg n2] at h
      simp only [QInt.isRational, decide_eq_true_eq] at n1 n2
      have hd : u.d = v.d := by tauto
      have hv0 : v.d ≠ 0 := fun e => n1 (hv.rational e)
      obtain ⟨e1, e2⟩ := qReduceBinOpUnwrap_same hw cfg u v hvd hd (hv.mod4 hv0)
      rw [e2] at h
      rw [e1]
      show (x.qcMul u.coeffs v.coeffs u.d >>= fun c => x.qFromCoeffs cfg c v.d) = _
      cases hm : u.coeffs.mul v.coeffs u.d with
      | error e => simp only [bind, Except.bind, hm] at h; cases h
      | ok c =>
        simp only [bind, Except.bind, hm] at h
        rw [qcMul_wr hw hx _ _ c (by rw [hd]; exact hvd) hm]
        exact qFromCoeffs_wr hw cfg _ hvd (hv.mod4 hv0) (hv.irrational hv0) hv.real h ht

/-- the norm, unless `1 - d` overflows -/
theorem qNorm_wr (hw : 3 ≤ x.w) (hx : x.checks = false) {u : QInt} {n : Int} (hd : x.Holds u.d) (hm : u.d ≠ -2 ^ (x.w - 1) + 1)
    (h : u.norm = .ok n) (hn : x.Holds n) : x.qNorm u = .ok n := by
  have hw' : 2 ≤ x.w := by omega
  unfold QInt.norm QCoeffs.norm at h
  unfold qNorm qcNorm
  split
  · rename_i h0; rw [if_pos h0] at h; cases h
    rw [mul_wr hw' hx, wr_of_holds hw' hn]
  · rename_i h0; rw [if_neg h0] at h
    rcases mod4d2_cases u.d with h4 | h4 | h4 <;> rw [h4] at h ⊢
    · cases h
      have h1 := mod4d2_zero h4
      have hd' : x.Holds (1 - u.d) := by
        obtain ⟨k, hk, _⟩ := four_dvd hw
        unfold Holds at hd ⊢; omega
      have hq : x.Holds ((1 - u.d).tdiv 4) := by
        have : (1 - u.d).tdiv 4 = -((u.d - 1).tdiv 4) := by
          rw [← Int.neg_tdiv]; congr 1; ring
        rw [this, (QCoeffs.tdiv4 h1).1]
        obtain ⟨k, hk, _⟩ := four_dvd hw
        unfold Holds at hd ⊢; omega
      simp only [mul_wr hw' hx, add_wr hw' hx, sub_wr hw' hx, wr_of_holds hw' hd', div_ok (by decide) hq,
        wr_add_left, wr_add_right, wr_mul_left, bind, Except.bind]
      rw [wr_of_holds hw' hn]
    · cases h
      simp only [mul_wr hw' hx, sub_wr hw' hx,
        wr_sub_left, wr_sub_right, wr_mul_left, bind, Except.bind]
      rw [wr_of_holds hw' hn]
    · cases h

theorem qConj_wr (hw : 2 ≤ x.w) (hx : x.checks = false) {u t : QInt} (h : u.conj = .ok t) (ht : x.HoldsQ t) :
    x.qConj u = .ok t := by
  unfold QInt.conj QCoeffs.conj at h
  unfold qConj qcConj
  split
  · rename_i h0; rw [if_pos h0] at h; exact h
  · rename_i h0; rw [if_neg h0] at h
    rcases mod4d2_cases u.d with h4 | h4 | h4 <;> rw [h4] at h ⊢
    · cases h
      simp only [add_wr hw hx, neg_wr hw hx, bind, Except.bind, pure, Except.pure]
      have h1 : x.wr (u.coeffs.a + u.coeffs.b) = _ := wr_of_holds hw ht.1
      have h2 : x.wr (-u.coeffs.b) = _ := wr_of_holds hw ht.2.1
      rw [h1, h2]
    · cases h
      simp only [neg_wr hw hx, bind, Except.bind, pure, Except.pure]
      have h2 : x.wr (-u.coeffs.b) = _ := wr_of_holds hw ht.2.1
      rw [h2]
    · cases h

/-! ### `GaussianInt` -/

theorem gConj_wr (hw : 2 ≤ x.w) (hx : x.checks = false) {u : GInt} (h : x.HoldsG u.conj) : x.gConj u = .ok u.conj := by
  unfold gConj
  rw [neg_wr hw hx]
  have : x.wr (-u.im) = _ := wr_of_holds hw h.2
  rw [this]; rfl

theorem gNorm_wr (hw : 2 ≤ x.w) (hx : x.checks = false) {u : GInt} (h : x.Holds u.norm) : x.gNorm u = .ok u.norm := by
  unfold gNorm
  simp only [mul_wr hw hx, add_wr hw hx, wr_add_left, wr_add_right, bind, Except.bind]
  exact congrArg _ (wr_of_holds hw h)

theorem gAdd_wr (hw : 2 ≤ x.w) (hx : x.checks = false) {u v : GInt} (h : x.HoldsG (u.add v)) : x.gAdd u v = .ok (u.add v) := by
  unfold gAdd
  rw [qcAdd_wr hw hx]
  have h1 : x.wr (u.coeffs.add v.coeffs).a = _ := wr_of_holds hw h.1
  have h2 : x.wr (u.coeffs.add v.coeffs).b = _ := wr_of_holds hw h.2
  rw [h1, h2]; rfl

theorem gSub_wr (hw : 2 ≤ x.w) (hx : x.checks = false) {u v : GInt} (h : x.HoldsG (u.sub v)) : x.gSub u v = .ok (u.sub v) := by
  unfold gSub
  rw [qcSub_wr hw hx]
  have h1 : x.wr (u.coeffs.sub v.coeffs).a = _ := wr_of_holds hw h.1
  have h2 : x.wr (u.coeffs.sub v.coeffs).b = _ := wr_of_holds hw h.2
  rw [h1, h2]; rfl

theorem gMul_wr (hw : 3 ≤ x.w) (hx : x.checks = false) {u v t : GInt} (h : u.mul v = .ok t) (ht : x.HoldsG t) :
    x.gMul u v = .ok t := by
  have hw' : 2 ≤ x.w := by omega
  have h1 : x.Holds (-1) := by
    obtain ⟨k, hk, _⟩ := four_dvd hw
    unfold Holds; omega
  have e : x.neg 1 = .ok (-1) := ret_ok h1
  unfold GInt.mul at h
  unfold gMul
  rw [e]
  show (x.qcMul u.coeffs v.coeffs (-1) >>= fun c => pure (GInt.ofCoeffs c)) = _
  cases hm : u.coeffs.mul v.coeffs (-1) with
  | error e => simp only [bind, Except.bind, hm] at h; cases h
  | ok c =>
    simp only [bind, Except.bind, hm, pure, Except.pure] at h
    cases h
    rw [qcMul_wr hw hx _ _ c h1 hm]
    have h1 : x.wr c.a = _ := wr_of_holds hw' ht.1
    have h2 : x.wr c.b = _ := wr_of_holds hw' ht.2
    rw [h1, h2]; rfl

/-! ### Overflows at every width -/

theorem wr_multiple (hw : 2 ≤ x.w) (m : Int) : x.wr (2 ^ x.w * m) = 0 := by
  have h : (2 ^ x.w * m : Int) ≡ 0 [ZMOD 2 ^ x.w] := by
    rw [Int.modEq_zero_iff_dvd]; exact Dvd.intro _ rfl
  rw [wr_congr h, wr_of_holds hw (holds_zero x)]

theorem ret_overflow (hx : x.checks = true) {v : Int} (h : ¬ x.Holds v) : x.ret v = .error .overflow := by
  unfold ret
  rw [if_neg (by simpa [fits, IntTy.signed, Holds] using h), hx]; rfl

end Fx
end NumIrr
