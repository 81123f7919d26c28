/-
Bounds under which the functions of Model/FixedQInt do not overflow, for operands with the same discriminant.
-/
import Verif.Lemmas.FixedSafeOps
import Verif.Lemmas.FixedQRel
import Verif.Lemmas.FixedWrap

namespace NumIrr
namespace Fx

variable {x : Fx} {L B : Int}

theorem holds_of_abs (hL : L < 2 ^ (x.w - 1)) {v : Int} (h : |v| ≤ L) : x.Holds v := by
  have := abs_le.mp h
  constructor <;> omega

/-- the rounding division does not overflow when `|n| + |y|` fits -/
theorem divRemRound_safe (hL : L < 2 ^ (x.w - 1)) {n y N Y : Int} (hn : |n| ≤ N) (hy : |y| ≤ Y) (h : N + Y ≤ L) :
    Safe (x.divRemRound n y) (fun p => |p.1| ≤ N + Y ∧ 2 * |p.2| ≤ Y) := by
  have hN : 0 ≤ N := (abs_nonneg _).trans hn
  have hY : 0 ≤ Y := (abs_nonneg _).trans hy
  have hm : x.abs y = .ok |y| := by
    have : x.abs y = .ok ((y.natAbs : Nat) : Int) := ret_ok (holds_of_abs hL (by rw [Int.natCast_natAbs, abs_abs]; linarith))
    rw [this, Int.natCast_natAbs]
  have hh : |(|y|).tdiv 2| ≤ Y := abs_tdiv_le (by rw [abs_abs]; exact hy)
  have ho : |(|y|).tdiv 2 * n.sign| ≤ Y := by
    have : |n.sign| ≤ 1 := by
      rcases lt_trichotomy n 0 with h | h | h
      · rw [Int.sign_eq_neg_one_of_neg h]; norm_num
      · subst h; norm_num
      · rw [Int.sign_eq_one_of_pos h]; norm_num
    have := abs_mul_le hh this
    linarith
  have ht : |n + (|y|).tdiv 2 * n.sign| ≤ N + Y := (abs_add_le _ _).trans (add_le_add hn ho)
  have hq : |(n + (|y|).tdiv 2 * n.sign).tdiv y| ≤ N + Y := abs_tdiv_le ht
  unfold divRemRound
  rw [hm]
  by_cases h0 : y = 0
  · subst h0
    have e1 : x.div |(0 : Int)| 2 = .ok 0 := div_ok (a := |(0:Int)|) (b := 2) (by decide) (by simpa using holds_zero x)
    have e2 : x.mul 0 n.sign = .ok 0 := by
      have := ret_ok (x := x) (v := 0 * n.sign) (by simpa using holds_zero x)
      simpa [mul] using this
    have e3 : x.add n 0 = .ok n := by
      have := ret_ok (x := x) (v := n + 0) (holds_of_abs hL (by simp; linarith))
      simpa [add] using this
    have e4 : x.div n 0 = .error .divZero := rfl
    simp only [e1, e2, e3, e4, bind, Except.bind]
    exact Safe.err (by decide)
  · have e1 : x.div |y| 2 = .ok ((|y|).tdiv 2) := div_ok (by decide) (holds_of_abs hL (by linarith))
    have e2 : x.mul ((|y|).tdiv 2) n.sign = .ok ((|y|).tdiv 2 * n.sign) := ret_ok (holds_of_abs hL (by linarith))
    have e3 : x.add n ((|y|).tdiv 2 * n.sign) = .ok (n + (|y|).tdiv 2 * n.sign) := ret_ok (holds_of_abs hL (by linarith))
    have e4 := div_ok (x := x) h0 (holds_of_abs hL (hq.trans h))
    have e5 : x.rem (n + (|y|).tdiv 2 * n.sign) y = .ok ((n + (|y|).tdiv 2 * n.sign).tmod y) := by
      unfold rem
      rw [if_neg h0, if_pos (by simpa [fits, IntTy.signed, Holds] using holds_of_abs hL (hq.trans h))]
    obtain ⟨q, r, e, s1, s2, _⟩ := divRemRound_spec n h0
    have e' : NumIrr.divRemRound n y = .ok ((n + (|y|).tdiv 2 * n.sign).tdiv y,
        (n + (|y|).tdiv 2 * n.sign).tmod y - (|y|).tdiv 2 * n.sign) := by
      unfold NumIrr.divRemRound
      rw [if_neg h0, Int.natCast_natAbs]
    rw [e'] at e
    simp only [Except.ok.injEq, Prod.mk.injEq] at e
    obtain ⟨eq1, eq2⟩ := e
    have e6 : x.sub ((n + (|y|).tdiv 2 * n.sign).tmod y) ((|y|).tdiv 2 * n.sign) = .ok r := by
      rw [← eq2] at s2 ⊢
      exact ret_ok (holds_of_abs hL (by have := abs_nonneg ((n + (|y|).tdiv 2 * n.sign).tmod y - (|y|).tdiv 2 * n.sign); linarith))
    simp only [e1, e2, e3, e4, e5, e6, bind, Except.bind]
    exact Safe.pure ⟨hq, by dsimp only; linarith⟩

attribute [local irreducible] Fx.add Fx.sub Fx.mul Fx.neg Fx.div Fx.divRemRound

/-- bounds on coefficients -/
def QBnd (t : QCoeffs) (A B : Int) : Prop := |t.a| ≤ A ∧ |t.b| ≤ B

theorem qcDivInt_safe (hL : L < 2 ^ (x.w - 1)) {u : QCoeffs} {k A K : Int} (hu : QBnd u A A) (hk : |k| ≤ K)
    (h : A + K ≤ L) : Safe (x.qcDivInt u k) (fun t => QBnd t (A + K) (A + K)) := by
  unfold qcDivInt
  refine (divRemRound_safe hL hu.1 hk h).bind fun p hp => ?_
  refine (divRemRound_safe hL hu.2 hk h).bind fun q hq => ?_
  exact Safe.pure ⟨hp.1, hq.1⟩

theorem qcRemInt_safe (hL : L < 2 ^ (x.w - 1)) {u : QCoeffs} {k A K : Int} (hu : QBnd u A A) (hk : |k| ≤ K)
    (h : A + K ≤ L) : Safe (x.qcRemInt u k) (fun _ => True) := by
  unfold qcRemInt
  refine (divRemRound_safe hL hu.1 hk h).bind fun p hp => ?_
  refine (divRemRound_safe hL hu.2 hk h).bind fun q hq => ?_
  exact Safe.pure trivial

theorem one_abs : |(1 : Int)| ≤ 1 := by norm_num

theorem qcNorm_safe (hL : L < 2 ^ (x.w - 1)) (hB : 1 ≤ B) {u : QCoeffs} {d : Int} (hu : QBnd u B B) (hd : |d| ≤ B)
    (h : 5 * B ^ 3 ≤ L) : Safe (x.qcNorm u d) (fun n => |n| ≤ 5 * B ^ 3) := by
  obtain ⟨_, _⟩ := hu
  obtain ⟨_, _, _, _, _, _, _, _, _⟩ := pows hB
  have _ := one_abs
  unfold qcNorm
  split
  · exact (mul_safe hL (by assumption) (by assumption) (by poly)).mono fun v hv => by nlinarith
  · split
    · iterate 7 op_step
      refine (add_safe hL (by assumption) (by assumption) (by poly)).mono fun v hv => ?_
      nlinarith
    · iterate 3 op_step
      refine (sub_safe hL (by assumption) (by assumption) (by poly)).mono fun v hv => ?_
      nlinarith
    · exact Safe.err (by decide)

theorem qcMul_safe (hL : L < 2 ^ (x.w - 1)) (hB : 1 ≤ B) {u v : QCoeffs} {d C : Int} (hu : QBnd u B B) (hv : QBnd v C C)
    (hd : |d| ≤ B) (h : 3 * (B ^ 2 * C) ≤ L) (hC1 : 1 ≤ C) : Safe (x.qcMul u v d) (fun t => QBnd t (3 * (B ^ 2 * C)) (3 * (B ^ 2 * C))) := by
  obtain ⟨hu1, hu2⟩ := hu
  obtain ⟨hv1, hv2⟩ := hv
  have hC : 0 ≤ C := (abs_nonneg _).trans hv1
  have h1 := one_abs
  have c2 : C ≤ B * C := le_mul_of_one_le_left hC hB
  have c1 : B * C ≤ B ^ 2 * C := by
    rw [pow_two, mul_assoc]; exact le_mul_of_one_le_left (by linarith) hB
  have c3 : B ≤ B ^ 2 := (pows hB).1
  unfold qcMul
  split
  · have c4 : B ^ 2 ≤ B ^ 2 * C := le_mul_of_one_le_right (by positivity) hC1
    iterate 10 op_step
    exact Safe.pure ⟨by poly, by poly⟩
  · iterate 7 op_step
    exact Safe.pure ⟨by poly, by poly⟩
  · exact Safe.err (by decide)

theorem qcDivNumer_safe (hL : L < 2 ^ (x.w - 1)) (hB : 1 ≤ B) {u v : QCoeffs} {d : Int} (hu : QBnd u B B) (hv : QBnd v B B)
    (hd : |d| ≤ B) (h : 5 * B ^ 3 ≤ L) : Safe (x.qcDivNumer u v d) (fun p => |p.1| ≤ 5 * B ^ 3 ∧ |p.2| ≤ 5 * B ^ 3) := by
  obtain ⟨_, _⟩ := hu
  obtain ⟨_, _⟩ := hv
  obtain ⟨_, _, _, _, _, _, _, _, _⟩ := pows hB
  have _ := one_abs
  unfold qcDivNumer
  split
  · iterate 11 op_step
    exact Safe.pure ⟨by poly, by poly⟩
  · iterate 7 op_step
    exact Safe.pure ⟨by poly, by poly⟩
  · exact Safe.err (by decide)

theorem qcDivRem_safe (hL : L < 2 ^ (x.w - 1)) (hB : 1 ≤ B) {u v : QCoeffs} {d : Int} (hu : QBnd u B B) (hv : QBnd v B B)
    (hd : |d| ≤ B) (h : 20 * B ^ 5 ≤ L) :
    Safe (x.qcDivRem u v d) (fun p => QBnd p.1 (10 * B ^ 3) (10 * B ^ 3) ∧ QBnd p.2 (20 * B ^ 5) (20 * B ^ 5)) := by
  obtain ⟨p1, p2, p3, p4, _, _, _, _, _⟩ := pows hB
  unfold qcDivRem
  refine (qcDivNumer_safe hL hB hu hv hd (by linarith)).bind fun ab hab => ?_
  refine (qcNorm_safe hL hB hv hd (by linarith)).bind fun n hn => ?_
  refine (divRemRound_safe hL hab.1 hn (by linarith)).bind fun p hp => ?_
  refine (divRemRound_safe hL hab.2 hn (by linarith)).bind fun q hq => ?_
  have hr : QBnd ⟨p.2, q.2⟩ (5 * B ^ 3) (5 * B ^ 3) :=
    ⟨by dsimp only; linarith [abs_nonneg p.2, hp.2], by dsimp only; linarith [abs_nonneg q.2, hq.2]⟩
  have e : B ^ 2 * (5 * B ^ 3) = 5 * B ^ 5 := by ring
  refine (qcMul_safe hL hB hv hr hd (by rw [e]; linarith) (by linarith)).bind fun m hm => ?_
  rw [e] at hm
  refine (qcDivInt_safe hL hm hn (by linarith)).bind fun r hr => ?_
  exact Safe.pure ⟨⟨by dsimp only; linarith [hp.1], by dsimp only; linarith [hq.1]⟩, by linarith [hr.1], by linarith [hr.2]⟩

/-! ### `QuadraticInt` -/

/-- storing a result, for a root up to `S²` -/
theorem qFromCoeffs_safe (hL : L < 2 ^ (x.w - 1)) (cfg : Cfg) {c : QCoeffs} {d A S : Int} (hc : QBnd c A A) (hS : 1 ≤ S)
    (hd : |d| ≤ S * S) (hSL : S * S ≤ L) (h : A + A * S ≤ L) :
    Safe (x.qFromCoeffs cfg c d) (fun t => |t.a| ≤ A + A * S ∧ |t.b| ≤ A ∧ |t.d| ≤ S * S) := by
  have hA : 0 ≤ A := (abs_nonneg _).trans hc.1
  have hAS : 0 ≤ A * S := by positivity
  have key : Safe (x.qSquare c d) (fun t => |t.1| ≤ A + A * S ∧ |t.2.1| ≤ A ∧ |t.2.2| ≤ S * S) := by
    unfold qSquare
    refine (abs_safe hL hd hSL).bind fun m hm => ?_
    subst hm
    refine (sqrtR_safe (by linarith : 0 ≤ S) (by rw [abs_abs]; exact hd)).bind fun root hroot => ?_
    rw [abs_abs] at hroot
    refine (mul_safe_eq hL (abs_mul_le hroot.1 hroot.1) hSL).bind fun sq hsq' => ?_
    subst hsq'
    split
    · rename_i he
      split
      · exfalso; nlinarith [mul_self_nonneg root]
      · refine (mul_safe hL hc.2 hroot.1 (by linarith)).bind fun t ht => ?_
        refine (add_safe hL hc.1 ht (by linarith)).bind fun a ha => ?_
        exact Safe.pure ⟨ha, by rw [abs_zero]; exact hA, by rw [abs_zero]; positivity⟩
    · exact Safe.pure ⟨by linarith [hc.1], hc.2, hd⟩
  unfold qFromCoeffs
  split
  · exact Safe.err (by decide)
  · split
    · exact Safe.err (by decide)
    · refine key.bind fun t ht => ?_
      split
      · exact Safe.pure ⟨ht.1, by rw [abs_zero]; exact hA, by rw [abs_zero]; positivity⟩
      · exact Safe.pure ht

theorem qReduceBinOpUnwrap_safe (hL : L < 2 ^ (x.w - 1)) (cfg : Cfg) {u v : QInt} (h : u.d = v.d) {B : Int}
    (hd : |v.d| ≤ B) (hB : B ≤ L) : Safe (x.qReduceBinOpUnwrap cfg u v) (fun p => p = (u, v)) := by
  have e : x.abs v.d = .ok ((v.d.natAbs : Nat) : Int) :=
    ret_ok (holds_of_abs hL (by rw [Int.natCast_natAbs, abs_abs]; linarith))
  unfold qReduceBinOpUnwrap qReduceBinOp qMatch
  rw [h]
  simp only [Bool.xor_self, e, bind, Except.bind, pure, Except.pure, gt_iff_lt, lt_irrefl, if_false, if_true,
      h, Bool.false_eq_true]
  obtain ⟨c, g⟩ := cfg
  cases c
  · simp only [Bool.false_eq_true, if_false]
    split
    · rename_i he; split at he
      · cases he; exact Safe.err (by decide)
      · cases he
    · rename_i he; split at he
      · cases he
      · cases he; exact Safe.pure rfl
  · exact Safe.pure rfl

theorem qNew_safe (hL : L < 2 ^ (x.w - 1)) (hB : 1 ≤ B) (cfg : Cfg) {a b r : Int} (ha : |a| ≤ B) (hb : |b| ≤ B) (hr : |r| ≤ B)
    (h : 6 * B ^ 3 ≤ L) : Safe (x.qNew cfg a b r) (fun _ => True) := by
  obtain ⟨p1, p2, _, _, _, _, _, _, _⟩ := pows hB
  have strip : ∀ fuel (b r : Int), 0 < r → |b| * r ≤ B ^ 2 → r ≤ B →
      Safe (x.qStrip4 fuel b r) (fun p => |p.1| ≤ B ^ 2 ∧ |p.2| ≤ B) := by
    intro fuel
    induction fuel with
    | zero =>
      intro b r h0 h1 h2
      refine Safe.pure ⟨?_, ?_⟩
      · dsimp only; nlinarith [abs_nonneg b]
      · dsimp only; rw [abs_of_pos h0]; exact h2
    | succ n ih =>
      intro b r h0 h1 h2
      have h3 : |b| ≤ B ^ 2 := by nlinarith [abs_nonneg b]
      unfold qStrip4
      split
      · rename_i h4
        obtain ⟨k, hk⟩ := Int.dvd_of_tmod_eq_zero h4
        have e : x.div r 4 = .ok k := by
          have e1 : r.tdiv 4 = k := by rw [hk]; exact Int.mul_tdiv_cancel_left k (by decide)
          rw [← e1]
          refine div_ok (by decide) (holds_of_abs hL (abs_tdiv_le ?_))
          rw [abs_of_pos h0]; linarith
        rw [e]
        have hb2 : |b + b| ≤ 2 * |b| := (abs_add_le _ _).trans (by linarith)
        have e2 : x.add b b = .ok (b + b) := by
          have := ret_ok (x := x) (v := b + b) (holds_of_abs hL (by linarith))
          unfold add; exact this
        show Safe (x.add b b >>= fun b' => x.qStrip4 n b' k) _
        rw [e2]
        refine ih _ _ (by omega) ?_ (by omega)
        have : |b + b| * k ≤ 2 * |b| * k := mul_le_mul_of_nonneg_right hb2 (by omega)
        nlinarith [abs_nonneg b]
      · refine Safe.pure ⟨h3, ?_⟩
        dsimp only; rw [abs_of_pos h0]; exact h2
  have key : Safe (x.qStrip b r) (fun p => |p.1| ≤ B ^ 2 ∧ |p.2| ≤ B) := by
    unfold qStrip
    split
    · rename_i h0
      rw [abs_of_pos h0] at hr
      refine strip _ _ _ h0 ?_ hr
      nlinarith [abs_nonneg b]
    · exact Safe.pure ⟨by dsimp only; linarith, hr⟩
  have hB2 : B ≤ B * B := by nlinarith
  have e3 : B ^ 3 = B ^ 2 * B := by ring
  have e2 : B ^ 2 = B * B := by ring
  unfold qNew
  refine key.bind fun p hp => ?_
  obtain ⟨q1, q2⟩ := hp
  split
  · refine (add_safe hL q1 q1 (by linarith)).bind fun y hy => ?_
    refine (sub_safe hL ha q1 (by linarith)).bind fun z hz => ?_
    refine (qFromCoeffs_safe hL cfg (A := 2 * B ^ 2) (S := B) ⟨by dsimp only; linarith, by dsimp only; linarith⟩ hB (by linarith)
      (by linarith) (by linarith)).mono fun _ _ => trivial
  · refine (qFromCoeffs_safe hL cfg (A := B ^ 2) (S := B) ⟨by dsimp only; linarith, q1⟩ hB (by linarith)
      (by linarith) (by linarith)).mono fun _ _ => trivial
  · exact Safe.err (by decide)

theorem qAdd_safe (hL : L < 2 ^ (x.w - 1)) (hB : 1 ≤ B) (cfg : Cfg) {u v : QInt} (hu : u.Small B) (hv : v.Small B) (hd : u.d = v.d ∨ u.b = 0 ∨ v.b = 0)
    (h : 4 * B ^ 2 ≤ L) : Safe (x.qAdd cfg u v) (fun _ => True) := by
  have p1 := (pows hB).1
  have hB2 : B ≤ B * B := by nlinarith
  have e2 : B ^ 2 = B * B := by ring
  obtain ⟨a1, a2, a3⟩ := hu
  obtain ⟨b1, b2, b3⟩ := hv
  unfold qAdd qAddInt qcAddInt
  split
  · exact ((add_safe hL a1 b1 (by linarith)).bind (Q := fun _ => True) fun _ _ => Safe.pure trivial).bind fun _ _ => Safe.pure trivial
  · split
    · exact ((add_safe hL b1 a1 (by linarith)).bind (Q := fun _ => True) fun _ _ => Safe.pure trivial).bind fun _ _ => Safe.pure trivial
    · rename_i n1 n2
      simp only [QInt.isRational, decide_eq_true_eq] at n1 n2
      have hd : u.d = v.d := by tauto
      refine (qReduceBinOpUnwrap_safe hL cfg hd b3 (by linarith)).bind fun p hp => ?_
      subst hp
      have : Safe (x.qcAdd u.coeffs v.coeffs) (fun t => QBnd t (B + B) (B + B)) := by
        unfold qcAdd
        refine (add_safe hL a1 b1 (by linarith)).bind fun _ h1 => ?_
        exact (add_safe hL a2 b2 (by linarith)).bind fun _ h2 => Safe.pure ⟨h1, h2⟩
      refine this.bind fun c hc => ?_
      exact (qFromCoeffs_safe hL cfg hc hB (by linarith) (by linarith) (by nlinarith)).mono fun _ _ => trivial

theorem qSub_safe (hL : L < 2 ^ (x.w - 1)) (hB : 1 ≤ B) (cfg : Cfg) {u v : QInt} (hu : u.Small B) (hv : v.Small B) (hd : u.d = v.d ∨ u.b = 0 ∨ v.b = 0)
    (h : 4 * B ^ 2 ≤ L) : Safe (x.qSub cfg u v) (fun _ => True) := by
  have p1 := (pows hB).1
  have hB2 : B ≤ B * B := by nlinarith
  have e2 : B ^ 2 = B * B := by ring
  obtain ⟨a1, a2, a3⟩ := hu
  obtain ⟨b1, b2, b3⟩ := hv
  unfold qSub qSubInt qcSubInt
  split
  · exact ((sub_safe hL a1 b1 (by linarith)).bind (Q := fun _ => True) fun _ _ => Safe.pure trivial).bind fun _ _ => Safe.pure trivial
  · split
    · refine Safe.bind (P := fun t : QInt => |t.a| ≤ B + B ∧ |t.b| ≤ B) (((sub_safe hL b1 a1 (by linarith)).bind
        (Q := fun t => QBnd t (B + B) B) fun _ h1 => Safe.pure ⟨h1, b2⟩).bind fun _ h1 => Safe.pure h1) fun t ht => ?_
      unfold qNeg
      refine (neg_safe hL ht.1 (by linarith)).bind fun _ _ => ?_
      exact (neg_safe hL ht.2 (by linarith)).bind fun _ _ => Safe.pure trivial
    · rename_i n1 n2
      simp only [QInt.isRational, decide_eq_true_eq] at n1 n2
      have hd : u.d = v.d := by tauto
      refine (qReduceBinOpUnwrap_safe hL cfg hd b3 (by linarith)).bind fun p hp => ?_
      subst hp
      have : Safe (x.qcSub u.coeffs v.coeffs) (fun t => QBnd t (B + B) (B + B)) := by
        unfold qcSub
        refine (sub_safe hL a1 b1 (by linarith)).bind fun _ h1 => ?_
        exact (sub_safe hL a2 b2 (by linarith)).bind fun _ h2 => Safe.pure ⟨h1, h2⟩
      refine this.bind fun c hc => ?_
      exact (qFromCoeffs_safe hL cfg hc hB (by linarith) (by linarith) (by nlinarith)).mono fun _ _ => trivial

theorem qMulInt_safe (hL : L < 2 ^ (x.w - 1)) {u : QInt} {k : Int} (ha : |u.a| ≤ B) (hb : |u.b| ≤ B) (hk : |k| ≤ B)
    (h : B * B ≤ L) : Safe (x.qMulInt u k) (fun _ => True) := by
  unfold qMulInt qcMulInt
  split
  · exact Safe.pure trivial
  · refine Safe.bind (P := fun _ => True) ?_ fun _ _ => Safe.pure trivial
    refine (mul_safe hL ha hk h).bind fun _ _ => ?_
    exact (mul_safe hL hb hk h).bind fun _ _ => Safe.pure trivial

theorem qMul_safe (hL : L < 2 ^ (x.w - 1)) (hB : 1 ≤ B) (cfg : Cfg) {u v : QInt} (hu : u.Small B) (hv : v.Small B) (hd : u.d = v.d ∨ u.b = 0 ∨ v.b = 0)
    (h : 6 * B ^ 4 ≤ L) : Safe (x.qMul cfg u v) (fun _ => True) := by
  obtain ⟨p1, p2, p3, _⟩ := pows hB
  have hB2 : B ≤ B * B := by nlinarith
  have e2 : B ^ 2 = B * B := by ring
  have e3 : B ^ 2 * B = B ^ 3 := by ring
  obtain ⟨a1, a2, a3⟩ := hu
  obtain ⟨b1, b2, b3⟩ := hv
  unfold qMul
  split
  · exact qMulInt_safe hL a1 a2 b1 (by linarith)
  · split
    · exact qMulInt_safe hL b1 b2 a1 (by linarith)
    · rename_i n1 n2
      simp only [QInt.isRational, decide_eq_true_eq] at n1 n2
      have hd : u.d = v.d := by tauto
      refine (qReduceBinOpUnwrap_safe hL cfg hd b3 (by linarith)).bind fun p hp => ?_
      subst hp
      refine (qcMul_safe hL hB (u := u.coeffs) (v := v.coeffs) ⟨a1, a2⟩ ⟨b1, b2⟩ a3 (by linarith) hB).bind fun c hc => ?_
      exact (qFromCoeffs_safe hL cfg hc hB (by linarith) (by linarith) (by nlinarith)).mono fun _ _ => trivial

theorem qDivInt_safe (hL : L < 2 ^ (x.w - 1)) {u : QInt} {k : Int} (ha : |u.a| ≤ B) (hb : |u.b| ≤ B) (hk : |k| ≤ B)
    (h : 2 * B ≤ L) : Safe (x.qDivInt u k) (fun _ => True) := by
  unfold qDivInt
  exact (qcDivInt_safe hL (u := u.coeffs) ⟨ha, hb⟩ hk (by linarith)).bind fun _ _ => Safe.pure trivial

theorem qDiv_safe (hL : L < 2 ^ (x.w - 1)) (hB : 1 ≤ B) (cfg : Cfg) {u v : QInt} (hu : u.Small B) (hv : v.Small B) (hd : u.d = v.d ∨ u.b = 0 ∨ v.b = 0)
    (h : 20 * B ^ 5 ≤ L) : Safe (x.qDiv cfg u v) (fun _ => True) := by
  obtain ⟨p1, p2, p3, p4, _⟩ := pows hB
  have hB2 : B ≤ B * B := by nlinarith
  have e2 : B ^ 2 = B * B := by ring
  have e4 : 10 * B ^ 3 * B = 10 * B ^ 4 := by ring
  obtain ⟨a1, a2, a3⟩ := hu
  obtain ⟨b1, b2, b3⟩ := hv
  have core : ∀ d, |d| ≤ B → Safe (x.qcDiv u.coeffs v.coeffs d) (fun t => QBnd t (10 * B ^ 3) (10 * B ^ 3)) := by
    intro d hd
    unfold qcDiv
    exact (qcDivRem_safe hL hB (u := u.coeffs) (v := v.coeffs) ⟨a1, a2⟩ ⟨b1, b2⟩ hd h).bind fun p hp => Safe.pure hp.1
  unfold qDiv
  split
  · exact qDivInt_safe hL a1 a2 b1 (by linarith)
  · split
    · refine (core _ b3).bind fun c hc => ?_
      exact (qFromCoeffs_safe hL cfg hc hB (by linarith) (by linarith) (by linarith)).mono fun _ _ => trivial
    · rename_i n1 n2
      simp only [QInt.isRational, decide_eq_true_eq] at n1 n2
      have hd : u.d = v.d := by tauto
      refine (qReduceBinOpUnwrap_safe hL cfg hd b3 (by linarith)).bind fun p hp => ?_
      subst hp
      refine (core _ a3).bind fun c hc => ?_
      exact (qFromCoeffs_safe hL cfg hc hB (by linarith) (by linarith) (by linarith)).mono fun _ _ => trivial

theorem qRem_safe (hL : L < 2 ^ (x.w - 1)) (hB : 1 ≤ B) (cfg : Cfg) {u v : QInt} (hu : u.Small B) (hv : v.Small B) (hd : u.d = v.d ∨ v.b = 0)
    (h : 40 * B ^ 6 ≤ L) : Safe (x.qRem cfg u v) (fun _ => True) := by
  obtain ⟨p1, p2, p3, p4, p5, _⟩ := pows hB
  have hB2 : B ≤ B * B := by nlinarith
  have e2 : B ^ 2 = B * B := by ring
  have e4 : 20 * B ^ 5 * B = 20 * B ^ 6 := by ring
  obtain ⟨a1, a2, a3⟩ := hu
  obtain ⟨b1, b2, b3⟩ := hv
  unfold qRem
  split
  · exact qDivInt_safe hL a1 a2 b1 (by linarith)
  · rename_i n1
    simp only [QInt.isRational, decide_eq_true_eq] at n1
    have hd : u.d = v.d := by tauto
    refine (qReduceBinOpUnwrap_safe hL cfg hd b3 (by linarith)).bind fun p hp => ?_
    subst hp
    refine (qcDivRem_safe hL hB (u := u.coeffs) (v := v.coeffs) ⟨a1, a2⟩ ⟨b1, b2⟩ a3 (by linarith)).bind fun c hc => ?_
    exact (qFromCoeffs_safe hL cfg hc.2 hB (by linarith) (by linarith) (by linarith)).mono fun _ _ => trivial

theorem qNorm_safe (hL : L < 2 ^ (x.w - 1)) (hB : 1 ≤ B) {u : QInt} (hu : u.Small B)
    (h : 5 * B ^ 3 ≤ L) : Safe (x.qNorm u) (fun _ => True) :=
  (qcNorm_safe hL hB (u := u.coeffs) ⟨hu.1, hu.2.1⟩ hu.2.2 h).mono fun _ _ => trivial

theorem qConj_safe (hL : L < 2 ^ (x.w - 1)) {u : QInt} (hu : u.Small B)
    (h : 2 * B ≤ L) : Safe (x.qConj u) (fun _ => True) := by
  obtain ⟨a1, a2, a3⟩ := hu
  have hB : 0 ≤ B := (abs_nonneg _).trans a1
  unfold qConj qcConj
  refine Safe.bind (P := fun _ => True) ?_ fun _ _ => Safe.pure trivial
  split
  · exact Safe.pure trivial
  · split
    · refine (add_safe hL a1 a2 (by linarith)).bind fun _ _ => ?_
      exact (neg_safe hL a2 (by linarith)).bind fun _ _ => Safe.pure trivial
    · exact (neg_safe hL a2 (by linarith)).bind fun _ _ => Safe.pure trivial
    · exact Safe.err (by decide)

theorem qEq_safe (hL : L < 2 ^ (x.w - 1)) (hB : 1 ≤ B) {u v : QInt} (hu : u.Small B) (hv : v.Small B)
    (h : 4 * B ^ 3 ≤ L) : Safe (x.qEq u v) (fun _ => True) := by
  obtain ⟨p1, p2, _⟩ := pows hB
  have e2 : B ^ 2 = B * B := by ring
  have parts : ∀ {t : QInt}, t.Small B → Safe (x.qPartsDoubled t) (fun p => |p.2| ≤ 2 * B) := by
    intro t ht
    obtain ⟨a1, a2, a3⟩ := ht
    unfold qPartsDoubled
    split
    · refine (add_safe hL a1 a1 (by linarith)).bind fun _ h1 => ?_
      exact (add_safe hL h1 a2 (by linarith)).bind fun _ _ => Safe.pure (by dsimp only; linarith)
    · refine (add_safe hL a1 a1 (by linarith)).bind fun _ h1 => ?_
      exact (add_safe hL a2 a2 (by linarith)).bind fun _ h2 => Safe.pure (by dsimp only; linarith)
    · exact Safe.err (by decide)
  unfold qEq
  split
  · exact Safe.pure trivial
  · split
    · exact Safe.pure trivial
    · refine (parts hu).bind fun l hl => (parts hv).bind fun r hr => ?_
      split
      · refine (mul_safe hL hl hl (by linarith)).bind fun _ h1 => ?_
        refine (mul_safe hL h1 hu.2.2 (by linarith)).bind fun _ h2 => ?_
        refine (mul_safe hL hr hr (by linarith)).bind fun _ h3 => ?_
        refine (mul_safe hL h3 hv.2.2 (by linarith)).bind fun _ h4 => ?_
        exact Safe.pure trivial
      · exact Safe.pure trivial

theorem qNeg_safe (hL : L < 2 ^ (x.w - 1)) {u : QInt} (hu : u.Small B)
    (h : B ≤ L) : Safe (x.qNeg u) (fun _ => True) := by
  unfold qNeg
  refine (neg_safe hL hu.1 h).bind fun _ _ => ?_
  exact (neg_safe hL hu.2.1 h).bind fun _ _ => Safe.pure trivial

/-! ### `GaussianInt` -/

theorem gConj_safe (hL : L < 2 ^ (x.w - 1)) {u : GInt} (hu : u.Small B) (h : B ≤ L) :
    Safe (x.gConj u) (fun _ => True) :=
  (neg_safe hL hu.2 h).bind fun _ _ => Safe.pure trivial

theorem gAdd_safe (hL : L < 2 ^ (x.w - 1)) {u v : GInt} (hu : u.Small B) (hv : v.Small B) (h : 2 * B ≤ L) :
    Safe (x.gAdd u v) (fun _ => True) := by
  unfold gAdd qcAdd
  refine Safe.bind (P := fun _ => True) ?_ fun _ _ => Safe.pure trivial
  refine (add_safe hL hu.1 hv.1 (by linarith)).bind fun _ _ => ?_
  exact (add_safe hL hu.2 hv.2 (by linarith)).bind fun _ _ => Safe.pure trivial

theorem gSub_safe (hL : L < 2 ^ (x.w - 1)) {u v : GInt} (hu : u.Small B) (hv : v.Small B) (h : 2 * B ≤ L) :
    Safe (x.gSub u v) (fun _ => True) := by
  unfold gSub qcSub
  refine Safe.bind (P := fun _ => True) ?_ fun _ _ => Safe.pure trivial
  refine (sub_safe hL hu.1 hv.1 (by linarith)).bind fun _ _ => ?_
  exact (sub_safe hL hu.2 hv.2 (by linarith)).bind fun _ _ => Safe.pure trivial

theorem gNorm_safe (hL : L < 2 ^ (x.w - 1)) {u : GInt} (hu : u.Small B) (h : 2 * B ^ 2 ≤ L) :
    Safe (x.gNorm u) (fun _ => True) := by
  have e2 : B ^ 2 = B * B := by ring
  have := mul_self_nonneg B
  unfold gNorm
  refine (mul_safe hL hu.1 hu.1 (by linarith)).bind fun _ h1 => ?_
  refine (mul_safe hL hu.2 hu.2 (by linarith)).bind fun _ h2 => ?_
  exact (add_safe hL h1 h2 (by linarith)).mono fun _ _ => trivial

/-- the product of the coefficients for `d = -1` -/
theorem qcMulI_safe (hL : L < 2 ^ (x.w - 1)) {u v : QCoeffs} {C : Int} (hu : QBnd u B B) (hv : QBnd v C C)
    (h : 2 * (B * C) ≤ L) : Safe (x.qcMul u v (-1)) (fun t => QBnd t (2 * (B * C)) (2 * (B * C))) := by
  obtain ⟨hu1, hu2⟩ := hu
  obtain ⟨hv1, hv2⟩ := hv
  have hB : 0 ≤ B := (abs_nonneg _).trans hu1
  have hC : 0 ≤ C := (abs_nonneg _).trans hv1
  have hBC : 0 ≤ B * C := mul_nonneg hB hC
  have h1 : |(-1 : Int)| ≤ 1 := by decide
  unfold qcMul
  rw [show mod4d2 (-1) = 1 from rfl]
  refine (mul_safe hL hu1 hv1 (by linarith)).bind fun _ k1 => ?_
  refine (mul_safe hL hu2 hv2 (by linarith)).bind fun _ k2 => ?_
  refine (mul_safe hL k2 h1 (by linarith)).bind fun _ k3 => ?_
  refine (add_safe hL k1 k3 (by linarith)).bind fun _ k4 => ?_
  refine (mul_safe hL hu1 hv2 (by linarith)).bind fun _ k5 => ?_
  refine (mul_safe hL hu2 hv1 (by linarith)).bind fun _ k6 => ?_
  refine (add_safe hL k5 k6 (by linarith)).bind fun _ k7 => ?_
  exact Safe.pure ⟨by dsimp only; linarith, by dsimp only; linarith⟩

theorem neg_one_safe (hL : L < 2 ^ (x.w - 1)) (h : 1 ≤ L) : x.neg 1 = .ok (-1) := by
  unfold neg
  exact ret_ok (v := -1) (holds_of_abs hL (by simpa using h))

theorem gMul_safe (hL : L < 2 ^ (x.w - 1)) (hB : 1 ≤ B) {u v : GInt} (hu : u.Small B) (hv : v.Small B) (h : 2 * B ^ 2 ≤ L) :
    Safe (x.gMul u v) (fun _ => True) := by
  have e2 : B ^ 2 = B * B := by ring
  have := (pows hB).1
  unfold gMul
  rw [neg_one_safe hL (by linarith)]
  exact (qcMulI_safe hL (u := u.coeffs) (v := v.coeffs) hu hv (by linarith)).bind fun _ _ => Safe.pure trivial

theorem gDivRem_safe (hL : L < 2 ^ (x.w - 1)) (hB : 1 ≤ B) {u v : QCoeffs} (hu : QBnd u B B) (hv : QBnd v B B) (h : 4 * B ^ 3 ≤ L) :
    Safe (x.qcDivRem u v (-1)) (fun _ => True) := by
  obtain ⟨p1, p2, _⟩ := pows hB
  have e2 : B ^ 2 = B * B := by ring
  have e3 : B * (B * B) = B ^ 3 := by ring
  have h1 : |(-1 : Int)| ≤ 1 := by decide
  have n1 : Safe (x.qcDivNumer u v (-1)) (fun p => |p.1| ≤ 2 * (B * B) ∧ |p.2| ≤ 2 * (B * B)) := by
    unfold qcDivNumer
    rw [show mod4d2 (-1) = 1 from rfl]
    refine (mul_safe hL hu.1 hv.1 (by linarith)).bind fun _ k1 => ?_
    refine (mul_safe hL hu.2 hv.2 (by linarith)).bind fun _ k2 => ?_
    refine (mul_safe hL k2 h1 (by linarith)).bind fun _ k3 => ?_
    refine (sub_safe hL k1 k3 (by linarith)).bind fun _ k4 => ?_
    refine (mul_safe hL hu.2 hv.1 (by linarith)).bind fun _ k5 => ?_
    refine (mul_safe hL hu.1 hv.2 (by linarith)).bind fun _ k6 => ?_
    refine (sub_safe hL k5 k6 (by linarith)).bind fun _ k7 => ?_
    exact Safe.pure ⟨by dsimp only; linarith, by dsimp only; linarith⟩
  have n2 : Safe (x.qcNorm v (-1)) (fun n => |n| ≤ 2 * (B * B)) := by
    unfold qcNorm
    rw [if_neg (by decide), show mod4d2 (-1) = 1 from rfl]
    refine (mul_safe hL hv.1 hv.1 (by linarith)).bind fun _ k1 => ?_
    refine (mul_safe hL hv.2 hv.2 (by linarith)).bind fun _ k2 => ?_
    refine (mul_safe hL k2 h1 (by linarith)).bind fun _ k3 => ?_
    exact (sub_safe hL k1 k3 (by linarith)).mono fun _ k4 => by linarith
  unfold qcDivRem
  refine n1.bind fun ab hab => n2.bind fun n hn => ?_
  refine (divRemRound_safe hL hab.1 hn (by linarith)).bind fun p hp => ?_
  refine (divRemRound_safe hL hab.2 hn (by linarith)).bind fun q hq => ?_
  have hr : QBnd ⟨p.2, q.2⟩ (B * B) (B * B) := ⟨by dsimp only; linarith [hp.2], by dsimp only; linarith [hq.2]⟩
  refine (qcMulI_safe hL hv hr (by linarith)).bind fun m hm => ?_
  refine (qcDivInt_safe hL hm hn (by linarith)).bind fun r hr => ?_
  exact Safe.pure trivial

theorem gDiv_safe (hL : L < 2 ^ (x.w - 1)) (hB : 1 ≤ B) {u v : GInt} (hu : u.Small B) (hv : v.Small B) (h : 4 * B ^ 3 ≤ L) :
    Safe (x.gDiv u v) (fun _ => True) := by
  obtain ⟨p1, p2, _⟩ := pows hB
  unfold gDiv qcDiv
  rw [neg_one_safe hL (by linarith)]
  show Safe ((x.qcDivRem u.coeffs v.coeffs (-1) >>= fun p => pure p.1) >>= fun c => pure (GInt.ofCoeffs c)) _
  refine Safe.bind (P := fun _ => True) ?_ fun _ _ => Safe.pure trivial
  exact (gDivRem_safe hL hB (u := u.coeffs) (v := v.coeffs) hu hv h).bind fun _ _ => Safe.pure trivial

theorem gRem_safe (hL : L < 2 ^ (x.w - 1)) (hB : 1 ≤ B) {u v : GInt} (hu : u.Small B) (hv : v.Small B) (h : 4 * B ^ 3 ≤ L) :
    Safe (x.gRem u v) (fun _ => True) := by
  obtain ⟨p1, p2, _⟩ := pows hB
  unfold gRem
  rw [neg_one_safe hL (by linarith)]
  exact (gDivRem_safe hL hB (u := u.coeffs) (v := v.coeffs) hu hv h).bind fun _ _ => Safe.pure trivial

end Fx
end NumIrr
