/-
C129: laws of `floor`, `trunc` and `fract`.
-/
import Verif.Props.SurdRound
import Verif.Props.SurdArith
import Verif.Props.Agree
import Mathlib.Algebra.Squarefree.Basic
import Mathlib.Data.Nat.Squarefree

namespace NumIrr
open Surd (ok_bind)

private theorem igcd_neg (a b : ℤ) : igcd (-a) b = igcd a b := by unfold igcd; rw [Int.neg_gcd]
private theorem igcd_neg' (a b : ℤ) : igcd a (-b) = igcd a b := by unfold igcd; rw [Int.gcd_neg]

private theorem reduceSquare_neg (a b c r : ℤ) :
    Surd.reduceSquare ⟨-a, -b, c, r⟩ = (Surd.reduceSquare ⟨a, b, c, r⟩).neg := by
  unfold Surd.reduceSquare Surd.neg
  simp only
  split
  · split
    · simp
    · simp only [Surd.mk.injEq, and_true]
      constructor <;> ring
  · rfl

private theorem reduce_neg (a b c r : ℤ) :
    Surd.reduce ⟨-a, -b, c, r⟩ = (Surd.reduce ⟨a, b, c, r⟩).map Surd.neg := by
  unfold Surd.reduce
  by_cases hc : c = 0
  · simp [hc, Except.map]
  simp only [hc, if_false, reduceSquare_neg, Except.map]
  generalize Surd.reduceSquare ⟨a, b, c, r⟩ = s
  obtain ⟨a, b, c, r⟩ := s
  congr 1
  have hs : ∀ t : Surd, Surd.reduceSign t.neg = (Surd.reduceSign t).neg := by
    intro t
    unfold Surd.reduceSign Surd.neg
    by_cases h : t.c < 0 <;> simp [h]
  rw [← hs]
  congr 1
  simp only [Surd.neg, neg_eq_zero]
  split
  · simp [Surd.reduceRat, igcd_neg, Int.neg_tdiv]
  · simp only [Surd.reduceIrr, Surd.reduceFactor, igcd_neg]
    split <;> simp [igcd_neg', Int.neg_tdiv]

private theorem fromCoeffs_neg (cfg : Cfg) (a b c r : ℤ) :
    Surd.fromCoeffs cfg ⟨-a, -b, c⟩ r = (Surd.fromCoeffs cfg ⟨a, b, c⟩ r).map Surd.neg := by
  unfold Surd.fromCoeffs
  split
  · rfl
  · exact reduce_neg a b c r

private theorem divR_neg (a b : ℤ) : divR (-a) b = (divR a b).map Neg.neg := by
  unfold divR
  split
  · rfl
  · simp [Except.map, Int.neg_tdiv]

/-- **C129** `trunc` is odd: it commutes with negation, for every surd, panics included. -/
theorem trunc_neg (cfg : Cfg) (s : Surd) : s.neg.trunc cfg = (s.trunc cfg).map Surd.neg := by
  obtain ⟨a, b, c, r⟩ := s
  unfold Surd.trunc Surd.neg
  simp only [Int.sign_neg, neg_mul_neg]
  split
  · cases sqrtR (b * b * -r) with
    | error e => rfl
    | ok q =>
      simp only [ok_bind, divR_neg, neg_mul]
      cases divR a c with
      | error e => rfl
      | ok x =>
        simp only [ok_bind, Except.map]
        cases divR (b.sign * q) c with
        | error e => rfl
        | ok y => simp only [ok_bind]; exact fromCoeffs_neg cfg x y 1 (-1)
  · cases sqrtR (b * b * r) with
    | error e => rfl
    | ok q =>
      have : -a + -b.sign * q = -(a + b.sign * q) := by ring
      simp only [ok_bind, this, divR_neg]
      cases divR (a + b.sign * q) c with
      | error e => rfl
      | ok x => simp only [ok_bind, Except.map]; simp [Surd.ofInt, pure, Except.pure, Surd.neg]
example : Surd.trunc ⟨false, true⟩ ⟨5, -1, 1, 2⟩ = .ok ⟨4, 0, 1, 0⟩ ∧ Surd.trunc ⟨false, true⟩ ⟨-5, 1, 1, 2⟩ = .ok ⟨-4, 0, 1, 0⟩ ∧
    Surd.trunc ⟨true, true⟩ ⟨-7, 9, 2, -3⟩ = .ok ⟨-3, 7, 1, -1⟩ := by decide +kernel

private theorem subInt_eq (cfg : Cfg) (s : Surd) (k : ℤ) :
    Surd.sub cfg s (Surd.ofInt k) = Surd.fromCoeffs cfg ⟨s.a - k * s.c, s.b, s.c⟩ s.r := by
  unfold Surd.sub
  have h1 : (Surd.ofInt k).isRational = true := rfl
  have h2 : ratioNew (Surd.ofInt k).a (Surd.ofInt k).c = .ok (k : ℚ) := by simp [ratioNew, Surd.ofInt]
  rw [if_pos h1, h2, ok_bind]
  unfold Surd.subRat Coeffs.subRat
  simp only [Surd.coeffs]
  by_cases hc : s.c = 1 <;> simp [hc]

/-- **C129** `fract` is odd, for every real surd. -/
theorem fract_neg (cfg : Cfg) (s : Surd) (h : s.RealOk) : s.neg.fract cfg = (s.fract cfg).map Surd.neg := by
  have ht := Surd.trunc_real (cfg := cfg) h
  have hn := trunc_neg cfg s
  generalize s.truncNum.tdiv s.c = k at ht
  rw [ht] at hn
  have e : (Surd.ofInt k).neg = Surd.ofInt (-k) := by simp [Surd.ofInt, Surd.neg]
  have hn' : s.neg.trunc cfg = .ok (Surd.ofInt (-k)) := by rw [hn, ← e]; rfl
  unfold Surd.fract
  rw [ht, hn', ok_bind, ok_bind, subInt_eq, subInt_eq, ← fromCoeffs_neg]
  simp only [Surd.neg]
  congr 2; ring
example : (Surd.mk 7 3 2 5).RealOk ∧ Surd.fract ⟨false, true⟩ ⟨-7, -3, 2, 5⟩ = .ok ⟨5, -3, 2, 5⟩ := by decide +kernel

/-- **C129** `floor` is a function of the number, keeps its order, moves with integers, and of a negative is what it must
be; integers are their own `floor` and `trunc`. -/
theorem floor_laws (cfg : Cfg) (s t : Surd) (hs : s.RealOk) (ht : t.RealOk) (k : ℤ) :
    (s.val = t.val → s.floor cfg = t.floor cfg) ∧
    (s.val ≤ t.val → ∃ m n : ℤ, m ≤ n ∧ s.floor cfg = .ok (Surd.ofInt m) ∧ t.floor cfg = .ok (Surd.ofInt n)) ∧
    (∃ z, s.addInt cfg k = .ok z ∧ z.floor cfg = (s.floor cfg >>= fun u => u.addInt cfg k)) ∧
    (∃ m : ℤ, s.floor cfg = .ok (Surd.ofInt m) ∧
      s.neg.floor cfg = .ok (Surd.ofInt (if s.isInteger then -m else -m - 1))) ∧
    (∃ u, s.floor cfg = .ok u ∧ u.floor cfg = .ok u ∧ u.trunc cfg = .ok u) ∧
    ∃ u, s.trunc cfg = .ok u ∧ u.floor cfg = .ok u ∧ u.trunc cfg = .ok u := by
  have hi : ∀ n : ℤ, (Surd.ofInt n).RealOk := fun n => ⟨(surd_ofInt_normal cfg n).toNormal, by simp [Surd.ofInt]⟩
  have hv : ∀ n : ℤ, (Surd.ofInt n).val = n := fun n => by simp [Surd.ofInt, Surd.val, quadR]
  have hfi : ∀ n : ℤ, (Surd.ofInt n).floor cfg = .ok (Surd.ofInt n) := fun n => by
    rw [surd_floor cfg _ (hi n), hv, Int.floor_intCast]
  have hti : ∀ n : ℤ, (Surd.ofInt n).trunc cfg = .ok (Surd.ofInt n) := fun n => by
    rw [Surd.trunc_real (hi n)]; simp [Surd.truncNum, Surd.ofInt]
  refine ⟨fun h => ?_, fun h => ?_, ?_, ?_, ?_, ?_⟩
  · rw [surd_floor cfg s hs, surd_floor cfg t ht, h]
  · exact ⟨_, _, Int.floor_le_floor h, surd_floor cfg s hs, surd_floor cfg t ht⟩
  · obtain ⟨z, e1, e2, e3⟩ := surd_addInt_value cfg s k (hs.toOk cfg)
    have e4 : 0 ≤ z.r := by
      obtain ⟨t, f1, -, -, f2, -⟩ := Surd.new_spec (cfg := cfg) (a := s.a + k * s.c) (b := s.b) hs.c_pos.ne' (fun _ => hs.real)
      have : Surd.addInt cfg s k = .ok t := f1
      rw [e1] at this; cases this
      exact f2 hs.real
    have hz : z.RealOk := ⟨e3.toNormal, e4⟩
    have hzv : z.val = s.val + k := by
      rw [hz.valC, hs.valC] at e2; exact_mod_cast e2
    refine ⟨z, e1, ?_⟩
    rw [surd_floor cfg z hz, surd_floor cfg s hs, hzv, Int.floor_add_intCast, ok_bind]
    have : ∀ n : ℤ, (Surd.ofInt n).addInt cfg k = .ok (Surd.ofInt (n + k)) := by
      intro n
      have h : (Surd.ofInt n).addInt cfg k = Surd.sub cfg (Surd.ofInt n) (Surd.ofInt (-k)) := by
        rw [subInt_eq]; simp [Surd.addInt, Surd.ofInt, Coeffs.addInt, Surd.coeffs]
      rw [h, subInt_eq]
      simp [Surd.ofInt, Surd.fromCoeffs, Surd.reduce, Surd.reduceSquare, Surd.reduceRat, Surd.reduceSign, igcd, isqrt]
    rw [this]
  · have hn : s.neg.RealOk := ⟨((surd_neg_value cfg s (hs.toOk cfg)).2).toNormal, hs.real⟩
    have hnv : s.neg.val = -s.val := by
      simp [Surd.val, Surd.neg, quadR]; ring
    refine ⟨_, surd_floor cfg s hs, ?_⟩
    rw [surd_floor cfg _ hn, hnv]
    obtain ⟨v, e1, e2, e3⟩ := surd_toInteger cfg s hs
    have hint : s.isInteger = true ↔ ∃ k : ℤ, s.val = k := by
      rw [e3]
      unfold Surd.toInteger at e1
      rw [Surd.panicIfComplex_ok hs.real, ok_bind] at e1
      by_cases hi : s.isInteger = true
      · rw [if_pos hi] at e1; cases e1; simp [hi]
      · rw [if_neg hi, Surd.trunc_real hs] at e1; cases e1; simp [hi]
    by_cases hI : s.isInteger = true
    · obtain ⟨n, hn⟩ := hint.1 hI
      rw [if_pos hI, hn, Int.floor_intCast, ← Int.cast_neg, Int.floor_intCast]
    · rw [if_neg hI]
      congr 2
      have hne : (⌊s.val⌋ : ℝ) ≠ s.val := fun e => hI (hint.2 ⟨_, e.symm⟩)
      have h1 := Int.floor_le s.val
      have h2 := Int.lt_floor_add_one s.val
      have h3 : (⌊s.val⌋ : ℝ) < s.val := lt_of_le_of_ne h1 hne
      rw [Int.floor_eq_iff]
      push_cast
      constructor <;> linarith
  · exact ⟨_, surd_floor cfg s hs, hfi _, hti _⟩
  · exact ⟨_, Surd.trunc_real hs, hfi _, hti _⟩
example : (Surd.mk (-7) (-3) 2 5).RealOk ∧ (Surd.mk (-7) 3 2 5).RealOk ∧
    Surd.floor ⟨false, true⟩ ⟨-7, -3, 2, 5⟩ = .ok ⟨-7, 0, 1, 0⟩ ∧ Surd.floor ⟨false, true⟩ ⟨-7, 3, 2, 5⟩ = .ok ⟨-1, 0, 1, 0⟩ ∧
    Surd.floor ⟨false, true⟩ ⟨7, 3, 2, 5⟩ = .ok ⟨6, 0, 1, 0⟩ := by decide +kernel

private theorem igcd_shift (a c k : ℤ) : igcd (a - k * c) c = igcd a c := by
  unfold igcd
  rw [sub_eq_add_neg, ← neg_mul, Int.gcd_add_mul_right_left]

private theorem tdiv_fix {c g : ℤ} (hc : c ≠ 0) (hg : g ∣ c) (h : c.tdiv g = c) : g = 1 := by
  have e := Int.tdiv_mul_cancel hg
  rw [h] at e
  exact mul_left_cancel₀ hc (by rw [e, mul_one])

/-- what `reduce` leaves alone it leaves alone after an integer is added -/
private theorem reduce_shift {s : Surd} (hs : s.RealOk) (h : Surd.reduce s = .ok s) (k : ℤ) :
    Surd.reduce ⟨s.a - k * s.c, s.b, s.c, s.r⟩ = .ok ⟨s.a - k * s.c, s.b, s.c, s.r⟩ := by
  obtain ⟨a, b, c, r⟩ := s
  have hc : 0 < c := hs.c_pos
  have hc0 : ¬ c = 0 := hc.ne'
  have hsg : ∀ t : Surd, 0 < t.c → Surd.reduceSign t = t := fun t ht => by
    unfold Surd.reduceSign; rw [if_neg (by omega)]
  have hg : ∀ u v : ℤ, igcd u v ∣ u ∧ igcd u v ∣ v := fun u v => ⟨Int.gcd_dvd_left .., Int.gcd_dvd_right ..⟩
  by_cases hb : b = 0
  · have hr : r = 0 := hs.rational.1 hb
    subst hb hr
    have e : ∀ u : ℤ, Surd.reduceSquare ⟨u, 0, c, 0⟩ = ⟨u, 0, c, 0⟩ := fun u => by
      simp [Surd.reduceSquare, isqrt]
    have h1 : igcd a c = 1 := by
      have hu := hs.coprime (igcd a c) (hg a c).1 (dvd_zero _) (hg a c).2
      rcases Int.isUnit_iff.1 hu with h | h
      · exact h
      · have : 0 ≤ igcd a c := by unfold igcd; positivity
        omega
    unfold Surd.reduce
    rw [if_neg hc0]
    simp only [e, true_or, if_true, Surd.reduceRat, igcd_shift, h1, Int.tdiv_one]
    rw [hsg _ hc]
  · have hr0 : ¬ r = 0 := fun e => hb (hs.rational.2 e)
    have hsq : ¬ (isqrt (r.natAbs : ℤ) * isqrt (r.natAbs : ℤ) = r) := fun e =>
      hs.irrational hr0 ((isqrt_natAbs_iff r).1 e)
    have e : ∀ u : ℤ, Surd.reduceSquare ⟨u, b, c, r⟩ = ⟨u, b, c, r⟩ := fun u => by
      unfold Surd.reduceSquare; simp only [if_neg hsq]
    unfold Surd.reduce at h ⊢
    rw [if_neg hc0] at h ⊢
    simp only [e, hb, hr0, or_self, if_false, Surd.reduceIrr, Surd.reduceFactor, igcd_shift] at h ⊢
    have hq : ∀ g1 : ℤ, g1 ∣ igcd a c → igcd g1 b = 1 := fun g1 hd => by
      have hu := hs.coprime (igcd g1 b) ((hg g1 b).1.trans (hd.trans (hg a c).1)) (hg g1 b).2
        ((hg g1 b).1.trans (hd.trans (hg a c).2))
      rcases Int.isUnit_iff.1 hu with h | h
      · exact h
      · have : 0 ≤ igcd g1 b := by unfold igcd; positivity
        omega
    split at h
    · next hw =>
      rw [if_pos hw]
      have h1 : r.tdiv (igcd (igcd a c * igcd a c) r) = r := by
        have := congrArg (fun x : Res Surd => x.toOption.map Surd.r) h
        simp only [Surd.reduceSign] at this
        split at this <;> simpa [Except.toOption] using this
      have h2 := tdiv_fix hr0 (hg _ _).2 h1
      have h3 : isqrt 1 = 1 := by decide
      simp only [h2, h3, Int.tdiv_one, hq _ dvd_rfl]
      rw [hsg _ hc]
    · next hw =>
      rw [if_neg hw]
      simp only [hq _ dvd_rfl, Int.tdiv_one]
      rw [hsg _ hc]

/-- **C129** partial: for a real surd that `reduce` leaves as it is, nothing is left to truncate in `fract`, and `fract` of
it changes nothing.
Missing from the full claim: surds that `reduce` would change, as `fract_refuted` shows. -/
theorem fract_fract_partial (cfg : Cfg) (s : Surd) (h : s.RealOk) (hr : Surd.reduce s = .ok s) :
    ∃ f, s.fract cfg = .ok f ∧ f.trunc cfg = .ok Surd.zero ∧ f.fract cfg = .ok f := by
  have hcx : ¬ (cfg.complex = false ∧ s.r < 0) := fun e => not_lt.2 h.real e.2
  obtain ⟨k, hk⟩ : ∃ k, k = s.truncNum.tdiv s.c := ⟨_, rfl⟩
  have e1 : s.fract cfg = .ok ⟨s.a - k * s.c, s.b, s.c, s.r⟩ := by
    unfold Surd.fract
    rw [Surd.trunc_real h, ok_bind, subInt_eq, ← hk]
    unfold Surd.fromCoeffs
    rw [if_neg hcx]
    exact reduce_shift h hr k
  have e2 : Surd.trunc cfg ⟨s.a - k * s.c, s.b, s.c, s.r⟩ = .ok Surd.zero := by
    unfold Surd.trunc
    rw [if_neg (not_lt.mpr h.real), sqrtR_ok h.bbr_nonneg, ok_bind]
    simp only
    rw [divR_ok h.c_pos.ne', ok_bind]
    have : s.a - k * s.c + s.b.sign * isqrt (s.b * s.b * s.r) = s.truncNum.tmod s.c := by
      rw [hk, Int.tmod_def, Surd.truncNum]; ring
    rw [this]
    have : (s.truncNum.tmod s.c).tdiv s.c = 0 :=
      mul_left_cancel₀ h.c_pos.ne' (by
        have := Int.tmod_add_mul_tdiv (s.truncNum.tmod s.c) s.c
        rw [Int.tmod_tmod] at this
        rw [mul_zero]; omega)
    rw [this]; rfl
  refine ⟨_, e1, e2, ?_⟩
  unfold Surd.fract
  rw [e2, ok_bind]
  have := subInt_eq cfg ⟨s.a - k * s.c, s.b, s.c, s.r⟩ 0
  rw [show Surd.zero = Surd.ofInt 0 from rfl, this]
  unfold Surd.fromCoeffs
  simp only [zero_mul, sub_zero]
  rw [if_neg hcx]
  exact reduce_shift h hr k
example : (Surd.mk 7 3 2 5).RealOk ∧ Surd.reduce ⟨7, 3, 2, 5⟩ = .ok ⟨7, 3, 2, 5⟩ := by decide +kernel

/-- **C129** In particular this holds of every real surd over a square-free root. -/
theorem fract_fract_squarefree (cfg : Cfg) (s : Surd) (h : s.RealOk) (hr : s.r = 0 ∨ Squarefree s.r) :
    ∃ f, s.fract cfg = .ok f ∧ f.trunc cfg = .ok Surd.zero ∧ f.fract cfg = .ok f := by
  refine fract_fract_partial cfg s h ?_
  obtain ⟨t, e, -, -, h4⟩ := Surd.reduce_spec (s := s) h.c_pos.ne'
  obtain ⟨t', e', hv, hn, -⟩ := Surd.reduce_spec (s := s) h.c_pos.ne'
  rw [e] at e'; cases e'
  have hr' : t.r = s.r := by
    rcases h4 with ⟨h5, h6⟩ | ⟨h5, h6, k, hk, h7⟩
    · rw [h5]
      by_contra hne
      rcases h6 with h6 | h6
      · exact hne (h.rational.1 h6).symm
      · exact h.irrational (fun e => hne e.symm) h6
    · rcases hr with hr | hr
      · exact absurd ⟨0, by rw [hr]; rfl⟩ h6
      · have : IsUnit k := hr k ⟨t.r, h7⟩
        rcases Int.isUnit_iff.1 this with hk1 | hk1
        · rw [h7, hk1]; ring
        · omega
  obtain ⟨g1, g2, g3⟩ := Surd.fields_of_valC_eq hn h.toNormal hr' hv
  rw [e]
  cases t; cases s
  simp_all
example : (Surd.mk 7 (-3) 2 5).RealOk ∧ Squarefree (5 : ℤ) := by
  refine ⟨by decide +kernel, ?_⟩
  rw [← Int.squarefree_natAbs]
  exact Nat.prime_five.squarefree

/-- **C129** refuted: `trunc` depends on how the number is stored.  `x = (5 - √15)/2` made by `new(30, -3, 12, 60)` has
`trunc` 0, so `fract` subtracts 0; but the result `y`, equal to `x`, has `trunc` 1 and another `fract`. -/
theorem fract_refuted : ∃ x y z : Surd, Surd.new ⟨false, true⟩ 30 (-3) 12 60 = .ok x ∧ x.RealOk ∧
    x.trunc ⟨false, true⟩ = .ok Surd.zero ∧ x.fract ⟨false, true⟩ = .ok y ∧ Surd.eq x y = true ∧
    y.trunc ⟨false, true⟩ = .ok Surd.one ∧ y.fract ⟨false, true⟩ = .ok z ∧ Surd.eq y z = false :=
  ⟨⟨10, -1, 4, 60⟩, ⟨5, -1, 2, 15⟩, ⟨3, -1, 2, 15⟩, by decide +kernel⟩

/-- **C129** refuted: `trunc` of a positive number can exceed its `floor`, and `fract` of it be negative. -/
theorem trunc_floor_refuted : ∃ x f : Surd, x.RealOk ∧ x.isPositive ⟨false, true⟩ = .ok true ∧
    x.trunc ⟨false, true⟩ = .ok (Surd.ofInt 4) ∧ x.floor ⟨false, true⟩ = .ok (Surd.ofInt 3) ∧
    x.fract ⟨false, true⟩ = .ok f ∧ f.isNegative ⟨false, true⟩ = .ok true :=
  ⟨⟨5, -1, 1, 2⟩, ⟨1, -1, 1, 2⟩, by decide +kernel⟩

end NumIrr
