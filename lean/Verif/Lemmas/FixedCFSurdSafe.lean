/-
Surds to continued fractions over fixed-width integers: the range in which no operator overflows.
-/
import Verif.Lemmas.FixedCFSurdRef
import Verif.Lemmas.FixedSafe

namespace NumIrr
namespace Lagrange

variable {d rd p q P : ℤ}

/-- the states reached from a positive number with `|p| ≤ P` -/
structure Inv (d rd P p q : ℤ) : Prop where
  valid : Valid d p q
  cases : (|p| ≤ P ∧ (0 < q ∧ -rd ≤ p ∨ q < 0 ∧ p < -rd)) ∨ (p = rd ∧ q < 0)

theorem Root.sq_lt (hr : Root d rd) (h1 : -rd ≤ p) (h2 : p ≤ rd) : p * p < d := by
  have := hr.lo
  nlinarith

theorem Root.lt_sq (hr : Root d rd) (h : p < -rd ∨ rd < p) : d < p * p := by
  have := hr.hi
  have := hr.pos
  rcases h with h | h <;> nlinarith

theorem coef_bounds :
    (0 < q → rd - q < nextP rd p q ∧ nextP rd p q ≤ rd) ∧ (q < 0 → rd ≤ nextP rd p q ∧ nextP rd p q < rd - q) := by
  have e := Int.fdiv_mul_add_fmod (rd + p) q
  unfold nextP coef
  constructor
  · intro h
    have h1 := Int.fmod_nonneg_of_pos (rd + p) h
    have h2 := Int.fmod_lt_of_pos (rd + p) h
    omega
  · intro h
    have e2 : (rd + p).fmod q = -((-(rd + p)).fmod (-q)) := by rw [Int.neg_fmod_neg]; ring
    have h1 := Int.fmod_nonneg_of_pos (-(rd + p)) (b := -q) (by omega)
    have h2 := Int.fmod_lt_of_pos (-(rd + p)) (b := -q) (by omega)
    omega

theorem pos_of_mul {a b : ℤ} (ha : 0 < a) (h : 0 < a * b) : 0 < b := (mul_pos_iff_of_pos_left ha).1 h
theorem neg_of_mul {a b : ℤ} (ha : 0 < a) (h : a * b < 0) : b < 0 := by
  by_contra hb
  have := mul_nonneg ha.le (not_lt.1 hb)
  omega
theorem neg_of_mul' {a b : ℤ} (ha : a < 0) (h : 0 < a * b) : b < 0 := by
  by_contra hb
  have := Int.mul_nonpos_of_nonpos_of_nonneg ha.le (not_lt.1 hb)
  omega
theorem pos_of_mul' {a b : ℤ} (ha : a < 0) (h : a * b < 0) : 0 < b := by
  by_contra hb
  have := mul_nonneg_of_nonpos_of_nonpos ha.le (not_lt.1 hb)
  omega

/-- in the second case `|q|` is small -/
theorem offq_le (hr : Root d rd) (hv : Valid d rd q) : |q| ≤ 2 * rd := by
  have h1 := hr.lo
  have h2 := hr.hi
  have h3 : |q| ∣ d - rd * rd := (abs_dvd _ _).2 hv.dvd
  have h4 := Int.le_of_dvd (by omega) h3
  nlinarith

theorem coef_nonneg (hA : 0 < q ∧ -rd ≤ p ∨ q < 0 ∧ p < -rd) : 0 ≤ coef rd p q := by
  unfold coef
  rcases hA with ⟨h1, h2⟩ | ⟨h1, h2⟩
  · exact Int.fdiv_nonneg (by omega) h1.le
  · rw [← Int.neg_fdiv_neg]
    exact Int.fdiv_nonneg (by omega) (by omega)

theorem Inv.next (hr : Root d rd) (hP : 3 * rd ≤ P) (h : Inv d rd P p q) :
    Inv d rd P (nextP rd p q) (nextQ d rd p q) := by
  have hv := next_valid hr h.valid
  have hm := next_mul (rd := rd) h.valid
  have hrd := hr.pos
  obtain ⟨b1, b2⟩ := coef_bounds (rd := rd) (p := p) (q := q)
  refine ⟨hv, ?_⟩
  rcases h.cases with ⟨hp, hA⟩ | ⟨rfl, hq⟩
  · have ha := coef_nonneg hA
    rw [abs_le] at hp
    rcases hA with ⟨hq, h1⟩ | ⟨hq, h1⟩
    · obtain ⟨b3, b4⟩ := b1 hq
      have hge : -p ≤ nextP rd p q := by
        have := mul_nonneg ha hq.le
        unfold nextP; omega
      left
      refine ⟨abs_le.2 ⟨by omega, by omega⟩, ?_⟩
      by_cases hc : -rd ≤ nextP rd p q
      · exact .inl ⟨pos_of_mul hq (by rw [hm]; have := hr.sq_lt hc b4; omega), hc⟩
      · exact .inr ⟨neg_of_mul hq (by rw [hm]; have := hr.lt_sq (.inl (not_le.1 hc)); omega), by omega⟩
    · obtain ⟨b3, b4⟩ := b2 hq
      have hge : nextP rd p q ≤ -p := by
        have := Int.mul_nonpos_of_nonneg_of_nonpos ha hq.le
        unfold nextP; omega
      by_cases hc : nextP rd p q = rd
      · right
        exact ⟨hc, neg_of_mul' hq (by rw [hm, hc]; have := hr.lo; omega)⟩
      · left
        refine ⟨abs_le.2 ⟨by omega, by omega⟩, .inl ⟨pos_of_mul' hq ?_, by omega⟩⟩
        rw [hm]; have := hr.lt_sq (p := nextP rd p q) (.inr (by omega)); omega
  · obtain ⟨b3, b4⟩ := b2 hq
    have hq2 := offq_le hr h.valid
    rw [abs_of_neg hq] at hq2
    by_cases hc : nextP p p q = p
    · right
      exact ⟨hc, neg_of_mul' hq (by rw [hm, hc]; have := hr.lo; omega)⟩
    · left
      refine ⟨abs_le.2 ⟨by omega, by omega⟩, .inl ⟨pos_of_mul' hq ?_, by omega⟩⟩
      rw [hm]; have := hr.lt_sq (p := nextP p p q) (.inr (by omega)); omega

theorem Inv.p_le (hr : Root d rd) (hP : 3 * rd ≤ P) (h : Inv d rd P p q) : |p| ≤ P := by
  have := hr.pos
  rcases h.cases with ⟨hp, -⟩ | ⟨rfl, -⟩
  · exact hp
  · rw [abs_of_pos (by omega)]; omega

theorem sq_le_of_abs {p P : ℤ} (h : |p| ≤ P) : p * p ≤ P * P := by
  rw [← abs_mul_abs_self p]
  exact mul_self_le_mul_self (abs_nonneg p) h

theorem Inv.q_le (hr : Root d rd) (hP : 3 * rd ≤ P) (h : Inv d rd P p q) : |q| ≤ d + P * P - 1 := by
  have h1 := sq_le_of_abs (h.p_le hr hP)
  have h2 : |q| ∣ |d - p * p| := by rw [abs_dvd_abs]; exact h.valid.dvd
  have hne : d - p * p ≠ 0 := fun e => hr.nsq p (by omega)
  have h3 := Int.le_of_dvd (abs_pos.2 hne) h2
  have h4 := mul_self_nonneg p
  have h5 := hr.dpos
  have h6 := hr.lo
  have h7 := hr.pos
  have : |d - p * p| ≤ d + P * P - 1 := abs_le.2 ⟨by omega, by nlinarith⟩
  omega

theorem coef_abs : |coef rd p q| ≤ |rd + p| := by
  unfold coef
  have := Int.natAbs_fdiv_le_natAbs (rd + p) q
  rw [Int.abs_eq_natAbs, Int.abs_eq_natAbs]
  exact_mod_cast this

/-- `|a| ≤ |p| + |p'|` -/
theorem coef_le_sum (hq : q ≠ 0) : |coef rd p q| ≤ |p| + |nextP rd p q| := by
  have h1 : |coef rd p q * q| ≤ |p| + |nextP rd p q| := by
    have : coef rd p q * q = p + nextP rd p q := by unfold nextP; ring
    rw [this]; exact abs_add_le _ _
  rw [abs_mul] at h1
  have h2 : 1 ≤ |q| := Int.one_le_abs hq
  have h3 := abs_nonneg (coef rd p q)
  nlinarith

theorem absSum_cons' (v : ℤ) (l : List ℤ) : absSum (v :: l) = |v| + absSum l := by simp [absSum]

theorem absSum_le {l : List ℤ} {K : ℤ} (h : ∀ v ∈ l, |v| ≤ K) : absSum l ≤ l.length * K := by
  induction l with
  | nil => simp [absSum]
  | cons v l ih =>
    rw [absSum_cons']
    have h1 := h v (by simp)
    have h2 := ih fun u hu => h u (by simp [hu])
    push_cast [List.length_cons]
    linarith

/-- every coefficient of the first loop is at most `2P` -/
theorem Run.coef_le (hr : Root d rd) (hP : 3 * rd ≤ P) {l : List ℤ} {p' q' : ℤ} (h : Run d rd p q l p' q')
    (hi : Inv d rd P p q) : ∀ v ∈ l, |v| ≤ 2 * P := by
  have key : ∀ {p q : ℤ}, Inv d rd P p q → |coef rd p q| ≤ 2 * P := by
    intro p q hi
    have h1 := coef_le_sum (rd := rd) (p := p) hi.valid.ne
    have h2 := hi.p_le hr hP
    have h3 := (hi.next hr hP).p_le hr hP
    omega
  induction h with
  | stop p q _ =>
    intro v hv
    rw [List.mem_singleton.1 hv]; exact key hi
  | step p q _ _ ih =>
    intro v hv
    rcases List.mem_cons.1 hv with rfl | hv
    · exact key hi
    · exact ih (hi.next hr hP) v hv

theorem Tail.length {l : List ℤ} (h : Tail l) : l.length ≤ 4 := by cases h <;> simp

theorem th_pos (hr : Root d rd) (hq : 0 < q) (hp : -rd ≤ p) : 0 < th d p q := by
  have h1 := hr.lt
  have h2 : (-rd : ℝ) ≤ p := by exact_mod_cast hp
  have h3 : (0 : ℝ) < q := by exact_mod_cast hq
  unfold th
  apply div_pos _ h3
  linarith

theorem thc_neg (hr : Root d rd) (hq : 0 < q) (hp : p ≤ rd) : thc d p q < 0 := by
  have h1 := hr.lt
  have h2 : (p : ℝ) ≤ rd := by exact_mod_cast hp
  have h3 : (0 : ℝ) < q := by exact_mod_cast hq
  unfold thc
  apply div_neg_of_neg_of_pos _ h3
  linarith

/-- the sum of the coefficients of the first loop -/
theorem Run.sum_le (hr : Root d rd) {l : List ℤ} {p' q' : ℤ} (h : Run d rd p q l p' q') (hv : Valid d p q)
    (hA : 0 < q ∧ -rd ≤ p ∨ q < 0 ∧ p < -rd) : absSum l ≤ |p| + 25 * rd := by
  have hrd := hr.pos
  have small : ∀ {p q p' q' : ℤ} {l : List ℤ}, Valid d p q → 0 < q → -rd ≤ p → p ≤ rd → Run d rd p q l p' q' →
      absSum l ≤ 12 * rd := by
    intro p q p' q' l hv hq h1 h2 hrun
    obtain ⟨-, l', p1, q1, h3, h4, -⟩ := neg_conj_run hr hv (th_pos hr hq h1) (thc_neg hr hq h2)
    obtain ⟨rfl, -, -⟩ := hrun.det h3
    have h5 := absSum_le (hrun.coef_le hr le_rfl (P := 3 * rd) ⟨hv, .inl ⟨abs_le.2 ⟨by omega, by omega⟩, .inl ⟨hq, h1⟩⟩⟩)
    have h6 : ((l.length : ℕ) : ℤ) ≤ 2 := by exact_mod_cast h4
    nlinarith
  induction h with
  | stop p q hred =>
    have h1 := coef_le_sum (rd := rd) (p := p) hv.ne
    have h2 := (Red.mk (next_valid hr hv) hred).bounds
    rw [abs_of_pos (by omega : 0 < nextP rd p q)] at h1
    have h3 : absSum [coef rd p q] = |coef rd p q| := by simp [absSum]
    omega
  | @step p q l p' q' hred hrun ih =>
    have hm := next_mul (rd := rd) hv
    have hv' := next_valid hr hv
    have ha := coef_nonneg hA
    have h1 := coef_le_sum (rd := rd) (p := p) hv.ne
    rw [absSum_cons', abs_of_nonneg ha] at *
    have e : coef rd p q * q = p + nextP rd p q := by unfold nextP; ring
    obtain ⟨b1, b2⟩ := coef_bounds (rd := rd) (p := p) (q := q)
    rcases hA with ⟨hq, h2⟩ | ⟨hq, h2⟩
    · obtain ⟨b3, b4⟩ := b1 hq
      by_cases hc : -rd ≤ nextP rd p q
      · have hq' := pos_of_mul hq (by rw [hm]; have := hr.sq_lt hc b4; omega)
        have h3 := small hv' hq' hc b4 hrun
        have : |nextP rd p q| ≤ rd := abs_le.2 ⟨hc, b4⟩
        omega
      · have hq' := neg_of_mul hq (by rw [hm]; have := hr.lt_sq (.inl (not_le.1 hc)); omega)
        have h3 := ih hv' (.inr ⟨hq', by omega⟩)
        rw [abs_of_neg (by omega : nextP rd p q < 0)] at h3
        have : coef rd p q ≤ p + nextP rd p q := by rw [← e]; exact le_mul_of_one_le_right ha (by omega)
        have := le_abs_self p
        omega
    · obtain ⟨b3, b4⟩ := b2 hq
      have h4 : coef rd p q ≤ -p - nextP rd p q := by
        have : coef rd p q * q ≤ coef rd p q * (-1) := mul_le_mul_of_nonneg_left (by omega) ha
        omega
      have h5 := neg_abs_le p
      by_cases hc : nextP rd p q = rd
      · have hoff : Off rd p q := by
          refine ⟨hq, ⟨coef rd p q, ?_⟩⟩
          rw [mul_comm, e, hc]; ring
        rcases run_off hr hv hoff with ⟨l', p1, q1, h6, h7⟩ | h6
        · obtain ⟨h8, -, -⟩ := (Run.step p q hred hrun).det h6
          cases h8
          have hq' := neg_of_mul' hq (by rw [hm, hc]; have := hr.lo; omega)
          have h9 := absSum_le (hrun.coef_le hr le_rfl (P := 3 * rd) ⟨hv', .inr ⟨hc, hq'⟩⟩)
          have h10 : ((l.length : ℕ) : ℤ) ≤ 4 := by exact_mod_cast h7.length
          have : ((l.length : ℕ) : ℤ) * (2 * (3 * rd)) ≤ 24 * rd := by nlinarith
          omega
        · exfalso
          have h7 := headLoop_of_run hr (Run.step p q hred hrun) hv _ le_rfl []
          rw [headLoop_stuck hr _ _ _ _ _ _ hv (.refl p q) h6] at h7
          cases h7
      · have hq' := pos_of_mul' hq (by rw [hm]; have := hr.lt_sq (p := nextP rd p q) (.inr (by omega)); omega)
        have h3 := ih hv' (.inl ⟨hq', by omega⟩)
        rw [abs_of_pos (by omega : 0 < nextP rd p q)] at h3
        omega

end Lagrange

namespace Fx
open Lagrange CF

variable {x : Fx} {d rd p q P : Int}

theorem ret_abs {v K : Int} (hv : |v| ≤ K) (hK : K < 2 ^ (x.w - 1)) : x.ret v = .ok v := by
  refine ret_ok ?_
  rw [abs_le] at hv
  exact ⟨by omega, by omega⟩

theorem holds_abs {v K : Int} (hv : |v| ≤ K) (hK : K < 2 ^ (x.w - 1)) : x.fits v = true := by
  rw [abs_le] at hv
  simp only [fits, IntTy.signed, Bool.and_eq_true, decide_eq_true_eq]
  omega

theorem rho_exact (hr : Root d rd) (hP : 3 * rd ≤ P) (hL : d + P * P + P < 2 ^ (x.w - 1)) (h : Inv d rd P p q) :
    x.rho d rd p q = .ok (coef rd p q, nextP rd p q, nextQ d rd p q) := by
  have hd := hr.dpos
  have hrd := hr.pos
  have hlo := hr.lo
  have h1 := h.p_le hr hP
  have hn := h.next hr hP
  have h2 := hn.p_le hr hP
  have h3 := hn.q_le hr hP
  have hPP : 3 * P ≤ P * P := by nlinarith
  have hrr : rd ≤ rd * rd := by nlinarith
  have hs := sq_le_of_abs h2
  have hs0 := mul_self_nonneg (nextP rd p q)
  have e1 : |rd + p| ≤ d + P * P + P := by
    rw [abs_le] at h1 ⊢
    omega
  have e2 : |coef rd p q * q| ≤ d + P * P + P := by
    have : coef rd p q * q = p + nextP rd p q := by unfold nextP; ring
    rw [this]
    rw [abs_le] at h1 h2 ⊢
    omega
  unfold rho add
  rw [ret_abs e1 hL]
  show (x.divFloor (rd + p) q >>= _) = _
  have e3 : x.divFloor (rd + p) q = .ok (coef rd p q) := by
    unfold divFloor
    have : x.fits ((rd + p).fdiv q) = true := holds_abs (v := coef rd p q) (coef_abs.trans e1) hL
    rw [if_neg h.valid.ne, if_pos this]
    rfl
  rw [e3]
  show (x.ret (coef rd p q * q) >>= _) = _
  rw [ret_abs e2 hL]
  show (x.ret (nextP rd p q) >>= _) = _
  rw [ret_abs h2 (by omega)]
  show (x.ret (nextP rd p q * nextP rd p q) >>= _) = _
  rw [ret_abs (K := P * P) (by rw [abs_of_nonneg hs0]; exact hs) (by omega)]
  show (x.ret (d - nextP rd p q * nextP rd p q) >>= _) = _
  rw [ret_abs (K := d + P * P) (abs_le.2 ⟨by omega, by omega⟩) (by omega)]
  show (x.div (d - nextP rd p q * nextP rd p q) q >>= _) = _
  have e4 : x.div (d - nextP rd p q * nextP rd p q) q = .ok (nextQ d rd p q) := by
    unfold div
    rw [if_neg h.valid.ne]
    have : x.fits ((d - nextP rd p q * nextP rd p q).tdiv q) = true := holds_abs (v := nextQ d rd p q) h3 (by omega)
    rw [if_pos this]
    rfl
  rw [e4]
  rfl

theorem isReduced_exact (hr : Root d rd) (hP : 3 * rd ≤ P) (hL : d + P * P + P < 2 ^ (x.w - 1)) (h : Inv d rd P p q) :
    x.isReduced rd p q = .ok (NumIrr.isReduced rd p q) := by
  have h1 := h.p_le hr hP
  have h2 := h.q_le hr hP
  rw [abs_le] at h1 h2
  unfold isReduced NumIrr.isReduced add sub
  by_cases c1 : p ≤ rd
  · rw [if_pos c1, ret_abs (K := d + P * P + P) (abs_le.2 ⟨by omega, by omega⟩) hL]
    show (if rd < p + q then _ else _) = _
    by_cases c2 : rd < p + q
    · rw [if_pos c2, ret_abs (K := d + P * P + P) (abs_le.2 ⟨by omega, by omega⟩) hL]
      simp [c1, c2]
    · rw [if_neg c2]; simp [c2]; rfl
  · rw [if_neg c1]; simp [c1]; rfl

theorem headLoop_exact (hr : Root d rd) (hP : 3 * rd ≤ P) (hL : d + P * P + P < 2 ^ (x.w - 1)) :
    ∀ (fuel : Nat) (acc : List Int) (p q : Int), Inv d rd P p q →
      x.headLoop d rd fuel acc p q = NumIrr.headLoop d rd fuel acc p q
  | 0, _, _, _, _ => rfl
  | fuel + 1, acc, p, q, h => by
    have hn := h.next hr hP
    have e : x.headStep d rd p q = .ok ((coef rd p q, nextP rd p q, nextQ d rd p q),
        NumIrr.isReduced rd (nextP rd p q) (nextQ d rd p q)) := by
      unfold headStep
      rw [rho_exact hr hP hL h]
      show (x.isReduced rd (nextP rd p q) (nextQ d rd p q) >>= _) = _
      rw [isReduced_exact hr hP hL hn]
      rfl
    rw [headLoop, NumIrr.headLoop, e, rho_eq h.valid]
    simp only
    split
    · rfl
    · exact headLoop_exact hr hP hL fuel _ _ _ hn

theorem periodLoop_exact (hr : Root d rd) (hP : 3 * rd ≤ P) (hL : d + P * P + P < 2 ^ (x.w - 1)) (ip iq : Int) :
    ∀ (fuel : Nat) (acc : List Int) (p q : Int), Inv d rd P p q →
      x.periodLoop d rd ip iq fuel acc p q = NumIrr.periodLoop d rd ip iq fuel acc p q
  | 0, _, _, _, _ => rfl
  | fuel + 1, acc, p, q, h => by
    rw [periodLoop, NumIrr.periodLoop, rho_exact hr hP hL h, rho_eq h.valid]
    simp only
    split
    · rfl
    · exact periodLoop_exact hr hP hL ip iq fuel _ _ _ (h.next hr hP)

theorem cfLoops_exact (hw : 2 ≤ x.w) (hr : Root d (isqrt d)) (hP : 3 * isqrt d ≤ P)
    (hL : d + P * P + P < 2 ^ (x.w - 1)) (hS : |p| + 25 * isqrt d < 2 ^ (x.w - 1)) (h : Valid d p q) (hp : |p| ≤ P)
    (hA : 0 < q ∧ -isqrt d ≤ p ∨ q < 0 ∧ p < -isqrt d) (debug : Bool) (fuel : Nat) (neg : Bool) :
    x.cfLoops debug fuel d p q neg = cfOfState debug fuel d (isqrt d) p q neg := by
  have hi : Inv d (isqrt d) P p q := ⟨h, .inl ⟨hp, hA⟩⟩
  have e : sqrtR d = .ok (isqrt d) := by
    unfold sqrtR
    rw [if_neg (by have := hr.dpos; omega)]
  unfold cfLoops cfOfState
  rw [e]
  simp only
  rw [headLoop_exact hr hP hL fuel [] p q hi]
  cases hh : NumIrr.headLoop d (isqrt d) fuel [] p q with
  | none => rfl
  | some t =>
    obtain ⟨l, p', q', rfl, hrun, -⟩ := run_of_headLoop hr fuel [] p q h t hh
    obtain ⟨hv', hred⟩ := hrun.valid hr h
    have hb := (Red.mk hv' hred).bounds
    simp only [List.reverse_nil, List.nil_append]
    have hi' : Inv d (isqrt d) P p' q' :=
      ⟨hv', .inl ⟨abs_le.2 ⟨by omega, by omega⟩, .inl ⟨by omega, by omega⟩⟩⟩
    have hP' := periodLoop_holds hw d (isqrt d) p' q' fuel [] p' q' (by simp)
    rw [periodLoop_exact hr hP hL p' q' fuel [] p' q' hi'] at hP' ⊢
    cases hh2 : NumIrr.periodLoop d (isqrt d) p' q' fuel [] p' q' with
    | none => rfl
    | some t =>
      obtain ⟨ps, rfl, hp'⟩ := pRun_of_periodLoop hr fuel [] p' q' hv' t hh2
      simp only
      rw [List.reverse_nil, List.nil_append] at hh2
      obtain ⟨ns, -, e2, -, -⟩ := hp'.spec hr ⟨hv', hred⟩
      refine congrArg some (Prim.new_exact (prim_ok hw) (prim_wide x) debug l _ neg ?_ ?_ ?_)
      · have := hrun.sum_le hr h hA
        omega
      · intro v hv
        exact prim_holds.2 (hP' _ (by rw [hh2]; rfl) v hv)
      · intro v hv
        rw [List.reverse_nil, List.nil_append, e2] at hv
        simp only [toInts, List.mem_map] at hv
        obtain ⟨n, -, rfl⟩ := hv
        exact Int.natCast_nonneg n

theorem side (hr : Root d rd) (hv : Valid d p q) (h : 0 < th d p q) : 0 < q ∧ -rd ≤ p ∨ q < 0 ∧ p < -rd := by
  have h1 := hr.lt
  have h2 := hr.gt
  unfold th at h
  rcases lt_or_gt_of_ne hv.ne with hq | hq
  · refine .inr ⟨hq, ?_⟩
    have h3 : (q : ℝ) < 0 := by exact_mod_cast hq
    have h4 : (p + √(d : ℝ)) < 0 := by
      by_contra h5
      exact absurd h (not_lt.2 (div_nonpos_of_nonneg_of_nonpos (not_lt.1 h5) h3.le))
    have : (p : ℝ) < -rd := by linarith
    exact_mod_cast this
  · refine .inl ⟨hq, ?_⟩
    have h3 : (0 : ℝ) < q := by exact_mod_cast hq
    have h4 : 0 < (p + √(d : ℝ)) := by
      by_contra h5
      exact absurd h (not_lt.2 (div_nonpos_of_nonpos_of_nonneg (not_lt.1 h5) h3.le))
    have : (-rd : ℝ) < p + 1 := by linarith
    have : -rd < p + 1 := by exact_mod_cast this
    omega

theorem startVal_pos {a b c r : ℤ} (hc : 0 < c) (h : 0 < quadR a b c r) : 0 < startVal a b c r := by
  unfold startVal
  split
  · exact h
  · refine lt_of_lt_of_le h ?_
    unfold quadR
    have hcp : (0 : ℝ) < c := by exact_mod_cast hc
    apply div_le_div_of_nonneg_right _ hcp.le
    have : (b : ℝ) ≤ ((|b| : ℤ) : ℝ) := by exact_mod_cast le_abs_self b
    have := Real.sqrt_nonneg (r : ℝ)
    nlinarith

theorem le_mul_self {v : ℤ} : |v| ≤ v * v := by
  rcases eq_or_ne v 0 with rfl | h
  · simp
  · have := Int.one_le_abs h
    have := abs_mul_abs_self v
    nlinarith

theorem rem_abs {a b K : Int} (hb : b ≠ 0) (ha : |a| ≤ K) (hK : K < 2 ^ (x.w - 1)) : x.rem a b = .ok (a.tmod b) := by
  unfold rem
  rw [if_neg hb, if_pos (holds_abs (abs_tdiv_le ha) hK)]

theorem pqSign_exact {a b c K : Int} (ha : |a| ≤ K) (hc : |c| ≤ K) (hK : K < 2 ^ (x.w - 1)) :
    x.pqSign a b c = .ok (if b < 0 then (-a, -c) else (a, c)) := by
  unfold pqSign neg
  by_cases hb : b < 0
  · rw [if_pos hb, if_pos hb, ret_abs (by rwa [abs_neg]) hK]
    show (x.ret (-c) >>= _) = _
    rw [ret_abs (by rwa [abs_neg]) hK]
    rfl
  · rw [if_neg hb, if_neg hb]

theorem pqForm_exact {a b c r K : Int} (hc : 0 < c) (hr : 0 ≤ r) (hs : ¬ IsSquare r) (hb : b ≠ 0)
    (h : if c ∣ r * b * b - a * a then r * b * b + a * a ≤ K else r * b * b * c * c + (a * c) * (a * c) ≤ K)
    (hK : K < 2 ^ (x.w - 1)) : x.pqForm a b c r = NumIrr.pqForm a b c r := by
  have hb1 := Int.one_le_abs hb
  have hrb : |r * b| ≤ r * b * b := by
    rw [abs_mul, abs_of_nonneg hr, mul_assoc, ← abs_mul_abs_self b]
    have := mul_nonneg hr (abs_nonneg b)
    nlinarith
  have hD : 0 ≤ r * b * b := le_trans (abs_nonneg _) hrb
  have hne : r * b * b - a * a ≠ 0 := fun e => nonsquare_mul hs hb ⟨a, by omega⟩
  have haa := mul_self_nonneg a
  have hcc : c ≤ c * c := by nlinarith
  have hDcc : r * b * b ≤ r * b * b * c * c := by rw [mul_assoc (r * b * b)]; exact le_mul_of_one_le_right hD (by omega)
  have hDc : r * b * b * c ≤ r * b * b * c * c := le_mul_of_one_le_right (mul_nonneg hD hc.le) hc
  have hacc : a * a ≤ (a * c) * (a * c) := by
    have : (a * c) * (a * c) = (a * a) * (c * c) := by ring
    rw [this]; exact le_mul_of_one_le_right haa (by omega)
  have hD1 : 1 ≤ r * b * b := by
    rcases hD.eq_or_lt with e | e
    · exact absurd (⟨0, by omega⟩ : IsSquare (r * b * b)) (nonsquare_mul hs hb)
    · exact e
  have hcK : c * c ≤ r * b * b * c * c := by rw [mul_assoc (r * b * b)]; exact le_mul_of_one_le_left (mul_self_nonneg c) hD1
  have hDK : r * b * b + a * a ≤ K := by split at h <;> omega
  have hcK' : |c| ≤ K := by
    rw [abs_of_pos hc]
    split at h
    · rename_i hd
      have := Int.le_of_dvd (abs_pos.2 hne) ((dvd_abs _ _).2 hd)
      have : |r * b * b - a * a| ≤ K := abs_le.2 ⟨by omega, by omega⟩
      omega
    · have := mul_self_nonneg (a * c)
      omega
  have haK : |a| ≤ K := le_trans le_mul_self (by omega)
  unfold pqForm mul sub
  rw [ret_abs (hrb.trans (by omega)) hK]
  show (x.ret (r * b * b) >>= _) = _
  rw [ret_abs (K := K) (by rw [abs_of_nonneg hD]; omega) hK]
  show (x.pqSign a b c >>= _) = _
  rw [pqSign_exact haK hcK' hK]
  have key : ∀ p q : Int, (q = c ∨ q = -c) → p * p = a * a → p * q = a * c → (do
      let t2 ← x.ret (p * p)
      let t3 ← x.ret (r * b * b - t2)
      let m ← x.rem t3 q
      if m ≠ 0 then do
        let t4 ← x.ret (r * b * b * q)
        let d' ← x.ret (t4 * q)
        let p' ← x.ret (p * q)
        let q' ← x.ret (q * q)
        return (d', p', q')
      else return (r * b * b, p, q)) =
      (if (r * b * b - p * p).tmod q ≠ 0 then .ok (r * b * b * q * q, p * q, q * q) else .ok (r * b * b, p, q) : Res _) := by
    intro p q hq hp hpq
    have hq0 : q ≠ 0 := by omega
    have hqq : q * q = c * c := by rcases hq with rfl | rfl <;> ring
    have hqa : |q| = c := by rcases hq with rfl | rfl <;> simp [abs_of_pos hc]
    have hdvd : q ∣ r * b * b - a * a ↔ c ∣ r * b * b - a * a := by
      rcases hq with rfl | rfl
      · rfl
      · exact neg_dvd
    rw [ret_abs (K := K) (by rw [hp, abs_of_nonneg haa]; omega) hK]
    show (x.ret (r * b * b - p * p) >>= _) = _
    have hK2 : |r * b * b - p * p| ≤ K := by rw [hp]; exact abs_le.2 ⟨by omega, by omega⟩
    rw [ret_abs hK2 hK]
    show (x.rem (r * b * b - p * p) q >>= _) = _
    rw [rem_abs hq0 hK2 hK]
    show (if _ then _ else _) = _
    by_cases hm : (r * b * b - p * p).tmod q ≠ 0
    · rw [if_pos hm, if_pos hm]
      have hnd : ¬ c ∣ r * b * b - a * a := fun hd => hm (Int.tmod_eq_zero_of_dvd (by rw [hp]; exact hdvd.2 hd))
      rw [if_neg hnd] at h
      have hac := mul_self_nonneg (a * c)
      rw [ret_abs (K := K) (by rw [abs_mul, hqa, abs_of_nonneg hD]; omega) hK]
      show (x.ret (r * b * b * q * q) >>= _) = _
      have e1 : r * b * b * q * q = r * b * b * c * c := by rw [mul_assoc (r * b * b), hqq]; ring
      rw [ret_abs (K := K) (by rw [e1, abs_of_nonneg (by omega)]; omega) hK]
      show (x.ret (p * q) >>= _) = _
      rw [ret_abs (K := K) (by rw [hpq]; exact le_mul_self.trans (by omega)) hK]
      show (x.ret (q * q) >>= _) = _
      rw [ret_abs (K := K) (by rw [hqq, abs_of_nonneg (by omega)]; omega) hK]
      rfl
    · rw [if_neg hm, if_neg hm]; rfl
  by_cases hb0 : b < 0
  · rw [if_pos hb0]
    refine (key (-a) (-c) (.inr rfl) (by ring) (by ring)).trans ?_
    unfold NumIrr.pqForm remR
    simp only [hb0, if_true]
    rw [if_neg (show ¬ (-c = 0) by omega)]
    rfl
  · rw [if_neg hb0]
    refine (key a c (.inl rfl) rfl rfl).trans ?_
    unfold NumIrr.pqForm remR
    simp only [hb0, if_false]
    rw [if_neg (show ¬ (c = 0) by omega)]
    rfl

theorem cmpSquares_exact {s : Surd} {K : Int} (hr : 0 < s.r) (h : s.r * s.b * s.b + s.a * s.a ≤ K)
    (hK : K < 2 ^ (x.w - 1)) (less : Bool) : x.cmpSquares s less =
      .ok (if less then decide (s.a * s.a < s.b * s.b * s.r) else decide (s.a * s.a > s.b * s.b * s.r)) := by
  have h1 := mul_self_nonneg s.a
  have h2 := mul_self_nonneg s.b
  have e : s.b * s.b * s.r = s.r * s.b * s.b := by ring
  have h3 : s.b * s.b ≤ s.b * s.b * s.r := le_mul_of_one_le_right h2 hr
  unfold cmpSquares mul
  rw [ret_abs (K := K) (by rw [abs_of_nonneg h1]; omega) hK]
  show (x.ret (s.b * s.b) >>= _) = _
  rw [ret_abs (K := K) (by rw [abs_of_nonneg h2]; omega) hK]
  show (x.ret (s.b * s.b * s.r) >>= _) = _
  rw [ret_abs (K := K) (by rw [abs_of_nonneg (by omega)]; omega) hK]
  rfl

theorem isNegative_exact (cfg : Cfg) {s : Surd} {K : Int} (hr : 0 < s.r) (h : s.r * s.b * s.b + s.a * s.a ≤ K)
    (hK : K < 2 ^ (x.w - 1)) : x.isNegative cfg s = s.isNegative cfg := by
  unfold isNegative Surd.isNegative
  refine congrArg _ (funext fun _ => ?_)
  split
  · rfl
  · split
    · split
      · rfl
      · rw [cmpSquares_exact hr h hK]; rfl
    · split
      · rfl
      · rw [cmpSquares_exact hr h hK]; rfl

theorem cfArgs_exact (cfg : Cfg) {s : Surd} {K : Int} (hr : 0 < s.r) (h : s.r * s.b * s.b + s.a * s.a ≤ K)
    (hK : K < 2 ^ (x.w - 1)) :
    x.cfArgs cfg s = (s.isNegative cfg >>= fun n => .ok (if n then (-s.a, -s.b, true) else (s.a, s.b, false))) := by
  unfold cfArgs
  rw [isNegative_exact cfg hr h hK]
  refine congrArg _ (funext fun n => ?_)
  cases n
  · rfl
  · have h1 := mul_self_nonneg s.a
    have h2 : s.b * s.b ≤ s.r * s.b * s.b := by
      have := le_mul_of_one_le_left (mul_self_nonneg s.b) hr
      rwa [mul_assoc]
    have h3 := mul_self_nonneg s.b
    show (x.ret (-s.a) >>= _) = _
    rw [ret_abs (K := K) (by rw [abs_neg]; exact le_mul_self.trans (by omega)) hK]
    show (x.ret (-s.b) >>= _) = _
    rw [ret_abs (K := K) (by rw [abs_neg]; exact le_mul_self.trans (by omega)) hK]
    rfl

theorem disc_bounds {P : Int} (hr : Root d rd) (hP : P = max |p| (3 * rd)) :
    d + P * P + P ≤ 13 * d + 2 * (p * p) ∧ |p| + 25 * rd ≤ 13 * d + 2 * (p * p) := by
  have h1 := hr.lo
  have h2 := hr.pos
  have h3 := le_mul_self (v := p)
  have h4 := abs_mul_abs_self p
  have h5 := abs_nonneg p
  constructor
  · rcases max_choice |p| (3 * rd) with e | e
    · have : 0 < rd * rd := by nlinarith
      rw [hP, e, h4]
      omega
    · rw [hP, e]
      nlinarith
  · nlinarith [sq_nonneg (rd - 1)]

theorem quadsurd_exact (hw : 2 ≤ x.w) (cfg : Cfg) (fuel : Nat) {a b c r : Int} (neg : Bool)
    (hc : 0 < c) (hr : 0 ≤ r) (hs : ¬ IsSquare r) (hb : b ≠ 0) (hpos : 0 < quadR a b c r)
    (h : if c ∣ r * b * b - a * a then 13 * (r * b * b) + 2 * (a * a) < 2 ^ (x.w - 1)
      else 13 * (r * b * b * c * c) + 2 * ((a * c) * (a * c)) < 2 ^ (x.w - 1)) :
    x.quadsurdToContfrac cfg fuel a b c r neg = NumIrr.quadsurdToContfrac cfg fuel a b c r neg := by
  have hroot := disc_root (a := a) hc hr hs hb
  have hd0 := hroot.dpos
  unfold quadsurdToContfrac NumIrr.quadsurdToContfrac
  split
  · rfl
  split
  · rfl
  have hv : ∀ p q : Int, NumIrr.pqForm a b c r = .ok (disc a b c r, p, q) → |p| * |p| = (if c ∣ r * b * b - a * a then a * a else (a * c) * (a * c)) := by
    intro p q e
    rw [abs_mul_abs_self]
    by_cases hd : c ∣ r * b * b - a * a
    · rw [pqForm_dvd hc hd] at e
      injection e with e
      injection e with _ e
      injection e with e _
      rw [if_pos hd, ← e]; split <;> ring
    · rw [pqForm_ndvd hc hd] at e
      injection e with e
      injection e with _ e
      injection e with e _
      rw [if_neg hd, ← e]
  rw [pqForm_exact hc hr hs hb (K := disc a b c r + if c ∣ r * b * b - a * a then a * a else (a * c) * (a * c))]
  · obtain ⟨p, q, h1, h2, h3, -, -⟩ := pqForm_spec (a := a) (b := b) (r := r) hc
    rw [h1]
    have hp := hv p q h1
    have hd : 13 * disc a b c r + 2 * (p * p) < 2 ^ (x.w - 1) := by
      rw [← abs_mul_abs_self p, hp]
      unfold disc
      split at h <;> simp_all
    obtain ⟨b1, b2⟩ := disc_bounds (p := p) hroot rfl
    have e : sqrtR (disc a b c r) = .ok (isqrt (disc a b c r)) := by
      unfold sqrtR
      rw [if_neg (by omega)]
    simp only [e]
    exact cfLoops_exact hw hroot (le_max_right _ _) (lt_of_le_of_lt b1 hd) (lt_of_le_of_lt b2 hd) h2 (le_max_left _ _)
      (side hroot h2 (by rw [h3]; exact startVal_pos hc hpos)) cfg.debug fuel neg
  · unfold disc
    split <;> simp_all
  · have h1 := mul_self_nonneg a
    have h2 := mul_self_nonneg (a * c)
    unfold disc at hd0 ⊢
    by_cases hd : c ∣ r * b * b - a * a
    · rw [if_pos hd] at *; omega
    · rw [if_neg hd] at *; omega

end Fx
end NumIrr
