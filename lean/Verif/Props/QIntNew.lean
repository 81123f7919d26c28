/-
C49 (constructors), C53 (conjugate and norm), C55 (rounding division), C56 (predicates) of quadratic
integers, and the representation invariant.
-/
import Verif.Lemmas.QIntReach

namespace NumIrr
open QInt

/-- Every quadratic integer a program can obtain satisfies the representation invariant: `d = 0` only for
rational integers, otherwise `d` is neither a square nor a multiple of 4, and negative only with the
`complex` feature. -/
theorem qint_reach_ok (cfg : Cfg) (x : QInt) (h : QInt.Reach cfg x) : x.Ok cfg := reach_ok h

example : QInt.Reach ⟨false, true⟩ ⟨0, 4, 5⟩ := .new (a := 2) (b := 1) (r := 20) (by decide +kernel)

/-! ### C49 -/

/-- **C49** `from_coeffs` panics exactly as documented. -/
theorem qint_fromCoeffs_returns_iff (cfg : Cfg) (c : QCoeffs) (d : ℤ) :
    (∃ t, QInt.fromCoeffs cfg c d = .ok t) ↔ d % 4 ≠ 0 ∧ (cfg.complex = false → 0 ≤ d) := by
  constructor
  · rintro ⟨t, e⟩
    have h : cfg.complex = false → 0 ≤ d := by
      intro h; by_contra hn; rw [fromCoeffs_neg h (not_le.mp hn)] at e; cases e
    refine ⟨fun hd => ?_, h⟩
    rw [fromCoeffs_mod4 h hd] at e; cases e
  · rintro ⟨hd, h⟩
    by_cases hs : IsSquare d
    · obtain ⟨k, hk⟩ := hs
      have e : d = |k| * |k| := by rw [abs_mul_abs_self]; exact hk
      rw [e] at hd ⊢
      exact ⟨_, fromCoeffs_square (abs_nonneg k) hd⟩
    · exact ⟨_, (fromCoeffs_spec h hd hs).choose_spec.1⟩
example : QInt.fromCoeffs ⟨true, true⟩ ⟨2, 3⟩ (-8) ≠ .ok ⟨2, 3, -8⟩ ∧
    QInt.fromCoeffs ⟨true, true⟩ ⟨2, 3⟩ (-7) = .ok ⟨2, 3, -7⟩ := by decide +kernel

/-- **C49** is false for odd square discriminants: `from_coeffs((0,1), 9)` is 3, but `ω = (1+√9)/2 = 2`. -/
theorem qint_fromCoeffs_value_refuted : ∃ t : QInt,
    QInt.fromCoeffs ⟨false, true⟩ ⟨0, 1⟩ 9 = .ok t ∧ t.valC = 3 ∧ (0 : ℂ) + 1 * omegaC 9 = 2 := by
  refine ⟨⟨3, 0, 0⟩, by decide +kernel, by simp [valC], ?_⟩
  have : rootC 9 = 3 := by
    have := rootC_square (k := 3) (by norm_num); simpa using this
  unfold omegaC; rw [if_pos (by decide), this]; norm_num

/-- **C49** partial: `from_coeffs((a,b), d)` denotes `a + bω` when `d` is not a square (or is 1); for odd
squares it denotes `a + b√d` instead.  Missing from the full claim: odd squares `≥ 9` with `b ≠ 0`. -/
theorem qint_fromCoeffs_value_partial (cfg : Cfg) (c : QCoeffs) (d : ℤ) (t : QInt)
    (e : QInt.fromCoeffs cfg c d = .ok t) :
    ((¬ IsSquare d ∨ d = 1) → t.valC = c.a + c.b * omegaC d) ∧
    (IsSquare d → t.valC = c.a + c.b * rootC d) := by
  obtain ⟨hd, h⟩ := (qint_fromCoeffs_returns_iff cfg c d).mp ⟨t, e⟩
  have sq : IsSquare d → t.valC = c.a + c.b * rootC d := by
    rintro ⟨k, hk⟩
    have e' : d = |k| * |k| := by rw [abs_mul_abs_self]; exact hk
    rw [e'] at hd e ⊢
    rw [fromCoeffs_square (abs_nonneg k) hd] at e
    cases e
    rw [rootC_square (abs_nonneg k)]; simp [valC]
  refine ⟨?_, sq⟩
  rintro (hs | h1)
  · obtain ⟨t', e', hv, -⟩ := fromCoeffs_spec (c := c) h hd hs
    rw [e] at e'; cases e'; exact hv
  · rw [sq ⟨1, by rw [h1]; rfl⟩, h1]
    have : rootC 1 = 1 := by
      have := rootC_square (k := 1) (by norm_num); simpa using this
    unfold omegaC; rw [if_pos (by decide), this]; norm_num

example : ∃ t, QInt.fromCoeffs ⟨true, true⟩ ⟨2, 3⟩ (-7) = .ok t ∧ t = ⟨2, 3, -7⟩ := ⟨_, by decide +kernel, rfl⟩

/-- **C49** `new(a,b,r)` returns exactly for these roots. -/
theorem qint_new_returns_iff (cfg : Cfg) (a b r : ℤ) :
    (∃ t, QInt.new cfg a b r = .ok t) ↔ 0 < r ∨ (cfg.complex = true ∧ r < 0 ∧ r % 4 ≠ 0) := by
  by_cases hr : 0 < r ∨ r % 4 ≠ 0
  · obtain ⟨k, m, h1, h2, h3, h4⟩ := new_eq cfg a b r hr
    rw [h4, qint_fromCoeffs_returns_iff]
    have hpow : (0:ℤ) < 4 ^ k := by positivity
    constructor
    · rintro ⟨-, h5⟩
      by_cases hp : 0 < r
      · exact .inl hp
      · right
        have hr4 := hr.resolve_left hp
        have hneg : r < 0 := by omega
        refine ⟨?_, hneg, hr4⟩
        by_contra hc
        have := h5 (by simpa using hc)
        have := h3 hneg
        omega
    · rintro (h | ⟨hc, h, h'⟩)
      · refine ⟨h2, fun _ => ?_⟩
        by_contra hn
        have : r < 0 := by rw [h1]; exact mul_neg_of_pos_of_neg hpow (not_le.mp hn)
        omega
      · exact ⟨h2, fun hf => by rw [hc] at hf; cases hf⟩
  · push Not at hr
    rw [new_unreachable cfg a b r hr.1 hr.2]
    constructor
    · rintro ⟨t, e⟩; cases e
    · rintro (h | ⟨_, _, h⟩)
      · omega
      · exact absurd hr.2 h
example : QInt.new ⟨true, true⟩ 2 3 (-7) = .ok ⟨-1, 6, -7⟩ ∧ QInt.new ⟨false, true⟩ 3 2 20 = .ok ⟨-1, 8, 5⟩ := by
  decide +kernel

/-- **C49** is false: `new` panics for the root 0 and (with `complex`) for negative multiples of 4. -/
theorem qint_new_returns_refuted :
    QInt.new ⟨true, true⟩ 5 1 0 = .error .unreachable ∧
    QInt.new ⟨true, true⟩ 0 1 (-4) = .error .unreachable := by
  constructor <;> decide +kernel

/-- **C49** is false: `new(1,1,9)` is 6, not `1 + √9 = 4`. -/
theorem qint_new_value_refuted : ∃ t : QInt,
    QInt.new ⟨false, true⟩ 1 1 9 = .ok t ∧ t.valC = 6 ∧ (1 : ℂ) + 1 * rootC 9 = 4 := by
  refine ⟨⟨6, 0, 0⟩, by decide +kernel, by simp [valC], ?_⟩
  have : rootC 9 = 3 := by
    have := rootC_square (k := 3) (by norm_num); simpa using this
  rw [this]; norm_num

/-- **C49** partial: `new(a,b,r)`, whenever it returns, denotes `a + b√r` provided `r` is not a square.
For a square `r = (2^k·m)²` with odd `m` the result is `a + b·2^k·(2m-1)`, which is right only for `m = 1`
or `b = 0`. -/
theorem qint_new_value_partial (cfg : Cfg) (a b r : ℤ) (t : QInt) (e : QInt.new cfg a b r = .ok t) :
    (¬ IsSquare r → t.valC = a + b * rootC r) ∧
    (∀ (k : ℕ) (m : ℤ), 0 < m → m % 2 = 1 → r = (2 ^ k * m) ^ 2 →
      t.valC = a + b * 2 ^ k * (2 * m - 1)) := by
  refine ⟨fun hs => new_value hs e, ?_⟩
  intro k m hm hodd hr
  have hpos : 0 < r := by rw [hr]; positivity
  obtain ⟨k', m', h1, h2, h3, h4⟩ := new_eq cfg a b r (.inl hpos)
  have hsq4 : m * m % 4 = 1 := by
    have : m % 4 = 1 ∨ m % 4 = 3 := by omega
    rcases this with e | e <;> rw [Int.mul_emod, e] <;> rfl
  -- the decomposition is unique
  have huniq : ∀ (i j : ℕ) (u v : ℤ), (4:ℤ) ^ i * u = 4 ^ j * v → u % 4 ≠ 0 → v % 4 ≠ 0 → i = j ∧ u = v := by
    intro i j u v
    wlog hij : i ≤ j generalizing i j u v with H
    · intro e hu hv
      obtain ⟨h, h'⟩ := H j i v u (by omega) e.symm hv hu
      exact ⟨h.symm, h'.symm⟩
    intro e hu hv
    obtain ⟨l, rfl⟩ := Nat.exists_eq_add_of_le hij
    have h5 : u = 4 ^ l * v := by
      have : (4:ℤ) ^ i ≠ 0 := by positivity
      apply mul_left_cancel₀ this; rw [e, pow_add]; ring
    cases l with
    | zero => exact ⟨rfl, by simpa using h5⟩
    | succ l =>
      exfalso; apply hu; rw [h5, pow_succ, show (4:ℤ) ^ l * 4 * v = 4 * (4 ^ l * v) by ring]
      exact Int.mul_emod_right 4 _
  obtain ⟨hk, hmm⟩ := huniq k k' (m * m) m' (by
    rw [← h1, hr, show (4:ℤ) = 2 ^ 2 by norm_num, ← pow_mul]; ring) (by omega) h2
  subst hk; subst hmm
  rw [h4, if_pos hsq4, fromCoeffs_square hm.le h2] at e
  cases e
  simp only [valC]; push_cast; ring

example : ∃ t, QInt.new ⟨false, true⟩ 3 2 20 = .ok t ∧ t.d = 5 ∧ t.a = -1 ∧ t.b = 8 :=
  ⟨⟨-1, 8, 5⟩, by decide +kernel, rfl, rfl, rfl⟩
example : ∃ t, QInt.new ⟨false, true⟩ 1 3 16 = .ok t ∧ t = ⟨13, 0, 0⟩ ∧ (16:ℤ) = (2^2*1)^2 :=
  ⟨_, by decide +kernel, rfl, by norm_num⟩

/-! ### C53 -/

/-- **C53** `conj` returns, replaces `√d` by `-√d`, and is an involution. -/
theorem qint_conj (cfg : Cfg) (x : QInt) (h : x.Ok cfg) :
    ∃ c, x.conj = .ok c ∧ c.conj = .ok x ∧ c.d = x.d ∧
      ∀ p q : ℚ, x.valC = p + q * rootC x.d → x.d ≠ 0 → c.valC = p - q * rootC x.d := by
  by_cases hd : x.d = 0
  · refine ⟨x, ?_, ?_, rfl, fun _ _ _ h => absurd hd h⟩ <;>
    · unfold QInt.conj QCoeffs.conj; rw [if_pos hd]; rfl
  · have h4 := h.mod4 hd
    obtain ⟨c, n, hc, -, hv, -⟩ := QCoeffs.conj_spec x.coeffs h4
    refine ⟨mk' c x.d, ?_, ?_, rfl, ?_⟩
    · unfold QInt.conj; rw [hc]; rfl
    · unfold QInt.conj QCoeffs.conj
      unfold QCoeffs.conj at hc
      rw [if_neg hd, mod4d2_eq, if_neg h4] at hc
      have e1 : (mk' c x.d).d = x.d := rfl
      rw [e1, if_neg hd, mod4d2_eq, if_neg h4]
      by_cases h1 : x.d % 4 = 1
      · rw [if_pos h1] at hc ⊢; cases hc
        obtain ⟨a, b, d⟩ := x
        simp [mk', coeffs, bind, Except.bind, pure, Except.pure]
      · rw [if_neg h1] at hc ⊢; cases hc
        obtain ⟨a, b, d⟩ := x
        simp [mk', coeffs, bind, Except.bind, pure, Except.pure]
    · intro p q e _
      have : (mk' c x.d).valC = c.cval x.d := rfl
      rw [this, hv]
      unfold QInt.valC omegaC at e
      unfold omegaC' omegaC
      by_cases h1 : x.d % 4 = 1
      · rw [if_pos h1] at e
        simp only [if_pos h1]
        obtain ⟨e1, e2⟩ := root_coeff_eq (h.irrational hd) (x := x.a + x.b / 2) (y := x.b / 2)
          (x' := p) (y' := q) (by push_cast; linear_combination e)
        rw [← e1, ← e2]; push_cast; simp only [coeffs]; ring
      · rw [if_neg h1] at e
        simp only [if_neg h1]
        obtain ⟨e1, e2⟩ := root_coeff_eq (h.irrational hd) (x := x.a) (y := x.b)
          (x' := p) (y' := q) (by push_cast; linear_combination e)
        rw [← e1, ← e2]; push_cast; simp only [coeffs]; ring

example : (QInt.mk 2 3 5).Ok ⟨false, true⟩ ∧ (QInt.mk 2 3 5).conj = .ok ⟨5, -3, 5⟩ := by
  refine ⟨⟨by decide, by decide, fun _ => ?_, by decide⟩, by decide +kernel⟩
  rw [← isqrt_natAbs_iff]; decide +kernel

/-- **C53** `norm` returns the product of the number and its conjugate. -/
theorem qint_norm (cfg : Cfg) (x c : QInt) (h : x.Ok cfg) (hc : x.conj = .ok c) :
    ∃ n : ℤ, x.norm = .ok n ∧ (n : ℂ) = x.valC * c.valC := by
  by_cases hd : x.d = 0
  · unfold QInt.conj QCoeffs.conj at hc
    rw [if_pos hd] at hc
    cases hc
    refine ⟨x.a * x.a, ?_, ?_⟩
    · unfold QInt.norm QCoeffs.norm; rw [if_pos hd]; rfl
    · rw [valC_rational (h.rational hd)]
      rw [valC_rational (x := mk' x.coeffs x.d) (h.rational hd)]
      push_cast; rfl
  · obtain ⟨c', n, e, hn, -, hv⟩ := QCoeffs.conj_spec x.coeffs (h.mod4 hd)
    unfold QInt.conj at hc
    rw [e] at hc
    cases hc
    exact ⟨n, hn, hv⟩
example : (QInt.mk 2 3 5).conj = .ok ⟨5, -3, 5⟩ ∧ (QInt.mk 2 3 5).norm = .ok 1 := by decide +kernel

/-- **C53** the norm is multiplicative. -/
theorem qint_norm_mul (cfg : Cfg) (x y z : QInt) (hx : x.Ok cfg) (hy : y.Ok cfg)
    (h : QInt.mul cfg x y = .ok z) :
    ∃ n m : ℤ, x.norm = .ok n ∧ y.norm = .ok m ∧ z.norm = .ok (n * m) := by
  obtain ⟨cx, hcx, -⟩ := qint_conj cfg x hx
  obtain ⟨cy, hcy, -⟩ := qint_conj cfg y hy
  obtain ⟨n, hn, hnv⟩ := qint_norm cfg x cx hx hcx
  obtain ⟨m, hm, hmv⟩ := qint_norm cfg y cy hy hcy
  refine ⟨n, m, hn, hm, ?_⟩
  -- multiplying by a rational integer
  have scal : ∀ (x : QInt) (k n : ℤ), x.Ok cfg → x.norm = .ok n → (x.mulInt k).norm = .ok (n * (k * k)) := by
    intro x k n hx hn
    unfold mulInt
    split
    · next hk => subst hk; simp [QInt.norm, zero, coeffs, QCoeffs.norm]
    · have e1 : (mk' (x.coeffs.mulInt k) x.d).norm = QCoeffs.norm ⟨x.a * k, x.b * k⟩ x.d := rfl
      have e2 : x.norm = QCoeffs.norm ⟨x.a, x.b⟩ x.d := rfl
      rw [e2] at hn
      rw [e1]
      unfold QCoeffs.norm at hn ⊢
      by_cases hd : x.d = 0
      · rw [if_pos hd] at hn ⊢
        have hn := Except.ok.inj hn
        rw [← hn]; congr 1; ring
      · rw [if_neg hd] at hn ⊢
        rw [mod4d2_eq, if_neg (hx.mod4 hd)] at hn ⊢
        by_cases h1 : x.d % 4 = 1
        · rw [if_pos h1] at hn ⊢
          have hn := Except.ok.inj hn
          rw [← hn]; show Except.ok _ = _; congr 1; ring
        · rw [if_neg h1] at hn ⊢
          have hn := Except.ok.inj hn
          rw [← hn]; show Except.ok _ = _; congr 1; ring
  have rat : ∀ (x : QInt) (n : ℤ), x.Ok cfg → x.b = 0 → x.norm = .ok n → n = x.a * x.a := by
    intro x n hx hb hn
    have e2 : x.norm = QCoeffs.norm ⟨x.a, 0⟩ x.d := by rw [← hb]; rfl
    rw [e2] at hn
    unfold QCoeffs.norm at hn
    by_cases hd : x.d = 0
    · rw [if_pos hd] at hn; exact (Except.ok.inj hn).symm
    · rw [if_neg hd, mod4d2_eq, if_neg (hx.mod4 hd)] at hn
      by_cases h1 : x.d % 4 = 1
      · rw [if_pos h1] at hn
        have hn := Except.ok.inj hn
        rw [← hn]; ring
      · rw [if_neg h1] at hn
        have hn := Except.ok.inj hn
        rw [← hn]; ring
  unfold QInt.mul at h
  split at h
  · next hr =>
    cases h
    have hb := (isRational_iff y).mp hr
    rw [rat y m hy hb hm]; exact scal x y.a n hx hn
  · split at h
    · next hr =>
      cases h
      have hb := (isRational_iff x).mp hr
      rw [rat x n hx hb hn, mul_comm]; exact scal y x.a m hy hm
    · next hry hrx =>
      rw [isRational_iff] at hry hrx
      obtain ⟨p, hp, h⟩ := bind_ok h
      obtain ⟨c, hc, h⟩ := bind_ok h
      obtain ⟨h1, h2⟩ := reduceBinOpUnwrap_spec hx hy hrx hry
      have hcomp : x.Compatible y := by
        by_contra hn; rw [h2 hn] at hp; cases hp
      obtain ⟨p', hp', M⟩ := h1 hcomp
      rw [hp] at hp'; cases hp'
      have hd0 : p.1.d ≠ 0 := fun e => M.b1 (M.ok1.rational e)
      have hd4 := M.ok1.mod4 hd0
      have hds := M.ok1.irrational hd0
      -- norm of the matched operands
      have nm : ∀ (x x' : QInt) (n : ℤ), x.Ok cfg → x'.Ok cfg → x.b ≠ 0 → x'.b ≠ 0 →
          x'.valC = x.valC → x.norm = .ok n → x'.norm = .ok n := by
        intro x x' n hx hx' hb hb' hv hn
        have hd : x.d ≠ 0 := fun e => hb (hx.rational e)
        have hd' : x'.d ≠ 0 := fun e => hb' (hx'.rational e)
        obtain ⟨c, hc, -, -, hcv⟩ := qint_conj cfg x hx
        obtain ⟨c', hc', -, -, hcv'⟩ := qint_conj cfg x' hx'
        obtain ⟨n1, hn1, hnv1⟩ := qint_norm cfg x c hx hc
        obtain ⟨n2, hn2, hnv2⟩ := qint_norm cfg x' c' hx' hc'
        rw [hn] at hn1; cases hn1
        rw [hn2]; congr 1
        -- both are p² - q²d
        obtain ⟨pq, e1, b1⟩ := valC_parts x
        obtain ⟨pq', e2, b2⟩ := valC_parts x'
        rw [hcv _ _ e1 hd, e1] at hnv1
        rw [hcv' _ _ e2 hd', e2] at hnv2
        rw [e1, e2] at hv
        have r1 := rootC_mul_self x.d
        have r2 := rootC_mul_self x'.d
        -- q'√d' = e + q√d, squaring kills e
        have hq2 : pq'.2 ≠ 0 := fun e => hb' ((b2 hd').mp e)
        have lin : (((pq'.1 - pq.1) ^ 2 + pq'.2 ^ 2 * x'.d - pq.2 ^ 2 * x.d : ℚ) : ℂ) +
            ((2 * (pq'.1 - pq.1) * pq'.2 : ℚ) : ℂ) * rootC x'.d = 0 := by
          push_cast
          have : (pq.2 : ℂ) * rootC x.d = (pq'.1 - pq.1) + pq'.2 * rootC x'.d := by
            linear_combination -hv
          linear_combination (-(pq'.1 - pq.1 : ℂ) - pq'.2 * rootC x'.d - pq.2 * rootC x.d) * this
            + (pq.2 : ℂ) ^ 2 * r1 - (pq'.2 : ℂ) ^ 2 * r2
        obtain ⟨l1, l2⟩ := root_lin_indep (hx'.irrational hd') lin
        have e0 : pq'.1 = pq.1 := by
          rcases mul_eq_zero.mp l2 with h | h
          · linarith
          · exact absurd h hq2
        rw [e0] at l1
        have key : pq'.2 ^ 2 * x'.d = pq.2 ^ 2 * (x.d : ℚ) := by linarith
        have keyC : (pq'.2 : ℂ) ^ 2 * x'.d = pq.2 ^ 2 * x.d := by exact_mod_cast key
        have : (n2 : ℂ) = n := by
          rw [hnv1, hnv2, e0]
          linear_combination (pq.2 : ℂ) ^ 2 * r1 - (pq'.2 : ℂ) ^ 2 * r2 - keyC
        exact_mod_cast this
      have n1 := nm x p.1 n hx M.ok1 hrx M.b1 M.v1 hn
      have n2 := nm y p.2 m hy M.ok2 hry M.b2 M.v2 hm
      unfold QInt.norm at n1 n2
      rw [← M.d12] at n2
      have hcn := QCoeffs.norm_mul hd4 hc n1 n2
      rw [← M.d12, fromCoeffs_eq M.ok1.real hd4 hds] at h
      cases h
      split
      · next hb =>
        unfold QInt.norm QCoeffs.norm
        unfold QCoeffs.norm at hcn
        rw [if_neg hd0, mod4d2_eq, if_neg hd4] at hcn
        simp only [coeffs, if_true]
        rw [← hcn]
        by_cases h1 : p.1.d % 4 = 1
        · rw [if_pos h1]; simp only [hb]; congr 1; ring
        · rw [if_neg h1]; simp only [hb]; congr 1; ring
      · exact hcn

example : ∃ z, QInt.mul ⟨false, true⟩ ⟨1, 1, 2⟩ ⟨3, 1, 2⟩ = .ok z ∧ z.norm = .ok (-1 * 7) :=
  ⟨⟨5, 4, 2⟩, by decide +kernel, by decide +kernel⟩

/-! ### C55 -/

/-- **C55** nearest-integer division, ties away from zero. -/
theorem qint_divRemRound (x y : ℤ) (hy : y ≠ 0) :
    ∃ q r, divRemRound x y = .ok (q, r) ∧ x = q * y + r ∧ 2 * |r| ≤ |y| ∧
      (2 * |r| = |y| → |x| < |q * y|) := divRemRound_spec x hy

/-- **C55** these conditions determine the quotient: it is `x/y` rounded half away from zero. -/
theorem qint_divRemRound_round (x y q r : ℤ) (hy : y ≠ 0) (h : divRemRound x y = .ok (q, r)) :
    RoundAway ((x : ℚ) / y) q := (roundAway_of_divRemRound hy h).1
example : divRemRound (-7) 2 = .ok (-4, 1) ∧ divRemRound 7 3 = .ok (2, 1) := by decide +kernel

/-- Rounding half away from zero is a function. -/
theorem roundAway_unique (q : ℚ) (m n : ℤ) (hm : RoundAway q m) (hn : RoundAway q n) : m = n := by
  obtain ⟨m1, m2⟩ := hm
  obtain ⟨n1, n2⟩ := hn
  have h1 := abs_le.mp m1
  have h2 := abs_le.mp n1
  by_contra hne
  -- the two differ by one and the number is halfway
  have key : ∀ m n : ℤ, m < n → (-(1/2) ≤ q - m ∧ q - m ≤ 1/2) → (-(1/2) ≤ q - n ∧ q - n ≤ 1/2) →
      (|q - m| = 1/2 → |q| < |(m:ℚ)|) → (|q - n| = 1/2 → |q| < |(n:ℚ)|) → False := by
    intro m n hlt h1 h2 m2 n2
    have hle : (m:ℚ) + 1 ≤ n := by exact_mod_cast hlt
    have e1 : q = m + 1/2 := by linarith [h1.2, h2.1]
    have e2 : q = n - 1/2 := by linarith [h1.2, h2.1]
    have a1 := m2 (by rw [e1]; norm_num)
    have a2 := n2 (by rw [e2]; norm_num)
    rcases le_or_gt 0 m with h | h
    · have : (0:ℚ) ≤ m := by exact_mod_cast h
      rw [abs_of_nonneg this, abs_of_nonneg (by linarith)] at a1
      linarith
    · have h' : m ≤ -1 := by omega
      have : (m:ℚ) ≤ -1 := by exact_mod_cast h'
      rw [abs_of_nonpos (by linarith : (n:ℚ) ≤ 0), abs_of_nonpos (by linarith)] at a2
      linarith
  rcases lt_or_gt_of_ne hne with h | h
  · exact key m n h h1 h2 m2 n2
  · exact key n m h h2 h1 n2 m2

/-- Division by zero panics. -/
theorem qint_divRemRound_zero (x : ℤ) : divRemRound x 0 = .error .divZero := rfl

example : divRemRound (-6) 4 = .ok (-2, 2) ∧ divRemRound 6 (-4) = .ok (-2, -2) := by decide +kernel

/-! ### C56 -/

/-- **C56** `is_rational` decides rationality. -/
theorem qint_isRational (cfg : Cfg) (x : QInt) (h : x.Ok cfg) :
    x.isRational = true ↔ ∃ q : ℚ, x.valC = q := by
  rw [isRational_iff]
  constructor
  · intro e; exact ⟨x.a, by rw [valC_rational e]; simp⟩
  · rintro ⟨q, hq⟩
    by_cases hd : x.d = 0
    · exact h.rational hd
    · unfold QInt.valC at hq
      have := omega_coeff_eq (h.irrational hd) (x := x.a) (y := x.b) (x' := q) (y' := 0)
        (by push_cast; linear_combination hq)
      exact_mod_cast this.2
example : (QInt.mk 3 0 0).isRational = true ∧ (QInt.mk 3 1 5).isRational = false ∧
    (QInt.mk 3 0 0).Ok ⟨false, true⟩ :=
  ⟨by decide, by decide, ⟨by decide, by decide, by decide, by decide⟩⟩

/-- **C56** is false for `is_pure`: `√2` is not recognised, and 3 panics. -/
theorem qint_isPure_refuted :
    (∃ x : QInt, QInt.new ⟨false, true⟩ 0 1 2 = .ok x ∧ x.valC = 1 * rootC 2 ∧ x.isPure = .ok false) ∧
    QInt.one.isPure = .error .unreachable := by
  refine ⟨⟨⟨0, 1, 2⟩, by decide +kernel, ?_, by decide +kernel⟩, by decide +kernel⟩
  simp [QInt.valC, omegaC]

/-- **C56** partial: `is_pure` answers "is a rational multiple of `√d`" for `d ≡ 1 (mod 4)`; for
`d ≡ 2, 3` it answers "is rational" instead, and for rational integers (`d = 0`) it panics.
Missing from the full claim: everything but `d ≡ 1`. -/
theorem qint_isPure_partial (cfg : Cfg) (x : QInt) (h : x.Ok cfg) :
    (x.d % 4 = 1 → ∃ b, x.isPure = .ok b ∧ (b = true ↔ ∃ q : ℚ, x.valC = q * rootC x.d)) ∧
    (x.d % 4 ≠ 0 → x.d % 4 ≠ 1 → ∃ b, x.isPure = .ok b ∧ (b = true ↔ ∃ q : ℚ, x.valC = q)) ∧
    (x.d = 0 → x.isPure = .error .unreachable) := by
  refine ⟨?_, ?_, ?_⟩
  · intro h1
    have hd : x.d ≠ 0 := by intro e; rw [e] at h1; simp at h1
    refine ⟨decide (x.a + x.a + x.b = 0), ?_, ?_⟩
    · unfold QInt.isPure; rw [mod4d2_eq, if_neg (by omega), if_pos h1]; rfl
    · rw [decide_eq_true_eq]
      have hv : x.valC = ((x.a + x.b / 2 : ℚ) : ℂ) + ((x.b / 2 : ℚ) : ℂ) * rootC x.d := by
        unfold QInt.valC omegaC; rw [if_pos h1]; push_cast; ring
      constructor
      · intro e
        refine ⟨x.b / 2, ?_⟩
        rw [hv]
        have : (x.a + x.b / 2 : ℚ) = 0 := by
          have : (x.a + x.a + x.b : ℚ) = 0 := by exact_mod_cast e
          linarith
        rw [this]; simp
      · rintro ⟨q, hq⟩
        rw [hv] at hq
        have := (root_coeff_eq (h.irrational hd) (x := x.a + x.b / 2) (y := x.b / 2)
          (x' := 0) (y' := q) (by push_cast at hq ⊢; linear_combination hq)).1
        have : (x.a + x.a + x.b : ℚ) = 0 := by linarith
        exact_mod_cast this
  · intro h0 h1
    refine ⟨decide (x.b = 0), ?_, ?_⟩
    · unfold QInt.isPure; rw [mod4d2_eq, if_neg h0, if_neg h1]; rfl
    · rw [← qint_isRational cfg x h]; simp [QInt.isRational]
  · intro hd
    unfold QInt.isPure; rw [mod4d2_eq, if_pos (by rw [hd]; rfl)]; rfl

example : (QInt.mk (-1) 2 5).isPure = .ok true ∧ (QInt.mk 1 2 5).isPure = .ok false := by decide +kernel

end NumIrr
