/- Helper lemmas: constructors and base matching of quadratic integers. -/
import Verif.Lemmas.QIntBasic

namespace NumIrr
namespace QInt

variable {cfg : Cfg}

theorem tmod4 (d : ℤ) : d.tmod 4 = 0 ↔ d % 4 = 0 := by
  constructor
  · intro h; exact Int.emod_eq_zero_of_dvd (Int.dvd_of_tmod_eq_zero h)
  · intro h; exact Int.tmod_eq_zero_of_dvd (Int.dvd_of_emod_eq_zero h)

theorem fromCoeffs_neg {c : QCoeffs} {d : ℤ} (h : cfg.complex = false) (hd : d < 0) :
    fromCoeffs cfg c d = .error .negRoot := by
  unfold fromCoeffs; rw [if_pos ⟨h, hd⟩]

theorem fromCoeffs_mod4 {c : QCoeffs} {d : ℤ} (h : cfg.complex = false → 0 ≤ d) (hd : d % 4 = 0) :
    fromCoeffs cfg c d = .error .discrMod4 := by
  unfold fromCoeffs
  rw [if_neg (fun e => not_lt.mpr (h e.1) e.2), if_pos ((tmod4 d).mpr hd)]

/-- non-square discriminant -/
theorem fromCoeffs_eq {c : QCoeffs} {d : ℤ} (h : cfg.complex = false → 0 ≤ d) (hd : d % 4 ≠ 0)
    (hs : ¬ IsSquare d) :
    fromCoeffs cfg c d = .ok (if c.b = 0 then ⟨c.a, 0, 0⟩ else ⟨c.a, c.b, d⟩) := by
  have hd0 := not_isSquare_ne_zero hs
  unfold fromCoeffs
  rw [if_neg (fun e => not_lt.mpr (h e.1) e.2), if_neg (fun e => hd ((tmod4 d).mp e))]
  simp only
  rw [if_neg (fun e => hs ((isqrt_natAbs_iff d).mp e))]
  by_cases hb : c.b = 0 <;> simp [hb, hd0]

/-- square discriminant: the number computed is `a + b√d` (not `a + bω`) -/
theorem fromCoeffs_square {c : QCoeffs} {k : ℤ} (hk : 0 ≤ k) (hd : (k * k) % 4 ≠ 0) :
    fromCoeffs cfg c (k * k) = .ok ⟨c.a + c.b * k, 0, 0⟩ := by
  have h0 : 0 ≤ k * k := mul_self_nonneg k
  unfold fromCoeffs
  rw [if_neg (fun e => not_lt.mpr h0 e.2), if_neg (fun e => hd ((tmod4 _).mp e))]
  have hr : isqrt ((k * k).natAbs : ℤ) = k := by
    have h1 := (isqrt_natAbs_iff (k * k)).mpr ⟨k, rfl⟩
    have h2 := isqrt_nonneg ((k * k).natAbs : ℤ)
    nlinarith
  simp only [hr, if_true, not_lt.mpr h0, if_false]
  simp

theorem fromCoeffs_spec {c : QCoeffs} {d : ℤ} (h : cfg.complex = false → 0 ≤ d) (hd : d % 4 ≠ 0)
    (hs : ¬ IsSquare d) :
    ∃ t, fromCoeffs cfg c d = .ok t ∧ t.valC = c.cval d ∧ t.Ok cfg := by
  rw [fromCoeffs_eq h hd hs]
  refine ⟨_, rfl, ?_, ?_⟩
  · split
    · next hb => simp [valC, QCoeffs.cval, hb]
    · rfl
  · split
    · exact ⟨by simp, by simp, by simp, by simp⟩
    · exact ⟨fun e => absurd e (not_isSquare_ne_zero hs), fun _ => hd, fun _ => hs, h⟩

theorem fromCoeffs_ok {c : QCoeffs} {d : ℤ} {t : QInt} (e : fromCoeffs cfg c d = .ok t) : t.Ok cfg := by
  by_cases h : cfg.complex = false → 0 ≤ d
  · by_cases hd : d % 4 = 0
    · rw [fromCoeffs_mod4 h hd] at e; cases e
    · by_cases hs : IsSquare d
      · obtain ⟨k, hk⟩ := hs
        rw [show d = |k| * |k| by rw [abs_mul_abs_self]; exact hk] at e hd
        rw [fromCoeffs_square (abs_nonneg k) hd] at e
        cases e
        exact ⟨by simp, by simp, by simp, by simp⟩
      · obtain ⟨t', e', -, h'⟩ := fromCoeffs_spec (c := c) h hd hs
        rw [e] at e'; cases e'; exact h'
  · push Not at h
    rw [fromCoeffs_neg h.1 h.2] at e; cases e

/-- the factor-4 loop -/
theorem strip4_spec (fuel : ℕ) (b r : ℤ) (hr : 0 < r) (hf : r ≤ fuel) :
    ∃ k : ℕ, (strip4 fuel b r).1 = b * 2 ^ k ∧ r = 4 ^ k * (strip4 fuel b r).2 ∧
      (strip4 fuel b r).2 % 4 ≠ 0 ∧ 0 < (strip4 fuel b r).2 := by
  induction fuel generalizing b r with
  | zero => simp at hf; omega
  | succ n ih =>
    unfold strip4
    by_cases h : r.tmod 4 = 0
    · rw [if_pos h]
      have h4 := (tmod4 r).mp h
      have e : r.tdiv 4 = r / 4 := Int.tdiv_eq_ediv_of_nonneg hr.le
      rw [e]
      push_cast at hf
      obtain ⟨k, h1, h2, h3⟩ := ih (b + b) (r / 4) (by omega) (by omega)
      refine ⟨k + 1, ?_, ?_, h3⟩
      · rw [h1]; ring
      · have : r = 4 * (r / 4) := by omega
        rw [pow_succ, mul_comm (4 ^ k) 4, mul_assoc, ← h2]; exact this
    · rw [if_neg h]
      exact ⟨0, by simp, by simp, fun e => h ((tmod4 r).mpr e), hr⟩

theorem isSquare_four_pow_mul (k : ℕ) (m : ℤ) : IsSquare (4 ^ k * m) ↔ IsSquare m := by
  have e : (4:ℤ) ^ k = 2 ^ k * 2 ^ k := by rw [← mul_pow]; norm_num
  constructor
  · rintro ⟨s, hs⟩
    apply isSquare_of_rat (q := (s : ℚ) / 2 ^ k)
    have : (s : ℚ) * s = 2 ^ k * 2 ^ k * m := by rw [e] at hs; exact_mod_cast hs.symm
    field_simp
    linear_combination this
  · rintro ⟨s, hs⟩
    exact ⟨2 ^ k * s, by rw [hs, e]; ring⟩

theorem rootC_four_pow (k : ℕ) (m : ℤ) : rootC (4 ^ k * m) = 2 ^ k * rootC m := by
  have e : (4:ℤ) ^ k = 2 ^ k * 2 ^ k := by rw [← mul_pow]; norm_num
  rw [e, rootC_sq_mul (by positivity)]; push_cast; rfl

/-- `new` on a root `4^k·m` with `m` odd or 2 modulo 4 -/
theorem new_eq (cfg : Cfg) (a b r : ℤ) (hr : 0 < r ∨ r % 4 ≠ 0) :
    ∃ (k : ℕ) (m : ℤ), r = 4 ^ k * m ∧ m % 4 ≠ 0 ∧ (r < 0 → m < 0) ∧
      new cfg a b r = fromCoeffs cfg
        (if m % 4 = 1 then ⟨a - b * 2 ^ k, b * 2 ^ k + b * 2 ^ k⟩ else ⟨a, b * 2 ^ k⟩) m := by
  unfold new
  by_cases hp : 0 < r
  · obtain ⟨k, h1, h2, h3, h4⟩ := strip4_spec r.toNat b r hp (by omega)
    simp only [if_pos hp]
    generalize strip4 r.toNat b r = p at *
    obtain ⟨b', m⟩ := p
    refine ⟨k, m, h2, h3, by intro; omega, ?_⟩
    simp only at h1 h3
    simp only [mod4d2_eq, if_neg h3, h1]
    by_cases h5 : m % 4 = 1 <;> simp [h5]
  · have hr' := hr.resolve_left hp
    simp only [if_neg hp]
    refine ⟨0, r, by simp, hr', by tauto, ?_⟩
    simp only [mod4d2_eq, if_neg hr']
    by_cases h5 : r % 4 = 1 <;> simp [h5]

theorem new_unreachable (cfg : Cfg) (a b r : ℤ) (hr : r ≤ 0) (h4 : r % 4 = 0) :
    new cfg a b r = .error .unreachable := by
  unfold new
  simp only [if_neg (not_lt.mpr hr), mod4d2_eq, if_pos h4]

theorem new_value {a b r : ℤ} {t : QInt} (hs : ¬ IsSquare r) (e : new cfg a b r = .ok t) :
    t.valC = a + b * rootC r := by
  by_cases hr : 0 < r ∨ r % 4 ≠ 0
  · obtain ⟨k, m, h1, h2, h3, h4⟩ := new_eq cfg a b r hr
    rw [h4] at e
    have hm : ¬ IsSquare m := fun h => hs (by rw [h1]; exact (isSquare_four_pow_mul k m).mpr h)
    have hreal : cfg.complex = false → 0 ≤ m := by
      intro hc
      by_contra hn
      rw [fromCoeffs_neg hc (not_le.mp hn)] at e; cases e
    obtain ⟨t', e', hv, -⟩ := fromCoeffs_spec (cfg := cfg)
      (c := if m % 4 = 1 then ⟨a - b * 2 ^ k, b * 2 ^ k + b * 2 ^ k⟩ else ⟨a, b * 2 ^ k⟩) hreal h2 hm
    rw [e'] at e; cases e
    rw [hv, h1, rootC_four_pow]
    unfold QCoeffs.cval omegaC
    by_cases h5 : m % 4 = 1
    · simp only [if_pos h5]; push_cast; ring
    · simp only [if_neg h5]; push_cast; ring
  · push Not at hr
    rw [new_unreachable cfg a b r hr.1 hr.2] at e; cases e

theorem new_ok {a b r : ℤ} {t : QInt} (e : new cfg a b r = .ok t) : t.Ok cfg := by
  by_cases hr : 0 < r ∨ r % 4 ≠ 0
  · obtain ⟨k, m, h1, h2, h3, h4⟩ := new_eq cfg a b r hr
    rw [h4] at e
    exact fromCoeffs_ok e
  · push Not at hr
    rw [new_unreachable cfg a b r hr.1 hr.2] at e; cases e

/-! ### matching of bases -/

theorem not_isSquare_of_mul {k m : ℤ} (h : ¬ IsSquare (k * k * m)) : ¬ IsSquare m := by
  rintro ⟨s, hs⟩; exact h ⟨k * s, by rw [hs]; ring⟩

theorem mod4_sq_mul {k m : ℤ} (h : (k * k * m) % 4 ≠ 0) : (k * k * m) % 4 = m % 4 ∧ k % 2 = 1 := by
  have hk : k % 2 = 1 := by
    by_contra hk
    obtain ⟨j, hj⟩ : ∃ j, k = 2 * j := ⟨k / 2, by omega⟩
    apply h
    rw [hj, show 2 * j * (2 * j) * m = 4 * (j * j * m) by ring]
    simp
  refine ⟨?_, hk⟩
  obtain ⟨j, hj⟩ : ∃ j, k = 2 * j + 1 := ⟨k / 2, by omega⟩
  rw [hj, show (2 * j + 1) * (2 * j + 1) * m = m + 4 * ((j * j + j) * m) by ring]
  omega

/-- value and shape of the reduced operand -/
theorem reduceRootHinted_spec {x : QInt} (hx : x.Ok cfg) (hb : x.b ≠ 0) (hint : ℤ) :
    reduceRootHinted cfg x hint = .ok x ∨
    ∃ (k : ℤ) (x' : QInt), reduceRootHinted cfg x hint = .ok x' ∧ 0 < k ∧ x.d = k * k * x'.d ∧
      x'.valC = x.valC ∧ x'.Ok cfg ∧ x'.b ≠ 0 := by
  have hd0 : x.d ≠ 0 := fun e => hb (hx.rational e)
  unfold reduceRootHinted
  simp only
  split
  · exact .inl rfl
  · next hh =>
    split
    · next hrem =>
      split
      · next hsq =>
        right
        have hd : (hint.natAbs : ℤ) ∣ x.d := Int.dvd_of_tmod_eq_zero hrem
        have hk0 := isqrt_nonneg (hint.natAbs : ℤ)
        generalize hkk : isqrt (hint.natAbs : ℤ) = k at *
        have hk : 0 < k := by
          rcases eq_or_lt_of_le hk0 with h0 | h0
          · exfalso; apply hh; left; rw [← hsq, ← h0]; simp
          · exact h0
        have hr : x.d = k * k * x.d.tdiv (hint.natAbs : ℤ) := by
          rw [hsq, mul_comm]; exact (tdiv_mul_of_dvd hd).symm
        generalize x.d.tdiv (hint.natAbs : ℤ) = q at *
        have hm4 := hx.mod4 hd0
        have hms := hx.irrational hd0
        have hmr := hx.real
        obtain ⟨h4, hodd⟩ := mod4_sq_mul (k := k) (m := q) (by rw [← hr]; exact hm4)
        have hq4 : q % 4 ≠ 0 := by rw [← h4, ← hr]; exact hm4
        have hqs : ¬ IsSquare q := not_isSquare_of_mul (k := k) (by rw [← hr]; exact hms)
        have hqr : cfg.complex = false → 0 ≤ q := by
          intro h
          have := hmr h
          rw [hr] at this
          exact nonneg_of_mul_nonneg_right this (by positivity)
        have hbk : x.b * k ≠ 0 := mul_ne_zero hb hk.ne'
        have hroot : rootC x.d = k * rootC q := by rw [hr, rootC_sq_mul hk.le]
        have hdm : x.d % 4 = q % 4 := by rw [hr]; exact h4
        rw [mod4d2_eq, if_neg hm4]
        by_cases h5 : x.d % 4 = 1
        · rw [if_pos h5]
          simp only
          rw [fromCoeffs_eq hqr hq4 hqs, if_neg hbk]
          refine ⟨k, _, rfl, hk, hr, ?_, ⟨fun e => absurd e (not_isSquare_ne_zero hqs), fun _ => hq4, fun _ => hqs, hqr⟩, hbk⟩
          have e2 : (k - 1).tdiv 2 * 2 = k - 1 := Int.tdiv_mul_cancel (by omega)
          have e2' : (((k - 1).tdiv 2 : ℤ) : ℂ) * 2 = k - 1 := by exact_mod_cast e2
          unfold valC omegaC
          simp only
          rw [if_pos h5, if_pos (by rw [← hdm]; exact h5), hroot]
          push_cast
          linear_combination -(x.b:ℂ) / 2 * e2'
        · rw [if_neg h5]
          simp only
          rw [fromCoeffs_eq hqr hq4 hqs, if_neg hbk]
          refine ⟨k, _, rfl, hk, hr, ?_, ⟨fun e => absurd e (not_isSquare_ne_zero hqs), fun _ => hq4, fun _ => hqs, hqr⟩, hbk⟩
          unfold valC omegaC
          simp only
          rw [if_neg h5, if_neg (by rw [← hdm]; exact h5), hroot]
          push_cast; ring
      · exact .inl rfl
    · exact .inl rfl

theorem reduceRootHinted_hit {x : QInt} (hx : x.Ok cfg) (hb : x.b ≠ 0) {d : ℤ} (hd : d ≠ 0)
    (habs : d.natAbs < x.d.natAbs) {k : ℤ} (h : x.d = k * k * d) :
    ∃ x', reduceRootHinted cfg x (x.d.tdiv d) = .ok x' ∧ x'.d = d := by
  have hd0 : x.d ≠ 0 := fun e => hb (hx.rational e)
  have hq : x.d.tdiv d = k * k := by
    rw [h]; exact Int.mul_tdiv_cancel _ hd
  have hkk : 1 < k * k := by
    rw [h, Int.natAbs_mul] at habs
    have : 0 < d.natAbs := Int.natAbs_pos.mpr hd
    have h1 : 1 < (k*k).natAbs := by
      by_contra hn
      have : (k*k).natAbs * d.natAbs ≤ 1 * d.natAbs := Nat.mul_le_mul_right _ (by omega)
      omega
    have h2 : (0:ℤ) ≤ k * k := mul_self_nonneg k
    omega
  have hna : ((k * k).natAbs : ℤ) = k * k := Int.natAbs_of_nonneg (mul_self_nonneg k)
  have hm4 := hx.mod4 hd0
  have hms := hx.irrational hd0
  have hmr := hx.real
  obtain ⟨h4, hodd⟩ := mod4_sq_mul (k := k) (m := d) (by rw [← h]; exact hm4)
  have hq4 : d % 4 ≠ 0 := by rw [← h4, ← h]; exact hm4
  have hqs : ¬ IsSquare d := not_isSquare_of_mul (k := k) (by rw [← h]; exact hms)
  have hqr : cfg.complex = false → 0 ≤ d := by
    intro hc
    have := hmr hc
    rw [h] at this
    exact nonneg_of_mul_nonneg_right this (by omega)
  have hsq : isqrt (k * k) * isqrt (k * k) = k * k :=
    (isqrt_mul_self_eq_iff (mul_self_nonneg k)).mpr ⟨k, rfl⟩
  have hbk : x.b * isqrt (k * k) ≠ 0 := by
    apply mul_ne_zero hb
    intro e; rw [e] at hsq; omega
  have hquo : x.d.tdiv (k * k) = d := by
    rw [h, mul_comm (k*k) d]; exact Int.mul_tdiv_cancel _ (by omega)
  unfold reduceRootHinted
  simp only
  rw [hq, hna, if_neg (by omega), if_pos, if_pos hsq, hquo, mod4d2_eq, if_neg hm4]
  · by_cases h5 : x.d % 4 = 1
    · rw [if_pos h5]; simp only
      rw [fromCoeffs_eq hqr hq4 hqs, if_neg hbk]
      exact ⟨_, rfl, rfl⟩
    · rw [if_neg h5]; simp only
      rw [fromCoeffs_eq hqr hq4 hqs, if_neg hbk]
      exact ⟨_, rfl, rfl⟩
  · rw [h]; exact Int.mul_tmod_right _ _

/-- result of matching -/
structure Matched (cfg : Cfg) (x y : QInt) (p : QInt × QInt) : Prop where
  v1 : p.1.valC = x.valC
  v2 : p.2.valC = y.valC
  ok1 : p.1.Ok cfg
  ok2 : p.2.Ok cfg
  b1 : p.1.b ≠ 0
  b2 : p.2.b ≠ 0
  d12 : p.1.d = p.2.d
  dxy : p.1.d = x.d ∨ p.1.d = y.d

private theorem match_left {x y : QInt} (hx : x.Ok cfg) (hy : y.Ok cfg) (hxb : x.b ≠ 0)
    (hyb : y.b ≠ 0) (h : y.d.natAbs < x.d.natAbs) :
    ∃ x', reduceRootHinted cfg x (x.d.tdiv y.d) = .ok x' ∧
    (x.Compatible y → Matched cfg x y (x', y)) ∧ (¬ x.Compatible y → x'.d ≠ y.d) := by
  have hy0 : y.d ≠ 0 := fun e => hyb (hy.rational e)
  have hx0 : x.d ≠ 0 := fun e => hxb (hx.rational e)
  obtain ⟨x', ex, hx'⟩ : ∃ x', reduceRootHinted cfg x (x.d.tdiv y.d) = .ok x' ∧
      (x' = x ∨ ∃ k : ℤ, 0 < k ∧ x.d = k * k * x'.d ∧
      x'.valC = x.valC ∧ x'.Ok cfg ∧ x'.b ≠ 0) := by
    rcases reduceRootHinted_spec hx hxb (x.d.tdiv y.d) with e | ⟨k, x', e, h⟩
    · exact ⟨x, e, .inl rfl⟩
    · exact ⟨x', e, .inr ⟨k, h⟩⟩
  refine ⟨x', ex, ?_, ?_⟩
  · rintro ⟨k, hk⟩
    have hk' : x.d = k * k * y.d := by
      rcases hk with hk | hk
      · exact hk
      · exfalso
        rw [hk, Int.natAbs_mul] at h
        have : 0 < (k * k).natAbs := by
          apply Int.natAbs_pos.mpr; intro e; rw [e] at hk; simp at hk; exact hy0 hk
        have : 1 * x.d.natAbs ≤ (k * k).natAbs * x.d.natAbs := Nat.mul_le_mul_right _ this
        omega
    obtain ⟨x'', ex', hd⟩ := reduceRootHinted_hit hx hxb hy0 h hk'
    rw [ex] at ex'; cases ex'
    rcases hx' with e | ⟨m, hm, h1, h2, h3, h4⟩
    · rw [e] at hd; rw [hd] at h; omega
    · exact ⟨h2, rfl, h3, hy, h4, hyb, hd, .inr hd⟩
  · intro hn e
    rcases hx' with e' | ⟨m, hm, h1, h2⟩
    · rw [e'] at e; rw [e] at h; omega
    · rw [e] at h1; exact hn ⟨m, .inl h1⟩

theorem compatible_symm {x y : QInt} (h : x.Compatible y) : y.Compatible x := by
  obtain ⟨k, hk⟩ := h; exact ⟨k, hk.symm⟩

/-- exact behaviour of base matching for irrational operands -/
theorem reduceBinOpUnwrap_spec {x y : QInt} (hx : x.Ok cfg) (hy : y.Ok cfg) (hxb : x.b ≠ 0)
    (hyb : y.b ≠ 0) :
    (x.Compatible y → ∃ p, reduceBinOpUnwrap cfg x y = .ok p ∧ Matched cfg x y p) ∧
    (¬ x.Compatible y → reduceBinOpUnwrap cfg x y = .error .incompatible) := by
  have hy0 : y.d ≠ 0 := fun e => hyb (hy.rational e)
  have hx0 : x.d ≠ 0 := fun e => hxb (hx.rational e)
  -- the three outcomes of the size comparison
  have A : y.d.natAbs < x.d.natAbs →
      (reduceBinOpUnwrap cfg x y = (do
        let x' ← x.reduceRootHinted cfg (x.d.tdiv y.d)
        if x'.d = y.d then (.ok (x', y) : Res (QInt × QInt)) else .error .incompatible)) →
      (x.Compatible y → ∃ p, reduceBinOpUnwrap cfg x y = .ok p ∧ Matched cfg x y p) ∧
      (¬ x.Compatible y → reduceBinOpUnwrap cfg x y = .error .incompatible) := by
    intro h e
    obtain ⟨x', ex, h1, h2⟩ := match_left hx hy hxb hyb h
    rw [e, ex]
    simp only [bind, Except.bind]
    refine ⟨fun hc => ⟨_, if_pos (h1 hc).d12, h1 hc⟩, fun hc => if_neg (h2 hc)⟩
  have B : x.d.natAbs < y.d.natAbs →
      (reduceBinOpUnwrap cfg x y = (do
        let y' ← y.reduceRootHinted cfg (y.d.tdiv x.d)
        if x.d = y'.d then (.ok (x, y') : Res (QInt × QInt)) else .error .incompatible)) →
      (x.Compatible y → ∃ p, reduceBinOpUnwrap cfg x y = .ok p ∧ Matched cfg x y p) ∧
      (¬ x.Compatible y → reduceBinOpUnwrap cfg x y = .error .incompatible) := by
    intro h e
    obtain ⟨y', ey, h1, h2⟩ := match_left hy hx hyb hxb h
    rw [e, ey]
    simp only [bind, Except.bind]
    constructor
    · intro hc
      have m := h1 (compatible_symm hc)
      exact ⟨_, if_pos m.d12.symm, m.v2, m.v1, m.ok2, m.ok1, m.b2, m.b1, m.d12.symm, .inl rfl⟩
    · intro hc
      exact if_neg (fun e => h2 (fun hh => hc (compatible_symm hh)) e.symm)
  have C : x.d = y.d → reduceBinOpUnwrap cfg x y = .ok (x, y) →
      (x.Compatible y → ∃ p, reduceBinOpUnwrap cfg x y = .ok p ∧ Matched cfg x y p) ∧
      (¬ x.Compatible y → reduceBinOpUnwrap cfg x y = .error .incompatible) := by
    intro h e
    refine ⟨fun _ => ⟨_, e, rfl, rfl, hx, hy, hxb, hyb, h, .inl rfl⟩, fun hc => ?_⟩
    exact absurd ⟨1, by left; rw [h]; ring⟩ hc
  have dR : ∀ (a b : ℤ), b ≠ 0 → divR a b = .ok (a.tdiv b) := fun a b hb => by
    unfold divR; rw [if_neg hb]
  have un : ∀ (p : QInt × QInt) , ((match (if p.1.d = p.2.d then some p else none : Option (QInt × QInt)) with
      | some p => Except.ok p
      | none => Except.error Panic.incompatible) : Res (QInt × QInt)) =
      if p.1.d = p.2.d then .ok p else .error .incompatible := by
    intro p; split_ifs <;> rfl
  by_cases hcx : cfg.complex = true
  · by_cases hs : (decide (x.d < 0) ^^ decide (y.d < 0)) = true
    · have hnone : reduceBinOpUnwrap cfg x y = .error .incompatible := by
        unfold reduceBinOpUnwrap reduceBinOp; simp only [hcx, hs, if_true]; rfl
      refine ⟨fun hc => ?_, fun _ => hnone⟩
      exfalso
      have hsgn : (x.d < 0 ∧ 0 < y.d) ∨ (0 < x.d ∧ y.d < 0) := by
        rcases lt_or_gt_of_ne hx0 with h | h <;> rcases lt_or_gt_of_ne hy0 with h' | h'
        · simp [h, h'] at hs
        · exact .inl ⟨h, h'⟩
        · exact .inr ⟨h, h'⟩
        · have e1 : ¬ x.d < 0 := by omega
          have e2 : ¬ y.d < 0 := by omega
          simp [e1, e2] at hs
      obtain ⟨k, hk⟩ := hc
      have hk0 := mul_self_nonneg k
      rcases hk with hk | hk <;> rcases hsgn with ⟨h, h'⟩ | ⟨h, h'⟩ <;> nlinarith
    · rcases lt_trichotomy x.d.natAbs y.d.natAbs with h | h | h
      · apply B h
        unfold reduceBinOpUnwrap reduceBinOp
        simp only [hcx, hs, if_true, gt_iff_lt, if_neg (not_lt.mpr h.le), if_pos h, dR _ _ hx0, bind, Except.bind, Bool.false_eq_true, if_false]
        cases hh : y.reduceRootHinted cfg (y.d.tdiv x.d) with
        | error p => rfl
        | ok y' => exact un (x, y')
      · have hxy : x.d = y.d := by
          rcases Int.natAbs_eq_natAbs_iff.mp h with e | e
          · exact e
          · exfalso
            rcases lt_or_gt_of_ne hx0 with h1 | h1
            · have : ¬ y.d < 0 := by omega
              simp [h1, this] at hs
            · have h2 : y.d < 0 := by omega
              have : ¬ x.d < 0 := by omega
              simp [h2, this] at hs
        apply C hxy
        unfold reduceBinOpUnwrap reduceBinOp
        rw [hxy] at hs ⊢
        simp only [hcx, hs, if_true, gt_iff_lt, lt_irrefl, if_false, Bool.false_eq_true]
        rw [if_pos hxy]; rfl
      · apply A h
        unfold reduceBinOpUnwrap reduceBinOp
        simp only [hcx, hs, if_true, gt_iff_lt, if_pos h, dR _ _ hy0, bind, Except.bind, Bool.false_eq_true, if_false]
        cases hh : x.reduceRootHinted cfg (x.d.tdiv y.d) with
        | error p => rfl
        | ok x' => exact un (x', y)
  · have hcf : cfg.complex = false := by simpa using hcx
    have hxp : 0 < x.d := lt_of_le_of_ne (hx.real hcf) hx0.symm
    have hyp : 0 < y.d := lt_of_le_of_ne (hy.real hcf) hy0.symm
    have hdbg : ¬ (cfg.debug = true ∧ (x.d = 0 ∨ y.d = 0)) := by rintro ⟨-, h | h⟩ <;> omega
    rcases lt_trichotomy x.d y.d with h | h | h
    · apply B (by omega)
      unfold reduceBinOpUnwrap reduceBinOp
      simp only [hcf, Bool.false_eq_true, if_false, if_neg hdbg, gt_iff_lt, if_neg (not_lt.mpr h.le), if_pos h, dR _ _ hx0, bind, Except.bind]
      cases hh : y.reduceRootHinted cfg (y.d.tdiv x.d) with
      | error p => rfl
      | ok y' => exact un (x, y')
    · apply C h
      unfold reduceBinOpUnwrap reduceBinOp
      simp only [hcf, Bool.false_eq_true, if_false, if_neg hdbg, gt_iff_lt]
      rw [if_neg (by omega), if_neg (by omega), if_pos h]; rfl
    · apply A (by omega)
      unfold reduceBinOpUnwrap reduceBinOp
      simp only [hcf, Bool.false_eq_true, if_false, if_neg hdbg, gt_iff_lt, if_pos h, dR _ _ hy0, bind, Except.bind]
      cases hh : x.reduceRootHinted cfg (x.d.tdiv y.d) with
      | error p => rfl
      | ok x' => exact un (x', y)

end QInt
end NumIrr
