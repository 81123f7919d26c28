/-
C136: expanding surds over primitive integers by hand.
-/
import Verif.Spec.HandFixed
import Verif.Props.Hand
import Verif.Props.FixedSurd

namespace NumIrr
namespace Fx

/-- **C136** With overflow checks the expansion by hand over a primitive type gives the same surds as over `BigInt`, until it
panics with an overflow. -/
theorem fixed_hand (x : Fx) (hx : x.checks = true) (cfg : Cfg) (s : Surd) (n : ℕ) :
    Refines (x.hand cfg s n) (Surd.hand cfg s n) := by
  induction n with
  | zero => exact .inl rfl
  | succ n ih =>
    unfold hand Surd.hand
    refine ih.bind fun z _ => ?_
    unfold handStep Surd.handStep
    exact (floor_ref hx cfg z).bind fun f _ => (surdSub_ref hx cfg z f).bind fun d _ => recip_ref hx cfg d
example : (⟨32, true⟩ : Fx).hand ⟨false, true⟩ ⟨3, -1, 1, 2⟩ 3 = .ok ⟨1, 1, 1, 2⟩ := by decide +kernel

/-! ### the complete quotients of a square root -/

private theorem quotients {N : ℤ} (hN : 0 < N) (hn : ¬ IsSquare N) (n : ℕ) :
    ∃ P Q : ℤ, 0 < Q ∧ 0 ≤ P ∧ (P : ℝ) < √N ∧ (Q : ℝ) < 2 * √N ∧ Q ∣ N - P * P ∧ tails (√N) n = (P + √N) / Q := by
  have irr : Irrational (√(N : ℝ)) := by
    rw [irrational_sqrt_intCast_iff]; exact ⟨hn, hN.le⟩
  have h1 : (1 : ℝ) < √N := by
    rw [Real.lt_sqrt (by norm_num)]
    have : N ≠ 1 := fun h => hn ⟨1, by rw [h]; rfl⟩
    have : 1 < N := by omega
    have : (1 : ℝ) < N := by exact_mod_cast this
    linarith
  have hs : √(N : ℝ) * √N = N := Real.mul_self_sqrt (by exact_mod_cast hN.le)
  induction n with
  | zero => exact ⟨0, 1, one_pos, le_rfl, by push_cast; linarith, by push_cast; linarith, one_dvd _, by simp [tails]⟩
  | succ n ih =>
    obtain ⟨P, Q, hQ, hP, hPs, -, ⟨q, hd⟩, e⟩ := ih
    have hQR : (0 : ℝ) < Q := by exact_mod_cast hQ
    set a := ⌊tails (√N) n⌋ with ha
    have gt : 1 < tails (√N) n := by
      cases n with
      | zero => exact h1
      | succ n => exact tails_gt_one irr n
    have ha1 : (1 : ℝ) ≤ a := by
      have : (1 : ℤ) ≤ a := Int.le_floor.2 (by exact_mod_cast gt.le)
      exact_mod_cast this
    have f1 : (a : ℝ) < tails (√N) n :=
      lt_of_le_of_ne (Int.floor_le _) (fun h => (tails_irrational irr n) ⟨a, by rw [← h]; simp⟩)
    have f2 := Int.lt_floor_add_one (tails (√N) n)
    rw [← ha] at f2
    have eq : tails (√N) n * Q = P + √N := by rw [e]; field_simp
    have u1 : (a : ℝ) * Q < P + √N := by rw [← eq]; exact mul_lt_mul_of_pos_right f1 hQR
    have u2 : (P : ℝ) + √N < a * Q + Q := by rw [← eq]; nlinarith
    have u3 : (Q : ℝ) ≤ a * Q := by nlinarith
    have hdR : (N : ℝ) - P * P = Q * q := by exact_mod_cast hd
    -- the next numbers
    have eQ : (N : ℝ) - (a * Q - P) * (a * Q - P) = Q * (q + 2 * a * P - a * a * Q) := by linear_combination hdR
    have prod : (√N - (a * Q - P)) * (√N + (a * Q - P)) = Q * (q + 2 * a * P - a * a * Q : ℝ) := by
      rw [← eQ]; linear_combination hs
    have v1 : 0 < √N - (a * Q - P : ℝ) := by linarith
    have v2 : √N - (a * Q - P : ℝ) < Q := by linarith
    have v3 : (Q : ℝ) < √N + (a * Q - P) := by linarith
    have v4 : (q + 2 * a * P - a * a * Q : ℝ) < √N + (a * Q - P) := by nlinarith
    have v5 : √N - (a * Q - P) < (q + 2 * a * P - a * a * Q : ℝ) := by nlinarith
    have v6 : (0 : ℝ) < (q + 2 * a * P - a * a * Q : ℝ) := by linarith
    refine ⟨a * Q - P, q + 2 * a * P - a * a * Q, by exact_mod_cast v6, ?_, by push_cast; linarith,
      by push_cast; linarith, ⟨Q, ?_⟩, ?_⟩
    · have : (0 : ℝ) < ((a * Q - P : ℤ) : ℝ) := by push_cast; linarith
      exact_mod_cast this.le
    · linear_combination hd
    · rw [tails_succ, ← ha]
      push_cast
      have h0 : tails (√N) n - a ≠ 0 := by linarith
      rw [div_eq_div_iff h0 v6.ne']
      have : (tails (√N) n - a) * Q = √N - (a * Q - P) := by rw [sub_mul, eq]; ring
      have h2 : Q * ((a * Q - P + √N) * (tails (√N) n - a)) = Q * (q + 2 * a * P - a * a * Q : ℝ) := by
        rw [← prod]; linear_combination (a * Q - P + √N) * this
      have := mul_left_cancel₀ hQR.ne' h2
      rw [this]; ring

/-- a surd in normal form has the smallest fields -/
private theorem fields {z : Surd} (h : z.RealOk) (hr : z.r ≠ 0) {N k P Q : ℤ} (hk : 0 < k) (hN : N = k * k * z.r)
    (hQ : 0 < Q) (e : z.val = (P + √N) / Q) : ∃ m : ℤ, 1 ≤ m ∧ P = m * z.a ∧ k = m * z.b ∧ Q = m * z.c := by
  have hs : √(N : ℝ) = k * √(z.r : ℝ) := by
    have hk' : (0 : ℝ) ≤ k := by exact_mod_cast hk.le
    rw [hN]; push_cast
    rw [Real.sqrt_mul (mul_self_nonneg _), Real.sqrt_mul_self hk']
  have hQR : (Q : ℝ) ≠ 0 := by exact_mod_cast hQ.ne'
  have hcR : (z.c : ℝ) ≠ 0 := by exact_mod_cast h.c_pos.ne'
  have irr : Irrational (√(z.r : ℝ)) := by
    rw [irrational_sqrt_intCast_iff]; exact ⟨h.irrational hr, h.real⟩
  rw [hs] at e
  unfold Surd.val quadR at e
  rw [div_eq_div_iff hcR hQR] at e
  have key : ((z.b * Q - k * z.c : ℤ) : ℝ) * √(z.r : ℝ) + ((z.a * Q - P * z.c : ℤ) : ℝ) = 0 := by
    push_cast; linear_combination e
  have b0 : z.b * Q - k * z.c = 0 := by
    by_contra hne
    exact den_ne irr (c := z.b * Q - k * z.c) (d := z.a * Q - P * z.c) (by tauto) key
  have a0 : z.a * Q - P * z.c = 0 := by
    rw [b0] at key; simp at key; exact_mod_cast key
  have hd : z.c ∣ Q := by
    have g : Int.gcd (Int.gcd z.a z.b) z.c = 1 := by
      have := h.coprime (Int.gcd (Int.gcd z.a z.b) z.c)
        ((Int.gcd_dvd_left ..).trans (Int.gcd_dvd_left ..)) ((Int.gcd_dvd_left ..).trans (Int.gcd_dvd_right ..))
        (Int.gcd_dvd_right ..)
      rw [Int.isUnit_iff] at this
      omega
    have d1 : z.c ∣ Int.gcd z.a z.b * Q := by
      have := Int.gcd_eq_gcd_ab z.a z.b
      rw [this]
      exact ⟨P * Int.gcdA z.a z.b + k * Int.gcdB z.a z.b, by
        linear_combination Int.gcdA z.a z.b * a0 + Int.gcdB z.a z.b * b0⟩
    exact (Int.isCoprime_iff_gcd_eq_one.2 (by rw [Int.gcd_comm]; exact_mod_cast g)).dvd_of_dvd_mul_left d1
  obtain ⟨m, rfl⟩ := hd
  have hc := h.c_pos
  refine ⟨m, by nlinarith, ?_, ?_, by ring⟩
  · have : z.c * (z.a * m - P) = 0 := by linear_combination a0
    rcases mul_eq_zero.1 this with h | h
    · omega
    · linarith
  · have : z.c * (z.b * m - k) = 0 := by linear_combination b0
    rcases mul_eq_zero.1 this with h | h
    · omega
    · linarith

/-- the bounds kept by the expansion of `√N` -/
private structure Kept (N : ℤ) (z : Surd) : Prop where
  ok : z.RealOk
  irr : z.r ≠ 0
  a : z.a * z.a < N
  b : z.b * z.b * z.r ≤ N
  c : z.c * z.c ≤ 4 * N

private theorem kept {z : Surd} (h : z.RealOk) (hr : z.r ≠ 0) {N k P Q : ℤ} (hN : 0 < N) (hk : 0 < k)
    (hNk : N = k * k * z.r) (hQ : 0 < Q) (hP : |(P : ℝ)| < √N) (hQs : (Q : ℝ) < 2 * √N) (e : z.val = (P + √N) / Q) :
    Kept N z := by
  obtain ⟨m, hm, e1, e2, e3⟩ := fields h hr hk hNk hQ e
  have hs : √(N : ℝ) * √N = N := Real.mul_self_sqrt (by exact_mod_cast hN.le)
  have s0 := Real.sqrt_nonneg (N : ℝ)
  have p1 : P * P < N := by
    have : (P : ℝ) * P < N := by rw [← hs, ← abs_mul_abs_self (P : ℝ)]; nlinarith [abs_nonneg (P : ℝ)]
    exact_mod_cast this
  have q1 : Q * Q ≤ 4 * N := by
    have h0 : (0 : ℝ) < Q := by exact_mod_cast hQ
    have : (Q : ℝ) * Q ≤ 4 * N := by nlinarith
    exact_mod_cast this
  have hmm : 1 ≤ m * m := by nlinarith
  refine ⟨h, hr, ?_, ?_, ?_⟩
  · rw [e1] at p1; nlinarith [mul_self_nonneg z.a]
  · have := h.real
    rw [hNk, e2]; nlinarith [mul_nonneg (mul_self_nonneg z.b) this]
  · rw [e3] at q1; nlinarith [mul_self_nonneg z.c]

private theorem square_part {z : Surd} (h : z.RealOk) (hr : z.r ≠ 0) {N P Q : ℤ} (hN : 0 < N) (hd : z.r ∣ N) (hQ : 0 < Q)
    (e : z.val = (P + √N) / Q) : ∃ k : ℤ, 0 < k ∧ N = k * k * z.r := by
  have hb : z.b ≠ 0 := fun h0 => hr (h.rational.1 h0)
  have hQR : (Q : ℝ) ≠ 0 := by exact_mod_cast hQ.ne'
  have hcR : (z.c : ℝ) ≠ 0 := by exact_mod_cast h.c_pos.ne'
  have irr : Irrational (√(z.r : ℝ)) := by
    rw [irrational_sqrt_intCast_iff]; exact ⟨h.irrational hr, h.real⟩
  have hs : √(N : ℝ) * √N = N := Real.mul_self_sqrt (by exact_mod_cast hN.le)
  have ht : √(z.r : ℝ) * √z.r = z.r := Real.mul_self_sqrt (by exact_mod_cast h.real)
  unfold Surd.val quadR at e
  rw [div_eq_div_iff hcR hQR] at e
  have e' : √(N : ℝ) * z.c = (z.a * Q - P * z.c) + Q * z.b * √(z.r : ℝ) := by linear_combination -e
  have sq : (N : ℝ) * (z.c * z.c) = (z.a * Q - P * z.c) * (z.a * Q - P * z.c) + Q * z.b * (Q * z.b) * z.r +
      2 * (z.a * Q - P * z.c) * (Q * z.b) * √(z.r : ℝ) := by
    linear_combination (√(N : ℝ) * z.c + (z.a * Q - P * z.c) + Q * z.b * √(z.r : ℝ)) * e' - z.c * z.c * hs +
      Q * z.b * (Q * z.b) * ht
  have key : ((2 * (z.a * Q - P * z.c) * (Q * z.b) : ℤ) : ℝ) * √(z.r : ℝ) +
      (((z.a * Q - P * z.c) * (z.a * Q - P * z.c) + Q * z.b * (Q * z.b) * z.r - N * (z.c * z.c) : ℤ) : ℝ) = 0 := by
    push_cast; linear_combination -sq
  have u0 : 2 * (z.a * Q - P * z.c) * (Q * z.b) = 0 := by
    by_contra hne
    exact den_ne irr (c := 2 * (z.a * Q - P * z.c) * (Q * z.b))
      (d := (z.a * Q - P * z.c) * (z.a * Q - P * z.c) + Q * z.b * (Q * z.b) * z.r - N * (z.c * z.c)) (by tauto) key
  have u1 : z.a * Q - P * z.c = 0 := by
    rcases mul_eq_zero.1 u0 with h | h
    · omega
    · rcases mul_eq_zero.1 h with h | h
      · omega
      · exact absurd h hb
  rw [u0, u1] at key
  have u2 : Q * z.b * (Q * z.b) * z.r = N * (z.c * z.c) := by
    have : ((Q * z.b * (Q * z.b) * z.r - N * (z.c * z.c) : ℤ) : ℝ) = 0 := by
      push_cast at key ⊢; linear_combination key
    have := (Int.cast_eq_zero (α := ℝ)).1 this
    linarith
  obtain ⟨t, rfl⟩ := hd
  have u3 : Q * z.b * (Q * z.b) = t * (z.c * z.c) := by
    have : z.r * (Q * z.b * (Q * z.b) - t * (z.c * z.c)) = 0 := by linear_combination u2
    rcases mul_eq_zero.1 this with h | h
    · exact absurd h hr
    · linarith
  obtain ⟨k, hk⟩ : z.c ∣ Q * z.b := by
    have : z.c * z.c ∣ Q * z.b * (Q * z.b) := ⟨t, by rw [u3]; ring⟩
    exact (Int.pow_dvd_pow_iff two_ne_zero).1 (by simpa [pow_two] using this)
  rw [hk] at u3
  have u4 : k * k = t := by
    have : z.c * z.c * (k * k - t) = 0 := by linear_combination u3
    rcases mul_eq_zero.1 this with h' | h'
    · have := h.c_pos; nlinarith
    · linarith
  refine ⟨|k|, abs_pos.2 ?_, by rw [abs_mul_abs_self, u4]; ring⟩
  rintro rfl
  simp at u4
  subst u4
  simp at hN

private theorem new_dvd {cfg : Cfg} {a b c r : ℤ} {z : Surd} (h : Surd.new cfg a b c r = .ok z) (hz : z.r ≠ 0) : z.r ∣ r := by
  obtain ⟨h1, h2⟩ := Surd.new_inv h
  obtain ⟨t, e, -, -, -, h3⟩ := Surd.new_spec (cfg := cfg) (a := a) (b := b) h1 h2
  rw [h] at e; cases e
  rcases h3 with h3 | ⟨-, -, k, -, h5⟩
  · exact absurd h3.1 hz
  · exact ⟨k * k, by rw [h5]; ring⟩

/-- one round: the difference, and the surds of the round keep to the bounds -/
private theorem round_kept (cfg : Cfg) {N : ℤ} (hN : 0 < N) (hn : ¬ IsSquare N) (n : ℕ) {z : Surd} (h : z.RealOk)
    (hr : z.r ≠ 0) (hd : z.r ∣ N) (hv : z.val = tails (√N) n) :
    Kept N z ∧ ∃ d, Surd.sub cfg z (Surd.ofInt ⌊z.val⌋) = .ok d ∧ Kept N d := by
  obtain ⟨P, Q, hQ, hP, hPs, hQs, hdvd, e⟩ := quotients hN hn n
  obtain ⟨k, hk, hNk⟩ := square_part h hr hN hd hQ (hv.trans e)
  refine ⟨kept h hr hN hk hNk hQ (by rw [abs_of_nonneg (by exact_mod_cast hP)]; exact hPs) hQs (hv.trans e), ?_⟩
  have irr := (Surd.irrational_iff h).2 hr
  have hf : (Surd.ofInt ⌊z.val⌋).RealOk ∧ (Surd.ofInt ⌊z.val⌋).val = ⌊z.val⌋ :=
    Surd.real_transfer (surd_ofInt_normal cfg _).toNormal (by rw [surd_ofInt_value]; push_cast; rfl)
  obtain ⟨d, hd', -⟩ := (Surd.sub_spec (h.toOk cfg) (hf.1.toOk cfg)).1 (.inr (.inl rfl))
  obtain ⟨k1, k2⟩ := surd_sub_value_real cfg _ _ d h hf.1 hd'
  rw [hf.2] at k2
  have dirr : Irrational d.val := by rw [k2]; exact irr.sub_intCast _
  have dr := (Surd.irrational_iff k1).1 dirr
  have drd : d.r ∣ z.r := by
    have hd2 := hd'
    unfold Surd.sub at hd2
    rw [if_pos (by simp [Surd.isRational, Surd.ofInt])] at hd2
    cases hq : ratioNew (Surd.ofInt ⌊z.val⌋).a (Surd.ofInt ⌊z.val⌋).c with
    | error e => rw [hq] at hd2; cases hd2
    | ok q => rw [hq] at hd2; exact new_dvd hd2 dr
  refine ⟨d, hd', ?_⟩
  have hQR : (0 : ℝ) < Q := by exact_mod_cast hQ
  have hPR : (0 : ℝ) ≤ P := by exact_mod_cast hP
  have s0 := Real.sqrt_nonneg (N : ℝ)
  have e0 := hv.trans e
  have zpos : 0 ≤ z.val := by rw [e0]; positivity
  have f0 : (0 : ℝ) ≤ ⌊z.val⌋ := by exact_mod_cast Int.floor_nonneg.2 zpos
  have ed : d.val = ((P - ⌊z.val⌋ * Q : ℤ) + √N) / Q := by
    rw [k2]; push_cast
    rw [eq_div_iff hQR.ne', sub_mul]
    have : z.val * Q = P + √N := by rw [e0]; field_simp
    rw [this]; ring
  obtain ⟨k', hk', hNk'⟩ := square_part k1 dr hN (drd.trans hd) hQ ed
  have dpos : 0 < d.val := by
    rw [k2]
    have := Int.floor_le z.val
    have h1 : (⌊z.val⌋ : ℝ) ≠ z.val := fun h => irr ⟨⌊z.val⌋, by rw [← h]; simp⟩
    have := lt_of_le_of_ne this h1
    linarith
  have ep : d.val * Q = (P - ⌊z.val⌋ * Q : ℤ) + √N := by rw [ed]; field_simp
  have : 0 < d.val * Q := mul_pos dpos hQR
  refine kept k1 dr hN hk' hNk' hQ (abs_lt.2 ⟨by linarith, ?_⟩) hQs ed
  push_cast
  nlinarith [mul_nonneg f0 hQR.le]

/-! ### no overflow within these bounds -/

private theorem ratio_one {x : Fx} {L f : ℤ} (hL : L < 2 ^ (x.w - 1)) (hf : |f| ≤ L) (h1 : 1 ≤ L) :
    x.ratio f 1 = .ok ⟨f, 1⟩ := by
  have fit : ∀ v : ℤ, |v| ≤ L → x.fits v = true := fun v hv => by
    have := abs_le.1 hv
    simp only [fits, IntTy.signed, Bool.and_eq_true, decide_eq_true_eq]
    constructor <;> omega
  unfold ratio
  rw [if_neg one_ne_zero]
  split
  · simp_all
  · split
    · simp_all
    · have g : x.gcd f 1 = .ok 1 := by
        unfold gcd ret
        simp [igcd, fit 1 (by simpa using h1)]
      have d : ∀ v : ℤ, |v| ≤ L → x.div v 1 = .ok v := fun v hv => by
        unfold div
        simp [fit v hv]
      rw [g]
      simp only [Surd.ok_bind]
      rw [d f hf, d 1 (by simpa using h1)]
      simp only [Surd.ok_bind]
      rfl

private theorem le_of_sq {a B : ℤ} (h : a * a ≤ B * B) (hB : 0 ≤ B) : |a| ≤ B := abs_le_of_sq_le_sq (by nlinarith) hB

private theorem exists_root {N : ℤ} (hN : 2 ≤ N) : ∃ S : ℤ, 1 ≤ S ∧ N ≤ S * S ∧ S * S ≤ 4 * N ∧ S ≤ N := by
  lift N to ℕ using by omega
  have h1 := Nat.sqrt_le N
  have h2 := Nat.sqrt_lt_self (n := N) (by omega)
  have h3 := Nat.lt_succ_sqrt N
  have h4 : 1 ≤ Nat.sqrt N := Nat.sqrt_pos.2 (by omega)
  refine ⟨(Nat.sqrt N + 1 : ℕ), by omega, ?_, ?_, by omega⟩
  · exact_mod_cast h3.le
  · have : (Nat.sqrt N + 1) * (Nat.sqrt N + 1) ≤ 4 * N := by nlinarith
    exact_mod_cast this

private theorem Kept.nonsq {N : ℤ} {z : Surd} (h : Kept N z) : ¬ IsSquare z.r := h.ok.irrational h.irr

private theorem Kept.two {N : ℤ} {z : Surd} (h : Kept N z) : 2 ≤ N ∧ 2 ≤ z.r ∧ 1 ≤ z.b * z.b ∧ z.r ≤ N ∧ z.b * z.b ≤ N := by
  have h1 : 2 ≤ z.r := by
    have := h.ok.real
    have h0 := h.irr
    have h1 : z.r ≠ 1 := fun e => h.nonsq ⟨1, by rw [e]; rfl⟩
    omega
  have h2 : 1 ≤ z.b * z.b := by
    have : z.b ≠ 0 := fun e => h.irr (h.ok.rational.1 e)
    have := mul_self_pos.2 this
    omega
  have := h.b
  exact ⟨by nlinarith, h1, h2, by nlinarith, by nlinarith⟩

private theorem floor_kept {x : Fx} {N : ℤ} (hx : 4 * N ^ 2 < 2 ^ (x.w - 1)) (cfg : Cfg) {z : Surd} (h : Kept N z) :
    Safe (x.floor cfg z) (fun _ => True) := by
  obtain ⟨hN, hr, hb1, hrN, hbN⟩ := h.two
  obtain ⟨S, hS, S1, S2, S3⟩ := exists_root hN
  have ha : |z.a| ≤ S := le_of_sq (by have := h.a; linarith) (by omega)
  have hc : |z.c| ≤ 2 * S := le_of_sq (by have := h.c; nlinarith) (by omega)
  have h1 : |(1 : ℤ)| ≤ 1 := by simp
  have hL : 4 * S + 2 ≤ 4 * N ^ 2 := by nlinarith
  have hNL : N ≤ 4 * N ^ 2 := by nlinarith
  unfold floor
  refine (panicIfComplex_safe cfg z).bind fun _ _ => ?_
  refine (mul_safe_eq hx (K := N) (by rw [abs_of_nonneg (mul_self_nonneg _)]; exact hbN) hNL).bind fun t1 e1 => ?_
  subst e1
  have hbr : |z.b * z.b * z.r| ≤ N := by
    rw [abs_of_nonneg (mul_nonneg (mul_self_nonneg _) (by omega))]; exact h.b
  refine (mul_safe_eq hx hbr hNL).bind fun t2 e2 => ?_
  subst e2
  refine (sqrtR_safe (S := S) (by omega) (hbr.trans S1)).bind fun q hq => ?_
  obtain ⟨hq, -⟩ := hq
  refine Safe.bind (P := fun n => |n| ≤ 2 * S + 1) ?_ fun n hn => ?_
  · split
    · exact (add_safe hx ha hq (by linarith)).mono fun _ h => h.trans (by linarith)
    · refine (sub_safe hx ha hq (by linarith)).bind fun t ht => ?_
      exact (sub_safe hx ht h1 (by linarith)).mono fun _ h => h.trans (by linarith)
  refine Safe.bind (P := fun n => |n| ≤ 4 * S + 2) ?_ fun n hn => ?_
  · split
    · exact Safe.pure (hn.trans (by linarith))
    · refine (sub_safe hx hn hc (by linarith)).bind fun t ht => ?_
      exact (add_safe hx ht h1 (by linarith)).mono fun _ h => h.trans (by linarith)
  exact (div_safe hx hn hL).bind fun _ _ => Safe.pure trivial

private theorem sub_kept {x : Fx} {N : ℤ} (hx : 4 * N ^ 2 < 2 ^ (x.w - 1)) (cfg : Cfg) {z : Surd} (h : Kept N z) {f : ℤ}
    (hf : |f * z.c| ≤ 2 * N) : Safe (x.surdSub cfg z (Surd.ofInt f)) (fun _ => True) := by
  obtain ⟨hN, hr, hb1, hrN, hbN⟩ := h.two
  obtain ⟨S, hS, S1, S2, S3⟩ := exists_root hN
  have ha : |z.a| ≤ S := le_of_sq (by have := h.a; linarith) (by omega)
  have hb : |z.b| ≤ S := le_of_sq (by linarith) (by omega)
  have hc : |z.c| ≤ 2 * S := le_of_sq (by have := h.c; nlinarith) (by omega)
  have h1 : |(1 : ℤ)| ≤ 1 := by simp
  have hc1 : 1 ≤ |z.c| := Int.one_le_abs h.ok.c_pos.ne'
  have hf' : |f| ≤ 2 * N := by rw [abs_mul] at hf; nlinarith [abs_nonneg f]
  have hL : S + 2 * N ≤ 4 * N ^ 2 := by nlinarith
  have hSL : S * 1 ≤ 4 * N ^ 2 := by nlinarith
  have hSL2 : 2 * S * 1 ≤ 4 * N ^ 2 := by nlinarith
  unfold surdSub
  rw [if_pos (by simp [Surd.isRational, Surd.ofInt])]
  have e : x.ratio (Surd.ofInt f).a (Surd.ofInt f).c = .ok ⟨f, 1⟩ :=
    ratio_one hx (hf'.trans (by linarith)) (by nlinarith)
  rw [e]
  simp only [Surd.ok_bind]
  have hop : Safe (x.coeffsSubRat z.coeffs ⟨f, 1⟩) (fun t => CBnd t (S + 2 * N) S (2 * S)) := by
    unfold coeffsSubRat
    split
    · exact (sub_safe hx ha hf' hL).bind fun a h => Safe.pure ⟨h, hb, hc⟩
    · refine (mul_safe hx ha h1 hSL).bind fun t1 k1 => ?_
      refine (mul_safe_eq hx hf (by linarith)).bind fun t2 e2 => ?_
      subst e2
      refine (sub_safe hx k1 hf (by linarith)).bind fun a k3 => ?_
      refine (mul_safe hx hb h1 hSL).bind fun b k4 => ?_
      refine (mul_safe hx hc h1 hSL2).bind fun c k5 => ?_
      exact Safe.pure ⟨k3.trans (by linarith), k4.trans (by linarith), k5.trans (by linarith)⟩
  refine (hop.bind fun t ht => ?_ : Safe (x.forward cfg z (x.coeffsSubRat z.coeffs ⟨f, 1⟩)) _)
  exact (fromCoeffs_safe_irr hx cfg ht (R := N) (S := S) (by rw [abs_of_nonneg (by omega)]; exact hrN) h.nonsq hS S1
    (by nlinarith) hL (by nlinarith) (by nlinarith)).mono fun _ _ => trivial

private theorem recip_kept {x : Fx} {N : ℤ} (hx : 4 * N ^ 2 < 2 ^ (x.w - 1)) (cfg : Cfg) {z : Surd} (h : Kept N z) :
    Safe (x.recip cfg z) (fun _ => True) := by
  obtain ⟨hN, hr, hb1, hrN, hbN⟩ := h.two
  obtain ⟨S, hS, S1, S2, S3⟩ := exists_root hN
  have ha0 := h.a
  have hc0 := h.c
  have aa := mul_self_nonneg z.a
  have bb := mul_self_nonneg z.b
  have hNL : N ≤ 4 * N ^ 2 := by nlinarith
  have h2N : 2 * N ≤ 4 * N ^ 2 := by nlinarith
  have hca : |z.c * z.a| ≤ 2 * N := le_of_sq (by
    calc z.c * z.a * (z.c * z.a) = z.c * z.c * (z.a * z.a) := by ring
      _ ≤ 4 * N * N := mul_le_mul hc0 ha0.le aa (by omega)
      _ = 2 * N * (2 * N) := by ring) (by omega)
  have hcb : |z.c * z.b| ≤ 2 * N := le_of_sq (by
    calc z.c * z.b * (z.c * z.b) = z.c * z.c * (z.b * z.b) := by ring
      _ ≤ 4 * N * N := mul_le_mul hc0 hbN bb (by omega)
      _ = 2 * N * (2 * N) := by ring) (by omega)
  have hbr0 : 0 ≤ z.b * z.b * z.r := mul_nonneg bb (by omega)
  unfold recip
  refine (mul_safe_eq hx (K := N) (by rw [abs_of_nonneg aa]; exact ha0.le) hNL).bind fun t e => ?_
  subst e
  refine (mul_safe_eq hx (K := N) (by rw [abs_of_nonneg bb]; exact hbN) hNL).bind fun t e => ?_
  subst e
  refine (mul_safe hx le_rfl le_rfl (by rw [← abs_mul]; exact hca.trans h2N)).bind fun t1 k1 => ?_
  rw [← abs_mul] at k1
  refine (neg_safe hx k1 (hca.trans h2N)).bind fun a k2 => ?_
  refine (mul_safe hx le_rfl le_rfl (by rw [← abs_mul]; exact hcb.trans h2N)).bind fun b k3 => ?_
  rw [← abs_mul] at k3
  refine (mul_safe_eq hx (K := N) (by rw [abs_of_nonneg hbr0]; exact h.b) hNL).bind fun t e => ?_
  subst e
  have hd : |z.b * z.b * z.r - z.a * z.a| ≤ N := abs_le.2 ⟨by linarith, by linarith [h.b]⟩
  have hs : Safe (x.sub (z.b * z.b * z.r) (z.a * z.a)) (fun u => |u| ≤ N) := ret_safe hx hd hNL
  refine hs.bind fun c k4 => ?_
  exact (fromCoeffs_safe_irr hx cfg (t := ⟨a, b, c⟩) ⟨k2.trans hca, k3.trans hcb, k4⟩ (R := N) (S := S)
    (by rw [abs_of_nonneg (by omega)]; exact hrN) h.nonsq hS S1 (by nlinarith) h2N (by nlinarith) (by nlinarith)).mono
    fun _ _ => trivial

private theorem floor_bound {N : ℤ} {z : Surd} (h : Kept N z) (h0 : 0 ≤ z.val) : |⌊z.val⌋ * z.c| ≤ 2 * N := by
  obtain ⟨hN, hr, -⟩ := h.two
  have hc : (0 : ℝ) < z.c := by exact_mod_cast h.ok.c_pos
  have hN1 : (1 : ℝ) ≤ N := by exact_mod_cast (by omega : 1 ≤ N)
  have hs : √(N : ℝ) * √N = N := Real.mul_self_sqrt (by linarith)
  have ht : √(z.r : ℝ) * √z.r = z.r := Real.mul_self_sqrt (by exact_mod_cast h.ok.real)
  have s1 : 1 ≤ √(N : ℝ) := Real.one_le_sqrt.2 hN1
  have a1 : (z.a : ℝ) ≤ √N := by
    have : (z.a : ℝ) * z.a ≤ N := by exact_mod_cast h.a.le
    exact (abs_le_of_sq_le_sq' (by nlinarith) (by linarith)).2
  have b1 : (z.b : ℝ) * √z.r ≤ √N := by
    have : (z.b : ℝ) * z.b * z.r ≤ N := by exact_mod_cast h.b
    refine (abs_le_of_sq_le_sq' ?_ (by linarith)).2
    calc ((z.b : ℝ) * √z.r) ^ 2 = z.b * z.b * (√z.r * √z.r) := by ring
      _ ≤ √N ^ 2 := by rw [ht, pow_two, hs]; exact this
  have f0 : 0 ≤ ⌊z.val⌋ := Int.floor_nonneg.2 h0
  have hv : z.val * z.c = z.a + z.b * √z.r := by unfold Surd.val quadR; field_simp
  have : (⌊z.val⌋ : ℝ) * z.c ≤ 2 * N := by
    have := mul_le_mul_of_nonneg_right (Int.floor_le z.val) hc.le
    nlinarith
  rw [abs_of_nonneg (mul_nonneg f0 h.ok.c_pos.le)]
  exact_mod_cast this

/-- **C136** If `4N²` is representable, then `√N` can be expanded by hand for ever, with or without overflow checks: every
surd of the expansion is the same as over `BigInt`, and its floor is the coefficient of the continued fraction of `√N`. -/
theorem fixed_hand_sqrt (x : Fx) (cfg : Cfg) (N : ℤ) (hN : 0 < N) (hn : ¬ IsSquare N) (hx : 4 * N ^ 2 < 2 ^ (x.w - 1))
    (n : ℕ) : ∃ z, x.hand cfg ⟨0, 1, 1, N⟩ n = .ok z ∧ Surd.hand cfg ⟨0, 1, 1, N⟩ n = .ok z ∧
      x.floor cfg z = .ok (Surd.ofInt ⌊tails (√N) n⌋) := by
  have h0 : (Surd.mk 0 1 1 N).RealOk :=
    ⟨⟨one_pos, fun d _ _ h => isUnit_of_dvd_one h, by simp; omega, fun _ => hn⟩, hN.le⟩
  have hv : (Surd.mk 0 1 1 N).val = √N := by simp [Surd.val, quadR]
  have base : ∀ n z, Surd.hand cfg ⟨0, 1, 1, N⟩ n = .ok z → z.RealOk ∧ z.r ≠ 0 ∧ z.r ∣ N ∧ z.val = tails (√N) n ∧
      z.floor cfg = .ok (Surd.ofInt ⌊tails (√N) n⌋) := fun n z hz => by
    obtain ⟨z', h1, h2, h3, h4, h5, h6⟩ := Surd.hand_value cfg _ h0 hN.ne' n
    rw [hz] at h1; cases h1
    rw [hv] at h5 h6
    exact ⟨h2, h3, h4, h5, h6⟩
  have fl : ∀ n z, Surd.hand cfg ⟨0, 1, 1, N⟩ n = .ok z → x.floor cfg z = z.floor cfg := fun n z hz => by
    obtain ⟨b1, b2, b3, b4, b5⟩ := base n z hz
    obtain ⟨k1, -⟩ := round_kept cfg hN hn n b1 b2 b3 b4
    exact Fx.run_eq (f := fun y => y.floor cfg z) (fun _ hy => floor_ref hy cfg z) (fun _ hy => floor_rel hy cfg z)
      (floor_kept (x := ⟨x.w, true⟩) hx cfg k1)
  suffices ∃ z, x.hand cfg ⟨0, 1, 1, N⟩ n = .ok z ∧ Surd.hand cfg ⟨0, 1, 1, N⟩ n = .ok z by
    obtain ⟨z, h1, h2⟩ := this
    exact ⟨z, h1, h2, by rw [fl n z h2, (base n z h2).2.2.2.2]⟩
  induction n with
  | zero => exact ⟨_, rfl, rfl⟩
  | succ n ih =>
    obtain ⟨z, h1, h2⟩ := ih
    obtain ⟨b1, b2, b3, b4, b5⟩ := base n z h2
    obtain ⟨k1, d, k2, k3⟩ := round_kept cfg hN hn n b1 b2 b3 b4
    obtain ⟨w, hw, -⟩ := Surd.hand_value cfg _ h0 hN.ne' (n + 1)
    refine ⟨w, ?_, hw⟩
    rw [← hw]
    unfold hand Surd.hand
    rw [h1, h2]
    simp only [Surd.ok_bind]
    unfold handStep Surd.handStep
    rw [fl n z h2, b5]
    simp only [Surd.ok_bind]
    rw [← b4]
    have zpos : 0 ≤ z.val := by
      rw [b4]
      cases n with
      | zero => exact Real.sqrt_nonneg _
      | succ n => exact (zero_lt_one.trans (tails_gt_one (by
          rw [irrational_sqrt_intCast_iff]; exact ⟨hn, hN.le⟩) n)).le
    have hs : x.surdSub cfg z (Surd.ofInt ⌊z.val⌋) = Surd.sub cfg z (Surd.ofInt ⌊z.val⌋) :=
      Fx.run_eq (f := fun y => y.surdSub cfg z (Surd.ofInt ⌊z.val⌋)) (fun _ hy => surdSub_ref hy cfg z _)
        (fun _ hy => surdSub_rel hy cfg z _) (sub_kept (x := ⟨x.w, true⟩) hx cfg k1 (floor_bound k1 zpos))
    rw [hs, k2]
    simp only [Surd.ok_bind]
    exact Fx.run_eq (f := fun y => y.recip cfg d) (fun _ hy => recip_ref hy cfg d) (fun _ hy => recip_rel hy cfg d)
      (recip_kept (x := ⟨x.w, true⟩) hx cfg k3)
/-- `i16` and `i64` -/
example : 4 * (90 : ℤ) ^ 2 < 2 ^ (16 - 1) ∧ ¬ IsSquare (90 : ℤ) ∧ 4 * (1500000000 : ℤ) ^ 2 < 2 ^ (64 - 1) ∧
    (⟨16, false⟩ : Fx).hand ⟨false, true⟩ ⟨0, 1, 1, 61⟩ 11 = .ok ⟨7, 1, 1, 61⟩ := by
  decide +kernel

/-- **C136** The bound cannot be dropped: over `i8` the expansion of `√118` overflows with the checks, and without them gives
a wrong surd with a wrong floor, 1 for 6. -/
theorem fixed_hand_refuted :
    (⟨8, true⟩ : Fx).hand ⟨false, true⟩ ⟨0, 1, 1, 118⟩ 2 = .error .overflow ∧
    (⟨8, false⟩ : Fx).hand ⟨false, true⟩ ⟨0, 1, 1, 118⟩ 2 = .ok ⟨-56, 9, 27, 118⟩ ∧
    Surd.hand ⟨false, true⟩ ⟨0, 1, 1, 118⟩ 2 = .ok ⟨8, 1, 3, 118⟩ ∧
    Surd.floor ⟨false, true⟩ ⟨-56, 9, 27, 118⟩ = .ok (Surd.ofInt 1) ∧
    Surd.floor ⟨false, true⟩ ⟨8, 1, 3, 118⟩ = .ok (Surd.ofInt 6) := by
  decide +kernel

end Fx
end NumIrr
