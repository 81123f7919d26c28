/-
C111: every small value of `p² - N q²` is taken at a convergent of `√N`.
-/
import Verif.Props.Pell

namespace NumIrr
open Lagrange Start

namespace CF

/-- the fraction of the reciprocal: its convergents after the first are the reciprocals -/
private theorem conv_recip {c : CF} (hng : c.neg = false) (n : Nat) {q : ℚ} (hq : q ≠ 0)
    (h : CF.conv ⟨0 :: c.a, c.p, false⟩ (n + 1) = some q) : c.conv n = some (1 / q) := by
  unfold CF.conv at *
  simp only [toInts, List.map_cons, Nat.cast_zero, truncTo_cons, cfVal] at h
  rw [hng]
  cases e : cfVal (truncTo (List.map (fun n : Nat => (n : Int)) c.a) (List.map (fun n : Nat => (n : Int)) c.p) (n + 1)) with
  | none => rw [e] at h; simp [signed] at h; exact absurd h.symm hq
  | some y =>
    rw [e] at h
    by_cases hy : y = 0
    · simp [hy] at h
    · simp [hy, signed] at h
      simp only [toInts, e, signed, Option.map_some, ← h]
      simp

/-- **C111** (Lagrange) if `|p² - N q²| < √N` with positive `p`, `q`, then `p/q` is one of the convergents of `√N`. -/
theorem cf_small_norm (c : CF) (h : c.Wf) (hp : c.p ≠ []) (N : ℕ) (hv : c.HasVal (√(N : ℝ)))
    (p q : ℤ) (hp1 : 1 ≤ p) (hq1 : 1 ≤ q) (hs : (p ^ 2 - N * q ^ 2) ^ 2 < N) :
    ∃ n, itemAt (ConvIter.next .big) n c.convergents = .ok (some (p / q : ℚ)) := by
  obtain ⟨h0, hirr, hneg, -, hco⟩ := coeff_of_val h hp hv
  have hsn : 0 ≤ √(N : ℝ) := Real.sqrt_nonneg _
  have hng : c.neg = false := by rw [hneg]; simp
  have hss : √(N : ℝ) * √(N : ℝ) = N := Real.mul_self_sqrt (by positivity)
  have hs0 : 0 < √(N : ℝ) := lt_of_le_of_ne hsn (Ne.symm h0)
  have hqR : (1 : ℝ) ≤ q := by exact_mod_cast hq1
  have hpR : (1 : ℝ) ≤ p := by exact_mod_cast hp1
  have hm : |(p : ℝ) ^ 2 - N * q ^ 2| < √(N : ℝ) := by
    rw [Real.lt_sqrt (abs_nonneg _), sq_abs]
    exact_mod_cast hs
  rcases le_or_gt ((q : ℝ) * √(N : ℝ)) p with hle | hlt
  · -- from above: `p/q` is close to `√N`
    apply cf_good_is_convergent c h _ hv p q hq1
    have e1 : √(N : ℝ) - ((p / q : ℚ) : ℝ) = -(((p : ℝ) ^ 2 - N * q ^ 2) / (q * (p + q * √(N : ℝ)))) := by
      push_cast
      have : (0 : ℝ) < p + q * √(N : ℝ) := by positivity
      field_simp
      linear_combination (q : ℝ) ^ 2 * hss
    rw [e1, abs_neg, abs_div, abs_of_pos (show (0 : ℝ) < q * (p + q * √(N : ℝ)) by positivity),
      div_lt_div_iff₀ (by positivity) (by positivity)]
    have h1 : (q : ℝ) * (2 * (q * √(N : ℝ))) ≤ q * (p + q * √(N : ℝ)) :=
      mul_le_mul_of_nonneg_left (by linarith) (by linarith)
    have h2 : |(p : ℝ) ^ 2 - N * q ^ 2| * (2 * q ^ 2) < √(N : ℝ) * (2 * q ^ 2) :=
      mul_lt_mul_of_pos_right hm (by positivity)
    linarith
  · -- from below: `q/p` is close to `1/√N`
    have hw : CF.Wf ⟨0 :: c.a, c.p, false⟩ := by
      refine ⟨by simp, ?_, h.2.2⟩
      intro v hv'
      simp only [List.tail_cons] at hv'
      obtain ⟨x, l, e⟩ := List.exists_cons_of_ne_nil h.1
      rw [e] at hv'
      rcases List.mem_cons.1 hv' with rfl | hv'
      · have h1 := hco 0
        have h2 : coeffAt c.a c.p 0 = v := by rw [e]; simp [coeffAt]
        have h3 : (1 : ℤ) ≤ ⌊tails |√(N : ℝ)| 0⌋ := by
          rw [show tails |√(N : ℝ)| 0 = √(N : ℝ) by rw [tails, abs_of_nonneg hsn], Int.le_floor]
          have hN : 1 ≤ N := by
            by_contra hh
            apply h0
            rw [show N = 0 by omega]; simp
          rw [Int.cast_one, Real.one_le_sqrt]
          exact_mod_cast hN
        omega
      · exact h.2.1 v (by rw [e]; exact hv')
    have hval : CF.HasVal ⟨0 :: c.a, c.p, false⟩ (1 / √(N : ℝ)) := by
      obtain ⟨y, hy, e⟩ := hv
      rw [hng] at e
      simp only [signed, Bool.false_eq_true, if_false] at e
      subst e
      refine ⟨1 / √(N : ℝ), ?_, by simp [signed]⟩
      have := valOf_cons (by simpa [toInts] using hp) hy h0 0
      simpa [toInts] using this
    obtain ⟨n, hn⟩ := cf_good_is_convergent _ hw _ hval q p hp1 (by
      have e1 : 1 / √(N : ℝ) - ((q / p : ℚ) : ℝ) = ((p : ℝ) ^ 2 - N * q ^ 2) / (√(N : ℝ) * (p * (p + q * √(N : ℝ)))) := by
        push_cast
        have : (0 : ℝ) < p + q * √(N : ℝ) := by positivity
        field_simp
        linear_combination -(q : ℝ) ^ 2 * hss
      rw [e1, abs_div, abs_of_pos (show (0 : ℝ) < √(N : ℝ) * (p * (p + q * √(N : ℝ))) by positivity),
        div_lt_div_iff₀ (by positivity) (by positivity)]
      have h1 : √(N : ℝ) * ((p : ℝ) * (2 * p)) ≤ √(N : ℝ) * (p * (p + q * √(N : ℝ))) :=
        mul_le_mul_of_nonneg_left (mul_le_mul_of_nonneg_left (by linarith) (by linarith)) hsn
      have h2 : |(p : ℝ) ^ 2 - N * q ^ 2| * (2 * p ^ 2) < √(N : ℝ) * (2 * p ^ 2) :=
        mul_lt_mul_of_pos_right hm (by positivity)
      linarith)
    rw [(cf_convergents _ hw n).1, if_pos (.inl hp)] at hn
    have hqp : (q / p : ℚ) ≠ 0 := by
      have h1 : (q : ℚ) ≠ 0 := by exact_mod_cast (by omega : q ≠ 0)
      have h2 : (p : ℚ) ≠ 0 := by exact_mod_cast (by omega : p ≠ 0)
      positivity
    cases n with
    | zero =>
      exfalso
      apply hqp
      have : CF.conv ⟨0 :: c.a, c.p, false⟩ 0 = some 0 := by
        unfold CF.conv
        simp [toInts, cfVal, truncTo, signed, coeffAt]
      rw [this] at hn
      exact (Option.some.inj (Except.ok.inj hn)).symm
    | succ n =>
      refine ⟨n, ?_⟩
      rw [(cf_convergents c h n).1, if_pos (.inl hp), conv_recip hng n hqp (Except.ok.inj hn), one_div_div]

/-- **C111** the values of `p² - N q²` at the convergents: they are not `0`, smaller than `2√N`, and those smaller than
`√N` are exactly the ones which `p² - N q²` takes for coprime integers; each appears within two periods. -/
theorem cf_norms (c : CF) (h : c.Wf) (hp : c.p ≠ []) (h1 : c.ShortestHead) (N : ℕ) (hv : c.HasVal (√(N : ℝ))) :
    (∀ n, ∃ r, itemAt (ConvIter.next .big) n c.convergents = .ok (some r) ∧
      r.num ^ 2 - N * (r.den : ℤ) ^ 2 ≠ 0 ∧ (r.num ^ 2 - N * (r.den : ℤ) ^ 2) ^ 2 < 4 * N) ∧
    (∀ m : ℤ, m ^ 2 < N → ((∃ p q : ℤ, IsCoprime p q ∧ p ^ 2 - N * q ^ 2 = m) ↔
      ∃ n < 2 * c.p.length, ∃ r, itemAt (ConvIter.next .big) n c.convergents = .ok (some r) ∧
        r.num ^ 2 - N * (r.den : ℤ) ^ 2 = m)) := by
  obtain ⟨h0, hirr, hneg, -, -⟩ := coeff_of_val h hp hv
  have hsn : 0 ≤ √(N : ℝ) := Real.sqrt_nonneg _
  have hng : c.neg = false := by rw [hneg]; simp
  rw [abs_of_nonneg hsn] at hirr
  obtain ⟨hs, e⟩ := start_nat rfl hirr
  have ht : ∀ n, tails |√(N : ℝ)| (n + 0) = tails (th (N : ℤ) 0 1) n := fun n => by
    rw [abs_of_nonneg hsn, ← e]; rfl
  obtain ⟨hc0, hcn⟩ := sqrt_coeff h hp hv hs ht
  obtain ⟨-, a0, -, -, -, -, -, -, hper⟩ := sqrt_shape h hp hv hs 0 ht h1
  have hl : 1 ≤ c.p.length := List.length_pos_iff.2 hp
  have hHC : ∀ n, c.HasCoeff n := fun n => .inl hp
  have key : ∀ n, ∃ r, itemAt (ConvIter.next .big) n c.convergents = .ok (some r) ∧ r.num = c.num n ∧ (r.den : ℤ) = c.den n := by
    intro n
    obtain ⟨r, g1, -, g3, g4⟩ := Fx.conv_fields h (hHC n)
    rw [hng] at g1
    exact ⟨r, by rw [(cf_convergents c h n).1, if_pos (hHC n), g1]; rfl, g4, g3⟩
  have hnorm := fun n => num_den_st (c := c) hs hc0 (fun m => by rw [← hcn m]) n
  refine ⟨fun n => ?_, fun m hm => ⟨?_, ?_⟩⟩
  · obtain ⟨r, g1, g2, g3⟩ := key n
    refine ⟨r, g1, ?_⟩
    rw [g2, g3, hnorm n]
    have hq := (hs.red n).qpos hs.root
    obtain ⟨i1, i2, i3⟩ := (hs.red n).ineq
    have hlo := hs.root.lo
    refine ⟨mul_ne_zero (pow_ne_zero _ (by norm_num)) hq.ne', ?_⟩
    rw [mul_pow, ← pow_mul, mul_comm (n + 1) 2, pow_mul]
    norm_num
    nlinarith
  · rintro ⟨p, q, hcop, hpq⟩
    have fin : ∀ n, (-1) ^ (n + 1) * (seq (N : ℤ) (isqrt N) 1 n).2 = m → ∃ n < 2 * c.p.length, ∃ r,
        itemAt (ConvIter.next .big) n c.convergents = .ok (some r) ∧ r.num ^ 2 - N * (r.den : ℤ) ^ 2 = m := by
      intro n hn
      obtain ⟨r, g1, g2, g3⟩ := key (n % (2 * c.p.length))
      refine ⟨n % (2 * c.p.length), Nat.mod_lt _ (by omega), r, g1, ?_⟩
      rw [g2, g3, hnorm, ← hn]
      congr 1
      · rw [pow_succ, pow_succ]
        congr 1
        conv_rhs => rw [← Nat.div_add_mod n (2 * c.p.length), pow_add, mul_assoc, pow_mul]
        norm_num
      · rw [← seq_mod hper, Nat.mod_mod_of_dvd _ (Dvd.intro_left 2 rfl), seq_mod hper]
    by_cases hq0 : q = 0
    · subst hq0
      have hm1 : m = 1 := by
        rw [isCoprime_zero_right, Int.isUnit_iff] at hcop
        rcases hcop with rfl | rfl <;> simpa using hpq.symm
      apply fin (2 * c.p.length - 1)
      have hQ : (seq (N : ℤ) (isqrt N) 1 (2 * c.p.length - 1)).2 = 1 := by
        rw [last_iff hs, show 2 * c.p.length - 1 + 1 = 2 * c.p.length by omega, ← seq_mod hper, Nat.mul_mod_left]
      rw [hQ, hm1, show 2 * c.p.length - 1 + 1 = 2 * c.p.length by omega, pow_mul]
      norm_num
    · by_cases hp0 : p = 0
      · exfalso
        subst hp0
        have h3 : (1 : ℤ) ≤ q ^ 2 := by have := pow_pos (abs_pos.2 hq0) 2; rw [sq_abs] at this; omega
        have h4 : (0 : ℤ) ≤ N := by positivity
        have h5 : (N : ℤ) ≤ N * q ^ 2 := le_mul_of_one_le_right h4 h3
        have h6 : m = -((N : ℤ) * q ^ 2) := by linarith
        rw [h6, neg_sq] at hm
        nlinarith
      have hpa := Int.one_le_abs hp0
      have hqa := Int.one_le_abs hq0
      have hcop' : IsCoprime |p| |q| := by
        rwa [IsCoprime.abs_abs_iff]
      obtain ⟨n, hn⟩ := cf_small_norm c h hp N hv |p| |q| hpa hqa (by rw [sq_abs, sq_abs, hpq]; exact hm)
      obtain ⟨r, g1, g2, g3⟩ := key n
      rw [hn] at g1
      have hr : ((|p| : ℤ) / (|q| : ℤ) : ℚ) = r := Option.some.inj (Except.ok.inj g1)
      have hnn : r.num = |p| := by
        rw [← hr]
        exact Rat.num_div_eq_of_coprime (by omega) (Int.isCoprime_iff_gcd_eq_one.1 hcop')
      have hdd : (r.den : ℤ) = |q| := by
        rw [← hr]
        exact Rat.den_div_eq_of_coprime (by omega) (Int.isCoprime_iff_gcd_eq_one.1 hcop')
      apply fin n
      rw [← hnorm n, ← g2, ← g3, hnn, hdd, sq_abs, sq_abs, hpq]
  · rintro ⟨n, -, r, -, hn⟩
    refine ⟨r.num, r.den, ?_, hn⟩
    exact Rat.isCoprime_num_den r

example : itemAt (ConvIter.next .big) 0 (convergents ⟨[3], [1, 1, 1, 1, 6], false⟩) = .ok (some 3) ∧
    (3 : ℤ) ^ 2 - 13 * 1 ^ 2 = -4 ∧
    itemAt (ConvIter.next .big) 1 (convergents ⟨[3], [1, 1, 1, 1, 6], false⟩) = .ok (some 4) ∧
    (4 : ℤ) ^ 2 - 13 * 1 ^ 2 = 3 ∧ ((3 : ℤ) ^ 2 < 13) := by decide +kernel

/-- The bound `√N` cannot be replaced by the bound `2√N` of the convergents themselves: `2² - 2·1² = 2` but `2/1` is not a
convergent of `√2`. -/
theorem cf_small_norm_sharp : ((2 : ℤ) ^ 2 - 2 * 1 ^ 2) ^ 2 < 4 * 2 ∧
    ¬ ∃ n, itemAt (ConvIter.next .big) n (convergents ⟨[1], [2], false⟩) = .ok (some 2) := by
  refine ⟨by norm_num, ?_⟩
  rintro ⟨n, hn⟩
  have hwf : Wf ⟨[1], [2], false⟩ := by simp [Wf]
  have hc : ∀ m, HasCoeff ⟨[1], [2], false⟩ m := fun m => .inl (by simp)
  rw [(cf_convergents _ hwf n).1, if_pos (hc n)] at hn
  have hn := Except.ok.inj hn
  match n, hn with
  | 0, hn => exact absurd hn (by decide +kernel)
  | n + 1, hn =>
    obtain ⟨q2, a1, -, a3, -⟩ := Fx.conv_fields hwf (hc 1)
    obtain ⟨q, b1, -, b3, -⟩ := Fx.conv_fields hwf (hc (n + 1))
    have := (Fx.num_den_le hwf (hc (n + 1)) 1 (by omega)).2
    rw [hn] at b1
    have e1 := Option.some.inj b1
    have e2 : conv ⟨[1], [2], false⟩ 1 = some (3 / 2) := by decide +kernel
    rw [e2] at a1
    have e3 := Option.some.inj a1
    have f1 := congrArg Rat.den e1
    have f2 := congrArg Rat.den e3
    rw [signed_den] at f1 f2
    have f3 : (2 : ℚ).den = 1 := by decide +kernel
    have f4 : (3 / 2 : ℚ).den = 2 := by decide +kernel
    omega

end CF

namespace Surd

/-- **C111** so the convergents of `√N.to_contfrac()` contain every `p/q` with `|p² - N q²| < √N`, and two periods of them
decide whether a number below `√N` is `p² - N q²` with coprime `p`, `q`. -/
theorem surd_norms (cfg : Cfg) (s : Surd) (h : s.RealOk) (ha : s.a = 0) (hr : s.r ≠ 0) (N : ℕ) (hv : s.val = √(N : ℝ)) :
    ∃ F c, (∀ fuel, F ≤ fuel → s.toContfrac cfg fuel = some (.ok (some c))) ∧
      (∀ p q : ℤ, 1 ≤ p → 1 ≤ q → (p ^ 2 - N * q ^ 2) ^ 2 < N →
        ∃ n, itemAt (CF.ConvIter.next .big) n c.convergents = .ok (some (p / q : ℚ))) ∧
      (∀ n, ∃ r, itemAt (CF.ConvIter.next .big) n c.convergents = .ok (some r) ∧
        r.num ^ 2 - N * (r.den : ℤ) ^ 2 ≠ 0 ∧ (r.num ^ 2 - N * (r.den : ℤ) ^ 2) ^ 2 < 4 * N) ∧
      (∀ m : ℤ, m ^ 2 < N → ((∃ p q : ℤ, IsCoprime p q ∧ p ^ 2 - N * q ^ 2 = m) ↔
        ∃ n < 2 * c.p.length, ∃ r, itemAt (CF.ConvIter.next .big) n c.convergents = .ok (some r) ∧
          r.num ^ 2 - N * (r.den : ℤ) ^ 2 = m)) := by
  have hb : s.b ≠ 0 := fun e => hr (h.rational.1 e)
  have hr0 : 0 < s.r := lt_of_le_of_ne h.real (Ne.symm hr)
  have hn : s.a * s.a < s.r * s.b * s.b := by
    rw [ha, mul_zero, mul_assoc]
    exact mul_pos hr0 (mul_self_pos.2 hb)
  obtain ⟨F, c, h1, h2, h3, -, h4⟩ := surd_toContfrac_returns_partial cfg s h hn
  obtain ⟨h5, -⟩ := surd_toContfrac_shortest_neg_conj cfg s h hn F c (h1 F le_rfl)
  rw [hv] at h4
  obtain ⟨k1, k2⟩ := CF.cf_norms c h2 h3 h5 N h4
  exact ⟨F, c, h1, fun p q g1 g2 g3 => CF.cf_small_norm c h2 h3 N h4 p q g1 g2 g3, k1, k2⟩

example : RealOk ⟨0, 1, 1, 13⟩ ∧
    toContfrac ⟨false, true⟩ 10 ⟨0, 1, 1, 13⟩ = some (.ok (some ⟨[3], [1, 1, 1, 1, 6], false⟩)) := by decide +kernel

end Surd
end NumIrr
