/-
C29: the items of `convergents` over `w`-bit integers, exactly.
-/
import Verif.Props.CFIter

namespace NumIrr
namespace CF

/-- the value of a `w`-bit pattern read as a signed number -/
def asSigned (w : Nat) (v : Int) : Int := if v < 2 ^ (w - 1) then v else v - 2 ^ w

private theorem conv_some {c : CF} (h : c.Wf) {n : Nat} (hn : c.HasCoeff n) :
    ∃ q, cfVal (c.trunc (n + 1)) = some q ∧ c.conv n = some (signed c.neg q) ∧ (q.den : Int) = c.den n ∧ q.num = c.num n := by
  obtain ⟨q, -, h2⟩ := ratioNew_cfP _ (trunc_den_pos h hn)
  obtain ⟨h3, h4⟩ := cfVal_den h2 (trunc_den_pos h hn)
  refine ⟨q, h2, ?_, h3, h4⟩
  have h5 : cfVal (truncTo (toInts c.a) (toInts c.p) (n + 1)) = some q := h2
  unfold conv
  rw [h5]
  rfl

/-- While the convergents fit the unsigned type, item `n` is the true convergent with numerator and denominator read as
signed `w`-bit numbers. -/
theorem cf_conv_prim_item (c : CF) (h : c.Wf) (w n : Nat) (r : Rat) (hr : c.conv n = some r)
    (hfit : ∀ i ≤ n, ∀ r, c.conv i = some r → (r.num.natAbs : Int) < 2 ^ w ∧ (r.den : Int) < 2 ^ w)
    (hn : c.HasCoeff n) :
    ConvIter.nth (.prim w) n c.convergents =
      .ok (some (signed c.neg ((asSigned w r.num.natAbs : Rat) / asSigned w r.den))) := by
  have hfit' : ∀ i ≤ n, c.num i < 2 ^ w ∧ c.den i < 2 ^ w := by
    intro i hi
    obtain ⟨q, -, h2, h3, h4⟩ := conv_some h (hasCoeff_mono hn i hi)
    obtain ⟨f1, f2⟩ := hfit i hi _ h2
    rw [signed_den] at f2
    have : (signed c.neg q).num.natAbs = q.num.natAbs := by cases c.neg <;> simp [signed]
    rw [this] at f1
    omega
  have h0 := nth_prim h (w := w) 0 n (by rw [Nat.zero_add]; exact hn)
  rw [convState_zero] at h0
  simp only [Nat.zero_add] at h0
  rw [h0, if_pos hfit']
  obtain ⟨q, h1, h2, h3, h4⟩ := conv_some h hn
  rw [hr] at h2
  have := Option.some.inj h2
  subst this
  have e : (signed c.neg q).num.natAbs = q.num.natAbs := by cases c.neg <;> simp [signed]
  have hnn : 0 ≤ q.num := by
    rw [h4, num_eq]; have t := trunc_num_nonneg c n; have := t.1; have := t.2.1; positivity
  rw [e, signed_den, Int.natAbs_of_nonneg hnn, h3, h4]
  rfl

/-- `[1; 2, 2, …]`: item 5 is `99/70`, item 6 is `239/169`, which 8 bits read as `(-17)/(-87)` -/
example : Wf ⟨[1], [2], false⟩ ∧ conv ⟨[1], [2], false⟩ 6 = some (239 / 169) ∧ HasCoeff ⟨[1], [2], false⟩ 6 ∧
    ConvIter.nth (.prim 8) 6 (convergents ⟨[1], [2], false⟩) = .ok (some (17 / 87)) :=
  ⟨by simp [Wf], by decide +kernel, by decide, by decide +kernel⟩

/-- From two bits on, while the convergents fit the unsigned type, item `n` is right exactly if its own numerator and
denominator fit the signed type. -/
theorem cf_conv_prim_right_iff (c : CF) (h : c.Wf) (w n : Nat) (hw : 2 ≤ w) (r : Rat) (hr : c.conv n = some r)
    (hfit : ∀ i ≤ n, ∀ r, c.conv i = some r → (r.num.natAbs : Int) < 2 ^ w ∧ (r.den : Int) < 2 ^ w)
    (hn : c.HasCoeff n) :
    ConvIter.nth (.prim w) n c.convergents = .ok (some r) ↔
      (r.num.natAbs : Int) < 2 ^ (w - 1) ∧ (r.den : Int) < 2 ^ (w - 1) := by
  rw [cf_conv_prim_item c h w n r hr hfit hn]
  obtain ⟨f1, f2⟩ := hfit n le_rfl r hr
  obtain ⟨q, h1, h2, h3, h4⟩ := conv_some h hn
  rw [hr] at h2
  have := Option.some.inj h2
  subst this
  have e : (signed c.neg q).num.natAbs = q.num.natAbs := by cases c.neg <;> simp [signed]
  have hnn : 0 ≤ q.num := by
    rw [h4, num_eq]; have t := trunc_num_nonneg c n; have := t.1; have := t.2.1; positivity
  rw [e, Int.natAbs_of_nonneg hnn] at f1 ⊢
  rw [signed_den] at f2 ⊢
  have hinj : ∀ x y : Rat, signed c.neg x = signed c.neg y ↔ x = y := by
    intro x y; cases c.neg <;> simp [signed]
  rw [Except.ok.injEq, Option.some.injEq, hinj]
  have hpow : (2 : Int) ^ w = 2 * 2 ^ (w - 1) := by
    rw [← pow_succ', show w - 1 + 1 = w by omega]
  have h2w : (2 : Int) ≤ 2 ^ (w - 1) := by
    calc (2 : Int) = 2 ^ 1 := by norm_num
      _ ≤ 2 ^ (w - 1) := pow_le_pow_right₀ (by norm_num) (by omega)
  have hq0 : (0 : Int) < q.den := by exact_mod_cast q.pos
  unfold asSigned
  rw [hpow] at f1 f2 ⊢
  generalize (2 : Int) ^ (w - 1) = M at *
  constructor
  · intro hx
    have hcop : q.num.natAbs.gcd q.den = 1 := q.reduced
    have hD : (q.den : Rat) ≠ 0 := by exact_mod_cast q.den_nz
    set N := q.num
    have cross : ∀ A B : Int, B ≠ 0 → (A : Rat) / B = q → A * q.den = N * B := by
      intro A B hB hAB
      have hB' : (B : Rat) ≠ 0 := by exact_mod_cast hB
      have hq := Rat.num_div_den q
      rw [← hq, div_eq_div_iff hB' hD] at hAB
      exact_mod_cast hAB
    have hx' := cross _ _ (by split <;> omega) hx
    have done : N = (q.den : Int) ∨ N = 0 → ¬ M ≤ (q.den : Int) := by
      rintro (hN | hN) hm
      · rw [hN, Int.natAbs_natCast, Nat.gcd_self] at hcop
        rw [hcop] at hm; norm_num at hm; omega
      · rw [hN, Int.natAbs_zero, Nat.gcd_zero_left] at hcop
        rw [hcop] at hm; norm_num at hm; omega
    by_cases g1 : N < M <;> by_cases g2 : (q.den : Int) < M
    · exact ⟨g1, g2⟩
    · rw [if_pos g1, if_neg g2] at hx'
      exact absurd (not_lt.1 g2) (done (.inr (by
        have : N * (2 * M) = 0 := by linear_combination hx'
        rcases mul_eq_zero.1 this with h | h
        · exact h
        · omega)))
    · rw [if_neg g1, if_pos g2] at hx'
      have : (q.den : Int) * (2 * M) = 0 := by linear_combination -hx'
      rcases mul_eq_zero.1 this with h | h <;> omega
    · rw [if_neg g1, if_neg g2] at hx'
      exact absurd (not_lt.1 g2) (done (.inl (by
        have : (N - q.den) * (2 * M) = 0 := by linear_combination hx'
        rcases mul_eq_zero.1 this with h | h <;> omega)))
  · rintro ⟨g1, g2⟩
    rw [if_pos g1, if_pos g2, Int.cast_natCast, Rat.num_div_den]

example : Wf ⟨[1], [2], false⟩ ∧ conv ⟨[1], [2], false⟩ 5 = some (99 / 70) ∧ HasCoeff ⟨[1], [2], false⟩ 5 ∧
    ConvIter.nth (.prim 8) 5 (convergents ⟨[1], [2], false⟩) = .ok (some (99 / 70)) :=
  ⟨by simp [Wf], by decide +kernel, by decide, by decide +kernel⟩

end CF
end NumIrr
