/-
C88: how the fractions found for quadratic surds are written.
-/
import Verif.Lemmas.CFShort
import Verif.Props.SurdCF

namespace NumIrr
namespace Surd

open Lagrange

/-- The period of a computed fraction is the shortest possible. -/
theorem surd_toContfrac_period (cfg : Cfg) (s : Surd) (h : s.RealOk) (hr : s.r ≠ 0) (fuel : Nat) (c : CF)
    (hc : s.toContfrac cfg fuel = some (.ok (some c))) : c.ShortestPeriod := by
  obtain ⟨hw, hp, -⟩ := surd_toContfrac_value cfg s h hr fuel c hc
  obtain ⟨σ, hσ, e⟩ := toContfrac_start cfg h hr
  obtain ⟨p, q, hv, hpos, -, -, hroot, heq, -⟩ := start_spec cfg h hr σ hσ
  rw [e, heq] at hc
  cases hy : cfOfState cfg.debug fuel s.cfDisc (isqrt s.cfDisc) p q σ with
  | none => rw [hy] at hc; cases hc
  | some y =>
    rw [hy] at hc
    cases y with
    | error _ => cases hc
    | ok c' => cases hc; exact cfOfState_period hroot hv hpos hy hw hp

example : toContfrac ⟨false, true⟩ 10 ⟨-1, -2, 3, 11⟩ = some (.ok (some ⟨[2], [1, 1, 5, 7, 1, 3], true⟩)) := by decide +kernel

/-- C88, restricted: if no complete quotient has its integer part computed one too large, the part before the period is
the shortest possible too.  (Missing from the full claim: numbers with such a complete quotient, for which it is false,
see `surd_toContfrac_shortest_refuted`.) -/
theorem surd_toContfrac_shortest_partial (cfg : Cfg) (s : Surd) (h : s.RealOk) (hr : s.r ≠ 0)
    (ht : ∀ n, ¬ TooLarge s.cfDisc (tails s.cfStart n)) (fuel : Nat) (c : CF)
    (hc : s.toContfrac cfg fuel = some (.ok (some c))) : c.ShortestHead ∧ c.ShortestPeriod := by
  refine ⟨?_, surd_toContfrac_period cfg s h hr fuel c hc⟩
  obtain ⟨hw, hp, ⟨y, hy, -⟩⟩ := surd_toContfrac_value cfg s h hr fuel c hc
  obtain ⟨σ, hσ, e⟩ := toContfrac_start cfg h hr
  obtain ⟨p, q, hv, hpos, hth, -, hroot, heq, -⟩ := start_spec cfg h hr σ hσ
  have hstart : s.cfStart = th s.cfDisc p q := (eq_abs_of_signed σ _ _ hth hpos).symm
  rw [e, heq] at hc
  cases hyy : cfOfState cfg.debug fuel s.cfDisc (isqrt s.cfDisc) p q σ with
  | none => rw [hyy] at hc; cases hc
  | some y' =>
    rw [hyy] at hc
    cases y' with
    | error _ => cases hc
    | ok c' =>
      cases hc
      by_cases hst : ∃ p' q', Reach s.cfDisc (isqrt s.cfDisc) p q p' q' ∧ Stuck s.cfDisc (isqrt s.cfDisc) p' q'
      · obtain ⟨p', q', h1, h2⟩ := hst
        rw [cfOfState_stuck cfg.debug fuel σ hroot hv h1 h2] at hyy
        cases hyy
      · obtain ⟨N, c, k1, k2, k3, k4, k5, -⟩ := cfOfState_spec cfg.debug σ hroot hv hpos hst
        have := k2 fuel _ hyy
        cases this
        exact cfOfState_head hroot hv hpos hyy hw hp k5 (by rw [← hstart]; exact ht)

/-- numbers with a conjugate of opposite sign have no wrong integer parts -/
theorem neg_conj_not_tooLarge (s : Surd) (h : s.RealOk) (hn : s.a * s.a < s.r * s.b * s.b) (n : ℕ) :
    ¬ TooLarge s.cfDisc (tails s.cfStart n) := by
  have hr : s.r ≠ 0 := fun e => by
    rw [e] at hn
    have := mul_self_nonneg s.a
    omega
  obtain ⟨σ, hσ, -⟩ := toContfrac_start ⟨false, false⟩ h hr
  obtain ⟨p, q, hv, hpos, hth, hneg, hroot, -⟩ := start_spec ⟨false, false⟩ h hr σ hσ
  have hstart : s.cfStart = th s.cfDisc p q := (eq_abs_of_signed σ _ _ hth hpos).symm
  have key : ∀ m, thc s.cfDisc ((stp s.cfDisc (isqrt s.cfDisc))^[m] (p, q)).1
      ((stp s.cfDisc (isqrt s.cfDisc))^[m] (p, q)).2 < 0 ∧
      0 < th s.cfDisc ((stp s.cfDisc (isqrt s.cfDisc))^[m] (p, q)).1
      ((stp s.cfDisc (isqrt s.cfDisc))^[m] (p, q)).2 := fun m => by
    induction m with
    | zero => exact ⟨hneg hn, hpos⟩
    | succ m ih =>
      have hvm := stp_valid hroot (x := (p, q)) hv m
      have hq := (q_pos_iff hroot hvm).2 (by linarith [ih.1, ih.2])
      have hoff := not_off (rd := isqrt s.cfDisc) (p := ((stp s.cfDisc (isqrt s.cfDisc))^[m] (p, q)).1) hq
      have ha := coef_ge hroot hvm hoff (k := 0) (by push_cast; linarith [ih.2])
      have ha' : (0 : ℝ) ≤ coef (isqrt s.cfDisc) ((stp s.cfDisc (isqrt s.cfDisc))^[m] (p, q)).1
        ((stp s.cfDisc (isqrt s.cfDisc))^[m] (p, q)).2 := by exact_mod_cast ha
      rw [Function.iterate_succ_apply']
      exact ⟨inv_neg' (next_thc hroot hvm) (by linarith [ih.1]), one_pos.trans (next_gt_one hroot hvm hoff)⟩
  have hno : ∀ m, ¬ Off (isqrt s.cfDisc) ((stp s.cfDisc (isqrt s.cfDisc))^[m] (p, q)).1
      ((stp s.cfDisc (isqrt s.cfDisc))^[m] (p, q)).2 := fun m =>
    not_off ((q_pos_iff hroot (stp_valid hroot (x := (p, q)) hv m)).2 (by linarith [(key m).1, (key m).2]))
  rw [hstart, ← th_iter hroot (x := (p, q)) hv n fun m _ => hno m]
  exact fun ht => hno n ((tooLarge_iff hroot (stp_valid hroot (x := (p, q)) hv n)).1 ht)

/-- C88 for numbers with a conjugate of opposite sign, in particular all square roots: shortest in both respects. -/
theorem surd_toContfrac_shortest_neg_conj (cfg : Cfg) (s : Surd) (h : s.RealOk) (hn : s.a * s.a < s.r * s.b * s.b)
    (fuel : Nat) (c : CF) (hc : s.toContfrac cfg fuel = some (.ok (some c))) : c.ShortestHead ∧ c.ShortestPeriod := by
  refine surd_toContfrac_shortest_partial cfg s h (fun e => ?_) (neg_conj_not_tooLarge s h hn) fuel c hc
  rw [e] at hn
  have := mul_self_nonneg s.a
  omega

example : toContfrac ⟨false, false⟩ 20 ⟨0, 1, 1, 14⟩ = some (.ok (some ⟨[3], [1, 2, 1, 6], false⟩)) := by decide +kernel

/-- C88, restricted, the other half: two surds with the same value and no wrong integer parts, signs or conjugates are
converted to identical fractions, however they are written. -/
theorem surd_toContfrac_same_partial (cfg : Cfg) (s t : Surd) (hs : s.RealOk) (hs0 : s.r ≠ 0) (ht : t.RealOk)
    (ht0 : t.r ≠ 0) (he : s.cfValue = t.cfValue) (hl : ∀ n, ¬ TooLarge s.cfDisc (tails s.cfStart n))
    (hl' : ∀ n, ¬ TooLarge t.cfDisc (tails t.cfStart n)) (fuel fuel' : Nat) (c c' : CF)
    (hc : s.toContfrac cfg fuel = some (.ok (some c))) (hc' : t.toContfrac cfg fuel' = some (.ok (some c'))) :
    c = c' := by
  obtain ⟨k1, k2, k3⟩ := surd_toContfrac_value cfg s hs hs0 fuel c hc
  obtain ⟨k1', k2', k3'⟩ := surd_toContfrac_value cfg t ht ht0 fuel' c' hc'
  obtain ⟨a1, a2⟩ := surd_toContfrac_shortest_partial cfg s hs hs0 hl fuel c hc
  obtain ⟨a1', a2'⟩ := surd_toContfrac_shortest_partial cfg t ht ht0 hl' fuel' c' hc'
  exact CF.eq_of_val k1 k2 k1' k2' k3 (he ▸ k3') a1 a2 a1' a2'

/-- Equal numbers with a conjugate of opposite sign give identical fractions. -/
theorem surd_toContfrac_same_neg_conj (cfg : Cfg) (s t : Surd) (hs : s.RealOk) (ht : t.RealOk)
    (hn : s.a * s.a < s.r * s.b * s.b) (hn' : t.a * t.a < t.r * t.b * t.b) (he : s.val = t.val) (fuel fuel' : Nat)
    (c c' : CF) (hc : s.toContfrac cfg fuel = some (.ok (some c))) (hc' : t.toContfrac cfg fuel' = some (.ok (some c'))) :
    c = c' := by
  have h0 : ∀ u : Surd, u.a * u.a < u.r * u.b * u.b → u.r ≠ 0 := fun u hu e => by
    rw [e] at hu
    have := mul_self_nonneg u.a
    omega
  have hv : ∀ u : Surd, u.RealOk → u.a * u.a < u.r * u.b * u.b → u.cfValue = u.val := fun u hu hun => by
    obtain ⟨N, d, h1, -, -, -, h2⟩ := surd_toContfrac_returns_partial cfg u hu hun
    exact CF.HasVal.unique (surd_toContfrac_value cfg u hu (h0 u hun) N d (h1 N le_rfl)).2.2 h2
  exact surd_toContfrac_same_partial cfg s t hs (h0 s hn) ht (h0 t hn') (by rw [hv s hs hn, hv t ht hn', he])
    (neg_conj_not_tooLarge s hs hn) (neg_conj_not_tooLarge t ht hn') fuel fuel' c c' hc hc'

example : new ⟨false, false⟩ 14 7 14 28 = .ok ⟨2, 1, 2, 28⟩ ∧ new ⟨false, false⟩ 1 1 1 7 = .ok ⟨1, 1, 1, 7⟩ ∧
    toContfrac ⟨false, false⟩ 20 ⟨2, 1, 2, 28⟩ = toContfrac ⟨false, false⟩ 20 ⟨1, 1, 1, 7⟩ := by decide +kernel

/-- C88 is false: `30 - √7` is converted to `[27; 2, 1, (4, 1, 1, 1)]`, although `[27; 2, (1, 4, 1, 1)]` is shorter; and
the latter is what the same number, written as `(60 - √28)/2`, is converted to.  Both ways of writing it are results of
`new`, and compare equal. -/
theorem surd_toContfrac_shortest_refuted (cfg : Cfg) :
    new cfg 30 (-1) 1 7 = .ok ⟨30, -1, 1, 7⟩ ∧ new cfg 420 (-7) 14 28 = .ok ⟨60, -1, 2, 28⟩ ∧
    val ⟨30, -1, 1, 7⟩ = val ⟨60, -1, 2, 28⟩ ∧
    ∃ c c', toContfrac cfg 10 ⟨30, -1, 1, 7⟩ = some (.ok (some c)) ∧
      toContfrac cfg 10 ⟨60, -1, 2, 28⟩ = some (.ok (some c')) ∧ c ≠ c' ∧
      c.HasVal (val ⟨30, -1, 1, 7⟩) ∧ c'.HasVal (val ⟨30, -1, 1, 7⟩) ∧ ¬ c.ShortestHead := by
  have e1 : new cfg 30 (-1) 1 7 = .ok ⟨30, -1, 1, 7⟩ := by
    obtain ⟨c, d⟩ := cfg; cases c <;> cases d <;> decide +kernel
  have e2 : new cfg 420 (-7) 14 28 = .ok ⟨60, -1, 2, 28⟩ := by
    obtain ⟨c, d⟩ := cfg; cases c <;> cases d <;> decide +kernel
  have e3 : toContfrac cfg 10 ⟨30, -1, 1, 7⟩ = some (.ok (some ⟨[27, 2, 1], [4, 1, 1, 1], false⟩)) := by
    obtain ⟨c, d⟩ := cfg; cases c <;> cases d <;> decide +kernel
  have e4 : toContfrac cfg 10 ⟨60, -1, 2, 28⟩ = some (.ok (some ⟨[27, 2], [1, 4, 1, 1], false⟩)) := by
    obtain ⟨c, d⟩ := cfg; cases c <;> cases d <;> decide +kernel
  have r1 : RealOk ⟨30, -1, 1, 7⟩ := ⟨(surd_new_normal cfg _ _ _ _ _ e1).toNormal, by decide⟩
  have r2 : RealOk ⟨60, -1, 2, 28⟩ := ⟨(surd_new_normal cfg _ _ _ _ _ e2).toNormal, by decide⟩
  have h28 : √(28 : ℝ) = 2 * √7 := by
    rw [show (28 : ℝ) = 2 ^ 2 * 7 by norm_num, Real.sqrt_mul (by norm_num), Real.sqrt_sq (by norm_num)]
  have hval : val ⟨30, -1, 1, 7⟩ = val ⟨60, -1, 2, 28⟩ := by
    unfold val quadR
    push_cast
    rw [h28]
    ring
  have h7 : √(7 : ℝ) < 3 := by rw [Real.sqrt_lt' (by norm_num)]; norm_num
  have hpos : 0 < val ⟨30, -1, 1, 7⟩ := by
    unfold val quadR; push_cast; simp; linarith
  refine ⟨e1, e2, hval, _, _, e3, e4, by decide, ?_, ?_, ?_⟩
  · exact surd_toContfrac_value_partial cfg _ r1 (by decide) (fun h => h.1 (by decide))
      (fun h => by have := h.1; linarith) 10 _ e3
  · rw [hval]
    exact surd_toContfrac_value_partial cfg _ r2 (by decide) (fun h => h.1 (by decide))
      (fun h => by have := h.1; rw [← hval] at this; linarith) 10 _ e4
  · intro h
    have := h [27, 2] [1, 4, 1, 1] ⟨by decide, by decide, fun n => ?_⟩
    · exact absurd this (by decide)
    · unfold coeffAt
      match n with
      | 0 => rfl
      | 1 => rfl
      | 2 => rfl
      | n + 3 =>
        simp only [List.length_cons, List.length_nil]
        rw [if_neg (by omega), if_neg (by omega), show n + 3 - (0 + 1 + 1) = n + 1 by omega,
          show n + 3 - (0 + 1 + 1 + 1) = n by omega]
        have : n % 4 = 0 ∨ n % 4 = 1 ∨ n % 4 = 2 ∨ n % 4 = 3 := by omega
        rcases this with h | h | h | h
        · rw [show (n + 1) % (0 + 1 + 1 + 1 + 1) = 1 by omega, show n % (0 + 1 + 1 + 1 + 1) = 0 by omega]; rfl
        · rw [show (n + 1) % (0 + 1 + 1 + 1 + 1) = 2 by omega, show n % (0 + 1 + 1 + 1 + 1) = 1 by omega]; rfl
        · rw [show (n + 1) % (0 + 1 + 1 + 1 + 1) = 3 by omega, show n % (0 + 1 + 1 + 1 + 1) = 2 by omega]; rfl
        · rw [show (n + 1) % (0 + 1 + 1 + 1 + 1) = 0 by omega, show n % (0 + 1 + 1 + 1 + 1) = 3 by omega]; rfl

end Surd
end NumIrr
