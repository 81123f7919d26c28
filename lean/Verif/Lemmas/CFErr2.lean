/-
Errors of convergents, finite and periodic fractions together.
-/
import Verif.Lemmas.CFErr

namespace NumIrr

theorem cfP_snoc1 (l : List Int) (v : Int) :
    (cfP (l ++ [v])).2 = v * (cfP l).2 + (act l ((0, 1) : Int × Int)).2 := by
  rw [cfP_append]
  simp [cfP, act]

/-- difference between a finite fraction and one of its convergents -/
theorem fin_diff {l r : List Int} {x y : Rat} (hl : 1 ≤ (cfP l).2) (hlr : 1 ≤ (cfP (l ++ r)).2)
    (hx : cfVal (l ++ r) = some x) (hy : cfVal l = some y) :
    x - y = -((-1) ^ l.length * ((cfP r).2 : Rat)) / ((cfP l).2 * (cfP (l ++ r)).2) := by
  rw [cfVal_eq, pairVal, if_neg (by omega)] at hx hy
  injection hx with hx
  injection hy with hy
  have h1 : ((cfP l).2 : Rat) ≠ 0 := by exact_mod_cast (by omega : (cfP l).2 ≠ 0)
  have h2 : ((cfP (l ++ r)).2 : Rat) ≠ 0 := by exact_mod_cast (by omega : (cfP (l ++ r)).2 ≠ 0)
  rw [← hx, ← hy, div_sub_div _ _ h2 h1, div_eq_div_iff (mul_ne_zero h2 h1) (mul_ne_zero h1 h2)]
  have key : (cfP (l ++ r)).1 * (cfP l).2 - (cfP (l ++ r)).2 * (cfP l).1 = -((-1) ^ l.length * (cfP r).2) := by
    rw [cfP_append]
    have := act_det l
    simp only [cfP] at *
    linear_combination -(act r ((1, 0) : Int × Int)).2 * this
  have key' : ((cfP (l ++ r)).1 : Rat) * (cfP l).2 - (cfP (l ++ r)).2 * (cfP l).1 = -((-1) ^ l.length * ((cfP r).2 : Rat)) := by
    exact_mod_cast key
  rw [key']
  ring

theorem act01_nonneg (l : List Int) (h : ∀ v ∈ l.tail, 1 ≤ v) : 0 ≤ (act l ((0, 1) : Int × Int)).2 := by
  have pos : ∀ m : List Int, (∀ v ∈ m, 1 ≤ v) → 0 ≤ (act m ((0, 1) : Int × Int)).1 ∧ 0 ≤ (act m ((0, 1) : Int × Int)).2 := by
    intro m
    induction m with
    | nil => intro _; simp [act]
    | cons v m ih =>
      intro hm
      obtain ⟨i1, i2⟩ := ih (fun u hu => hm u (by simp [hu]))
      have := hm v (by simp)
      simp only [act, Int.cast_id]
      exact ⟨by nlinarith, i1⟩
  match l, h with
  | [], _ => simp [act]
  | v :: l, h => exact (pos l h).1

/-- the denominator of `l ++ v :: r` against that of `l ++ [v]` -/
theorem cfP_den_mul {l r : List Int} {v : Int} (h0 : 0 ≤ (cfP l).2) (hr : ∀ u ∈ r, 1 ≤ u) :
    (cfP (v :: r)).2 * (cfP (l ++ [v])).2 ≤ (cfP (l ++ v :: r)).2 := by
  have h1 := cfP_append l (v :: r)
  rw [h1, cfP_snoc1]
  obtain ⟨h2, h3, -⟩ := CF.cfP_pos r hr
  have e1 : (cfP (v :: r)).1 = v * (cfP r).1 + (cfP r).2 := by simp [cfP, act]
  have e2 : (cfP (v :: r)).2 = (cfP r).1 := by simp [cfP, act]
  simp only [e1, e2]
  nlinarith [mul_nonneg h3 h0]

theorem cfP_num_gt {r : List Int} (hr : ∀ u ∈ r, 1 ≤ u) (h0 : r ≠ []) (h1 : r ≠ [1]) : (cfP r).2 < (cfP r).1 := by
  match r, hr, h0, h1 with
  | [v], hr, _, h1 =>
    have := hr v (by simp)
    have : v ≠ 1 := fun h => h1 (by rw [h])
    simp [cfP, act]; omega
  | v :: u :: r, hr, _, _ =>
    have hv := hr v (by simp)
    have h3 := CF.cfP_pos (u :: r) (fun w hw => hr w (by simp at hw ⊢; tauto))
    have h4 := (CF.cfP_pos r (fun w hw => hr w (by simp [hw]))).1
    have e1 : (cfP (v :: u :: r)).1 = v * (cfP (u :: r)).1 + (cfP (u :: r)).2 := by simp [cfP, act]
    have e2 : (cfP (v :: u :: r)).2 = (cfP (u :: r)).1 := by simp [cfP, act]
    have e3 : (cfP (u :: r)).2 = (cfP r).1 := by simp [cfP, act]
    rw [e1, e2, e3]
    nlinarith

namespace CF

theorem signed_eq_iff {b : Bool} {x y : ℝ} : x = signed b y ↔ signed b x = y := by
  cases b
  · simp [signed]
  · simp only [signed, if_true]; constructor <;> intro h <;> linarith

/-- denominators of the convergents -/
theorem trunc_den_pos {c : CF} (h : c.Wf) {n : Nat} (hn : c.HasCoeff n) : 1 ≤ (cfP (c.trunc (n + 1))).2 := by
  refine cfP_den_pos _ ?_ (trunc_tail_pos h (fun i hi => hasCoeff_mono hn i (by omega)))
  rw [trunc_succ]; simp

theorem conv_err {c : CF} (h : c.Wf) {x : ℝ} (hx : c.HasVal x) {n : Nat} (hn : c.HasCoeff n) {q : Rat}
    (hq : cfVal (c.trunc (n + 1)) = some q) :
    0 ≤ (-1) ^ n * (signed c.neg x - q) ∧ (¬ c.HasCoeff (n + 1) → signed c.neg x = q) ∧
    (c.HasCoeff (n + 1) → signed c.neg x ≠ q ∧
      |signed c.neg x - q| ≤ 1 / ((cfP (c.trunc (n + 1))).2 * (cfP (c.trunc (n + 2))).2 : ℝ)) ∧
    (c.Std → |signed c.neg x - q| < 1 / ((cfP (c.trunc (n + 1))).2 : ℝ) ^ 2) := by
  by_cases hp : c.p = []
  · -- finite
    have hQ := trunc_den_pos h hn
    have hlen : n < c.a.length := by
      rcases hn with h' | h'
      · exact absurd hp h'
      · exact h'
    obtain ⟨xq, hxq, rfl⟩ := (hasVal_finite hp).1 hx
    obtain ⟨v, hv, rfl⟩ : ∃ v, cfVal (toInts c.a) = some v ∧ signed c.neg v = xq := by
      unfold valQ at hxq
      cases hc : cfVal (toInts c.a) with
      | none => rw [hc] at hxq; cases hxq
      | some v => exact ⟨v, rfl, by rw [hc] at hxq; simpa using hxq⟩
    have hss : signed c.neg ((signed c.neg v : Rat) : ℝ) = (v : ℝ) := by
      rw [signed_cast]; cases c.neg <;> simp [signed]
    rw [hss]
    have hl : c.trunc (n + 1) = (toInts c.a).take (n + 1) := by
      unfold trunc
      rw [truncTo_take]
      simp [toInts]; omega
    have hll : (c.trunc (n + 1)).length = n + 1 := by unfold trunc; exact truncTo_length _ _ _
    obtain ⟨r, hr⟩ : ∃ r, (toInts c.a).drop (n + 1) = r := ⟨_, rfl⟩
    have happ : toInts c.a = c.trunc (n + 1) ++ r := by rw [hl, ← hr, List.take_append_drop]
    have hpos : ∀ u ∈ (toInts c.a).tail, 1 ≤ u := by
      have := trunc_tail_pos (n := c.a.length) h (fun i hi => .inr hi)
      rwa [trunc_len] at this
    have hrpos : ∀ u ∈ r, 1 ≤ u := by
      intro u hu
      apply hpos
      rw [← hr] at hu
      have : (toInts c.a).drop (n + 1) = (toInts c.a).tail.drop n := by simp
      rw [this] at hu
      exact List.mem_of_mem_drop hu
    have hne : toInts c.a ≠ [] := toInts_ne_nil h.1
    have hQa : 1 ≤ (cfP (toInts c.a)).2 := cfP_den_pos _ hne hpos
    have hltail : ∀ u ∈ (c.trunc (n + 1)).tail, 1 ≤ u :=
      trunc_tail_pos h (fun i hi => hasCoeff_mono hn i (by omega))
    rw [happ] at hQa hv
    have hd := fin_diff hQ hQa hv hq
    rw [hll, pow_succ] at hd
    obtain ⟨hr1, hr2, hr3⟩ := cfP_pos r hrpos
    have hd' : (v : ℝ) - q = (-1) ^ n * (((cfP r).2 : ℝ) / ((cfP (c.trunc (n + 1))).2 * (cfP (c.trunc (n + 1) ++ r)).2)) := by
      have : ((v - q : Rat) : ℝ) = _ := congrArg Rat.cast hd
      push_cast at this
      rw [this]
      ring
    have hQr : (0 : ℝ) < (cfP (c.trunc (n + 1))).2 := by exact_mod_cast (by omega : 0 < (cfP (c.trunc (n + 1))).2)
    have hQar : (0 : ℝ) < (cfP (c.trunc (n + 1) ++ r)).2 := by
      exact_mod_cast (by omega : 0 < (cfP (c.trunc (n + 1) ++ r)).2)
    have hr2' : (0 : ℝ) ≤ (cfP r).2 := by exact_mod_cast hr2
    have habs : |(v : ℝ) - q| = ((cfP r).2 : ℝ) / ((cfP (c.trunc (n + 1))).2 * (cfP (c.trunc (n + 1) ++ r)).2) := by
      rw [hd', abs_mul, abs_pow, abs_neg, abs_one, one_pow, one_mul, abs_of_nonneg (by positivity)]
    have hcoeff : c.HasCoeff (n + 1) ↔ r ≠ [] := by
      rw [← hr]
      constructor
      · rintro (h' | h')
        · exact absurd hp h'
        · intro h0
          have := congrArg List.length h0
          simp [toInts] at this
          omega
      · intro h0
        refine .inr ?_
        by_contra hlt
        exact h0 (List.drop_eq_nil_of_le (by simp [toInts]; omega))
    refine ⟨?_, ?_, ?_, ?_⟩
    · rw [hd', ← mul_assoc, ← mul_pow, neg_one_mul, neg_neg, one_pow, one_mul]
      positivity
    · intro h'
      have : r = [] := by
        by_contra h0
        exact h' (hcoeff.2 h0)
      rw [this] at habs
      simp only [cfP, act, Int.cast_zero, zero_div, abs_eq_zero] at habs
      linarith
    · intro h'
      have hrne := hcoeff.1 h'
      match r, hrne, hr, happ, hrpos, hr1, hr2, hr3, habs, hQar, hQa with
      | w :: r, _, hr, happ, hrpos, hr1, hr2, hr3, habs, hQar, hQa =>
        have hw : c.trunc (n + 2) = c.trunc (n + 1) ++ [w] := by
          rw [trunc_succ]
          congr 2
          have e := coeffAt_toInts c (n + 1)
          rw [← e]
          have hlt : n + 1 < (toInts c.a).length := by
            have := congrArg List.length hr
            simp at this; omega
          rw [coeffAt_lt _ _ hlt]
          have : (toInts c.a).drop (n + 1) = (toInts c.a)[n + 1] :: (toInts c.a).drop (n + 2) :=
            List.drop_eq_getElem_cons hlt
          rw [this] at hr
          exact (List.cons.inj hr).1
        have hmul := cfP_den_mul (l := c.trunc (n + 1)) (v := w) (r := r) (by omega) (fun u hu => hrpos u (by simp [hu]))
        have hrq : 1 ≤ (cfP (w :: r)).2 := by
          have := (cfP_pos r (fun u hu => hrpos u (by simp [hu]))).1
          simpa [cfP, act] using this
        have hrqr : (0 : ℝ) < (cfP (w :: r)).2 := by exact_mod_cast (by omega : 0 < (cfP (w :: r)).2)
        have hQ2 : 1 ≤ (cfP (c.trunc (n + 2))).2 := trunc_den_pos h h'
        have hQ2r : (0 : ℝ) < (cfP (c.trunc (n + 2))).2 := by exact_mod_cast (by omega : 0 < (cfP (c.trunc (n + 2))).2)
        constructor
        · intro he
          rw [he, sub_self, abs_zero] at habs
          have : (0 : ℝ) < ((cfP (w :: r)).2 : ℝ) / ((cfP (c.trunc (n + 1))).2 * (cfP (c.trunc (n + 1) ++ w :: r)).2) := by
            positivity
          linarith
        · rw [habs, div_le_div_iff₀ (by positivity) (by positivity), one_mul]
          have hmul' : ((cfP (w :: r)).2 : ℝ) * (cfP (c.trunc (n + 2))).2 ≤ (cfP (c.trunc (n + 1) ++ w :: r)).2 := by
            rw [hw]; exact_mod_cast hmul
          nlinarith
    · intro hstd
      rw [habs, div_lt_div_iff₀ (by positivity) (by positivity), one_mul]
      by_cases hr0 : r = []
      · rw [hr0]; simp only [cfP, act, Int.cast_zero, zero_mul]
        have := mul_pos hQr hQar
        rw [hr0] at this
        simpa [cfP] using this
      · have hr11 : r ≠ [1] := by
          intro h1
          have hcan := (hstd.2 hp).2.2.2.1
          have hlast : (toInts c.a).getLastD 0 = 1 := by rw [happ, h1]; simp
          have hl2 : c.a.getLastD 0 = 1 := by
            have h3 : (toInts c.a).getLast? = (c.a.getLast?).map (fun k : Nat => (k : Int)) := by
              simp [toInts]
            rw [List.getLastD_eq_getLast?, h3] at hlast
            rw [List.getLastD_eq_getLast?]
            cases hg : c.a.getLast? with
            | none => rw [hg] at hlast; simp at hlast
            | some k => rw [hg] at hlast; simpa using hlast
          refine hcan ?_ hl2
          intro ht
          have h4 : c.a.length = c.a.tail.length + 1 := by
            have := List.length_pos_iff.2 h.1
            simp; omega
          have h5 := congrArg List.length happ
          rw [List.length_append, hll, h1] at h5
          simp [toInts] at h5
          rw [ht] at h4
          simp at h4
          omega
        have hgt := cfP_num_gt hrpos hr0 hr11
        have h6 := act01_nonneg _ hltail
        have h7 : (cfP r).2 * (cfP (c.trunc (n + 1))).2 < (cfP (c.trunc (n + 1) ++ r)).2 := by
          rw [cfP_append]
          simp only
          nlinarith [mul_nonneg hr2 h6]
        have h7' : ((cfP r).2 : ℝ) * (cfP (c.trunc (n + 1))).2 < (cfP (c.trunc (n + 1) ++ r)).2 := by exact_mod_cast h7
        nlinarith
  · -- periodic
    have hs := wf_posSeq h hp
    have hxl := (hasVal_periodic h hp).1 hx
    rw [signed_eq_iff] at hxl
    rw [hxl]
    obtain ⟨q', h1, h2, -⟩ := cfVal_tr_pos hs n
    have hqq : q = q' := by
      have : cfVal (tr (coeffAt (toInts c.a) (toInts c.p)) (n + 1)) = some q := hq
      rw [h1] at this
      exact (Option.some.inj this).symm
    rw [hqq, h2]
    have hQ1 := cQr_pos hs n
    have hQ2 := cQr_pos hs (n + 1)
    have hQ3 : (0 : ℝ) ≤ cQ (coeffAt (toInts c.a) (toInts c.p)) n := by exact_mod_cast (cQ_pos hs n).2
    have hcq := cquot_gt hs n
    have hle : (cQ (coeffAt (toInts c.a) (toInts c.p)) (n + 1) : ℝ) ≤ cQ (coeffAt (toInts c.a) (toInts c.p)) (n + 2) := by
      exact_mod_cast cQ_le hs n
    refine ⟨?_, fun h' => absurd (.inl hp) h', fun _ => ⟨?_, ?_⟩, fun _ => ?_⟩
    · rw [cfLim_sub hs, ← mul_div_assoc, ← mul_pow, neg_one_mul, neg_neg, one_pow]
      have : 0 < cquot (coeffAt (toInts c.a) (toInts c.p)) (n + 1) := by linarith
      positivity
    · have := cfLim_ne hs n
      intro h'; exact this (by rw [h', sub_self])
    · exact (cfLim_err hs n).le
    · refine lt_of_lt_of_le (cfLim_err hs n) ?_
      show _ ≤ 1 / (cQ (coeffAt (toInts c.a) (toInts c.p)) (n + 1) : ℝ) ^ 2
      rw [sq]
      apply one_div_le_one_div_of_le (by positivity)
      exact mul_le_mul_of_nonneg_left hle hQ1.le

end CF
end NumIrr
