/-
C115: functions with determinant 1 or -1 change only a beginning of the continued fraction.
C116: homographic functions compose.
-/
import Verif.Props.Homo
import Verif.Props.Galois
import Verif.Lemmas.Serret
import Verif.Lemmas.CFRotate

namespace NumIrr

/-- **C115** (Serret) two irrational numbers are equivalent exactly if their regular continued fractions agree from some place
on. -/
theorem equivalent_iff (x y : ℝ) (hx : Irrational x) (hy : Irrational y) : Equivalent x y ↔ SameTail x y :=
  equivalent_iff_sameTail hx hy

namespace Homo

/-- the number given by a homographic function with non-negative entries is positive -/
theorem mobius_pos {x : ℝ} (hx : Irrational x) (h0 : 0 < x) {a b c d : ℤ} (ha : 0 ≤ a) (hb : 0 ≤ b) (hc : 0 ≤ c)
    (hd : 0 ≤ d) (hdet : a * d ≠ b * c) :
    Irrational ((a * x + b) / (c * x + d)) ∧ 0 < (a * x + b) / (c * x + d) := by
  have hi : Irrational ((a * x + b) / (c * x + d)) := mobius_irrational hx (by omega)
  refine ⟨hi, lt_of_le_of_ne ?_ fun e => hi ⟨0, by simp [← e]⟩⟩
  have a1 : (0 : ℝ) ≤ a := by exact_mod_cast ha
  have b1 : (0 : ℝ) ≤ b := by exact_mod_cast hb
  have c1 : (0 : ℝ) ≤ c := by exact_mod_cast hc
  have d1 : (0 : ℝ) ≤ d := by exact_mod_cast hd
  positivity

/-- **C115** if the determinant is `1` or `-1`, then `homo(a, b, c, d)` yields, after some number `m` of outputs, the coefficients of
its source from the `k`-th on, and nothing else. -/
theorem homo_unimodular (x : ℝ) (hx : Irrational x) (h0 : 0 < x) (a b c d : ℤ) (ha : 0 ≤ a) (hb : 0 ≤ b) (hc : 0 ≤ c)
    (hd : 0 ≤ d) (hdet : a * d - b * c = 1 ∨ a * d - b * c = -1) :
    ∃ m k, ∀ n, ∃ outs s, Outs Call (Homo.new (fun i => some ⌊tails x i⌋) a b c d) outs s ∧ outs.length = m + n ∧
      ∀ i (hi : m + i < outs.length), outs[m + i] = ⌊tails x (k + i)⌋ := by
  have hne : a * d ≠ b * c := by omega
  have hE : Equivalent x ((a * x + b) / (c * x + d)) := ⟨a, b, c, d, hdet, irr_den hx hdet, rfl⟩
  obtain ⟨k, m, e⟩ := (equivalent_iff _ _ hx (mobius_pos hx h0 ha hb hc hd hne).1).1 hE
  refine ⟨m, k, fun n => ?_⟩
  obtain ⟨s, hs⟩ := homo_productive x hx h0 a b c d ha hb hc hd hne (m + n)
  refine ⟨_, s, hs, by simp, fun i hi => ?_⟩
  rw [List.getElem_map, List.getElem_range, e i]

/-- **C115** conversely, if the outputs of `homo(a, b, c, d)` are in the end those of its source, the function could have been written
with determinant `1` or `-1`, in the sense that it has the same value at `x` as one with such a determinant. -/
theorem homo_unimodular_converse (x : ℝ) (hx : Irrational x) (h0 : 0 < x) (a b c d : ℤ) (ha : 0 ≤ a) (hb : 0 ≤ b)
    (hc : 0 ≤ c) (hd : 0 ≤ d) (hdet : a * d ≠ b * c) (m k : ℕ)
    (h : ∀ n, ∃ outs s, Outs Call (Homo.new (fun i => some ⌊tails x i⌋) a b c d) outs s ∧ outs.length = m + n ∧
      ∀ i (hi : m + i < outs.length), outs[m + i] = ⌊tails x (k + i)⌋) :
    Equivalent x ((a * x + b) / (c * x + d)) := by
  refine (equivalent_iff _ _ hx (mobius_pos hx h0 ha hb hc hd hdet).1).2 ⟨k, m, fun n => ?_⟩
  obtain ⟨outs, s, h1, h2, h3⟩ := h (n + 1)
  rw [← h3 n (by omega)]
  refine homo_regular _ a b c d ha hb hc hd (tails x) h0 (fun j v hv => ?_) h1 (m + n) (by omega)
  obtain rfl : ⌊tails x j⌋ = v := by simpa using hv
  exact ⟨Int.floor_nonneg.2 (tails_pos hx h0 j).le, tails_pos hx h0 (j + 1), tails_eq x j⟩

example : ∃ m k, ∀ n, ∃ outs s, Outs Call (Homo.new (fun i => some ⌊tails (√2) i⌋) 3 1 2 1) outs s ∧
    outs.length = m + n ∧ ∀ i (hi : m + i < outs.length), outs[m + i] = ⌊tails (√2) (k + i)⌋ :=
  homo_unimodular _ irrational_sqrt_two (by positivity) 3 1 2 1 (by decide) (by decide) (by decide) (by decide)
    (by decide)

/-- **C116** a homographic function of the output of a homographic function: the coefficients are those of the composed function. `src`
is the second source, the items given by the first iterator. -/
theorem homo_compose (x : ℝ) (hx : Irrational x) (h0 : 0 < x) (a b c d a' b' c' d' : ℤ) (ha : 0 ≤ a) (hb : 0 ≤ b)
    (hc : 0 ≤ c) (hd : 0 ≤ d) (hdet : a * d ≠ b * c) (ha' : 0 ≤ a') (hb' : 0 ≤ b') (hc' : 0 ≤ c') (hd' : 0 ≤ d')
    (hdet' : a' * d' ≠ b' * c') (src : ℕ → Option ℤ)
    (hsrc : ∀ n, ∃ outs s, Outs Call (Homo.new (fun i => some ⌊tails x i⌋) a b c d) outs s ∧ outs.length = n ∧
      ∀ i (hi : i < outs.length), src i = some outs[i]) (n : ℕ) :
    ∃ outs s s', outs.length = n ∧ Outs Call (Homo.new src a' b' c' d') outs s ∧
      Outs Call (Homo.new (fun i => some ⌊tails x i⌋) (a' * a + b' * c) (a' * b + b' * d) (c' * a + d' * c)
        (c' * b + d' * d)) outs s' := by
  obtain ⟨hy, hy0⟩ := mobius_pos hx h0 ha hb hc hd hdet
  have hden : (c : ℝ) * x + d ≠ 0 := den_ne hx (by rintro ⟨rfl, rfl⟩; simp at hdet)
  have e : src = fun i => some ⌊tails ((a * x + b) / (c * x + d)) i⌋ := by
    funext i
    obtain ⟨outs, s, h1, h2, h3⟩ := hsrc (i + 1)
    rw [h3 i (by omega)]
    congr 1
    refine homo_regular _ a b c d ha hb hc hd (tails x) h0 (fun j v hv => ?_) h1 i (by omega)
    obtain rfl : ⌊tails x j⌋ = v := by simpa using hv
    exact ⟨Int.floor_nonneg.2 (tails_pos hx h0 j).le, tails_pos hx h0 (j + 1), tails_eq x j⟩
  rw [e]
  obtain ⟨s, hs⟩ := homo_productive _ hy hy0 a' b' c' d' ha' hb' hc' hd' hdet' n
  obtain ⟨s', hs'⟩ := homo_productive x hx h0 (a' * a + b' * c) (a' * b + b' * d) (c' * a + d' * c) (c' * b + d' * d)
    (by positivity) (by positivity) (by positivity) (by positivity)
    (by
      intro h
      have h1 : (a' * d' - b' * c') * (a * d - b * c) = 0 := by linear_combination h
      rcases mul_eq_zero.1 h1 with h2 | h2 <;> omega) n
  refine ⟨_, s, s', by simp, hs, ?_⟩
  convert hs' using 3
  congr 2
  have e : ∀ u v : ℝ, u * ((a * x + b) / (c * x + d)) + v = ((u * a + v * c) * x + (u * b + v * d)) / (c * x + d) := by
    intro u v
    rw [eq_div_iff hden, add_mul, mul_assoc, div_mul_cancel₀ _ hden]
    ring
  rw [e, e, div_div_div_cancel_right₀ hden]
  push_cast
  rfl

/-- `(2y + 1)/(y + 3)` of the outputs for `y = (√2 + 1)/2` -/
example (n : ℕ) : ∃ outs s s', outs.length = n ∧
    Outs Call (Homo.new (fun i => some ⌊tails ((√2 + 1) / 2) i⌋) 2 1 1 3) outs s ∧
    Outs Call (Homo.new (fun i => some ⌊tails (√2) i⌋) 2 4 1 7) outs s' := by
  refine homo_compose (√2) irrational_sqrt_two (by positivity) 1 1 0 2 2 1 1 3 (by decide) (by decide) (by decide)
    (by decide) (by decide) (by decide) (by decide) (by decide) (by decide) (by decide) _ (fun m => ?_) n
  obtain ⟨s, hs⟩ := homo_productive (√2) irrational_sqrt_two (by positivity) 1 1 0 2 (by decide) (by decide) (by decide)
    (by decide) (by decide) m
  exact ⟨_, s, hs, by simp, fun i hi => by simp⟩

end Homo

namespace CF

theorem irrational_of_abs {v : ℝ} (h : Irrational |v|) : Irrational v := by
  rcases abs_choice v with e | e
  · rwa [e] at h
  · rw [e] at h; exact irrational_neg_iff.1 h

theorem equivalent_abs (v : ℝ) : Equivalent v |v| := by
  rcases abs_choice v with e | e <;> rw [e]
  · exact Equivalent.refl v
  · exact ⟨-1, 0, 0, 1, by simp, by simp, by simp⟩

/-- **C115** two periodic fractions written with the shortest period have the same period up to rotation exactly if their values are
equivalent. -/
theorem cf_equivalent_period (c c' : CF) (h : c.Wf) (hp : c.p ≠ []) (h' : c'.Wf) (hp' : c'.p ≠ [])
    (hs : c.ShortestPeriod) (hs' : c'.ShortestPeriod) (v v' : ℝ) (hv : c.HasVal v) (hv' : c'.HasVal v') :
    Equivalent v v' ↔ c.p ~r c'.p := by
  obtain ⟨-, hi, -, -, hco⟩ := coeff_of_val h hp hv
  obtain ⟨-, hi', -, -, hco'⟩ := coeff_of_val h' hp' hv'
  have e1 : Equivalent v v' ↔ Equivalent |v| |v'| :=
    ⟨fun e => ((equivalent_abs v).symm.trans e).trans (equivalent_abs v'),
      fun e => ((equivalent_abs v).trans e).trans (equivalent_abs v').symm⟩
  rw [e1, equivalent_iff _ _ hi hi']
  constructor
  · rintro ⟨m, k, e⟩
    refine periods_rotated hp hp' hs hs' (m := m) (k := k) fun n => ?_
    have := e n
    rw [← hco, ← hco'] at this
    exact_mod_cast this
  · intro hr
    obtain ⟨m, k, e⟩ := rotated_periods hp hr
    exact ⟨m, k, fun n => by rw [← hco, ← hco', e n]⟩

private theorem conj_half {c c' : CF} (h : c.Wf) (hp : c.p ≠ []) (h' : c'.Wf) (hp' : c'.p ≠ []) {v w : ℝ}
    (hv : c.HasVal v) (hv' : c'.HasVal w) (hc : ConjRoots v w) :
    ∃ m k, ∀ n, coeffAt c'.a c'.p (m + n) = coeffAt [] c.p.reverse (k + n) := by
  obtain ⟨-, hi, -, hlim, hco⟩ := coeff_of_val h hp hv
  obtain ⟨-, hi', -, -, hco'⟩ := coeff_of_val h' hp' hv'
  have hirr := irrational_of_abs hi
  have hpos : ∀ u ∈ c.p, 1 ≤ u := h.2.2
  have hposr : ∀ u ∈ c.p.reverse, 1 ≤ u := fun u hu => hpos u (List.mem_reverse.1 hu)
  have hrne : c.p.reverse ≠ [] := by simpa using hp
  obtain ⟨th, -, t2, -⟩ := periodic_fix hp hpos
  obtain ⟨y, -, y2, -⟩ := periodic_fix hrne hposr
  obtain ⟨k1, k2, k3⟩ := pure_conj hp hpos t2 y2
  have seq : ∀ l : List ℕ, l ≠ [] → (∀ u ∈ l, 1 ≤ u) → PosSeq (coeffAt [] (toInts l)) := fun l hl hl1 n => by
    have := coeffAt_mem [] (toInts l) (toInts_ne_nil hl) (n := n + 1) (by simp)
    obtain ⟨m, hm, e⟩ := List.mem_map.1 this
    rw [← e]; exact_mod_cast hl1 m hm
  have fl : ∀ (l : List ℕ) (z : ℝ), l ≠ [] → (∀ u ∈ l, 1 ≤ u) → ValOf [] (toInts l) z →
      ∀ n, ((coeffAt [] l n : ℕ) : ℤ) = ⌊tails z n⌋ := fun l z hl hl1 hz n => by
    have s := seq l hl hl1
    rw [(valOf_iff (toInts_ne_nil hl) s).1 hz, (tails_cfLim s n).1, (tails_cfLim s n).2]
    exact (coeffAt_map (fun n : Nat => (n : Int)) rfl [] l n).symm
  have irrOf : ∀ (l : List ℕ) (z : ℝ), l ≠ [] → (∀ u ∈ l, 1 ≤ u) → ValOf [] (toInts l) z → 1 < z → Irrational z := by
    intro l z hl hl1 hz h1
    have hw : Wf ⟨l, l, false⟩ := ⟨hl, fun v hv => hl1 v (List.mem_of_mem_tail hv), hl1⟩
    have := (coeff_of_val hw hl ⟨_, valOf_self (p := toInts l) (toInts_ne_nil hl) hz, rfl⟩).2.1
    exact irrational_of_abs this
  have hti := irrOf _ _ hp hpos t2 k1
  have hyi := irrOf _ _ hrne hposr y2 k2
  -- the number is equivalent to its periodic tail
  have hE : Equivalent v th := by
    refine (equivalent_abs v).trans ((equivalent_iff _ _ hi hti).2 ⟨c.a.length, 0, fun n => ?_⟩)
    rw [← hco, ← fl c.p th hp hpos t2]
    rw [coeffAt_ge _ _ (by omega), coeffAt_ge _ _ (by simp)]
    simp
  obtain ⟨a, b, cc, d, hdet, -, e⟩ := hE
  have hconj := hc.map hirr (det_ne hdet)
  rw [← e] at hconj
  have e1 := hconj.unique hti k3
  have hwi := irrational_of_abs hi'
  have hE' : Equivalent w y := by
    refine Equivalent.trans ⟨a, b, cc, d, hdet, irr_den hwi hdet, rfl⟩ ?_
    rw [e1]
    have hy0 : y ≠ 0 := by linarith
    refine ⟨0, -1, 1, 0, by simp, ?_, ?_⟩
    · push_cast
      simp [hy0]
    · push_cast
      field_simp
      simp
  have hE2 := (equivalent_abs w).symm.trans hE'
  obtain ⟨m, k, hmk⟩ := (equivalent_iff _ _ hi' hyi).1 hE2
  refine ⟨m, k, fun n => ?_⟩
  have := hmk n
  rw [← hco', ← fl _ _ hrne hposr y2] at this
  exact_mod_cast this

/-- **C115** the fraction of the conjugate number has, up to rotation, the period read backwards. -/
theorem cf_conj_period (c c' : CF) (h : c.Wf) (hp : c.p ≠ []) (h' : c'.Wf) (hp' : c'.p ≠ []) (hs : c.ShortestPeriod)
    (hs' : c'.ShortestPeriod) (v w : ℝ) (hv : c.HasVal v) (hv' : c'.HasVal w) (hc : ConjRoots v w) :
    c'.p ~r c.p.reverse := by
  obtain ⟨m, k, e⟩ := conj_half h hp h' hp' hv hv' hc
  obtain ⟨m', k', e'⟩ := conj_half h' hp' h hp hv' hv hc.symm
  have l1 := period_le (by simpa using hp) hs' e
  have l2 := period_le (by simpa using hp') hs e'
  simp only [List.length_reverse] at l1 l2
  exact rotated_of_length hp' (by simpa using le_antisymm l1 l2) e

end CF

namespace Surd

/-- **C115** for the fractions computed from two irrational surds: their periods are the same up to rotation exactly if the numbers are
equivalent. (A number that loses its sign, see C35, makes no difference; for one that is replaced by its conjugate see
`surd_period_swapped`.) -/
theorem surd_equivalent_period (cfg : Cfg) (s t : Surd) (hs : s.RealOk) (hs0 : s.r ≠ 0) (ht : t.RealOk) (ht0 : t.r ≠ 0)
    (h1 : ¬ Swapped s) (h2 : ¬ Swapped t) (fuel fuel' : ℕ) (c c' : CF)
    (hc : s.toContfrac cfg fuel = some (.ok (some c))) (hc' : t.toContfrac cfg fuel' = some (.ok (some c'))) :
    Equivalent s.val t.val ↔ c.p ~r c'.p := by
  have ev : ∀ u : Surd, ¬ Swapped u → Equivalent u.val u.cfValue := fun u hu => by
    unfold cfValue
    rw [if_neg hu]
    split
    · exact ⟨-1, 0, 0, 1, by simp, by simp, by simp⟩
    · exact Equivalent.refl _
  obtain ⟨w1, w2, w3⟩ := surd_toContfrac_value cfg s hs hs0 fuel c hc
  obtain ⟨w4, w5, w6⟩ := surd_toContfrac_value cfg t ht ht0 fuel' c' hc'
  rw [← CF.cf_equivalent_period c c' w1 w2 w4 w5 (surd_toContfrac_period cfg s hs hs0 fuel c hc)
    (surd_toContfrac_period cfg t ht ht0 fuel' c' hc') _ _ w3 w6]
  exact ⟨fun e => ((ev s h1).symm.trans e).trans (ev t h2), fun e => ((ev s h1).trans e).trans (ev t h2).symm⟩

/-- **C115** so adding an integer, negating and inverting change the computed period at most by a rotation. -/
theorem surd_shift_period (cfg : Cfg) (s t : Surd) (hs : s.RealOk) (hs0 : s.r ≠ 0) (ht : t.RealOk) (ht0 : t.r ≠ 0)
    (h1 : ¬ Swapped s) (h2 : ¬ Swapped t) (fuel fuel' : ℕ) (c c' : CF)
    (hc : s.toContfrac cfg fuel = some (.ok (some c))) (hc' : t.toContfrac cfg fuel' = some (.ok (some c'))) (n : ℤ)
    (h : t.val = s.val + n ∨ t.val = n - s.val ∨ t.val = 1 / s.val) : c.p ~r c'.p := by
  refine (surd_equivalent_period cfg s t hs hs0 ht ht0 h1 h2 fuel fuel' c c' hc hc').1 ?_
  rcases h with h | h | h
  · exact ⟨1, n, 0, 1, by simp, by simp, by rw [h]; simp⟩
  · exact ⟨-1, n, 0, 1, by simp, by simp, by rw [h]; push_cast; ring⟩
  · refine ⟨0, 1, 1, 0, by simp, ?_, by rw [h]; simp⟩
    obtain ⟨w1, w2, w3⟩ := surd_toContfrac_value cfg s hs hs0 fuel c hc
    have h0 := (CF.coeff_of_val w1 w2 w3).1
    rw [cfValue, if_neg h1] at h0
    have h3 : s.val ≠ 0 := fun e => h0 (by rw [e]; simp)
    simpa using h3

/-- `√7`, `1/√7` and `(1 + √7)/2` are equivalent -/
example : RealOk ⟨0, 1, 1, 7⟩ ∧ RealOk ⟨0, 1, 7, 7⟩ ∧ RealOk ⟨1, 1, 2, 7⟩ ∧
    toContfrac ⟨false, true⟩ 10 ⟨0, 1, 1, 7⟩ = some (.ok (some ⟨[2], [1, 1, 1, 4], false⟩)) ∧
    toContfrac ⟨false, true⟩ 10 ⟨0, 1, 7, 7⟩ = some (.ok (some ⟨[0, 2], [1, 1, 1, 4], false⟩)) ∧
    toContfrac ⟨false, true⟩ 10 ⟨1, 1, 2, 7⟩ = some (.ok (some ⟨[1], [1, 4, 1, 1], false⟩)) ∧
    ¬ Swapped ⟨0, 1, 1, 7⟩ := by
  refine ⟨(by decide +kernel : RealOk _), (by decide +kernel : RealOk _), (by decide +kernel : RealOk _), by decide +kernel,
    by decide +kernel, by decide +kernel, fun h => h.1 (by decide)⟩

/-- `√10` and `√10/2` are not -/
example (cfg : Cfg) : ¬ Equivalent (val ⟨0, 1, 1, 10⟩) (val ⟨0, 1, 2, 10⟩) := by
  have h1 : toContfrac cfg 10 ⟨0, 1, 1, 10⟩ = some (.ok (some ⟨[3], [6], false⟩)) := by
    obtain ⟨c, d⟩ := cfg
    cases c <;> cases d <;> decide +kernel
  have h2 : toContfrac cfg 10 ⟨0, 1, 2, 10⟩ = some (.ok (some ⟨[1], [1, 1, 2], false⟩)) := by
    obtain ⟨c, d⟩ := cfg
    cases c <;> cases d <;> decide +kernel
  rw [surd_equivalent_period cfg _ _ (by decide +kernel) (by decide) (by decide +kernel) (by decide)
    (fun h => h.1 (by decide)) (fun h => h.1 (by decide)) 10 10 _ _ h1 h2]
  intro h
  simpa using h.perm.length_eq

/-- **C115** the period computed for a surd which is replaced by its conjugate (C35) is that of the number read backwards. -/
theorem surd_period_swapped (cfg : Cfg) (s : Surd) (hs : s.RealOk) (hs0 : s.r ≠ 0) (h1 : Swapped s) (fuel : ℕ) (c d : CF)
    (hc : s.toContfrac cfg fuel = some (.ok (some c))) (hd : d.Wf) (hdp : d.p ≠ []) (hds : d.ShortestPeriod)
    (hdv : d.HasVal s.val) : c.p ~r d.p.reverse := by
  obtain ⟨w1, w2, w3⟩ := surd_toContfrac_value cfg s hs hs0 fuel c hc
  rw [cfValue, if_pos h1] at w3
  refine CF.cf_conj_period d c hd hdp w1 w2 hds (surd_toContfrac_period cfg s hs hs0 fuel c hc) _ _ hdv w3 (val_conj hs hs0)

end Surd
end NumIrr
