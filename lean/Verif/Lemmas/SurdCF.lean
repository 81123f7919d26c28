/-
`quadsurd_to_contfrac` on quadratic irrationals.
-/
import Verif.Lemmas.CFShape
import Verif.Lemmas.Root
import Verif.Spec.SurdCF

namespace NumIrr
namespace Lagrange

variable {d rd p q : ℤ}

theorem root_isqrt (h : 0 ≤ d) (hs : ¬ IsSquare d) : Root d (isqrt d) := by
  have h1 := isqrt_le d h
  have h2 := lt_succ_isqrt d
  have h3 := isqrt_nonneg d
  have h4 : isqrt d * isqrt d ≠ d := fun e => hs ⟨_, e.symm⟩
  refine ⟨?_, by omega, h2⟩
  by_contra h5
  have h6 : isqrt d = 0 := by omega
  rw [h6] at h2 h4
  have : d = 0 := by omega
  exact h4 (by simp [this])

theorem Run.head {l : List ℤ} {p' q' : ℤ} (h : Run d rd p q l p' q') :
    ∃ t, l = coef rd p q :: t ∧ (t = [] ∨ Run d rd (nextP rd p q) (nextQ d rd p q) t p' q') := by
  cases h with
  | stop => exact ⟨[], rfl, .inl rfl⟩
  | step _ _ _ h => exact ⟨_, rfl, .inr h⟩

/-- the sign of the result is lost exactly here -/
theorem run_flip (hr : Root d rd) (h : Valid d p q) {l : List ℤ} {p' q' : ℤ}
    (hrun : Run d rd p q l p' q') : (∃ t, l = 1 :: t ∧ Tail t) ↔ q < 0 ∧ rd + p = q := by
  constructor
  · rintro ⟨t, rfl, ht⟩
    obtain ⟨B, t', rfl, hB⟩ := CF.tail_head ht
    obtain ⟨t'', e, hrun'⟩ := hrun.head
    obtain ⟨e1, rfl⟩ := List.cons.inj e
    by_cases hoff : Off rd p q
    · refine ⟨hoff.1, ?_⟩
      have := (off_next hoff).1
      rw [← e1] at this
      omega
    · exfalso
      rcases hrun' with hrun | hrun
      · cases hrun
      · have hv := next_valid hr h
        have hg := next_gt_one hr h hoff
        have hc : B = coef rd (nextP rd p q) (nextQ d rd p q) := by
          obtain ⟨t'', e, -⟩ := hrun.head
          exact (List.cons.inj e).1
        have : 1 ≤ B := by
          rw [hc]
          by_cases hoff' : Off rd (nextP rd p q) (nextQ d rd p q)
          · have := (off_floor hr hoff').2
            have : (1 : ℝ) < coef rd (nextP rd p q) (nextQ d rd p q) := by linarith
            have : 1 < coef rd (nextP rd p q) (nextQ d rd p q) := by exact_mod_cast this
            omega
          · exact coef_ge hr hv hoff' (by push_cast; linarith)
        omega
  · rintro ⟨hq, he⟩
    have hoff : Off rd p q := ⟨hq, by rw [he]⟩
    have hc : coef rd p q = 1 := by
      have := (off_next hoff).1
      rw [he] at this
      exact mul_right_cancel₀ hq.ne (by rw [this]; ring)
    rcases run_off hr h hoff with ⟨l', p'', q'', h1, h2⟩ | h1
    · obtain ⟨e, -, -⟩ := hrun.det h1
      exact ⟨l', by rw [e, hc], h2⟩
    · exfalso
      have h2 := headLoop_stuck hr l.length [] p q p q h (.refl p q) h1
      rw [headLoop_of_run hr hrun h _ le_rfl []] at h2
      cases h2

end Lagrange

open Lagrange

/-- everything after the normalisation -/
def cfOfState (debug : Bool) (fuel : Nat) (d rd p q : Int) (neg : Bool) : Option (Res CF) :=
  match headLoop d rd fuel [] p q with
  | none => none
  | some (.error e) => some (.error e)
  | some (.ok (as, p', q')) =>
    match periodLoop d rd p' q' fuel [] p' q' with
    | none => none
    | some (.error e) => some (.error e)
    | some (.ok ps) => some (CF.new debug as ps neg)

theorem quadsurd_eq (cfg : Cfg) (fuel : Nat) {a b c r : Int} (neg : Bool) (hc : c ≠ 0) (hr : 0 ≤ r) (hs : ¬ IsSquare r)
    {d p q : Int} (hpq : pqForm a b c r = .ok (d, p, q)) (hd : 0 ≤ d) :
    quadsurdToContfrac cfg fuel a b c r neg = cfOfState cfg.debug fuel d (isqrt d) p q neg := by
  unfold quadsurdToContfrac
  rw [if_neg (by simp [hc, hr]), if_neg (by
    rintro ⟨-, h⟩
    exact hs ((isqrt_mul_self_eq_iff hr).1 h)), hpq]
  simp only [sqrtR]
  rw [if_neg (by omega)]
  rfl

/-- never, on a state leading to a stuck one -/
theorem cfOfState_stuck (debug : Bool) (fuel : Nat) {d rd p q p' q' : Int} (neg : Bool) (hr : Root d rd) (h : Valid d p q)
    (h1 : Reach d rd p q p' q') (h2 : Stuck d rd p' q') : cfOfState debug fuel d rd p q neg = none := by
  unfold cfOfState
  rw [headLoop_stuck hr fuel [] p q p' q' h h1 h2]

/-- otherwise it returns, and only the sign can be wrong -/
theorem cfOfState_spec (debug : Bool) {d rd p q : Int} (neg : Bool) (hr : Root d rd) (h : Valid d p q) (h0 : 0 < th d p q)
    (hst : ¬ ∃ p' q', Reach d rd p q p' q' ∧ Stuck d rd p' q') :
    ∃ N c, (∀ fuel, N ≤ fuel → cfOfState debug fuel d rd p q neg = some (.ok c)) ∧
      (∀ fuel x, cfOfState debug fuel d rd p q neg = some x → x = .ok c) ∧ c.Wf ∧ c.p ≠ [] ∧
      c.HasVal (signed c.neg (th d p q)) ∧ c.neg = (if q < 0 ∧ rd + p = q then false else neg) ∧
      (∀ l p' q', Run d rd p q l p' q' → (∀ v ∈ l.tail, 1 ≤ v) → toInts c.a = l) := by
  obtain ⟨l, p', q', hrun, hsh⟩ := (run_pos hr h h0).resolve_right hst
  obtain ⟨hv', hred'⟩ := hrun.valid hr h
  obtain ⟨ns, hns, hns1, hper, hval⟩ := period_spec hr ⟨hv', hred'⟩
  have hne : toInts ns ≠ [] := CF.toInts_ne_nil hns
  have hx := hrun.valOf hr h hne hval
  have hp1 : ∀ v ∈ toInts ns, 1 ≤ v := by
    intro v hv
    obtain ⟨n, hn, rfl⟩ := List.mem_map.1 hv
    exact_mod_cast hns1 n hn
  obtain ⟨c, k1, k2, k3, k4, k5, k6⟩ := CF.new_shape debug hsh hne hp1 neg hx h0
  refine ⟨max l.length (toInts ns).length, c, fun fuel hf => ?_, fun fuel x hxx => ?_, k2, ?_, k4, ?_, ?_⟩
  · unfold cfOfState
    rw [headLoop_of_run hr hrun h fuel (by omega) []]
    simp only
    rw [periodLoop_of_pRun hr hper hv' fuel (by omega) []]
    simp only [List.reverse_nil, List.nil_append]
    rw [k1]
  · unfold cfOfState at hxx
    cases hh : headLoop d rd fuel [] p q with
    | none => rw [hh] at hxx; cases hxx
    | some y =>
      obtain ⟨l', p'', q'', e1, e2, -⟩ := run_of_headLoop hr fuel [] p q h y hh
      obtain ⟨rfl, rfl, rfl⟩ := hrun.det e2
      subst e1
      rw [hh] at hxx
      simp only at hxx
      cases hh2 : periodLoop d rd p' q' fuel [] p' q' with
      | none => rw [hh2] at hxx; cases hxx
      | some z =>
        obtain ⟨l'', e3, e4⟩ := pRun_of_periodLoop hr fuel [] p' q' hv' z hh2
        have := e4.det hper
        subst this
        subst e3
        rw [hh2] at hxx
        simp only [List.reverse_nil, List.nil_append] at hxx
        rw [k1] at hxx
        exact (Option.some.inj hxx).symm
  · intro hc
    rw [hc] at k3
    exact hne k3.symm
  · rcases k5 with ⟨h1, h2⟩ | ⟨h1, h2⟩
    · rw [if_pos ((run_flip hr h hrun).1 h1), h2]
    · rw [if_neg (fun h3 => h1 ((run_flip hr h hrun).2 h3)), h2]
  · intro l' p'' q'' hrun' hl
    obtain ⟨rfl, -, -⟩ := hrun.det hrun'
    exact k6 hl


/-! ### Complete quotients -/

namespace Lagrange
variable {d rd p q : ℤ}

theorem Root.floor (hr : Root d rd) : ⌊√(d : ℝ)⌋ = rd := by
  rw [Int.floor_eq_iff]
  exact ⟨hr.lt.le, hr.gt⟩

theorem th_inj (hr : Root d rd) {P Q : ℤ} (h : Valid d p q) (hQ : Q ≠ 0) (e : th d p q = (P + √(d : ℝ)) / Q) :
    p = P ∧ q = Q := by
  unfold th at e
  have hQ' : (Q : ℝ) ≠ 0 := by exact_mod_cast hQ
  rw [div_eq_div_iff h.neR hQ'] at e
  have e' : √(d : ℝ) * ((Q - q : ℤ) : ℝ) = ((P * q - p * Q : ℤ) : ℝ) := by push_cast; linear_combination e
  have hs := hr.sq
  have hqQ : q = Q := by
    by_contra hne
    have h1 : (d : ℝ) * ((Q - q : ℤ) : ℝ) * ((Q - q : ℤ) : ℝ) = ((P * q - p * Q : ℤ) : ℝ) * ((P * q - p * Q : ℤ) : ℝ) := by
      rw [← e']; linear_combination -(((Q - q : ℤ) : ℝ) * ((Q - q : ℤ) : ℝ)) * hs
    have h2 : d * (Q - q) * (Q - q) = (P * q - p * Q) * (P * q - p * Q) := by exact_mod_cast h1
    have h3 : Q - q ≠ 0 := sub_ne_zero.2 (Ne.symm hne)
    have h4 : (Q - q) * (Q - q) ∣ (P * q - p * Q) * (P * q - p * Q) := ⟨d, by rw [← h2]; ring⟩
    have h5 : Q - q ∣ P * q - p * Q := by
      rw [← sq, ← sq] at h4
      exact (Int.pow_dvd_pow_iff (by norm_num)).1 h4
    obtain ⟨k, hk⟩ := h5
    rw [hk] at h2
    have : d = k * k := by
      apply mul_right_cancel₀ (mul_ne_zero h3 h3)
      linear_combination h2
    exact hr.nsq k this
  subst hqQ
  refine ⟨?_, rfl⟩
  have : (P : ℝ) * q = p * q := by
    have := e'
    push_cast at this
    linear_combination -this
  have := mul_right_cancel₀ h.neR this
  exact_mod_cast this.symm

theorem tooLarge_iff (hr : Root d rd) (h : Valid d p q) : TooLarge d (th d p q) ↔ Off rd p q := by
  unfold TooLarge
  rw [hr.floor]
  constructor
  · rintro ⟨P, Q, h1, h2, h3, h4⟩
    obtain ⟨rfl, rfl⟩ := th_inj hr h h1.ne h3
    exact ⟨h1, h4⟩
  · rintro ⟨h1, h2⟩
    exact ⟨p, q, h1, h.dvd, rfl, h2⟩

theorem stuckAt_iff (hr : Root d rd) (h : Valid d p q) : StuckAt d (th d p q) ↔ Stuck d rd p q := by
  unfold StuckAt
  rw [hr.floor]
  constructor
  · rintro ⟨P, Q, h1, h2, h3, h4, h5, h6⟩
    obtain ⟨rfl, rfl⟩ := th_inj hr h h1.ne h3
    exact ⟨h1, h4, h5, h6⟩
  · rintro ⟨h1, h2, h3, h4⟩
    exact ⟨p, q, h1, h.dvd, rfl, h2, h3, h4⟩

theorem th_next_tails (hr : Root d rd) (h : Valid d p q) (hoff : ¬ Off rd p q) :
    1 / (th d p q - ⌊th d p q⌋) = th d (nextP rd p q) (nextQ d rd p q) := by
  obtain ⟨h1, h2⟩ := coef_exact hr h hoff
  have : ⌊th d p q⌋ = coef rd p q := by rw [Int.floor_eq_iff]; exact ⟨h1.le, h2⟩
  rw [this]
  have h3 := next_th hr h
  have h4 : th d p q - coef rd p q ≠ 0 := by intro h5; rw [h5, zero_mul] at h3; exact zero_ne_one h3
  rw [div_eq_iff h4]; linarith

theorem stuck_reach_iff (hr : Root d rd) (h : Valid d p q) :
    (∃ p' q', Reach d rd p q p' q' ∧ Stuck d rd p' q') ↔
    ∃ n, StuckAt d (tails (th d p q) n) ∧ ∀ m < n, ¬ TooLarge d (tails (th d p q) m) := by
  constructor
  · rintro ⟨p', q', h1, h2⟩
    induction h1 with
    | refl p q => exact ⟨0, (stuckAt_iff hr h).2 h2, by simp⟩
    | @step p q p' q' h1 ih =>
      by_cases hoff : Off rd p q
      · rcases run_off hr h hoff with ⟨l, p'', q'', h3, -⟩ | h3
        · exfalso
          have h4 := headLoop_stuck hr (coef rd p q :: l).length [] p q p' q' h (.step h1) h2
          rw [headLoop_of_run hr h3 h _ le_rfl []] at h4
          cases h4
        · exact ⟨0, (stuckAt_iff hr h).2 h3, by simp⟩
      · obtain ⟨n, h3, h4⟩ := ih (next_valid hr h) h2
        refine ⟨n + 1, ?_, fun m hm => ?_⟩
        · show StuckAt d (tails (1 / (th d p q - ⌊th d p q⌋)) n)
          rwa [th_next_tails hr h hoff]
        · cases m with
          | zero => exact fun h5 => hoff ((tooLarge_iff hr h).1 h5)
          | succ m =>
            show ¬ TooLarge d (tails (1 / (th d p q - ⌊th d p q⌋)) m)
            rw [th_next_tails hr h hoff]
            exact h4 m (by omega)
  · rintro ⟨n, h1, h2⟩
    induction n generalizing p q with
    | zero => exact ⟨p, q, .refl p q, (stuckAt_iff hr h).1 h1⟩
    | succ n ih =>
      have hoff : ¬ Off rd p q := fun h3 => h2 0 (by omega) ((tooLarge_iff hr h).2 h3)
      have e := th_next_tails hr h hoff
      obtain ⟨p', q', h3, h4⟩ := ih (next_valid hr h) (by rw [← e]; exact h1) (fun m hm => by
        rw [← e]; exact h2 (m + 1) (by omega))
      exact ⟨p', q', .step h3, h4⟩

/-- numbers with a conjugate of opposite sign never get stuck, and have at most two coefficients before the period -/
theorem neg_conj_run (hr : Root d rd) (h : Valid d p q) (h0 : 0 < th d p q) (h1 : thc d p q < 0) :
    (¬ ∃ p' q', Reach d rd p q p' q' ∧ Stuck d rd p' q') ∧
    ∃ l p' q', Run d rd p q l p' q' ∧ l.length ≤ 2 ∧ ∀ v ∈ l.tail, 1 ≤ v := by
  have hq := (q_pos_iff hr h).2 (by linarith)
  have hoff := not_off (rd := rd) (p := p) hq
  have ha : 0 ≤ coef rd p q := coef_ge hr h hoff (by push_cast; linarith)
  have ha' : (0 : ℝ) ≤ coef rd p q := by exact_mod_cast ha
  have hv := next_valid hr h
  have hg := next_gt_one hr h hoff
  have hc := inv_neg' (next_thc hr h) (by linarith)
  obtain ⟨h2, h3, h4⟩ := run_neg hr hv hg hc
  have hq1 := (q_pos_iff hr hv).2 (by linarith)
  constructor
  · rintro ⟨p', q', h5, h6⟩
    have : 0 < q' := by
      cases h5 with
      | refl => exact hq
      | step h5 =>
        cases h5 with
        | refl => exact hq1
        | step h5 => exact (h5.red hr ⟨next_valid hr hv, h3⟩).qpos hr
    have := h6.1
    omega
  · by_cases hred : isReduced rd (nextP rd p q) (nextQ d rd p q) = true
    · exact ⟨_, _, _, .stop p q hred, by simp, by simp⟩
    · exact ⟨_, _, _, .step p q (by simpa using hred) h4, by simp, by simpa using h2⟩

end Lagrange

/-! ### The normalisation -/

section pq
variable {a b c r : ℤ}

theorem nonsquare_mul (hr : ¬ IsSquare r) {k : ℤ} (hk : k ≠ 0) : ¬ IsSquare (r * k * k) := by
  rintro ⟨m, hm⟩
  have h1 : k ∣ m := by
    have : k ^ 2 ∣ m ^ 2 := ⟨r, by rw [sq, sq, ← hm]; ring⟩
    exact (Int.pow_dvd_pow_iff (by norm_num)).1 this
  obtain ⟨n, rfl⟩ := h1
  exact hr ⟨n, by apply mul_right_cancel₀ (mul_ne_zero hk hk); linear_combination hm⟩

theorem sqrt_mul_sq (k : ℤ) : √((r * k * k : ℤ) : ℝ) = |(k : ℝ)| * √(r : ℝ) := by
  push_cast
  rw [mul_assoc, ← sq, mul_comm, Real.sqrt_mul (sq_nonneg _), Real.sqrt_sq_eq_abs]

theorem pqForm_dvd (hc : 0 < c) (hd : c ∣ r * b * b - a * a) :
    pqForm a b c r = .ok (r * b * b, (if b < 0 then -a else a), if b < 0 then -c else c) := by
  unfold pqForm remR
  by_cases hb : b < 0
  · simp only [hb, if_true]
    rw [if_neg (by omega)]
    have : (r * b * b - -a * -a).tmod (-c) = 0 := Int.tmod_eq_zero_of_dvd (by
      rw [neg_mul_neg]; exact (neg_dvd).2 hd)
    rw [this]; rfl
  · simp only [hb, if_false]
    rw [if_neg (by omega)]
    have : (r * b * b - a * a).tmod c = 0 := Int.tmod_eq_zero_of_dvd hd
    rw [this]; rfl

theorem pqForm_ndvd (hc : 0 < c) (hd : ¬ c ∣ r * b * b - a * a) :
    pqForm a b c r = .ok (r * b * b * c * c, a * c, c * c) := by
  unfold pqForm remR
  by_cases hb : b < 0
  · simp only [hb, if_true]
    rw [if_neg (by omega)]
    have : (r * b * b - -a * -a).tmod (-c) ≠ 0 := fun h => hd (by
      have := Int.dvd_of_tmod_eq_zero h
      rw [neg_mul_neg] at this; exact (neg_dvd).1 this)
    show (if _ then _ else _) = _
    rw [if_pos this]
    simp
    rfl
  · simp only [hb, if_false]
    rw [if_neg (by omega)]
    have : (r * b * b - a * a).tmod c ≠ 0 := fun h => hd (Int.dvd_of_tmod_eq_zero h)
    show (if _ then _ else _) = _
    rw [if_pos this]
    rfl

/-- the discriminant used -/
def disc (a b c r : ℤ) : ℤ := if c ∣ r * b * b - a * a then r * b * b else r * b * b * c * c

theorem disc_root (hc : 0 < c) (hr : 0 ≤ r) (hs : ¬ IsSquare r) (hb : b ≠ 0) :
    Lagrange.Root (disc a b c r) (isqrt (disc a b c r)) := by
  apply Lagrange.root_isqrt
  · unfold disc
    split
    · rw [mul_assoc]; exact mul_nonneg hr (mul_self_nonneg b)
    · rw [mul_assoc, mul_assoc r]; exact mul_nonneg (mul_nonneg hr (mul_self_nonneg b)) (mul_self_nonneg c)
  · unfold disc
    split
    · exact nonsquare_mul hs hb
    · exact nonsquare_mul (nonsquare_mul hs hb) hc.ne'

/-- the number that is expanded -/
noncomputable def startVal (a b c r : ℤ) : ℝ :=
  if c ∣ r * b * b - a * a then quadR a b c r else quadR a |b| c r

noncomputable def startConj (a b c r : ℤ) : ℝ :=
  if c ∣ r * b * b - a * a then quadR a (-b) c r else quadR a (-|b|) c r

theorem pqForm_spec (hc : 0 < c) :
    ∃ p q, pqForm a b c r = .ok (disc a b c r, p, q) ∧ Lagrange.Valid (disc a b c r) p q ∧
      Lagrange.th (disc a b c r) p q = startVal a b c r ∧ Lagrange.thc (disc a b c r) p q = startConj a b c r ∧
      (q < 0 ∧ isqrt (disc a b c r) + p = q ↔
        b < 0 ∧ c ∣ r * b * b - a * a ∧ isqrt (disc a b c r) - a = -c) := by
  have hc' : (c : ℝ) ≠ 0 := by exact_mod_cast hc.ne'
  by_cases hd : c ∣ r * b * b - a * a
  · refine ⟨_, _, by rw [pqForm_dvd hc hd, disc, if_pos hd], ?_, ?_, ?_, ?_⟩
    · refine ⟨by split <;> omega, ?_⟩
      rw [disc, if_pos hd]
      by_cases hb' : b < 0
      · simp only [hb', if_true]; rw [neg_mul_neg]; exact neg_dvd.2 hd
      · simp only [hb', if_false]; exact hd
    · unfold Lagrange.th startVal disc
      rw [if_pos hd, if_pos hd, sqrt_mul_sq]
      unfold quadR
      by_cases hb' : b < 0
      · have : |(b : ℝ)| = -b := abs_of_neg (by exact_mod_cast hb')
        simp only [hb', if_true]; rw [this]; push_cast
        rw [div_neg, ← neg_div]; congr 1; ring
      · have : |(b : ℝ)| = b := abs_of_nonneg (by exact_mod_cast (by omega : 0 ≤ b))
        simp only [hb', if_false]; rw [this]
    · unfold Lagrange.thc startConj disc
      rw [if_pos hd, if_pos hd, sqrt_mul_sq]
      unfold quadR
      by_cases hb' : b < 0
      · have : |(b : ℝ)| = -b := abs_of_neg (by exact_mod_cast hb')
        simp only [hb', if_true]; rw [this]; push_cast
        rw [div_neg, ← neg_div]; congr 1; ring
      · have : |(b : ℝ)| = b := abs_of_nonneg (by exact_mod_cast (by omega : 0 ≤ b))
        simp only [hb', if_false]; rw [this]; push_cast; congr 1; ring
    · by_cases hb' : b < 0
      · simp only [hb', if_true, hd, true_and]
        constructor
        · intro h; omega
        · intro h; omega
      · simp only [hb', if_false, false_and, iff_false]
        omega
  · refine ⟨_, _, by rw [pqForm_ndvd hc hd, disc, if_neg hd], ?_, ?_, ?_, ?_⟩
    · refine ⟨(mul_pos hc hc).ne', ?_⟩
      rw [disc, if_neg hd]
      exact ⟨r * b * b - a * a, by ring⟩
    · unfold Lagrange.th startVal disc
      rw [if_neg hd, if_neg hd, sqrt_mul_sq, sqrt_mul_sq]
      unfold quadR
      rw [abs_of_pos (by exact_mod_cast hc : (0 : ℝ) < c)]
      push_cast
      field_simp
    · unfold Lagrange.thc startConj disc
      rw [if_neg hd, if_neg hd, sqrt_mul_sq, sqrt_mul_sq]
      unfold quadR
      rw [abs_of_pos (by exact_mod_cast hc : (0 : ℝ) < c)]
      push_cast
      field_simp
      ring
    · have := mul_pos hc hc
      simp only [hd, false_and, and_false, iff_false]
      omega

end pq

/-! ### Rational numbers -/

/-- on a rational number the first loop runs Euclid's algorithm and then divides by zero -/
theorem headLoop_rational : ∀ (n : ℕ) (p q : ℤ), q.natAbs ≤ n → q ≠ 0 → q ∣ p * p →
    ∃ N, ∀ fuel acc, headLoop 0 0 fuel acc p q = if N ≤ fuel then some (.error .divZero) else none
  | 0, p, q, hn, h, _ => absurd h (by omega)
  | n + 1, p, q, hn, h, hd => by
    have hv : Lagrange.Valid 0 p q := ⟨h, by rw [zero_sub]; exact (dvd_neg).2 hd⟩
    have hm := Lagrange.next_mul (rd := 0) hv
    have hrho := Lagrange.rho_eq (rd := 0) hv
    have hp' : Lagrange.nextP 0 p q = -(p.fmod q) := by
      have := Int.fdiv_mul_add_fmod p q
      unfold Lagrange.nextP Lagrange.coef
      rw [zero_add]; omega
    have habs : (Lagrange.nextP 0 p q).natAbs < q.natAbs := by
      rw [hp', Int.natAbs_neg]
      rcases lt_or_gt_of_ne h with hq | hq
      · have e : p.fmod q = -((-p).fmod (-q)) := by rw [Int.neg_fmod_neg]; ring
        have h2 := Int.fmod_nonneg_of_pos (-p) (b := -q) (by omega)
        have h3 := Int.fmod_lt_of_pos (-p) (b := -q) (by omega)
        omega
      · have h2 := Int.fmod_nonneg_of_pos p hq
        have h3 := Int.fmod_lt_of_pos p hq
        omega
    have hred : isReduced 0 (Lagrange.nextP 0 p q) (Lagrange.nextQ 0 0 p q) = false := by
      unfold isReduced
      rw [Bool.eq_false_iff]
      simp only [ne_eq, Bool.and_eq_true, decide_eq_true_eq]
      omega
    generalize Lagrange.nextP 0 p q = p' at *
    generalize Lagrange.nextQ 0 0 p q = q' at *
    by_cases h0 : p' = 0
    · subst h0
      have hq' : q' = 0 := by
        have : q * q' = 0 := by rw [hm]; ring
        exact (mul_eq_zero.1 this).resolve_left h
      subst hq'
      refine ⟨2, fun fuel acc => ?_⟩
      match fuel with
      | 0 => rfl
      | 1 =>
        rw [headLoop, hrho]
        simp only
        rw [if_neg (by rw [hred]; simp), headLoop]
        rfl
      | f + 2 =>
        rw [headLoop, hrho]
        simp only
        rw [if_neg (by rw [hred]; simp), headLoop, if_pos (by omega)]
        rfl
    · have hlt : q'.natAbs < q.natAbs := by
        have e : q.natAbs * q'.natAbs = p'.natAbs * p'.natAbs := by
          rw [← Int.natAbs_mul, ← Int.natAbs_mul, hm, zero_sub, Int.natAbs_neg]
        have hpos : 0 < p'.natAbs := Int.natAbs_pos.2 h0
        by_contra hc
        have h1 : q.natAbs * q.natAbs ≤ q.natAbs * q'.natAbs := Nat.mul_le_mul_left _ (by omega)
        have h2 : p'.natAbs * p'.natAbs < q.natAbs * q.natAbs := Nat.mul_self_lt_mul_self habs
        omega
      have hq0 : q' ≠ 0 := by
        rintro rfl
        rw [mul_zero, zero_sub] at hm
        have : p' * p' = 0 := by omega
        exact h0 (mul_self_eq_zero.1 this)
      obtain ⟨N, hN⟩ := headLoop_rational n p' q' (by omega) hq0 ⟨-q, by
        rw [zero_sub] at hm
        have : p' * p' = -(q * q') := by omega
        rw [this]; ring⟩
      refine ⟨N + 1, fun fuel acc => ?_⟩
      match fuel with
      | 0 => rfl
      | f + 1 =>
        rw [headLoop, hrho]
        simp only
        rw [if_neg (by rw [hred]; simp), hN f]
        simp only [Nat.add_le_add_iff_right]

theorem quadsurd_rational (cfg : Cfg) {a c : ℤ} (hc : 0 < c) (neg : Bool) :
    ∃ N, ∀ fuel, quadsurdToContfrac cfg fuel a 0 c 0 neg =
      if N ≤ fuel then some (.error (if cfg.debug then .debugAssert else .divZero)) else none := by
  cases hdbg : cfg.debug
  · obtain ⟨p, q, e, hq, hd⟩ : ∃ p q, pqForm a 0 c 0 = .ok (0, p, q) ∧ q ≠ 0 ∧ q ∣ p * p := by
      by_cases h : c ∣ 0 * 0 * 0 - a * a
      · refine ⟨a, c, by rw [pqForm_dvd hc h]; rfl, hc.ne', ?_⟩
        simpa using h
      · exact ⟨a * c, c * c, by rw [pqForm_ndvd hc h]; simp, (mul_pos hc hc).ne', ⟨a * a, by ring⟩⟩
    obtain ⟨N, hN⟩ := headLoop_rational _ p q le_rfl hq hd
    refine ⟨N, fun fuel => ?_⟩
    unfold quadsurdToContfrac
    rw [hdbg]
    simp only [Bool.false_eq_true, false_and, if_false]
    rw [e]
    simp only
    have : sqrtR 0 = .ok 0 := rfl
    rw [this]
    simp only
    rw [hN fuel]
    by_cases hf : N ≤ fuel
    · rw [if_pos hf, if_pos hf]
    · rw [if_neg hf, if_neg hf]
  · refine ⟨0, fun fuel => ?_⟩
    unfold quadsurdToContfrac
    rw [if_neg (by simp [hc.ne']), if_pos ⟨hdbg, rfl⟩, if_pos (Nat.zero_le _)]
    rfl

end NumIrr
