/-
The coefficients of a periodic fraction are determined by its value; the fractions found for quadratic irrationals are
written in the shortest way.
-/
import Verif.Lemmas.SurdCF
import Verif.Lemmas.HomoReg
import Verif.Spec.Shortest

namespace NumIrr

/-! ### The coefficients and the value -/

theorem tails_cfLim {c : Nat → Int} (h : PosSeq c) (n : ℕ) : tails (cfLim c) n = cquot c n ∧ ⌊cquot c n⌋ = c n := by
  have hfl : ∀ n, ⌊cquot c n⌋ = c n := fun n => by
    have h1 := cquot_succ h n
    have h2 := cquot_gt h n
    have h3 : 0 < 1 / cquot c (n + 1) := by positivity
    have h4 : 1 / cquot c (n + 1) < 1 := by rw [div_lt_one (by linarith)]; exact h2
    rw [Int.floor_eq_iff]
    constructor <;> linarith
  refine ⟨?_, hfl n⟩
  induction n with
  | zero => rw [cquot_zero]; rfl
  | succ n ih =>
    rw [tails_succ, ih, hfl]
    have h1 := cquot_succ h n
    have h2 : c n + 1 / cquot c (n + 1) - (c n : ℝ) = 1 / cquot c (n + 1) := by ring
    rw [h1, h2, one_div_one_div]

namespace CF

/-- the sign and the coefficients of a periodic fraction, from its value -/
theorem coeff_of_val {c : CF} (hw : c.Wf) (hp : c.p ≠ []) {v : ℝ} (hv : c.HasVal v) :
    v ≠ 0 ∧ Irrational |v| ∧ c.neg = decide (v < 0) ∧ |v| = cfLim (coeffAt (toInts c.a) (toInts c.p)) ∧
      ∀ n, ((coeffAt c.a c.p n : ℕ) : ℤ) = ⌊tails |v| n⌋ := by
  obtain ⟨y, h1, h2⟩ := hv
  have hpos := wf_val_pos hw hp h1
  have hs := wf_posSeq hw hp
  have hy := (valOf_iff (toInts_ne_nil hp) hs).1 h1
  have habs : |v| = y := by
    rw [h2]; unfold signed; split
    · rw [abs_neg, abs_of_pos hpos]
    · exact abs_of_pos hpos
  refine ⟨fun h0 => ?_, ?_, ?_, by rw [habs, hy], fun n => ?_⟩
  · rw [h0, abs_zero] at habs; linarith
  · rw [habs, hy]; exact cfLim_irrational hs
  · rw [h2]
    unfold signed
    cases c.neg
    · simp only [Bool.false_eq_true, if_false]; exact (decide_eq_false (by linarith)).symm
    · simp only [if_true]; exact (decide_eq_true (by linarith)).symm
  · rw [habs, hy, (tails_cfLim hs n).1, (tails_cfLim hs n).2]
    exact (coeffAt_map (fun n : Nat => (n : Int)) rfl c.a c.p n).symm

theorem coeff_periodic (a : List ℕ) {p : List ℕ} {n : ℕ} (h : a.length ≤ n) (k : ℕ) :
    coeffAt a p (n + k * p.length) = coeffAt a p n := by
  unfold coeffAt
  rw [if_neg (by omega), if_neg (by omega)]
  congr 1
  rw [show n + k * p.length - a.length = (n - a.length) + p.length * k by rw [Nat.mul_comm]; omega,
    Nat.add_mul_mod_self_left]

/-- the complete quotients repeat with the coefficients -/
theorem tails_periodic {c : CF} (hw : c.Wf) (hp : c.p ≠ []) {v : ℝ} (hv : c.HasVal v) {a p : List ℕ}
    (hs : c.SameCoeffs a p) {n : ℕ} (hn : a.length ≤ n) (k : ℕ) : tails |v| (n + k * p.length) = tails |v| n := by
  obtain ⟨-, -, -, h1, -⟩ := coeff_of_val hw hp hv
  have hs' := wf_posSeq hw hp
  rw [h1, (tails_cfLim hs' _).1, (tails_cfLim hs' _).1]
  unfold cquot
  congr 1
  funext i
  have hc : ∀ j, coeffAt (toInts c.a) (toInts c.p) j = ((coeffAt a p j : ℕ) : ℤ) := fun j => by
    rw [hs.2.2 j]
    exact coeffAt_map (fun n : Nat => (n : Int)) rfl c.a c.p j
  unfold shft
  rw [hc, hc, show n + k * p.length + i = (n + i) + k * p.length by omega, coeff_periodic a (by omega)]

/-- a fraction that is shortest in both respects is determined by its value -/
theorem eq_of_val {c c' : CF} (hw : c.Wf) (hp : c.p ≠ []) (hw' : c'.Wf) (hp' : c'.p ≠ []) {v : ℝ} (hv : c.HasVal v)
    (hv' : c'.HasVal v) (h1 : c.ShortestHead) (h2 : c.ShortestPeriod) (h1' : c'.ShortestHead)
    (h2' : c'.ShortestPeriod) : c = c' := by
  obtain ⟨-, -, k1, -, k2⟩ := coeff_of_val hw hp hv
  obtain ⟨-, -, k1', -, k2'⟩ := coeff_of_val hw' hp' hv'
  have e : ∀ n, coeffAt c'.a c'.p n = coeffAt c.a c.p n := fun n => by
    have := (k2' n).trans (k2 n).symm
    exact_mod_cast this
  have s1 : c.SameCoeffs c'.a c'.p := ⟨hw'.1, hp', e⟩
  have s2 : c'.SameCoeffs c.a c.p := ⟨hw.1, hp, fun n => (e n).symm⟩
  have la := le_antisymm (h1 _ _ s1) (h1' _ _ s2)
  have lp := le_antisymm (h2 _ _ s1) (h2' _ _ s2)
  obtain ⟨a, p, n⟩ := c
  obtain ⟨a', p', n'⟩ := c'
  simp only at *
  congr 1
  · refine List.ext_getElem la fun i hi hi' => ?_
    have := e i
    rw [coeffAt_lt _ _ hi, coeffAt_lt _ _ hi'] at this
    exact this.symm
  · refine List.ext_getElem lp fun i hi hi' => ?_
    have := e (a.length + i)
    rw [coeffAt_add, la, coeffAt_add, coeffAt_period_lt _ hi, coeffAt_period_lt _ hi'] at this
    exact this.symm
  · rw [k1, k1']

end CF

namespace Lagrange
variable {d rd p q : ℤ}

theorem stp_valid (hr : Root d rd) {x : ℤ × ℤ} (h : Valid d x.1 x.2) (n : ℕ) :
    Valid d ((stp d rd)^[n] x).1 ((stp d rd)^[n] x).2 := by
  induction n with
  | zero => exact h
  | succ n ih => rw [Function.iterate_succ_apply']; exact next_valid hr ih

/-- the states of the loop are the complete quotients, as long as no integer part is wrong -/
theorem th_iter (hr : Root d rd) {x : ℤ × ℤ} (h : Valid d x.1 x.2) (n : ℕ)
    (ho : ∀ m < n, ¬ Off rd ((stp d rd)^[m] x).1 ((stp d rd)^[m] x).2) :
    th d ((stp d rd)^[n] x).1 ((stp d rd)^[n] x).2 = tails (th d x.1 x.2) n := by
  induction n with
  | zero => rfl
  | succ n ih =>
    rw [tails_succ, ← ih fun m hm => ho m (by omega), th_next_tails hr (stp_valid hr h n) (ho n (by omega)),
      Function.iterate_succ_apply']
    rfl

theorem state_inj (hr : Root d rd) {x y : ℤ × ℤ} (hx : Valid d x.1 x.2) (hy : Valid d y.1 y.2)
    (e : th d x.1 x.2 = th d y.1 y.2) : x = y := by
  obtain ⟨h1, h2⟩ := th_inj hr hx hy.ne e
  exact Prod.ext h1 h2

theorem Red.not_off (hr : Root d rd) (h : Red d rd p q) : ¬ Off rd p q := fun ho => by
  have := h.qpos hr
  have := ho.1
  omega

/-- the first loop stops at the first reduced state it comes to -/
theorem Run.first {l : List ℤ} {p' q' : ℤ} (h : Run d rd p q l p' q') :
    l ≠ [] ∧ (stp d rd)^[l.length] (p, q) = (p', q') ∧ ∀ n, 1 ≤ n → n < l.length →
      isReduced rd ((stp d rd)^[n] (p, q)).1 ((stp d rd)^[n] (p, q)).2 = false := by
  induction h with
  | stop p q hred => exact ⟨by simp, rfl, fun n h1 h2 => by simp at h2; omega⟩
  | step p q hred hrun ih =>
    obtain ⟨i1, i2, i3⟩ := ih
    refine ⟨by simp, ?_, fun n h1 h2 => ?_⟩
    · rw [List.length_cons, Function.iterate_succ_apply]; exact i2
    · obtain ⟨m, rfl⟩ : ∃ m, n = m + 1 := ⟨n - 1, by omega⟩
      rw [Function.iterate_succ_apply]
      by_cases hm : m = 0
      · subst hm; exact hred
      · exact i3 m (by omega) (by simp at h2; omega)

/-- the second loop stops at the first return -/
theorem PRun.first {ip iq : ℤ} {l : List ℤ} (h : PRun d rd ip iq p q l) :
    (stp d rd)^[l.length] (p, q) = (ip, iq) ∧ ∀ n, 1 ≤ n → (stp d rd)^[n] (p, q) = (ip, iq) → l.length ≤ n := by
  induction h with
  | stop p q h1 h2 => exact ⟨Prod.ext h1 h2, fun n hn _ => by simpa using hn⟩
  | step p q hn hrun ih =>
    obtain ⟨i1, i2⟩ := ih
    refine ⟨by rw [List.length_cons, Function.iterate_succ_apply]; exact i1, fun n h1 h2 => ?_⟩
    obtain ⟨m, rfl⟩ : ∃ m, n = m + 1 := ⟨n - 1, by omega⟩
    rw [Function.iterate_succ_apply] at h2
    rw [List.length_cons]
    by_cases hm : m = 0
    · subst hm
      exact absurd ⟨congrArg Prod.fst h2, congrArg Prod.snd h2⟩ hn
    · have := i2 m (by omega) h2
      omega

end Lagrange

open Lagrange

/-- the two loops behind a result -/
theorem cfOfState_inv {debug : Bool} {fuel : Nat} {d rd p q : Int} {neg : Bool} (hr : Root d rd) (h : Valid d p q)
    (h0 : 0 < th d p q) {c : CF} (hc : cfOfState debug fuel d rd p q neg = some (.ok c)) :
    ∃ l p' q' ps, Run d rd p q l p' q' ∧ Red d rd p' q' ∧ PRun d rd p' q' p' q' ps ∧ toInts c.p = ps ∧
      ValOf [] ps (th d p' q') ∧ ((∀ v ∈ l.tail, 1 ≤ v) → toInts c.a = l) := by
  unfold cfOfState at hc
  cases hh : headLoop d rd fuel [] p q with
  | none => rw [hh] at hc; cases hc
  | some y =>
    obtain ⟨l, p', q', e1, hrun, -⟩ := run_of_headLoop hr fuel [] p q h y hh
    subst e1
    obtain ⟨hv', hred'⟩ := hrun.valid hr h
    obtain ⟨ns, hns, hns1, hper, hval⟩ := period_spec hr ⟨hv', hred'⟩
    have hsh : Shape0 l := by
      rcases run_pos hr h h0 with ⟨l', p'', q'', h1, h2⟩ | ⟨p'', q'', h1, h2⟩
      · rwa [(hrun.det h1).1]
      · rw [headLoop_stuck hr fuel [] p q p'' q'' h h1 h2] at hh; cases hh
    have hne : toInts ns ≠ [] := CF.toInts_ne_nil hns
    have hp1 : ∀ v ∈ toInts ns, 1 ≤ v := by
      intro v hv
      obtain ⟨n, hn, rfl⟩ := List.mem_map.1 hv
      exact_mod_cast hns1 n hn
    obtain ⟨c', k1, k2, k3, k4, k5, k6⟩ := CF.new_shape debug hsh hne hp1 neg (hrun.valOf hr h hne hval) h0
    rw [hh] at hc
    simp only at hc
    cases hh2 : periodLoop d rd p' q' fuel [] p' q' with
    | none => rw [hh2] at hc; cases hc
    | some z =>
      obtain ⟨l'', e3, e4⟩ := pRun_of_periodLoop hr fuel [] p' q' hv' z hh2
      have := e4.det hper
      subst this
      subst e3
      rw [hh2] at hc
      simp only [List.reverse_nil, List.nil_append] at hc
      rw [k1] at hc
      cases hc
      exact ⟨l, p', q', _, hrun, ⟨hv', hred'⟩, hper, k3, hval, k6⟩

/-- the period found is always the shortest -/
theorem cfOfState_period {debug : Bool} {fuel : Nat} {d rd p q : Int} {neg : Bool} (hr : Root d rd) (h : Valid d p q)
    (h0 : 0 < th d p q) {c : CF} (hc : cfOfState debug fuel d rd p q neg = some (.ok c)) (hw : c.Wf) (hp : c.p ≠ []) :
    c.ShortestPeriod := by
  obtain ⟨l, p', q', ps, hrun, hred, hper, e, hval, -⟩ := cfOfState_inv hr h h0 hc
  intro a' p1 hs
  have hp1 : p1.length ≠ 0 := fun h => hs.2.1 (List.length_eq_zero_iff.1 h)
  have hpc : 1 ≤ c.p.length := Nat.one_le_iff_ne_zero.2 fun h => hp (List.length_eq_zero_iff.1 h)
  -- the periodic part as a fraction of its own
  let cc : CF := ⟨c.p, c.p, false⟩
  have hwc : cc.Wf := ⟨hp, fun v hv => hw.2.2 v (List.mem_of_mem_tail hv), hw.2.2⟩
  have hps : toInts c.p ≠ [] := CF.toInts_ne_nil hp
  have hvc : cc.HasVal (th d p' q') :=
    ⟨_, valOf_self (p := toInts c.p) hps (by rw [e]; exact hval), rfl⟩
  have hth := ((isReduced_iff hr hred.valid).1 hred.red).1
  -- the same coefficients, from some multiple of the period on
  have hsame : ∀ n, coeffAt c.p c.p n = coeffAt c.a c.p (c.a.length + n) := fun n => by
    rw [coeffAt_self, coeffAt_add]
  let m := a'.length * c.p.length
  have hm : a'.length ≤ m := Nat.le_mul_of_pos_right _ hpc
  have key : tails (th d p' q') (m + p1.length) = tails (th d p' q') m := by
    have hs' := CF.wf_posSeq hwc hp
    obtain ⟨-, -, -, h1, -⟩ := CF.coeff_of_val hwc hp hvc
    rw [abs_of_pos (by linarith)] at h1
    rw [h1, (tails_cfLim hs' _).1, (tails_cfLim hs' _).1]
    unfold cquot
    congr 1
    funext i
    have hcc : ∀ j, coeffAt (toInts cc.a) (toInts cc.p) j = ((coeffAt a' p1 (c.a.length + j) : ℕ) : ℤ) := fun j => by
      rw [hs.2.2, ← hsame]
      exact coeffAt_map (fun n : Nat => (n : Int)) rfl c.p c.p j
    unfold shft
    rw [hcc, hcc]
    have := CF.coeff_periodic a' (p := p1) (n := c.a.length + (m + i)) (by omega) 1
    rw [one_mul] at this
    rw [← this]
    congr 2
    omega
  have hno : ∀ n, ¬ Off rd ((stp d rd)^[n] (p', q')).1 ((stp d rd)^[n] (p', q')).2 := fun n =>
    (iter_red hr (p', q') hred n).not_off hr
  have e1 := th_iter hr (x := (p', q')) hred.valid (m + p1.length) fun n _ => hno n
  have e2 := th_iter hr (x := (p', q')) hred.valid m fun n _ => hno n
  have e3 := state_inj hr (stp_valid hr hred.valid _) (stp_valid hr hred.valid _)
    (e1.trans (key.trans e2.symm))
  rw [Function.iterate_add_apply] at e3
  have e4 := iter_inj hr (iter_red hr (p', q') hred _) hred m e3
  have := hper.first.2 p1.length (by omega) e4
  rw [← e] at this
  simpa [toInts] using this

/-- the part before the period is the shortest, if no integer part is wrong -/
theorem cfOfState_head {debug : Bool} {fuel : Nat} {d rd p q : Int} {neg : Bool} (hr : Root d rd) (h : Valid d p q)
    (h0 : 0 < th d p q) {c : CF} (hc : cfOfState debug fuel d rd p q neg = some (.ok c)) (hw : c.Wf) (hp : c.p ≠ [])
    (hv : c.HasVal (signed c.neg (th d p q))) (ht : ∀ n, ¬ TooLarge d (tails (th d p q) n)) : c.ShortestHead := by
  obtain ⟨l, p', q', ps, hrun, hred, hper, e, hval, hl⟩ := cfOfState_inv hr h h0 hc
  obtain ⟨f1, f2, f3⟩ := hrun.first
  have hno : ∀ n, ¬ Off rd ((stp d rd)^[n] (p, q)).1 ((stp d rd)^[n] (p, q)).2 := by
    intro n
    induction n using Nat.strong_induction_on with
    | _ n ih =>
      intro ho
      have e1 := th_iter hr (x := (p, q)) h n ih
      refine ht n ?_
      rw [← e1]
      exact (tooLarge_iff hr (stp_valid hr h n)).2 ho
  have hti : ∀ n, th d ((stp d rd)^[n] (p, q)).1 ((stp d rd)^[n] (p, q)).2 = tails (th d p q) n := fun n =>
    th_iter hr (x := (p, q)) h n fun m _ => hno m
  have hgt : ∀ n, 1 < th d ((stp d rd)^[n + 1] (p, q)).1 ((stp d rd)^[n + 1] (p, q)).2 := fun n => by
    rw [Function.iterate_succ_apply']
    exact next_gt_one hr (stp_valid hr h n) (hno n)
  have hco : ∀ {p q p' q' : ℤ} {l : List ℤ}, Run d rd p q l p' q' → ∀ n (hn : n < l.length),
      l[n] = coef rd ((stp d rd)^[n] (p, q)).1 ((stp d rd)^[n] (p, q)).2 := by
    intro p q p' q' l hrun
    induction hrun with
    | stop p q _ => intro n hn; obtain rfl : n = 0 := by simpa using hn
                    rfl
    | step p q _ _ ih =>
      intro n hn
      cases n with
      | zero => rfl
      | succ n => rw [Function.iterate_succ_apply]; exact ih n (by simpa using hn)
  have hlen : toInts c.a = l := hl fun v hv => by
    obtain ⟨n, hn, rfl⟩ := List.mem_iff_getElem.1 hv
    rw [List.getElem_tail, hco hrun]
    have := hgt n
    exact coef_ge hr (stp_valid hr h _) (hno _) (by push_cast; linarith)
  have hcl : c.a.length = l.length := by rw [← hlen]; simp [toInts]
  intro a' p1 hs
  by_contra hlt
  have ha' : 1 ≤ a'.length := Nat.one_le_iff_ne_zero.2 fun h => hs.1 (List.length_eq_zero_iff.1 h)
  have hp1 : 1 ≤ p1.length := Nat.one_le_iff_ne_zero.2 fun h => hs.2.1 (List.length_eq_zero_iff.1 h)
  have hper := CF.tails_periodic hw hp hv hs le_rfl l.length
  have habs : |signed c.neg (th d p q)| = th d p q := by
    unfold signed; split
    · rw [abs_neg, abs_of_pos h0]
    · exact abs_of_pos h0
  rw [habs, ← hti, ← hti] at hper
  have e2 := state_inj hr (stp_valid hr (x := (p, q)) h _) (stp_valid hr (x := (p, q)) h _) hper
  have hle : l.length ≤ l.length * p1.length := Nat.le_mul_of_pos_right _ hp1
  obtain ⟨j, hj⟩ : ∃ j, a'.length + l.length * p1.length = j + l.length := ⟨a'.length + l.length * p1.length - l.length, by omega⟩
  rw [hj, Function.iterate_add_apply, f2] at e2
  have hred2 := iter_red hr (p', q') hred j
  rw [e2] at hred2
  have := f3 a'.length ha' (by omega)
  rw [hred2.red] at this
  cases this

end NumIrr
