/-
The loops of the expansion of a quadratic irrational: what they return, and that the second one ends.
-/
import Verif.Lemmas.LagrangeRun
import Verif.Lemmas.CFSurd
import Mathlib.Data.Fintype.Pigeonhole
import Mathlib.Data.Set.Finite.Basic
import Mathlib.Data.Int.Interval

namespace NumIrr

/-- a positive fixed point of the period is its value -/
theorem chain_fix_unique {l : List Nat} (hne : l ≠ []) (h : ∀ v ∈ l, 1 ≤ v) {z w : ℝ} (hz : 0 < z) (hw : 0 < w)
    (ez : z = chain l z) (ew : w = chain l w) : z = w := by
  obtain ⟨m, -, hb, hc, hd, -, -, hf⟩ := ofRev_spec hne h
  have h1 := hf (1 / z) (by positivity)
  have h2 := hf (1 / w) (by positivity)
  rw [one_div_one_div, ← ez] at h1
  rw [one_div_one_div, ← ew] at h2
  have hy : 0 < 1 / z := by positivity
  have hx : 0 < 1 / w := by positivity
  have e : 1 / z = 1 / w := by
    generalize 1 / z = y at *
    generalize 1 / w = x at *
    have hb' : (1 : ℝ) ≤ m.b := by exact_mod_cast hb
    have hc' : (1 : ℝ) ≤ m.c := by exact_mod_cast hc
    have hd' : (1 : ℝ) ≤ m.d := by exact_mod_cast hd
    rw [div_eq_iff (by positivity)] at h1 h2
    by_contra hne
    have hsub : y - x ≠ 0 := sub_ne_zero.2 hne
    have h3 : (m.c : ℝ) * (y + x) + (m.d - m.a) = 0 := by
      apply mul_left_cancel₀ hsub
      linear_combination h2 - h1
    have h4 : (m.c : ℝ) * (y * x) + m.b = 0 := by linear_combination h1 + y * h3
    have : 0 ≤ (m.c : ℝ) * (y * x) := by positivity
    linarith
  rw [one_div, one_div, inv_inj] at e
  exact e

theorem valOf_of_fix {l : List Nat} (hne : l ≠ []) (h : ∀ v ∈ l, 1 ≤ v) {z : ℝ} (hz : 0 < z) (ez : z = chain l z) :
    ValOf [] (toInts l) z := by
  obtain ⟨w, h1, h2, h3⟩ := periodic_fix hne h
  rwa [chain_fix_unique hne h hz (by linarith) ez h3]

namespace Lagrange

variable {d rd p q : ℤ}

/-! ### The first loop -/

theorem headLoop_of_run {l : List ℤ} {p' q' : ℤ} (hr : Root d rd) (h : Run d rd p q l p' q') (hv : Valid d p q) :
    ∀ fuel, l.length ≤ fuel → ∀ acc, headLoop d rd fuel acc p q = some (.ok (acc.reverse ++ l, p', q')) := by
  induction h with
  | stop p q hred =>
    intro fuel hf acc
    obtain ⟨f, rfl⟩ : ∃ f, fuel = f + 1 := ⟨fuel - 1, by simp at hf; omega⟩
    rw [headLoop, rho_eq hv]
    simp only
    rw [if_pos hred]
    simp
  | step p q hred hrun ih =>
    intro fuel hf acc
    obtain ⟨f, rfl⟩ : ∃ f, fuel = f + 1 := ⟨fuel - 1, by simp at hf; omega⟩
    rw [headLoop, rho_eq hv]
    simp only
    rw [if_neg (by rw [hred]; simp), ih (next_valid hr hv) f (by simp at hf; omega)]
    simp

theorem run_of_headLoop (hr : Root d rd) : ∀ (fuel : ℕ) (acc : List ℤ) (p q : ℤ), Valid d p q →
    ∀ x, headLoop d rd fuel acc p q = some x →
    ∃ l p' q', x = .ok (acc.reverse ++ l, p', q') ∧ Run d rd p q l p' q' ∧ l.length ≤ fuel
  | 0, _, _, _, _, _, hx => by cases hx
  | fuel + 1, acc, p, q, hv, x, hx => by
    rw [headLoop, rho_eq hv] at hx
    simp only at hx
    split at hx
    · rename_i hred
      cases hx
      exact ⟨[coef rd p q], _, _, by simp, .stop p q hred, by simp⟩
    · rename_i hred
      obtain ⟨l, p', q', h1, h2, h3⟩ := run_of_headLoop hr fuel _ _ _ (next_valid hr hv) x hx
      exact ⟨coef rd p q :: l, p', q', by rw [h1]; simp, .step p q (by simpa using hred) h2, by simp; omega⟩

theorem Run.valid {l : List ℤ} {p' q' : ℤ} (hr : Root d rd) (h : Run d rd p q l p' q') (hv : Valid d p q) :
    Valid d p' q' ∧ isReduced rd p' q' = true := by
  induction h with
  | stop p q hred => exact ⟨next_valid hr hv, hred⟩
  | step p q hred hrun ih => exact ih (next_valid hr hv)

theorem Run.det {l l' : List ℤ} {p' q' p'' q'' : ℤ} (h : Run d rd p q l p' q') (h' : Run d rd p q l' p'' q'') :
    l = l' ∧ p' = p'' ∧ q' = q'' := by
  induction h generalizing l' with
  | stop p q hred =>
    cases h' with
    | stop => exact ⟨rfl, rfl, rfl⟩
    | step _ _ hn => rw [hred] at hn; cases hn
  | step p q hred hrun ih =>
    cases h' with
    | stop _ _ hn => rw [hred] at hn; cases hn
    | step _ _ _ hrun' =>
      obtain ⟨h1, h2, h3⟩ := ih hrun'
      exact ⟨by rw [h1], h2, h3⟩

theorem th_ne_zero (hr : Root d rd) (h : Valid d p q) : th d p q ≠ 0 := by
  have := th_ne_int hr h 0
  simpa using this

theorem th_next_eq (hr : Root d rd) (h : Valid d p q) :
    th d p q = coef rd p q + 1 / th d (nextP rd p q) (nextQ d rd p q) := by
  have h1 := next_th hr h
  have h2 := th_ne_zero hr (next_valid hr h)
  field_simp
  linarith

/-- the coefficients of the first loop, with any period that expands the final number -/
theorem Run.valOf {l : List ℤ} {p' q' : ℤ} (hr : Root d rd) (h : Run d rd p q l p' q') (hv : Valid d p q)
    {ps : List ℤ} (hps : ps ≠ []) (hval : ValOf [] ps (th d p' q')) : ValOf l ps (th d p q) := by
  induction h with
  | stop p q hred =>
    rw [th_next_eq hr hv]
    exact valOf_cons hps hval (th_ne_zero hr (next_valid hr hv)) _
  | step p q hred hrun ih =>
    rw [th_next_eq hr hv]
    exact valOf_cons hps (ih (next_valid hr hv) hval) (th_ne_zero hr (next_valid hr hv)) _

/-! ### Reduced states -/

/-- valid and reduced -/
structure Red (d rd p q : ℤ) : Prop where
  valid : Valid d p q
  red : isReduced rd p q = true

theorem Red.qpos (hr : Root d rd) (h : Red d rd p q) : 0 < q := by
  obtain ⟨h1, h2, h3⟩ := (isReduced_iff hr h.valid).1 h.red
  exact (q_pos_iff hr h.valid).2 (by linarith)

theorem Red.next (hr : Root d rd) (h : Red d rd p q) :
    Red d rd (nextP rd p q) (nextQ d rd p q) ∧ 1 ≤ coef rd p q := by
  obtain ⟨h1, h2, -⟩ := (isReduced_iff hr h.valid).1 h.red
  obtain ⟨h3, h4, -⟩ := run_neg hr h.valid h1 h2
  exact ⟨⟨next_valid hr h.valid, h4⟩, h3⟩

theorem Red.bounds (h : Red d rd p q) : 1 ≤ p ∧ p ≤ rd ∧ 1 ≤ q ∧ q ≤ 2 * rd := by
  have := h.red
  unfold isReduced at this
  simp only [Bool.and_eq_true, decide_eq_true_eq] at this
  omega

/-- the step is injective on reduced states -/
theorem Red.inj (hr : Root d rd) {p₁ q₁ p₂ q₂ : ℤ} (h₁ : Red d rd p₁ q₁) (h₂ : Red d rd p₂ q₂)
    (hp : nextP rd p₁ q₁ = nextP rd p₂ q₂) (hq : nextQ d rd p₁ q₁ = nextQ d rd p₂ q₂) : p₁ = p₂ ∧ q₁ = q₂ := by
  have m1 := next_mul (rd := rd) h₁.valid
  have m2 := next_mul (rd := rd) h₂.valid
  rw [hp, hq] at m1
  have hqq : q₁ = q₂ := mul_right_cancel₀ (next_valid hr h₂.valid).ne (m1.trans m2.symm)
  subst hqq
  refine ⟨?_, rfl⟩
  have c1 := next_thc hr h₁.valid
  have c2 := next_thc hr h₂.valid
  rw [hp, hq] at c1
  obtain ⟨-, b1, b1'⟩ := (isReduced_iff hr h₁.valid).1 h₁.red
  obtain ⟨-, b2, b2'⟩ := (isReduced_iff hr h₂.valid).1 h₂.red
  have hne : thc d (nextP rd p₂ q₁) (nextQ d rd p₂ q₁) ≠ 0 := fun h0 => by rw [h0, mul_zero] at c2; exact one_ne_zero c2.symm
  have e := mul_right_cancel₀ hne (c1.trans c2.symm)
  have hco : coef rd p₁ q₁ = coef rd p₂ q₁ := by
    have hlt : ((coef rd p₁ q₁ - coef rd p₂ q₁ : ℤ) : ℝ) < 1 := by push_cast; linarith
    have hgt : (-1 : ℝ) < ((coef rd p₁ q₁ - coef rd p₂ q₁ : ℤ) : ℝ) := by push_cast; linarith
    have h1 : coef rd p₁ q₁ - coef rd p₂ q₁ < 1 := by exact_mod_cast hlt
    have h2 : -1 < coef rd p₁ q₁ - coef rd p₂ q₁ := by exact_mod_cast hgt
    omega
  unfold nextP at hp
  rw [hco] at hp
  omega

/-- the step on pairs -/
def stp (d rd : ℤ) (x : ℤ × ℤ) : ℤ × ℤ := (nextP rd x.1 x.2, nextQ d rd x.1 x.2)

theorem iter_red (hr : Root d rd) (x : ℤ × ℤ) (h : Red d rd x.1 x.2) (n : ℕ) :
    Red d rd ((stp d rd)^[n] x).1 ((stp d rd)^[n] x).2 := by
  induction n generalizing x with
  | zero => exact h
  | succ n ih =>
    rw [Function.iterate_succ_apply]
    exact ih _ (h.next hr).1

theorem iter_inj (hr : Root d rd) {x y : ℤ × ℤ} (hx : Red d rd x.1 x.2) (hy : Red d rd y.1 y.2) (n : ℕ)
    (h : (stp d rd)^[n] x = (stp d rd)^[n] y) : x = y := by
  induction n generalizing x y with
  | zero => exact h
  | succ n ih =>
    rw [Function.iterate_succ_apply, Function.iterate_succ_apply] at h
    have h1 := ih (x := stp d rd x) (y := stp d rd y) (hx.next hr).1 (hy.next hr).1 h
    have h2 := congrArg Prod.fst h1
    have h3 := congrArg Prod.snd h1
    obtain ⟨h4, h5⟩ := hx.inj hr hy h2 h3
    exact Prod.ext h4 h5

/-- every reduced state recurs -/
theorem recur (hr : Root d rd) (x : ℤ × ℤ) (h : Red d rd x.1 x.2) : ∃ k, (stp d rd)^[k + 1] x = x := by
  have hfin : Set.Finite ((Set.Icc (1 : ℤ) rd) ×ˢ (Set.Icc (1 : ℤ) (2 * rd))) :=
    (Set.finite_Icc _ _).prod (Set.finite_Icc _ _)
  have hmem : ∀ n, (stp d rd)^[n] x ∈ (Set.Icc (1 : ℤ) rd) ×ˢ (Set.Icc (1 : ℤ) (2 * rd)) := fun n => by
    have := (iter_red hr x h n).bounds
    exact ⟨⟨this.1, this.2.1⟩, ⟨this.2.2.1, this.2.2.2⟩⟩
  obtain ⟨m, -, n, -, hne, he⟩ := Set.infinite_univ.exists_ne_map_eq_of_mapsTo (f := fun n : ℕ => (stp d rd)^[n] x)
    (fun n _ => hmem n) hfin
  have key : ∀ m n : ℕ, m < n → (stp d rd)^[m] x = (stp d rd)^[n] x → ∃ k, (stp d rd)^[k + 1] x = x := by
    intro m n hlt he
    refine ⟨n - m - 1, ?_⟩
    have e : n = m + (n - m - 1 + 1) := by omega
    rw [e, Function.iterate_add_apply] at he
    exact (iter_inj hr h (iter_red hr x h _) m he).symm
  rcases lt_or_gt_of_ne hne with hlt | hlt
  · exact key m n hlt he
  · exact key n m hlt he.symm

/-! ### The second loop -/

/-- what the second loop does -/
inductive PRun (d rd ip iq : ℤ) : ℤ → ℤ → List ℤ → Prop
  | stop (p q : ℤ) : nextP rd p q = ip → nextQ d rd p q = iq → PRun d rd ip iq p q [coef rd p q]
  | step (p q : ℤ) {l : List ℤ} : ¬ (nextP rd p q = ip ∧ nextQ d rd p q = iq) →
      PRun d rd ip iq (nextP rd p q) (nextQ d rd p q) l → PRun d rd ip iq p q (coef rd p q :: l)

variable {ip iq : ℤ}

theorem pRun_exists (x : ℤ × ℤ) (n : ℕ) (h : (stp d rd)^[n + 1] x = (ip, iq)) :
    ∃ l, PRun d rd ip iq x.1 x.2 l := by
  induction n generalizing x with
  | zero =>
    have h : stp d rd x = (ip, iq) := h
    exact ⟨_, .stop _ _ (congrArg Prod.fst h) (congrArg Prod.snd h)⟩
  | succ n ih =>
    by_cases hs : nextP rd x.1 x.2 = ip ∧ nextQ d rd x.1 x.2 = iq
    · exact ⟨_, .stop _ _ hs.1 hs.2⟩
    · obtain ⟨l, hl⟩ := ih (stp d rd x) h
      exact ⟨_, .step _ _ hs hl⟩

theorem periodLoop_of_pRun {l : List ℤ} (hr : Root d rd) (h : PRun d rd ip iq p q l) (hv : Valid d p q) :
    ∀ fuel, l.length ≤ fuel → ∀ acc, periodLoop d rd ip iq fuel acc p q = some (.ok (acc.reverse ++ l)) := by
  induction h with
  | stop p q h1 h2 =>
    intro fuel hf acc
    obtain ⟨f, rfl⟩ : ∃ f, fuel = f + 1 := ⟨fuel - 1, by simp at hf; omega⟩
    rw [periodLoop, rho_eq hv]
    simp only
    rw [if_pos ⟨h1, h2⟩]
    simp
  | step p q hn hrun ih =>
    intro fuel hf acc
    obtain ⟨f, rfl⟩ : ∃ f, fuel = f + 1 := ⟨fuel - 1, by simp at hf; omega⟩
    rw [periodLoop, rho_eq hv]
    simp only
    rw [if_neg hn, ih (next_valid hr hv) f (by simp at hf; omega)]
    simp

theorem pRun_of_periodLoop (hr : Root d rd) : ∀ (fuel : ℕ) (acc : List ℤ) (p q : ℤ), Valid d p q →
    ∀ x, periodLoop d rd ip iq fuel acc p q = some x →
    ∃ l, x = .ok (acc.reverse ++ l) ∧ PRun d rd ip iq p q l
  | 0, _, _, _, _, _, hx => by cases hx
  | fuel + 1, acc, p, q, hv, x, hx => by
    rw [periodLoop, rho_eq hv] at hx
    simp only at hx
    split at hx
    · rename_i hs
      cases hx
      exact ⟨[coef rd p q], by simp, .stop p q hs.1 hs.2⟩
    · rename_i hs
      obtain ⟨l, h1, h2⟩ := pRun_of_periodLoop hr fuel _ _ _ (next_valid hr hv) x hx
      exact ⟨coef rd p q :: l, by rw [h1]; simp, .step p q hs h2⟩

theorem PRun.det {l l' : List ℤ} (h : PRun d rd ip iq p q l) (h' : PRun d rd ip iq p q l') : l = l' := by
  induction h generalizing l' with
  | stop p q h1 h2 =>
    cases h' with
    | stop => rfl
    | step _ _ hn => exact absurd ⟨h1, h2⟩ hn
  | step p q hn hrun ih =>
    cases h' with
    | stop _ _ h1 h2 => exact absurd ⟨h1, h2⟩ hn
    | step _ _ _ hrun' => rw [ih hrun']

theorem PRun.spec {l : List ℤ} (hr : Root d rd) (h : PRun d rd ip iq p q l) (hv : Red d rd p q) :
    ∃ ns : List ℕ, ns ≠ [] ∧ l = toInts ns ∧ (∀ v ∈ ns, 1 ≤ v) ∧ th d p q = chain ns (th d ip iq) := by
  induction h with
  | stop p q h1 h2 =>
    obtain ⟨-, h3⟩ := hv.next hr
    have e : ((coef rd p q).toNat : ℤ) = coef rd p q := Int.toNat_of_nonneg (by omega)
    refine ⟨[(coef rd p q).toNat], by simp, by simp [toInts, e], by simp; omega, ?_⟩
    rw [th_next_eq hr hv.valid, h1, h2]
    have e' : (((coef rd p q).toNat : ℕ) : ℝ) = coef rd p q := by exact_mod_cast e
    simp [chain, e']
  | step p q hn hrun ih =>
    obtain ⟨h2, h3⟩ := hv.next hr
    obtain ⟨ns, -, h4, h5, h6⟩ := ih h2
    have e : ((coef rd p q).toNat : ℤ) = coef rd p q := Int.toNat_of_nonneg (by omega)
    refine ⟨(coef rd p q).toNat :: ns, by simp, ?_, ?_, ?_⟩
    · rw [h4]; simp [toInts, e]
    · intro v hv
      rcases List.mem_cons.1 hv with rfl | hv
      · omega
      · exact h5 v hv
    · rw [th_next_eq hr hv.valid, h6]
      have e' : (((coef rd p q).toNat : ℕ) : ℝ) = coef rd p q := by exact_mod_cast e
      simp [chain, e']

/-- the second loop ends on every reduced state and collects the expansion of the number -/
theorem period_spec (hr : Root d rd) (h : Red d rd p q) :
    ∃ ns : List ℕ, ns ≠ [] ∧ (∀ v ∈ ns, 1 ≤ v) ∧ PRun d rd p q p q (toInts ns) ∧ ValOf [] (toInts ns) (th d p q) := by
  obtain ⟨k, hk⟩ := recur hr (p, q) h
  obtain ⟨l, hl⟩ := pRun_exists (p, q) k hk
  obtain ⟨ns, h1, h2, h3, h4⟩ := hl.spec hr h
  subst h2
  have h1' := ((isReduced_iff hr h.valid).1 h.red).1
  exact ⟨ns, h1, h3, hl, valOf_of_fix h1 h3 (by linarith) h4⟩

/-! ### Stuck states -/

theorem Reach.trans_next {p' q' : ℤ} (h : Reach d rd p q p' q') :
    Reach d rd p q (nextP rd p' q') (nextQ d rd p' q') := by
  induction h with
  | refl p q => exact .step (.refl _ _)
  | step _ ih => exact .step ih

theorem Reach.red {p' q' : ℤ} (hr : Root d rd) (h : Reach d rd p q p' q') (hred : Red d rd p q) : Red d rd p' q' := by
  induction h with
  | refl p q => exact hred
  | step _ ih => exact ih (hred.next hr).1

theorem Stuck.next (hr : Root d rd) (hv : Valid d p q) (h : Stuck d rd p q) :
    Stuck d rd (nextP rd p q) (nextQ d rd p q) := by
  obtain ⟨h1, h2, h3, q1, h4, h5⟩ := h
  have hoff : Off rd p q := ⟨h1, h2⟩
  obtain ⟨h6, h7⟩ := off_q hr hv hoff
  have : nextQ d rd p q = q1 := mul_left_cancel₀ hv.ne (h6.trans h4.symm)
  rw [(off_next hoff).2, this]
  rw [this] at h7
  exact ⟨h7, by rwa [← two_mul], h5, q, by rw [mul_comm]; exact h4, h3⟩

theorem Reach.valid {p' q' : ℤ} (hr : Root d rd) (h : Reach d rd p q p' q') (hv : Valid d p q) : Valid d p' q' := by
  induction h with
  | refl p q => exact hv
  | step _ ih => exact ih (next_valid hr hv)

/-- the first loop never ends on a state that leads to a stuck one -/
theorem headLoop_stuck (hr : Root d rd) : ∀ (fuel : ℕ) (acc : List ℤ) (p q p' q' : ℤ), Valid d p q →
    Reach d rd p q p' q' → Stuck d rd p' q' → headLoop d rd fuel acc p q = none
  | 0, _, _, _, _, _, _, _, _ => rfl
  | fuel + 1, acc, p, q, p', q', hv, hre, hst => by
    have : ∃ p'' q'', Reach d rd (nextP rd p q) (nextQ d rd p q) p'' q'' ∧ Stuck d rd p'' q'' := by
      cases hre with
      | refl => exact ⟨_, _, .refl _ _, hst.next hr hv⟩
      | step h => exact ⟨_, _, h, hst⟩
    obtain ⟨p'', q'', h1, h2⟩ := this
    rw [headLoop, rho_eq hv]
    simp only
    have hn : ¬ isReduced rd (nextP rd p q) (nextQ d rd p q) = true := fun hred => by
      have := (h1.red hr ⟨next_valid hr hv, hred⟩).qpos hr
      have := h2.1
      omega
    rw [if_neg hn]
    exact headLoop_stuck hr fuel _ _ _ _ _ (next_valid hr hv) h1 h2

/-! ### From a positive number -/

/-- what the first loop can collect from a positive number -/
inductive Shape0 : List ℤ → Prop
  | cons {a : ℤ} {l : List ℤ} : 0 ≤ a → Shape l → Shape0 (a :: l)
  | off {a : ℤ} {l : List ℤ} : 1 ≤ a → Tail l → Shape0 (a :: l)

theorem run_pos (hr : Root d rd) (h : Valid d p q) (h0 : 0 < th d p q) :
    (∃ l p' q', Run d rd p q l p' q' ∧ Shape0 l) ∨ ∃ p' q', Reach d rd p q p' q' ∧ Stuck d rd p' q' := by
  by_cases hoff : Off rd p q
  · rcases run_off hr h hoff with ⟨l, p', q', h1, h2⟩ | h1
    · refine .inl ⟨_, p', q', h1, .off ?_ h2⟩
      have h3 := (off_floor hr hoff).2
      have : (0 : ℝ) < coef rd p q := by linarith
      exact_mod_cast this
    · exact .inr ⟨p, q, .refl p q, h1⟩
  · have ha : 0 ≤ coef rd p q := coef_ge hr h hoff (by push_cast; linarith)
    by_cases hred : isReduced rd (nextP rd p q) (nextQ d rd p q) = true
    · exact .inl ⟨_, _, _, .stop p q hred, .cons ha .nil⟩
    · rcases run_exists hr _ _ _ le_rfl (next_valid hr h) (next_gt_one hr h hoff) with ⟨l, p', q', h1, h2⟩ | ⟨p', q', h1, h2⟩
      · exact .inl ⟨_, p', q', .step p q (by simpa using hred) h1, .cons ha h2⟩
      · exact .inr ⟨p', q', .step h1, h2⟩

end Lagrange
end NumIrr
