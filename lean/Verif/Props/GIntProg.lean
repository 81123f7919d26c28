/-
C150: programs with branches and loops over Gaussian integers.
-/
import Verif.Lemmas.FixedQRef
import Verif.Props.QIntProg
import Verif.Spec.GIntProg

namespace NumIrr
namespace GProg
open Fx

/-- it does what the numbers do: returns `f` of them if that is defined, panics by dividing by zero if not -/
private def Does {α β : Type} (r : Res α) (f : α → β) (d : Prop) (v : β) : Prop :=
  (d → ∃ z, r = .ok z ∧ f z = v) ∧ (¬ d → r = .error .divZero)

/-! ### Single operations -/

private theorem nearest_cast (q : ℚ) : nearest (q : ℝ) = QProg.nearest q := by
  unfold nearest QProg.nearest
  have e1 : (q : ℝ) + 1 / 2 = ((q + 1 / 2 : ℚ) : ℝ) := by push_cast; ring
  have e2 : (q : ℝ) - 1 / 2 = ((q - 1 / 2 : ℚ) : ℝ) := by push_cast; ring
  rw [e1, e2, Rat.floor_cast, Rat.ceil_cast]
  by_cases h : 0 ≤ q
  · rw [if_pos h, if_pos (by exact_mod_cast h)]
  · rw [if_neg h, if_neg (by exact_mod_cast h)]

private theorem round_spec {z : ℂ} {u v : ℚ} {m n : ℤ} (h : z = u + v * Complex.I) (hu : RoundAway u m) (hv : RoundAway v n) :
    round z = m + n * Complex.I := by
  have e1 : z.re = (u : ℝ) := by rw [h]; simp
  have e2 : z.im = (v : ℝ) := by rw [h]; simp
  unfold round
  rw [e1, e2, nearest_cast, nearest_cast, QProg.nearest_eq hu, QProg.nearest_eq hv]

private theorem op2_does (o : Op2) (x y : GInt) : Does (o.run x y) GInt.valC (o.Defined y.valC) (o.num x.valC y.valC) := by
  obtain ⟨h1, h2, ⟨m, h3, h3'⟩, -, -⟩ := gint_ring_ops x y
  have key : y.valC ≠ 0 → ∃ q r, x.div y = .ok q ∧ x.rem y = .ok r ∧ q.valC = round (x.valC / y.valC) ∧
      r.valC = x.valC - round (x.valC / y.valC) * y.valC := by
    intro hy
    obtain ⟨q, r, e1, e2, e3, -, -, u, v, e4, e5, e6⟩ := gint_euclid x y hy
    have hq : q.valC = round (x.valC / y.valC) := (round_spec e4 e5 e6).symm
    exact ⟨q, r, e1, e2, hq, by rw [← hq]; linear_combination -e3⟩
  have hz : ¬ y.valC ≠ 0 → y = ⟨0, 0⟩ := fun h => gint_valC_inj y ⟨0, 0⟩ (by rw [not_not.1 h]; simp [GInt.valC])
  cases o with
  | add => exact ⟨fun _ => ⟨_, rfl, h1⟩, fun h => absurd trivial h⟩
  | sub => exact ⟨fun _ => ⟨_, rfl, h2⟩, fun h => absurd trivial h⟩
  | mul => exact ⟨fun _ => ⟨_, h3, h3'⟩, fun h => absurd trivial h⟩
  | div =>
    refine ⟨fun h => ?_, fun h => ?_⟩
    · obtain ⟨q, r, e1, -, e3, -⟩ := key h
      exact ⟨q, e1, e3⟩
    · obtain rfl := hz h
      exact (gint_div_zero x).1
  | rem =>
    refine ⟨fun h => ?_, fun h => ?_⟩
    · obtain ⟨q, r, -, e2, -, e4⟩ := key h
      exact ⟨r, e2, e4⟩
    · obtain rfl := hz h
      exact (gint_div_zero x).2

/-! ### Expressions and tests -/

/-- the numbers in the variables -/
noncomputable def vals (σ : Nat → GInt) : Nat → ℂ := fun i => (σ i).valC

private theorem expr_does (σ : Nat → GInt) (e : Expr) : Does (e.run σ) GInt.valC (e.Defined (vals σ)) (e.num (vals σ)) := by
  induction e with
  | var i => exact ⟨fun _ => ⟨_, rfl, rfl⟩, fun h => absurd trivial h⟩
  | lit a b => exact ⟨fun _ => ⟨_, rfl, rfl⟩, fun h => absurd trivial h⟩
  | conj e ih =>
    refine ⟨fun h => ?_, fun h => ?_⟩
    · obtain ⟨z, h1, h2⟩ := ih.1 h
      exact ⟨z.conj, by simp only [Expr.run, h1, Surd.ok_bind]; rfl, by rw [(gint_ring_ops z z).2.2.2.1, h2]; rfl⟩
    · simp only [Expr.run, ih.2 h]; rfl
  | op2 o e f ihe ihf =>
    refine ⟨fun h => ?_, fun h => ?_⟩
    · obtain ⟨x, h1, h2⟩ := ihe.1 h.1
      obtain ⟨y, k1, k2⟩ := ihf.1 h.2.1
      obtain ⟨z, l1, l2⟩ := (op2_does o x y).1 (by rw [k2]; exact h.2.2)
      exact ⟨z, by simp only [Expr.run, h1, Surd.ok_bind, k1, l1], by rw [l2, h2, k2]; rfl⟩
    · by_cases d1 : e.Defined (vals σ)
      · obtain ⟨x, h1, h2⟩ := ihe.1 d1
        by_cases d2 : f.Defined (vals σ)
        · obtain ⟨y, k1, k2⟩ := ihf.1 d2
          simp only [Expr.run, h1, Surd.ok_bind, k1]
          exact (op2_does o x y).2 fun h' => h ⟨d1, d2, by rw [← k2]; exact h'⟩
        · simp only [Expr.run, h1, Surd.ok_bind, ihf.2 d2]; rfl
      · simp only [Expr.run, ihe.2 d1]; rfl

private theorem norm_lt (x y : GInt) : x.norm < y.norm ↔ ‖x.valC‖ < ‖y.valC‖ := by
  have h : ∀ z : GInt, ‖z.valC‖ ^ 2 = z.norm := by
    intro z
    rw [← Complex.normSq_eq_norm_sq]
    simp [GInt.valC, GInt.norm, Complex.normSq_apply]
  rw [← pow_lt_pow_iff_left₀ (norm_nonneg _) (norm_nonneg _) two_ne_zero, h, h]
  exact_mod_cast Iff.rfl

private theorem pair_does {σ : Nat → GInt} (e f : Expr) (g : GInt → GInt → Bool) (P : ℂ → ℂ → Prop)
    (hg : ∀ x y : GInt, g x y = true ↔ P x.valC y.valC) :
    Does (do let u ← e.run σ; let v ← f.run σ; pure (g u v) : Res Bool) (· = true)
      (e.Defined (vals σ) ∧ f.Defined (vals σ)) (P (e.num (vals σ)) (f.num (vals σ))) := by
  have he := expr_does σ e
  have hf := expr_does σ f
  refine ⟨fun h => ?_, fun h => ?_⟩
  · obtain ⟨x, h1, h2⟩ := he.1 h.1
    obtain ⟨y, k1, k2⟩ := hf.1 h.2
    exact ⟨g x y, by simp only [h1, k1, Surd.ok_bind]; rfl, by rw [← h2, ← k2]; exact propext (hg x y)⟩
  · by_cases d1 : e.Defined (vals σ)
    · obtain ⟨x, h1, h2⟩ := he.1 d1
      simp only [h1, Surd.ok_bind, hf.2 fun d2 => h ⟨d1, d2⟩]; rfl
    · simp only [he.2 d1]; rfl

private theorem test_does (σ : Nat → GInt) (t : Test) : Does (t.run σ) (· = true) (t.Defined (vals σ)) (t.Holds (vals σ)) := by
  induction t with
  | equal e f =>
    exact pair_does e f (fun x y => decide (x = y)) (· = ·) fun x y => by
      rw [decide_eq_true_eq]; exact ⟨fun h => by rw [h], gint_valC_inj x y⟩
  | less e f =>
    exact pair_does e f (fun x y => decide (x.norm < y.norm)) (fun z w => ‖z‖ < ‖w‖) fun x y => by
      rw [decide_eq_true_eq]; exact norm_lt x y
  | not t ih =>
    refine ⟨fun h => ?_, fun h => ?_⟩
    · obtain ⟨b, h1, h2⟩ := ih.1 h
      refine ⟨!b, by simp only [Test.run, h1, Surd.ok_bind]; rfl, ?_⟩
      show _ = ¬ t.Holds (vals σ)
      rw [← h2]; cases b <;> simp
    · simp only [Test.run, ih.2 h]; rfl
  | and t u iht ihu =>
    refine ⟨fun h => ?_, fun h => ?_⟩
    · obtain ⟨b, h1, h2⟩ := iht.1 h.1
      cases b with
      | false =>
        refine ⟨false, by simp only [Test.run, h1, Surd.ok_bind]; rfl, ?_⟩
        show _ = (t.Holds (vals σ) ∧ _)
        rw [← h2]; simp
      | true =>
        have ht : t.Holds (vals σ) := by rw [← h2]
        obtain ⟨c, k1, k2⟩ := ihu.1 (h.2 ht)
        refine ⟨c, by simp only [Test.run, h1, Surd.ok_bind, k1]; rfl, ?_⟩
        show _ = (t.Holds (vals σ) ∧ u.Holds (vals σ))
        rw [← k2]; simp [ht]
    · by_cases d1 : t.Defined (vals σ)
      · obtain ⟨b, h1, h2⟩ := iht.1 d1
        have hh : t.Holds (vals σ) ∧ ¬ u.Defined (vals σ) := by
          by_contra hn
          exact h ⟨d1, fun ht => by by_contra hu; exact hn ⟨ht, hu⟩⟩
        obtain rfl : b = true := cast h2.symm hh.1
        simp only [Test.run, h1, Surd.ok_bind]
        exact ihu.2 hh.2
      · simp only [Test.run, iht.2 d1]; rfl

private theorem test_true {σ : Nat → GInt} {t : Test} {b : Bool} (h : t.run σ = .ok b) :
    t.Defined (vals σ) ∧ (b = true ↔ t.Holds (vals σ)) := by
  obtain ⟨h1, h2⟩ := test_does σ t
  have hd : t.Defined (vals σ) := by
    by_contra hn
    rw [h2 hn] at h; cases h
  obtain ⟨c, k1, k2⟩ := h1 hd
  rw [h] at k1; cases k1
  exact ⟨hd, by rw [← k2]⟩

/-! ### Programs -/

private theorem vals_update (σ : Nat → GInt) (i : Nat) (s : GInt) :
    vals (Function.update σ i s) = Function.update (vals σ) i s.valC := by
  funext j
  by_cases h : j = i
  · subst h; simp [vals]
  · simp [vals, h]

private theorem prog_forward (n : Nat) (p : Prog) (σ σ' : Nat → GInt) (h : p.run n σ = some (.ok σ')) :
    p.Runs (vals σ) (vals σ') := by
  induction n generalizing p σ σ' with
  | zero => cases h
  | succ n ih =>
    cases p with
    | skip => cases h; exact .skip _
    | assign i e =>
      simp only [Prog.run] at h
      split at h
      · cases h
      · next s hs =>
        cases h
        obtain ⟨i1, i2⟩ := expr_does σ e
        have hd : e.Defined (vals σ) := by
          by_contra hn
          rw [i2 hn] at hs; cases hs
        obtain ⟨z, h1, h3⟩ := i1 hd
        rw [hs] at h1; cases h1
        rw [vals_update, h3]
        exact .assign i e _ hd
    | seq p q =>
      simp only [Prog.run] at h
      split at h
      · next σ1 h1 => exact .seq (ih p σ σ1 h1) (ih q σ1 σ' h)
      · next hn => exact absurd h (hn _)
    | ite t p q =>
      simp only [Prog.run] at h
      split at h
      · cases h
      · next ht => exact .iteTrue (test_true ht).1 ((test_true ht).2.1 rfl) (ih p σ σ' h)
      · next ht => exact .iteFalse (test_true ht).1 (fun hh => by simpa using (test_true ht).2.2 hh) (ih q σ σ' h)
    | «while» t p =>
      simp only [Prog.run] at h
      split at h
      · cases h
      · next ht =>
        cases h
        exact .whileFalse (test_true ht).1 (fun hh => by simpa using (test_true ht).2.2 hh)
      · next ht =>
        split at h
        · next σ1 h1 => exact .whileTrue (test_true ht).1 ((test_true ht).2.1 rfl) (ih p σ σ1 h1) (ih _ σ1 σ' h)
        · next hn => exact absurd h (hn _)

theorem grun_mono (n : Nat) (p : Prog) (σ : Nat → GInt) (r : Res (Nat → GInt))
    (h : p.run n σ = some r) (m : Nat) (hm : n ≤ m) : p.run m σ = some r := by
  induction n generalizing p σ r m with
  | zero => cases h
  | succ n ih =>
    obtain ⟨m, rfl⟩ : ∃ k, m = k + 1 := ⟨m - 1, by omega⟩
    have hm : n ≤ m := by omega
    cases p with
    | skip => exact h
    | assign i e => exact h
    | seq p q =>
      simp only [Prog.run] at h ⊢
      cases h1 : p.run n σ with
      | none => rw [h1] at h; cases h
      | some r1 =>
        rw [h1] at h; rw [ih p σ r1 h1 m hm]
        cases r1 with
        | error e => exact h
        | ok σ1 => exact ih q σ1 r h m hm
    | ite t p q =>
      simp only [Prog.run] at h ⊢
      cases ht : t.run σ with
      | error e => rw [ht] at h; exact h
      | ok b =>
        rw [ht] at h
        cases b with
        | true => exact ih p σ r h m hm
        | false => exact ih q σ r h m hm
    | «while» t p =>
      simp only [Prog.run] at h ⊢
      cases ht : t.run σ with
      | error e => rw [ht] at h; exact h
      | ok b =>
        rw [ht] at h
        cases b with
        | false => exact h
        | true =>
          simp only at h ⊢
          cases h1 : p.run n σ with
          | none => rw [h1] at h; cases h
          | some r1 =>
            rw [h1] at h; rw [ih p σ r1 h1 m hm]
            cases r1 with
            | error e => exact h
            | ok σ1 => exact ih _ σ1 r h m hm

private theorem test_run {σ : Nat → GInt} {t : Test} (hd : t.Defined (vals σ)) :
    ∃ b, t.run σ = .ok b ∧ (b = true ↔ t.Holds (vals σ)) := by
  obtain ⟨b, h1, h2⟩ := (test_does σ t).1 hd
  exact ⟨b, h1, by rw [← h2]⟩

private theorem prog_backward (p : Prog) (σ : Nat → GInt) (ρ : Nat → ℂ) (h : p.Runs (vals σ) ρ) :
    ∃ σ', vals σ' = ρ ∧ ∃ n, p.run n σ = some (.ok σ') := by
  obtain ⟨τ, hτ⟩ : ∃ τ, τ = vals σ := ⟨_, rfl⟩
  rw [← hτ] at h
  induction h generalizing σ with
  | skip τ => exact ⟨σ, hτ.symm, 1, rfl⟩
  | assign i e τ h =>
    subst hτ
    obtain ⟨s, h1, h3⟩ := (expr_does σ e).1 h
    exact ⟨_, by rw [vals_update, h3], 1, by simp only [Prog.run, h1]⟩
  | seq h1 h2 ih1 ih2 =>
    obtain ⟨σ1, v1, n, r1⟩ := ih1 σ hτ
    obtain ⟨σ2, v2, k, r2⟩ := ih2 σ1 v1.symm
    refine ⟨σ2, v2, max n k + 1, ?_⟩
    simp only [Prog.run, grun_mono _ _ _ _ r1 _ (le_max_left n k)]
    exact grun_mono _ _ _ _ r2 _ (le_max_right n k)
  | iteTrue td th h ih =>
    subst hτ
    obtain ⟨b, hb, hb'⟩ := test_run td
    obtain rfl := hb'.2 th
    obtain ⟨σ1, v1, n, r1⟩ := ih σ rfl
    exact ⟨σ1, v1, n + 1, by simp only [Prog.run, hb, r1]⟩
  | iteFalse td th h ih =>
    subst hτ
    obtain ⟨b, hb, hb'⟩ := test_run td
    obtain rfl : b = false := by cases b with
      | false => rfl
      | true => exact absurd (hb'.1 rfl) th
    obtain ⟨σ1, v1, n, r1⟩ := ih σ rfl
    exact ⟨σ1, v1, n + 1, by simp only [Prog.run, hb, r1]⟩
  | whileTrue td th h1 h2 ih1 ih2 =>
    subst hτ
    obtain ⟨b, hb, hb'⟩ := test_run td
    obtain rfl := hb'.2 th
    obtain ⟨σ1, v1, n, r1⟩ := ih1 σ rfl
    obtain ⟨σ2, v2, k, r2⟩ := ih2 σ1 v1.symm
    refine ⟨σ2, v2, max n k + 1, ?_⟩
    simp only [Prog.run, hb, grun_mono _ _ _ _ r1 _ (le_max_left n k)]
    exact grun_mono _ _ _ _ r2 _ (le_max_right n k)
  | whileFalse td th =>
    subst hτ
    obtain ⟨b, hb, hb'⟩ := test_run td
    obtain rfl : b = false := by cases b with
      | false => rfl
      | true => exact absurd (hb'.1 rfl) th
    exact ⟨σ, rfl, 1, by simp only [Prog.run, hb]⟩

/-- **C150** A program over Gaussian integers finishes exactly if it would finish with complex numbers (quotients with both
parts rounded), with the same numbers in all variables. -/
theorem gint_prog (p : Prog) (σ : Nat → GInt) (ρ : Nat → ℂ) :
    p.Runs (vals σ) ρ ↔ ∃ σ', vals σ' = ρ ∧ ∃ N, ∀ n, N ≤ n → p.run n σ = some (.ok σ') := by
  constructor
  · intro h
    obtain ⟨σ', h1, n, h2⟩ := prog_backward p σ ρ h
    exact ⟨σ', h1, n, fun k hk => grun_mono n p σ _ h2 k hk⟩
  · rintro ⟨σ', rfl, N, h⟩
    exact prog_forward N p σ σ' (h N le_rfl)

/-- **C150** The only panic is division by zero. -/
theorem gint_prog_panic (p : Prog) (σ : Nat → GInt) (n : Nat) (e : Panic) (h : p.run n σ = some (.error e)) : e = .divZero := by
  have he : ∀ σ (x : Expr), x.run σ = .error e → e = .divZero := by
    intro σ x hx
    obtain ⟨h1, h2⟩ := expr_does σ x
    by_cases hd : x.Defined (vals σ)
    · obtain ⟨z, h1, -⟩ := h1 hd
      rw [h1] at hx; cases hx
    · rw [h2 hd] at hx; cases hx; rfl
  have ht : ∀ σ (t : Test), t.run σ = .error e → e = .divZero := by
    intro σ x hx
    obtain ⟨h1, h2⟩ := test_does σ x
    by_cases hd : x.Defined (vals σ)
    · obtain ⟨z, h1, -⟩ := h1 hd
      rw [h1] at hx; cases hx
    · rw [h2 hd] at hx; cases hx; rfl
  induction n generalizing p σ with
  | zero => cases h
  | succ n ih =>
    cases p with
    | skip => cases h
    | assign i x =>
      simp only [Prog.run] at h
      split at h
      · next hx => cases h; exact he σ x hx
      · cases h
    | seq p q =>
      simp only [Prog.run] at h
      split at h
      · exact ih q _ h
      · exact ih p σ h
    | ite t p q =>
      simp only [Prog.run] at h
      split at h
      · next hx => cases h; exact ht σ t hx
      · exact ih p σ h
      · exact ih q σ h
    | «while» t p =>
      simp only [Prog.run] at h
      split at h
      · next hx => cases h; exact ht σ t hx
      · cases h
      · split at h
        · exact ih _ _ h
        · exact ih p σ h

/-! ### Primitive integers -/

private theorem bind_ref {α β : Type} {r a : Res α} {f g : α → Res β} (h : Refines r a) (k : ∀ v, Refines (f v) (g v)) :
    Refines (r >>= f) (a >>= g) := by
  rcases h with h | h
  · rw [h]
    cases a with
    | ok v => exact k v
    | error e => exact .inl rfl
  · rw [h]; exact .inr rfl

private theorem expr_fixed (x : Fx) (hc : x.checks = true) (σ : Nat → GInt) (e : Expr) : Refines (e.runFx x σ) (e.run σ) := by
  induction e with
  | var i => exact .inl rfl
  | lit a b => exact .inl rfl
  | conj e ih => exact bind_ref ih fun u => gConj_ref hc u
  | op2 o e f ihe ihf =>
    refine bind_ref ihe fun u => bind_ref ihf fun v => ?_
    cases o with
    | add => exact gAdd_ref hc u v
    | sub => exact gSub_ref hc u v
    | mul => exact gMul_ref hc u v
    | div => exact gDiv_ref hc u v
    | rem => exact gRem_ref hc u v

private theorem test_fixed (x : Fx) (hc : x.checks = true) (σ : Nat → GInt) (t : Test) : Refines (t.runFx x σ) (t.run σ) := by
  induction t with
  | equal e f => exact bind_ref (expr_fixed x hc σ e) fun u => bind_ref (expr_fixed x hc σ f) fun v => .inl rfl
  | less e f =>
    refine bind_ref (expr_fixed x hc σ e) fun u => bind_ref (expr_fixed x hc σ f) fun v => ?_
    rcases gNorm_ref hc u with h | h
    · rw [h, Surd.ok_bind]
      rcases gNorm_ref hc v with h' | h'
      · rw [h', Surd.ok_bind]; exact .inl rfl
      · rw [h']; exact .inr rfl
    · rw [h]; exact .inr rfl
  | not t ih => exact bind_ref ih fun _ => .inl rfl
  | and t u iht ihu =>
    refine bind_ref iht fun b => ?_
    cases b with
    | true => exact ihu
    | false => exact .inl rfl

/-- **C150** (primitive integers) With overflow checks a program over a primitive integer type does, step by step, what it
does with arbitrary precision, or panics with an overflow. -/
theorem fixed_gint_prog (x : Fx) (hc : x.checks = true) (n : Nat) (p : Prog) (σ : Nat → GInt) :
    RefinesO (p.runFx x n σ) (p.run n σ) := by
  induction n generalizing p σ with
  | zero => exact .inl rfl
  | succ n ih =>
    cases p with
    | skip => exact .inl rfl
    | assign i e =>
      simp only [Prog.run, Prog.runFx]
      rcases expr_fixed x hc σ e with h | h
      · rw [h]; exact .inl rfl
      · rw [h]; exact .inr rfl
    | seq p q =>
      simp only [Prog.run, Prog.runFx]
      rcases ih p σ with h | h
      · rw [h]
        cases p.run n σ with
        | none => exact .inl rfl
        | some r =>
          cases r with
          | error e => exact .inl rfl
          | ok σ1 => exact ih q σ1
      · rw [h]; exact .inr rfl
    | ite t p q =>
      simp only [Prog.run, Prog.runFx]
      rcases test_fixed x hc σ t with h | h
      · rw [h]
        cases t.run σ with
        | error e => exact .inl rfl
        | ok b =>
          cases b with
          | true => exact ih p σ
          | false => exact ih q σ
      · rw [h]; exact .inr rfl
    | «while» t p =>
      simp only [Prog.run, Prog.runFx]
      rcases test_fixed x hc σ t with h | h
      · rw [h]
        cases t.run σ with
        | error e => exact .inl rfl
        | ok b =>
          cases b with
          | false => exact .inl rfl
          | true =>
            simp only
            rcases ih p σ with h | h
            · rw [h]
              cases p.run n σ with
              | none => exact .inl rfl
              | some r =>
                cases r with
                | error e => exact .inl rfl
                | ok σ1 => exact ih _ σ1
            · rw [h]; exact .inr rfl
      · rw [h]; exact .inr rfl

/-- **C150** (primitive integers) What a finished program with overflow checks has done is what complex numbers do. -/
theorem fixed_gint_prog_value (x : Fx) (hc : x.checks = true) (p : Prog) (σ σ' : Nat → GInt) (n : Nat)
    (h : p.runFx x n σ = some (.ok σ')) : p.Runs (vals σ) (vals σ') := by
  rcases fixed_gint_prog x hc n p σ with h' | h'
  · rw [h] at h'; exact prog_forward n p σ σ' h'.symm
  · rw [h] at h'; cases h'

/-- what is in variable `i` in the end -/
def look (r : Option (Res (Nat → GInt))) (i : Nat) : Option (Res GInt) := r.map (·.map (· i))

/-- Euclid's algorithm with `%` for `11 + 3i` and `1 + 8i` -/
def gcdProg : Prog :=
  .seq (.assign 0 (.lit 11 3)) (.seq (.assign 1 (.lit 1 8)) (.while (.not (.equal (.var 1) (.lit 0 0)))
    (.seq (.assign 2 (.op2 .rem (.var 0) (.var 1))) (.seq (.assign 0 (.var 1)) (.assign 1 (.var 2))))))

/-- powers of `2 + i` until the norm is at least that of 90 -/
def powProg : Prog :=
  .seq (.assign 0 (.lit 1 0)) (.while (.less (.var 0) (.lit 90 0)) (.assign 0 (.op2 .mul (.var 0) (.lit 2 1))))

example : look (gcdProg.run 20 fun _ => ⟨0, 0⟩) 0 = some (.ok ⟨1, -2⟩) ∧
    look (gcdProg.runFx ⟨16, true⟩ 20 fun _ => ⟨0, 0⟩) 0 = some (.ok ⟨1, -2⟩) ∧
    look (powProg.run 20 fun _ => ⟨0, 0⟩) 0 = some (.ok ⟨-117, 44⟩) ∧
    look (powProg.runFx ⟨16, true⟩ 20 fun _ => ⟨0, 0⟩) 0 = some (.ok ⟨-117, 44⟩) ∧
    look (powProg.runFx ⟨8, true⟩ 20 fun _ => ⟨0, 0⟩) 0 = some (.error .overflow) ∧
    look ((Prog.assign 0 (.op2 .div (.var 1) (.var 0))).run 1 fun _ => ⟨0, 0⟩) 0 = some (.error .divZero) := by
  decide +kernel

end GProg
end NumIrr
