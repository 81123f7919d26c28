/-
C151: programs with branches and loops over finite continued fractions.
-/
import Verif.Spec.CFProg
import Verif.Props.CFFormula
import Verif.Props.CFEq
import Verif.Props.CFShiftExact

namespace NumIrr
namespace CFProg
open CF

/-- the fraction of a result; a division by zero is the panic -/
def frac {α β : Type} (f : α → β) : Option α → Res β
  | none => .error .divZero
  | some q => .ok (f q)

/-- the fractions of all numbers -/
def fracs (ρ : Nat → Rat) : Nat → CF := fun i => CF.ofRat (ρ i)

private theorem hasVal_ofRat (q : ℚ) : (CF.ofRat q).HasVal q :=
  (hasVal_finite (cf_ofRat q).1.1).2 ⟨q, (cf_ofRat q).2, rfl⟩

private theorem eq_ofRat {w : CF} (h : w.Canonical) {q : ℚ} (hv : w.HasVal q) : w = CF.ofRat q := by
  obtain ⟨r, h1, h2, h3⟩ := cf_toRational_finite w h.wf h.1
  have : r = q := by exact_mod_cast HasVal.unique h3 hv
  rw [← cf_ofRat_toRational w h r h1, this]

theorem neg_step (q : ℚ) : (CF.ofRat q).neg' = CF.ofRat (-q) := by
  obtain ⟨h1, h2, h3⟩ := cf_neg (CF.ofRat q) q (hasVal_ofRat q)
  have hs := h3 ⟨(cf_ofRat q).1.wf, fun _ => (cf_ofRat q).1⟩
  refine eq_ofRat (hs.2 ?_) (by exact_mod_cast h1)
  unfold neg'; split <;> exact (cf_ofRat q).1.1

theorem num_step (cfg : Cfg) (fuel : ℕ) (o : NumOp) (q : ℚ) :
    o.run cfg fuel (CF.ofRat q) = some (frac CF.ofRat (numVal o q)) := by
  obtain ⟨h1, h2⟩ := cf_num_rational cfg fuel _ (cf_ofRat q).1.wf (cf_ofRat q).1.1 _ (hasVal_ofRat q) o
  have ok : o.Defined → ∀ r : ℚ, (r : ℝ) = o.real q → o.run cfg fuel (CF.ofRat q) = some (.ok (CF.ofRat r)) := by
    intro hd r hr
    obtain ⟨e, k1, k2, k3⟩ := h1 hd
    rw [k1, eq_ofRat k2 (q := r) (by rw [hr]; exact k3)]
  cases o with
  | mulInt k => exact ok trivial _ (by simp [NumOp.real])
  | divInt k =>
    by_cases hk : k = 0
    · rw [h2 (not_not.2 hk)]; simp [numVal, quot, hk, frac]
    · rw [ok hk (q / k) (by simp [NumOp.real])]; simp [numVal, quot, hk, frac]
  | addRat k => exact ok trivial _ (by simp [NumOp.real])
  | subRat k => exact ok trivial _ (by simp [NumOp.real])
  | mulRat k => exact ok trivial _ (by simp [NumOp.real])
  | divRat k =>
    by_cases hk : k = 0
    · rw [h2 (not_not.2 hk)]; simp [numVal, quot, hk, frac]
    · rw [ok hk (q / k) (by simp [NumOp.real])]; simp [numVal, quot, hk, frac]

theorem bin_step (cfg : Cfg) (fuel : ℕ) (o : BinOp) (p q : ℚ) :
    o.run cfg fuel (CF.ofRat p) (CF.ofRat q) = some (frac CF.ofRat (binVal o p q)) := by
  obtain ⟨h1, h2⟩ := cf_bin_rational cfg fuel _ _ (cf_ofRat p).1.wf (cf_ofRat q).1.wf (cf_ofRat p).1.1
    (cf_ofRat q).1.1 _ _ (hasVal_ofRat p) (hasVal_ofRat q) o
  have ok : (o = .div → q ≠ 0) → ∀ r : ℚ, (r : ℝ) = o.real p q →
      o.run cfg fuel (CF.ofRat p) (CF.ofRat q) = some (.ok (CF.ofRat r)) := by
    intro hd r hr
    obtain ⟨e, k1, k2, k3⟩ := h1 fun ho => by exact_mod_cast hd ho
    rw [k1, eq_ofRat k2 (q := r) (by rw [hr]; exact k3)]
  cases o with
  | add => exact ok (by simp) _ (by simp [BinOp.real])
  | sub => exact ok (by simp) _ (by simp [BinOp.real])
  | mul => exact ok (by simp) _ (by simp [BinOp.real])
  | div =>
    by_cases hk : q = 0
    · rw [h2 ⟨rfl, by exact_mod_cast hk⟩]; simp [binVal, quot, hk, frac]
    · rw [ok (fun _ => hk) (p / q) (by simp [BinOp.real])]; simp [binVal, quot, hk, frac]

theorem andThen_frac {α α' β β' : Type} (f : α → α') (g : β → β') (r : Option α) (k : α' → Option (Res β'))
    (l : α → Option β) (h : ∀ x, k (f x) = some (frac g (l x))) :
    andThen (some (frac f r)) k = some (frac g (r >>= l)) := by
  cases r with
  | none => rfl
  | some x => exact h x

private theorem expr_step (cfg : Cfg) (fuel : ℕ) (ρ : Nat → ℚ) (e : Expr) :
    e.run cfg fuel (fracs ρ) = some (frac CF.ofRat (e.val .actual ρ)) := by
  induction e with
  | var i => rfl
  | lit q => rfl
  | neg e ih =>
    show andThen (e.run cfg fuel (fracs ρ)) _ = _
    rw [ih]
    exact andThen_frac _ _ _ _ _ fun x => by rw [neg_step]; rfl
  | num o e ih =>
    show andThen (e.run cfg fuel (fracs ρ)) _ = _
    rw [ih]
    exact andThen_frac _ _ _ _ _ fun x => num_step cfg fuel o x
  | bin o e f ihe ihf =>
    show andThen (e.run cfg fuel (fracs ρ)) _ = _
    rw [ihe]
    refine andThen_frac _ _ _ _ _ fun x => ?_
    rw [ihf]
    exact andThen_frac _ _ _ _ _ fun y => bin_step cfg fuel o x y
  | addI k e ih =>
    show andThen (e.run cfg fuel (fracs ρ)) _ = _
    rw [ih]
    exact andThen_frac _ _ _ _ _ fun x => by rw [(cf_addInt_exact _ _ _).1]; rfl
  | subI k e ih =>
    show andThen (e.run cfg fuel (fracs ρ)) _ = _
    rw [ih]
    exact andThen_frac _ _ _ _ _ fun x => by rw [(cf_addInt_exact _ _ _).2]; rfl

theorem neg_iff (q : ℚ) : (CF.ofRat q).neg = decide (q < 0) := by
  unfold CF.ofRat
  by_cases h : q = 0
  · subst h; rfl
  · rw [if_neg h]
    simp only
    split <;> simp [Rat.num_neg]

theorem integer_iff (q : ℚ) : (CF.ofRat q).isInteger = decide (q.den = 1) := by
  have h := cf_isInteger (CF.ofRat q) ⟨(cf_ofRat q).1.wf, fun _ => (cf_ofRat q).1⟩ q (hasVal_ofRat q)
  have : (∃ z : ℤ, (q : ℝ) = z) ↔ q.den = 1 := by
    rw [Rat.den_eq_one_iff]
    constructor
    · rintro ⟨z, hz⟩
      have : q = z := by exact_mod_cast hz
      rw [this]; simp
    · intro h; exact ⟨q.num, by exact_mod_cast h.symm⟩
  rw [this] at h
  rw [Bool.eq_iff_iff, h]; simp

theorem zero_iff (x : ℚ) : (CF.ofRat x).isZero = decide (x = 0) := by
  have h := (cf_zero_one (CF.ofRat x) (cf_ofRat x).1).2.2.1
  rw [(cf_ofRat x).2] at h
  rw [Bool.eq_iff_iff, h]; simp

theorem one_iff (x : ℚ) : (CF.ofRat x).isOne = decide (x = 1 ∨ x = -1) := by
  have h := (cf_zero_one (CF.ofRat x) (cf_ofRat x).1).2.2.2
  have h' := (cf_zero_one (CF.ofRat (-x)) (cf_ofRat (-x)).1).2.2.2
  rw [(cf_ofRat x).2, neg_iff] at h
  rw [(cf_ofRat (-x)).2, neg_iff, ← neg_step] at h'
  have e : (CF.ofRat x).neg'.isOne = (CF.ofRat x).isOne := by unfold neg'; split <;> rfl
  rw [e] at h'
  simp only [Option.some.injEq, decide_eq_false_iff_not, not_lt] at h h'
  rw [Bool.eq_iff_iff, decide_eq_true_eq]
  constructor
  · intro ho
    rcases le_total 0 x with hx | hx
    · exact .inl (h.1 ⟨ho, hx⟩)
    · have := h'.1 ⟨ho, by linarith⟩
      exact .inr (by linarith)
  · rintro (hx | hx)
    · exact (h.2 hx).1
    · exact (h'.2 (by linarith)).1

theorem equal_iff (x y : ℚ) : (CF.ofRat x).eq (CF.ofRat y) = decide (x = y) := by
  have h := cf_eq_finite (CF.ofRat x) (CF.ofRat y) (cf_ofRat x).1 (cf_ofRat y).1
  have : (∃ v, (CF.ofRat x).HasVal v ∧ (CF.ofRat y).HasVal v) ↔ x = y := by
    constructor
    · rintro ⟨v, h1, h2⟩
      exact_mod_cast (HasVal.unique (hasVal_ofRat x) h1).trans (HasVal.unique h2 (hasVal_ofRat y))
    · rintro rfl; exact ⟨x, hasVal_ofRat x, hasVal_ofRat x⟩
  rw [Bool.eq_iff_iff, h, this]; simp

private theorem test_step (cfg : Cfg) (fuel : ℕ) (ρ : Nat → ℚ) (t : Test) :
    t.run cfg fuel (fracs ρ) = some (frac id (t.val .actual ρ)) := by
  induction t with
  | zero e =>
    show andThen (e.run cfg fuel (fracs ρ)) _ = _
    rw [expr_step cfg fuel ρ e]
    refine andThen_frac _ _ _ _ _ fun x => ?_
    rw [zero_iff]; rfl
  | one e =>
    show andThen (e.run cfg fuel (fracs ρ)) _ = _
    rw [expr_step cfg fuel ρ e]
    exact andThen_frac _ _ _ _ _ fun x => by rw [one_iff]; rfl
  | negative e =>
    show andThen (e.run cfg fuel (fracs ρ)) _ = _
    rw [expr_step cfg fuel ρ e]
    exact andThen_frac _ _ _ _ _ fun x => by rw [neg_iff]; rfl
  | integer e =>
    show andThen (e.run cfg fuel (fracs ρ)) _ = _
    rw [expr_step cfg fuel ρ e]
    exact andThen_frac _ _ _ _ _ fun x => by rw [integer_iff]; rfl
  | equal e f =>
    show andThen (e.run cfg fuel (fracs ρ)) _ = _
    rw [expr_step cfg fuel ρ e]
    refine andThen_frac _ _ _ _ _ fun x => ?_
    rw [expr_step cfg fuel ρ f]
    refine andThen_frac _ _ _ _ _ fun y => ?_
    rw [equal_iff]; rfl
  | not t ih =>
    show andThen (t.run cfg fuel (fracs ρ)) _ = _
    rw [ih]
    exact andThen_frac _ _ _ _ _ fun x => rfl
  | and t u iht ihu =>
    show andThen (t.run cfg fuel (fracs ρ)) _ = _
    rw [iht]
    refine andThen_frac _ _ _ _ _ fun x => ?_
    cases x with
    | true => exact ihu
    | false => rfl

theorem fracs_update (ρ : Nat → ℚ) (i : Nat) (q : ℚ) :
    Function.update (fracs ρ) i (CF.ofRat q) = fracs (Function.update ρ i q) := by
  funext j
  by_cases h : j = i
  · subst h; simp [fracs]
  · simp [fracs, h]

/-- **C151** exactly: a program over finite continued fractions does, step by step, what it would do with rational numbers
added to integers and compared with one as the library does it (`Rules.actual`); it panics exactly where these divide
by zero. No step runs for ever (`fuel` may be zero). -/
theorem cf_prog_exact (cfg : Cfg) (fuel n : ℕ) (p : Prog) (ρ : Nat → ℚ) :
    p.run cfg fuel n (fracs ρ) = (p.val .actual n ρ).map (frac fracs) := by
  induction n generalizing p ρ with
  | zero => rfl
  | succ n ih =>
    cases p with
    | skip => rfl
    | assign i e =>
      simp only [Prog.run, Prog.val]
      rw [expr_step cfg fuel ρ e]
      cases e.val .actual ρ with
      | none => rfl
      | some q => show some (Except.ok (Function.update _ _ _)) = _; rw [fracs_update]; rfl
    | seq p q =>
      simp only [Prog.run, Prog.val]
      rw [ih p]
      cases p.val .actual n ρ with
      | none => rfl
      | some r =>
        cases r with
        | none => rfl
        | some ρ1 => exact ih q ρ1
    | ite t p q =>
      simp only [Prog.run, Prog.val]
      rw [test_step cfg fuel ρ t]
      cases t.val .actual ρ with
      | none => rfl
      | some b =>
        cases b with
        | true => exact ih p ρ
        | false => exact ih q ρ
    | «while» t p =>
      simp only [Prog.run, Prog.val]
      rw [test_step cfg fuel ρ t]
      cases t.val .actual ρ with
      | none => rfl
      | some b =>
        cases b with
        | false => rfl
        | true =>
          show andThen (p.run cfg fuel n (fracs ρ)) _ = _
          rw [ih p]
          simp only
          cases p.val .actual n ρ with
          | none => rfl
          | some r =>
            cases r with
            | none => rfl
            | some ρ1 => exact ih _ ρ1

private theorem expr_plain (ρ : Nat → ℚ) (e : Expr) (he : e.Plain) : e.val .actual ρ = e.val .right ρ := by
  induction e with
  | var i => rfl
  | lit q => rfl
  | neg e ih => simp only [Expr.val, ih he]
  | num o e ih => simp only [Expr.val, ih he]
  | bin o e f ihe ihf => simp only [Expr.val, ihe he.1, ihf he.2]
  | addI k e ih => exact he.elim
  | subI k e ih => exact he.elim

private theorem test_plain (ρ : Nat → ℚ) (t : Test) (ht : t.Plain) : t.val .actual ρ = t.val .right ρ := by
  induction t with
  | zero e => simp only [Test.val, expr_plain ρ e ht]
  | one e => exact ht.elim
  | negative e => simp only [Test.val, expr_plain ρ e ht]
  | integer e => simp only [Test.val, expr_plain ρ e ht]
  | equal e f => simp only [Test.val, expr_plain ρ e ht.1, expr_plain ρ f ht.2]
  | not t ih => simp only [Test.val, ih ht]
  | and t u iht ihu => simp only [Test.val, iht ht.1, ihu ht.2]

private theorem prog_plain (n : ℕ) (p : Prog) (hp : p.Plain) (ρ : Nat → ℚ) : p.val .actual n ρ = p.val .right n ρ := by
  induction n generalizing p ρ with
  | zero => rfl
  | succ n ih =>
    cases p with
    | skip => rfl
    | assign i e => simp only [Prog.val, expr_plain ρ e hp]
    | seq p q => simp only [Prog.val, ih p hp.1, ih q hp.2]
    | ite t p q => simp only [Prog.val, test_plain ρ t hp.1, ih p hp.2.1, ih q hp.2.2]
    | «while» t p => simp only [Prog.val, test_plain ρ t hp.1, ih p hp.2, ih (.while t p) hp]

/-- **C151** partial: a program over finite continued fractions does, step by step, what it would do with rational numbers;
it panics exactly where these divide by zero.
Missing from the full claim: integers added or subtracted, and `is_one` (`cf_prog_refuted`; what happens then is
`cf_prog_exact`). -/
theorem cf_prog_partial (cfg : Cfg) (fuel n : ℕ) (p : Prog) (hp : p.Plain) (ρ : Nat → ℚ) :
    p.run cfg fuel n (fracs ρ) = (p.val .right n ρ).map (frac fracs) := by
  rw [cf_prog_exact, prog_plain n p hp]

/-- what is in variable `i` in the end -/
def look {α : Type} (r : Option (Res (Nat → α))) (i : Nat) : Option (Res α) := r.map (·.map (· i))

/-- Newton's iteration for the root of 2 from 3 on, while the square is 2.001 or more -/
def newton : Prog :=
  .seq (.assign 0 (.lit 3)) (.while (.not (.negative (.bin .sub (.bin .mul (.var 0) (.var 0)) (.lit (2001 / 1000)))))
    (.assign 0 (.num (.divInt 2) (.bin .add (.var 0) (.bin .div (.lit 2) (.var 0))))))

example : newton.Plain ∧ ((newton.val .right 9 fun _ => 0).map (·.map (· 0))) = some (some (10390190017 / 7346972688)) ∧
    (Prog.val .right 1 (.assign 0 (.bin .div (.lit 1) (.var 0))) fun _ => 0).map (·.map (· 0)) = some none :=
  ⟨by simp [newton, Prog.Plain, Test.Plain, Expr.Plain], by decide +kernel, by decide +kernel⟩

/-- **C151** is false with integers added or subtracted, and with `is_one`: `1/4 - 1` is `3/4`, and `-1` counts as one. -/
theorem cf_prog_refuted (cfg : Cfg) :
    let p : Prog := .assign 0 (.subI 1 (.lit (1 / 4)))
    let q : Prog := .ite (.one (.lit (-1))) (.assign 0 (.lit 5)) .skip
    look (p.run cfg 0 9 (fracs fun _ => 0)) 0 = some (.ok (CF.ofRat (3 / 4))) ∧ ((p.val .right 9 fun _ => 0).map (·.map (· 0))) = some (some (-3 / 4)) ∧
    look (q.run cfg 0 9 (fracs fun _ => 0)) 0 = some (.ok (CF.ofRat 5)) ∧ ((q.val .right 9 fun _ => 0).map (·.map (· 0))) = some (some 0) := by
  obtain ⟨c, d⟩ := cfg
  cases c <;> cases d <;> decide +kernel

end CFProg
end NumIrr
