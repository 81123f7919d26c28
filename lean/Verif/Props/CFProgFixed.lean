/-
C151 over primitive integers.
-/
import Verif.Spec.CFProgFixed
import Verif.Props.CFProg

namespace NumIrr
namespace CFProg
open CF Fx

/-- the numbers that can be written in the type, without the least integer (whose absolute value cannot) -/
def Can (w : Nat) (q : ℚ) : Prop := FitsQ w q ∧ q.num ≠ -2 ^ (w - 1)

private theorem can_iff {w : Nat} {q : ℚ} : Can w q ↔ (CF.ofRat q).Reads w := by
  unfold CF.Reads Can FitsQ
  rw [if_pos (cf_ofRat q).1.1]
  constructor
  · rintro ⟨⟨h1, h2, h3⟩, h4⟩
    exact ⟨q, (cf_ofRat q).2, by omega, h3⟩
  · rintro ⟨r, h1, h2, h3⟩
    rw [(cf_ofRat q).2] at h1
    cases h1
    exact ⟨⟨by omega, by omega, h3⟩, by omega⟩

/-- the value, a division by zero, or an overflow -/
private def Out {α β : Type} (f : α → β) (P : α → Prop) (r : Option (Res β)) (v : Option α) : Prop :=
  (∃ q, v = some q ∧ r = some (.ok (f q)) ∧ P q) ∨ (v = none ∧ r = some (.error .divZero)) ∨
    r = some (.error .overflow)

private theorem out_bind {α α' β β' : Type} {f : α → α'} {P : α → Prop} {g : β → β'} {Q : β → Prop}
    {r : Option (Res α')} {v : Option α} {k : α' → Option (Res β')} {l : α → Option β} (h : Out f P r v)
    (hk : ∀ q, P q → Out g Q (k (f q)) (l q)) : Out g Q (andThen r k) (v >>= l) := by
  rcases h with ⟨q, rfl, rfl, h⟩ | ⟨rfl, rfl⟩ | rfl
  · exact hk q h
  · exact .inr (.inl ⟨rfl, rfl⟩)
  · exact .inr (.inr rfl)

private theorem out_frac {f : ℚ → CF} {P : ℚ → Prop} {r b : Option (Res CF)} {v : Option ℚ} (h : RefinesO r b)
    (hb : b = some (frac f v)) (hp : ∀ q, v = some q → r = some (.ok (f q)) → P q) : Out f P r v := by
  rcases h with h | h
  · rw [hb] at h
    cases v with
    | none => exact .inr (.inl ⟨rfl, h⟩)
    | some q => exact .inl ⟨q, rfl, h, hp q rfl h⟩
  · exact .inr (.inr h)

private theorem num_reads {x : Fx} (hw : 2 ≤ x.w) (hc : x.checks = true) (cfg : Cfg) {fuel : ℕ} (hf : 2 ^ x.w ≤ fuel)
    {p : ℚ} (hp : (CF.ofRat p).Reads x.w) (o : NumOp) (w : CF)
    (h : o.runFx x cfg fuel (CF.ofRat p) = some (.ok w)) : w.Reads x.w := by
  have fin : (CF.ofRat p).isRational = true := by simp [CF.isRational, (cf_ofRat p).1.1]
  have rd : x.ratValue (CF.ofRat p) = .ok (.of p) := by
    obtain ⟨r', h1, -, h3, -⟩ := Fx.ratValue_exact (cf_ofRat p).1.wf (cf_ofRat p).1.1 hp
    rw [(cf_ofRat p).2] at h3
    cases h3; exact h1
  have key : ∀ (F : Rt → Res Rt) (G : Res ℚ) (g : Surd → Res Surd),
      Refines (F (.of p)) (G.map Rt.of) → Ens (F (.of p)) x.HoldsR →
      x.opNumber cfg fuel (CF.ofRat p) F g = some (.ok w) → w.Reads x.w := by
    intro F G g h1 h2 h3
    unfold Fx.opNumber at h3
    rw [if_pos fin, rd] at h3
    simp only [Surd.ok_bind] at h3
    cases e : F (.of p) with
    | error e' => rw [e] at h3; cases h3
    | ok t =>
      rw [e] at h3
      have ht := h2 t e
      have h4 := h1.returns e
      cases G with
      | error e' => cases h4
      | ok v =>
        have : t = .of v := by
          have : (Except.ok (Rt.of v) : Res Rt) = .ok t := h4
          cases this; rfl
        subst this
        rcases CFFormula.lit_step hw hc hf ht with ⟨k1, k2⟩ | k
        · simp only at h3
          rw [k1] at h3; cases h3; exact k2
        · simp only at h3
          rw [k] at h3; cases h3
  cases o with
  | mulInt k => exact key (fun q => x.rtMulInt q k) (.ok (p * k)) _ (rtMulInt_ref hc p k) (rtMulInt_holds hw _ _) h
  | divInt k => exact key (fun q => x.rtDivInt q k) (ratioDiv p k) _ (rtDivInt_refR hc p k) (rtDivInt_holds hw _ _) h
  | addRat k => exact key (fun q => x.rtAdd q (.of k)) (.ok (p + k)) _ (rtAdd_ref hc p k) (rtAdd_holds hw _ _) h
  | subRat k => exact key (fun q => x.rtSub q (.of k)) (.ok (p - k)) _ (rtSub_ref hc p k) (rtSub_holds hw _ _) h
  | mulRat k => exact key (fun q => x.rtMul q (.of k)) (.ok (p * k)) _ (rtMul_ref hc p k) (rtMul_holds hw _ _) h
  | divRat k => exact key (fun q => x.rtDiv q (.of k)) (ratioDiv p k) _ (rtDiv_refR hc p k) (rtDiv_holds hw _ _) h

section
variable {x : Fx} (hw : 2 ≤ x.w) (hc : x.checks = true) (cfg : Cfg) {fuel : ℕ} (hf : 2 ^ x.w ≤ fuel)
include hw hc hf

private theorem expr_out (ρ : Nat → ℚ) (hρ : ∀ i, Can x.w (ρ i)) (e : Expr) (he : e.Plain) (hx : e.Fits x.w) :
    Out CF.ofRat (Can x.w) (e.runFx x cfg fuel (fracs ρ)) (e.val .right ρ) := by
  induction e with
  | var i => exact .inl ⟨_, rfl, rfl, hρ i⟩
  | lit q =>
    have hq : x.HoldsR (.of q) := by
      have := Prim.two_pow_pos (x.w - 1)
      refine ⟨⟨hx.1, hx.2.1⟩, ⟨?_, hx.2.2⟩⟩
      show -2 ^ (x.w - 1) ≤ (q.den : Int)
      omega
    rcases CFFormula.lit_step hw hc hf hq with ⟨h1, h2⟩ | h
    · exact .inl ⟨_, rfl, h1, can_iff.2 h2⟩
    · exact .inr (.inr h)
  | neg e ih =>
    exact out_bind (ih he hx) fun q hq => .inl ⟨-q, rfl, by rw [neg_step],
      can_iff.2 (CFFormula.reads_neg (can_iff.1 hq))⟩
  | num o e ih =>
    refine out_bind (ih he hx) fun q hq => ?_
    exact out_frac (fixed_cf_num_partial x hw hc cfg fuel hf _ (cf_ofRat q).1.wf (can_iff.1 hq) o)
      (num_step cfg fuel o q) fun r _ hr => can_iff.2 (num_reads hw hc cfg hf (can_iff.1 hq) o _ hr)
  | bin o e f ihe ihf =>
    refine out_bind (ihe he.1 hx.1) fun q hq => out_bind (ihf he.2 hx.2) fun r hr => ?_
    exact out_frac (fixed_cf_bin_partial x hw hc cfg fuel hf _ _ (cf_ofRat q).1.wf (can_iff.1 hq) (cf_ofRat r).1.wf
      (can_iff.1 hr) o) (bin_step cfg fuel o q r) fun s _ hs =>
      can_iff.2 (CFFormula.bin_step hw hc cfg hf (can_iff.1 hq) (can_iff.1 hr) o _ hs)
  | addI k e ih => exact he.elim
  | subI k e ih => exact he.elim

private theorem test_out (ρ : Nat → ℚ) (hρ : ∀ i, Can x.w (ρ i)) (t : Test) (ht : t.Plain) (hx : t.Fits x.w) :
    Out id (fun _ => True) (t.runFx x cfg fuel (fracs ρ)) (t.val .right ρ) := by
  induction t with
  | zero e => exact out_bind (expr_out hw hc cfg hf ρ hρ e ht hx) fun q _ => .inl ⟨_, rfl, by rw [zero_iff]; rfl, trivial⟩
  | one e => exact ht.elim
  | negative e =>
    exact out_bind (expr_out hw hc cfg hf ρ hρ e ht hx) fun q _ => .inl ⟨_, rfl, by rw [neg_iff]; rfl, trivial⟩
  | integer e =>
    exact out_bind (expr_out hw hc cfg hf ρ hρ e ht hx) fun q _ => .inl ⟨_, rfl, by rw [integer_iff]; rfl, trivial⟩
  | equal e f =>
    exact out_bind (expr_out hw hc cfg hf ρ hρ e ht.1 hx.1) fun q _ =>
      out_bind (expr_out hw hc cfg hf ρ hρ f ht.2 hx.2) fun r _ => .inl ⟨_, rfl, by rw [equal_iff]; rfl, trivial⟩
  | not t ih => exact out_bind (ih ht hx) fun q _ => .inl ⟨_, rfl, rfl, trivial⟩
  | and t u iht ihu =>
    refine out_bind (iht ht.1 hx.1) fun b _ => ?_
    cases b with
    | true => exact ihu ht.2 hx.2
    | false => exact .inl ⟨_, rfl, rfl, trivial⟩

/-- **C151** partial, over primitive integers with overflow checks: from numbers of the type other than the least, a
program does what it would do with rational numbers, and all variables hold numbers of the type, or it panics with an
overflow. Missing: integers added or subtracted, and `is_one` (`cf_prog_refuted`). -/
theorem fixed_cf_prog_partial (n : ℕ) (p : Prog) (hp : p.Plain) (hx : p.Fits x.w) (ρ : Nat → ℚ)
    (hρ : ∀ i, Can x.w (ρ i)) :
    (p.runFx x cfg fuel n (fracs ρ) = (p.val .right n ρ).map (frac fracs) ∧
      ∀ ρ', p.val .right n ρ = some (some ρ') → ∀ i, Can x.w (ρ' i)) ∨
    p.runFx x cfg fuel n (fracs ρ) = some (.error .overflow) := by
  induction n generalizing p ρ with
  | zero => exact .inl ⟨rfl, fun _ h => by cases h⟩
  | succ n ih =>
    cases p with
    | skip => exact .inl ⟨rfl, fun ρ' h => by cases h; exact hρ⟩
    | assign i e =>
      simp only [Prog.runFx, Prog.val]
      rcases expr_out hw hc cfg hf ρ hρ e hp hx with ⟨q, h1, h2, h3⟩ | ⟨h1, h2⟩ | h
      · rw [h1, h2]
        refine .inl ⟨?_, ?_⟩
        · show some (Except.ok (Function.update _ _ _)) = _
          rw [fracs_update]; rfl
        · rintro ρ' h j
          cases h
          by_cases hj : j = i
          · subst hj; simpa using h3
          · simpa [hj] using hρ j
      · rw [h1, h2]; exact .inl ⟨rfl, fun _ h => by cases h⟩
      · rw [h]; exact .inr rfl
    | seq p q =>
      simp only [Prog.runFx, Prog.val]
      rcases ih p hp.1 hx.1 ρ hρ with ⟨h1, h2⟩ | h
      · rw [h1]
        cases e : p.val .right n ρ with
        | none => exact .inl ⟨rfl, fun _ h => by cases h⟩
        | some r =>
          cases r with
          | none => exact .inl ⟨rfl, fun _ h => by cases h⟩
          | some ρ1 => exact ih q hp.2 hx.2 ρ1 (h2 ρ1 e)
      · rw [h]; exact .inr rfl
    | ite t p q =>
      simp only [Prog.runFx, Prog.val]
      rcases test_out hw hc cfg hf ρ hρ t hp.1 hx.1 with ⟨b, h1, h2, -⟩ | ⟨h1, h2⟩ | h
      · rw [h1, h2]
        cases b with
        | true => exact ih p hp.2.1 hx.2.1 ρ hρ
        | false => exact ih q hp.2.2 hx.2.2 ρ hρ
      · rw [h1, h2]; exact .inl ⟨rfl, fun _ h => by cases h⟩
      · rw [h]; exact .inr rfl
    | «while» t p =>
      simp only [Prog.runFx, Prog.val]
      rcases test_out hw hc cfg hf ρ hρ t hp.1 hx.1 with ⟨b, h1, h2, -⟩ | ⟨h1, h2⟩ | h
      · rw [h1, h2]
        cases b with
        | false => exact .inl ⟨rfl, fun ρ' h => by cases h; exact hρ⟩
        | true =>
          show (andThen (p.runFx x cfg fuel n (fracs ρ)) _ = _ ∧ _) ∨ andThen (p.runFx x cfg fuel n (fracs ρ)) _ = _
          rcases ih p hp.2 hx.2 ρ hρ with ⟨h1, h2⟩ | h
          · rw [h1]
            simp only
            cases e : p.val .right n ρ with
            | none => exact .inl ⟨rfl, fun _ h => by cases h⟩
            | some r =>
              cases r with
              | none => exact .inl ⟨rfl, fun _ h => by cases h⟩
              | some ρ1 => exact ih _ hp hx ρ1 (h2 ρ1 e)
          · rw [h]; exact .inr rfl
      · rw [h1, h2]; exact .inl ⟨rfl, fun _ h => by cases h⟩
      · rw [h]; exact .inr rfl
end

/-- the sum of `1/k` for `k` up to 4 -/
def harmonic : Prog :=
  .seq (.assign 0 (.lit 4)) (.while (.not (.zero (.var 0)))
    (.seq (.assign 1 (.bin .add (.var 1) (.bin .div (.lit 1) (.var 0)))) (.assign 0 (.num (.subRat 1) (.var 0)))))

example : harmonic.Plain ∧ harmonic.Fits 8 ∧ Can 8 0 ∧ ((harmonic.val .right 9 fun _ => 0).map (·.map (· 1))) = some (some (25 / 12)) ∧
    look (harmonic.runFx ⟨8, true⟩ ⟨false, true⟩ 256 9 fun _ => CF.zero) 1 = some (.ok ⟨[2, 12], [], false⟩) :=
  ⟨by simp [harmonic, Prog.Plain, Test.Plain, Expr.Plain], by
    simp [harmonic, Prog.Fits, Test.Fits, Expr.Fits, FitsQ], by simp [Can, FitsQ], by decide +kernel, by decide +kernel⟩

/-- without overflow checks this is false: over `i8`, `100 * 2` is `-56` -/
theorem fixed_cf_prog_refuted (cfg : Cfg) :
    let p : Prog := .assign 0 (.num (.mulInt 2) (.lit 100))
    p.Plain ∧ p.Fits 8 ∧ look (p.runFx ⟨8, false⟩ cfg 256 9 (fracs fun _ => 0)) 0 = some (.ok (CF.ofRat (-56))) ∧
    ((p.val .right 9 fun _ => 0).map (·.map (· 0))) = some (some 200) := by
  refine ⟨trivial, by simp [Prog.Fits, Expr.Fits, FitsQ], ?_, by decide +kernel⟩
  obtain ⟨c, d⟩ := cfg
  cases c <;> cases d <;> decide +kernel

end CFProg
end NumIrr
