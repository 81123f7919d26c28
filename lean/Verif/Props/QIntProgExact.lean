/-
C149: what all programs over quadratic integers do.
-/
import Verif.Spec.QIntProgExact
import Verif.Props.QIntProg

namespace NumIrr
namespace QProg
open QInt Classical

variable {cfg : Cfg} {D : ℤ}

/-- the number, and whether a discriminant is stored with it -/
noncomputable def mark (x : QInt) : Num := (x.valC, decide (x.d ≠ 0))

noncomputable def marks (σ : Nat → QInt) : Nat → Num := fun i => mark (σ i)

/-- over the ring; rational numbers may carry its discriminant -/
structure Marked (cfg : Cfg) (D : ℤ) (x : QInt) : Prop where
  good : Good cfg D false x
  d : x.d = 0 ∨ x.d = D

theorem marked_of_inRing {x : QInt} (h : x.InRing cfg D) : Marked cfg D x :=
  ⟨good_of_inRing h, by
    by_cases hb : x.b = 0
    · exact .inl (h.stored hb)
    · exact .inr (h.discr hb)⟩

private theorem irr_iff {x : QInt} (hx : Good cfg D false x) : irr x.valC = true ↔ x.b ≠ 0 := by
  unfold irr
  rw [decide_eq_true_eq, ← qint_isRational cfg x hx.ok, isRational_iff]

private theorem stored_marked {x : QInt} (hx : Good cfg D false x) (hs : x.Stored) :
    Marked cfg D x ∧ mark x = (x.valC, irr x.valC) := by
  refine ⟨⟨hx, ?_⟩, ?_⟩
  · by_cases hb : x.b = 0
    · exact .inl (hs hb)
    · exact .inr (hx.discr hb)
  · refine Prod.ext rfl ?_
    show decide (x.d ≠ 0) = irr x.valC
    rw [Bool.eq_iff_iff, irr_iff hx, decide_eq_true_eq]
    exact ⟨fun h hb => h (hs hb), fun h hd => h (hx.ok.rational hd)⟩

private theorem fromCoeffs_stored {c : QCoeffs} {d : ℤ} {z : QInt} (h : fromCoeffs cfg c d = .ok z) : z.Stored := by
  unfold fromCoeffs at h
  split at h
  · cases h
  split at h
  · cases h
  simp only at h
  generalize (if isqrt (d.natAbs : Int) * isqrt (d.natAbs : Int) = d then
    if d < 0 then (c.a, c.b * isqrt (d.natAbs : Int), (-1 : ℤ)) else (c.a + c.b * isqrt (d.natAbs : Int), 0, 0) else (c.a, c.b, d)) = t at h
  split at h
  · cases h; exact fun _ => rfl
  · next hn => cases h; exact fun hb => absurd (.inl hb) hn

private theorem bind_ok'' {α β : Type} {r : Res α} {f : α → Res β} {v : β} (h : (r >>= f) = .ok v) : ∃ u, r = .ok u ∧ f u = .ok v := by
  cases r with
  | error e => cases h
  | ok u => exact ⟨u, rfl, h⟩

private theorem op2_stored (o : Op2) {x y z : QInt} (hy : y.b ≠ 0) (h : o.run cfg x y = .ok z) : z.Stored := by
  have hr : ¬ y.isRational = true := by rwa [isRational_iff]
  cases o with
  | add =>
    have h : QInt.add cfg x y = .ok z := h
    unfold QInt.add at h
    rw [if_neg hr] at h
    split at h
    · cases h; exact fun hb => absurd hb hy
    · obtain ⟨p, -, h⟩ := bind_ok'' h
      exact fromCoeffs_stored h
  | sub =>
    have h : QInt.sub cfg x y = .ok z := h
    unfold QInt.sub at h
    rw [if_neg hr] at h
    split at h
    · cases h; exact fun hb => absurd (neg_eq_zero.1 hb) hy
    · obtain ⟨p, -, h⟩ := bind_ok'' h
      exact fromCoeffs_stored h
  | mul =>
    have h : QInt.mul cfg x y = .ok z := h
    unfold QInt.mul at h
    rw [if_neg hr] at h
    split at h
    · cases h
      unfold QInt.mulInt
      split
      · exact fun _ => rfl
      · next hk => exact fun hb => absurd hb (mul_ne_zero hy hk)
    · obtain ⟨p, -, h⟩ := bind_ok'' h
      obtain ⟨c, -, h⟩ := bind_ok'' h
      exact fromCoeffs_stored h
  | div =>
    have h : QInt.div cfg x y = .ok z := h
    unfold QInt.div at h
    rw [if_neg hr] at h
    split at h
    · obtain ⟨c, -, h⟩ := bind_ok'' h
      exact fromCoeffs_stored h
    · obtain ⟨p, -, h⟩ := bind_ok'' h
      obtain ⟨c, -, h⟩ := bind_ok'' h
      exact fromCoeffs_stored h

private theorem mulInt_d (x : QInt) (k : ℤ) : (x.mulInt k).d = if k = 0 then 0 else x.d := by
  unfold QInt.mulInt
  split <;> rfl

private theorem op2_d (o : Op2) {x y z : QInt} (hy : y.b = 0) (h : o.run cfg x y = .ok z) :
    z.d = if o = .mul ∧ y.a = 0 then 0 else x.d := by
  have hr : y.isRational = true := (isRational_iff y).2 hy
  cases o with
  | add =>
    have h : QInt.add cfg x y = .ok z := h
    unfold QInt.add at h
    rw [if_pos hr] at h
    cases h; simp [QInt.addInt, mk']
  | sub =>
    have h : QInt.sub cfg x y = .ok z := h
    unfold QInt.sub at h
    rw [if_pos hr] at h
    cases h; simp [QInt.subInt, mk']
  | mul =>
    have h : QInt.mul cfg x y = .ok z := h
    unfold QInt.mul at h
    rw [if_pos hr] at h
    cases h
    rw [mulInt_d]; simp
  | div =>
    have h : QInt.div cfg x y = .ok z := h
    unfold QInt.div at h
    rw [if_pos hr] at h
    obtain ⟨c, -, h⟩ := bind_ok'' h
    cases h; simp [mk']

private theorem op2_exact (hD : Usable cfg D) (o : Op2) {x y : QInt} (hx : Marked cfg D x) (hy : Marked cfg D y) :
    (o.run cfg x y).map mark = o.exact D (mark x) (mark y) ∧ ∀ z, o.run cfg x y = .ok z → Marked cfg D z := by
  obtain ⟨h1, h2⟩ := op2_spec hD o (fun h => by cases h) hx.good hy.good
  unfold Op2.exact
  by_cases hd : o.Defined y.valC
  · rw [if_pos (show o.Defined (mark y).1 from hd)]
    obtain ⟨z, k1, k2, k3⟩ := h1 hd
    rw [k1]
    by_cases hb : y.b = 0
    · have hi : irr y.valC = false := by
        rw [← Bool.not_eq_true, irr_iff hy.good]; exact not_not.2 hb
      have hzd := op2_d o hb k1
      have hya : y.valC = 0 ↔ y.a = 0 := by rw [valC_rational hb]; exact_mod_cast Iff.rfl
      refine ⟨?_, fun w hw => ?_⟩
      · show Except.ok (mark z) = _
        congr 1
        refine Prod.ext k3 ?_
        show decide (z.d ≠ 0) = if irr y.valC then _ else decide (x.d ≠ 0) && decide (o = .mul → y.valC ≠ 0)
        rw [hi, if_neg (by simp), Bool.eq_iff_iff, Bool.and_eq_true, decide_eq_true_eq, decide_eq_true_eq, decide_eq_true_eq, hzd]
        simp only [ne_eq, hya]
        split <;> tauto
      · cases hw
        refine ⟨k2, ?_⟩
        rw [hzd]
        split
        · exact .inl rfl
        · exact hx.d
    · have hi : irr y.valC = true := (irr_iff hy.good).2 hb
      obtain ⟨m1, m2⟩ := stored_marked k2 (op2_stored o hb k1)
      refine ⟨?_, fun w hw => by cases hw; exact m1⟩
      show Except.ok (mark z) = _
      rw [m2, k3]
      show _ = Except.ok (_, if irr y.valC then _ else _)
      rw [hi, if_pos rfl]
      rfl
  · rw [if_neg (show ¬ o.Defined (mark y).1 from hd), h2 hd]
    exact ⟨rfl, fun z h => by cases h⟩

private theorem op1_exact (hD : Usable cfg D) (o : Op1) {x : QInt} (hx : Marked cfg D x) :
    (o.run x).map mark = .ok (o.exact D (mark x)) ∧ ∀ z, o.run x = .ok z → Marked cfg D z := by
  obtain ⟨z, h1, h2, h3⟩ := op1_spec hD o hx.good
  have hzd : z.d = x.d ∨ (z.d = 0 ∧ o = .mulI 0) := by
    cases o with
    | neg => cases h1; exact .inl rfl
    | conj =>
      obtain ⟨c, -, h⟩ := bind_ok'' (show (x.coeffs.conj x.d >>= fun c => pure (mk' c x.d)) = .ok z from h1)
      cases h; exact .inl rfl
    | addI k => cases h1; exact .inl rfl
    | subI k => cases h1; exact .inl rfl
    | mulI k =>
      cases h1
      rw [mulInt_d]
      by_cases hk : k = 0
      · exact .inr ⟨by simp [hk], by rw [hk]⟩
      · exact .inl (by simp [hk])
  have hm : ∀ k, o = .mulI k → k = 0 → z.d = 0 := by
    rintro k rfl rfl
    cases h1; rw [mulInt_d]; simp
  rw [h1]
  refine ⟨?_, fun w hw => ?_⟩
  · show Except.ok (mark z) = _
    congr 1
    refine Prod.ext h3 ?_
    show decide (z.d ≠ 0) = (decide (x.d ≠ 0) && decide (∀ k, o = .mulI k → k ≠ 0))
    rw [Bool.eq_iff_iff, Bool.and_eq_true, decide_eq_true_eq, decide_eq_true_eq, decide_eq_true_eq]
    constructor
    · intro hz
      refine ⟨?_, fun k ho hk => hz (hm k ho hk)⟩
      rcases hzd with h | h
      · rwa [← h]
      · exact absurd h.1 hz
    · rintro ⟨a1, a2⟩
      rcases hzd with h | h
      · rwa [h]
      · exact absurd rfl (a2 0 h.2)
  · cases hw
    refine ⟨h2, ?_⟩
    rcases hzd with h | h
    · rw [h]; exact hx.d
    · exact .inl h.1

private theorem expr_exact (hD : Usable cfg D) {σ : Nat → QInt} (hσ : ∀ i, Marked cfg D (σ i)) (e : Expr) :
    (e.run cfg D σ).map mark = e.exact D (marks σ) ∧ ∀ z, e.run cfg D σ = .ok z → Marked cfg D z := by
  induction e with
  | var i => exact ⟨rfl, fun z h => by cases h; exact hσ i⟩
  | lit a b =>
    have e := fromCoeffs_eq (cfg := cfg) (c := ⟨a, b⟩) hD.real hD.mod4 hD.notSquare
    obtain ⟨z, h1, h2, h3⟩ := lit_spec (m := false) hD a b
    obtain ⟨m1, -⟩ := stored_marked h2 (fromCoeffs_stored h1)
    simp only [Expr.run, Expr.exact, h1]
    refine ⟨?_, fun w hw => by cases hw; exact m1⟩
    show Except.ok (mark z) = _
    congr 1
    refine Prod.ext h3 ?_
    show decide (z.d ≠ 0) = decide (b ≠ 0)
    rw [h1] at e
    cases e
    rw [decide_eq_decide]
    by_cases hb : b = 0
    · simp [hb]
    · simp [hb, not_isSquare_ne_zero hD.notSquare]
  | op1 o e ih =>
    obtain ⟨i1, i2⟩ := ih
    simp only [Expr.run, Expr.exact, ← i1]
    cases hu : e.run cfg D σ with
    | error p => exact ⟨rfl, fun z h => by cases h⟩
    | ok u => exact op1_exact hD o (i2 u hu)
  | op2 o e f ihe ihf =>
    obtain ⟨i1, i2⟩ := ihe
    obtain ⟨j1, j2⟩ := ihf
    simp only [Expr.run, Expr.exact, ← i1, ← j1]
    cases hu : e.run cfg D σ with
    | error p => exact ⟨rfl, fun z h => by cases h⟩
    | ok u =>
      cases hv : f.run cfg D σ with
      | error p => exact ⟨rfl, fun z h => by cases h⟩
      | ok v => exact op2_exact hD o (i2 u hu) (j2 v hv)

private theorem eq_exact (hD : Usable cfg D) {x y : QInt} (hx : Marked cfg D x) (hy : Marked cfg D y) :
    QInt.eq x y = .ok (decide (x.valC = y.valC ∧ (x.d ≠ 0 ↔ y.d ≠ 0))) := by
  have hD0 : D ≠ 0 := not_isSquare_ne_zero hD.notSquare
  unfold QInt.eq
  by_cases hd : x.d = y.d
  · rw [if_pos hd]
    congr 1
    rw [decide_eq_decide]
    constructor
    · rintro ⟨h1, h2⟩
      exact ⟨by unfold valC; rw [h1, h2, hd], by rw [hd]⟩
    · rintro ⟨h1, -⟩
      by_cases h0 : x.d = 0
      · have hxb := hx.good.ok.rational h0
        have hyb := hy.good.ok.rational (hd ▸ h0)
        rw [valC_rational hxb, valC_rational hyb] at h1
        exact ⟨by exact_mod_cast h1, by rw [hxb, hyb]⟩
      · have := omega_coeff_eq (hx.good.ok.irrational h0) (x := x.a) (y := x.b) (x' := y.a) (y' := y.b) (by
          have h1' := h1
          unfold valC at h1'
          rw [← hd] at h1'
          push_cast; exact h1')
        exact ⟨by exact_mod_cast this.1, by exact_mod_cast this.2⟩
  · rw [if_neg hd]
    have h0 : x.d = 0 ∨ y.d = 0 := by
      rcases hx.d with h | h
      · exact .inl h
      rcases hy.d with k | k
      · exact .inr k
      exact absurd (h.trans k.symm) hd
    rw [if_pos h0]
    congr 1
    symm
    rw [decide_eq_false_iff_not]
    rintro ⟨-, h⟩
    rcases h0 with k | k
    · exact hd (by rw [k]; by_contra hn; exact (h.2 (Ne.symm hn)) k)
    · exact hd (by rw [k]; by_contra hn; exact (h.1 hn) k)

private theorem test_exact (hD : Usable cfg D) {σ : Nat → QInt} (hσ : ∀ i, Marked cfg D (σ i)) (t : Test) :
    t.run cfg D σ = t.exact D (marks σ) := by
  induction t with
  | zero e =>
    obtain ⟨i1, i2⟩ := expr_exact hD hσ e
    simp only [Test.run, Test.exact, ← i1]
    cases hu : e.run cfg D σ with
    | error p => rfl
    | ok u =>
      show Except.ok u.isZero = Except.ok (decide (u.valC = 0))
      congr 1
      rw [Bool.eq_iff_iff, decide_eq_true_eq]
      exact zero_iff (i2 u hu).good
  | rational e =>
    obtain ⟨i1, i2⟩ := expr_exact hD hσ e
    simp only [Test.run, Test.exact, ← i1]
    cases hu : e.run cfg D σ with
    | error p => rfl
    | ok u =>
      show Except.ok u.isRational = Except.ok (!irr u.valC)
      congr 1
      rw [Bool.eq_iff_iff, Bool.not_eq_true', ← Bool.not_eq_true, irr_iff (i2 u hu).good, isRational_iff, not_not]
  | equal e f =>
    obtain ⟨i1, i2⟩ := expr_exact hD hσ e
    obtain ⟨j1, j2⟩ := expr_exact hD hσ f
    simp only [Test.run, Test.exact, ← i1, ← j1]
    cases hu : e.run cfg D σ with
    | error p => rfl
    | ok u =>
      cases hv : f.run cfg D σ with
      | error p => rfl
      | ok v =>
        show QInt.eq u v = Except.ok (decide (mark u = mark v))
        rw [eq_exact hD (i2 u hu) (j2 v hv)]
        congr 1
        rw [decide_eq_decide, Prod.ext_iff]
        show _ ↔ u.valC = v.valC ∧ decide (u.d ≠ 0) = decide (v.d ≠ 0)
        rw [decide_eq_decide]
  | not t ih => simp only [Test.run, Test.exact, ih]
  | and t u iht ihu => simp only [Test.run, Test.exact, iht, ihu]

private theorem prog_exact (hD : Usable cfg D) (n : ℕ) (p : Prog) (σ : Nat → QInt) (hσ : ∀ i, Marked cfg D (σ i)) :
    (p.run cfg D n σ).map (·.map marks) = p.exact D n (marks σ) ∧
    ∀ σ', p.run cfg D n σ = some (.ok σ') → ∀ i, Marked cfg D (σ' i) := by
  induction n generalizing p σ with
  | zero => exact ⟨rfl, fun _ h => by cases h⟩
  | succ n ih =>
    cases p with
    | skip => exact ⟨rfl, fun σ' h => by cases h; exact hσ⟩
    | assign i e =>
      obtain ⟨i1, i2⟩ := expr_exact hD hσ e
      simp only [Prog.run, Prog.exact, ← i1]
      cases hv : e.run cfg D σ with
      | error p => exact ⟨rfl, fun _ h => by cases h⟩
      | ok v =>
        refine ⟨?_, fun σ' h j => ?_⟩
        · show some (Except.ok (marks (Function.update σ i v))) = some (Except.ok (Function.update (marks σ) i (mark v)))
          congr 2
          funext j
          by_cases hj : j = i
          · subst hj; simp [marks]
          · simp [marks, hj]
        · cases h
          by_cases hj : j = i
          · subst hj; simpa using i2 v hv
          · simpa [hj] using hσ j
    | seq p q =>
      obtain ⟨h1, h2⟩ := ih p σ hσ
      simp only [Prog.run, Prog.exact, ← h1]
      cases e : p.run cfg D n σ with
      | none => exact ⟨rfl, fun _ h => by cases h⟩
      | some r =>
        cases r with
        | error p => exact ⟨rfl, fun _ h => by cases h⟩
        | ok σ1 => exact ih q σ1 (h2 σ1 e)
    | ite t p q =>
      simp only [Prog.run, Prog.exact, ← test_exact hD hσ t]
      cases e : t.run cfg D σ with
      | error p => exact ⟨rfl, fun _ h => by cases h⟩
      | ok b =>
        cases b with
        | true => exact ih p σ hσ
        | false => exact ih q σ hσ
    | «while» t p =>
      simp only [Prog.run, Prog.exact, ← test_exact hD hσ t]
      cases e : t.run cfg D σ with
      | error p => exact ⟨rfl, fun _ h => by cases h⟩
      | ok b =>
        cases b with
        | false => exact ⟨rfl, fun σ' h => by cases h; exact hσ⟩
        | true =>
          obtain ⟨h1, h2⟩ := ih p σ hσ
          simp only [← h1]
          cases e : p.run cfg D n σ with
          | none => exact ⟨rfl, fun _ h => by cases h⟩
          | some r =>
            cases r with
            | error p => exact ⟨rfl, fun _ h => by cases h⟩
            | ok σ1 => exact ih _ σ1 (h2 σ1 e)

/-- **C149** What any program over one ring does, `/` and `==` together included: after any number of steps it has done, or
panicked or not ended like, what it does with complex numbers that carry a mark; `==` compares the marks too. -/
theorem qint_prog_exact (cfg : Cfg) (D : ℤ) (hD : Usable cfg D) (n : ℕ) (p : Prog) (σ : Nat → QInt)
    (hσ : ∀ i, (σ i).InRing cfg D) : (p.run cfg D n σ).map (·.map marks) = p.exact D n (marks σ) :=
  (prog_exact hD n p σ fun i => marked_of_inRing (hσ i)).1

example : Usable ⟨true, true⟩ 2 ∧ ∀ _i : ℕ, QInt.zero.InRing ⟨true, true⟩ 2 :=
  ⟨⟨by decide, by decide +kernel, by decide⟩, fun _ => ⟨zero_ok, fun _ => rfl, fun h => absurd rfl h⟩⟩

/-- `(5 + √2)/3` is rounded to 2 with the mark of `√2`, so it is not `== 2` -/
example (debug : Bool) :
    (Test.equal (.op2 .div (.lit 5 1) (.lit 3 0)) (.lit 2 0)).run ⟨false, debug⟩ 2 (fun _ => QInt.zero) = .ok false := by
  cases debug <;> decide +kernel

end QProg
end NumIrr
