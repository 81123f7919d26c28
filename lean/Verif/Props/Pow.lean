/-
C145: powers calculated with `num_traits::pow`.
-/
import Verif.Spec.Pow
import Verif.Props.Horner
import Verif.Props.SurdLaws
import Verif.Props.QIntLaws
import Verif.Props.FixedSurd
import Verif.Lemmas.FixedQRef

namespace NumIrr

section generic
variable {α M : Type} [CommMonoid M] {mul : α → α → Res α} {P : α → Prop} {val : α → M}

private theorem strip_returns (h : ∀ x y, P x → P y → ∃ z, mul x y = .ok z ∧ P z ∧ val z = val x * val y)
    (f : ℕ) (b : α) (e : ℕ) (hb : P b) (he : e ≠ 0) (hf : e ≤ f) :
    ∃ p, powStrip mul f b e = .ok p ∧ P p.1 ∧ p.2 % 2 = 1 ∧ val p.1 ^ p.2 = val b ^ e := by
  induction f generalizing b e with
  | zero => omega
  | succ f ih =>
    unfold powStrip
    by_cases h2 : e % 2 = 0
    · rw [if_pos h2]
      obtain ⟨b', e1, p1, v1⟩ := h b b hb hb
      obtain ⟨p, e2, p2, o2, v2⟩ := ih b' (e / 2) p1 (by omega) (by omega)
      refine ⟨p, by rw [e1]; exact e2, p2, o2, ?_⟩
      rw [v2, v1, ← pow_two, ← pow_mul]
      congr 1
      omega
    · rw [if_neg h2]
      exact ⟨_, rfl, hb, by simp only; omega, rfl⟩

private theorem loop_returns (h : ∀ x y, P x → P y → ∃ z, mul x y = .ok z ∧ P z ∧ val z = val x * val y)
    (f : ℕ) (acc b : α) (e : ℕ) (ha : P acc) (hb : P b) (hf : e ≤ f) :
    ∃ z, powLoop mul f acc b e = .ok z ∧ P z ∧ val z = val acc * val b ^ (2 * (e / 2)) := by
  induction f generalizing acc b e with
  | zero =>
    obtain rfl : e = 0 := by omega
    exact ⟨acc, rfl, ha, by simp⟩
  | succ f ih =>
    unfold powLoop
    by_cases h1 : 1 < e
    · rw [if_pos h1]
      obtain ⟨b', e1, p1, v1⟩ := h b b hb hb
      by_cases h2 : e / 2 % 2 = 1
      · obtain ⟨a', e2, p2, v2⟩ := h acc b' ha p1
        obtain ⟨z, e3, p3, v3⟩ := ih a' b' (e / 2) p2 p1 (by omega)
        refine ⟨z, ?_, p3, ?_⟩
        · rw [e1]
          show (if e / 2 % 2 = 1 then _ else _) = _
          rw [if_pos h2, e2]
          exact e3
        · rw [v3, v2, v1, mul_assoc, ← pow_succ', ← pow_two, ← pow_mul]
          congr 2
          omega
      · obtain ⟨z, e3, p3, v3⟩ := ih acc b' (e / 2) ha p1 (by omega)
        refine ⟨z, ?_, p3, ?_⟩
        · rw [e1]
          show (if e / 2 % 2 = 1 then _ else _) = _
          rw [if_neg h2]
          exact e3
        · rw [v3, v1, ← pow_two, ← pow_mul]
          congr 2
          omega
    · rw [if_neg h1]
      refine ⟨acc, rfl, ha, ?_⟩
      rw [show e / 2 = 0 by omega]
      simp

private theorem pow_returns (h : ∀ x y, P x → P y → ∃ z, mul x y = .ok z ∧ P z ∧ val z = val x * val y)
    {one b : α} (h1 : P one) (v1 : val one = 1) (hb : P b) (e : ℕ) :
    ∃ z, powRun one mul b e = .ok z ∧ P z ∧ val z = val b ^ e := by
  unfold powRun
  by_cases he : e = 0
  · rw [if_pos he, he]
    exact ⟨one, rfl, h1, by rw [v1, pow_zero]⟩
  · rw [if_neg he]
    obtain ⟨p, e1, p1, o1, w1⟩ := strip_returns h e b e hb he le_rfl
    rw [e1]
    show ∃ z, (if p.2 = 1 then _ else _) = _ ∧ _
    by_cases h2 : p.2 = 1
    · rw [if_pos h2]
      exact ⟨p.1, rfl, p1, by rw [← w1, h2, pow_one]⟩
    · rw [if_neg h2]
      obtain ⟨z, e2, p2, w2⟩ := loop_returns h p.2 p.1 p.1 p.2 p1 p1 le_rfl
      refine ⟨z, e2, p2, ?_⟩
      rw [w2, ← w1, ← pow_succ']
      congr 1
      omega

private theorem strip_value (h : ∀ x y z, P x → P y → mul x y = .ok z → P z ∧ val z = val x * val y)
    (f : ℕ) (b : α) (e : ℕ) (hb : P b) (he : e ≠ 0) (hf : e ≤ f) (p : α × ℕ) (hp : powStrip mul f b e = .ok p) :
    P p.1 ∧ p.2 % 2 = 1 ∧ val p.1 ^ p.2 = val b ^ e := by
  induction f generalizing b e with
  | zero => omega
  | succ f ih =>
    unfold powStrip at hp
    by_cases h2 : e % 2 = 0
    · rw [if_pos h2] at hp
      obtain ⟨b', e1, hp⟩ := Surd.bind_ok_inv hp
      obtain ⟨p1, v1⟩ := h b b b' hb hb e1
      obtain ⟨p2, o2, v2⟩ := ih b' (e / 2) p1 (by omega) (by omega) hp
      refine ⟨p2, o2, ?_⟩
      rw [v2, v1, ← pow_two, ← pow_mul]
      congr 1
      omega
    · rw [if_neg h2] at hp
      cases hp
      exact ⟨hb, by simp only; omega, rfl⟩

private theorem loop_value (h : ∀ x y z, P x → P y → mul x y = .ok z → P z ∧ val z = val x * val y)
    (f : ℕ) (acc b : α) (e : ℕ) (ha : P acc) (hb : P b) (hf : e ≤ f) (z : α) (hz : powLoop mul f acc b e = .ok z) :
    P z ∧ val z = val acc * val b ^ (2 * (e / 2)) := by
  induction f generalizing acc b e with
  | zero =>
    obtain rfl : e = 0 := by omega
    cases hz
    exact ⟨ha, by simp⟩
  | succ f ih =>
    unfold powLoop at hz
    by_cases h1 : 1 < e
    · rw [if_pos h1] at hz
      obtain ⟨b', e1, hz⟩ := Surd.bind_ok_inv hz
      obtain ⟨p1, v1⟩ := h b b b' hb hb e1
      by_cases h2 : e / 2 % 2 = 1
      · rw [if_pos h2] at hz
        obtain ⟨a', e2, hz⟩ := Surd.bind_ok_inv hz
        obtain ⟨p2, v2⟩ := h acc b' a' ha p1 e2
        obtain ⟨p3, v3⟩ := ih a' b' (e / 2) p2 p1 (by omega) hz
        refine ⟨p3, ?_⟩
        rw [v3, v2, v1, mul_assoc, ← pow_succ', ← pow_two, ← pow_mul]
        congr 2
        omega
      · rw [if_neg h2] at hz
        obtain ⟨p3, v3⟩ := ih acc b' (e / 2) ha p1 (by omega) hz
        refine ⟨p3, ?_⟩
        rw [v3, v1, ← pow_two, ← pow_mul]
        congr 2
        omega
    · rw [if_neg h1] at hz
      cases hz
      refine ⟨ha, ?_⟩
      rw [show e / 2 = 0 by omega]
      simp

private theorem pow_value (h : ∀ x y z, P x → P y → mul x y = .ok z → P z ∧ val z = val x * val y)
    {one b : α} (h1 : P one) (v1 : val one = 1) (hb : P b) (e : ℕ) (z : α) (hz : powRun one mul b e = .ok z) :
    P z ∧ val z = val b ^ e := by
  unfold powRun at hz
  by_cases he : e = 0
  · rw [if_pos he] at hz
    cases hz
    rw [he]
    exact ⟨h1, by rw [v1, pow_zero]⟩
  · rw [if_neg he] at hz
    obtain ⟨p, e1, hz⟩ := Surd.bind_ok_inv hz
    obtain ⟨p1, o1, w1⟩ := strip_value h e b e hb he le_rfl p e1
    by_cases h2 : p.2 = 1
    · rw [if_pos h2] at hz
      cases hz
      exact ⟨p1, by rw [← w1, h2, pow_one]⟩
    · rw [if_neg h2] at hz
      obtain ⟨p2, w2⟩ := loop_value h p.2 p.1 p.1 p.2 p1 p1 le_rfl z hz
      refine ⟨p2, ?_⟩
      rw [w2, ← w1, ← pow_succ']
      congr 1
      omega

end generic

/-- a loop over checked integers -/
theorem pow_refines {α : Type} {f g : α → α → Res α} (h : ∀ x y, Refines (f x y) (g x y)) (one b : α) (e : ℕ) :
    Refines (powRun one f b e) (powRun one g b e) := by
  have hs : ∀ n b e, Refines (powStrip f n b e) (powStrip g n b e) := by
    intro n
    induction n with
    | zero => exact fun _ _ => .rfl'
    | succ n ih =>
      intro b e
      unfold powStrip
      split
      · exact (h b b).bind fun _ _ => ih _ _
      · exact .rfl'
  have hl : ∀ n a b e, Refines (powLoop f n a b e) (powLoop g n a b e) := by
    intro n
    induction n with
    | zero => exact fun _ _ _ => .rfl'
    | succ n ih =>
      intro a b e
      unfold powLoop
      split
      · refine (h b b).bind fun _ _ => ?_
        split
        · exact (h _ _).bind fun _ _ => ih _ _ _
        · exact ih _ _ _
      · exact .rfl'
  unfold powRun
  split
  · exact .rfl'
  · refine (hs _ _ _).bind fun p _ => ?_
    split
    · exact .rfl'
    · exact hl _ _ _ _

/-! ### quadratic integers -/

/-- **C145** The power of a quadratic integer: it always returns, with the right number, in the same ring. -/
theorem qint_pow (cfg : Cfg) (D : ℤ) (x : QInt) (hx : x.InRing cfg D) (e : ℕ) :
    ∃ z, powRun QInt.one (QInt.mul cfg) x e = .ok z ∧ z.InRing cfg D ∧ z.valC = x.valC ^ e :=
  pow_returns (P := QInt.InRing cfg D) (val := QInt.valC)
    (fun x y hx hy => (qint_ring_ops cfg D x y hx hy).2.2.1) (qint_ring_ops cfg D x x hx hx).2.2.2.2.2
    (by simp [QInt.valC, QInt.one]) hx e

example : powRun QInt.one (QInt.mul ⟨false, true⟩) ⟨1, 1, 2⟩ 10 = .ok ⟨3363, 2378, 2⟩ ∧
    powRun QInt.one (QInt.mul ⟨true, true⟩) ⟨1, 1, -1⟩ 4 = .ok ⟨-4, 0, 0⟩ := by decide +kernel

/-! ### surds -/

open Surd in
/-- a product of two real surds with roots `0` or `r`, `r` square-free -/
private theorem mul_squarefree {cfg : Cfg} {r : ℤ} (hsf : Squarefree r) {x y : Surd} (hx : x.RealOk ∧ (x.r = 0 ∨ x.r = r))
    (hy : y.RealOk ∧ (y.r = 0 ∨ y.r = r)) :
    ∃ z, mul cfg x y = .ok z ∧ (z.RealOk ∧ (z.r = 0 ∨ z.r = r)) ∧ z.val = x.val * y.val := by
  have one : ∀ x y : Surd, x.RealOk → y.RealOk → y.r = r → (x.r = 0 ∨ x.r = r) →
      ∃ z, mul cfg x y = .ok z ∧ (z.RealOk ∧ (z.r = 0 ∨ z.r = r)) ∧ z.val = x.val * y.val := by
    intro x y hx hy hyr hxr
    obtain ⟨z, e, -, -, hu⟩ := under_mul (hx.toOk cfg) (hy.toOk cfg)
      (hxr.imp id fun h => ⟨1, one_pos, by rw [h, hyr]; ring⟩) (.inl hy.real)
    obtain ⟨h1, h2⟩ := surd_mul_value_real cfg x y z hx hy e
    refine ⟨z, e, ⟨h1, hu.imp id ?_⟩, h2⟩
    rintro ⟨k, hk, h⟩
    rw [hyr] at h
    have hu := hsf k ⟨z.r, h⟩
    rcases Int.isUnit_iff.1 hu with rfl | rfl
    · rw [h]; ring
    · omega
  rcases hy.2 with hy0 | hyr
  · rcases hx.2 with hx0 | hxr
    · obtain ⟨z, e, -, ho⟩ := (mul_spec (hx.1.toOk cfg) (hy.1.toOk cfg)).1 (.inl hx0)
      obtain ⟨h1, h2⟩ := surd_mul_value_real cfg x y z hx.1 hy.1 e
      refine ⟨z, e, ⟨h1, .inl ?_⟩, h2⟩
      have v1 := valC_of_r_zero hx.1.toNormal hx0
      have v2 := valC_of_r_zero hy.1.toNormal hy0
      rw [eq_ofRat_of_valC cfg z ho (Rat.divInt x.a x.c * Rat.divInt y.a y.c) ?_]
      · rfl
      · rw [h1.valC, h2]
        rw [Complex.ofReal_mul, Rat.cast_mul, ← hx.1.valC, ← hy.1.valC, v1, v2]
    · obtain ⟨z, e, h1, h2⟩ := one y x hy.1 hx.1 hxr (.inl hy0)
      refine ⟨z, ?_, h1, by rw [h2, mul_comm]⟩
      have hx0 : x.r ≠ 0 := by rw [hxr]; exact hsf.ne_zero
      unfold mul at e ⊢
      rw [if_neg (fun h => hx0 ((hx.1.toOk cfg).isRational_iff.mp h)), if_pos ((hy.1.toOk cfg).isRational_iff.mpr hy0)] at e
      rw [if_pos ((hy.1.toOk cfg).isRational_iff.mpr hy0), e]
  · exact one x y hx.1 hy.1 hyr hx.2

private theorem one_real : (Surd.ofInt 1).RealOk ∧ (Surd.ofInt 1).val = 1 := by
  have h := surd_ofInt_normal ⟨false, true⟩ 1
  have hr : (Surd.ofInt 1).RealOk := ⟨h.toNormal, h.real rfl⟩
  refine ⟨hr, ?_⟩
  have hv := surd_ofInt_value 1
  rw [hr.valC] at hv
  exact_mod_cast hv

/-- **C145** Whatever the power of a real surd returns is the right number. -/
theorem surd_pow_value (cfg : Cfg) (s : Surd) (hs : s.RealOk) (e : ℕ) (z : Surd)
    (h : powRun (Surd.ofInt 1) (Surd.mul cfg) s e = .ok z) : z.RealOk ∧ z.val = s.val ^ e :=
  pow_value (P := Surd.RealOk) (val := Surd.val) (fun x y z hx hy h => surd_mul_value_real cfg x y z hx hy h)
    one_real.1 one_real.2 hs e z h

/-- **C145** partial: the power of a real surd with a square-free root always returns, with the right number.
Missing from the full claim: that it returns for roots with a square factor, and complex numbers; it is false for both
(`surd_pow_panics`, `surd_pow_refuted`). -/
theorem surd_pow_partial (cfg : Cfg) (s : Surd) (hs : s.RealOk) (hsf : s.r = 0 ∨ Squarefree s.r) (e : ℕ) :
    ∃ z, powRun (Surd.ofInt 1) (Surd.mul cfg) s e = .ok z ∧ z.RealOk ∧ z.val = s.val ^ e := by
  have key : ∀ r : ℤ, Squarefree r → (s.r = 0 ∨ s.r = r) →
      ∃ z, powRun (Surd.ofInt 1) (Surd.mul cfg) s e = .ok z ∧ z.RealOk ∧ z.val = s.val ^ e := by
    intro r hr h
    obtain ⟨z, e1, p1, v1⟩ := pow_returns (P := fun z : Surd => z.RealOk ∧ (z.r = 0 ∨ z.r = r)) (val := Surd.val)
      (fun x y hx hy => mul_squarefree (cfg := cfg) hr hx hy) ⟨one_real.1, .inl rfl⟩ one_real.2 ⟨hs, h⟩ e
    exact ⟨z, e1, p1.1, v1⟩
  rcases hsf with h | h
  · exact key 1 squarefree_one (.inl h)
  · exact key s.r h (.inr rfl)

example : (Surd.mk 1 1 2 5).RealOk ∧ powRun (Surd.ofInt 1) (Surd.mul ⟨false, true⟩) ⟨1, 1, 2, 5⟩ 20 = .ok ⟨15127, 6765, 2, 5⟩ ∧
    powRun (Surd.ofInt 1) (Surd.mul ⟨false, true⟩) ⟨1, 1, 2, 5⟩ 7 = .ok ⟨29, 13, 2, 5⟩ := by decide +kernel

/-- **C145** Multiplying again and again by `s` returns for all roots, and for complex numbers that are not purely imaginary,
with the right number: it is Horner's rule for `x^e`. -/
theorem surd_pow_slow (cfg : Cfg) (s : Surd) (hs : s.Ok cfg) (hp : 0 ≤ s.r ∨ s.a ≠ 0) (e : ℕ) :
    ∃ z, hornerRun cfg s (List.replicate e 0 ++ [1]) = .ok z ∧ z.Ok cfg ∧ z.valC = s.valC ^ e := by
  obtain ⟨z, h1, h2, h3⟩ := Surd.horner_value_partial cfg s hs hp (List.replicate e 0 ++ [1])
  refine ⟨z, h1, h2, h3.trans ?_⟩
  unfold polyVal
  refine (Finset.sum_eq_single (M := ℂ) (⟨e, by simp⟩ : Fin (List.replicate e (0 : ℚ) ++ [1]).length) ?_ ?_).trans ?_
  · intro i _ hi
    have hi1 : (i : ℕ) < e + 1 := by simpa using i.2
    have hi2 : (i : ℕ) ≠ e := fun h => hi (Fin.ext h)
    have : (List.replicate e (0 : ℚ) ++ [1])[i] = 0 := by
      rw [Fin.getElem_fin, List.getElem_append_left (by simp; omega)]
      simp
    rw [this]
    simp
  · intro h
    exact absurd (Finset.mem_univ _) h
  · simp

/-- **C145** is false for complex surds: `(1 + i)⁴` is calculated as `4`, although quadratic integers give `-4`; multiplying
four times by `1 + i` gives `-4` too. -/
theorem surd_pow_refuted : (Surd.mk 1 1 1 (-1)).Ok ⟨true, true⟩ ∧
    powRun (Surd.ofInt 1) (Surd.mul ⟨true, true⟩) ⟨1, 1, 1, -1⟩ 4 = .ok ⟨4, 0, 1, 0⟩ ∧
    powRun QInt.one (QInt.mul ⟨true, true⟩) ⟨1, 1, -1⟩ 4 = .ok ⟨-4, 0, 0⟩ ∧
    hornerRun ⟨true, true⟩ ⟨1, 1, 1, -1⟩ [0, 0, 0, 0, 1] = .ok ⟨-4, 0, 1, 0⟩ := by decide +kernel

/-- **C145** is false for real surds whose root has a square factor: the 7th and the 8th power of
`s = (24375 + √455625000) / 6000` are stored with the roots `3240` and `9000`, none of which is a multiple of the other, so
that the 15th power panics as if they belonged to different fields.  `s` is what the constructor makes.  Multiplying again
and again by `s` returns (`surd_pow_slow`). -/
theorem surd_pow_panics : ∀ cfg : Cfg,
    Surd.new cfg 97500 4 24000 455625000 = .ok ⟨24375, 1, 6000, 455625000⟩ ∧
    (Surd.mk 24375 1 6000 455625000).RealOk ∧
    powRun (Surd.ofInt 1) (Surd.mul cfg) ⟨24375, 1, 6000, 455625000⟩ 7 =
      .ok ⟨200225582935625, 3517604893375, 268435456, 3240⟩ ∧
    powRun (Surd.ofInt 1) (Surd.mul cfg) ⟨24375, 1, 6000, 455625000⟩ 8 =
      .ok ⟨24411702745350625, 257321940603000, 4294967296, 9000⟩ ∧
    powRun (Surd.ofInt 1) (Surd.mul cfg) ⟨24375, 1, 6000, 455625000⟩ 15 = .error .incompatible := by
  rintro ⟨_ | _, _ | _⟩ <;> decide +kernel

/-! ### primitive integers -/

/-- **C145** With overflow checks a power is the right one or an overflow panic. -/
theorem fixed_pow (x : Fx) (hx : x.checks = true) (cfg : Cfg) (s : Surd) (e : ℕ) :
    Refines (powRun (Surd.ofInt 1) (x.surdMul cfg) s e) (powRun (Surd.ofInt 1) (Surd.mul cfg) s e) :=
  pow_refines (fun l r => Fx.surdMul_ref hx cfg l r) _ _ _

example : powRun (Surd.ofInt 1) ((Fx.mk 64 true).surdMul ⟨false, true⟩) ⟨1, 1, 2, 5⟩ 7 = .ok ⟨29, 13, 2, 5⟩ ∧
    powRun (Surd.ofInt 1) ((Fx.mk 8 true).surdMul ⟨false, true⟩) ⟨1, 1, 2, 5⟩ 20 = .error .overflow := by decide +kernel

end NumIrr
