/-
C42: convergents of generalized continued fractions; C60: `generalize`; C61: rational approximation.
-/
import Verif.Lemmas.ConvStep
import Verif.Model.Infinite
import Mathlib.Tactic.FieldSimp

namespace NumIrr

open Block

namespace GIter

/-- a call of `next` on the convergents which yields `v` -/
def ConvCall (ty : IntTy) (s : GIter) (v : ℚ) (s' : GIter) : Prop := s.convNext ty = .ok (some v, s')

theorem conv_outs (ty : IntTy) (src : ℕ → Option (ℤ × ℤ)) (g : ℕ → ℤ × ℤ) (hg : ∀ k p, src k = some p → g k = p)
    {outs : List ℚ} {s : GIter} (h : Outs (ConvCall ty) (GIter.new src) outs s) :
    ConvAt g src outs.length s ∧ ∀ n (hn : n < outs.length),
      gQ g (n + 1) ≠ 0 ∧ outs[n] = (gP g (n + 1) : ℚ) / gQ g (n + 1) := by
  generalize hs0 : GIter.new src = s0 at h
  induction h with
  | nil => subst hs0; exact ⟨⟨rfl, rfl, Scal.refl _⟩, fun n hn => by simp at hn⟩
  | @snoc s2 s3 l v _ hcall ih =>
    obtain ⟨h1, h2⟩ := ih
    obtain ⟨h3, h4⟩ := convNext_ok hg h1 hcall
    refine ⟨by rw [List.length_append]; exact h3, fun n hn => ?_⟩
    rw [List.length_append, List.length_singleton] at hn
    rcases Nat.lt_succ_iff_lt_or_eq.mp hn with hn | rfl
    · rw [List.getElem_append_left hn]; exact h2 n hn
    · rw [List.getElem_append_right le_rfl]; simpa using h4

/-- C42, restricted: for every stream with `a₁ = 1` and every integer type, a yielded convergent is the nested fraction
`b₁ + a₂/(b₂ + … + aₙ/bₙ)` whenever that is defined, in spite of the removed common factors.  (Missing: after an undefined
nested fraction, which panics, and after an overflow, which ends the sequence, there are no further convergents; see
`gconv_refuted`.) -/
theorem gconv_partial (ty : IntTy) (src : ℕ → Option (ℤ × ℤ)) (g : ℕ → ℤ × ℤ) (hg : ∀ k p, src k = some p → g k = p)
    (h0 : (g 0).1 = 1) {outs : List ℚ} {s : GIter} (h : Outs (ConvCall ty) (GIter.new src) outs s) (n : ℕ)
    (hn : n < outs.length) (v : ℚ) (hv : nest g n = some v) : outs[n] = v := by
  rw [((conv_outs ty src g hg h).2 n hn).2, (nest_eq h0 hv).2]
example : nest (fun k => ([(1, 3), (6, 7), (1, 5)] : List (ℤ × ℤ)).getD k (0, 0)) 2 = some (23 / 6) := by decide +kernel

/-- As long as the nested fractions are defined, unbounded integers yield all of them. -/
theorem gconv_all (ty : IntTy) (hf : ∀ n, ty.fits n = true) (g : ℕ → ℤ × ℤ) (h0 : (g 0).1 = 1) (v : ℕ → ℚ) (n : ℕ)
    (hv : ∀ m < n, nest g m = some (v m)) :
    ∃ s, Outs (ConvCall ty) (GIter.new fun k => some (g k)) ((List.range n).map v) s := by
  suffices H : ∃ s, Outs (ConvCall ty) (GIter.new fun k => some (g k)) ((List.range n).map v) s ∧
      ConvAt g (fun k => some (g k)) n s from ⟨_, H.choose_spec.1⟩
  induction n with
  | zero => exact ⟨_, Outs.nil _, rfl, rfl, Scal.refl _⟩
  | succ n ih =>
    obtain ⟨s, hs, h1⟩ := ih fun m hm => hv m (by omega)
    obtain ⟨hq, he⟩ := nest_eq h0 (hv n (by omega))
    obtain ⟨s', h2, h3⟩ := (convNext_of hf h1 rfl).1 hq
    refine ⟨s', ?_, h3⟩
    rw [List.range_succ, List.map_append, List.map_singleton]
    rw [← he] at h2
    exact Outs.snoc hs h2

/-- Positive fractions: all convergents are yielded, and they are the nested fractions. -/
theorem gconv_positive (ty : IntTy) (hf : ∀ n, ty.fits n = true) (g : ℕ → ℤ × ℤ) (hp : PosG g) :
    ∃ v : ℕ → ℚ, (∀ m, nest g m = some (v m)) ∧
      ∀ n, ∃ s, Outs (ConvCall ty) (GIter.new fun k => some (g k)) ((List.range n).map v) s := by
  choose v hv _ using fun n => hp.posT.nest_some n
  exact ⟨v, hv, fun n => gconv_all ty hf g hp.1 v n fun m _ => hv m⟩

/-- For unbounded integers a call panics exactly when the denominator of the convergent is zero. -/
theorem gconv_panics_iff (ty : IntTy) (hf : ∀ n, ty.fits n = true) (g : ℕ → ℤ × ℤ) {outs : List ℚ} {s : GIter}
    (h : Outs (ConvCall ty) (GIter.new fun k => some (g k)) outs s) :
    (s.convNext ty = .error .divZero ↔ gQ g (outs.length + 1) = 0) ∧
    (gQ g (outs.length + 1) ≠ 0 → ∃ v s', ConvCall ty s v s') := by
  have h1 := (conv_outs ty _ g (fun k p hk => by simpa using hk) h).1
  obtain ⟨h2, h3⟩ := convNext_of hf h1 rfl
  refine ⟨⟨fun he => ?_, h3⟩, fun hq => ?_⟩
  · by_contra hq
    obtain ⟨s', h4, -⟩ := h2 hq
    rw [he] at h4; cases h4
  · obtain ⟨s', h4, -⟩ := h2 hq
    exact ⟨_, _, h4⟩

/-- the items and the final panic (if any) of the first `n` calls; `none` is recorded and the calls go on -/
def convRun (ty : IntTy) : ℕ → GIter → List (Option ℚ) × Option Panic
  | 0, _ => ([], none)
  | n + 1, s =>
    match s.convNext ty with
    | .ok (v, s') => let r := convRun ty n s'; (v :: r.1, r.2)
    | .error e => ([], some e)

/-- the pairs `(1,1), (-1,1), (-1,1), (1,1), …` -/
def zeroDen : ℕ → ℤ × ℤ := fun k => if k = 0 then (1, 1) else if k = 3 then (1, 1) else (-1, 1)

/-- the pairs `(1,200), (1,200), (1,1), …` -/
def large : ℕ → ℤ × ℤ := fun k => if k ≤ 1 then (1, 200) else (1, 1)

/-- C42 is false as stated: `1 - 1/(1 - 1/(1 + 1/1)) = -1` is never reached, as the shorter fraction
`1 - 1/(1 - 1/1)` makes the third call panic; and on `u8` the iterator goes on after an overflow with numbers which are
not convergents. -/
theorem gconv_refuted :
    (nest zeroDen 3 = some (-1) ∧ nest zeroDen 2 = none ∧
      convRun IntTy.big 4 (GIter.new fun k => some (zeroDen k)) = ([some 1, some 0], some .divZero)) ∧
    (convRun (IntTy.unsigned 8) 3 (GIter.new fun k => some (large k)) = ([some 200, none, some 201], none) ∧
      nest large 2 = some (40201 / 201)) := by
  decide +kernel

/-- common factors are removed: `(1,1),(2,2),(4,2),(4,2),…` -/
example : convRun IntTy.big 5 (GIter.new fun k => some (if k = 0 then (1, 1) else if k = 1 then (2, 2) else (4, 2)))
    = ([some 1, some 2, some (3 / 2), some (5 / 3), some (8 / 5)], none) := by decide +kernel

/-! ### `generalize` -/

/-- `generalize` yields the pairs (coefficient, 1), that is `aₖ` and `bₖ` are exchanged: instead of `[c₀; c₁, c₂, …]` the
pairs denote `(1 + c₁/(1 + c₂/(1 + …)))/c₀`. -/
theorem generalize_pairs (c : ℕ → ℤ) (k : ℕ) : generalize (fun k => some (c k)) k = some (c k, 1) := rfl

/-- C60 is false: for `√2 = [1; 2, 2, …]` the convergents after `generalize` are `1, 3, 5/3, 11/5, …`, which tend to `2`
rather than `√2`. -/
theorem generalize_refuted :
    convRun IntTy.big 6 (GIter.new (generalize fun k => some (if k = 0 then 1 else 2)))
      = ([some 1, some 3, some (5 / 3), some (11 / 5), some (21 / 11), some (43 / 21)], none) ∧
    convRun IntTy.big 6 (GIter.new fun k => some (1, if k = 0 then 1 else 2))
      = ([some 1, some (3 / 2), some (7 / 5), some (17 / 12), some (41 / 29), some (99 / 70)], none) := by
  decide +kernel

/-- C60, restricted: the pairs are right only where they can not be distinguished, that is when all coefficients
are `1`. -/
theorem generalize_partial (c : ℕ → ℤ) :
    (∀ k, generalize (fun k => some (c k)) k = some (1, c k)) ↔ ∀ k, c k = 1 := by
  constructor
  · intro h k
    have := h k
    simp only [generalize, Option.map_some, Option.some.injEq, Prod.mk.injEq] at this
    exact this.1
  · intro h k
    simp [generalize, h k]

end GIter
end NumIrr
