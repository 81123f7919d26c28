/-
C87: the regular expansion of `π` by `simplify`, and homographic functions of `e`, over primitive integers.
-/
import Verif.Lemmas.FixedConst
import Verif.Props.FixedCoeffs

namespace NumIrr
namespace Prim

/-- `Pi.gfrac()` -/
def piSrc (t : Prim) : Nat → Res (Option (Int × Int)) := streamR t.piNext .new

/-- `E.cfrac()` -/
def eSrc (t : Prim) : Nat → Res (Option Int) := streamR t.eNext .new

/-- C87, `π`, with overflow checks: whatever `Pi.gfrac().simplify()` emits are the coefficients of the regular expansion
of `π`. -/
theorem prim_pi_simplify_partial {t : Prim} (hc : t.checks = true) {outs : List Int} {z : Block × Nat}
    (h : Outs (t.SimpCall t.piSrc) (Block.identity, 0) outs z) (n : Nat) (hn : n < outs.length) :
    outs[n] = ⌊tails Real.pi n⌋ := by
  refine prim_simplify_regular_partial hc (g := piPair) (fun k => ?_) piPair_pos Real.pi piPair_val h n hn
  have h1 := streamR_ref (piNext_ref hc) .new k
  rw [PiCoeffs.stream_eq] at h1
  exact h1

/-- the coefficients of `π` up to the forty-sixth -/
def piFirst : List Int :=
  [3, 7, 15, 1, 292, 1, 1, 1, 2, 1, 3, 1, 14, 2, 1, 1, 2, 2, 2, 2, 1, 84, 2, 1, 1, 15, 3, 13, 1, 4, 2, 6, 6, 99, 1, 2,
    2, 6, 3, 5, 1, 1, 6, 8, 1, 7]

/-- they are: a checked run over a wide type computes them -/
theorem piFirst_eq (n : Nat) (hn : n < piFirst.length) : piFirst[n] = ⌊tails Real.pi n⌋ := by
  have h : ((Prim.mk 256 true true).simpRun (piSrc ⟨256, true, true⟩) 60 46 (Block.identity, 0)).map (·.1) = some piFirst := by
    decide +kernel
  cases hr : (Prim.mk 256 true true).simpRun (piSrc ⟨256, true, true⟩) 60 46 (Block.identity, 0) with
  | none => rw [hr] at h; cases h
  | some r =>
    obtain ⟨l, z⟩ := r
    rw [hr] at h
    simp only [Option.map_some, Option.some.injEq] at h
    subst h
    exact prim_pi_simplify_partial rfl (simpRun_outs hr) n hn

/-- the widths and the numbers of coefficients -/
def piCounts : List (Nat × Nat) := [(8, 1), (16, 2), (32, 4), (64, 21), (128, 45)]

/-- a checked run which emits `n` coefficients and then panics -/
def CheckedRun (t : Prim) (n : Nat) : Prop :=
  ∃ outs z fuel, outs.length = n ∧ Outs (t.SimpCall t.piSrc) (Block.identity, 0) outs z ∧
    (∀ i (hi : i < outs.length), outs[i] = ⌊tails Real.pi i⌋) ∧ t.simpNext t.piSrc fuel z.1 z.2 = some (.error .overflow)

theorem checkedRun_of {t : Prim} (hc : t.checks = true) {n : Nat}
    (h : (t.simpRun t.piSrc 60 n (Block.identity, 0)).any (fun r => r.1.length = n ∧
      t.simpNext t.piSrc 60 r.2.1 r.2.2 = some (.error .overflow)) = true) : CheckedRun t n := by
  cases hr : t.simpRun t.piSrc 60 n (Block.identity, 0) with
  | none => rw [hr] at h; cases h
  | some r =>
    obtain ⟨l, z⟩ := r
    rw [hr] at h
    simp only [Option.any_some, decide_eq_true_eq] at h
    exact ⟨l, z, 60, h.1, simpRun_outs hr, fun i hi => prim_pi_simplify_partial hc (simpRun_outs hr) i hi, h.2⟩

/-- C87, `π`, the number of coefficients with checks: 1 for 8 bits, 2 for 16, 4 for 32, 21 for 64 and 45 for 128 bits,
whether signed or not; the call after that panics. -/
theorem prim_pi_simplify_count : ∀ p ∈ piCounts, ∀ sg, CheckedRun ⟨p.1, sg, true⟩ p.2 := by
  have h : ∀ p ∈ piCounts, ∀ sg, ((Prim.mk p.1 sg true).simpRun (piSrc ⟨p.1, sg, true⟩) 60 p.2 (Block.identity, 0)).any
      (fun r => r.1.length = p.2 ∧ (Prim.mk p.1 sg true).simpNext (piSrc ⟨p.1, sg, true⟩) 60 r.2.1 r.2.2 = some (.error .overflow)) = true := by
    decide +kernel
  exact fun p hp sg => checkedRun_of rfl (h p hp sg)

/-- C87, `π`, refuted without checks: for every type the next coefficient is wrong.  (Over `u64` it is 1 instead of 84.) -/
theorem prim_pi_simplify_refuted : ∀ p ∈ piCounts, ∀ sg, ∃ outs z, ∃ h : outs.length = p.2 + 1,
    Outs (SimpCall ⟨p.1, sg, false⟩ (piSrc ⟨p.1, sg, false⟩)) (Block.identity, 0) outs z ∧
    outs[p.2] ≠ ⌊tails Real.pi p.2⌋ := by
  have h : ∀ p ∈ piCounts, p.2 < piFirst.length ∧ ∀ sg,
      ((Prim.mk p.1 sg false).simpRun (piSrc ⟨p.1, sg, false⟩) 60 (p.2 + 1) (Block.identity, 0)).any
        (fun r => r.1.length = p.2 + 1 ∧ r.1.getD p.2 0 ≠ piFirst.getD p.2 0) = true := by
    decide +kernel
  intro p hp sg
  obtain ⟨h1, h2⟩ := h p hp
  have h3 := h2 sg
  cases hr : (Prim.mk p.1 sg false).simpRun (piSrc ⟨p.1, sg, false⟩) 60 (p.2 + 1) (Block.identity, 0) with
  | none => rw [hr] at h3; cases h3
  | some r =>
    obtain ⟨l, z⟩ := r
    rw [hr] at h3
    simp only [Option.any_some, decide_eq_true_eq] at h3
    obtain ⟨e1, e2⟩ := h3
    refine ⟨l, z, e1, simpRun_outs hr, ?_⟩
    rw [← piFirst_eq p.2 h1]
    rwa [List.getD_eq_getElem?_getD, List.getD_eq_getElem?_getD, List.getElem?_eq_getElem (by omega),
      List.getElem?_eq_getElem h1] at e2

/-- C87, `e`, with overflow checks and non-negative numbers: whatever `E.cfrac().homo(a, b, c, d)` emits are the coefficients
of the regular expansion of `(ae + b)/(ce + d)`. -/
theorem prim_e_homo_partial {t : Prim} (hc : t.checks = true) (a b c d : Int) (ha : 0 ≤ a) (hb : 0 ≤ b) (hc' : 0 ≤ c) (hd : 0 ≤ d)
    {outs : List Int} {z : Block × Nat} (h : Outs (t.HomoCall t.eSrc) (Block.new a b c d, 0) outs z) (n : Nat)
    (hn : n < outs.length) : outs[n] = ⌊tails ((a * Real.exp 1 + b) / (c * Real.exp 1 + d)) n⌋ := by
  refine prim_homo_regular_partial hc (s := fun k => some ⌊tails (Real.exp 1) k⌋) (fun k => ?_) a b c d ha hb hc' hd
    (fun k => tails (Real.exp 1) k) (Real.exp_pos 1) (fun k i hi => ?_) h n hn
  · have h1 := streamR_ref (eNext_ref hc) .new k
    rw [ECoeffs.e_regular] at h1
    exact h1
  · simp only [Option.some.injEq] at hi
    subst hi
    exact ⟨Int.floor_nonneg.mpr (tails_pos ECoeffs.e_irrational (Real.exp_pos 1) k).le,
      tails_pos ECoeffs.e_irrational (Real.exp_pos 1) _, tails_eq _ k⟩

/-- `u8`, `e + 1` -/
example : ∃ z, Outs (HomoCall ⟨8, false, true⟩ (eSrc ⟨8, false, true⟩)) (Block.new 1 1 0 1, 0) [3, 1] z :=
  ⟨_, Outs.cons (s1 := (⟨4, 3, 3, 2⟩, 4)) ⟨60, by decide +kernel⟩
    (Outs.cons (s1 := (⟨3, 2, 1, 1⟩, 4)) ⟨60, by decide +kernel⟩ (Outs.nil _))⟩

end Prim
end NumIrr
