/-
C33: exactly when arithmetic on periodic continued fractions returns, panics or runs for ever, simple.rs:777-863.
-/
import Verif.Props.CFArith

namespace NumIrr
namespace CF

open Surd

/-- a real surd is rational exactly if its root is zero -/
theorem real_rational_iff {u : Surd} (h : u.RealOk) : (∃ q : ℚ, u.val = q) ↔ u.r = 0 := by
  have hc : (u.c : ℝ) ≠ 0 := by exact_mod_cast h.c_pos.ne'
  constructor
  · rintro ⟨q, hq⟩
    by_contra h2
    refine irr_of_nonsquare (h.irrational h2) (A := u.a / u.c) (B := u.b / u.c) ?_ h.real q ?_
    · refine div_ne_zero ?_ (by exact_mod_cast h.c_pos.ne')
      exact_mod_cast fun e => h2 (h.rational.1 e)
    · rw [← hq]; unfold Surd.val quadR; push_cast; ring
  · intro hr
    refine ⟨u.a / u.c, ?_⟩
    unfold Surd.val quadR
    rw [hr]
    push_cast
    simp

/-- the fate of the conversion of the result `u` back to a fraction: a number panics if it is rational, is returned, or
runs for ever -/
theorem via_exact (cfg : Cfg) {c : CF} {f : Surd → Res Surd} {s u : Surd} (h1 : c.toSurd cfg = .ok s) (h2 : f s = .ok u)
    (hu : u.RealOk) :
    (u.r = 0 → ∃ N, ∀ fuel, viaSurd cfg fuel c f =
      if N ≤ fuel then some (.error (if cfg.debug then .debugAssert else .divZero)) else none) ∧
    (u.r ≠ 0 → (¬ Hangs u.cfDisc u.cfStart ↔ ∃ N w, ∀ fuel, N ≤ fuel → viaSurd cfg fuel c f = some (.ok w)) ∧
      (Hangs u.cfDisc u.cfStart ↔ ∀ fuel, viaSurd cfg fuel c f = none)) := by
  have hv : ∀ fuel, viaSurd cfg fuel c f = u.toContfracUnwrap cfg fuel := fun fuel => by
    unfold viaSurd
    rw [h1, Surd.ok_bind, h2]
  simp only [hv]
  refine ⟨fun hr => ?_, fun hr => ?_⟩
  · obtain ⟨N, hN⟩ := surd_toContfrac_rational cfg u hu hr
    refine ⟨N, fun fuel => ?_⟩
    unfold toContfracUnwrap
    rw [hN fuel]
    by_cases h : N ≤ fuel <;> simp [h]
  · obtain ⟨g1, g2, g3⟩ := surd_toContfrac_returns_iff cfg u hu hr
    have hN : Hangs u.cfDisc u.cfStart → ∀ fuel, u.toContfracUnwrap cfg fuel = none := fun hh fuel => by
      unfold toContfracUnwrap; rw [g2.mp hh fuel]
    have hY : ¬ Hangs u.cfDisc u.cfStart → ∃ N w, ∀ fuel, N ≤ fuel → u.toContfracUnwrap cfg fuel = some (.ok w) := fun hh => by
      obtain ⟨N, w, h⟩ := g1.mp hh
      exact ⟨N, w, fun fuel hf => by unfold toContfracUnwrap; rw [h fuel hf]⟩
    refine ⟨⟨hY, ?_⟩, hN, ?_⟩
    · rintro ⟨N, w, h⟩ hh
      have := h N le_rfl
      rw [hN hh N] at this
      cases this
    · intro h
      by_contra hh
      obtain ⟨N, w, g⟩ := hY hh
      have := g N le_rfl
      rw [h N] at this
      cases this

/-- An operation on a periodic fraction and a number: a panic of the conversion to a surd (C37), a panic on division by
zero, and otherwise, for the exact result `u`, a panic if `u` is rational, no end exactly if the conversion of `u` to a
fraction has none (C36), and a result in all other cases. -/
theorem cf_num_periodic_exact (cfg : Cfg) (c : CF) (h : c.Wf) (hp : c.p ≠ []) (x : ℝ) (hx : c.HasVal x) (o : NumOp) :
    (∀ e, c.toSurd cfg = .error e → ∀ fuel, o.run cfg fuel c = some (.error e)) ∧
    ∀ s, c.toSurd cfg = .ok s →
      (¬ o.Defined → ∀ fuel, o.run cfg fuel c = some (.error .denomZero)) ∧
      (o.Defined → ∃ u : Surd, u.RealOk ∧ u.val = o.real x ∧ o.surd cfg s = .ok u ∧
        ((∃ q : ℚ, o.real x = q) ↔ u.r = 0) ∧
        (u.r = 0 → ∃ N, ∀ fuel, o.run cfg fuel c =
          if N ≤ fuel then some (.error (if cfg.debug then .debugAssert else .divZero)) else none) ∧
        (u.r ≠ 0 → (¬ Hangs u.cfDisc u.cfStart ↔ ∃ N w, ∀ fuel, N ≤ fuel → o.run cfg fuel c = some (.ok w)) ∧
          (Hangs u.cfDisc u.cfStart ↔ ∀ fuel, o.run cfg fuel c = none))) := by
  have hrun : ∀ fuel, o.run cfg fuel c = viaSurd cfg fuel c (fun s => o.surd cfg s) := fun fuel => by
    rw [NumOp.run_eq, opNumber, if_neg (by simp [isRational, hp])]
  simp only [hrun]
  refine ⟨fun e he fuel => ?_, fun s hs => ?_⟩
  · unfold viaSurd; rw [he]; rfl
  · obtain ⟨h1, h2⟩ := cf_toSurd_value cfg c h s hs
    obtain ⟨k1, k2⟩ := NumOp.surd_spec cfg o h1
    refine ⟨fun hd fuel => ?_, fun hd => ?_⟩
    · unfold viaSurd; simp only [hs, Surd.ok_bind, k2 hd]
    · obtain ⟨u, u1, u2, u3⟩ := k1 hd
      rw [HasVal.unique hx h2]
      refine ⟨u, u2, u3, u1, ?_, via_exact cfg hs u1 u2⟩
      rw [← u3]
      exact real_rational_iff u2

-- the four fates: `√2 + 1` returns, `√2·0` panics, `-√2 + 3` never returns, `√2/0` panics
example : Wf ⟨[1], [2], false⟩ ∧ HasVal ⟨[1], [2], false⟩ √2 ∧
    CF.addRat ⟨false, true⟩ 20 ⟨[1], [2], false⟩ 1 = some (.ok ⟨[2], [2], false⟩) ∧
    CF.mulRat ⟨false, true⟩ 20 ⟨[1], [2], false⟩ 0 = some (.error .debugAssert) ∧
    (∀ fuel, CF.addRat ⟨false, true⟩ fuel ⟨[1], [2], true⟩ 3 = none) ∧
    CF.divRat ⟨false, true⟩ 20 ⟨[1], [2], false⟩ 0 = some (.error .denomZero) :=
  ⟨by simp [Wf], (cf_arith_refuted ⟨false, true⟩).1.1, by decide +kernel, by decide +kernel, (cf_arith_refuted ⟨false, true⟩).2.2.2,
    by decide +kernel⟩

/-- The same for a periodic fraction on the right.  (With a finite fraction on the right the operation is the one with
the number it denotes.) -/
theorem cf_bin_periodic_exact (cfg : Cfg) (c e : CF) (hc : c.Wf) (he : e.Wf) (hp : e.p ≠ []) (x y : ℝ) (hx : c.HasVal x)
    (hy : e.HasVal y) (o : BinOp) :
    (∀ p, c.toSurd cfg = .error p → ∀ fuel, o.run cfg fuel c e = some (.error p)) ∧
    ∀ s, c.toSurd cfg = .ok s →
      (∀ p, e.toSurd cfg = .error p → ∀ fuel, o.run cfg fuel c e = some (.error p)) ∧
      ∀ t, e.toSurd cfg = .ok t →
        (∀ p, o.surd cfg s t = .error p → ∀ fuel, o.run cfg fuel c e = some (.error p)) ∧
        ∀ u, o.surd cfg s t = .ok u → u.RealOk ∧ u.val = o.real x y ∧ ((∃ q : ℚ, o.real x y = q) ↔ u.r = 0) ∧
          (u.r = 0 → ∃ N, ∀ fuel, o.run cfg fuel c e =
            if N ≤ fuel then some (.error (if cfg.debug then .debugAssert else .divZero)) else none) ∧
          (u.r ≠ 0 → (¬ Hangs u.cfDisc u.cfStart ↔ ∃ N w, ∀ fuel, N ≤ fuel → o.run cfg fuel c e = some (.ok w)) ∧
            (Hangs u.cfDisc u.cfStart ↔ ∀ fuel, o.run cfg fuel c e = none)) := by
  simp only [bin_run_periodic cfg _ c hp]
  refine ⟨fun p h fuel => ?_, fun s hs => ⟨fun p h fuel => ?_, fun t ht => ⟨fun p h fuel => ?_, fun u hu => ?_⟩⟩⟩
  · unfold viaSurd; rw [h]; rfl
  · unfold viaSurd; rw [hs, Surd.ok_bind, h]; rfl
  · unfold viaSurd; simp only [hs, Surd.ok_bind, ht, h]
  · obtain ⟨h1, h2⟩ := cf_toSurd_value cfg c hc s hs
    obtain ⟨h3, h4⟩ := cf_toSurd_value cfg e he t ht
    obtain ⟨h5, h6⟩ := bin_surd_val cfg o h1 h3 hu
    rw [HasVal.unique hx h2, HasVal.unique hy h4, ← h6]
    exact ⟨h5, rfl, real_rational_iff h5, via_exact cfg (f := fun s => do let t ← e.toSurd cfg; o.surd cfg s t) hs
      (by simp only [ht, Surd.ok_bind, hu]) h5⟩

example : Wf ⟨[1], [2], false⟩ ∧ Wf ⟨[2], [4], false⟩ ∧
    CF.sub ⟨false, true⟩ 20 ⟨[1], [2], false⟩ ⟨[1], [2], false⟩ = some (.error .debugAssert) ∧
    CF.add ⟨false, true⟩ 20 ⟨[1], [2], false⟩ ⟨[1], [2], false⟩ = some (.ok ⟨[2], [1, 4], false⟩) ∧
    CF.add ⟨false, true⟩ 20 ⟨[1], [2], false⟩ ⟨[2], [4], false⟩ = some (.error .incompatible) :=
  ⟨by simp [Wf], by simp [Wf], by decide +kernel, by decide +kernel, by decide +kernel⟩

end CF
end NumIrr
