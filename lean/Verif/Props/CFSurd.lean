/-
C37: the surd of a continued fraction.
-/
import Verif.Lemmas.CFSurd
import Verif.Props.SurdArith
import Verif.Props.SurdNew
import Mathlib.Algebra.Squarefree.Basic

namespace NumIrr
namespace CF

/-- the result of a division of non-zero real surds -/
theorem div_real (cfg : Cfg) {x y : Surd} (hx : x.RealOk) (hy : y.RealOk) (hx0 : x.val ≠ 0)
    (hy0 : y.val ≠ 0) :
    (∃ z, x.div cfg y = .ok z ∧ z.RealOk ∧ z.val = x.val / y.val) ∨
    (x.div cfg y = .error .incompatible ∧ x.r ≠ 0 ∧ y.r ≠ 0 ∧ ¬ x.Compatible y) := by
  obtain ⟨h1, h2⟩ := Surd.div_spec (hx.toOk cfg) (hy.toOk cfg)
  by_cases hd : Surd.DivReturns x y
  · obtain ⟨z, e, -⟩ := h1 hd
    exact .inl ⟨z, e, (surd_div_value_real cfg x y z hx hy e).2⟩
  · right
    have hxc : x.valC ≠ 0 := by rw [hx.valC]; exact_mod_cast hx0
    have hyc : y.valC ≠ 0 := by rw [hy.valC]; exact_mod_cast hy0
    have hyr : y.r ≠ 0 := fun h => hd ⟨hyc, .inl h⟩
    have hxr : x.r ≠ 0 := fun h => hd ⟨hyc, .inr (.inl ⟨h, hxc⟩)⟩
    have hc : ¬ x.Compatible y := fun h => hd ⟨hyc, .inr (.inr ⟨hxr, .inr h⟩)⟩
    have hpu : ¬ (x.a = 0 ∧ y.a = 0) := fun h => hd ⟨hyc, .inr (.inr ⟨hxr, .inl h⟩)⟩
    refine ⟨?_, hxr, hyr, hc⟩
    unfold Surd.div
    rw [if_neg (fun h => hyr (hy.isRational_iff.1 h)), if_neg (fun h => hxr (hx.isRational_iff.1 h)),
      if_neg (fun h => ?_), (Surd.reduceBinOpUnwrap_spec hx.c_pos hy.c_pos hxr hyr (fun _ => hx.real)
        (fun _ => hy.real)).2 hc]
    · rfl
    · rw [Bool.and_eq_true] at h
      exact hpu ⟨((Surd.isPure_iff x).1 h.1).1, ((Surd.isPure_iff y).1 h.2).1⟩

private theorem tail_real (cfg : Cfg) {a0 : Nat} {as : List Nat} (has : ∀ v ∈ as, 1 ≤ v) {ps : Surd} (hps : ps.RealOk)
    {z : ℝ} (hz : 0 < z) (hv : ps.val = 1 / z) :
    (∃ s, tailSurd cfg (a0 :: as) ps = .ok s ∧ s.RealOk ∧ s.val = 1 / chain as z) ∨
    (tailSurd cfg (a0 :: as) ps = .error .incompatible ∧ 2 ≤ as.length ∧ ¬ Squarefree ps.r) := by
  by_cases hne : as = []
  · subst hne
    exact .inl ⟨ps, rfl, hps, hv⟩
  · obtain ⟨m, hm, hb, hc, hd, -, hlen, hf⟩ := ofRev_spec hne has
    have h0 : 0 < ps.val := by rw [hv]; positivity
    have hb' : (1 : ℝ) ≤ m.b := by exact_mod_cast hb
    have hc' : (1 : ℝ) ≤ m.c := by exact_mod_cast hc
    have hd' : (1 : ℝ) ≤ m.d := by exact_mod_cast hd
    obtain ⟨n1, e1, v1, o1, r1⟩ := Surd.mulInt_real hps cfg m.a
    obtain ⟨n2, e2, v2, o2, r2⟩ := Surd.addInt_real o1 cfg m.b
    obtain ⟨d1, e3, v3, o3, r3⟩ := Surd.mulInt_real hps cfg m.c
    obtain ⟨d2, e4, v4, o4, r4⟩ := Surd.addInt_real o3 cfg m.d
    have hn : n2.val = m.a * ps.val + m.b := by rw [v2, v1]; push_cast; ring
    have hdv : d2.val = m.c * ps.val + m.d := by rw [v4, v3]; push_cast; ring
    have ht : tailSurd cfg (a0 :: as) ps = n2.div cfg d2 := by
      unfold tailSurd
      rw [if_neg (by simpa using hne)]
      show (Mob.ofRev as.reverse >>= _) = _
      rw [hm]
      show (ps.mulInt cfg m.a >>= _) = _
      rw [e1]
      show (n1.addInt cfg m.b >>= _) = _
      rw [e2]
      show (ps.mulInt cfg m.c >>= _) = _
      rw [e3]
      show (d1.addInt cfg m.d >>= _) = _
      rw [e4]
      rfl
    rw [ht]
    rcases div_real cfg o2 o4 (by rw [hn]; positivity) (by rw [hdv]; positivity) with ⟨s, h1, h2, h3⟩ | ⟨h1, h2, h3, h4⟩
    · refine .inl ⟨s, h1, h2, ?_⟩
      rw [h3, hn, hdv, hf _ h0, hv, one_div_one_div]
    · refine .inr ⟨h1, ?_, ?_⟩
      · by_contra hl
        have : as.length = 1 := by
          have := List.length_pos_iff.2 hne
          omega
        obtain ⟨ha, -⟩ := hlen this
        apply h2
        have : n1.r = 0 := by
          have hi : n1.val = 0 := by rw [v1, ha]; simp
          by_contra h0
          have hbz : n1.b ≠ 0 := fun h => h0 (o1.rational.1 h)
          have := Surd.valC_ne_zero_of_b o1.c_pos.ne' hbz (o1.irrational h0)
          rw [o1.valC, hi] at this
          exact this (by simp)
        rcases r2 with ⟨h, -⟩ | ⟨k, hk, h⟩
        · exact h
        · rw [this] at h
          have := mul_eq_zero.1 h.symm
          rcases this with h | h
          · nlinarith
          · exact h
      · intro hsq
        have hone : ∀ k : ℤ, 0 < k → k * k ∣ ps.r → k = 1 := fun k hk hdvd => by
          have := hsq k hdvd
          rcases Int.isUnit_iff.1 this with h | h <;> omega
        have e1 : ps.r = n2.r := by
          rcases r2 with ⟨h, -⟩ | ⟨k, hk, h⟩
          · exact absurd h h2
          · rcases r1 with ⟨h', -⟩ | ⟨k', hk', h'⟩
            · rw [h'] at h
              rcases mul_eq_zero.1 h.symm with h | h
              · nlinarith
              · exact absurd h h2
            · have := hone k' hk' ⟨_, h'⟩
              subst this
              have := hone k hk ⟨_, by rw [h', h, one_mul, one_mul]⟩
              subst this
              rw [h', h]; ring
        have e2 : ps.r = d2.r := by
          rcases r4 with ⟨h, -⟩ | ⟨k, hk, h⟩
          · exact absurd h h3
          · rcases r3 with ⟨h', -⟩ | ⟨k', hk', h'⟩
            · rw [h'] at h
              rcases mul_eq_zero.1 h.symm with h | h
              · nlinarith
              · exact absurd h h3
            · have := hone k' hk' ⟨_, h'⟩
              subst this
              have := hone k hk ⟨_, by rw [h', h, one_mul, one_mul]⟩
              subst this
              rw [h', h]; ring
        exact h4 ⟨1, .inl (by rw [← e1, ← e2]; ring)⟩

private theorem toSurd_cases (cfg : Cfg) (c : CF) (h : c.Wf) :
    (∃ s, c.toSurd cfg = .ok s ∧ s.RealOk ∧ c.HasVal s.val) ∨
    (c.toSurd cfg = .error .incompatible ∧ c.p ≠ [] ∧ 3 ≤ c.a.length ∧
      ∃ ps, periodSurd cfg c.p = .ok ps ∧ ¬ Squarefree ps.r) := by
  by_cases hp : c.p = []
  · obtain ⟨q, h1, h2⟩ := lastConvergent_big h hp
    have hq : (Surd.ofRat q).valC = ((q : ℝ) : ℂ) := by
      unfold Surd.valC quadC Surd.ofRat
      rw [show ((q : ℝ) : ℂ) = (q : ℂ) by push_cast; rfl, Surd.rat_cast_eq]
      simp
    have hn : (Surd.ofRat q).Normal := (surd_ofRat_normal cfg q).toNormal
    obtain ⟨r1, r2⟩ := Surd.real_transfer hn hq
    refine .inl ⟨Surd.ofRat q, ?_, r1, ?_⟩
    · unfold toSurd
      rw [if_pos (by simp [isRational, hp]), h1]; rfl
    · rw [r2]; exact (hasVal_finite hp).2 ⟨q, h2, rfl⟩
  · obtain ⟨ps, z, e1, o1, hz, hv, hval⟩ := periodSurd_spec cfg hp h.2.2
    obtain ⟨ha, hat, -⟩ := h
    obtain ⟨a, p, neg⟩ := c
    cases a with
    | nil => exact absurd rfl ha
    | cons a0 as =>
      simp only [List.tail_cons] at hat
      simp only at e1 hp
      have hz0 : 0 < z := by linarith
      have hts : toSurd cfg ⟨a0 :: as, p, neg⟩ = (tailSurd cfg (a0 :: as) ps >>= fun s => s.addInt cfg a0 >>= fun s =>
          .ok (if neg then s.neg else s)) := by
        unfold toSurd
        rw [if_neg (by simp [isRational, hp])]
        simp only
        rw [e1]
        rfl
      rw [hts]
      rcases tail_real cfg hat o1 hz0 hval (a0 := a0) with ⟨s, e2, o2, v2⟩ | ⟨e2, hl, hsq⟩
      · obtain ⟨t, e3, v3, o3, -⟩ := Surd.addInt_real o2 cfg a0
        rw [e2]
        simp only [Surd.ok_bind]
        rw [e3]
        simp only [Surd.ok_bind]
        have hp' := toInts_ne_nil hp
        have hch := valOf_chain hp' hv hz0 hat
        rw [List.append_nil] at hch
        have hV : ValOf (toInts (a0 :: as)) (toInts p) t.val := by
          have := valOf_cons hp' hch (chain_pos hat hz0).ne' (a0 : Int)
          rw [v3, v2, add_comm]
          exact this
        refine .inl ⟨_, rfl, ?_⟩
        cases neg
        · exact ⟨o3, _, hV, rfl⟩
        · obtain ⟨k1, k2⟩ := surd_neg_value cfg t (o3.toOk cfg)
          have : t.neg.valC = ((-t.val : ℝ) : ℂ) := by rw [k1, o3.valC]; push_cast; rfl
          obtain ⟨k3, k4⟩ := Surd.real_transfer k2.toNormal this
          exact ⟨k3, _, hV, by simp [k4, signed]⟩
      · rw [e2]
        exact .inr ⟨rfl, hp, by simp; omega, ps, e1, hsq⟩

/-- Whenever the conversion returns, the surd has exactly the value of the fraction. -/
theorem cf_toSurd_value (cfg : Cfg) (c : CF) (h : c.Wf) (s : Surd) (hs : c.toSurd cfg = .ok s) :
    s.RealOk ∧ c.HasVal s.val := by
  rcases toSurd_cases cfg c h with ⟨t, e, h1⟩ | ⟨e, -⟩
  · rw [hs] at e; cases e; exact h1
  · rw [hs] at e; cases e

example : Wf ⟨[3, 7, 15], [1, 2], true⟩ ∧ toSurd ⟨false, true⟩ ⟨[1], [2], false⟩ = .ok ⟨0, 1, 1, 2⟩ ∧
    toSurd ⟨false, true⟩ ⟨[3, 7, 15], [1, 2], true⟩ = .ok ⟨-30327, -1, 9654, 3⟩ :=
  ⟨⟨by decide, by decide, by decide⟩, by decide +kernel⟩

/-- C37, restricted: it returns for rational fractions, for fractions with at most one aperiodic coefficient after
the first, and when the root of the surd of the period is square-free.  (Missing from the full claim: the other
periodic fractions, for which it can panic, see `cf_toSurd_refuted`.) -/
theorem cf_toSurd_partial (cfg : Cfg) (c : CF) (h : c.Wf)
    (hc : c.p = [] ∨ c.a.length ≤ 2 ∨ ∀ ps, periodSurd cfg c.p = .ok ps → Squarefree ps.r) :
    ∃ s, c.toSurd cfg = .ok s ∧ s.RealOk ∧ c.HasVal s.val := by
  rcases toSurd_cases cfg c h with h1 | ⟨-, h1, h2, ps, h3, h4⟩
  · exact h1
  · rcases hc with hc | hc | hc
    · exact absurd hc h1
    · omega
    · exact absurd (hc ps h3) h4

example : Wf ⟨[0, 1], [2, 20, 14, 27], false⟩ ∧
    toSurd ⟨false, false⟩ ⟨[0, 1], [2, 20, 14, 27], false⟩ = .ok ⟨7080, 24, 22343, 109368⟩ :=
  ⟨⟨by decide, by decide, by decide⟩, by decide +kernel⟩

example : periodSurd ⟨false, false⟩ [1, 2] = .ok ⟨-1, 1, 1, 3⟩ ∧ Squarefree (3 : ℤ) :=
  ⟨by decide +kernel, Int.prime_three.squarefree⟩

/-- On a well-formed fraction the only panic is the one for incompatible roots, and only in the case excluded in
`cf_toSurd_partial`. -/
theorem cf_toSurd_panics (cfg : Cfg) (c : CF) (h : c.Wf) (e : Panic) (he : c.toSurd cfg = .error e) :
    e = .incompatible ∧ c.p ≠ [] ∧ 3 ≤ c.a.length := by
  rcases toSurd_cases cfg c h with ⟨t, h1, -⟩ | ⟨h1, h2, h3, -⟩
  · rw [he] at h1; cases h1
  · rw [he] at h1; cases h1; exact ⟨rfl, h2, h3⟩

/-- The full claim is false: a well-formed periodic fraction on which the conversion panics. -/
theorem cf_toSurd_refuted (cfg : Cfg) : Wf ⟨[0, 1, 2, 1], [2, 20, 14, 27], false⟩ ∧
    toSurd cfg ⟨[0, 1, 2, 1], [2, 20, 14, 27], false⟩ = .error .incompatible := by
  refine ⟨⟨by decide, by decide, by decide⟩, ?_⟩
  obtain ⟨c, d⟩ := cfg
  cases c <;> cases d <;> decide +kernel

/-- A fraction without aperiodic coefficients panics. -/
theorem cf_toSurd_no_head (cfg : Cfg) (p : List Nat) (hp : p ≠ []) (hp1 : ∀ v ∈ p, 1 ≤ v) (n : Bool) :
    toSurd cfg ⟨[], p, n⟩ = .error .unwrapNone := by
  obtain ⟨ps, z, e1, -⟩ := periodSurd_spec cfg hp hp1
  unfold toSurd
  rw [if_neg (by simp [isRational, hp])]
  simp only
  rw [e1]
  rfl

example : toSurd ⟨true, true⟩ ⟨[], [1, 2], false⟩ = .error .unwrapNone := by decide +kernel

end CF
end NumIrr
