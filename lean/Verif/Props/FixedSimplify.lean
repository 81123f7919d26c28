/-
C84: `simplify` of a generalized continued fraction over primitive integers.
-/
import Verif.Lemmas.FixedGenFit
import Verif.Props.Simplify
import Mathlib.Tactic.FieldSimp

namespace NumIrr
namespace Prim

/-- a call of `next` on the result of `simplify` which yields `i`; the state is the block and the number of calls of the
input iterator -/
def SimpCall (t : Prim) (src : Nat → Res (Option (Int × Int))) (s : Block × Nat) (i : Int) (s' : Block × Nat) : Prop :=
  ∃ fuel, t.simpNext src fuel s.1 s.2 = some (.ok (some i, s'.1, s'.2))

/-- C84, every call: with overflow checks a call either does what the call over the unbounded integers does (including its
state and its not terminating), or panics with an overflow; and without checks it does whatever the checked call does
unless that panics.  The input iterator may itself panic with an overflow. -/
theorem prim_simplify_call {t : Prim} (hc : t.checks = true) {src src' : Nat → Res (Option (Int × Int))}
    {s : Nat → Option (Int × Int)} (hs : ∀ k, src k = .ok (s k) ∨ src k = .error .overflow)
    (hs' : ∀ k, src k = src' k ∨ src k = .error .overflow) (fuel : Nat) (m : Block) (k : Nat) :
    (t.simpNext src fuel m k = (GIter.simpNext fuel ⟨m, s, k⟩).map (fun r => .ok (r.1, r.2.block, r.2.pos)) ∨
      t.simpNext src fuel m k = some (.error .overflow)) ∧
    (t.simpNext src fuel m k = t.rel.simpNext src' fuel m k ∨ t.simpNext src fuel m k = some (.error .overflow)) :=
  ⟨simpNext_ref hc hs fuel m k, simpNext_rel hc hs' fuel m k⟩
example : (Prim.mk 8 false true).simpNext (fun k => .ok (some ([(1, 0), (3, 2)].getD k (1, 2)))) 9 Block.identity 0
      = some (.ok (some 1, ⟨5, 2, 1, 1⟩, 3)) ∧
    (Prim.mk 8 false true).simpNext (fun k => .ok (some ([(1, 0), (200, 90)].getD k (3, 80)))) 9 Block.identity 0
      = some (.error .overflow) := by decide +kernel

/-- C84, with overflow checks: any sequence of outputs is a sequence of outputs over the unbounded integers. -/
theorem prim_simplify_exact {t : Prim} (hc : t.checks = true) {src : Nat → Res (Option (Int × Int))}
    {s : Nat → Option (Int × Int)} (hs : ∀ k, src k = .ok (s k) ∨ src k = .error .overflow) {outs : List Int}
    {z : Block × Nat} (h : Outs (t.SimpCall src) (Block.identity, 0) outs z) :
    Outs GIter.SimpCall (GIter.new s) outs ⟨z.1, s, z.2⟩ := by
  generalize hz : (Block.identity, 0) = z0 at h
  induction h with
  | nil => subst hz; exact Outs.nil _
  | @snoc z2 z3 l i _ hcall ih =>
    refine Outs.snoc ih ?_
    obtain ⟨fuel, hf⟩ := hcall
    refine ⟨fuel, fun fuel' hf' => GIter.simpNext_mono ?_ hf'⟩
    rcases simpNext_ref hc hs fuel z2.1 z2.2 with e | e
    · rw [e] at hf
      cases hn : GIter.simpNext fuel ⟨z2.1, s, z2.2⟩ with
      | none => rw [hn] at hf; cases hf
      | some r =>
        rw [hn] at hf
        obtain ⟨r1, r2⟩ := r
        simp only [Option.map_some, Option.some.injEq, Except.ok.injEq, Prod.mk.injEq] at hf
        obtain ⟨e1, e2, e3⟩ := hf
        have hsrc : r2.src = s := GIter.simpNext_src fuel _ _ hn
        subst e1
        rw [← e2, ← e3, ← hsrc]
    · rw [e] at hf; cases hf

/-- C84, with overflow checks and positive coefficients: whatever is emitted are the coefficients of the regular expansion
of the number. -/
theorem prim_simplify_regular_partial {t : Prim} (hc : t.checks = true) {src : Nat → Res (Option (Int × Int))}
    {g : Nat → Int × Int} (hs : ∀ k, src k = .ok (some (g k)) ∨ src k = .error .overflow) (hp : PosG g) (x : ℝ)
    (hx : GVal g x) {outs : List Int} {z : Block × Nat} (h : Outs (t.SimpCall src) (Block.identity, 0) outs z)
    (n : Nat) (hn : n < outs.length) : outs[n] = ⌊tails x n⌋ :=
  GIter.simplify_regular g hp x hx (prim_simplify_exact hc (s := fun k => some (g k)) hs h) n hn

/-- C84, the exact range, for non-negative numbers: if the numerator and denominator of every convergent formed in the
call are representable before their common factors are removed, the call is the one over the unbounded integers, in both
builds; with checks it panics otherwise. -/
theorem prim_simplify_range {t : Prim} (ht : t.Ok) {s : Nat → Option (Int × Int)}
    (hs : ∀ k a b, s k = some (a, b) → 0 ≤ a ∧ 0 ≤ b) (fuel : Nat) (m : Block) (k : Nat) (hn : m.NN) (hm : t.HoldsB m) :
    (GIter.Through (fun p q => t.Holds p ∧ t.Holds q) s fuel m k →
      t.simpNext (fun k => .ok (s k)) fuel m k
        = (GIter.simpNext fuel ⟨m, s, k⟩).map fun r => .ok (r.1, r.2.block, r.2.pos)) ∧
    (t.checks = true → ¬ GIter.Through (fun p q => t.Holds p ∧ t.Holds q) s fuel m k →
      t.simpNext (fun k => .ok (s k)) fuel m k = some (.error .overflow)) :=
  ⟨simpNext_exact ht hs fuel m k hn hm, fun hc => simpNext_over ht hc hs fuel m k hn hm⟩

/-- C84, both builds: the outputs and the entries of the block stay representable. -/
theorem prim_simplify_state {t : Prim} (ht : t.Ok) (src : Nat → Res (Option (Int × Int))) (fuel : Nat) (m : Block)
    (k : Nat) (hm : t.HoldsB m) {i : Option Int} {m' : Block} {k' : Nat}
    (h : t.simpNext src fuel m k = some (.ok (i, m', k'))) : (∀ v, i = some v → t.Holds v) ∧ t.HoldsB m' :=
  simpNext_holds ht src fuel m k hm _ h

/-- the pairs `(1, 0), (n, n), (c, 3)` followed by anything -/
def startsWith (src : Nat → Res (Option (Int × Int))) (n c : Int) : Prop :=
  src 0 = .ok (some (1, 0)) ∧ src 1 = .ok (some (n, n)) ∧ src 2 = .ok (some (c, 3))

/-- C84 refuted without checks, signed types: the fraction `n/(n + 1/(3 + …))` with `n = 2^(w-2)`, which is less than 1,
is expanded as if it were at least 1.  With checks the call panics. -/
theorem prim_simplify_signed_refuted (w : Nat) (hw : 4 ≤ w) (src : Nat → Res (Option (Int × Int)))
    (h0 : startsWith src (2 ^ (w - 2)) 1) :
    (∃ z, SimpCall ⟨w, true, false⟩ src (Block.identity, 0) 1 z) ∧
    (∀ y : ℝ, 0 < y → ⌊(2 ^ (w - 2) : ℤ) / ((2 ^ (w - 2) : ℤ) + 1 / (3 + y))⌋ = 0) ∧
    simpNext ⟨w, true, true⟩ src 4 Block.identity 0 = some (.error .overflow) := by
  obtain ⟨s0, s1, s2⟩ := h0
  have hp1 : (2 : Int) ^ (w - 1) = 2 * 2 ^ (w - 2) := by rw [← pow_succ']; congr 1; omega
  have hp0 : (2 : Int) ^ w = 4 * 2 ^ (w - 2) := by
    rw [show w = (w - 2) + 2 by omega, pow_add]; simp; ring
  have hN : (4 : Int) ≤ 2 ^ (w - 2) := by
    calc (4 : Int) = 2 ^ 2 := by norm_num
      _ ≤ 2 ^ (w - 2) := pow_le_pow_right₀ (by norm_num) (by omega)
  revert hN hp1 hp0 s1
  generalize (2 : Int) ^ (w - 2) = N
  intro s1 hp1 hp0 hN
  have fit : ∀ ch v, (Prim.mk w true ch).ty.fits v = decide (-(2 * N) ≤ v ∧ v < 2 * N) := by
    intro ch v
    simp only [ty, if_true, IntTy.signed, hp1]
    simp
  have wr : ∀ ch v, (Prim.mk w true ch).ty.wrap v = (v + 2 * N) % (4 * N) - 2 * N := by
    intro ch v
    simp only [ty, if_true, IntTy.signed, hp1, hp0]
  have r1 : ∀ ch v, -(2 * N) ≤ v → v < 2 * N → (Prim.mk w true ch).ret v = .ok v := by
    intro ch v h1 h2
    unfold ret
    rw [fit, if_pos (by simp; omega)]
  have d1 : N.tdiv N = 1 := Int.tdiv_self (by omega)
  have red0 : ∀ ch, (Prim.mk w true ch).reduceRecip Block.identity = .ok (none, Block.identity) := fun ch => rfl
  have mv0 : ∀ ch, (Prim.mk w true ch).gmove Block.identity 1 0 = .ok ⟨0, 1, 1, 0⟩ := by
    intro ch
    simp only [gmove, add, mul, gcd, Block.identity]
    norm_num [r1 ch 0 (by omega) (by omega), r1 ch 1 (by omega) (by omega), Surd.ok_bind, igcd, gmoveEnd, Block.update]
    try rfl
  have red1 : ∀ ch, (Prim.mk w true ch).reduceRecip ⟨0, 1, 1, 0⟩ = .ok (none, ⟨0, 1, 1, 0⟩) := fun ch => rfl
  have mv1 : ∀ ch, (Prim.mk w true ch).gmove ⟨0, 1, 1, 0⟩ N N = .ok ⟨N, 0, N, 1⟩ := by
    intro ch
    simp only [gmove, add, mul, gcd, zero_mul, one_mul]
    have e1 : igcd N N = N := by unfold igcd; rw [Int.gcd_self]; omega
    have e2 : igcd N 0 = N := by unfold igcd; rw [Int.gcd_zero_right]; omega
    have e3 : igcd N 1 = 1 := by unfold igcd; simp
    rw [r1 ch 0 (by omega) (by omega), Surd.ok_bind, r1 ch N (by omega) (by omega), Surd.ok_bind, zero_add,
      r1 ch N (by omega) (by omega), Surd.ok_bind, Surd.ok_bind, Surd.ok_bind, add_zero, r1 ch N (by omega) (by omega), Surd.ok_bind, e1, r1 ch N (by omega) (by omega), Surd.ok_bind, e2, r1 ch N (by omega) (by omega), Surd.ok_bind,
      e3, r1 ch 1 (by omega) (by omega), Surd.ok_bind]
    rfl
  have red2 : ∀ ch, (Prim.mk w true ch).reduceRecip ⟨N, 0, N, 1⟩ = .ok (none, ⟨N, 0, N, 1⟩) := by
    intro ch
    simp only [reduceRecip, checkInteger, divRem, fit, d1]
    rw [if_neg (by omega), if_neg (by omega), if_pos (by simp; omega)]
    simp only [Surd.ok_bind]
    rw [if_neg (by norm_num), if_pos (by simp; omega)]
    rfl
  refine ⟨?_, ?_, ?_⟩
  · have mv2 : (Prim.mk w true false).gmove ⟨N, 0, N, 1⟩ 1 3 = .ok ⟨-N, N, -N + 1, N⟩ := by
      have e1 : (Prim.mk w true false).ret (N * 3) = .ok (-N) := by
        unfold ret
        rw [fit, if_neg (by simp; omega), wr, show N * 3 + 2 * N = N + 4 * N by ring, Int.add_emod_right,
          Int.emod_eq_of_lt (by omega) (by omega)]
        simp
        ring
      have g1 : igcd (-N) (-N + 1) = 1 := by
        unfold igcd
        rw [show (-N + 1 : Int) = -(N - 1) by ring, Int.gcd_neg, Int.neg_gcd]
        have h : Int.gcd N (N - 1) ∣ 1 := by
          have h1 : ((Int.gcd N (N - 1) : Nat) : Int) ∣ N - (N - 1) :=
            dvd_sub (Int.gcd_dvd_left ..) (Int.gcd_dvd_right ..)
          rw [show N - (N - 1) = ((1 : Nat) : Int) by push_cast; ring] at h1
          exact Int.natCast_dvd_natCast.1 h1
        rw [Nat.dvd_one.1 h]; rfl
      have g2 : ∀ z, igcd 1 z = 1 := by intro z; unfold igcd; simp
      simp only [gmove, add, mul, gcd, zero_mul, one_mul]
      rw [e1, Surd.ok_bind, r1 false 0 (by omega) (by omega), Surd.ok_bind, add_zero, r1 false (-N) (by omega) (by omega),
        Surd.ok_bind, Surd.ok_bind, r1 false 1 (by omega) (by omega), Surd.ok_bind, r1 false (-N + 1) (by omega) (by omega), Surd.ok_bind,
        g1, r1 false 1 (by omega) (by omega), Surd.ok_bind, g2, r1 false 1 (by omega) (by omega), Surd.ok_bind, g2,
        r1 false 1 (by omega) (by omega), Surd.ok_bind]
      rfl
    have q1 : (-N).tdiv (-N + 1) = 1 := by
      rw [show -N + 1 = -(N - 1) by ring, Int.neg_tdiv_neg, Int.tdiv_eq_ediv_of_nonneg (by omega),
        Int.ediv_eq_iff_of_pos (by omega)]
      omega
    have red3 : (Prim.mk w true false).reduceRecip ⟨-N, N, -N + 1, N⟩
        = .ok (some 1, ⟨-N + 1, N, (-N).tmod (-N + 1), N.tmod N⟩) := by
      simp only [reduceRecip, checkInteger, divRem, fit, d1, q1]
      rw [if_neg (by omega), if_neg (by omega), if_pos (by simp; omega)]
      simp only [Surd.ok_bind]
      rw [if_neg (by omega), if_pos (by simp; omega)]
      rfl
    refine ⟨(⟨-N + 1, N, (-N).tmod (-N + 1), N.tmod N⟩, 3), 4, ?_⟩
    simp only [simpNext, red0, s0, mv0, red1, s1, mv1, red2, s2, mv2, red3]
  · intro y hy
    have hNr : (4 : ℝ) ≤ (N : ℝ) := by exact_mod_cast hN
    have h3 : (0 : ℝ) < 1 / (3 + y) := by positivity
    rw [Int.floor_eq_iff]
    push_cast
    constructor
    · positivity
    · rw [div_lt_iff₀ (by linarith)]; linarith
  · have mv2 : (Prim.mk w true true).gmove ⟨N, 0, N, 1⟩ 1 3 = .error .overflow := by
      have e1 : (Prim.mk w true true).ret (N * 3) = .error .overflow := by
        unfold ret
        rw [fit, if_neg (by simp; omega)]
        rfl
      simp only [gmove, add, mul, gcd]
      rw [e1]
      rfl
    simp only [simpNext, red0, s0, mv0, red1, s1, mv1, red2, s2, mv2]

/-- C84 refuted without checks, unsigned types: the fraction `n/(n + c/(3 + …))` with `n = 2^(w-1)` and `c = 2^w - 1`, which
is less than 1, is expanded as if it were at least 1.  With checks the call panics. -/
theorem prim_simplify_unsigned_refuted (w : Nat) (hw : 4 ≤ w) (src : Nat → Res (Option (Int × Int)))
    (h0 : startsWith src (2 ^ (w - 1)) (2 ^ w - 1)) :
    (∃ z, SimpCall ⟨w, false, false⟩ src (Block.identity, 0) 1 z) ∧
    (∀ y : ℝ, 0 < y → ⌊(2 ^ (w - 1) : ℤ) / ((2 ^ (w - 1) : ℤ) + (2 ^ w - 1 : ℤ) / (3 + y))⌋ = 0) ∧
    simpNext ⟨w, false, true⟩ src 4 Block.identity 0 = some (.error .overflow) := by
  obtain ⟨s0, s1, s2⟩ := h0
  have hp0 : (2 : Int) ^ w = 2 * 2 ^ (w - 1) := by rw [← pow_succ']; congr 1; omega
  have hN : (8 : Int) ≤ 2 ^ (w - 1) := by
    calc (8 : Int) = 2 ^ 3 := by norm_num
      _ ≤ 2 ^ (w - 1) := pow_le_pow_right₀ (by norm_num) (by omega)
  rw [hp0] at s2 ⊢
  revert hN hp0 s1 s2
  generalize (2 : Int) ^ (w - 1) = N
  intro s1 s2 hp0 hN
  have fit : ∀ ch v, (Prim.mk w false ch).ty.fits v = decide (0 ≤ v ∧ v < 2 * N) := by
    intro ch v
    simp [ty, IntTy.unsigned, hp0]
  have wr : ∀ ch v, (Prim.mk w false ch).ty.wrap v = v % (2 * N) := by
    intro ch v
    simp [ty, IntTy.unsigned, hp0]
  have r1 : ∀ ch v, 0 ≤ v → v < 2 * N → (Prim.mk w false ch).ret v = .ok v := by
    intro ch v h1 h2
    unfold ret
    rw [fit, if_pos (by simp; omega)]
  have d1 : N.tdiv N = 1 := Int.tdiv_self (by omega)
  have red0 : ∀ ch, (Prim.mk w false ch).reduceRecip Block.identity = .ok (none, Block.identity) := fun ch => rfl
  have mv0 : ∀ ch, (Prim.mk w false ch).gmove Block.identity 1 0 = .ok ⟨0, 1, 1, 0⟩ := by
    intro ch
    simp only [gmove, add, mul, gcd, Block.identity]
    norm_num [r1 ch 0 (by omega) (by omega), r1 ch 1 (by omega) (by omega), Surd.ok_bind, igcd, gmoveEnd, Block.update]
    try rfl
  have red1 : ∀ ch, (Prim.mk w false ch).reduceRecip ⟨0, 1, 1, 0⟩ = .ok (none, ⟨0, 1, 1, 0⟩) := fun ch => rfl
  have mv1 : ∀ ch, (Prim.mk w false ch).gmove ⟨0, 1, 1, 0⟩ N N = .ok ⟨N, 0, N, 1⟩ := by
    intro ch
    simp only [gmove, add, mul, gcd, zero_mul, one_mul]
    have e1 : igcd N N = N := by unfold igcd; rw [Int.gcd_self]; omega
    have e2 : igcd N 0 = N := by unfold igcd; rw [Int.gcd_zero_right]; omega
    have e3 : igcd N 1 = 1 := by unfold igcd; simp
    rw [r1 ch 0 (by omega) (by omega), Surd.ok_bind, r1 ch N (by omega) (by omega), Surd.ok_bind, zero_add,
      r1 ch N (by omega) (by omega), Surd.ok_bind, Surd.ok_bind, Surd.ok_bind, add_zero, r1 ch N (by omega) (by omega), Surd.ok_bind, e1, r1 ch N (by omega) (by omega), Surd.ok_bind, e2, r1 ch N (by omega) (by omega), Surd.ok_bind,
      e3, r1 ch 1 (by omega) (by omega), Surd.ok_bind]
    rfl
  have red2 : ∀ ch, (Prim.mk w false ch).reduceRecip ⟨N, 0, N, 1⟩ = .ok (none, ⟨N, 0, N, 1⟩) := by
    intro ch
    simp only [reduceRecip, checkInteger, divRem, fit, d1]
    rw [if_neg (by omega), if_neg (by omega), if_pos (by simp; omega)]
    simp only [Surd.ok_bind]
    rw [if_neg (by norm_num), if_pos (by simp; omega)]
    rfl
  refine ⟨?_, ?_, ?_⟩
  · have mv2 : (Prim.mk w false false).gmove ⟨N, 0, N, 1⟩ (2 * N - 1) 3 = .ok ⟨N, N, N - 1, N⟩ := by
      have e1 : (Prim.mk w false false).ret (N * 3) = .ok N := by
        unfold ret
        rw [fit, if_neg (by simp; omega), wr, show N * 3 = N + 2 * N by ring, Int.add_emod_right,
          Int.emod_eq_of_lt (by omega) (by omega)]
        simp
      have e2 : (Prim.mk w false false).ret (N + (2 * N - 1)) = .ok (N - 1) := by
        unfold ret
        rw [fit, if_neg (by simp; omega), wr, show N + (2 * N - 1) = N - 1 + 2 * N by ring, Int.add_emod_right,
          Int.emod_eq_of_lt (by omega) (by omega)]
        simp
      have g1 : igcd N (N - 1) = 1 := by
        unfold igcd
        have h : Int.gcd N (N - 1) ∣ 1 := by
          have h1 : ((Int.gcd N (N - 1) : Nat) : Int) ∣ N - (N - 1) :=
            dvd_sub (Int.gcd_dvd_left ..) (Int.gcd_dvd_right ..)
          rw [show N - (N - 1) = ((1 : Nat) : Int) by push_cast; ring] at h1
          exact Int.natCast_dvd_natCast.1 h1
        rw [Nat.dvd_one.1 h]; rfl
      have g2 : ∀ z, igcd 1 z = 1 := by intro z; unfold igcd; simp
      simp only [gmove, add, mul, gcd, zero_mul, one_mul]
      rw [e1, Surd.ok_bind, r1 false 0 (by omega) (by omega), Surd.ok_bind, add_zero, r1 false N (by omega) (by omega),
        Surd.ok_bind, Surd.ok_bind, r1 false (2 * N - 1) (by omega) (by omega), Surd.ok_bind, e2, Surd.ok_bind,
        g1, r1 false 1 (by omega) (by omega), Surd.ok_bind, g2, r1 false 1 (by omega) (by omega), Surd.ok_bind, g2,
        r1 false 1 (by omega) (by omega), Surd.ok_bind]
      rfl
    have q1 : N.tdiv (N - 1) = 1 := by
      rw [Int.tdiv_eq_ediv_of_nonneg (by omega), Int.ediv_eq_iff_of_pos (by omega)]
      omega
    have red3 : (Prim.mk w false false).reduceRecip ⟨N, N, N - 1, N⟩
        = .ok (some 1, ⟨N - 1, N, N.tmod (N - 1), N.tmod N⟩) := by
      simp only [reduceRecip, checkInteger, divRem, fit, d1, q1]
      rw [if_neg (by omega), if_neg (by omega), if_pos (by simp; omega)]
      simp only [Surd.ok_bind]
      rw [if_neg (by omega), if_pos (by simp; omega)]
      rfl
    refine ⟨(⟨N - 1, N, N.tmod (N - 1), N.tmod N⟩, 3), 4, ?_⟩
    simp only [simpNext, red0, s0, mv0, red1, s1, mv1, red2, s2, mv2, red3]
  · intro y hy
    have hNr : (8 : ℝ) ≤ (N : ℝ) := by exact_mod_cast hN
    have h3 : (0 : ℝ) < (2 * N - 1) / (3 + y) := div_pos (by linarith) (by linarith)
    rw [Int.floor_eq_iff]
    push_cast
    constructor
    · positivity
    · rw [div_lt_iff₀ (by linarith)]; linarith
  · have mv2 : (Prim.mk w false true).gmove ⟨N, 0, N, 1⟩ (2 * N - 1) 3 = .error .overflow := by
      have e1 : (Prim.mk w false true).ret (N * 3) = .error .overflow := by
        unfold ret
        rw [fit, if_neg (by simp; omega)]
        rfl
      simp only [gmove, add, mul, gcd]
      rw [e1]
      rfl
    simp only [simpNext, red0, s0, mv0, red1, s1, mv1, red2, s2, mv2]

example : startsWith (fun k => .ok (some ([(1, 0), (64, 64), (1, 3)].getD k (1, 1)))) (2 ^ (8 - 2)) 1 :=
  ⟨rfl, rfl, rfl⟩

/-- `u8`: the fraction `0 + 3/(2 + 1/(2 + 1/(2 + …)))` starts with 1 -/
example : (Prim.mk 8 false true).simpNext (fun k => .ok (some ([(1, 0), (3, 2)].getD k (1, 2)))) 9 Block.identity 0
      = some (.ok (some 1, ⟨5, 2, 1, 1⟩, 3)) ∧
    GIter.Through (fun p q => (Prim.mk 8 false true).Holds p ∧ (Prim.mk 8 false true).Holds q)
      (fun k => some ([(1, 0), (3, 2)].getD k (1, 2))) 9 Block.identity 0 := by
  exact ⟨by decide +kernel, by decide +kernel⟩

end Prim
end NumIrr
