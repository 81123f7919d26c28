/-
C83: the homographic and bihomographic functions over primitive integers.
-/
import Verif.Lemmas.FixedGenFit
import Verif.Props.Homo
import Mathlib.Tactic.FieldSimp

namespace NumIrr
namespace Prim

/-- a call of `next` on the result of `homo` which yields `i`; the state is the block and the number of calls of the input
iterator -/
def HomoCall (t : Prim) (src : Nat → Res (Option Int)) (s : Block × Nat) (i : Int) (s' : Block × Nat) : Prop :=
  ∃ fuel, t.homoNext src fuel s.1 s.2 = some (.ok (some i, s'.1, s'.2))

/-- C83, every call: with overflow checks a call either does what the call over the unbounded integers does (including its
state and its not terminating), or panics with an overflow; and without checks it does whatever the checked call does
unless that panics.  The input iterator may itself panic with an overflow. -/
theorem prim_homo_call {t : Prim} (hc : t.checks = true) {src src' : Nat → Res (Option Int)} {s : Nat → Option Int}
    (hs : ∀ k, src k = .ok (s k) ∨ src k = .error .overflow)
    (hs' : ∀ k, src k = src' k ∨ src k = .error .overflow) (fuel : Nat) (m : Block) (k : Nat) :
    (t.homoNext src fuel m k = (Homo.next fuel ⟨m, s, k⟩).map (fun r => .ok (r.1, r.2.block, r.2.pos)) ∨
      t.homoNext src fuel m k = some (.error .overflow)) ∧
    (t.homoNext src fuel m k = t.rel.homoNext src' fuel m k ∨ t.homoNext src fuel m k = some (.error .overflow)) :=
  ⟨homoNext_ref hc hs fuel m k, homoNext_rel hc hs' fuel m k⟩
example : (Prim.mk 8 false true).homoNext (fun _ => .ok (some 2)) 9 (Block.new 3 1 1 2) 0 =
      some (.ok (some 1, ⟨9, 4, 8, 3⟩, 2)) ∧
    (Prim.mk 8 false true).homoNext (fun _ => .ok (some 2)) 9 (Block.new 200 1 1 2) 0 = some (.error .overflow) := by
  decide +kernel

/-- C83, with overflow checks: any sequence of outputs is a sequence of outputs over the unbounded integers. -/
theorem prim_homo_exact {t : Prim} (hc : t.checks = true) {src : Nat → Res (Option Int)} {s : Nat → Option Int}
    (hs : ∀ k, src k = .ok (s k) ∨ src k = .error .overflow) (a b c d : Int) {outs : List Int} {z : Block × Nat}
    (h : Outs (t.HomoCall src) (Block.new a b c d, 0) outs z) :
    Outs Homo.Call (Homo.new s a b c d) outs ⟨z.1, s, z.2⟩ := by
  generalize hz : (Block.new a b c d, 0) = z0 at h
  induction h with
  | nil => subst hz; exact Outs.nil _
  | @snoc z2 z3 l i _ hcall ih =>
    refine Outs.snoc ih ?_
    obtain ⟨fuel, hf⟩ := hcall
    refine ⟨fuel, fun fuel' hf' => Homo.next_mono ?_ hf'⟩
    rcases homoNext_ref hc hs fuel z2.1 z2.2 with e | e
    · rw [e] at hf
      cases hn : Homo.next fuel ⟨z2.1, s, z2.2⟩ with
      | none => rw [hn] at hf; cases hf
      | some r =>
        rw [hn] at hf
        obtain ⟨r1, r2⟩ := r
        simp only [Option.map_some, Option.some.injEq, Except.ok.injEq, Prod.mk.injEq] at hf
        obtain ⟨e1, e2, e3⟩ := hf
        have hsrc : r2.src = s := Homo.next_src fuel _ _ hn
        subst e1
        rw [← e2, ← e3, ← hsrc]
    · rw [e] at hf; cases hf
example : ∃ z, Outs ((Prim.mk 8 false true).HomoCall fun _ => .ok (some 2)) (Block.new 3 1 1 2, 0) [1] z :=
  ⟨(⟨9, 4, 8, 3⟩, 2), Outs.snoc (Outs.nil _) ⟨9, by decide +kernel⟩⟩

/-- C83, with overflow checks and non-negative numbers: whatever is emitted are the coefficients of the regular expansion
of `(ax + b)/(cx + d)`.  `x` is given by its coefficients `s` and its rests `v`. -/
theorem prim_homo_regular_partial {t : Prim} (hc : t.checks = true) {src : Nat → Res (Option Int)} {s : Nat → Option Int}
    (hs : ∀ k, src k = .ok (s k) ∨ src k = .error .overflow) (a b c d : Int)
    (ha : 0 ≤ a) (hb : 0 ≤ b) (hc' : 0 ≤ c) (hd : 0 ≤ d) (v : Nat → ℝ) (h0 : 0 < v 0)
    (hv : ∀ k i, s k = some i → 0 ≤ i ∧ 0 < v (k + 1) ∧ v k = i + 1 / v (k + 1))
    {outs : List Int} {z : Block × Nat} (h : Outs (t.HomoCall src) (Block.new a b c d, 0) outs z) (n : Nat)
    (hn : n < outs.length) : outs[n] = ⌊tails ((a * v 0 + b) / (c * v 0 + d)) n⌋ :=
  Homo.homo_regular s a b c d ha hb hc' hd v h0 hv (prim_homo_exact hc hs a b c d h) n hn

/-- C83, the exact range, for non-negative numbers: if every convergent formed in the call is representable, the call is the
one over the unbounded integers, in both builds; with checks it panics otherwise. -/
theorem prim_homo_range (t : Prim) {s : Nat → Option Int} (hs : ∀ k v, s k = some v → 0 ≤ v) (fuel : Nat) (m : Block)
    (k : Nat) (hn : m.NN) (hm : t.HoldsB m) :
    (Homo.Through (fun p q => t.Holds p ∧ t.Holds q) s fuel m k →
      t.homoNext (fun k => .ok (s k)) fuel m k
        = (Homo.next fuel ⟨m, s, k⟩).map fun r => .ok (r.1, r.2.block, r.2.pos)) ∧
    (t.checks = true → ¬ Homo.Through (fun p q => t.Holds p ∧ t.Holds q) s fuel m k →
      t.homoNext (fun k => .ok (s k)) fuel m k = some (.error .overflow)) :=
  ⟨homoNext_exact hs fuel m k hn hm, fun hc => homoNext_over hc hs fuel m k hn hm⟩

/-- C83, both builds: the outputs and the entries of the block stay representable. -/
theorem prim_homo_state {t : Prim} (ht : t.Ok) (src : Nat → Res (Option Int)) (fuel : Nat) (m : Block) (k : Nat)
    (hm : t.HoldsB m) {i : Option Int} {m' : Block} {k' : Nat}
    (h : t.homoNext src fuel m k = some (.ok (i, m', k'))) : (∀ v, i = some v → t.Holds v) ∧ t.HoldsB m' :=
  homoNext_holds ht src fuel m k hm _ h

/-- C83 refuted without checks, signed types: `(nx + 1)/(nx + 2)` with `n = 2^(w-2)` and any `x` between 2 and 3 starts
with 1 instead of 0.  With checks the call panics. -/
theorem prim_homo_signed_refuted (w : Nat) (hw : 4 ≤ w) (src : Nat → Res (Option Int)) (h0 : src 0 = .ok (some 2)) :
    (∃ z, HomoCall ⟨w, true, false⟩ src (Block.new (2 ^ (w - 2)) 1 (2 ^ (w - 2)) 2, 0) 1 z) ∧
    (∀ x : ℝ, 2 ≤ x → ⌊((2 ^ (w - 2) : ℤ) * x + (1 : ℤ)) / ((2 ^ (w - 2) : ℤ) * x + (2 : ℤ))⌋ = 0) ∧
    homoNext ⟨w, true, true⟩ src 2 (Block.new (2 ^ (w - 2)) 1 (2 ^ (w - 2)) 2) 0 = some (.error .overflow) := by
  have hp1 : (2 : Int) ^ (w - 1) = 2 * 2 ^ (w - 2) := by rw [← pow_succ']; congr 1; omega
  have hp0 : (2 : Int) ^ w = 4 * 2 ^ (w - 2) := by
    rw [show w = (w - 2) + 2 by omega, pow_add]; simp; ring
  have hN : (4 : Int) ≤ 2 ^ (w - 2) := by
    calc (4 : Int) = 2 ^ 2 := by norm_num
      _ ≤ 2 ^ (w - 2) := pow_le_pow_right₀ (by norm_num) (by omega)
  revert hN hp1 hp0
  generalize (2 : Int) ^ (w - 2) = N
  intro hp1 hp0 hN
  have fit : ∀ ch v, (Prim.mk w true ch).ty.fits v = decide (-(2 * N) ≤ v ∧ v < 2 * N) := by
    intro ch v
    simp only [ty, if_true, IntTy.signed, hp1]
    simp
  have wr : ∀ ch v, (Prim.mk w true ch).ty.wrap v = (v + 2 * N) % (4 * N) - 2 * N := by
    intro ch v
    simp only [ty, if_true, IntTy.signed, hp1, hp0]
  have d1 : N.tdiv N = 1 := Int.tdiv_self (by omega)
  have red : ∀ ch, (Prim.mk w true ch).reduceRecip (Block.new N 1 N 2) = .ok (none, Block.new N 1 N 2) := by
    intro ch
    simp only [reduceRecip, checkInteger, Block.new, divRem, fit, d1]
    rw [if_neg (by omega), if_neg (by omega), if_pos (by simp; omega)]
    simp only [Surd.ok_bind]
    rw [if_neg (by norm_num), if_pos (by simp; omega)]
    rfl
  refine ⟨?_, ?_, ?_⟩
  · have mv : (Prim.mk w true false).rmove (Block.new N 1 N 2) 2 = .ok ⟨-2 * N + 1, N, -2 * N + 2, N⟩ := by
      have e1 : (Prim.mk w true false).ret (2 * N) = .ok (-2 * N) := by
        unfold ret
        rw [fit, if_neg (by simp), wr, show 2 * N + 2 * N = 4 * N by ring, Int.emod_self]
        simp
      have e2 : (Prim.mk w true false).ret (-2 * N + 1) = .ok (-2 * N + 1) := by
        unfold ret
        rw [fit, if_pos (by simp; omega)]
      have e3 : (Prim.mk w true false).ret (-2 * N + 2) = .ok (-2 * N + 2) := by
        unfold ret
        rw [fit, if_pos (by simp; omega)]
      simp only [rmove, add, mul, Block.new]
      rw [e1, Surd.ok_bind, e2, Surd.ok_bind, Surd.ok_bind, e3]
      rfl
    have q1 : (-2 * N + 1).tdiv (-2 * N + 2) = 1 := by
      rw [show -2 * N + 1 = -(2 * N - 1) by ring, show -2 * N + 2 = -(2 * N - 2) by ring, Int.neg_tdiv_neg,
        Int.tdiv_eq_ediv_of_nonneg (by omega)]
      rw [Int.ediv_eq_iff_of_pos (by omega)]
      omega
    refine ⟨(⟨-2 * N + 2, N, (-2 * N + 1).tmod (-2 * N + 2), N.tmod N⟩, 1), 2, ?_⟩
    have red2 : (Prim.mk w true false).reduceRecip ⟨-2 * N + 1, N, -2 * N + 2, N⟩
        = .ok (some 1, ⟨-2 * N + 2, N, (-2 * N + 1).tmod (-2 * N + 2), N.tmod N⟩) := by
      simp only [reduceRecip, checkInteger, divRem, fit, d1, q1]
      rw [if_neg (by omega), if_neg (by omega), if_pos (by simp; omega)]
      simp only [Surd.ok_bind]
      rw [if_neg (by omega), if_pos (by simp; omega)]
      rfl
    simp only [homoNext, red, h0, mv, red2]
  · intro x hx
    have hNr : (4 : ℝ) ≤ (N : ℝ) := by exact_mod_cast hN
    have hpos : (0 : ℝ) < N * x := by positivity
    rw [Int.floor_eq_iff]
    push_cast
    constructor
    · positivity
    · rw [div_lt_iff₀ (by linarith)]; linarith
  · have mv : (Prim.mk w true true).rmove (Block.new N 1 N 2) 2 = .error .overflow := by
      have e1 : (Prim.mk w true true).ret (2 * N) = .error .overflow := by
        unfold ret
        rw [fit, if_neg (by simp)]
        rfl
      simp only [rmove, add, mul, Block.new]
      rw [e1]
      rfl
    simp only [homoNext, red, h0, mv]

/-- C83 refuted without checks, unsigned types: `(x + n)/(2x + 1)` with `n = 2^w - 1` and any `x` between 1 and 2 starts
with 0 although it is at least 1.  With checks the call panics. -/
theorem prim_homo_unsigned_refuted (w : Nat) (hw : 4 ≤ w) (src : Nat → Res (Option Int)) (h0 : src 0 = .ok (some 1)) :
    (∃ z, HomoCall ⟨w, false, false⟩ src (Block.new 1 (2 ^ w - 1) 2 1, 0) 0 z) ∧
    (∀ x : ℝ, 1 ≤ x → x < 2 → 1 ≤ ⌊((1 : ℤ) * x + (2 ^ w - 1 : ℤ)) / ((2 : ℤ) * x + (1 : ℤ))⌋) ∧
    homoNext ⟨w, false, true⟩ src 2 (Block.new 1 (2 ^ w - 1) 2 1) 0 = some (.error .overflow) := by
  have hN : (16 : Int) ≤ 2 ^ w := by
    calc (16 : Int) = 2 ^ 4 := by norm_num
      _ ≤ 2 ^ w := pow_le_pow_right₀ (by norm_num) hw
  have fit0 : ∀ ch v, (Prim.mk w false ch).ty.fits v = decide (0 ≤ v ∧ v < 2 ^ w) := by
    intro ch v
    simp [ty, IntTy.unsigned]
  have wr0 : ∀ ch v, (Prim.mk w false ch).ty.wrap v = v % 2 ^ w := by
    intro ch v
    simp [ty, IntTy.unsigned]
  revert hN fit0 wr0
  generalize (2 : Int) ^ w = N
  intro hN fit wr
  have red : ∀ ch, (Prim.mk w false ch).reduceRecip (Block.new 1 (N - 1) 2 1) = .ok (none, Block.new 1 (N - 1) 2 1) := by
    intro ch
    simp only [reduceRecip, checkInteger, Block.new, divRem, fit, Int.tdiv_one]
    rw [if_neg (by omega), if_neg (by omega), if_pos (by simp; omega)]
    simp only [Surd.ok_bind]
    rw [if_neg (by norm_num), if_pos (by simp; omega)]
    simp only [Surd.ok_bind]
    rw [if_neg (by rw [show Int.tdiv 1 2 = 0 by decide]; omega)]
    rfl
  refine ⟨?_, ?_, ?_⟩
  · have r1 : ∀ v, 0 ≤ v → v < N → (Prim.mk w false false).ret v = .ok v := by
      intro v h1 h2
      unfold ret
      rw [fit, if_pos (by simp; omega)]
    have mv : (Prim.mk w false false).rmove (Block.new 1 (N - 1) 2 1) 1 = .ok ⟨0, 1, 3, 2⟩ := by
      have e1 : (Prim.mk w false false).ret (1 + (N - 1)) = .ok 0 := by
        unfold ret
        rw [fit, if_neg (by simp), wr, show 1 + (N - 1) = N by ring, Int.emod_self]
        simp
      simp only [rmove, add, mul, Block.new]
      rw [show (1 : Int) * 1 = 1 by norm_num, r1 1 (by omega) (by omega), Surd.ok_bind, e1, Surd.ok_bind,
        show (1 : Int) * 2 = 2 by norm_num, r1 2 (by omega) (by omega), Surd.ok_bind,
        show (2 : Int) + 1 = 3 by norm_num, r1 3 (by omega) (by omega)]
      rfl
    refine ⟨(⟨3, 2, 0, 1⟩, 1), 2, ?_⟩
    have red2 : (Prim.mk w false false).reduceRecip ⟨0, 1, 3, 2⟩ = .ok (some 0, ⟨3, 2, 0, 1⟩) := by
      simp only [reduceRecip, checkInteger, divRem, fit]
      rw [if_neg (by omega), if_neg (by omega), if_pos (by simp; omega)]
      simp only [Surd.ok_bind]
      rw [if_neg (by omega), if_pos (by rw [show Int.tdiv 1 2 = 0 by decide]; simp; omega)]
      rfl
    simp only [homoNext, red, h0, mv, red2]
  · intro x hx hx2
    have hNr : (16 : ℝ) ≤ (N : ℝ) := by exact_mod_cast hN
    rw [Int.le_floor]
    push_cast
    rw [le_div_iff₀ (by linarith)]
    linarith
  · have mv : (Prim.mk w false true).rmove (Block.new 1 (N - 1) 2 1) 1 = .error .overflow := by
      have e1 : (Prim.mk w false true).ret (1 + (N - 1)) = .error .overflow := by
        unfold ret
        rw [fit, if_neg (by simp)]
        rfl
      have e2 : (Prim.mk w false true).ret 1 = .ok 1 := by
        unfold ret
        rw [fit, if_pos (by simp; omega)]
      simp only [rmove, add, mul, Block.new]
      rw [show (1 : Int) * 1 = 1 by norm_num, e2, Surd.ok_bind, e1]
      rfl
    simp only [homoNext, red, h0, mv]

/-- C83, `bihomo`: with overflow checks a call does what the call over the unbounded integers does or panics with an
overflow, and without checks it does whatever the checked call does unless that panics with an overflow. -/
theorem prim_bihomo_call {t : Prim} (hc : t.checks = true) {xsrc ysrc xsrc' ysrc' : Nat → Res (Option Int)} (s : Bihomo)
    (hx : ∀ k, xsrc k = .ok (s.xsrc k) ∨ xsrc k = .error .overflow)
    (hy : ∀ k, ysrc k = .ok (s.ysrc k) ∨ ysrc k = .error .overflow)
    (hx' : ∀ k, xsrc k = xsrc' k ∨ xsrc k = .error .overflow)
    (hy' : ∀ k, ysrc k = ysrc' k ∨ ysrc k = .error .overflow) (fuel : Nat) :
    (t.bihomoNext xsrc ysrc fuel ⟨s.block, s.xpos, s.ypos⟩
        = (Bihomo.next fuel s).map (fun r => r.map fun v => (v.1, ⟨v.2.block, v.2.xpos, v.2.ypos⟩)) ∨
      t.bihomoNext xsrc ysrc fuel ⟨s.block, s.xpos, s.ypos⟩ = some (.error .overflow)) ∧
    (t.bihomoNext xsrc ysrc fuel ⟨s.block, s.xpos, s.ypos⟩ = t.rel.bihomoNext xsrc' ysrc' fuel ⟨s.block, s.xpos, s.ypos⟩ ∨
      t.bihomoNext xsrc ysrc fuel ⟨s.block, s.xpos, s.ypos⟩ = some (.error .overflow)) :=
  ⟨bihomoNext_ref hc fuel s hx hy, bihomoNext_rel hc hx' hy' fuel _⟩

/-- C83, `bihomo`, both builds: the outputs and the entries of the block stay representable. -/
theorem prim_bihomo_state {t : Prim} (ht : t.Ok) (xsrc ysrc : Nat → Res (Option Int)) (fuel : Nat) (s : Bi)
    (hs : t.HoldsD s.block) {i : Option Int} {s' : Bi} (h : t.bihomoNext xsrc ysrc fuel s = some (.ok (i, s'))) :
    (∀ v, i = some v → t.Holds v) ∧ t.HoldsD s'.block :=
  bihomoNext_holds ht xsrc ysrc fuel s hs _ h

/-- `u8`: `(3x + 1)/(x + 2)` for `x = [2; 2, 2, …]`; the first two outputs are exact. -/
example : (Prim.mk 8 false true).homoNext (fun _ => .ok (some 2)) 9 (Block.new 3 1 1 2) 0 = some (.ok (some 1, ⟨9, 4, 8, 3⟩, 2)) ∧
    Homo.Through (fun p q => (Prim.mk 8 false true).Holds p ∧ (Prim.mk 8 false true).Holds q) (fun _ => some 2) 9
      (Block.new 3 1 1 2) 0 := by
  refine ⟨by decide +kernel, ?_⟩
  simp [Homo.Through, Block.reduceRecip, Block.checkInteger, Block.new, Block.rmove, Block.update, Holds]

example : (Prim.mk 8 true true).Ok ∧ (Prim.mk 8 true true).HoldsB (Block.new 1 (-2) 0 1) := by
  unfold Ok HoldsB Holds; decide

example : (Prim.mk 8 true true).bihomoNext (fun _ => .ok (some 2)) (fun _ => .ok (some 1)) 9
      ⟨⟨3, 2, 4, 5, 2, 2, 2, 3⟩, 0, 0⟩ = some (.ok (some 2, ⟨⟨27, 21, 10, 8, 12, 1, 9, 3⟩, 2, 2⟩)) ∧
    (Prim.mk 8 true true).bihomoNext (fun _ => .ok (some 2)) (fun _ => .ok (some 1)) 9
      ⟨⟨100, 2, 4, 5, 2, 2, 2, 3⟩, 0, 0⟩ = some (.error .overflow) :=
  ⟨by decide +kernel, by decide +kernel⟩

end Prim
end NumIrr
