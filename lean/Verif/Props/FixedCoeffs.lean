/-
C85: the coefficients of `e`, `π` and `exp` over primitive integers.
-/
import Verif.Lemmas.FixedCoeffs
import Verif.Props.EFrac
import Verif.Props.PiFrac
import Verif.Props.ExpFrac

namespace NumIrr
namespace Prim

/-- C85, `e`: in both builds the first calls yield the coefficients of the regular expansion of `e`, as long as the
internal counter `2(k/3 + 1)` is representable; with checks the calls from there on panic. -/
theorem prim_e {t : Prim} (hw : 4 ≤ t.w) (k : Nat) :
    (t.Holds (2 * ((k / 3 : Nat) + 1)) → streamR t.eNext .new k = .ok (some ⌊tails (Real.exp 1) k⌋)) ∧
    (t.checks = true → ¬ t.Holds (2 * ((k / 3 : Nat) + 1)) → streamR t.eNext .new k = .error .overflow) := by
  constructor
  · intro h
    rw [streamR_exact (next := ECoeffs.next) k fun j hj => e_step hw j (e_mono hj h), ECoeffs.e_regular]
  · intro hc h
    obtain ⟨n, hn, h1, h2⟩ := e_first k h
    exact streamR_error (next := ECoeffs.next) n (fun j hj => e_step hw j (h1 j hj)) (e_over hc hw n h1 h2) k hn

/-- the number of coefficients of `e` -/
def eCount (t : Prim) : Nat := 3 * 2 ^ (if t.sg then t.w - 2 else t.w - 1) - 3

theorem eCount_iff {t : Prim} (hw : 4 ≤ t.w) (k : Nat) : t.Holds (2 * ((k / 3 : Nat) + 1)) ↔ k < t.eCount := by
  have h1 := pow_split (w := t.w) (by omega)
  have h2 : (2 : Int) ^ (t.w - 1) = 2 * 2 ^ (t.w - 2) := by rw [← pow_succ']; congr 1; omega
  unfold Holds eCount
  cases t.sg
  · simp only [Bool.false_eq_true, if_false]
    have e : ((2 ^ (t.w - 1) : Nat) : Int) = 2 ^ (t.w - 1) := by push_cast; rfl
    generalize 2 ^ (t.w - 1) = N at *
    omega
  · simp only [if_true]
    have e : ((2 ^ (t.w - 2) : Nat) : Int) = 2 ^ (t.w - 2) := by push_cast; rfl
    generalize 2 ^ (t.w - 2) = N at *
    omega

/-- C85, `e`: the exact number of calls that do not panic with checks, `3·2^(w-2) - 3` for signed and `3·2^(w-1) - 3` for
unsigned types -/
theorem prim_e_count_partial {t : Prim} (hw : 4 ≤ t.w) (k : Nat) :
    (k < t.eCount → streamR t.eNext .new k = .ok (some ⌊tails (Real.exp 1) k⌋)) ∧
    (t.checks = true → t.eCount ≤ k → streamR t.eNext .new k = .error .overflow) := by
  refine ⟨fun h => (prim_e hw k).1 ((eCount_iff hw k).2 h), fun hc h => (prim_e hw k).2 hc ?_⟩
  rw [eCount_iff hw]
  omega

theorem eCount_mod (t : Prim) (hw : 4 ≤ t.w) : ∃ M, t.eCount = 3 * M + 3 := by
  unfold eCount
  cases t.sg
  · refine ⟨2 ^ (t.w - 1) - 2, ?_⟩
    have : 2 ^ 3 ≤ 2 ^ (t.w - 1) := Nat.pow_le_pow_right (by norm_num) (by omega)
    simp only [Bool.false_eq_true, if_false]
    omega
  · refine ⟨2 ^ (t.w - 2) - 2, ?_⟩
    have : 2 ^ 2 ≤ 2 ^ (t.w - 2) := Nat.pow_le_pow_right (by norm_num) (by omega)
    simp only [if_true]
    omega

/-- C85, `e`, refuted: not every panic comes from a coefficient which is not representable.  The first call that panics, and
the next one, would yield the coefficient 1. -/
theorem prim_e_early_refuted {t : Prim} (hw : 4 ≤ t.w) (hc : t.checks = true) :
    streamR t.eNext .new t.eCount = .error .overflow ∧ ⌊tails (Real.exp 1) t.eCount⌋ = 1 ∧
    ⌊tails (Real.exp 1) (t.eCount + 1)⌋ = 1 ∧ ¬ t.Holds ⌊tails (Real.exp 1) (t.eCount + 2)⌋ := by
  obtain ⟨M, hM⟩ := eCount_mod t hw
  have g : ∀ k, ⌊tails (Real.exp 1) k⌋ = if k = 0 then (2 : ℤ) else if k % 3 = 2 then 2 * (((k + 1) / 3 : ℕ) : ℤ) else 1 := by
    intro k
    have := (ECoeffs.e_regular k).symm.trans (ECoeffs.e_coeffs k)
    simpa using this
  refine ⟨(prim_e_count_partial hw _).2 hc le_rfl, ?_, ?_, ?_⟩
  · rw [g, if_neg (by omega), if_neg (by omega)]
  · rw [g, if_neg (by omega), if_neg (by omega)]
  · rw [g, if_neg (by omega), if_pos (by omega)]
    have h := (eCount_iff hw t.eCount).not.2 (lt_irrefl _)
    rw [show (t.eCount + 2 + 1) / 3 = t.eCount / 3 + 1 by omega]
    push_cast at h ⊢
    exact h

/-- C85, `e`, refuted without checks, unsigned types: the counter becomes 0 and the coefficients start again from the
beginning, so that the coefficient after the first one that is affected is 2 instead of 1. -/
theorem prim_e_unsigned_refuted (w : Nat) (hw : 4 ≤ w) :
    (∀ k, streamR (eNext ⟨w, false, false⟩) .new (3 * 2 ^ (w - 1) - 2 + k) = streamR (eNext ⟨w, false, false⟩) .new k) ∧
    streamR (eNext ⟨w, false, false⟩) .new (3 * 2 ^ (w - 1) - 2) = .ok (some 2) ∧
    ⌊tails (Real.exp 1) (3 * 2 ^ (w - 1) - 2)⌋ = 1 := by
  set t : Prim := ⟨w, false, false⟩ with ht
  have hN : 2 ^ 3 ≤ 2 ^ (w - 1) := Nat.pow_le_pow_right (by norm_num) (by omega)
  have hcount : t.eCount = 3 * 2 ^ (w - 1) - 3 := by simp [eCount, ht]
  have hK : 3 * 2 ^ (w - 1) - 2 = t.eCount + 1 := by omega
  have h2 : t.Holds 2 := holds_small hw (by norm_num) (by norm_num)
  -- the call with the wrapped counter
  have hstep : t.eNext (stateAt ECoeffs.next .new t.eCount) = .ok (some 1, ⟨0, 0⟩) := by
    obtain ⟨k, hk⟩ : ∃ k, t.eCount = k + 1 := ⟨t.eCount - 1, by omega⟩
    have hk3 : k / 3 + 1 = 2 ^ (w - 1) - 1 := by omega
    have hk2 : k % 3 = 2 := by omega
    rw [hk, e_state]
    have hsum : (2 : Int) + 2 * (((k / 3 : Nat) : Int) + 1) = 2 ^ w := by
      have h1 := pow_split (w := w) (by omega)
      have e : ((2 ^ (w - 1) : Nat) : Int) = 2 ^ (w - 1) := by push_cast; rfl
      rw [h1, ← e]
      generalize 2 ^ (w - 1) = N at *
      omega
    unfold eNext
    rw [if_neg (by simp only; omega), if_pos hk2]
    unfold eTurn add
    simp only
    rw [show (1 : Int) + 1 = 2 by norm_num, ret_ok h2, Surd.ok_bind, hsum, ret_wrap rfl]
    · rw [Surd.ok_bind, hk2]
      have : t.ty.wrap ((2 : Int) ^ w) = 0 := by simp [ty, IntTy.unsigned, ht]
      rw [this]
      rfl
    · unfold Holds
      simp [ht]
  have hshift : ∀ k, streamR t.eNext .new (3 * 2 ^ (w - 1) - 2 + k) = streamR t.eNext .new k := by
    intro k
    rw [hK, add_assoc, streamR_shift (next := ECoeffs.next) t.eCount (1 + k)
      fun j hj => e_step hw j ((eCount_iff hw j).2 hj), Nat.add_comm 1 k]
    conv_lhs => unfold streamR
    rw [hstep]
    rfl
  refine ⟨hshift, ?_, ?_⟩
  · have h0 := hshift 0
    rw [Nat.add_zero] at h0
    rw [h0, ((prim_e hw 0).1 (holds_small hw (by norm_num) (by norm_num)))]
    have := (ECoeffs.e_regular 0).symm.trans (ECoeffs.e_coeffs 0)
    rw [Option.some.inj this]
    rfl
  · have := (ECoeffs.e_regular (3 * 2 ^ (w - 1) - 2)).symm.trans (ECoeffs.e_coeffs _)
    rw [Option.some.inj this, if_neg (by omega), if_neg (by omega)]

/-- C85, `e`, refuted without checks, signed types: the coefficient `2^(w-1)` appears with the wrong sign. -/
theorem prim_e_signed_refuted (w : Nat) (hw : 4 ≤ w) :
    streamR (eNext ⟨w, true, false⟩) .new (3 * 2 ^ (w - 2) - 1) = .ok (some (-2 ^ (w - 1))) ∧
    ⌊tails (Real.exp 1) (3 * 2 ^ (w - 2) - 1)⌋ = 2 ^ (w - 1) := by
  set t : Prim := ⟨w, true, false⟩ with ht
  have hN : 2 ^ 2 ≤ 2 ^ (w - 2) := Nat.pow_le_pow_right (by norm_num) (by omega)
  have hcount : t.eCount = 3 * 2 ^ (w - 2) - 3 := by simp [eCount, ht]
  have hK : 3 * 2 ^ (w - 2) - 1 = t.eCount + 2 := by omega
  have h2 : t.Holds 2 := holds_small hw (by norm_num) (by norm_num)
  have hp : (2 : Int) ^ (w - 1) = 2 * 2 ^ (w - 2) := by rw [← pow_succ']; congr 1; omega
  have hp2 : (2 : Int) ^ w = 2 * 2 ^ (w - 1) := by rw [← pow_succ']; congr 1; omega
  have hpos : (0 : Int) < 2 ^ (w - 1) := by positivity
  have hstep : t.eNext (stateAt ECoeffs.next .new t.eCount) = .ok (some 1, ⟨-2 ^ (w - 1), 0⟩) := by
    obtain ⟨k, hk⟩ : ∃ k, t.eCount = k + 1 := ⟨t.eCount - 1, by omega⟩
    have hk3 : k / 3 + 1 = 2 ^ (w - 2) - 1 := by omega
    have hk2 : k % 3 = 2 := by omega
    rw [hk, e_state]
    have hsum : (2 : Int) + 2 * (((k / 3 : Nat) : Int) + 1) = 2 ^ (w - 1) := by
      have e : ((2 ^ (w - 2) : Nat) : Int) = 2 ^ (w - 2) := by push_cast; rfl
      rw [hp, ← e]
      generalize 2 ^ (w - 2) = N at *
      omega
    unfold eNext
    rw [if_neg (by simp only; omega), if_pos hk2]
    unfold eTurn add
    simp only
    rw [show (1 : Int) + 1 = 2 by norm_num, ret_ok h2, Surd.ok_bind, hsum, ret_wrap rfl]
    · rw [Surd.ok_bind, hk2]
      have : t.ty.wrap ((2 : Int) ^ (w - 1)) = -2 ^ (w - 1) := by
        simp only [ty, IntTy.signed, ht, if_true]
        rw [show (2 : Int) ^ (w - 1) + 2 ^ (w - 1) = 2 ^ w by rw [hp2]; ring, Int.emod_self]
        ring
      rw [this]
      rfl
    · unfold Holds
      simp [ht]
  constructor
  · rw [hK, streamR_shift (next := ECoeffs.next) t.eCount 2 fun j hj => e_step hw j ((eCount_iff hw j).2 hj)]
    unfold streamR
    rw [hstep, Surd.ok_bind]
    have hne : (-2 ^ (w - 1) : Int) ≠ 0 := by omega
    have s1 : t.eNext ⟨-2 ^ (w - 1), 0⟩ = .ok (some 1, ⟨-2 ^ (w - 1), 1⟩) := by
      unfold eNext; rw [if_neg hne]; rfl
    have s2 : t.eNext ⟨-2 ^ (w - 1), 1⟩ = .ok (some (-2 ^ (w - 1)), ⟨-2 ^ (w - 1), 2⟩) := by
      unfold eNext; rw [if_neg hne]; rfl
    simp only [streamR]
    rw [s1, Surd.ok_bind, s2]
    rfl
  · have := (ECoeffs.e_regular (3 * 2 ^ (w - 2) - 1)).symm.trans (ECoeffs.e_coeffs _)
    rw [Option.some.inj this, if_neg (by omega), if_pos (by omega),
      show 3 * 2 ^ (w - 2) - 1 + 1 = 3 * 2 ^ (w - 2) by omega, Nat.mul_div_cancel_left _ (by norm_num), hp]
    push_cast
    rfl

/-- the pairs of the fraction `4/(1 + 1²/(3 + 2²/(5 + …)))` -/
def piItem (k : Nat) : Int × Int := if k = 0 then (1, 0) else if k = 1 then (4, 1) else (((k : Int) - 1) ^ 2, 2 * k - 1)

/-- C85, `π`: in both builds a call yields its pair if that is representable; with checks it panics otherwise. -/
theorem prim_pi {t : Prim} (hw : 4 ≤ t.w) (k : Nat) :
    (t.Holds (piItem k).1 ∧ t.Holds (piItem k).2 → streamR t.piNext .new k = .ok (some (piItem k))) ∧
    (t.checks = true → ¬ (t.Holds (piItem k).1 ∧ t.Holds (piItem k).2) →
      streamR t.piNext .new k = .error .overflow) := by
  have hitem : stream PiCoeffs.next .new k = some (piItem k) := by
    rw [PiCoeffs.pi_pairs]
    unfold piItem
    rw [show 2 * ((k : Int) - 1) + 1 = 2 * k - 1 by ring]
  have hcond : (t.Holds (piItem k).1 ∧ t.Holds (piItem k).2) ↔ t.Holds (((k : Int) - 1) * (k - 1)) := by
    unfold piItem
    rcases k with _ | _ | k
    · simp only [if_true]
      exact ⟨fun _ => holds_small hw (by norm_num) (by norm_num),
        fun _ => ⟨holds_small hw (by norm_num) (by norm_num), holds_small hw (by norm_num) (by norm_num)⟩⟩
    · simp
      exact iff_of_true ⟨holds_small hw (by norm_num) (by norm_num), holds_small hw (by norm_num) (by norm_num)⟩
        (holds_small hw (by norm_num) (by norm_num))
    · rw [if_neg (by omega), if_neg (by omega)]
      simp only
      rw [← sq]
      refine ⟨fun h => h.1, fun h => ⟨h, ?_⟩⟩
      have h' := h
      rw [sq] at h'
      have e : (((k + 1 + 1 : Nat) : Int) - 1) = (k : Int) + 1 := by push_cast; ring
      rw [e] at h'
      have := (pi_sums hw k h').2
      refine holds_mono this (Or.inl ⟨by push_cast; omega, by push_cast; omega⟩)
  rw [hcond]
  constructor
  · intro h
    rw [streamR_exact (next := PiCoeffs.next) k fun j hj => pi_step hw j (pi_mono hw hj h), hitem]
  · intro hc h
    obtain ⟨n, hn, h1, h2⟩ := pi_first k h
    exact streamR_error (next := PiCoeffs.next) n (fun j hj => pi_step hw j (h1 j hj)) (pi_over hc hw n h2) k hn

/-- C85, `π`, without checks: the partial numerator of the pair number `k` is taken modulo `2^w`, as long as the partial
denominators are representable. -/
theorem prim_pi_release {t : Prim} (hw : 4 ≤ t.w) (hc : t.checks = false) (k : Nat) (hk : 2 ≤ k) (h : t.Holds (2 * (k : Int) + 1)) :
    streamR t.piNext .new k = .ok (some (if t.Holds (((k : Int) - 1) ^ 2) then ((k : Int) - 1) ^ 2
      else t.ty.wrap (((k : Int) - 1) ^ 2), 2 * k - 1)) := by
  obtain ⟨i, rfl⟩ := Nat.exists_eq_add_of_le hk
  rw [streamR_shift (next := PiCoeffs.next) 2 i fun j hj => pi_step hw j (by
    have : (j : Int) = 0 ∨ (j : Int) = 1 := by omega
    rcases this with e | e <;> rw [e] <;> exact holds_small hw (by norm_num) (by norm_num))]
  have := pi_release_from hc hw 0 i (by
    rw [show 2 * (((0 + i : Nat)) : Int) + 3 + 2 = 2 * ((2 + i : Nat) : Int) + 1 by push_cast; ring]; exact h)
  rw [show (0 : Nat) + i = i by omega] at this
  rw [show stateAt PiCoeffs.next .new 2 = ⟨((0 : Nat) : Int) + 1, 2 * ((0 : Nat) : Int) + 3⟩ from pi_state 0, this]
  rw [show (((2 + i : Nat)) : Int) - 1 = (i : Int) + 1 by push_cast; ring, sq,
    show 2 * (((2 + i : Nat)) : Int) - 1 = 2 * (i : Int) + 3 by push_cast; ring]

/-- C85, `π`, refuted without checks, all types of even width `2h`: the partial numerator `(2^h)²` is 0, so that the
fraction ends there. -/
theorem prim_pi_refuted (h : Nat) (hh : 3 ≤ h) (sg : Bool) :
    streamR (piNext ⟨2 * h, sg, false⟩) .new (2 ^ h + 1) = .ok (some (0, 2 * 2 ^ h + 1)) ∧
    piItem (2 ^ h + 1) = (2 ^ (2 * h), 2 * 2 ^ h + 1) := by
  have hN : (8 : Int) ≤ 2 ^ h := by
    calc (8 : Int) = 2 ^ 3 := by norm_num
      _ ≤ 2 ^ h := pow_le_pow_right₀ (by norm_num) hh
  have hN' : 2 ^ 3 ≤ 2 ^ h := Nat.pow_le_pow_right (by norm_num) hh
  have hsq : (2 : Int) ^ (2 * h) = 2 ^ h * 2 ^ h := by rw [← pow_add]; congr 1; omega
  have hhalf : (2 : Int) ^ (2 * h) = 2 * 2 ^ (2 * h - 1) := by rw [← pow_succ']; congr 1; omega
  have e1 : (((2 ^ h + 1 : Nat)) : Int) - 1 = 2 ^ h := by push_cast; ring
  have e2 : ((2 : Int) ^ h) ^ 2 = 2 ^ (2 * h) := by rw [hsq, sq]
  constructor
  · rw [prim_pi_release (t := ⟨2 * h, sg, false⟩) (by simp only; omega) rfl (2 ^ h + 1) (by omega) ?_]
    · rw [e1, e2]
      have hne : ¬ Holds ⟨2 * h, sg, false⟩ ((2 : Int) ^ (2 * h)) := by
        unfold Holds
        have : (0 : Int) < 2 ^ (2 * h - 1) := by positivity
        cases sg
        · simp
        · simp only [if_true]; omega
      have hw0 : (Prim.mk (2 * h) sg false).ty.wrap ((2 : Int) ^ (2 * h)) = 0 := by
        cases sg
        · simp [ty, IntTy.unsigned]
        · simp only [ty, IntTy.signed, if_true]
          rw [Int.add_emod_left, Int.emod_eq_of_lt (by positivity) (by
            have : (0 : Int) < 2 ^ (2 * h - 1) := by positivity
            omega)]
          ring
      rw [if_neg hne, hw0]
      push_cast
      congr 4
      ring
    · push_cast
      have : 2 * ((2 : Int) ^ h + 1) + 1 < 2 ^ (2 * h - 1) := by nlinarith
      have : (0 : Int) < 2 ^ h := by positivity
      unfold Holds
      cases sg
      · simp only [Bool.false_eq_true, if_false]; omega
      · simp only [if_true]; omega
  · unfold piItem
    rw [if_neg (by omega), if_neg (by omega), e1, e2]
    push_cast
    congr 1
    ring

/-- the pairs of the fraction `1 + x/(1 - x/((2+x) - 2x/((3+x) - …)))` -/
def expPair (x : Int) (k : Nat) : Int × Int :=
  if k = 0 then (1, 1) else if k = 1 then (x, 1) else (-(((k : Int) - 1) * x), k + x)

/-- C85, `exp`: in both builds a call yields its pair if `k + 1`, `±(k-1)x` and `k + x` are representable; with checks
it panics otherwise. -/
theorem prim_exp {t : Prim} {x : Int} (hx : t.Holds x) (k : Nat) :
    (t.ExpFits x k → streamR t.expNext (.new x) k = .ok (some (expPair x k))) ∧
    (t.checks = true → ¬ t.ExpFits x k → streamR t.expNext (.new x) k = .error .overflow) := by
  constructor
  · intro h
    rw [streamR_exact (next := ExpCoeffs.next) k fun j hj => exp_step x j (exp_mono hx hj h), ExpCoeffs.exp_pairs]
    rfl
  · intro hc h
    classical
    have hex : ∃ n, ¬ t.ExpFits x n := ⟨k, h⟩
    exact streamR_error (next := ExpCoeffs.next) (Nat.find hex)
      (fun j hj => exp_step x j (not_not.1 (Nat.find_min hex hj))) (exp_over hc x _ (Nat.find_spec hex)) k
      (Nat.find_min' hex h)

/-- C85, `exp`, refuted: not every panic comes from a pair which is not representable.  For `x = 2^(w-2)` the call number 3
panics, since `2x` is computed before it is negated. -/
theorem prim_exp_early_refuted (w : Nat) (hw : 4 ≤ w) :
    streamR (expNext ⟨w, true, true⟩) (.new (2 ^ (w - 2))) 3 = .error .overflow ∧
    Holds ⟨w, true, true⟩ (expPair (2 ^ (w - 2)) 3).1 ∧ Holds ⟨w, true, true⟩ (expPair (2 ^ (w - 2)) 3).2 := by
  have hp : (2 : Int) ^ (w - 1) = 2 * 2 ^ (w - 2) := by rw [← pow_succ']; congr 1; omega
  have hN : (4 : Int) ≤ 2 ^ (w - 2) := by
    calc (4 : Int) = 2 ^ 2 := by norm_num
      _ ≤ 2 ^ (w - 2) := pow_le_pow_right₀ (by norm_num) (by omega)
  refine ⟨(prim_exp ?_ 3).2 rfl ?_, ?_, ?_⟩
  · unfold Holds; simp only [if_true, hp]; omega
  · rintro ⟨-, h⟩
    obtain ⟨h1, -, -⟩ := h (by norm_num)
    unfold Holds at h1
    simp only [if_true, hp] at h1
    push_cast at h1
    omega
  · unfold Holds expPair; simp only [if_true, hp]; push_cast; norm_num
  · unfold Holds expPair; simp only [if_true, hp]; norm_num; omega

/-- C85, release builds: whatever a checked call yields, the unchecked one yields too. -/
theorem prim_coeffs_rel {t : Prim} (hc : t.checks = true) (k : Nat) :
    Refines (streamR t.eNext .new k) (streamR t.rel.eNext .new k) ∧
    Refines (streamR t.piNext .new k) (streamR t.rel.piNext .new k) ∧
    ∀ x, Refines (streamR t.expNext (.new x) k) (streamR t.rel.expNext (.new x) k) :=
  ⟨streamR_rel (eNext_rel hc) _ k, streamR_rel (piNext_rel hc) _ k, fun _ => streamR_rel (expNext_rel hc) _ k⟩

/-- `i8`: 189 coefficients of `e`, then a panic -/
example : eCount ⟨8, true, true⟩ = 189 ∧ (4 ≤ (Prim.mk 8 true true).w) ∧ Holds ⟨8, true, true⟩ (2 * ((188 / 3 : Nat) + 1)) ∧
    ¬ Holds ⟨8, true, true⟩ (2 * ((189 / 3 : Nat) + 1)) := by
  refine ⟨by decide, by decide, by decide, by decide⟩

example : streamR (eNext ⟨8, true, true⟩) .new 188 = .ok (some 126) ∧
    streamR (eNext ⟨8, true, true⟩) .new 189 = .error .overflow ∧
    streamR (eNext ⟨8, true, false⟩) .new 191 = .ok (some (-128)) ∧
    streamR (eNext ⟨8, false, false⟩) .new 382 = .ok (some 2) := by
  refine ⟨by decide +kernel, by decide +kernel, by decide +kernel, by decide +kernel⟩

/-- `u8`: the pairs of `π` up to `(225, 31)` -/
example : Holds ⟨8, false, true⟩ (piItem 16).1 ∧ Holds ⟨8, false, true⟩ (piItem 16).2 ∧
    streamR (piNext ⟨8, false, true⟩) .new 16 = .ok (some (225, 31)) ∧
    streamR (piNext ⟨8, false, true⟩) .new 17 = .error .overflow ∧
    streamR (piNext ⟨8, false, false⟩) .new 17 = .ok (some (0, 33)) := by
  refine ⟨by decide +kernel, by decide +kernel, by decide +kernel, by decide +kernel, by decide +kernel⟩

/-- `i8`: `exp(3)` -/
example : Holds ⟨8, true, true⟩ 3 ∧ ExpFits ⟨8, true, true⟩ 3 43 ∧ ¬ ExpFits ⟨8, true, true⟩ 3 44 ∧
    streamR (expNext ⟨8, true, true⟩) (.new 3) 43 = .ok (some (-126, 46)) := by
  refine ⟨by decide +kernel, by unfold ExpFits; decide +kernel, by unfold ExpFits; decide +kernel, by decide +kernel⟩

end Prim
end NumIrr
