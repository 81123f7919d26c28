/-
Convergents with checked fixed-width arithmetic; the owned iterator; the approximation loop.
-/
import Verif.Lemmas.CFErr2

namespace NumIrr
namespace CF

/-! ### `OwnedCoefficients` -/

/-- the state of `OwnedCoefficients` after `n` items -/
def ownState (c : CF) (n : Nat) : OwnedIter :=
  if n ≤ c.a.length then ⟨some (c.a.drop n), c.p, 0, c.neg⟩ else ⟨none, c.p, 0, c.neg⟩

theorem hasCoeff_take (c : CF) (n : Nat) : HasCoeff ⟨c.a, c.p.take 1, c.neg⟩ n ↔ c.HasCoeff n := by
  unfold HasCoeff
  cases c.p <;> simp

theorem ownState_next (c : CF) (n : Nat) :
    (ownState c n).next = (.ok (if c.HasCoeff n then some (signed c.neg ((coeffAt c.a (c.p.take 1) n : Nat) : Int)) else none),
      ownState c (n + 1)) := by
  have hsg : ∀ v : Nat, (if c.neg = true then -(v : Int) else (v : Int)) = signed c.neg (v : Int) := fun _ => rfl
  rcases Nat.lt_or_ge n c.a.length with h | h
  · rw [if_pos (show c.HasCoeff n from Or.inr h), coeffAt_lt _ _ h]
    unfold ownState
    rw [if_pos (show n ≤ c.a.length by omega), if_pos (show n + 1 ≤ c.a.length by omega)]
    unfold OwnedIter.next
    rw [List.drop_eq_getElem_cons h]
    rfl
  · have hst : (ownState c n).next = (if c.p.length > 0 then
      (match c.p[(0 : Nat)]? with
      | none => (.error .unwrapNone, ⟨none, c.p, 0, c.neg⟩)
      | some v => (.ok (some (signed c.neg (v : Int))), if 0 ≥ c.p.length then ⟨none, c.p, 0 - c.p.length, c.neg⟩ else ⟨none, c.p, 0, c.neg⟩))
      else (.ok none, ⟨none, c.p, 0, c.neg⟩)) := by
      unfold ownState OwnedIter.next
      by_cases hn : n ≤ c.a.length
      · have : n = c.a.length := by omega
        rw [if_pos hn, this, List.drop_length]
        rfl
      · rw [if_neg hn]
        rfl
    rw [hst]
    have h1 : ownState c (n + 1) = ⟨none, c.p, 0, c.neg⟩ := by
      unfold ownState; rw [if_neg (by omega)]
    rw [h1]
    match hp : c.p with
    | [] =>
      have hn : ¬ c.HasCoeff n := by rintro (h' | h'); exact h' hp; omega
      rw [if_neg hn]; rfl
    | v :: vs =>
      have hn : c.HasCoeff n := .inl (by rw [hp]; simp)
      rw [if_pos hn]
      have : coeffAt c.a [v] n = v := by
        unfold coeffAt
        rw [if_neg (by omega)]
        simp [Nat.mod_one]
      simp [this]

theorem run_owned (c : CF) (n : Nat) : runIter OwnedIter.next n c.intoCoeffs = ownState c n := by
  induction n with
  | zero => simp [ownState, intoCoeffs, runIter]
  | succ n ih => rw [runIter_succ, ih, ownState_next]

/-! ### Fixed width -/

/-- the numerator of the last convergent is non-negative -/
theorem trunc_num_nonneg (c : CF) (n : Nat) :
    0 ≤ (blockOf (c.trunc n)).pm1 ∧ 0 ≤ (blockOf (c.trunc n)).pm2 ∧ 0 ≤ (blockOf (c.trunc n)).qm1 ∧
      0 ≤ (blockOf (c.trunc n)).qm2 := by
  induction n with
  | zero => simp [trunc, truncTo, blockOf, act]
  | succ n ih =>
    obtain ⟨h1, h2, h3, h4⟩ := ih
    have hb := blockOf_snoc (c.trunc n) ((coeffAt c.a c.p n : Nat) : Int)
    rw [← trunc_succ] at hb
    rw [hb]
    have : (0 : Int) ≤ ((coeffAt c.a c.p n : Nat) : Int) := by positivity
    simp only [Block.update]
    exact ⟨by positivity, h1, by positivity, h3⟩

/-- the `n`-th convergent as an integer pair, `n` counting from `0` -/
def num (c : CF) (n : Nat) : Int := (cfP (c.trunc (n + 1))).1
def den (c : CF) (n : Nat) : Int := (cfP (c.trunc (n + 1))).2

theorem num_eq (c : CF) (n : Nat) : c.num n =
    ((coeffAt c.a c.p n : Nat) : Int) * (blockOf (c.trunc n)).pm1 + (blockOf (c.trunc n)).pm2 := by
  have hb := blockOf_snoc (c.trunc n) ((coeffAt c.a c.p n : Nat) : Int)
  rw [← trunc_succ] at hb
  exact congrArg Block.pm1 hb

theorem den_eq (c : CF) (n : Nat) : c.den n =
    ((coeffAt c.a c.p n : Nat) : Int) * (blockOf (c.trunc n)).qm1 + (blockOf (c.trunc n)).qm2 := by
  have hb := blockOf_snoc (c.trunc n) ((coeffAt c.a c.p n : Nat) : Int)
  rw [← trunc_succ] at hb
  exact congrArg Block.qm1 hb

theorem block_succ (c : CF) (n : Nat) : blockOf (c.trunc (n + 1)) = (blockOf (c.trunc n)).update (c.num n) (c.den n) := by
  rw [num_eq, den_eq, trunc_succ, blockOf_snoc]

theorem prim_fits {w : Nat} {n : Int} : (Width.prim w).fits n = true ↔ 0 ≤ n ∧ n < 2 ^ w := by
  simp [Width.prim]

theorem prim_sgn_ne {w : Nat} {q : Int} (h1 : 1 ≤ q) (h2 : q < 2 ^ w) : (Width.prim w).sgn q ≠ 0 := by
  unfold Width.prim
  simp only
  split <;> omega

/-- one step of the fixed-width iterator -/
theorem convState_next_prim {c : CF} (h : c.Wf) {w : Nat} {n : Nat} (hn : c.HasCoeff n) :
    (c.num n < 2 ^ w ∧ c.den n < 2 ^ w →
      (convState c n).next (.prim w) =
        (.ok (some (signed c.neg (((Width.prim w).sgn (c.num n) : Rat) / (Width.prim w).sgn (c.den n)))),
          convState c (n + 1))) ∧
    (¬ (c.num n < 2 ^ w ∧ c.den n < 2 ^ w) →
      (convState c n).next (.prim w) = (.ok none, { convState c n with coeffs := iterState c (n + 1) })) := by
  obtain ⟨h1, h2, h3, h4⟩ := trunc_num_nonneg c n
  have hpos : 1 ≤ c.den n := trunc_den_pos h hn
  have ha : (0 : Int) ≤ ((coeffAt c.a c.p n : Nat) : Int) := by positivity
  have m1 : 0 ≤ ((coeffAt c.a c.p n : Nat) : Int) * (blockOf (c.trunc n)).pm1 := mul_nonneg ha h1
  have m2 : 0 ≤ ((coeffAt c.a c.p n : Nat) : Int) * (blockOf (c.trunc n)).qm1 := mul_nonneg ha h3
  have e1 := num_eq c n
  have e2 := den_eq c n
  constructor
  · rintro ⟨g1, g2⟩
    have hfit : (blockOf (c.trunc n)).checkedRmove (Width.prim w).fits ((coeffAt c.a c.p n : Nat) : Int) =
        some (c.num n, c.den n) := by
      unfold Block.checkedRmove
      rw [← e1, ← e2]
      rw [if_pos (by rw [Bool.and_eq_true, prim_fits, prim_fits]; omega),
        if_pos (by rw [Bool.and_eq_true, prim_fits, prim_fits]; omega)]
    unfold convState ConvIter.next
    rw [iterState_next, if_pos hn]
    simp only
    rw [hfit]
    simp only [ratioNew]
    rw [if_neg (prim_sgn_ne hpos g2), block_succ, Rat.divInt_eq_div]
    rfl
  · intro hg
    have hfit : (blockOf (c.trunc n)).checkedRmove (Width.prim w).fits ((coeffAt c.a c.p n : Nat) : Int) = none := by
      unfold Block.checkedRmove
      rw [← e1, ← e2]
      by_cases g1 : c.num n < 2 ^ w
      · have g2 : ¬ c.den n < 2 ^ w := fun h => hg ⟨g1, h⟩
        split
        · rw [if_neg (by rw [Bool.and_eq_true, prim_fits, prim_fits]; omega)]
        · rfl
      · rw [if_neg (by rw [Bool.and_eq_true, prim_fits, prim_fits]; omega)]
    unfold convState ConvIter.next
    rw [iterState_next, if_pos hn]
    simp only
    rw [hfit]

/-- `nth` with fixed-width integers -/
theorem nth_prim {c : CF} (h : c.Wf) {w : Nat} (k n : Nat) (hn : c.HasCoeff (k + n)) :
    ConvIter.nth (.prim w) n (convState c k) = .ok (
      if ∀ i ≤ n, c.num (k + i) < 2 ^ w ∧ c.den (k + i) < 2 ^ w then
        some (signed c.neg (((Width.prim w).sgn (c.num (k + n)) : Rat) / (Width.prim w).sgn (c.den (k + n)))) else none) := by
  induction n generalizing k with
  | zero =>
    obtain ⟨h1, h2⟩ := convState_next_prim h (n := k) hn
    rw [ConvIter.nth]
    by_cases hg : c.num k < 2 ^ w ∧ c.den k < 2 ^ w
    · rw [h1 hg, if_pos]
      · rfl
      · intro i hi
        have : i = 0 := by omega
        subst this; exact hg
    · rw [h2 hg, if_neg]
      intro h'; exact hg (h' 0 le_rfl)
  | succ n ih =>
    have hk : c.HasCoeff k := hasCoeff_mono hn k (by omega)
    obtain ⟨h1, h2⟩ := convState_next_prim h (n := k) hk
    rw [ConvIter.nth]
    by_cases hg : c.num k < 2 ^ w ∧ c.den k < 2 ^ w
    · rw [h1 hg]
      simp only
      rw [ih (k + 1) (by rw [show k + 1 + n = k + (n + 1) by omega]; exact hn)]
      rw [show k + 1 + n = k + (n + 1) by omega]
      congr 1
      have : (∀ i ≤ n, c.num (k + 1 + i) < 2 ^ w ∧ c.den (k + 1 + i) < 2 ^ w) ↔
          (∀ i ≤ n + 1, c.num (k + i) < 2 ^ w ∧ c.den (k + i) < 2 ^ w) := by
        constructor
        · intro h' i hi
          cases i with
          | zero => exact hg
          | succ i => have := h' i (by omega); rwa [show k + 1 + i = k + (i + 1) by omega] at this
        · intro h' i hi
          have := h' (i + 1) (by omega); rwa [show k + (i + 1) = k + 1 + i by omega] at this
      by_cases hall : ∀ i ≤ n, c.num (k + 1 + i) < 2 ^ w ∧ c.den (k + 1 + i) < 2 ^ w
      · rw [if_pos hall, if_pos (this.1 hall)]
      · rw [if_neg hall, if_neg (fun h => hall (this.2 h))]
    · rw [h2 hg, if_neg]
      intro h'; exact hg (h' 0 (by omega))

theorem nth_prim_end {c : CF} (h : c.Wf) {w : Nat} (k n : Nat) (hn : ¬ c.HasCoeff (k + n)) :
    ConvIter.nth (.prim w) n (convState c k) = .ok none := by
  induction n generalizing k with
  | zero => rw [ConvIter.nth]; exact convState_next_end hn
  | succ n ih =>
    rw [ConvIter.nth]
    by_cases hk : c.HasCoeff k
    · obtain ⟨h1, h2⟩ := convState_next_prim h (w := w) (n := k) hk
      by_cases hg : c.num k < 2 ^ w ∧ c.den k < 2 ^ w
      · rw [h1 hg]
        exact ih (k + 1) (by rw [show k + 1 + n = k + (n + 1) by omega]; exact hn)
      · rw [h2 hg]
    · have := convState_next_end (w := .prim w) hk
      generalize hx : (convState c k).next (.prim w) = x at *
      obtain ⟨r, it⟩ := x
      simp only at this
      rw [this]

/-- the state of `Convergents` over arbitrary-precision integers, also after the end -/
theorem run_conv_big {c : CF} (h : c.Wf) (n : Nat) : ∃ b, runIter (ConvIter.next .big) n c.convergents = ⟨iterState c n, b, c.neg⟩ ∧
    ((∀ i < n, c.HasCoeff i) → b = blockOf (c.trunc n)) := by
  induction n with
  | zero => exact ⟨_, by rw [iterState_zero]; rfl, fun _ => rfl⟩
  | succ n ih =>
    obtain ⟨b, h1, h2⟩ := ih
    rw [runIter_succ, h1]
    by_cases hn : c.HasCoeff n
    · have hb := h2 (fun i hi => hasCoeff_mono hn i (by omega))
      subst hb
      obtain ⟨q, h3, -⟩ := convState_next_big h (hasCoeff_mono hn)
      refine ⟨blockOf (c.trunc (n + 1)), ?_, fun _ => rfl⟩
      exact congrArg Prod.snd h3
    · refine ⟨b, ?_, fun h' => absurd (h' n (by omega)) hn⟩
      unfold ConvIter.next
      rw [iterState_next, if_neg hn]

/-! ### `approximated` -/

/-- the loop of `approximated` from the state after `k + 1` convergents -/
theorem approxLoop_big {c : CF} (h : c.Wf) (limit : Int) (k fuel : Nat) (hk : c.HasCoeff k)
    {q : Rat} (hq : cfVal (c.trunc (k + 1)) = some q) (hqd : (q.den : Int) ≤ limit) (M : Nat) (hM : k ≤ M)
    (hend : ¬ c.HasCoeff (M + 1) ∨ limit ≤ c.den (M + 1)) (hf : M - k < fuel) :
    ∃ r, approxLoop .big limit fuel (signed c.neg q) (convState c (k + 1)) = some (.ok r) ∧
      (∃ n s, c.HasCoeff n ∧ cfVal (c.trunc (n + 1)) = some s ∧ r.value = signed c.neg s ∧ (s.den : Int) ≤ limit ∧
        ((∃ v, r = .exact v) → ¬ c.HasCoeff (n + 1)) ∧
        ((∃ v, r = .approximated v) → c.HasCoeff (n + 1) ∧ limit ≤ c.den (n + 1))) := by
  induction fuel generalizing k q with
  | zero => omega
  | succ fuel ih =>
    by_cases hn : c.HasCoeff (k + 1)
    · obtain ⟨s, h1, h2⟩ := convState_next_big h (hasCoeff_mono hn)
      have hden : (s.den : Int) = c.den (k + 1) := (cfVal_den h2 (trunc_den_pos h hn)).1
      rw [approxLoop, h1]
      simp only [signed_den]
      by_cases hlt : (s.den : Int) < limit
      · rw [if_pos hlt]
        have hkM : k + 1 ≤ M := by
          by_contra hcon
          have : k = M := by omega
          subst this
          rcases hend with h' | h'
          · exact h' hn
          · omega
        exact ih (k + 1) hn h2 hlt.le hkM (by omega)
      · rw [if_neg hlt]
        refine ⟨_, rfl, k, q, hk, hq, rfl, hqd, fun ⟨v, hv⟩ => by (cases hv), fun _ => ⟨hn, by omega⟩⟩
    · have := convState_next_end (w := .big) hn
      rw [approxLoop]
      generalize hg : (convState c (k + 1)).next .big = z at *
      obtain ⟨z1, z2⟩ := z
      simp only at this
      subst this
      exact ⟨_, rfl, k, q, hk, hq, rfl, hqd, fun _ => hn, fun ⟨v, hv⟩ => by (cases hv)⟩

end CF
end NumIrr
