/-
The moves of blocks over primitive integer types keep their entries representable.
-/
import Verif.Spec.GFits
import Mathlib.Algebra.Order.Ring.Int
import Mathlib.Tactic.Positivity
import Mathlib.Tactic.Ring

namespace NumIrr

open Block

namespace GIter

theorem IsPrim.mono {ty : IntTy} (h : ty.IsPrim) {n k : ℤ} (hn : ty.fits n = true)
    (hk : 0 ≤ k ∧ k ≤ n ∨ n ≤ k ∧ k ≤ 0) : ty.fits k = true := by
  obtain ⟨w, hw, rfl | rfl⟩ := h
  · simp only [IntTy.unsigned, Bool.and_eq_true, decide_eq_true_eq] at *
    omega
  · have := (show (0 : ℤ) < 2 ^ (w - 1) by positivity)
    simp only [IntTy.signed, Bool.and_eq_true, decide_eq_true_eq] at *
    omega

theorem IsPrim.tdiv {ty : IntTy} (h : ty.IsPrim) {n g : ℤ} (hn : ty.fits n = true) (hg : 1 < g) :
    ty.fits (n.tdiv g) = true := by
  apply IsPrim.mono h hn
  rcases le_total 0 n with h0 | h0
  · left
    exact ⟨Int.tdiv_nonneg h0 (by omega), Int.tdiv_le_self g h0⟩
  · right
    have e : n.tdiv g = -((-n).tdiv g) := by rw [Int.neg_tdiv]; simp
    have h1 := Int.tdiv_nonneg (show 0 ≤ -n by omega) (show 0 ≤ g by omega)
    have h2 := Int.tdiv_le_self g (show 0 ≤ -n by omega)
    omega

theorem IsPrim.wrap {ty : IntTy} (h : ty.IsPrim) (n : ℤ) : ty.fits (ty.wrap n) = true := by
  obtain ⟨w, hw, rfl | rfl⟩ := h
  · have h1 : (0 : ℤ) < 2 ^ w := by positivity
    have h2 := Int.emod_nonneg n h1.ne'
    have h3 := Int.emod_lt_of_pos n h1
    simp only [IntTy.unsigned, Bool.and_eq_true, decide_eq_true_eq]
    omega
  · have h1 : (0 : ℤ) < 2 ^ w := by positivity
    have e : (2 : ℤ) ^ w = 2 * 2 ^ (w - 1) := by
      rw [← pow_succ']; congr 1; omega
    have h2 := Int.emod_nonneg (n + 2 ^ (w - 1)) h1.ne'
    have h3 := Int.emod_lt_of_pos (n + 2 ^ (w - 1)) h1
    simp only [IntTy.signed, Bool.and_eq_true, decide_eq_true_eq]
    omega

theorem checkedGmove_fits {ty : IntTy} (ht : ty.IsPrim) {m m' : Block} (h : m.Fits ty) {a b p q : ℤ}
    (hm : m.checkedGmove ty.fits a b = (some (p, q), m')) :
    (m'.update p q).Fits ty ∧ ty.fits p = true ∧ ty.fits q = true := by
  obtain ⟨h1, h2, h3, h4⟩ := h
  unfold checkedGmove at hm
  simp only at hm
  split at hm
  · rename_i hf
    simp only [Bool.and_eq_true] at hf
    obtain ⟨⟨⟨⟨⟨-, -⟩, hp⟩, -⟩, -⟩, hq⟩ := hf
    split at hm
    · rename_i hg
      cases hm
      have p1 := IsPrim.tdiv ht hp hg
      have q1 := IsPrim.tdiv ht hq hg
      exact ⟨⟨p1, IsPrim.tdiv ht h1 hg, q1, IsPrim.tdiv ht h3 hg⟩, p1, q1⟩
    · cases hm
      exact ⟨⟨hp, h1, hq, h3⟩, hp, hq⟩
  · cases hm

theorem checkedGmove_none {fits : ℤ → Bool} {m m' : Block} {a b : ℤ}
    (hm : m.checkedGmove fits a b = (none, m')) : m' = m := by
  unfold checkedGmove at hm
  simp only at hm
  split at hm
  · split at hm <;> cases hm
  · cases hm; rfl

theorem new_fits {ty : IntTy} (ht : ty.IsPrim) (src : ℕ → Option (ℤ × ℤ)) : (GIter.new src).block.Fits ty := by
  obtain ⟨w, hw, rfl | rfl⟩ := ht
  · have : (2 : ℤ) ^ w = 2 * 2 ^ (w - 1) := by rw [← pow_succ']; congr 1; omega
    have := (show (0 : ℤ) < 2 ^ (w - 1) by positivity)
    refine ⟨?_, ?_, ?_, ?_⟩ <;>
      simp only [GIter.new, identity, IntTy.unsigned, Bool.and_eq_true, decide_eq_true_eq] <;> omega
  · have : (2 : ℤ) ^ (w - 1) = 2 * 2 ^ (w - 2) := by rw [← pow_succ']; congr 1; omega
    have := (show (0 : ℤ) < 2 ^ (w - 2) by positivity)
    refine ⟨?_, ?_, ?_, ?_⟩ <;>
      simp only [GIter.new, identity, IntTy.signed, Bool.and_eq_true, decide_eq_true_eq] <;> omega

/-- the entries are not negative -/
def NN (m : Block) : Prop := 0 ≤ m.pm1 ∧ 0 ≤ m.pm2 ∧ 0 ≤ m.qm1 ∧ 0 ≤ m.qm2

theorem checkedGmove_nn {fits : ℤ → Bool} {m m' : Block} (h : NN m) {a b p q : ℤ} (ha : 0 ≤ a) (hb : 0 ≤ b)
    (hm : m.checkedGmove fits a b = (some (p, q), m')) : NN (m'.update p q) ∧ 0 ≤ p ∧ 0 ≤ q := by
  obtain ⟨h1, h2, h3, h4⟩ := h
  have hp : 0 ≤ b * m.pm1 + a * m.pm2 := add_nonneg (mul_nonneg hb h1) (mul_nonneg ha h2)
  have hq : 0 ≤ b * m.qm1 + a * m.qm2 := add_nonneg (mul_nonneg hb h3) (mul_nonneg ha h4)
  unfold checkedGmove at hm
  simp only at hm
  split at hm
  · split at hm
    · rename_i hg
      cases hm
      have t : ∀ {n g : ℤ}, 0 ≤ n → 1 < g → 0 ≤ n.tdiv g := fun hn hg => Int.tdiv_nonneg hn (by omega)
      exact ⟨⟨t hp hg, t h1 hg, t hq hg, t h3 hg⟩, t hp hg, t hq hg⟩
    · cases hm
      exact ⟨⟨hp, h1, hq, h3⟩, hp, hq⟩
  · cases hm

theorem reduceMulTy_fits {cfg : Cfg} {ty : IntTy} (ht : ty.IsPrim) {m m' : Block} {i : Option ℤ} (h : m.Fits ty)
    (hm : reduceMulTy cfg ty m = .ok (i, m')) : m'.Fits ty := by
  obtain ⟨h1, h2, h3, h4⟩ := h
  unfold reduceMulTy at hm
  split at hm
  · split at hm
    · rename_i hf
      simp only [Bool.and_eq_true] at hf
      cases hm
      exact ⟨hf.1, hf.2, h3, h4⟩
    · split at hm
      · cases hm
      · cases hm
        refine ⟨?_, ?_, h3, h4⟩
        · simp only; split
          · assumption
          · exact IsPrim.wrap ht _
        · simp only; split
          · assumption
          · exact IsPrim.wrap ht _
  · cases hm; exact ⟨h1, h2, h3, h4⟩

end GIter
end NumIrr
