/-
C22: the text printed for a surd, read as an arithmetic expression, denotes the surd.
-/
import Verif.Lemmas.Read
import Mathlib.Tactic.FieldSimp
import Mathlib.Tactic.LinearCombination

namespace NumIrr
namespace Surd

open Text

/-- a sum of an integer and a signed product, over a denominator -/
private theorem read_layout {s : String} {tb : List Char} {e : Expr} (h : Reads tb e) (a c : Int) (bneg : Bool) (hc : 0 < c)
    (hs : s.toList =
      if a = 0 then (if bneg then ['-'] else []) ++ (tb ++ if c = 1 then [] else '/' :: Nat.toDigits 10 c.natAbs)
      else if c = 1 then intC a ++ (if bneg then '-' else '+') :: tb
      else '(' :: ((intC a ++ (if bneg then '-' else '+') :: tb) ++ ')' :: '/' :: Nat.toDigits 10 c.natAbs)) :
    ∃ t, read s = some t ∧ t.val = ((a : ℂ) + (if bneg then -1 else 1) * e.val) / c := by
  have hcn : ((c.natAbs : Nat) : ℂ) = (c : ℂ) := by
    rw [← Int.cast_natCast, show ((c.natAbs : Nat) : Int) = c by omega]
  have han : 0 ≤ a → ((a.natAbs : Nat) : ℂ) = (a : ℂ) := fun h => by
    rw [← Int.cast_natCast, show ((a.natAbs : Nat) : Int) = a by omega]
  have han' : a < 0 → ((a.natAbs : Nat) : ℂ) = -(a : ℂ) := fun h => by
    rw [← Int.cast_natCast, show ((a.natAbs : Nat) : Int) = -a by omega]; push_cast; ring
  by_cases ha : a = 0
  · rw [if_pos ha] at hs
    subst ha
    by_cases h1 : c = 1
    · rw [if_pos h1, List.append_nil] at hs
      cases bneg
      · refine ⟨e, read_of_sum (by rw [hs]; exact h.prod.sum), by simp [h1]⟩
      · refine ⟨.neg e, read_of_sum (by rw [hs]; exact h.prod.negSum), by simp [h1, Expr.val]⟩
    · rw [if_neg h1] at hs
      cases bneg
      · refine ⟨_, read_of_sum (by rw [hs]; exact (h.over c.natAbs).sum), by simp [Expr.val, hcn]⟩
      · refine ⟨_, read_of_sum (by rw [hs]; exact (h.over c.natAbs).negSum), ?_⟩
        simp only [Expr.val, hcn, if_true]; push_cast; ring
  · rw [if_neg ha] at hs
    have key : ∃ t, Text.Sum (intC a ++ (if bneg then '-' else '+') :: tb) t ∧
        t.val = (a : ℂ) + (if bneg then -1 else 1) * e.val := by
      by_cases h0 : a < 0
      · have e1 : intC a = '-' :: Nat.toDigits 10 a.natAbs := by rw [intC, if_pos h0]
        rw [e1]
        cases bneg
        · exact ⟨_, (reads_num a.natAbs).prod.negAdd h.prod, by simp [Expr.val, han' h0]⟩
        · exact ⟨_, (reads_num a.natAbs).prod.negSub h.prod, by simp [Expr.val, han' h0]; ring⟩
      · rw [intC_nonneg (by omega)]
        cases bneg
        · exact ⟨_, (reads_num a.natAbs).prod.add h.prod, by simp [Expr.val, han (by omega)]⟩
        · exact ⟨_, (reads_num a.natAbs).prod.sub h.prod, by simp [Expr.val, han (by omega)]; ring⟩
    obtain ⟨t, k1, k2⟩ := key
    by_cases h1 : c = 1
    · rw [if_pos h1] at hs
      exact ⟨t, read_of_sum (by rw [hs]; exact k1), by rw [k2, h1]; simp⟩
    · rw [if_neg h1] at hs
      exact ⟨_, read_over k1 hs, by simp only [Expr.val, k2, hcn]⟩

/-- an integer or a fraction -/
private theorem read_rat {s : String} (a c : Int) (hc : 0 < c)
    (hs : s.toList = intC a ++ if c = 1 then [] else '/' :: Nat.toDigits 10 c.natAbs) :
    ∃ t, read s = some t ∧ t.val = (a : ℂ) / c := by
  have hcn : ((c.natAbs : Nat) : ℂ) = (c : ℂ) := by
    rw [← Int.cast_natCast, show ((c.natAbs : Nat) : Int) = c by omega]
  have hr : ∀ n : Nat, ∃ t, Text.Prod (Nat.toDigits 10 n ++ if c = 1 then [] else '/' :: Nat.toDigits 10 c.natAbs) t ∧
      t.val = (n : ℂ) / c := by
    intro n
    by_cases h1 : c = 1
    · rw [if_pos h1, List.append_nil]
      exact ⟨_, (reads_num n).prod, by simp [Expr.val, h1]⟩
    · rw [if_neg h1]
      exact ⟨_, (reads_num n).over c.natAbs, by simp only [Expr.val, hcn]⟩
  obtain ⟨t, h1, h2⟩ := hr a.natAbs
  by_cases h0 : a < 0
  · rw [intC, if_pos h0, List.cons_append] at hs
    refine ⟨_, read_of_sum (by rw [hs]; exact h1.negSum), ?_⟩
    rw [Expr.val, h2, ← Int.cast_natCast, show ((a.natAbs : Nat) : Int) = -a by omega]
    push_cast; ring
  · rw [intC, if_neg h0] at hs
    refine ⟨_, read_of_sum (by rw [hs]; exact h1.sum), ?_⟩
    rw [h2, ← Int.cast_natCast, show ((a.natAbs : Nat) : Int) = a by omega]

/-- the unsigned irrational term of the plain form -/
private def termP (n : Nat) (r : Int) : List Char :=
  (if n = 1 then [] else Nat.toDigits 10 n) ++ '√' :: intC r

private theorem termP_reads (n : Nat) (r : Int) : ∃ e, Reads (termP n r) e ∧ e.val = n * rootC r := by
  unfold termP
  by_cases h : n = 1
  · rw [if_pos h]; exact ⟨_, reads_root r, by simp [Expr.val, h]⟩
  · rw [if_neg h]; exact ⟨_, reads_num_root n r, by simp [Expr.val]⟩

/-- the unsigned irrational term of the alternate form -/
private def termI (n : Nat) (r : Int) : List Char :=
  (if n = 1 then [] else Nat.toDigits 10 n) ++ ((if r = 1 then [] else '√' :: intC r) ++ ['i'])

private theorem termI_reads (n : Nat) (r : Int) : ∃ e, Reads (termI n r) e ∧ e.val = n * (rootC r * Complex.I) := by
  have h1 : rootC 1 = 1 := by simp [rootC]
  unfold termI
  by_cases h : n = 1 <;> by_cases hr : r = 1
  · rw [if_pos h, if_pos hr]; exact ⟨_, reads_i, by simp [Expr.val, h, hr, h1]⟩
  · rw [if_pos h, if_neg hr]; exact ⟨_, reads_root_i r, by simp [Expr.val, h]⟩
  · rw [if_neg h, if_pos hr]; exact ⟨_, reads_num_i n, by simp [Expr.val, hr, h1]⟩
  · rw [if_neg h, if_neg hr]; exact ⟨_, reads_num_root_i n r, by simp [Expr.val]; ring⟩

private theorem sign_natAbs (b : Int) : (if decide (b < 0) = true then (-1 : ℂ) else 1) * ((b.natAbs : Nat) : ℂ) = b := by
  by_cases h : b < 0
  · rw [if_pos (by simpa using h), ← Int.cast_natCast, show ((b.natAbs : Nat) : Int) = -b by omega]; push_cast; ring
  · rw [if_neg (by simpa using h), ← Int.cast_natCast, show ((b.natAbs : Nat) : Int) = b by omega]; ring

private theorem plain_chars (a b c r : Int) (hb : b ≠ 0) (hc : 0 < c) : (displayPlain a b c r).toList =
      if a = 0 then (if decide (b < 0) = true then ['-'] else []) ++
        (termP b.natAbs r ++ if c = 1 then [] else '/' :: Nat.toDigits 10 c.natAbs)
      else if c = 1 then intC a ++ (if decide (b < 0) = true then '-' else '+') :: termP b.natAbs r
      else '(' :: ((intC a ++ (if decide (b < 0) = true then '-' else '+') :: termP b.natAbs r) ++
        ')' :: '/' :: Nat.toDigits 10 c.natAbs) := by
  have hC : intC c = Nat.toDigits 10 c.natAbs := intC_nonneg hc.le
  have hB : b < 0 → intC b = '-' :: Nat.toDigits 10 b.natAbs := fun h => by rw [intC, if_pos h]
  have hB' : ¬ b < 0 → intC b = Nat.toDigits 10 b.natAbs := fun h => by rw [intC, if_neg h]
  unfold displayPlain termP
  have hb0 : decide (b = 0) = false := by simpa using hb
  rw [hb0]
  by_cases ha : a = 0 <;> by_cases h1 : b = 1 <;> by_cases h2 : b = -1 <;> by_cases h3 : c = 1 <;> by_cases h4 : b < 0 <;>
    first
    | omega
    | (have hn : (b.natAbs = 1) = (b = 1 ∨ b = -1) := by rw [eq_iff_iff]; omega
       simp [hn, ha, h1, h2, h3, h4, String.toList_append, showInt_toList, hC, hB, hB'])

private theorem imag_chars (a b c r : Int) (hb : b ≠ 0) (hc : 0 < c) : (displayImag a b c r).toList =
      if a = 0 then (if decide (b < 0) = true then ['-'] else []) ++
        (termI b.natAbs r ++ if c = 1 then [] else '/' :: Nat.toDigits 10 c.natAbs)
      else if c = 1 then intC a ++ (if decide (b < 0) = true then '-' else '+') :: termI b.natAbs r
      else '(' :: ((intC a ++ (if decide (b < 0) = true then '-' else '+') :: termI b.natAbs r) ++
        ')' :: '/' :: Nat.toDigits 10 c.natAbs) := by
  have hC : intC c = Nat.toDigits 10 c.natAbs := intC_nonneg hc.le
  have hB : b < 0 → intC b = '-' :: Nat.toDigits 10 b.natAbs := fun h => by rw [intC, if_pos h]
  have hB' : ¬ b < 0 → intC b = Nat.toDigits 10 b.natAbs := fun h => by rw [intC, if_neg h]
  unfold displayImag termI
  have hb0 : decide (b = 0) = false := by simpa using hb
  rw [hb0]
  by_cases ha : a = 0 <;> by_cases h1 : b = 1 <;> by_cases h2 : b = -1 <;> by_cases h3 : c = 1 <;>
    by_cases h4 : b < 0 <;> by_cases h5 : r = 1 <;>
    first
    | omega
    | (have hn : (b.natAbs = 1) = (b = 1 ∨ b = -1) := by rw [eq_iff_iff]; omega
       simp [hn, ha, h1, h2, h3, h4, h5, String.toList_append, showInt_toList, hC, hB, hB'])

private theorem rat_chars (alternate : Bool) (a c r : Int) (hc : 0 < c) (h0 : a = 0 → c = 1) :
    (display alternate ⟨a, 0, c, r⟩).toList = intC a ++ if c = 1 then [] else '/' :: Nat.toDigits 10 c.natAbs := by
  have hC : intC c = Nat.toDigits 10 c.natAbs := intC_nonneg hc.le
  have h00 : intC 0 = ['0'] := by decide
  unfold display displayImag displayPlain
  by_cases ha : a = 0
  · simp [ha, h0 ha, h00]
  · by_cases h3 : c = 1
    · simp [ha, h3, showInt_toList]
    · simp [ha, h3, showInt_toList, hC]

/-- The text printed for a surd in normal form, plain or alternate, reads as an expression denoting the surd. -/
theorem surd_display_reads (alternate : Bool) (s : Surd) (h : s.Normal) :
    ∃ e, Text.read (s.display alternate) = some e ∧ e.val = s.valC := by
  obtain ⟨a, b, c, r⟩ := s
  have hc : 0 < c := h.c_pos
  by_cases hb : b = 0
  · subst hb
    have h0 : a = 0 → c = 1 := by
      intro ha
      have := h.coprime c (by simp [ha]) (by simp) (by simp)
      rcases Int.isUnit_iff.1 this with h1 | h1 <;> omega
    obtain ⟨t, h1, h2⟩ := read_rat a c hc (rat_chars alternate a c r hc h0)
    exact ⟨t, h1, by rw [h2, valC, quadC]; simp⟩
  · unfold display
    by_cases hi : alternate = true ∧ r < 0
    · rw [if_pos hi]
      obtain ⟨e, h1, h2⟩ := termI_reads b.natAbs (-r)
      obtain ⟨t, h3, h4⟩ := read_layout h1 a c (decide (b < 0)) hc (imag_chars a b c (-r) hb hc)
      refine ⟨t, h3, ?_⟩
      rw [h4, h2, ← mul_assoc, sign_natAbs, valC, quadC]
      have : rootC (-r) * Complex.I = rootC r := by
        rw [rootC, rootC, if_pos (by omega), if_neg (by omega)]
        push_cast; ring
      rw [this]
    · rw [if_neg hi]
      obtain ⟨e, h1, h2⟩ := termP_reads b.natAbs r
      obtain ⟨t, h3, h4⟩ := read_layout h1 a c (decide (b < 0)) hc (plain_chars a b c r hb hc)
      refine ⟨t, h3, ?_⟩
      rw [h4, h2, ← mul_assoc, sign_natAbs, valC, quadC]

example : Surd.Normal ⟨-3, -2, 4, -5⟩ ∧ display true ⟨-3, -2, 4, -5⟩ = "(-3-2√5i)/4" ∧
    display false ⟨-3, -2, 4, -5⟩ = "(-3-2√-5)/4" := by
  refine ⟨⟨by norm_num, ?_, by norm_num, ?_⟩, by decide +kernel, by decide +kernel⟩
  · intro d h1 h2 h3
    have : d ∣ 1 := by
      have := Int.dvd_sub (Int.dvd_neg.1 h1) (Int.dvd_neg.1 h2)
      simpa using this
    exact isUnit_of_dvd_one this
  · rintro - ⟨x, hx⟩
    nlinarith [mul_self_nonneg x]

/-- Surds that print the same, in whichever form, are the same number. -/
theorem surd_display_inj (alt alt' : Bool) (x y : Surd) (hx : x.Normal) (hy : y.Normal)
    (h : x.display alt = y.display alt') : x.valC = y.valC := by
  obtain ⟨e, h1, h2⟩ := surd_display_reads alt x hx
  obtain ⟨f, h3, h4⟩ := surd_display_reads alt' y hy
  rw [h, h3] at h1
  rw [← h2, ← h4, Option.some.inj h1]

end Surd
end NumIrr
