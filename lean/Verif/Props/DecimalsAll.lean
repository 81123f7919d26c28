/-
C44: what `decimals` emits for every positive number, also from ten on.
-/
import Verif.Props.Decimals

namespace NumIrr

open Block

namespace GIter

/-- The character of the `n`-th call for a number `x`: the first one stands for the whole integer part, as the byte
`'0' + ⌊x⌋`; the others are the digits after the point. -/
noncomputable def decByte (x : ℝ) (n : ℕ) : ℤ := if n = 0 then (48 + ⌊x⌋) % 256 else 48 + ⌊10 ^ n * x⌋ % 10

/-- digits after the first one do not depend on the size of the number -/
private theorem decTail_floor_succ (x : ℝ) (n : ℕ) : ⌊decTail x (n + 1)⌋ = ⌊10 ^ (n + 1) * x⌋ % 10 := by
  have e : ⌊decTail x (n + 1)⌋ = ⌊10 ^ (n + 1) * x⌋ - 10 * ⌊10 ^ n * x⌋ := by
    rw [decTail_eq]
    have := Int.floor_sub_intCast (10 ^ (n + 1) * x) (10 * ⌊10 ^ n * x⌋)
    push_cast at this
    exact this
  have h1 : 0 ≤ decTail x (n + 1) := by
    rw [decTail]; have := Int.floor_le (decTail x n); linarith
  have h2 : decTail x (n + 1) < 10 := by
    rw [decTail]; have := Int.lt_floor_add_one (decTail x n); linarith
  have b0 : 0 ≤ ⌊decTail x (n + 1)⌋ := Int.floor_nonneg.mpr h1
  have b1 : ⌊decTail x (n + 1)⌋ < 10 := by rw [Int.floor_lt]; exact_mod_cast h2
  omega

/-- the conversion to a character, inverted -/
private theorem digitChar_inv {cfg : Cfg} {i : ℤ} {ch : ℕ} (h : digitChar cfg i = .ok ch) :
    0 ≤ i ∧ i ≤ 255 ∧ (cfg.debug = true → i ≤ 207) ∧ (ch : ℤ) = (48 + i) % 256 := by
  unfold digitChar at h
  split at h
  · cases h
  · split at h
    · cases h; omega
    · split at h
      · cases h
      · rename_i h1 h2 h3
        cases h
        refine ⟨by omega, by omega, fun h => absurd h h3, ?_⟩
        omega

/-- **C44** for every positive number: each character is the one of `decByte`, so that all but the first are the right
digits; and a character has been emitted only if the integer part is at most 255, with overflow checks at most 207. -/
theorem decimals_all (cfg : Cfg) (ty : IntTy) (hov : cfg.debug = true ∨ ∀ n, ty.fits n = true) (g : ℕ → ℤ × ℤ)
    (hp : PosG g) (x : ℝ) (hx : GVal g x) {outs : List ℕ} {s : GIter}
    (h : Outs (DecCall cfg ty) (GIter.new fun k => some (g k)) outs s) :
    (∀ (n : ℕ) (hn : n < outs.length), (outs[n] : ℤ) = decByte x n) ∧
      (outs ≠ [] → x < 256 ∧ (cfg.debug = true → x < 208)) := by
  have hch := (hx.cto hp.1).chain hp.posT
  suffices H : (s.src = (fun k => some (g k)) ∧ DecAt x outs.length (gw g x s.pos) s.block) ∧
      (∀ n (hn : n < outs.length), (outs[n] : ℤ) = decByte x n) ∧
      (outs ≠ [] → x < 256 ∧ (cfg.debug = true → x < 208)) from H.2
  generalize hs0 : GIter.new (fun k => some (g k)) = s0 at h
  induction h with
  | nil =>
    subst hs0
    refine ⟨⟨rfl, identity_nonneg, ?_⟩, fun n hn => by simp at hn, fun h => absurd rfl h⟩
    simp [GIter.new, Block.identity, Block.num, Block.den, decTail, gw]
  | @snoc s2 s3 l ch _ hcall ih =>
    obtain ⟨hinv, hl, hne⟩ := ih
    obtain ⟨fuel, hcall⟩ := hcall
    replace hcall := hcall fuel le_rfl
    obtain ⟨s0, i, r1, r2, ⟨h1, h3⟩, h4, h5, rfl⟩ := GIter.decNext_inv hov
      (I := fun s => s.src = (fun k => some (g k)) ∧ DecAt x l.length (gw g x s.pos) s.block)
      (fun s a b p q m' hs hv hm => dec_move hp hx s a b p q m' hs hv hm) fuel s2 s3 ch hinv hcall
    obtain ⟨hi, hr⟩ := h3.out (hch s0.pos).1 h4
    obtain ⟨d0, d1, d2, d3⟩ := digitChar_inv h5
    refine ⟨⟨h1, by rw [List.length_append]; exact hr⟩, fun n hn => ?_, fun _ => ?_⟩
    · rw [List.length_append, List.length_singleton] at hn
      rcases Nat.lt_succ_iff_lt_or_eq.mp hn with hn | rfl
      · rw [List.getElem_append_left hn]; exact hl n hn
      · rw [List.getElem_append_right le_rfl]
        simp only [Nat.sub_self, List.getElem_cons_zero]
        rw [d3, hi]
        unfold decByte
        generalize l.length = m
        cases m with
        | zero => simp [decTail]
        | succ m =>
          rw [decTail_floor_succ, if_neg (by omega)]
          have := Int.emod_nonneg ⌊10 ^ (m + 1) * x⌋ (show (10 : ℤ) ≠ 0 by norm_num)
          have := Int.emod_lt_of_pos ⌊10 ^ (m + 1) * x⌋ (show (0 : ℤ) < 10 by norm_num)
          omega
    · by_cases hl0 : l = []
      · subst hl0
        simp only [List.length_nil, decTail] at hi
        constructor
        · have := Int.floor_le_iff.mp (show ⌊x⌋ ≤ 255 by omega); push_cast at this; linarith
        · intro hd
          have := Int.floor_le_iff.mp (show ⌊x⌋ ≤ 207 by have := d2 hd; omega); push_cast at this; linarith
      · exact hne hl0

/-- **C44**, productivity for every irrational number for which the first character exists: the characters of `decByte`
never end. -/
theorem decimals_all_productive (cfg : Cfg) (ty : IntTy) (hf : ∀ n, ty.fits n = true) (g : ℕ → ℤ × ℤ)
    (hp : PosG g) (x : ℝ) (hx : GVal g x) (h256 : x < 256) (h208 : cfg.debug = true → x < 208) (hirr : Irrational x)
    (n : ℕ) :
    ∃ s, Outs (DecCall cfg ty) (GIter.new fun k => some (g k)) ((List.range n).map fun k => (decByte x k).toNat) s := by
  have hcto := hx.cto hp.1
  have hch := hcto.chain hp.posT
  have hx0 : 0 ≤ x := (hch 0).1.le
  suffices H : ∃ s, Outs (DecCall cfg ty) (GIter.new fun k => some (g k))
      ((List.range n).map fun k => (decByte x k).toNat) s ∧
      s.src = (fun k => some (g k)) ∧ DecAt x n (gw g x s.pos) s.block from ⟨_, H.choose_spec.1⟩
  induction n with
  | zero =>
    refine ⟨_, Outs.nil _, rfl, identity_nonneg, ?_⟩
    simp [GIter.new, Block.identity, Block.num, Block.den, decTail, gw]
  | succ n ih =>
    obtain ⟨s, hs, h1, h2⟩ := ih
    obtain ⟨j, hj⟩ := eventually_check (g := dropG g s.pos) (w := gw g x s.pos) (hp.posT.drop _)
      (hcto.drop hp.posT s.pos) (ms := s.dblk (dropG g s.pos) ty.fits) (fun j => GIter.dblk_scal hf j) h2.1 h2.2.1
      (by
        show Irrational (s.block.num (gw g x s.pos) / s.block.den (gw g x s.pos))
        rw [h2.2.2, mul_div_assoc, div_self h2.2.1.ne', mul_one]
        exact decTail_irrational hirr n)
    obtain ⟨fuel, j', i, r1, r2, h3, hcall⟩ := GIter.decNext_returns (cfg := cfg) hf (s := s) (g := dropG g s.pos)
      (fun j => by rw [h1]; rfl) j hj
    have hI : ∀ j, DecAt x n (gw g x (s.pos + j)) (s.dblk (dropG g s.pos) ty.fits j) := by
      intro j
      induction j with
      | zero => exact h2
      | succ j ih =>
        refine ih.move ?_ ?_ (hch _).1 ?_ (GIter.dblk_scal hf j)
        · exact hp.posT.1 _
        · have := (hp.posT.drop (s.pos + j)).2.1; simpa [dropG] using this
        · exact (hch (s.pos + j)).2
    obtain ⟨hi, hr⟩ := (hI j').out (hch _).1 h3
    have hd : digitChar cfg i = .ok (decByte x n).toNat := by
      unfold decByte
      cases n with
      | zero =>
        simp only [decTail] at hi
        have b0 : 0 ≤ i := by rw [hi]; exact Int.floor_nonneg.mpr hx0
        have b1 : i < 256 := by rw [hi, Int.floor_lt]; exact_mod_cast h256
        have b2 : cfg.debug = true → i < 208 := fun h => by rw [hi, Int.floor_lt]; exact_mod_cast h208 h
        rw [if_pos rfl, ← hi]
        unfold digitChar
        rw [if_neg (by omega)]
        split
        · congr 2; omega
        · rw [if_neg (fun h => by have := b2 h; omega)]
          congr 2; omega
      | succ n =>
        rw [decTail_floor_succ] at hi
        rw [if_neg (by omega), ← hi]
        have i0 : 0 ≤ i := by rw [hi]; exact Int.emod_nonneg _ (by norm_num)
        have i1 : i < 10 := by rw [hi]; exact Int.emod_lt_of_pos _ (by norm_num)
        rw [digitChar_digit cfg i0 i1]
        congr 2; omega
    rw [hd] at hcall
    refine ⟨⟨(s.dblk (dropG g s.pos) ty.fits j').afterMul r1 r2, s.src, s.pos + j'⟩, ?_, h1, hr⟩
    rw [List.range_succ, List.map_append, List.map_singleton]
    exact Outs.snoc hs ⟨fuel, fun f hf' => GIter.decNext_mono hcall hf'⟩

/-- **C44** the first call panics for all other irrational numbers: from 256 on always, from 208 on with overflow
checks. -/
theorem decimals_all_panics (cfg : Cfg) (ty : IntTy) (hf : ∀ n, ty.fits n = true) (g : ℕ → ℤ × ℤ)
    (hp : PosG g) (x : ℝ) (hx : GVal g x) (hirr : Irrational x) (h : 256 ≤ x ∨ cfg.debug = true ∧ 208 ≤ x) :
    ∃ N, ∀ fuel, N ≤ fuel → GIter.decNext cfg ty fuel (GIter.new fun k => some (g k)) =
      some (.error (if 256 ≤ x then .unwrapNone else .overflow)) := by
  have hcto := hx.cto hp.1
  have hch := hcto.chain hp.posT
  have hx0 : 0 ≤ x := (hch 0).1.le
  have h2 : DecAt x 0 (gw g x 0) (GIter.new fun k => some (g k)).block := by
    refine ⟨identity_nonneg, ?_⟩
    simp [GIter.new, Block.identity, Block.num, Block.den, decTail, gw]
  obtain ⟨j, hj⟩ := eventually_check (g := dropG g 0) (w := gw g x 0) (hp.posT.drop _)
    (hcto.drop hp.posT 0) (ms := (GIter.new fun k => some (g k)).dblk (dropG g 0) ty.fits)
    (fun j => GIter.dblk_scal hf j) h2.1 h2.2.1
    (by
      show Irrational ((GIter.new fun k => some (g k)).block.num (gw g x 0) / (GIter.new fun k => some (g k)).block.den (gw g x 0))
      rw [h2.2.2, mul_div_assoc, div_self h2.2.1.ne', mul_one]
      exact decTail_irrational hirr 0)
  obtain ⟨fuel, j', i, r1, r2, h3, hcall⟩ := GIter.decNext_returns (cfg := cfg) hf
    (s := GIter.new fun k => some (g k)) (g := dropG g 0) (fun j => rfl) j hj
  have hI : ∀ j, DecAt x 0 (gw g x (0 + j)) ((GIter.new fun k => some (g k)).dblk (dropG g 0) ty.fits j) := by
    intro j
    induction j with
    | zero => exact h2
    | succ j ih =>
      refine ih.move ?_ ?_ (hch _).1 ?_ (GIter.dblk_scal hf j)
      · exact hp.posT.1 _
      · have := (hp.posT.drop (0 + j)).2.1; simpa [dropG] using this
      · exact (hch (0 + j)).2
  obtain ⟨hi, -⟩ := (hI j').out (hch _).1 h3
  simp only [decTail] at hi
  have hd : digitChar cfg i = .error (if 256 ≤ x then .unwrapNone else .overflow) := by
    unfold digitChar
    by_cases h256 : 256 ≤ x
    · have : 256 ≤ i := by rw [hi]; exact Int.le_floor.mpr (by exact_mod_cast h256)
      rw [if_pos (by omega), if_pos h256]
    · obtain ⟨h3, h4⟩ := h.resolve_left h256
      have b1 : i < 256 := by rw [hi, Int.floor_lt]; exact_mod_cast not_le.mp h256
      have b2 : 208 ≤ i := by rw [hi]; exact Int.le_floor.mpr (by exact_mod_cast h4)
      rw [if_neg (by omega), if_neg (by omega), if_pos h3, if_neg h256]
  rw [hd] at hcall
  exact ⟨fuel, fun f hf' => GIter.decNext_mono hcall hf'⟩

/-- `212 + 1/(1 + 1/(1 + …)) = 212.618…`: a panic with overflow checks, the byte 4 without -/
example : PosG (fun k => (1, if k = 0 then 212 else 1)) ∧
    decRun ⟨false, true⟩ IntTy.big 20 4 (GIter.new fun k => some (1, if k = 0 then 212 else 1)) = ([], some .overflow) ∧
    decRun ⟨false, false⟩ IntTy.big 20 4 (GIter.new fun k => some (1, if k = 0 then 212 else 1)) = ([4, 54, 49, 56], none) :=
  ⟨⟨rfl, by simp, fun k => by simp⟩, by decide +kernel, by decide +kernel⟩

/-- **C44** exactly: the first character is the right digit iff the number is below ten. -/
theorem decimals_first_iff (x : ℝ) (h0 : 0 < x) (h256 : x < 256) : decByte x 0 = 48 + ⌊x⌋ % 10 ↔ x < 10 := by
  have b0 : 0 ≤ ⌊x⌋ := Int.floor_nonneg.mpr h0.le
  have b1 : ⌊x⌋ < 256 := by rw [Int.floor_lt]; exact_mod_cast h256
  have b2 : x < 10 ↔ ⌊x⌋ < 10 := by rw [Int.floor_lt]; norm_num
  rw [b2]
  unfold decByte
  rw [if_pos rfl]
  constructor
  · intro h; by_contra hc; omega
  · intro h; omega

example : decByte 12.5 0 = 60 := by
  have : ⌊(12.5 : ℝ)⌋ = 12 := by rw [Int.floor_eq_iff]; norm_num
  unfold decByte; rw [if_pos rfl, this]; norm_num

end GIter
end NumIrr
