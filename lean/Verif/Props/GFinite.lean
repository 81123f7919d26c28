/-
C114: `simplify` and `decimals` of finite generalized continued fractions, general.rs:95-131.

Both iterators end when their source ends.  What they give are the coefficients, or the digits, common to the last two
convergents of the source.
-/
import Verif.Lemmas.GFinite
import Verif.Props.HomoFinite

namespace NumIrr

open Block

/-- a source of the first `n` pairs -/
def takeSrc (g : ℕ → ℤ × ℤ) (n : ℕ) : ℕ → Option (ℤ × ℤ) := fun k => if k < n then some (g k) else none

/-- the convergent before the `n`-th; the one before the first is infinity -/
def nestBefore (g : ℕ → ℤ × ℤ) : ℕ → Option ℚ
  | 0 => none
  | n + 1 => nest g n

theorem PosG.ge {g : ℕ → ℤ × ℤ} (h : PosG g) : GeG g := fun k => by
  refine ⟨h.posT.1 k, ?_⟩
  cases k with
  | zero => exact h.2.1
  | succ k => have := (h.2.2 k).2; omega

theorem PosG.pair {g : ℕ → ℤ × ℤ} (h : PosG g) (n : ℕ) : nest g n = pairVal (gP g (n + 1), gQ g (n + 1)) := by
  obtain ⟨v, hv, -⟩ := h.posT.nest_some n
  obtain ⟨h1, h2⟩ := nest_eq h.1 hv
  rw [hv, h2]
  simp [pairVal, h1]

theorem PosG.pairBefore {g : ℕ → ℤ × ℤ} (h : PosG g) (n : ℕ) : nestBefore g n = pairVal (gP g n, gQ g n) := by
  cases n with
  | zero => simp [nestBefore, pairVal]
  | succ n => exact h.pair n

theorem gP_gQ_nonneg {g : ℕ → ℤ × ℤ} (h : PosG g) (n : ℕ) : 0 ≤ gP g n ∧ 0 ≤ gQ g n := by
  cases n with
  | zero => simp
  | succ n => have := h.posT.gQ_pos n; exact ⟨this.2, by omega⟩

theorem takeSrc_rest (g : ℕ → ℤ × ℤ) (n : ℕ) : GIter.Rest (GIter.new (takeSrc g n)) g n := fun k => by
  show takeSrc g n (0 + k) = _
  rw [Nat.zero_add]; rfl

/-- `simplify` of a positive fraction with the `n + 1` pairs `(a₀, b₀), …, (aₙ, bₙ)`: the common beginning of the
expansions of its last two convergents, and then `None` for ever -/
theorem simplify_finite {g : ℕ → ℤ × ℤ} (hp : PosG g) (n : ℕ) {e1 e2 : List ℤ} (h1 : IsExp e1 (nest g n))
    (h2 : IsExp e2 (nestBefore g n)) :
    ∃ s s' N, Outs GIter.SimpCall (GIter.new (takeSrc g (n + 1))) (commonPrefix e1 e2) s ∧
      (∀ fuel, N ≤ fuel → GIter.simpNext fuel s = some (none, s')) ∧
      ∃ Ended : GIter → Prop, Ended s' ∧
        ∀ t, Ended t → ∃ t', Ended t' ∧ ∀ fuel, 1 ≤ fuel → GIter.simpNext fuel t = some (none, t') := by
  have hn : Nonneg (GIter.new (takeSrc g (n + 1))).block := identity_nonneg
  obtain ⟨p1, q1⟩ := gP_gQ_nonneg hp (n + 1)
  obtain ⟨p2, q2⟩ := gP_gQ_nonneg hp n
  rw [hp.pair] at h1
  rw [hp.pairBefore] at h2
  have hc : (rawN Block.identity g (n + 1)).common = commonPrefix e1 e2 := by
    unfold Block.common
    rw [isExp_euc (gQ g (n + 1)).toNat (gP g (n + 1)).toNat e1
      (by rw [Int.toNat_of_nonneg p1, Int.toNat_of_nonneg q1]; exact h1),
      isExp_euc (gQ g n).toNat (gP g n).toNat e2 (by rw [Int.toNat_of_nonneg p2, Int.toNat_of_nonneg q2]; exact h2)]
    rfl
  obtain ⟨s, s', N, g', o1, o2, o3, o4⟩ := GIter.simp_common (commonPrefix e1 e2) hp.ge (takeSrc_rest g (n + 1)) hn
    (Scal.refl _) (rawN_nonneg hp.ge _ identity_nonneg) hc
  refine ⟨s, s', N, o1, o2, fun t => GIter.Rest t g' 0 ∧ t.block.checkInteger = none, ⟨o3, o4⟩, ?_⟩
  rintro t ⟨t1, t2⟩
  have h0 : t.src t.pos = none := by simpa using t1 0
  refine ⟨{ t with pos := t.pos + 1 }, ⟨t1.ended _, t2⟩, fun fuel hf => ?_⟩
  obtain ⟨f, rfl⟩ : ∃ f, fuel = f + 1 := ⟨fuel - 1, by omega⟩
  rw [GIter.simpNext, reduceRecip_of_none t2]
  simp only [h0]

/-- 1 + 3/(2 + 5/4) -/
def smallG : ℕ → ℤ × ℤ := fun k => if k = 0 then (1, 1) else if k = 1 then (3, 2) else (5, 4)

theorem smallG_pos : PosG smallG := ⟨rfl, by decide, fun k => by cases k <;> simp [smallG]⟩

-- the value is 25/13 = [1; 1, 12], the convergent before it 5/2 = [2; 2]: nothing is given
example : PosG smallG ∧ IsExp [1, 1, 12] (nest smallG 2) ∧ IsExp [2, 2] (nestBefore smallG 2) := by
  refine ⟨smallG_pos, ⟨?_, by simp, by simp⟩, ⟨?_, by simp, by simp⟩⟩
  · norm_num [cfVal, nest, shiftG, smallG]
  · norm_num [cfVal, nestBefore, nest, shiftG, smallG]

/-- what is given is a beginning of the expansion of the value, the whole of it exactly if that is also a beginning of
the expansion of the previous convergent -/
theorem simplify_finite_prefix {g : ℕ → ℤ × ℤ} (hp : PosG g) (n : ℕ) {e1 e2 : List ℤ} (h1 : IsExp e1 (nest g n))
    (h2 : IsExp e2 (nestBefore g n)) :
    ∃ r s s' N, Outs GIter.SimpCall (GIter.new (takeSrc g (n + 1))) r s ∧
      (∀ fuel, N ≤ fuel → GIter.simpNext fuel s = some (none, s')) ∧ r <+: e1 ∧ (r = e1 ↔ e1 <+: e2) := by
  obtain ⟨s, s', N, o1, o2, -⟩ := simplify_finite hp n h1 h2
  exact ⟨_, s, s', N, o1, o2, commonPrefix_left _ _, commonPrefix_eq_left _ _⟩

/-- not: `simplify` of a finite fraction gives the expansion of its value -/
theorem simplify_finite_refuted : ¬ ∀ (g : ℕ → ℤ × ℤ) (n : ℕ) (e : List ℤ), PosG g → IsExp e (nest g n) →
    ∃ s, Outs GIter.SimpCall (GIter.new (takeSrc g (n + 1))) e s := by
  intro h
  obtain ⟨s, hs⟩ := h smallG 2 [1, 1, 12] smallG_pos ⟨by norm_num [cfVal, nest, shiftG, smallG], by simp, by simp⟩
  obtain ⟨s1, N, hN⟩ := Outs.first hs
  obtain ⟨t, t', M, o1, o2, -⟩ := simplify_finite smallG_pos 2 (e1 := [1, 1, 12]) (e2 := [2, 2])
    ⟨by norm_num [cfVal, nest, shiftG, smallG], by simp, by simp⟩
    ⟨by norm_num [cfVal, nestBefore, nest, shiftG, smallG], by simp, by simp⟩
  have e : commonPrefix [1, 1, 12] [2, 2] = [] := by decide
  rw [e] at o1
  rcases o1.first_or with ⟨-, rfl⟩ | ⟨a, s', h, -⟩
  · have g1 := hN (N + M) (by omega)
    rw [o2 (N + M) (by omega)] at g1
    cases g1
  · cases h

/-! ### `decimals` -/

theorem floor_decTail (x : ℝ) (n : ℕ) : ⌊decTail x (n + 1)⌋ = ⌊10 ^ (n + 1) * x⌋ - 10 * ⌊10 ^ n * x⌋ := by
  rw [decTail_eq]
  have := Int.floor_sub_intCast (10 ^ (n + 1) * x) (10 * ⌊10 ^ n * x⌋)
  push_cast at this
  exact this

theorem agree_iff {x y : ℝ} (K : ℕ) : (∀ j < K, ⌊decTail x j⌋ = ⌊decTail y j⌋) ↔ ∀ j < K, ⌊10 ^ j * x⌋ = ⌊10 ^ j * y⌋ := by
  induction K with
  | zero => simp
  | succ K ih =>
    constructor
    · intro h j hj
      have h' := ih.mp fun j hj => h j (by omega)
      rcases Nat.lt_succ_iff_lt_or_eq.mp hj with hj | rfl
      · exact h' j hj
      · cases j with
        | zero => simpa [decTail] using h 0 (by omega)
        | succ j =>
          have e1 := h (j + 1) (by omega)
          rw [floor_decTail, floor_decTail, h' j (by omega)] at e1
          omega
    · intro h j hj
      cases j with
      | zero => simpa [decTail] using h 0 (by omega)
      | succ j => rw [floor_decTail, floor_decTail, h j (by omega), h (j + 1) hj]

theorem exists_disagree {x y : ℝ} (h : x ≠ y) : ∃ K, ⌊10 ^ K * x⌋ ≠ ⌊10 ^ K * y⌋ := by
  obtain ⟨K, hK⟩ := pow_unbounded_of_one_lt (1 / |x - y|) (by norm_num : (1 : ℝ) < 10)
  refine ⟨K, fun e => ?_⟩
  have h0 : 0 < |x - y| := abs_pos.mpr (sub_ne_zero.mpr h)
  have h1 : |10 ^ K * x - 10 ^ K * y| < 1 := Int.abs_sub_lt_one_of_floor_eq_floor e
  rw [← mul_sub, abs_mul, abs_of_pos (by positivity)] at h1
  rw [div_lt_iff₀ h0] at hK
  linarith

theorem gdet_ne {g : ℕ → ℤ × ℤ} (hp : PosT g) (n : ℕ) : gP g (n + 1) * gQ g n - gP g n * gQ g (n + 1) ≠ 0 := by
  induction n with
  | zero => have := hp.1 0; simp only [gP_zero, gQ_zero, gQ_one, zero_add]; omega
  | succ n ih =>
    rw [gP_rec, gQ_rec]
    have ha := hp.1 (n + 1)
    have : (gP g (n + 1) * (g (n + 1)).2 + gP g n * (g (n + 1)).1) * gQ g (n + 1) -
        gP g (n + 1) * (gQ g (n + 1) * (g (n + 1)).2 + gQ g n * (g (n + 1)).1)
        = -((g (n + 1)).1 * (gP g (n + 1) * gQ g n - gP g n * gQ g (n + 1))) := by ring
    rw [this]
    exact neg_ne_zero.mpr (mul_ne_zero (by omega) ih)

/-- `decimals` of a positive fraction with `n + 2` pairs and a value `x` below ten, on integers of any size: exactly
the digits before the first position at which `x` and the previous convergent `y` differ, and then `None` for ever -/
theorem decimals_finite (cfg : Cfg) {ty : IntTy} (hf : ∀ n, ty.fits n = true) {g : ℕ → ℤ × ℤ} (hp : PosG g) (n : ℕ) {x y : ℚ}
    (hx : nest g (n + 1) = some x) (hy : nest g n = some y) (h10 : x < 10) :
    ∃ K, (∀ j < K, ⌊10 ^ j * (x : ℝ)⌋ = ⌊10 ^ j * (y : ℝ)⌋) ∧ ⌊10 ^ K * (x : ℝ)⌋ ≠ ⌊10 ^ K * (y : ℝ)⌋ ∧
    ∃ s s' N, Outs (GIter.DecCall cfg ty) (GIter.new (takeSrc g (n + 2)))
        ((List.range K).map fun j => (48 + ⌊10 ^ j * (x : ℝ)⌋ % 10).toNat) s ∧
      (∀ fuel, N ≤ fuel → GIter.decNext cfg ty fuel s = some (.ok (none, s'))) ∧
      ∃ Ended : GIter → Prop, Ended s' ∧
        ∀ t, Ended t → ∃ t', Ended t' ∧ ∀ fuel, 1 ≤ fuel → GIter.decNext cfg ty fuel t = some (.ok (none, t')) := by
  obtain ⟨x1, x2⟩ := nest_eq hp.1 hx
  obtain ⟨y1, y2⟩ := nest_eq hp.1 hy
  have qx := hp.posT.gQ_pos (n + 1)
  have qy := hp.posT.gQ_pos n
  have qx' : (0 : ℚ) < gQ g (n + 2) := by have := qx.1; exact_mod_cast this
  have qy' : (0 : ℚ) < gQ g (n + 1) := by have := qy.1; exact_mod_cast this
  have hx0 : (0 : ℝ) ≤ x := by
    have : (0 : ℚ) ≤ x := by
      rw [x2]
      have : (0 : ℚ) ≤ gP g (n + 2) := by have := qx.2; exact_mod_cast this
      positivity
    exact_mod_cast this
  have hx10 : (x : ℝ) < 10 := by exact_mod_cast h10
  have hne : (x : ℝ) ≠ y := by
    have : x ≠ y := by
      intro e
      rw [x2, y2, div_eq_div_iff qx'.ne' qy'.ne'] at e
      apply gdet_ne hp.posT (n + 1)
      have e' : gP g (n + 2) * gQ g (n + 1) = gP g (n + 1) * gQ g (n + 2) := by exact_mod_cast e
      show gP g (n + 2) * gQ g (n + 1) - gP g (n + 1) * gQ g (n + 2) = 0
      omega
    exact_mod_cast this
  classical
  have hex := exists_disagree hne
  set K := Nat.find hex with hK
  have k1 : ∀ j < K, ⌊10 ^ j * (x : ℝ)⌋ = ⌊10 ^ j * (y : ℝ)⌋ := fun j hj => by
    by_contra hc
    exact Nat.find_min hex hj hc
  have k2 := Nat.find_spec hex
  refine ⟨K, k1, k2, ?_⟩
  have d1 := (agree_iff K).mpr k1
  have d2 : ⌊decTail (x : ℝ) K⌋ ≠ ⌊decTail (y : ℝ) K⌋ := fun e => by
    refine k2 ((agree_iff (K + 1)).mp (fun j hj => ?_) K (Nat.lt_succ_self K))
    rcases Nat.lt_succ_iff_lt_or_eq.mp hj with hj | rfl
    · exact d1 j hj
    · exact e
  have hcols : GIter.Cols (rawN Block.identity g (n + 2)) x y 0 := by
    refine ⟨rawN_nonneg hp.ge _ identity_nonneg, ?_, ?_, ?_, ?_⟩
    · have := qx.1; exact this
    · have := qy.1; exact this
    · show ((gP g (n + 2) : ℤ) : ℝ) = x * ((gQ g (n + 2) : ℤ) : ℝ)
      have : (gP g (n + 2) : ℚ) = x * gQ g (n + 2) := by rw [x2]; field_simp
      exact_mod_cast this
    · show ((gP g (n + 1) : ℤ) : ℝ) = y * ((gQ g (n + 1) : ℤ) : ℝ)
      have : (gP g (n + 1) : ℚ) = y * gQ g (n + 1) := by rw [y2]; field_simp
      exact_mod_cast this
  obtain ⟨s, s', N, g', o1, o2, o3, o4⟩ := GIter.dec_common (cfg := cfg) hf hx0 hx10 K (k := 0) hp.ge
    (takeSrc_rest g (n + 2)) identity_nonneg (Scal.refl _) hcols (fun j _ hj => d1 j (by omega)) (by rw [Nat.zero_add]; exact d2)
  refine ⟨s, s', N, ?_, o2, fun t => GIter.Rest t g' 0 ∧ t.block.checkInteger = none, ⟨o3, o4⟩, ?_⟩
  · rw [List.map_congr_left (g := fun j => (48 + ⌊decTail (x : ℝ) (0 + j)⌋).toNat)]
    · exact o1
    · intro j _
      rw [Nat.zero_add, decTail_floor hx0 hx10]
  · rintro t ⟨t1, t2⟩
    have h0 : t.src t.pos = none := by simpa using t1 0
    refine ⟨{ t with pos := t.pos + 1 }, ⟨t1.ended _, t2⟩, fun fuel hf => ?_⟩
    obtain ⟨f, rfl⟩ : ∃ f, fuel = f + 1 := ⟨fuel - 1, by omega⟩
    rw [GIter.decNext, reduceMulTy_of_none t2]
    simp only [h0]

example : PosG smallG ∧ nest smallG 2 = some (25 / 13) ∧ nest smallG 1 = some (5 / 2) ∧ (25 / 13 : ℚ) < 10 := by
  refine ⟨smallG_pos, ?_, ?_, by norm_num⟩ <;> norm_num [nest, shiftG, smallG]

/-- a single pair gives no digit at all, although the value is an integer -/
theorem decimals_finite_one (cfg : Cfg) {ty : IntTy} (hf : ∀ n, ty.fits n = true) {g : ℕ → ℤ × ℤ} (hp : PosG g) :
    ∃ s' N, ∀ fuel, N ≤ fuel → GIter.decNext cfg ty fuel (GIter.new (takeSrc g 1)) = some (.ok (none, s')) := by
  obtain ⟨N, s', hN, -⟩ := GIter.dec_none (cfg := cfg) hf 1 hp.ge (takeSrc_rest g 1) identity_nonneg (Scal.refl _)
    (by simp [rawN, GIter.new, Block.identity, raw, checkInteger])
  exact ⟨s', N, hN⟩

example : PosG smallG := smallG_pos

/-- not: the digits of a finite fraction are those of its value; 2 + 1/2 = 2.5 gives none of them after the `2`, since
the convergent before it is 2.0 -/
theorem decimals_finite_refuted (cfg : Cfg) :
    ∃ s s' N, Outs (GIter.DecCall cfg IntTy.big) (GIter.new (takeSrc (fun _ => (1, 2)) 2)) [50] s ∧
      ∀ fuel, N ≤ fuel → GIter.decNext cfg IntTy.big fuel s = some (.ok (none, s')) := by
  have hp : PosG (fun _ => (1, 2)) := ⟨rfl, by simp, fun k => by simp⟩
  obtain ⟨K, k1, k2, s, s', N, o1, o2, -⟩ := decimals_finite cfg (ty := IntTy.big) (fun _ => rfl) hp 0 (x := 5 / 2) (y := 2)
    (by norm_num [nest, shiftG]) (by norm_num [nest]) (by norm_num)
  have f0 : ⌊(10 : ℝ) ^ 0 * ((5 / 2 : ℚ) : ℝ)⌋ = 2 := by rw [Int.floor_eq_iff]; norm_num
  have g0 : ⌊(10 : ℝ) ^ 0 * ((2 : ℚ) : ℝ)⌋ = 2 := by rw [Int.floor_eq_iff]; norm_num
  have f1 : ⌊(10 : ℝ) ^ 1 * ((5 / 2 : ℚ) : ℝ)⌋ = 25 := by rw [Int.floor_eq_iff]; norm_num
  have g1 : ⌊(10 : ℝ) ^ 1 * ((2 : ℚ) : ℝ)⌋ = 20 := by rw [Int.floor_eq_iff]; norm_num
  have hK : K = 1 := by
    rcases Nat.lt_trichotomy K 1 with h | h | h
    · obtain rfl : K = 0 := by omega
      rw [f0, g0] at k2; exact absurd rfl k2
    · exact h
    · have := k1 1 h
      rw [f1, g1] at this
      omega
  subst hK
  refine ⟨s, s', N, ?_, o2⟩
  rw [List.range_one, List.map_singleton, f0] at o1
  exact o1

end NumIrr
