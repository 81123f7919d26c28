/-
C96: the regular coefficients and the digits of `exp(t)`.
-/
import Verif.Lemmas.ExpNeg
import Verif.Props.Decimals
import Mathlib.Analysis.Complex.ExponentialBounds

namespace NumIrr

open Block

namespace GIter

/-- the pairs of `exp(t)` as an input of the adapters (general.rs, lines 166-202) -/
def expSrc (t : ℤ) : ℕ → Option (ℤ × ℤ) := stream ExpCoeffs.next (ExpCoeffs.new t)

theorem expSrc_eq (t : ℤ) : expSrc t = fun k => some (expG t k) := funext (ExpCoeffs.exp_pairs t)

/-- outputs of `simplify` from an invariant -/
theorem simplify_of_inv {g : ℕ → ℤ × ℤ} {x : ℝ} (hx : CTo g x) (hQ : ∀ k, 0 < gQ g (k + 1)) (hirr : Irrational x)
    (h0 : 0 < x) (I : ℕ → ℕ → Block → Prop) (hnew : I 0 0 Block.identity)
    (hmove : ∀ n pos m m', I n pos m → Scal m' (m.raw (g pos).1 (g pos).2) → I n (pos + 1) m')
    (hout : ∀ n pos m i r1 r2, I n pos m → m.checkInteger = some (i, r1, r2) →
      i = ⌊tails x n⌋ ∧ I (n + 1) pos (m.after r1 r2)) (n : ℕ) :
    ∃ s, Outs SimpCall (GIter.new fun k => some (g k)) ((List.range n).map fun k => ⌊tails x k⌋) s ∧
      s.src = (fun k => some (g k)) ∧ LinAt g x (tails x n) s.pos s.block ∧ I n s.pos s.block := by
  induction n with
  | zero => exact ⟨_, Outs.nil _, rfl, LinAt.new g x, hnew⟩
  | succ n ih =>
    obtain ⟨s, hs, h1, h2, h3⟩ := ih
    obtain ⟨j, hj⟩ := LinAt.eventually hx hQ (pos := s.pos) (ms := s.blk (dropG g s.pos)) h2
      (fun j => gmove_scal _ _ _) (tails_irrational hirr n) (tails_pos hirr h0 n)
    obtain ⟨fuel, i, s', hcall⟩ := GIter.simpNext_returns (s := s) (g := dropG g s.pos) (fun j => by rw [h1]; rfl) j hj
    obtain ⟨s0, r1, r2, ⟨e1, e2, e3⟩, h5, rfl⟩ := GIter.simpNext_inv
      (I := fun s => s.src = (fun k => some (g k)) ∧ LinAt g x (tails x n) s.pos s.block ∧ I n s.pos s.block)
      (fun s a b hs hv => by
        obtain ⟨f1, f2, f3⟩ := hs
        rw [f1] at hv
        simp only [Option.some.injEq] at hv
        have hsc : Scal (s.block.gmove a b) (s.block.raw (g s.pos).1 (g s.pos).2) := by rw [hv]; exact gmove_scal _ _ _
        exact ⟨f1, f2.move hsc, hmove n _ _ _ f3 hsc⟩)
      fuel s s' i ⟨h1, h2, h3⟩ hcall
    obtain ⟨hi, hr⟩ := hout n _ _ i r1 r2 e3 h5
    refine ⟨{ s0 with block := s0.block.after r1 r2 }, ?_, e1, ?_, hr⟩
    · rw [List.range_succ, List.map_append, List.map_singleton, ← hi]
      exact Outs.snoc hs ⟨fuel, fun f hf => GIter.simpNext_mono hcall hf⟩
    · have := e2.recip h5 (fun h => tails_irrational hirr n ⟨i, by rw [Rat.cast_intCast]; exact h.symm⟩)
      rw [tails_succ, ← hi]
      exact this

/-- the states of `simplify` on the pairs of `exp(t)`, `t < 0`, after `n` coefficients -/
private def ExpInv (t : ℤ) : ℕ → ℕ → Block → Prop
  | 0, pos, m => Scal m (rawN Block.identity (expG t) pos)
  | 1, pos, m => ∃ k : ℕ, pos = k + 2 ∧ -t ≤ k ∧ |gP (expG t) (k + 2)| < gQ (expG t) (k + 2) ∧
      |gP (expG t) (k + 1)| < gQ (expG t) (k + 1) ∧ ∃ l : ℤ, 0 < l ∧ l * m.pm1 = gQ (expG t) (k + 2) ∧
        l * m.pm2 = gQ (expG t) (k + 1) ∧ l * m.qm1 = gP (expG t) (k + 2) ∧ l * m.qm2 = gP (expG t) (k + 1)
  | n + 2, pos, m => ∃ k : ℕ, pos = k + 2 ∧ -t ≤ k ∧ RegAt (Real.exp t) (n + 2) (expW t pos) m

private theorem expInv_move {t : ℤ} (ht : t < 0) (n pos : ℕ) (m m' : Block) (h : ExpInv t n pos m)
    (hs : Scal m' (m.raw (expG t pos).1 (expG t pos).2)) : ExpInv t n (pos + 1) m' := by
  match n, h with
  | 0, h => exact hs.trans (h.raw _ _)
  | 1, h =>
    obtain ⟨k, rfl, hk, h1, h2, l, l0, e1, e2, e3, e4⟩ := h
    obtain ⟨a1, b0⟩ := expG_nonneg ht (k + 2) (by omega) (by push_cast; omega)
    refine ⟨k + 1, rfl, by push_cast; omega, ?_, h1, ?_⟩
    · rw [gP_rec, gQ_rec]
      set a := (expG t (k + 1 + 1)).1 with ha
      set b := (expG t (k + 1 + 1)).2 with hb
      have a1' : 1 ≤ a := a1
      have b0' : 0 ≤ b := b0
      calc |gP (expG t) (k + 1 + 1) * b + gP (expG t) (k + 1) * a|
          ≤ |gP (expG t) (k + 1 + 1) * b| + |gP (expG t) (k + 1) * a| := abs_add_le _ _
        _ = |gP (expG t) (k + 1 + 1)| * b + |gP (expG t) (k + 1)| * a := by
            rw [abs_mul, abs_mul, abs_of_nonneg b0', abs_of_nonneg (show 0 ≤ a by omega)]
        _ < gQ (expG t) (k + 1 + 1) * b + gQ (expG t) (k + 1) * a := by
            have c1 : |gP (expG t) (k + 1 + 1)| * b ≤ gQ (expG t) (k + 1 + 1) * b :=
              mul_le_mul_of_nonneg_right h1.le b0'
            have c2 : |gP (expG t) (k + 1)| * a < gQ (expG t) (k + 1) * a :=
              mul_lt_mul_of_pos_right h2 (by omega)
            linarith
    · obtain ⟨l', l0', f1, f2, f3, f4⟩ := hs
      simp only [Block.raw] at f1 f2 f3 f4
      refine ⟨l * l', mul_pos l0 l0', ?_, ?_, ?_, ?_⟩
      · rw [gQ_rec, mul_assoc, ← f1]; linear_combination (expG t (k + 2)).2 * e1 + (expG t (k + 2)).1 * e2
      · rw [mul_assoc, ← f2]; exact e1
      · rw [gP_rec, mul_assoc, ← f3]; linear_combination (expG t (k + 2)).2 * e3 + (expG t (k + 2)).1 * e4
      · rw [mul_assoc, ← f4]; exact e3
  | n + 2, h =>
    obtain ⟨k, rfl, hk, h⟩ := h
    obtain ⟨a1, b0⟩ := expG_nonneg ht (k + 2) (by omega) (by push_cast; omega)
    exact ⟨k + 1, rfl, by push_cast; omega, h.move a1 b0 (expW_pos ht (k + 1)) (expW_chain ht (k + 1)) hs⟩

private theorem exp_floor {t : ℤ} (ht : t < 0) : ⌊Real.exp t⌋ = 0 := by
  rw [Int.floor_eq_zero_iff]
  exact ⟨(Real.exp_pos _).le, Real.exp_lt_one_iff.mpr (by exact_mod_cast ht)⟩

private theorem expInv_out {t : ℤ} (ht : t < 0) (n pos : ℕ) (m : Block) (i r1 r2 : ℤ) (h : ExpInv t n pos m)
    (hc : m.checkInteger = some (i, r1, r2)) :
    i = ⌊tails (Real.exp t) n⌋ ∧ ExpInv t (n + 1) pos (m.after r1 r2) := by
  obtain ⟨q1, q2, t1, t2, -, -, e1, e2⟩ := checkInteger_spec hc
  match n, h with
  | 0, h =>
    obtain ⟨l, l0, s1, s2, s3, s4⟩ := h
    obtain _ | _ | k := pos
    · exfalso; apply q1
      simp only [rawN, Block.identity] at s3
      exact (mul_eq_zero.mp s3.symm).resolve_left l0.ne'
    · exfalso; apply q2
      simp only [rawN, Block.raw, Block.identity] at s4
      exact (mul_eq_zero.mp s4.symm).resolve_left l0.ne'
    change gP (expG t) (k + 2) = _ at s1
    change gQ (expG t) (k + 2) = _ at s3
    change gP (expG t) (k + 1) = _ at s2
    change gQ (expG t) (k + 1) = _ at s4
    have q1' : 0 < m.qm1 := (mul_pos_iff_of_pos_left l0).mp (by rw [← s3]; exact exp_Q_pos t (k + 1))
    have q2' : 0 < m.qm2 := (mul_pos_iff_of_pos_left l0).mp (by rw [← s4]; exact exp_Q_pos t k)
    have hi : ⌊Real.exp t⌋ = i := by
      refine floor_between q1' q2' t1 t2 (Real.exp_pos _).le ?_
      have l0' : (0 : ℝ) < l := by exact_mod_cast l0
      have hm := expE_mul ht k
      simp only [expE, s1, s2, s3, s4] at hm
      push_cast at hm
      by_contra hcon
      push Not at hcon
      have := mul_pos (mul_pos l0' l0') hcon
      nlinarith
    have hi0 : i = 0 := by rw [← hi, exp_floor ht]
    subst hi0
    refine ⟨hi.symm, ?_⟩
    have small : ∀ {p q : ℤ}, 0 < q → p.tdiv q = 0 → |p| < q := by
      intro p q hq h
      rcases tdiv_bounds hq h with ⟨-, a, b⟩ | ⟨-, a, b⟩ <;> rw [abs_lt] <;> constructor <;> linarith
    have big : ∀ {P Q p q : ℤ}, P = l * p → Q = l * q → |p| < q → |P| < Q := by
      rintro P Q p q rfl rfl h
      rw [abs_mul, abs_of_pos l0]
      exact mul_lt_mul_of_pos_left h l0
    have b1 := big s1 s3 (small q1' t1)
    have b2 := big s2 s4 (small q2' t2)
    refine ⟨k, rfl, exp_small ht k b2 b1, b1, b2, l, l0, s3.symm, s4.symm, ?_, ?_⟩
    · simp only [Block.after]; rw [s1, e1]; ring
    · simp only [Block.after]; rw [s2, e2]; ring
  | 1, h =>
    obtain ⟨k, rfl, hk, h1, h2, l, l0, s1, s2, s3, s4⟩ := h
    have l0' : (0 : ℝ) < l := by exact_mod_cast l0
    have Q1 := exp_Q_pos t (k + 1)
    have Q2 := exp_Q_pos t k
    have p1 : 0 < m.pm1 := (mul_pos_iff_of_pos_left l0).mp (by rw [s1]; exact Q1)
    have p2 : 0 < m.pm2 := (mul_pos_iff_of_pos_left l0).mp (by rw [s2]; exact Q2)
    -- the quotients exceed one in absolute value
    have hlt1 : |m.qm1| < m.pm1 := by
      rw [← s1, ← s3, abs_mul, abs_of_pos l0] at h1
      exact lt_of_mul_lt_mul_left h1 l0.le
    have hlt2 : |m.qm2| < m.pm2 := by
      rw [← s2, ← s4, abs_mul, abs_of_pos l0] at h2
      exact lt_of_mul_lt_mul_left h2 l0.le
    have sgn : ∀ {p q : ℤ}, |q| < p → q ≠ 0 → p.tdiv q = i → (0 < q → 1 ≤ i) ∧ (q < 0 → i ≤ -1) := by
      intro p q hp hq h
      constructor
      · intro h0
        rw [abs_of_pos h0] at hp
        rw [← h, Int.tdiv_eq_ediv_of_nonneg (by omega), Int.le_ediv_iff_mul_le h0]
        omega
      · intro h0
        rw [abs_of_neg h0] at hp
        have : p.tdiv q = -(p.tdiv (-q)) := by rw [Int.tdiv_neg, neg_neg]
        rw [this, Int.tdiv_eq_ediv_of_nonneg (by omega)] at h
        have : 1 ≤ p / (-q) := by rw [Int.le_ediv_iff_mul_le (by omega)]; omega
        omega
    obtain ⟨a1, a2⟩ := sgn hlt1 q1 t1
    obtain ⟨b1, b2⟩ := sgn hlt2 q2 t2
    have hE := expE_mul ht k
    have x0 := Real.exp_pos (t : ℝ)
    have Q1' : (0 : ℝ) < gQ (expG t) (k + 2) := by exact_mod_cast Q1
    have Q2' : (0 : ℝ) < gQ (expG t) (k + 1) := by exact_mod_cast Q2
    have hpos : 0 < m.qm1 ∧ 0 < m.qm2 := by
      rcases lt_or_gt_of_ne q1 with h | h <;> rcases lt_or_gt_of_ne q2 with h' | h'
      · exfalso
        have P1 : gP (expG t) (k + 2) < 0 := by rw [← s3]; exact mul_neg_of_pos_of_neg l0 h
        have P2 : gP (expG t) (k + 1) < 0 := by rw [← s4]; exact mul_neg_of_pos_of_neg l0 h'
        have P1' : (gP (expG t) (k + 2) : ℝ) < 0 := by exact_mod_cast P1
        have P2' : (gP (expG t) (k + 1) : ℝ) < 0 := by exact_mod_cast P2
        have E1 : expE t (k + 2) < 0 := by unfold expE; nlinarith [mul_pos x0 Q1']
        have E2 : expE t (k + 1) < 0 := by unfold expE; nlinarith [mul_pos x0 Q2']
        have := mul_pos_of_neg_of_neg E1 E2
        linarith
      · have := a2 h; have := b1 h'; omega
      · have := a1 h; have := b2 h'; omega
      · exact ⟨h, h'⟩
    have hw := expW_pos ht k
    have hreg : RegAt (Real.exp t) 1 (expW t (k + 2)) m := by
      refine ⟨⟨p1.le, p2.le, hpos.1.le, hpos.2.le⟩, Or.inr ⟨?_, ?_⟩⟩
      · have c1 : (0 : ℝ) < m.qm1 := by exact_mod_cast hpos.1
        have c2 : (0 : ℝ) < m.qm2 := by exact_mod_cast hpos.2
        unfold Block.den; positivity
      · have ht1 : tails (Real.exp t) 1 = 1 / Real.exp t := by
          rw [tails_succ]; simp only [tails]; rw [exp_floor ht]; simp
        rw [ht1]
        have hz : expE t (k + 2) * expW t (k + 2) + expE t (k + 1) = 0 := by
          have := expE_ne ht (k + 1)
          simp only [expW, show k + 2 - 1 = k + 1 from rfl]
          field_simp
          ring
        unfold Block.num Block.den
        have f1 : (l : ℝ) * m.pm1 = gQ (expG t) (k + 2) := by exact_mod_cast s1
        have f2 : (l : ℝ) * m.pm2 = gQ (expG t) (k + 1) := by exact_mod_cast s2
        have f3 : (l : ℝ) * m.qm1 = gP (expG t) (k + 2) := by exact_mod_cast s3
        have f4 : (l : ℝ) * m.qm2 = gP (expG t) (k + 1) := by exact_mod_cast s4
        rw [eq_comm, div_mul_eq_mul_div, one_mul, div_eq_iff x0.ne']
        apply mul_left_cancel₀ l0'.ne'
        unfold expE at hz
        linear_combination hz + expW t (k + 2) * (f3 - Real.exp t * f1) + (f4 - Real.exp t * f2)
    obtain ⟨hi, hr⟩ := hreg.out hw hc
    exact ⟨hi, k, rfl, hk, hr⟩
  | n + 2, h =>
    obtain ⟨k, rfl, hk, h⟩ := h
    obtain ⟨hi, hr⟩ := h.out (expW_pos ht k) hc
    exact ⟨hi, k, rfl, hk, hr⟩

/-- **C96** for negative exponents: `exp(t).simplify()` yields for ever the coefficients of the regular expansion of `eᵗ`. -/
theorem exp_neg_simplify_partial {t : ℤ} (ht : t < 0) (n : ℕ) :
    ∃ s, Outs SimpCall (GIter.new (expSrc t)) ((List.range n).map fun k => ⌊tails (Real.exp t) k⌋) s := by
  rw [expSrc_eq]
  obtain ⟨s, h, -⟩ := simplify_of_inv (exp_cto t) (exp_Q_pos t) (exp_int_irrational ht.ne) (Real.exp_pos _)
    (ExpInv t) (Scal.refl _) (expInv_move ht) (expInv_out ht) n
  exact ⟨s, h⟩

/-- **C96** for negative exponents: every character yielded by `exp(t).decimals()` is the right digit, also for bounded
integers with overflow checks. -/
theorem exp_neg_decimals_partial (cfg : Cfg) (ty : IntTy) (hov : cfg.debug = true ∨ ∀ n, ty.fits n = true) {t : ℤ}
    (ht : t < 0) {outs : List ℕ} {s : GIter} (h : Outs (DecCall cfg ty) (GIter.new (expSrc t)) outs s) (n : ℕ)
    (hn : n < outs.length) : (outs[n] : ℤ) = 48 + ⌊10 ^ n * Real.exp t⌋ % 10 := by
  rw [expSrc_eq] at h
  have hx0 := (Real.exp_pos (t : ℝ)).le
  have h10 : Real.exp t < 10 := lt_trans (Real.exp_lt_one_iff.mpr (by exact_mod_cast ht)) (by norm_num)
  suffices H : (s.src = (fun k => some (expG t k)) ∧ DigAt (expG t) (Real.exp t) outs.length s.pos s.block) ∧
      ∀ n (hn : n < outs.length), (outs[n] : ℤ) = 48 + ⌊10 ^ n * Real.exp t⌋ % 10 from H.2 n hn
  clear hn n
  generalize hs0 : GIter.new (fun k => some (expG t k)) = s0 at h
  induction h with
  | nil =>
    subst hs0
    refine ⟨⟨rfl, 0, by simp [decTail], 1, one_pos, ?_⟩, fun n hn => by simp at hn⟩
    simp [GIter.new, Block.identity, Block.lmul, rawN]
  | @snoc s2 s3 l ch _ hcall ih =>
    obtain ⟨hinv, hl⟩ := ih
    obtain ⟨fuel, hcall⟩ := hcall
    replace hcall := hcall fuel le_rfl
    obtain ⟨s0, i, r1, r2, ⟨h1, h3⟩, h4, h5, rfl⟩ := GIter.decNext_inv hov
      (I := fun s => s.src = (fun k => some (expG t k)) ∧ DigAt (expG t) (Real.exp t) l.length s.pos s.block)
      (fun s a b p q m' hs hv hm => by
        obtain ⟨f1, f2⟩ := hs
        rw [f1] at hv
        simp only [Option.some.injEq] at hv
        refine ⟨f1, f2.move ?_⟩
        rw [hv]
        exact checkedGmove_scal hm) fuel s2 s3 ch hinv hcall
    obtain ⟨hi, hr⟩ := h3.out (exp_straddle ht) hx0 h4
    refine ⟨⟨h1, by rw [List.length_append]; exact hr⟩, fun n hn => ?_⟩
    rw [List.length_append, List.length_singleton] at hn
    rcases Nat.lt_succ_iff_lt_or_eq.mp hn with hn | rfl
    · rw [List.getElem_append_left hn]; exact hl n hn
    · rw [List.getElem_append_right le_rfl]
      simp only [Nat.sub_self, List.getElem_cons_zero]
      rw [decTail_floor hx0 h10] at hi
      rw [← hi]
      have i0 : 0 ≤ i := by rw [hi]; exact Int.emod_nonneg _ (by norm_num)
      have i1 : i < 10 := by rw [hi]; exact Int.emod_lt_of_pos _ (by norm_num)
      rw [digitChar_digit cfg i0 i1] at h5
      cases h5
      omega

/-- **C96** for negative exponents: for unbounded integers the digits of `eᵗ` never end, and there is no panic. -/
theorem exp_neg_decimals_productive (cfg : Cfg) (ty : IntTy) (hf : ∀ n, ty.fits n = true) {t : ℤ} (ht : t < 0) (n : ℕ) :
    ∃ s, Outs (DecCall cfg ty) (GIter.new (expSrc t))
      ((List.range n).map fun k => (48 + ⌊10 ^ k * Real.exp t⌋ % 10).toNat) s := by
  rw [expSrc_eq]
  have hx0 := Real.exp_pos (t : ℝ)
  have h10 : Real.exp t < 10 := lt_trans (Real.exp_lt_one_iff.mpr (by exact_mod_cast ht)) (by norm_num)
  have hirr := exp_int_irrational ht.ne
  suffices H : ∃ s, Outs (DecCall cfg ty) (GIter.new fun k => some (expG t k))
      ((List.range n).map fun k => (48 + ⌊10 ^ k * Real.exp t⌋ % 10).toNat) s ∧
      s.src = (fun k => some (expG t k)) ∧ DigAt (expG t) (Real.exp t) n s.pos s.block from ⟨_, H.choose_spec.1⟩
  induction n with
  | zero =>
    refine ⟨_, Outs.nil _, rfl, 0, by simp [decTail], 1, one_pos, ?_⟩
    simp [GIter.new, Block.identity, Block.lmul, rawN]
  | succ n ih =>
    obtain ⟨s, hs, h1, h2⟩ := ih
    have hy := decTail_irrational hirr n
    have hy0 : 0 < decTail (Real.exp t) n := by
      refine lt_of_le_of_ne (decTail_bounds hx0.le h10 n).1 (fun h => hy ⟨0, by rw [← h]; simp⟩)
    obtain ⟨j, hj⟩ := LinAt.eventually (exp_cto t) (exp_Q_pos t) (pos := s.pos)
      (ms := s.dblk (dropG (expG t) s.pos) ty.fits) h2.lin (fun j => GIter.dblk_scal hf j) hy hy0
    obtain ⟨fuel, j', i, r1, r2, h3, hcall⟩ := GIter.decNext_returns (cfg := cfg) hf (s := s) (g := dropG (expG t) s.pos)
      (fun j => by rw [h1]; rfl) j hj
    have hI : ∀ j, DigAt (expG t) (Real.exp t) n (s.pos + j) (s.dblk (dropG (expG t) s.pos) ty.fits j) := by
      intro j
      induction j with
      | zero => exact h2
      | succ j ih => exact ih.move (GIter.dblk_scal hf j)
    obtain ⟨hi, hr⟩ := (hI j').out (exp_straddle ht) hx0.le h3
    rw [decTail_floor hx0.le h10] at hi
    have i0 : 0 ≤ i := by rw [hi]; exact Int.emod_nonneg _ (by norm_num)
    have i1 : i < 10 := by rw [hi]; exact Int.emod_lt_of_pos _ (by norm_num)
    rw [digitChar_digit cfg i0 i1] at hcall
    refine ⟨⟨(s.dblk (dropG (expG t) s.pos) ty.fits j').afterMul r1 r2, s.src, s.pos + j'⟩, ?_, h1, hr⟩
    rw [List.range_succ, List.map_append, List.map_singleton, ← hi, add_comm 48 i]
    exact Outs.snoc hs ⟨fuel, fun f hf' => GIter.decNext_mono hcall hf'⟩

/-! ### the other exponents -/

/-- the outputs of the first `n` calls of `simplify` -/
def simpRun (fuel : ℕ) : ℕ → GIter → List ℤ
  | 0, _ => []
  | n + 1, s =>
    match GIter.simpNext fuel s with
    | some (some i, s') => i :: simpRun fuel n s'
    | _ => []

/-- C96 is false of positive exponents.  `exp(1).decimals()` yields `2.71828182845` and then `8:` (the byte 58 is not a
digit) instead of `90`, `exp(2).decimals()` yields `7.388:` and `exp(3).decimals()` begins with `C:`.
`exp(2).simplify()` yields a negative coefficient, and `exp(3).simplify()` begins with 19 while `e³ > 20`. -/
theorem exp_pos_refuted :
    decRun ⟨false, true⟩ IntTy.big 60 14 (GIter.new (expSrc 1))
      = ([50, 55, 49, 56, 50, 56, 49, 56, 50, 56, 52, 53, 56, 58], none) ∧
    decRun ⟨false, true⟩ IntTy.big 60 5 (GIter.new (expSrc 2)) = ([55, 51, 56, 56, 58], none) ∧
    decRun ⟨false, true⟩ IntTy.big 60 2 (GIter.new (expSrc 3)) = ([67, 58], none) ∧
    simpRun 60 7 (GIter.new (expSrc 2)) = [7, 2, 1, 1, 2, 1, -19] ∧
    simpRun 60 2 (GIter.new (expSrc 3)) = [19, 0] ∧ ⌊tails (Real.exp (3 : ℤ)) 0⌋ ≠ 19 := by
  refine ⟨by decide +kernel, by decide +kernel, by decide +kernel, by decide +kernel, by decide +kernel, fun h => ?_⟩
  have h1 := Int.lt_floor_add_one (tails (Real.exp (3 : ℤ)) 0)
  rw [h] at h1
  simp only [tails] at h1
  have h2 : Real.exp (3 : ℤ) = Real.exp 1 ^ 3 := by rw [← Real.exp_nat_mul]; norm_num
  rw [h2] at h1
  have h3 := Real.exp_one_gt_d9
  have h4 : (2.718 : ℝ) ^ 3 ≤ Real.exp 1 ^ 3 := pow_le_pow_left₀ (by norm_num) (by linarith) 3
  norm_num at h1 h4
  linarith

/-- the block of `exp(0)` after the first coefficient never gives another one -/
private theorem zero_den_hangs : ∀ (fuel : ℕ) (s : GIter), s.src = expSrc 0 → s.block.qm1 = 0 → s.block.qm2 = 0 →
    GIter.simpNext fuel s = none := by
  intro fuel
  induction fuel with
  | zero => intros; rfl
  | succ fuel ih =>
    intro s h0 h1 h2
    rw [GIter.simpNext, reduceRecip_of_none (by unfold Block.checkInteger; rw [if_pos (Or.inl h1)])]
    simp only
    rw [h0, expSrc_eq]
    refine ih _ (expSrc_eq 0).symm ?_ ?_
    · obtain ⟨l, l0, -, -, h3, -⟩ := gmove_scal s.block (expG 0 s.pos).1 (expG 0 s.pos).2
      simp only [Block.raw, h1, h2] at h3
      have : l * (s.block.gmove (expG 0 s.pos).1 (expG 0 s.pos).2).qm1 = 0 := by rw [← h3]; ring
      exact (mul_eq_zero.mp this).resolve_left l0.ne'
    · obtain ⟨l, l0, -, -, -, h4⟩ := gmove_scal s.block (expG 0 s.pos).1 (expG 0 s.pos).2
      simp only [Block.raw, h1] at h4
      exact (mul_eq_zero.mp h4.symm).resolve_left l0.ne'

/-- C96 for the exponent 0: `simplify` yields the coefficient 1 of `e⁰ = [1]`, but the second call does not return, where
`None` was to be expected. -/
theorem exp_zero_simplify_refuted : ∃ s, SimpCall (GIter.new (expSrc 0)) 1 s ∧ ∀ fuel, GIter.simpNext fuel s = none := by
  refine ⟨⟨⟨1, 1, 0, 0⟩, expSrc 0, 2⟩, ⟨3, fun f hf => GIter.simpNext_mono ?_ hf⟩, fun fuel => zero_den_hangs fuel _ rfl rfl rfl⟩
  rfl

/-- **C96** for the exponent 0: `decimals` yields `1` and then zeros for ever. -/
theorem exp_zero_decimals (cfg : Cfg) (ty : IntTy) (hf : ∀ n, ty.fits n = true) (n : ℕ) :
    ∃ s, Outs (DecCall cfg ty) (GIter.new (expSrc 0)) (49 :: List.replicate n 48) s := by
  suffices H : Outs (DecCall cfg ty) (GIter.new (expSrc 0)) (49 :: List.replicate n 48) ⟨⟨0, 0, 1, 1⟩, expSrc 0, 2⟩ from ⟨_, H⟩
  have hty : ty.fits = fun _ => true := funext hf
  induction n with
  | zero =>
    refine Outs.snoc (Outs.nil _) ⟨3, fun f hf' => GIter.decNext_mono ?_ hf'⟩
    have h0 : expSrc 0 0 = some (1, 1) := by rw [expSrc_eq]; rfl
    have h1 : expSrc 0 1 = some (0, 1) := by rw [expSrc_eq]; rfl
    simp [GIter.decNext, GIter.reduceMulTy, GIter.new, Block.identity, Block.checkInteger, h0, h1, Block.checkedGmove, hf,
      Block.update, igcd, GIter.digitChar]
  | succ n ih =>
    rw [List.replicate_succ', ← List.cons_append]
    refine Outs.snoc ih ⟨1, fun f hf' => GIter.decNext_mono ?_ hf'⟩
    simp [GIter.decNext, GIter.reduceMulTy, Block.checkInteger, hf, GIter.digitChar]

/-- the first call and a later one -/
example : decRun ⟨false, true⟩ IntTy.big 5 4 (GIter.new (expSrc 0)) = ([49, 48, 48, 48], none) := by decide +kernel

example : simpRun 40 6 (GIter.new (expSrc (-3))) = [0, 20, 11, 1, 2, 4] := by decide +kernel

/-- `exp(-3)`: the digits `0.049787`, the coefficients `[0; 20, 11, 1, 2, 4]` -/
example : decRun ⟨false, true⟩ IntTy.big 40 7 (GIter.new (expSrc (-3))) = ([48, 48, 52, 57, 55, 56, 55], none) := by
  decide +kernel

end GIter
end NumIrr
