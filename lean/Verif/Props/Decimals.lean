/-
C44: the decimal digits of a generalized continued fraction; C62: bounded integer types.
-/
import Verif.Lemmas.DecStep

namespace NumIrr

open Block

namespace GIter

/-- a call of `next` on the result of `decimals` which yields the character `ch`, after finitely many steps -/
def DecCall (cfg : Cfg) (ty : IntTy) (s : GIter) (ch : ℕ) (s' : GIter) : Prop :=
  ∃ N, ∀ fuel, N ≤ fuel → GIter.decNext cfg ty fuel s = some (.ok (some ch, s'))

theorem dec_move {g : ℕ → ℤ × ℤ} (hp : PosG g) {x : ℝ} (hx : GVal g x) {fits : ℤ → Bool} {n : ℕ} (s : GIter)
    (a b p q : ℤ) (m' : Block) (h : s.src = (fun k => some (g k)) ∧ DecAt x n (gw g x s.pos) s.block)
    (hv : s.src s.pos = some (a, b)) (hm : s.block.checkedGmove fits a b = (some (p, q), m')) :
    ({ s with block := m'.update p q, pos := s.pos + 1 } : GIter).src = (fun k => some (g k)) ∧
      DecAt x n (gw g x (s.pos + 1)) (m'.update p q) := by
  obtain ⟨e1, e2⟩ := h
  rw [e1] at hv
  simp only [Option.some.injEq] at hv
  have hch := (hx.cto hp.1).chain hp.posT
  have ha : (g s.pos).1 = a := by rw [hv]
  have hb : (g s.pos).2 = b := by rw [hv]
  refine ⟨e1, e2.move ?_ ?_ (hch (s.pos + 1)).1 ?_ (checkedGmove_scal hm)⟩
  · rw [← ha]; exact hp.posT.1 _
  · rw [← hb]; have := (hp.posT.drop s.pos).2.1; simpa [dropG] using this
  · rw [← ha, ← hb]; exact (hch s.pos).2

/-- C44, restricted to numbers below ten: every character emitted by `decimals` of a positive fraction is the right digit:
the `n`-th one is the last digit of `⌊10ⁿ·x⌋`.  This holds for unbounded integers and for bounded ones with overflow
checks, up to the first `None` or panic.  (Missing: numbers from ten on, for which it is false; see `decimals_refuted`.) -/
theorem decimals_partial (cfg : Cfg) (ty : IntTy) (hov : cfg.debug = true ∨ ∀ n, ty.fits n = true) (g : ℕ → ℤ × ℤ)
    (hp : PosG g) (x : ℝ) (hx : GVal g x) (h10 : x < 10) {outs : List ℕ} {s : GIter}
    (h : Outs (DecCall cfg ty) (GIter.new fun k => some (g k)) outs s) (n : ℕ) (hn : n < outs.length) :
    (outs[n] : ℤ) = 48 + ⌊10 ^ n * x⌋ % 10 := by
  have hch := (hx.cto hp.1).chain hp.posT
  have hx0 : 0 ≤ x := (hch 0).1.le
  suffices H : (s.src = (fun k => some (g k)) ∧ DecAt x outs.length (gw g x s.pos) s.block) ∧
      ∀ n (hn : n < outs.length), (outs[n] : ℤ) = 48 + ⌊10 ^ n * x⌋ % 10 from H.2 n hn
  clear hn n
  generalize hs0 : GIter.new (fun k => some (g k)) = s0 at h
  induction h with
  | nil =>
    subst hs0
    refine ⟨⟨rfl, identity_nonneg, ?_⟩, fun n hn => by simp at hn⟩
    simp [GIter.new, Block.identity, Block.num, Block.den, decTail, gw]
  | @snoc s2 s3 l ch _ hcall ih =>
    obtain ⟨hinv, hl⟩ := ih
    obtain ⟨fuel, hcall⟩ := hcall
    replace hcall := hcall fuel le_rfl
    obtain ⟨s0, i, r1, r2, ⟨h1, h3⟩, h4, h5, rfl⟩ := GIter.decNext_inv hov
      (I := fun s => s.src = (fun k => some (g k)) ∧ DecAt x l.length (gw g x s.pos) s.block)
      (fun s a b p q m' hs hv hm => dec_move hp hx s a b p q m' hs hv hm) fuel s2 s3 ch hinv hcall
    obtain ⟨hi, hr⟩ := h3.out (hch s0.pos).1 h4
    refine ⟨⟨h1, by rw [List.length_append]; exact hr⟩, fun n hn => ?_⟩
    rw [List.length_append, List.length_singleton] at hn
    rcases Nat.lt_succ_iff_lt_or_eq.mp hn with hn | rfl
    · rw [List.getElem_append_left hn]; exact hl n hn
    · rw [List.getElem_append_right le_rfl]
      simp only [Nat.sub_self, List.getElem_cons_zero]
      rw [decTail_floor hx0 h10] at hi
      rw [← hi]
      have i0 : 0 ≤ i := by rw [hi]; exact Int.emod_nonneg _ (by norm_num)
      have i1 : i < 10 := by rw [hi]; exact Int.emod_lt_of_pos _ (by norm_num)
      rw [digitChar_digit cfg i0 i1] at h5
      cases h5
      omega

/-- C44, productivity: for unbounded integers and irrational numbers below ten the digits never end, and there is no
panic. -/
theorem decimals_productive (cfg : Cfg) (ty : IntTy) (hf : ∀ n, ty.fits n = true) (g : ℕ → ℤ × ℤ)
    (hp : PosG g) (x : ℝ) (hx : GVal g x) (h10 : x < 10) (hirr : Irrational x) (n : ℕ) :
    ∃ s, Outs (DecCall cfg ty) (GIter.new fun k => some (g k))
      ((List.range n).map fun k => (48 + ⌊10 ^ k * x⌋ % 10).toNat) s := by
  have hcto := hx.cto hp.1
  have hch := hcto.chain hp.posT
  have hx0 : 0 ≤ x := (hch 0).1.le
  suffices H : ∃ s, Outs (DecCall cfg ty) (GIter.new fun k => some (g k))
      ((List.range n).map fun k => (48 + ⌊10 ^ k * x⌋ % 10).toNat) s ∧
      s.src = (fun k => some (g k)) ∧ DecAt x n (gw g x s.pos) s.block from ⟨_, H.choose_spec.1⟩
  induction n with
  | zero =>
    refine ⟨_, Outs.nil _, rfl, identity_nonneg, ?_⟩
    simp [GIter.new, Block.identity, Block.num, Block.den, decTail, gw]
  | succ n ih =>
    obtain ⟨s, hs, h1, h2⟩ := ih
    obtain ⟨j, hj⟩ := eventually_check (g := dropG g s.pos) (w := gw g x s.pos) (hp.posT.drop _)
      (hcto.drop hp.posT s.pos) (ms := s.dblk (dropG g s.pos) ty.fits) (fun j => GIter.dblk_scal hf j) h2.1 h2.2.1
      (by
        show Irrational (s.block.num (gw g x s.pos) / s.block.den (gw g x s.pos))
        rw [h2.2.2, mul_div_assoc, div_self h2.2.1.ne', mul_one]
        exact decTail_irrational hirr n)
    obtain ⟨fuel, j', i, r1, r2, h3, hcall⟩ := GIter.decNext_returns (cfg := cfg) hf (s := s) (g := dropG g s.pos)
      (fun j => by rw [h1]; rfl) j hj
    -- the block at which the digit is found
    have hI : ∀ j, DecAt x n (gw g x (s.pos + j)) (s.dblk (dropG g s.pos) ty.fits j) := by
      intro j
      induction j with
      | zero => exact h2
      | succ j ih =>
        refine ih.move ?_ ?_ (hch _).1 ?_ (GIter.dblk_scal hf j)
        · exact hp.posT.1 _
        · have := (hp.posT.drop (s.pos + j)).2.1; simpa [dropG] using this
        · exact (hch (s.pos + j)).2
    obtain ⟨hi, hr⟩ := (hI j').out (hch _).1 h3
    rw [decTail_floor hx0 h10] at hi
    have i0 : 0 ≤ i := by rw [hi]; exact Int.emod_nonneg _ (by norm_num)
    have i1 : i < 10 := by rw [hi]; exact Int.emod_lt_of_pos _ (by norm_num)
    rw [digitChar_digit cfg i0 i1] at hcall
    refine ⟨⟨(s.dblk (dropG g s.pos) ty.fits j').afterMul r1 r2, s.src, s.pos + j'⟩, ?_, h1, hr⟩
    rw [List.range_succ, List.map_append, List.map_singleton, ← hi, add_comm 48 i]
    exact Outs.snoc hs ⟨fuel, fun f hf' => GIter.decNext_mono hcall hf'⟩

/-- `1/(200 + 1/(1 + 1/(1 + …))) = 0.00498…` -/
def small : ℕ → ℤ × ℤ := fun k => if k = 0 then (1, 0) else if k = 1 then (1, 200) else (1, 1)

example : PosG small := by
  refine ⟨rfl, by simp [small], fun k => ?_⟩
  rcases k with _ | k <;> simp [small]

/-- the items and the final panic (if any) of the first `n` calls -/
def decRun (cfg : Cfg) (ty : IntTy) (fuel : ℕ) : ℕ → GIter → List ℕ × Option Panic
  | 0, _ => ([], none)
  | n + 1, s =>
    match GIter.decNext cfg ty fuel s with
    | some (.ok (some ch, s')) => let r := decRun cfg ty fuel n s'; (ch :: r.1, r.2)
    | some (.error e) => ([], some e)
    | _ => ([], none)

/-- C44 is false from ten on: the integer part is emitted as one character, `'0' + 12 = '<'` for
`12 + 1/(1 + 1/(1 + …)) = 12.618…`, and the call panics for `300.618…`. -/
theorem decimals_refuted :
    decRun ⟨false, true⟩ IntTy.big 20 4 (GIter.new fun k => some (1, if k = 0 then 12 else 1)) = ([60, 54, 49, 56], none) ∧
    decRun ⟨false, true⟩ IntTy.big 20 4 (GIter.new fun k => some (1, if k = 0 then 300 else 1)) = ([], some .unwrapNone) ∧
    PosG (fun k => (1, if k = 0 then 12 else 1)) := by
  refine ⟨by decide +kernel, by decide +kernel, rfl, by simp, fun k => by simp⟩

/-- C62 is false: on `u8` the multiplication by ten overflows before the capacity check; with overflow checks the third
call panics, without them the fourth digit is `1`, while it should be `4`. -/
theorem decimals_capacity_refuted :
    decRun ⟨false, true⟩ (IntTy.unsigned 8) 20 8 (GIter.new fun k => some (small k)) = ([48, 48], some .overflow) ∧
    decRun ⟨false, false⟩ (IntTy.unsigned 8) 20 4 (GIter.new fun k => some (small k)) = ([48, 48, 48, 49], none) ∧
    decRun ⟨false, false⟩ IntTy.big 20 4 (GIter.new fun k => some (small k)) = ([48, 48, 48, 52], none) := by
  decide +kernel

/-- C62, the part that holds in every state: when the next digit is not yet determined and the next convergent does not
fit the type, the call ends the digits without a panic.  Missing: the panic or wrong digit of the multiplication by ten
(`decimals_capacity_refuted`). -/
theorem decimals_capacity_partial (cfg : Cfg) (ty : IntTy) (s : GIter) (a b : ℤ) (hs : s.src s.pos = some (a, b))
    (hd : s.block.qm1 = 0 ∨ s.block.qm2 = 0 ∨ s.block.pm1.tdiv s.block.qm1 ≠ s.block.pm2.tdiv s.block.qm2)
    (hf : ty.fits (b * s.block.pm1 + a * s.block.pm2) = false ∨ ty.fits (b * s.block.qm1 + a * s.block.qm2) = false)
    (fuel : ℕ) (h0 : fuel ≠ 0) : ∃ s', GIter.decNext cfg ty fuel s = some (.ok (none, s')) := by
  obtain ⟨fuel, rfl⟩ := Nat.exists_eq_succ_of_ne_zero h0
  have h1 : s.block.checkInteger = none := by
    unfold Block.checkInteger
    rcases hd with h | h | h
    · rw [if_pos (Or.inl h)]
    · rw [if_pos (Or.inr h)]
    · split
      · rfl
      · exact if_neg h
  have h2 : s.block.checkedGmove ty.fits a b = (none, s.block) := by
    unfold Block.checkedGmove
    dsimp only
    rw [if_neg]
    rcases hf with h | h <;> simp [h]
  unfold GIter.decNext GIter.reduceMulTy
  rw [h1]
  simp only [hs, h2]
  exact ⟨_, rfl⟩

/-- `u8`, `[3; 7, 30, 30, …]` after the digit 3: the next convergent would need `30 · 10` -/
example : ∃ s', GIter.decNext ⟨false, true⟩ (IntTy.unsigned 8) 1
    { GIter.new (fun _ => some (1, 30)) with pos := 2, block := ⟨10, 0, 7, 1⟩ } = some (.ok (none, s')) :=
  decimals_capacity_partial _ _ _ 1 30 rfl (by decide) (by decide) 1 (by decide)

/-- the repository's own test: eight digits of π fit in `u32` -/
example : decRun ⟨false, true⟩ (IntTy.unsigned 32) 40 20
    (GIter.new fun k => some (if k = 0 then (1, 0) else if k = 1 then (4, 1) else (((k : ℤ) - 1) ^ 2, 2 * k - 1)))
      = ([51, 49, 52, 49, 53, 57, 50, 54], none) := by decide +kernel

end GIter
end NumIrr
