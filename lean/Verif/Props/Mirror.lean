/-
C126: negative generalized continued fractions, and `generalized()` of periodic fractions.
-/
import Verif.Lemmas.Mirror
import Verif.Props.Simplify
import Verif.Props.DecimalsAll
import Verif.Props.SurdCF
import Verif.Props.CFIter
import Verif.Lemmas.CFShort

namespace NumIrr

namespace GIter
open Block

private theorem outs_mirror {β : Type} {step : GIter → β → GIter → Prop} {f : β → β} (hf : ∀ v, f (f v) = v)
    (h1 : ∀ s t v s', Mir s t → step s v s' → ∃ t', step t (f v) t' ∧ Mir s' t')
    (h2 : ∀ s t v t', Mir s t → step t v t' → ∃ s', step s (f v) s' ∧ Mir s' t')
    {s t : GIter} (h : Mir s t) (l : List β) :
    (∀ s', Outs step s l s' → ∃ t', Outs step t (l.map f) t' ∧ Mir s' t') ∧
    (∀ t', Outs step t (l.map f) t' → ∃ s', Outs step s l s' ∧ Mir s' t') := by
  constructor
  · intro s' ho
    induction ho with
    | nil => exact ⟨t, Outs.nil t, h⟩
    | snoc _ hs ih =>
      obtain ⟨t', h3, h4⟩ := ih
      obtain ⟨t'', h5, h6⟩ := h1 _ _ _ _ h4 hs
      exact ⟨t'', by rw [List.map_append]; exact Outs.snoc h3 h5, h6⟩
  · suffices H : ∀ t' l', Outs step t l' t' → ∃ s', Outs step s (l'.map f) s' ∧ Mir s' t' by
      intro t' ho
      obtain ⟨s', h3, h4⟩ := H _ _ ho
      have e : (l.map f).map f = l := by
        rw [List.map_map]; conv_rhs => rw [← List.map_id l]
        exact List.map_congr_left fun v _ => hf v
      rw [e] at h3
      exact ⟨s', h3, h4⟩
    intro t' l' ho
    induction ho with
    | nil => exact ⟨s, Outs.nil s, h⟩
    | snoc _ hs ih =>
      obtain ⟨s', h3, h4⟩ := ih
      obtain ⟨s'', h5, h6⟩ := h2 _ _ _ _ h4 hs
      exact ⟨s'', by rw [List.map_append]; exact Outs.snoc h3 h5, h6⟩

private theorem neg_neg_opt {α : Type} [InvolutiveNeg α] (v : Option α) : (v.map (-·)).map (-·) = v := by
  cases v <;> simp

/-- **C126** Whatever the pairs, `simplify` on the negative fraction yields the negatives of what it yields on the fraction,
call by call, with the same `None`; so a call on one returns iff it returns on the other. -/
theorem simplify_neg (src : ℕ → Option (ℤ × ℤ)) (l : List (Option ℤ)) :
    (∃ t, Outs SimpRet (new (negPairs src)) (l.map (Option.map (-·))) t) ↔ ∃ s, Outs SimpRet (new src) l s := by
  have h := outs_mirror (step := SimpRet) (f := Option.map (-·)) neg_neg_opt
    (fun s t v s' hm ⟨fuel, hs⟩ => by
      rcases mir_simp fuel s t hm with ⟨h1, -⟩ | ⟨w, s1, t1, h1, h2, h3⟩
      · rw [h1] at hs; cases hs
      · rw [h1] at hs; cases hs; exact ⟨t1, ⟨fuel, h2⟩, h3⟩)
    (fun s t v t' hm ⟨fuel, hs⟩ => by
      rcases mir_simp fuel s t hm with ⟨-, h1⟩ | ⟨w, s1, t1, h1, h2, h3⟩
      · rw [h1] at hs; cases hs
      · rw [h2] at hs; cases hs; exact ⟨s1, ⟨fuel, by rw [neg_neg_opt]; exact h1⟩, h3⟩)
    (mir_new src) l
  exact ⟨fun ⟨t, ht⟩ => (h.2 t ht).imp fun _ h => h.1, fun ⟨s, hs⟩ => (h.1 s hs).imp fun _ h => h.1⟩

/-- **C126** The same for `convergents`, also for the call that panics. -/
theorem convergents_neg (src : ℕ → Option (ℤ × ℤ)) (l : List (Option ℚ)) :
    ((∃ t, Outs ConvRet (new (negPairs src)) (l.map (Option.map (-·))) t) ↔ ∃ s, Outs ConvRet (new src) l s) ∧
    ((∃ t, Outs ConvRet (new (negPairs src)) (l.map (Option.map (-·))) t ∧ t.convNext IntTy.big = .error .divZero) ↔
      ∃ s, Outs ConvRet (new src) l s ∧ s.convNext IntTy.big = .error .divZero) := by
  have h := outs_mirror (step := ConvRet) (f := Option.map (-·)) neg_neg_opt
    (fun s t v s' hm hs => by
      rcases mir_conv s t hm with ⟨h1, -⟩ | ⟨w, s1, t1, h1, h2, h3⟩
      · rw [ConvRet, h1] at hs; cases hs
      · rw [ConvRet, h1] at hs; cases hs; exact ⟨t1, h2, h3⟩)
    (fun s t v t' hm hs => by
      rcases mir_conv s t hm with ⟨-, h1⟩ | ⟨w, s1, t1, h1, h2, h3⟩
      · rw [ConvRet, h1] at hs; cases hs
      · rw [ConvRet, h2] at hs; cases hs; exact ⟨s1, by rw [ConvRet, neg_neg_opt]; exact h1, h3⟩)
    (mir_new src) l
  refine ⟨⟨fun ⟨t, ht⟩ => (h.2 t ht).imp fun _ h => h.1, fun ⟨s, hs⟩ => (h.1 s hs).imp fun _ h => h.1⟩, ?_, ?_⟩
  · rintro ⟨t, ht, he⟩
    obtain ⟨s, hs, hm⟩ := h.2 t ht
    refine ⟨s, hs, ?_⟩
    rcases mir_conv s t hm with ⟨h1, -⟩ | ⟨w, s1, t1, -, h2, -⟩
    · exact h1
    · rw [h2] at he; cases he
  · rintro ⟨s, hs, he⟩
    obtain ⟨t, ht, hm⟩ := h.1 s hs
    refine ⟨t, ht, ?_⟩
    rcases mir_conv s t hm with ⟨-, h1⟩ | ⟨w, s1, t1, h2, -, -⟩
    · exact h1
    · rw [h2] at he; cases he

/-- `-(1 + 1/(2 + 1/(2 + …))) = -√2` -/
example : negPairs (fun k => some (1, if k = 0 then 1 else 2)) 3 = some (1, -2) ∧
    (convNext IntTy.big (new (negPairs fun k => some (1, if k = 0 then 1 else 2)))).toOption.map (·.1) = some (some (-1)) ∧
    (simpNext 5 (new (negPairs fun k => some (1, if k = 0 then 1 else 2)))).map (·.1) = some (some (-1)) := by
  decide +kernel

/-- one digit of a positive fraction before it is converted -/
private theorem raw_step {g : ℕ → ℤ × ℤ} (hp : PosG g) {x : ℝ} (hx : GVal g x) (hirr : Irrational x) {n : ℕ} {s : GIter}
    (h1 : s.src = fun k => some (g k)) (h2 : DecAt x n (gw g x s.pos) s.block) :
    ∃ fuel s', decRaw fuel s = some (some ⌊decTail x n⌋, s') ∧ s'.src = (fun k => some (g k)) ∧
      DecAt x (n + 1) (gw g x s'.pos) s'.block := by
  have hcto := hx.cto hp.1
  have hch := hcto.chain hp.posT
  obtain ⟨j, hj⟩ := eventually_check (g := dropG g s.pos) (w := gw g x s.pos) (hp.posT.drop _)
    (hcto.drop hp.posT s.pos) (ms := s.dblk (dropG g s.pos) IntTy.big.fits) (fun j => GIter.dblk_scal (fun _ => rfl) j)
    h2.1 h2.2.1
    (by
      show Irrational (s.block.num (gw g x s.pos) / s.block.den (gw g x s.pos))
      rw [h2.2.2, mul_div_assoc, div_self h2.2.1.ne', mul_one]
      exact decTail_irrational hirr n)
  obtain ⟨fuel, j', i, r1, r2, h3, hcall⟩ := GIter.decNext_returns (cfg := ⟨false, true⟩) (ty := IntTy.big) (fun _ => rfl)
    (s := s) (g := dropG g s.pos) (fun j => by rw [h1]; rfl) j hj
  -- what the loop returns is an integer and the next state
  have key : ∀ (f : ℕ) (s : GIter), s.src = (fun k => some (g k)) → DecAt x n (gw g x s.pos) s.block →
      decRaw f s = none ∨ ∃ s', decRaw f s = some (some ⌊decTail x n⌋, s') ∧ s'.src = (fun k => some (g k)) ∧
        DecAt x (n + 1) (gw g x s'.pos) s'.block := by
    intro f
    induction f with
    | zero => intro s _ _; exact .inl rfl
    | succ f ih =>
      intro s h1 h2
      rw [decRaw]
      cases hc : s.block.checkInteger with
      | some r =>
        obtain ⟨i, r1, r2⟩ := r
        obtain ⟨hi, hr⟩ := h2.out (hch _).1 hc
        right
        rw [← hi]
        exact ⟨_, rfl, h1, hr⟩
      | none =>
        have hs : s.src s.pos = some ((g s.pos).1, (g s.pos).2) := by rw [h1]
        obtain ⟨p, q, m', hm⟩ := checkedGmove_all (fits := fun _ => true) (fun _ => rfl) s.block (g s.pos).1 (g s.pos).2
        simp only [hs, hm]
        obtain ⟨k1, k2⟩ := dec_move hp hx s _ _ p q m' ⟨h1, h2⟩ hs hm
        exact ih _ k1 k2
  rcases key fuel s h1 h2 with h | ⟨s', h, h'⟩
  · rw [decNext_raw _ _ (fun _ => rfl), h] at hcall
    cases hcall
  · exact ⟨fuel, s', h, h'⟩

private theorem decRaw_mono {n : ℕ} : ∀ {s : GIter} {r}, decRaw n s = some r → ∀ {m}, n ≤ m → decRaw m s = some r := by
  induction n with
  | zero => intro s r h; cases h
  | succ n ih =>
    intro s r h m hm
    obtain ⟨m, rfl⟩ : ∃ k, m = k + 1 := ⟨m - 1, by omega⟩
    rw [decRaw] at h ⊢
    cases hc : s.block.checkInteger with
    | some r' => rw [hc] at h; exact h
    | none =>
      rw [hc] at h
      simp only at h ⊢
      cases hs : s.src s.pos with
      | none => rw [hs] at h; exact h
      | some p =>
        rw [hs] at h
        simp only at h ⊢
        obtain ⟨p', q, m', hm'⟩ := checkedGmove_all (fits := fun _ => true) (fun _ => rfl) s.block p.1 p.2
        rw [hm'] at h ⊢
        exact ih h (by omega)

/-- **C126** partial: `decimals` cannot print negative numbers.  On the negative of a positive irrational fraction it prints
the leading zeros and then panics. -/
theorem decimals_neg_partial (cfg : Cfg) (ty : IntTy) (hf : ∀ n, ty.fits n = true) (g : ℕ → ℤ × ℤ) (hp : PosG g) (x : ℝ)
    (hx : GVal g x) (hirr : Irrational x) (n : ℕ) (h0 : ∀ k < n, ⌊10 ^ k * x⌋ = 0) :
    ∃ s, Outs (DecCall cfg ty) (new (negPairs fun k => some (g k))) (List.replicate n 48) s ∧
      (⌊10 ^ n * x⌋ ≠ 0 → ∃ N, ∀ fuel, N ≤ fuel → decNext cfg ty fuel s = some (.error .unwrapNone)) := by
  have hcto := hx.cto hp.1
  have hch := hcto.chain hp.posT
  have hx0 : 0 < x := (hch 0).1
  -- as long as there are only zeros the rest is the shifted number
  have tail : ∀ m ≤ n, decTail x m = 10 ^ m * x := by
    intro m hm
    cases m with
    | zero => simp [decTail]
    | succ m => rw [decTail_eq, h0 m (by omega)]; simp
  suffices H : ∀ m ≤ n, ∃ s t, Outs (DecCall cfg ty) (new (negPairs fun k => some (g k))) (List.replicate m 48) t ∧
      Mir s t ∧ s.src = (fun k => some (g k)) ∧ DecAt x m (gw g x s.pos) s.block by
    obtain ⟨s, t, h1, h2, h3, h4⟩ := H n le_rfl
    refine ⟨t, h1, fun hn => ?_⟩
    obtain ⟨fuel, s', h5, -, -⟩ := raw_step hp hx hirr h3 h4
    rcases mir_dec fuel s t h2 with ⟨h6, -⟩ | ⟨v, s1, t1, h6, h7, -⟩
    · rw [h6] at h5; cases h5
    · rw [h6] at h5
      cases h5
      refine ⟨fuel, fun f hf' => ?_⟩
      rw [decNext_raw cfg ty hf, decRaw_mono h7 hf', tail n le_rfl]
      have hi : 0 ≤ ⌊10 ^ n * x⌋ := Int.floor_nonneg.mpr (by positivity)
      simp only [Option.map_some]
      rw [digitChar, if_pos (by omega)]
  intro m hm
  induction m with
  | zero =>
    refine ⟨_, _, Outs.nil _, mir_new _, rfl, identity_nonneg, ?_⟩
    simp [GIter.new, Block.identity, Block.num, Block.den, decTail, gw]
  | succ m ih =>
    obtain ⟨s, t, h1, h2, h3, h4⟩ := ih (by omega)
    obtain ⟨fuel, s', h5, h8, h9⟩ := raw_step hp hx hirr h3 h4
    rcases mir_dec fuel s t h2 with ⟨h6, -⟩ | ⟨v, s1, t1, h6, h7, h10⟩
    · rw [h6] at h5; cases h5
    · rw [h6] at h5
      cases h5
      refine ⟨s', t1, ?_, h10, h8, h9⟩
      rw [List.replicate_succ']
      refine Outs.snoc h1 ⟨fuel, fun f hf' => ?_⟩
      rw [decNext_raw cfg ty hf, decRaw_mono h7 hf', tail m (by omega), h0 m (by omega)]
      rfl

/-- `-0.0618…`: two zeros and then the panic; and for `-√2` a panic at once -/
theorem decimals_neg_refuted :
    decRun ⟨false, true⟩ IntTy.big 30 4 (new (negPairs fun k => some (1, if k = 0 then 0 else if k = 1 then 16 else 5)))
      = ([48, 48], some .unwrapNone) ∧
    decRun ⟨false, true⟩ IntTy.big 30 4 (new (negPairs fun k => some (1, if k = 0 then 1 else 2))) = ([], some .unwrapNone) := by
  decide +kernel

end GIter

namespace CF
open GIter

/-- the pairs of `generalized()` -/
private theorem general_src {c : CF} (hp : c.p ≠ []) :
    (fun k => itemAt SignedIter.nextGeneral k c.generalized) =
      if c.neg then negPairs (fun k => some (1, coeffAt (toInts c.a) (toInts c.p) k))
      else fun k => some (1, coeffAt (toInts c.a) (toInts c.p) k) := by
  have h : ∀ k, ((coeffAt c.a c.p k : ℕ) : ℤ) = coeffAt (toInts c.a) (toInts c.p) k := fun k => (coeffAt_toInts _ _).symm
  funext k
  rw [cf_generalized, if_pos (.inl hp), h]
  cases hn : c.neg <;> rfl

private theorem pairs_of {c : CF} (h : c.Wf) (hp : c.p ≠ []) {v : ℝ} (hv : c.HasVal v) :
    PosG (fun k => (1, coeffAt (toInts c.a) (toInts c.p) k)) ∧
      GVal (fun k => (1, coeffAt (toInts c.a) (toInts c.p) k)) |v| ∧ Irrational |v| ∧ c.neg = decide (v < 0) ∧ v ≠ 0 := by
  obtain ⟨h0, hirr, hneg, hlim, -⟩ := coeff_of_val h hp hv
  have h00 : 0 ≤ coeffAt (toInts c.a) (toInts c.p) 0 := by
    rw [coeffAt_toInts]; exact Int.natCast_nonneg _
  obtain ⟨h1, h2⟩ := pairs_val (wf_posSeq h hp) h00
  exact ⟨h1, by rw [hlim]; exact h2, hirr, hneg, h0⟩

/-- **C126** `c.generalized().simplify()` yields the coefficients of `c.coeffs()` again, for positive and negative periodic
fractions. -/
theorem cf_generalized_simplify (c : CF) (h : c.Wf) (hp : c.p ≠ []) (v : ℝ) (hv : c.HasVal v) (n : ℕ) :
    ∃ s, Outs SimpRet (GIter.new fun k => itemAt SignedIter.nextGeneral k c.generalized)
      ((List.range n).map fun k => itemAt SignedIter.next k c.coeffs) s := by
  obtain ⟨h1, h2, hirr, -, -⟩ := pairs_of h hp hv
  obtain ⟨-, -, -, -, hco⟩ := coeff_of_val h hp hv
  have base : ∃ s, Outs SimpRet (GIter.new fun k => some (1, coeffAt (toInts c.a) (toInts c.p) k))
      ((List.range n).map fun k => some ⌊tails |v| k⌋) s := by
    obtain ⟨s, hs⟩ := simplify_productive _ h1 |v| h2 hirr n
    refine ⟨s, ?_⟩
    have : ((List.range n).map fun k => some ⌊tails |v| k⌋) = ((List.range n).map fun k => ⌊tails |v| k⌋).map some := by
      rw [List.map_map]; rfl
    rw [this]
    clear this
    generalize (List.range n).map (fun k => ⌊tails |v| k⌋) = l at hs
    induction hs with
    | nil => exact Outs.nil _
    | snoc _ hc ih =>
      obtain ⟨N, hN⟩ := hc
      rw [List.map_append]
      exact Outs.snoc ih ⟨N, hN N le_rfl⟩
  have hc : ∀ k, itemAt SignedIter.next k c.coeffs = some (signed c.neg ⌊tails |v| k⌋) := by
    intro k
    rw [cf_coeffs, if_pos (.inl hp), hco k]
  rw [general_src hp]
  simp only [hc]
  cases hn : c.neg with
  | false => exact base
  | true =>
    have := (simplify_neg _ _).2 base
    rw [List.map_map] at this
    exact this

example : Wf ⟨[1], [1, 2], true⟩ ∧ (simpNext 9 (GIter.new fun k => itemAt SignedIter.nextGeneral k
    (generalized ⟨[1], [1, 2], true⟩))).map (·.1) = some (some (-1)) :=
  ⟨⟨by decide, by decide, by decide⟩, by decide +kernel⟩

/-- **C126** `c.generalized().decimals()` prints the digits of a positive periodic fraction below ten; for a negative one it
panics after the leading zeros. -/
theorem cf_generalized_decimals (cfg : Cfg) (c : CF) (h : c.Wf) (hp : c.p ≠ []) (v : ℝ) (hv : c.HasVal v) (n : ℕ) :
    (0 < v → v < 10 → ∃ s, Outs (DecCall cfg IntTy.big) (GIter.new fun k => itemAt SignedIter.nextGeneral k c.generalized)
      ((List.range n).map fun k => (48 + ⌊10 ^ k * v⌋ % 10).toNat) s) ∧
    (v < 0 → (∀ k < n, ⌊10 ^ k * |v|⌋ = 0) → ⌊10 ^ n * |v|⌋ ≠ 0 →
      ∃ s, Outs (DecCall cfg IntTy.big) (GIter.new fun k => itemAt SignedIter.nextGeneral k c.generalized)
        (List.replicate n 48) s ∧
        ∃ N, ∀ fuel, N ≤ fuel → decNext cfg IntTy.big fuel s = some (.error .unwrapNone)) := by
  obtain ⟨h1, h2, hirr, hneg, -⟩ := pairs_of h hp hv
  rw [general_src hp, hneg]
  constructor
  · intro h0 h10
    rw [abs_of_pos h0] at h2 hirr
    rw [if_neg (by simpa using h0.le)]
    exact decimals_productive cfg IntTy.big (fun _ => rfl) _ h1 v h2 h10 hirr n
  · intro h0 hz hn
    rw [if_pos (by simpa using h0)]
    obtain ⟨s, h3, h4⟩ := decimals_neg_partial cfg IntTy.big (fun _ => rfl) _ h1 |v| h2 hirr n hz
    exact ⟨s, h3, h4 hn⟩

/-- the digits of `√3 = 1.732…` -/
example : decRun ⟨false, true⟩ IntTy.big 30 4 (GIter.new fun k => itemAt SignedIter.nextGeneral k
    (generalized ⟨[1], [1, 2], false⟩)) = ([49, 55, 51, 50], none) := by decide +kernel

end CF

namespace Surd
open GIter

/-- **C126** So the digits of a positive irrational surd below ten are printed through its continued fraction, unless the
conversion replaces the number by its conjugate (C35). -/
theorem surd_decimals_partial (cfg : Cfg) (s : Surd) (hs : s.RealOk) (hr : s.r ≠ 0) (h0 : 0 < s.val) (h10 : s.val < 10)
    (hv : ¬ Swapped s) (fuel : ℕ) (c : CF) (hc : s.toContfrac cfg fuel = some (.ok (some c))) (n : ℕ) :
    ∃ st, Outs (DecCall cfg IntTy.big) (GIter.new fun k => itemAt CF.SignedIter.nextGeneral k c.generalized)
      ((List.range n).map fun k => (48 + ⌊10 ^ k * s.val⌋ % 10).toNat) st := by
  obtain ⟨w1, w2, -⟩ := surd_toContfrac_value cfg s hs hr fuel c hc
  have hcv := surd_toContfrac_value_partial cfg s hs hr hv (fun hf => absurd hf.1 (by linarith)) fuel c hc
  exact (CF.cf_generalized_decimals cfg c w1 w2 s.val hcv n).1 h0 h10

/-- `√7 = 2.645…` -/
example : toContfrac ⟨false, true⟩ 10 ⟨0, 1, 1, 7⟩ = some (.ok (some ⟨[2], [1, 1, 1, 4], false⟩)) ∧
    decRun ⟨false, true⟩ IntTy.big 30 4 (GIter.new fun k => itemAt CF.SignedIter.nextGeneral k
      (CF.generalized ⟨[2], [1, 1, 1, 4], false⟩)) = ([50, 54, 52, 53], none) := by decide +kernel

end Surd
end NumIrr
