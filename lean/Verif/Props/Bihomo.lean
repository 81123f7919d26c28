/-
C41: the bihomographic function of two continued fractions.
-/
import Verif.Lemmas.HomoStep
import Verif.Model.Infinite

namespace NumIrr

namespace DualBlock

/-- numerator and denominator at real arguments -/
noncomputable def num (m : DualBlock) (x y : ℝ) : ℝ := m.pm11 * (x * y) + m.pm12 * x + m.pm21 * y + m.pm22
noncomputable def den (m : DualBlock) (x y : ℝ) : ℝ := m.qm11 * (x * y) + m.qm12 * x + m.qm21 * y + m.qm22

/-- a move down substitutes `y = a + 1/y'` -/
theorem rmoveDown_value (m : DualBlock) (a : ℤ) (x y y' : ℝ) (hy : y' ≠ 0) (h : y = a + 1 / y') :
    (m.rmoveDown a).num x y' = y' * m.num x y ∧ (m.rmoveDown a).den x y' = y' * m.den x y := by
  subst h
  constructor <;> simp only [rmoveDown, updateDown, num, den] <;> push_cast <;> field_simp <;> ring
example : ((3 : ℤ) + 1 / (4 : ℝ)) = 13 / 4 ∧
    (DualBlock.mk 1 2 3 4 5 6 7 8).rmoveDown 3 = ⟨5, 1, 13, 3, 21, 5, 29, 7⟩ := by
  refine ⟨by norm_num, by decide⟩

/-- a move right should substitute `x = a + 1/x'`, but the denominator is right only if `qm12 = qm22 = 0`, or `a = 0` and
`qm12 = qm22` -/
theorem rmoveRight_value_iff (m : DualBlock) (a : ℤ) :
    (∀ x y x' : ℝ, x' ≠ 0 → x = a + 1 / x' →
      (m.rmoveRight a).num x' y = x' * m.num x y ∧ (m.rmoveRight a).den x' y = x' * m.den x y) ↔
      m.qm12 = m.qm22 ∧ (m.qm12 = 0 ∨ a = 0) := by
  have key : ∀ x y x' : ℝ, x' ≠ 0 → x = a + 1 / x' →
      (m.rmoveRight a).num x' y = x' * m.num x y ∧
        (m.rmoveRight a).den x' y - x' * m.den x y = (m.qm12 - (a * m.qm12 + m.qm22)) * x' + (m.qm22 - m.qm12) := by
    intro x y x' hx h
    subst h
    constructor <;> simp only [rmoveRight, updateRight, num, den] <;> push_cast <;> field_simp <;> ring
  constructor
  · intro h
    have h1 := (h (a + 1 / 1) 0 1 one_ne_zero rfl).2
    have h2 := (h (a + 1 / 2) 0 2 two_ne_zero rfl).2
    have k1 := (key (a + 1 / 1) 0 1 one_ne_zero rfl).2
    have k2 := (key (a + 1 / 2) 0 2 two_ne_zero rfl).2
    rw [h1, sub_self] at k1
    rw [h2, sub_self] at k2
    have e1 : (m.qm12 : ℝ) = m.qm22 := by linarith
    have e2 : (a * m.qm12 : ℝ) = 0 := by linarith
    have e1' : m.qm12 = m.qm22 := by exact_mod_cast e1
    have e2' : a * m.qm12 = 0 := by exact_mod_cast e2
    exact ⟨e1', (mul_eq_zero.mp e2').symm⟩
  · rintro ⟨h1, h2⟩ x y x' hx h
    obtain ⟨k1, k2⟩ := key x y x' hx h
    refine ⟨k1, ?_⟩
    rw [← sub_eq_zero, k2]
    rcases h2 with h2 | h2
    · rw [← h1, h2]; simp
    · rw [← h1, h2]; simp

/-- an output `i` replaces `F` by `1/(F - i)` -/
theorem reduceRecip_value {m m' : DualBlock} {i : ℤ} (h : m.reduceRecip = .ok (.inl i, m')) (x y : ℝ) :
    m'.num x y = m.den x y ∧ m'.den x y = m.num x y - i * m.den x y := by
  unfold reduceRecip at h
  cases hc : m.checkInteger with
  | error e => rw [hc] at h; cases h
  | ok c =>
    rw [hc] at h
    cases c with
    | move r d => cases h
    | int j r11 r12 r21 r22 =>
      cases h
      unfold checkInteger at hc
      split at hc
      · cases hc
      · split at hc
        · cases hc
        · split at hc
          · cases hc
          · simp only at hc
            split at hc
            · rename_i hi
              obtain ⟨h12, h21, h22⟩ := hi
              cases hc
              have d11 := Int.tmod_add_mul_tdiv m.pm11 m.qm11
              have d12 := Int.tmod_add_mul_tdiv m.pm12 m.qm12
              have d21 := Int.tmod_add_mul_tdiv m.pm21 m.qm21
              have d22 := Int.tmod_add_mul_tdiv m.pm22 m.qm22
              rw [← h12] at d12
              rw [← h21] at d21
              rw [← h22] at d22
              generalize m.pm11.tdiv m.qm11 = i at *
              have c11 : (m.pm11.tmod m.qm11 : ℝ) = m.pm11 - m.qm11 * i := by
                rw [eq_sub_iff_add_eq]; exact_mod_cast d11
              have c12 : (m.pm12.tmod m.qm12 : ℝ) = m.pm12 - m.qm12 * i := by
                rw [eq_sub_iff_add_eq]; exact_mod_cast d12
              have c21 : (m.pm21.tmod m.qm21 : ℝ) = m.pm21 - m.qm21 * i := by
                rw [eq_sub_iff_add_eq]; exact_mod_cast d21
              have c22 : (m.pm22.tmod m.qm22 : ℝ) = m.pm22 - m.qm22 * i := by
                rw [eq_sub_iff_add_eq]; exact_mod_cast d22
              refine ⟨rfl, ?_⟩
              simp only [num, den, c11, c12, c21, c22]
              ring
            · cases hc

/-- for non-negative entries an output is the integer part at all positive arguments -/
theorem reduceRecip_floor {m m' : DualBlock} {i : ℤ} (h : m.reduceRecip = .ok (.inl i, m'))
    (hp : 0 ≤ m.pm11 ∧ 0 ≤ m.pm12 ∧ 0 ≤ m.pm21 ∧ 0 ≤ m.pm22) (hq : 0 ≤ m.qm11 ∧ 0 ≤ m.qm12 ∧ 0 ≤ m.qm21 ∧ 0 ≤ m.qm22)
    (x y : ℝ) (hx : 0 < x) (hy : 0 < y) : ⌊m.num x y / m.den x y⌋ = i := by
  have hv := (reduceRecip_value h x y).2
  unfold reduceRecip at h
  cases hc : m.checkInteger with
  | error e => rw [hc] at h; cases h
  | ok c =>
    rw [hc] at h
    cases c with
    | move r d => cases h
    | int j r11 r12 r21 r22 =>
      cases h
      unfold checkInteger at hc
      split at hc
      · cases hc
      · rename_i z22
        split at hc
        · cases hc
        · rename_i z11
          split at hc
          · cases hc
          · rename_i z
            push Not at z
            simp only at hc
            split at hc
            · cases hc
              obtain ⟨p1, p2, p3, p4⟩ := hp
              obtain ⟨q1, q2, q3, q4⟩ := hq
              have bd : ∀ p q : ℤ, 0 ≤ p → 0 ≤ q → q ≠ 0 → (0 : ℝ) ≤ (p.tmod q : ℝ) ∧ ((p.tmod q : ℤ) : ℝ) < q := by
                intro p q hp hq h0
                exact ⟨by exact_mod_cast Int.tmod_nonneg q hp,
                  by exact_mod_cast Int.tmod_lt_of_pos p (lt_of_le_of_ne hq (Ne.symm h0))⟩
              obtain ⟨a1, b1⟩ := bd _ _ p1 q1 z11
              obtain ⟨a2, b2⟩ := bd _ _ p2 q2 z.1
              obtain ⟨a3, b3⟩ := bd _ _ p3 q3 z.2
              obtain ⟨a4, b4⟩ := bd _ _ p4 q4 z22
              have hxy : 0 < x * y := mul_pos hx hy
              have hlo : 0 ≤ m.num x y - (m.pm11.tdiv m.qm11 : ℤ) * m.den x y := by
                rw [← hv]
                simp only [den]
                positivity
              have hhi : m.num x y - (m.pm11.tdiv m.qm11 : ℤ) * m.den x y < m.den x y := by
                rw [← hv]
                simp only [den]
                have := mul_lt_mul_of_pos_right b1 hxy
                have := mul_lt_mul_of_pos_right b2 hx
                have := mul_lt_mul_of_pos_right b3 hy
                linarith
              have hd : 0 < m.den x y := lt_of_le_of_lt hlo hhi
              rw [Int.floor_eq_iff]
              constructor
              · rw [le_div_iff₀ hd]; linarith
              · rw [div_lt_iff₀ hd]; linarith
            · cases hc

end DualBlock

namespace Bihomo

/-- C41 is false for all polynomial functions `axy + bx + cy + d` (denominator `h ≠ 0`), in particular `x + y`, `x - y` and
`xy`: the first call panics, whatever the infinite fractions are. -/
theorem bihomo_polynomial_refuted (xsrc ysrc : ℕ → Option ℤ) (a b c d h x0 x1 y0 y1 : ℤ) (hh : h ≠ 0) (hx0 : xsrc 0 = some x0)
    (hx1 : xsrc 1 = some x1) (hy0 : ysrc 0 = some y0) (hy1 : ysrc 1 = some y1) (hy : y1 ≠ 0) (fuel : ℕ) (hf : 4 ≤ fuel) :
    next fuel (new xsrc ysrc a b c d 0 0 0 h) = some (.error .divZero) := by
  obtain ⟨k, rfl⟩ : ∃ k, fuel = k + 4 := ⟨fuel - 4, by omega⟩
  simp [next, new, DualBlock.new, DualBlock.reduceRecip, DualBlock.checkInteger, moves, stepRight, stepDown,
    DualBlock.rmoveRight, DualBlock.rmoveDown, DualBlock.updateRight, DualBlock.updateDown, hx0, hx1, hy0, hy1, hh, hy]

/-- the sum of `e` and `e` -/
example : next 10 (new (fun k => some (if k = 0 then 2 else 1)) (fun k => some (if k = 0 then 2 else 1)) 0 1 1 0 0 0 0 1)
    = some (.error .divZero) :=
  bihomo_polynomial_refuted _ _ 0 1 1 0 1 2 1 2 1 (by decide) rfl rfl rfl rfl (by decide) 10 (by decide)

/-- The same for quotients `(axy + bx + cy + d)/y`, in particular `x/y`. -/
theorem bihomo_quotient_refuted (xsrc ysrc : ℕ → Option ℤ) (a b c d g x0 y0 : ℤ) (hg : g ≠ 0) (hx0 : xsrc 0 = some x0)
    (hy0 : ysrc 0 = some y0) (hy : y0 ≠ 0) (fuel : ℕ) (hf : 3 ≤ fuel) :
    next fuel (new xsrc ysrc a b c d 0 0 g 0) = some (.error .divZero) := by
  obtain ⟨k, rfl⟩ : ∃ k, fuel = k + 3 := ⟨fuel - 3, by omega⟩
  simp [next, new, DualBlock.new, DualBlock.reduceRecip, DualBlock.checkInteger, moves, stepRight, stepDown,
    DualBlock.rmoveRight, DualBlock.rmoveDown, DualBlock.updateRight, DualBlock.updateDown, hx0, hy0, hg, hy]

/-- The first call never returns when the denominator is `exy + fx + gy` with `f, g ≠ 0`, e.g. for `1/(x + y)`: neither
fraction is consumed. -/
theorem bihomo_hangs (xsrc ysrc : ℕ → Option ℤ) (a b c d e f g : ℤ) (hf : f ≠ 0) (hg : g ≠ 0) (fuel : ℕ) :
    next fuel (new xsrc ysrc a b c d e f g 0) = none := by
  induction fuel with
  | zero => rfl
  | succ n ih =>
    rw [next]
    simp only [new, DualBlock.new, DualBlock.reduceRecip, DualBlock.checkInteger, moves, hf, hg, decide_false, if_true,
      Bool.false_eq_true, if_false]
    exact ih
example (xsrc ysrc : ℕ → Option ℤ) : next 1000 (new xsrc ysrc 1 2 3 4 5 6 7 0) = none :=
  bihomo_hangs xsrc ysrc 1 2 3 4 5 6 7 (by decide) (by decide) 1000

/-- Quotients `(axy + bx + cy + d)/x`, in particular `y/x`: the first call consumes all of `x` and never returns. -/
theorem bihomo_quotient_hangs (xsrc ysrc : ℕ → Option ℤ) (hx : ∀ k, ∃ v, xsrc k = some v) (a b c d f : ℤ) (hf : f ≠ 0)
    (fuel : ℕ) : next fuel (new xsrc ysrc a b c d 0 f 0 0) = none := by
  suffices H : ∀ s : Bihomo, s.xsrc = xsrc → s.block.qm11 = 0 → s.block.qm12 = f → s.block.qm21 = 0 → s.block.qm22 = 0 →
      next fuel s = none from H _ rfl rfl rfl rfl rfl
  induction fuel with
  | zero => intros; rfl
  | succ n ih =>
    intro s h1 h2 h3 h4 h5
    obtain ⟨v, hv⟩ := hx s.xpos
    rw [next]
    simp only [DualBlock.reduceRecip, DualBlock.checkInteger, moves, stepRight, h1, hv, h3, h4, h5, hf, decide_false,
      decide_true, if_true, Bool.false_eq_true, if_false]
    apply ih
    · rfl
    · simp [DualBlock.rmoveRight, DualBlock.updateRight, h2, h4]
    · simp [DualBlock.rmoveRight, DualBlock.updateRight, h3]
    · simp [DualBlock.rmoveRight, DualBlock.updateRight, h2]
    · simp [DualBlock.rmoveRight, DualBlock.updateRight, h5]
example (ysrc : ℕ → Option ℤ) : next 1000 (new (fun _ => some 2) ysrc 0 0 1 0 0 1 0 0) = none :=
  bihomo_quotient_hangs _ ysrc (fun _ => ⟨2, rfl⟩) 0 0 1 0 1 (by decide) 1000

/-- The flags are exchanged: for a function `(ax + c)/(ex + g)` of `x` alone, written with the factor `y + 1`, the call
consumes only `y`, and never returns. -/
theorem bihomo_flags_hang (xsrc ysrc : ℕ → Option ℤ) (hy : ∀ k, ∃ v, ysrc k = some v ∧ 0 ≤ v) (a c e g : ℤ) (he : 0 < e)
    (hg : 0 < g) (hne : a.tdiv e ≠ c.tdiv g) (fuel : ℕ) :
    next fuel (new xsrc ysrc a a c c e e g g) = none := by
  suffices H : ∀ s : Bihomo, s.ysrc = ysrc → (∃ u v : ℤ, 0 < u ∧ 0 < v ∧
      s.block = ⟨a * u, a * v, c * u, c * v, e * u, e * v, g * u, g * v⟩) → next fuel s = none from
    H _ rfl ⟨1, 1, one_pos, one_pos, by simp [new, DualBlock.new]⟩
  induction fuel with
  | zero => intros; rfl
  | succ n ih =>
    rintro s h1 ⟨u, v, u0, v0, hb⟩
    obtain ⟨b, hb1, b0⟩ := hy s.ypos
    have t1 : ∀ p q : ℤ, (p * u).tdiv (q * u) = p.tdiv q := fun p q => Int.mul_tdiv_mul_of_pos_left _ _ u0
    have t2 : ∀ p q : ℤ, (p * v).tdiv (q * v) = p.tdiv q := fun p q => Int.mul_tdiv_mul_of_pos_left _ _ v0
    rw [next]
    simp only [DualBlock.reduceRecip, DualBlock.checkInteger, moves, stepDown, h1, hb1, hb, t1, t2, hne, u0.ne', v0.ne',
      he.ne', hg.ne', mul_eq_zero, or_self, if_false, and_false, ne_eq, not_true_eq_false, not_false_eq_true,
      decide_false, decide_true, if_true, Bool.false_eq_true]
    apply ih
    · rfl
    · refine ⟨b * u + v, u, by positivity, u0, ?_⟩
      simp only [DualBlock.rmoveDown, DualBlock.updateDown, DualBlock.mk.injEq]
      refine ⟨by ring, trivial, by ring, trivial, by ring, trivial, by ring, trivial⟩

/-- `(3x + 1)/(x + 1)` as `(3xy + 3x + y + 1)/(xy + x + y + 1)` -/
example (xsrc : ℕ → Option ℤ) : next 1000 (new xsrc (fun _ => some 1) 3 3 1 1 1 1 1 1) = none :=
  bihomo_flags_hang _ _ (fun _ => ⟨1, rfl, by decide⟩) 3 1 1 1 (by decide) (by decide) (by decide) 1000

/-- a call of `next` which yields `i`, after finitely many steps -/
def Call (s : Bihomo) (i : ℤ) (s' : Bihomo) : Prop := ∃ fuel, next fuel s = some (.ok (some i, s'))

/-- positions never decrease; a call without moves right keeps the value -/
theorem next_value (t : ℕ → ℝ) (x : ℝ) : ∀ (fuel : ℕ) (s s' : Bihomo) (i : ℤ),
    (∀ k v, s.ysrc k = some v → t (k + 1) ≠ 0 ∧ t k = v + 1 / t (k + 1)) →
    next fuel s = some (.ok (some i, s')) → s.xpos ≤ s'.xpos ∧ s'.ysrc = s.ysrc ∧ (s'.xpos = s.xpos →
      ∃ lam : ℝ, lam ≠ 0 ∧ nestPair [i] (s'.block.num x (t s'.ypos), s'.block.den x (t s'.ypos))
        = (lam * s.block.num x (t s.ypos), lam * s.block.den x (t s.ypos))) := by
  intro fuel
  induction fuel with
  | zero => intro s s' i _ h; cases h
  | succ n ih =>
    intro s s' i ht h
    rw [next] at h
    cases hr : s.block.reduceRecip with
    | error e => rw [hr] at h; cases h
    | ok r =>
      rw [hr] at h
      obtain ⟨r, m⟩ := r
      cases r with
      | inl j =>
        cases h
        refine ⟨le_rfl, rfl, fun _ => ⟨1, one_ne_zero, ?_⟩⟩
        obtain ⟨h1, h2⟩ := DualBlock.reduceRecip_value hr x (t s.ypos)
        simp only [nestPair, h1, h2]
        ext <;> simp
      | inr fl =>
        obtain ⟨right, down⟩ := fl
        simp only at h
        cases hm : s.moves right down with
        | mk go s1 =>
          rw [hm] at h
          cases go with
          | false => cases h
          | true =>
            simp only at h
            cases right with
            | true =>
              have hs1 : s.xpos + 1 ≤ s1.xpos ∧ s1.ysrc = s.ysrc := by
                simp only [moves, stepRight, if_true] at hm
                cases hv : s.xsrc s.xpos with
                | none => simp [hv] at hm
                | some v =>
                  rw [hv] at hm
                  simp only [if_true] at hm
                  cases down with
                  | false => cases hm; exact ⟨le_rfl, rfl⟩
                  | true =>
                    simp only [stepDown, if_true] at hm
                    split at hm <;> cases hm
                    exact ⟨le_rfl, rfl⟩
              obtain ⟨h1, h2, -⟩ := ih s1 s' i (by rw [hs1.2]; exact ht) h
              exact ⟨by omega, h2.trans hs1.2, fun h3 => by omega⟩
            | false =>
              cases down with
              | false =>
                simp only [moves, Bool.false_eq_true, if_false, if_true] at hm
                cases hm
                exact ih s s' i ht h
              | true =>
                simp only [moves, Bool.false_eq_true, if_false, if_true, stepDown] at hm
                cases hv : s.ysrc s.ypos with
                | none => simp [hv] at hm
                | some v =>
                  rw [hv] at hm
                  cases hm
                  obtain ⟨h1, h2, h3⟩ := ih { s with block := s.block.rmoveDown v, ypos := s.ypos + 1 } s' i ht h
                  refine ⟨h1, h2, fun h4 => ?_⟩
                  obtain ⟨lam, l0, h5⟩ := h3 h4
                  obtain ⟨t0, t1⟩ := ht s.ypos v hv
                  obtain ⟨e1, e2⟩ := DualBlock.rmoveDown_value s.block v x (t s.ypos) (t (s.ypos + 1)) t0 t1
                  refine ⟨lam * t (s.ypos + 1), mul_ne_zero l0 t0, ?_⟩
                  rw [h5]
                  simp only [e1, e2]
                  ext <;> simp <;> ring

/-- C41, restricted: as long as no coefficient of `x` is consumed, the outputs followed by the block applied to `x` and the
rest of `y` are the value.  (Missing: everything after the first move right, which is wrong by `rmoveRight_value_iff`;
and that calls return, which fails as shown above.) -/
theorem bihomo_partial (xsrc ysrc : ℕ → Option ℤ) (a b c d e f g h : ℤ) (x : ℝ) (t : ℕ → ℝ)
    (ht : ∀ k v, ysrc k = some v → t (k + 1) ≠ 0 ∧ t k = v + 1 / t (k + 1)) {outs : List ℤ} {s : Bihomo}
    (ho : Outs Call (new xsrc ysrc a b c d e f g h) outs s) (hx : s.xpos = 0) :
    ∃ lam : ℝ, lam ≠ 0 ∧ nestPair outs (s.block.num x (t s.ypos), s.block.den x (t s.ypos))
      = (lam * (a * (x * t 0) + b * x + c * t 0 + d), lam * (e * (x * t 0) + f * x + g * t 0 + h)) := by
  suffices H : s.ysrc = ysrc ∧ (s.xpos = 0 →
      ∃ lam : ℝ, lam ≠ 0 ∧ nestPair outs (s.block.num x (t s.ypos), s.block.den x (t s.ypos))
        = (lam * (a * (x * t 0) + b * x + c * t 0 + d), lam * (e * (x * t 0) + f * x + g * t 0 + h))) from H.2 hx
  clear hx
  generalize hs0 : new xsrc ysrc a b c d e f g h = s0 at ho
  induction ho with
  | nil => subst hs0; exact ⟨rfl, fun _ => ⟨1, one_ne_zero, by simp [nestPair, new, DualBlock.new, DualBlock.num, DualBlock.den]⟩⟩
  | @snoc s2 s3 l i _ hcall ih =>
    obtain ⟨h1, h2⟩ := ih
    obtain ⟨fuel, hc⟩ := hcall
    obtain ⟨h3, h4, h5⟩ := next_value t x fuel s2 s3 i (by rw [h1]; exact ht) hc
    refine ⟨h4.trans h1, fun h6 => ?_⟩
    obtain ⟨lam, l0, e1⟩ := h2 (by omega)
    obtain ⟨mu, m0, e2⟩ := h5 (by omega)
    refine ⟨mu * lam, mul_ne_zero m0 l0, ?_⟩
    rw [nestPair_snoc]
    simp only [nestPair] at e2
    rw [e2, nestPair_smul, e1]
    ext <;> simp <;> ring

/-- `(10xy + 11x + 10y + 11)/(3xy + 3x + 3y + 3)`: the first output is `3`, without any move -/
example (xsrc ysrc : ℕ → Option ℤ) :
    Outs Call (new xsrc ysrc 10 11 10 11 3 3 3 3) [3] ⟨⟨3, 3, 3, 3, 1, 2, 1, 2⟩, xsrc, 0, ysrc, 0⟩ :=
  Outs.snoc (Outs.nil _) ⟨1, rfl⟩

end Bihomo
end NumIrr
