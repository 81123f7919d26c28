/- Helper lemmas: the representation invariant of quadratic integers, general facts on operands. -/
import Verif.Lemmas.QIntOps

namespace NumIrr
namespace QInt

variable {cfg : Cfg}

theorem bind_ok {α β : Type} {m : Res α} {f : α → Res β} {b : β} (h : (m >>= f) = .ok b) :
    ∃ a, m = .ok a ∧ f a = .ok b := by
  cases m with
  | error p => cases h
  | ok a => exact ⟨a, rfl, h⟩

theorem Ok.of_d {x y : QInt} (hx : x.Ok cfg) (hd : y.d = x.d) (hb : x.b = 0 → y.b = 0) : y.Ok cfg :=
  ⟨fun e => hb (hx.rational (hd ▸ e)), by rw [hd]; exact hx.mod4, by rw [hd]; exact hx.irrational,
    by rw [hd]; exact hx.real⟩

theorem zero_ok : zero.Ok cfg := ⟨by simp [zero], by simp [zero], by simp [zero], by simp [zero]⟩
theorem one_ok : one.Ok cfg := ⟨by simp [one], by simp [one], by simp [one], by simp [one]⟩

theorem divRemRound_zero_left {y : ℤ} {p : ℤ × ℤ} (h : divRemRound 0 y = .ok p) : p = (0, 0) := by
  by_cases hy : y = 0
  · rw [hy] at h; cases h
  · have := divRemRound_exact 0 hy
    rw [zero_mul, h] at this
    cases this; rfl

theorem divInt_ok {x t : QInt} {k : ℤ} (hx : x.Ok cfg) (e : x.divInt k = .ok t) : t.Ok cfg := by
  unfold divInt at e
  obtain ⟨c, hc, e⟩ := bind_ok e
  cases e
  refine hx.of_d rfl ?_
  intro hb
  unfold QCoeffs.divInt at hc
  obtain ⟨p, hp, hc⟩ := bind_ok hc
  obtain ⟨q, hq, hc⟩ := bind_ok hc
  cases hc
  simp only [coeffs, hb] at hq
  rw [divRemRound_zero_left hq]; rfl

theorem remInt_ok {x t : QInt} {k : ℤ} (hx : x.Ok cfg) (e : x.remInt k = .ok t) : t.Ok cfg := by
  unfold remInt at e
  obtain ⟨c, hc, e⟩ := bind_ok e
  cases e
  refine hx.of_d rfl ?_
  intro hb
  unfold QCoeffs.remInt at hc
  obtain ⟨p, hp, hc⟩ := bind_ok hc
  obtain ⟨q, hq, hc⟩ := bind_ok hc
  cases hc
  simp only [coeffs, hb] at hq
  rw [divRemRound_zero_left hq]; rfl

theorem conj_ok {x t : QInt} (hx : x.Ok cfg) (e : x.conj = .ok t) : t.Ok cfg := by
  unfold conj at e
  obtain ⟨c, hc, e⟩ := bind_ok e
  cases e
  refine hx.of_d rfl ?_
  intro hb
  unfold QCoeffs.conj at hc
  split at hc
  · cases hc; exact hb
  · split at hc <;> cases hc <;> simp [mk', coeffs, hb]

/-- every reachable quadratic integer satisfies the representation invariant -/
theorem reach_ok {x : QInt} (h : Reach cfg x) : x.Ok cfg := by
  induction h with
  | new e => exact new_ok e
  | fromCoeffs e => exact fromCoeffs_ok e
  | zero => exact zero_ok
  | one => exact one_ok
  | conj _ e ih => exact conj_ok ih e
  | neg _ ih => exact ih.of_d rfl (by intro h; simp [neg, h])
  | addInt _ ih => exact ih.of_d rfl (fun h => h)
  | subInt _ ih => exact ih.of_d rfl (fun h => h)
  | @mulInt x k _ ih =>
    unfold mulInt; split
    · exact zero_ok
    · exact ih.of_d rfl (by intro h; simp [mk', coeffs, QCoeffs.mulInt, h])
  | divInt _ e ih => exact divInt_ok ih e
  | remInt _ e ih => exact remInt_ok ih e
  | @add x y t _ _ e ih1 ih2 =>
    unfold add at e
    split at e
    · cases e; exact ih1.of_d rfl (fun h => h)
    · split at e
      · cases e; exact ih2.of_d rfl (fun h => h)
      · obtain ⟨p, hp, e⟩ := bind_ok e; exact fromCoeffs_ok e
  | @sub x y t _ _ e ih1 ih2 =>
    unfold sub at e
    split at e
    · cases e; exact ih1.of_d rfl (fun h => h)
    · split at e
      · cases e; exact ih2.of_d rfl (by intro h; simp [neg, subInt, mk', coeffs, QCoeffs.subInt, h])
      · obtain ⟨p, hp, e⟩ := bind_ok e; exact fromCoeffs_ok e
  | @mul x y t _ _ e ih1 ih2 =>
    have aux : ∀ (x : QInt) (k : ℤ), x.Ok cfg → (x.mulInt k).Ok cfg := by
      intro x k ih
      unfold mulInt; split
      · exact zero_ok
      · exact ih.of_d rfl (by intro h; simp [mk', coeffs, QCoeffs.mulInt, h])
    unfold mul at e
    split at e
    · cases e; exact aux _ _ ih1
    · split at e
      · cases e; exact aux _ _ ih2
      · obtain ⟨p, hp, e⟩ := bind_ok e
        obtain ⟨c, hc, e⟩ := bind_ok e
        exact fromCoeffs_ok e
  | @div x y t _ _ e ih1 ih2 =>
    unfold div at e
    split at e
    · exact divInt_ok ih1 e
    · split at e
      · obtain ⟨c, hc, e⟩ := bind_ok e; exact fromCoeffs_ok e
      · obtain ⟨p, hp, e⟩ := bind_ok e
        obtain ⟨c, hc, e⟩ := bind_ok e
        exact fromCoeffs_ok e
  | @rem x y t _ _ e ih1 ih2 =>
    unfold rem at e
    split at e
    · exact divInt_ok ih1 e
    · obtain ⟨p, hp, e⟩ := bind_ok e
      obtain ⟨c, hc, e⟩ := bind_ok e
      exact fromCoeffs_ok e
  | @surd s t e =>
    unfold Surd.toQuadint at e
    split at e
    · obtain ⟨q, hq, e⟩ := bind_ok e
      cases e; exact new_ok hq
    · obtain ⟨_, _, e⟩ := bind_ok e
      obtain ⟨_, _, e⟩ := bind_ok e
      obtain ⟨q, hq, e⟩ := bind_ok e
      cases e; exact new_ok hq

theorem isRational_iff (x : QInt) : x.isRational = true ↔ x.b = 0 := by simp [isRational]

theorem valC_rational {x : QInt} (h : x.b = 0) : x.valC = x.a := by simp [valC, h]

theorem cval_coeffs (x : QInt) : x.coeffs.cval x.d = x.valC := rfl

/-- `√d` coordinates of a quadratic integer -/
theorem valC_parts (x : QInt) : ∃ p : ℚ × ℚ, x.valC = p.1 + p.2 * rootC x.d ∧
    (x.d ≠ 0 → (p.2 = 0 ↔ x.b = 0)) := by
  unfold valC omegaC
  split
  · refine ⟨(x.a + x.b / 2, x.b / 2), by push_cast; ring, ?_⟩
    intro _; simp
  · refine ⟨(x.a, x.b), by push_cast; ring, ?_⟩
    intro _; simp

/-- norm of a product of coefficients -/
theorem _root_.NumIrr.QCoeffs.norm_mul {x y m : QCoeffs} {d n k : ℤ} (hd : d % 4 ≠ 0)
    (hm : x.mul y d = .ok m) (hx : x.norm d = .ok n) (hy : y.norm d = .ok k) :
    m.norm d = .ok (n * k) := by
  have hd0 : d ≠ 0 := by rintro rfl; simp at hd
  unfold QCoeffs.mul at hm
  unfold QCoeffs.norm at hx hy ⊢
  rw [if_neg hd0] at hx hy ⊢
  rw [mod4d2_eq, if_neg hd] at hm hx hy ⊢
  by_cases h1 : d % 4 = 1
  · rw [if_pos h1] at hm hx hy ⊢
    cases hm; cases hx; cases hy
    simp only
    rw [(QCoeffs.tdiv4 h1).1, (QCoeffs.tdiv4 h1).2]
    congr 1; ring
  · rw [if_neg h1] at hm hx hy ⊢
    cases hm; cases hx; cases hy
    simp only
    congr 1; ring

/-- size of the remainder: `N(y)·N(r) = N(s)` where the coordinates of `s` are at most half of `N(y)` -/
theorem _root_.NumIrr.QCoeffs.divRem_norm {x y q r : QCoeffs} {d : ℤ} (hd : d % 4 ≠ 0)
    (hs : ¬ IsSquare d) (hy : y.cval d ≠ 0) (h : x.divRem y d = .ok (q, r)) :
    ∃ (n k u v l : ℤ), y.norm d = .ok n ∧ n ≠ 0 ∧ r.norm d = .ok k ∧ 2 * |u| ≤ |n| ∧ 2 * |v| ≤ |n| ∧
      (QCoeffs.mk u v).norm d = .ok l ∧ n * k = l := by
  obtain ⟨c, n, hc, hn, h1, h2⟩ := QCoeffs.conj_spec y hd
  have hn0 := QCoeffs.norm_ne_zero hd hs hc hn hy
  obtain ⟨q', r', _, _, e', hxr, -⟩ := QCoeffs.divRem_spec x y hd hs hy
  rw [h] at e'; cases e'
  unfold QCoeffs.divRem at h
  obtain ⟨ab, hab, h⟩ := bind_ok h
  obtain ⟨n', hn', h⟩ := bind_ok h
  rw [hn] at hn'; cases hn'
  obtain ⟨p, hp, h⟩ := bind_ok h
  obtain ⟨s, hs', h⟩ := bind_ok h
  obtain ⟨m, hm, h⟩ := bind_ok h
  obtain ⟨r', hr', h⟩ := bind_ok h
  cases h
  obtain ⟨aq, ar, ea, ha, hla, -⟩ := divRemRound_spec ab.1 hn0
  obtain ⟨bq, br, eb, hb, hlb, -⟩ := divRemRound_spec ab.2 hn0
  rw [hp] at ea; cases ea
  rw [hs'] at eb; cases eb
  obtain ⟨_, l, _, hl, -, -⟩ := QCoeffs.conj_spec ⟨ar, br⟩ hd
  obtain ⟨_, k, _, hk, -, -⟩ := QCoeffs.conj_spec r hd
  refine ⟨n, k, ar, br, l, hn, hn0, hk, hla, hlb, hl, ?_⟩
  have e1 := QCoeffs.norm_mul hd hm hn hl
  -- m = n * r
  obtain ⟨u, v, huv, h3⟩ := QCoeffs.divNumer_spec x y hd hc
  rw [hab] at huv; cases huv
  have hmr : m = ⟨r.a * n, r.b * n⟩ := by
    apply QCoeffs.cval_inj hs
    obtain ⟨m', hm', hmv⟩ := QCoeffs.mul_spec y ⟨ar, br⟩ hd
    rw [hm] at hm'; cases hm'
    have haC : (u : ℂ) = aq * n + ar := by exact_mod_cast ha
    have hbC : (v : ℂ) = bq * n + br := by exact_mod_cast hb
    have e3 : (QCoeffs.mk ar br).cval d = x.cval d * c.cval d - n * (QCoeffs.mk aq bq).cval d := by
      rw [← h3, haC, hbC]; unfold QCoeffs.cval; ring
    have e4 : (QCoeffs.mk (r.a * n) (r.b * n)).cval d = n * r.cval d := by
      unfold QCoeffs.cval; push_cast; ring
    have e5 : r.cval d = x.cval d - (QCoeffs.mk aq bq).cval d * y.cval d := by
      linear_combination -hxr
    rw [hmv, e3, e4, e5, h2]; ring
  have e2 : m.norm d = .ok (n * n * k) := by
    rw [hmr]
    have hd0 : d ≠ 0 := by rintro rfl; simp at hd
    unfold QCoeffs.norm at hk ⊢
    rw [if_neg hd0, mod4d2_eq, if_neg hd] at hk ⊢
    by_cases h1 : d % 4 = 1
    · rw [if_pos h1] at hk ⊢; cases hk; simp only; congr 1; ring
    · rw [if_neg h1] at hk ⊢; cases hk; simp only; congr 1; ring
  rw [e1] at e2
  have e2 := Except.ok.inj e2
  exact mul_left_cancel₀ hn0 (by linarith)

end QInt
end NumIrr
