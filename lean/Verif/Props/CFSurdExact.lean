/-
C37: exactly when the conversion of a continued fraction to a surd returns.
-/
import Verif.Props.CFSurd

namespace NumIrr
namespace CF

private theorem step_det (m : Mob) (v : Nat) (h : (m.a * m.d - m.b * m.c : ℤ) = 1 ∨ (m.a * m.d - m.b * m.c : ℤ) = -1) :
    ((m.step v).a * (m.step v).d - (m.step v).b * (m.step v).c : ℤ) = 1 ∨
    ((m.step v).a * (m.step v).d - (m.step v).b * (m.step v).c : ℤ) = -1 := by
  have e : ((m.step v).a * (m.step v).d - (m.step v).b * (m.step v).c : ℤ) = -(m.a * m.d - m.b * m.c : ℤ) := by
    simp only [Mob.step]; push_cast; ring
  rw [e]
  rcases h with h | h <;> rw [h] <;> simp

private theorem ofRev_det {l : List Nat} {m : Mob} (h : Mob.ofRev l = .ok m) :
    (m.a * m.d - m.b * m.c : ℤ) = 1 ∨ (m.a * m.d - m.b * m.c : ℤ) = -1 := by
  cases l with
  | nil => cases h
  | cons v vs =>
    cases h
    suffices H : ∀ (l : List Nat) (m : Mob), ((m.a * m.d - m.b * m.c : ℤ) = 1 ∨ (m.a * m.d - m.b * m.c : ℤ) = -1) →
        (((l.foldl Mob.step m).a * (l.foldl Mob.step m).d - (l.foldl Mob.step m).b * (l.foldl Mob.step m).c : ℤ) = 1 ∨
        ((l.foldl Mob.step m).a * (l.foldl Mob.step m).d - (l.foldl Mob.step m).b * (l.foldl Mob.step m).c : ℤ) = -1) from
      H vs _ (by simp)
    intro l
    induction l with
    | nil => exact fun m h => h
    | cons w l ih => exact fun m h => ih _ (step_det m w h)

private theorem nonzero_root {x z : Surd} (hx : x.r ≠ 0)
    (h : (z.r = 0 ∧ x.r = 0) ∨ ∃ n : ℤ, 0 < n ∧ x.r = n * n * z.r) : ∃ n : ℤ, 0 < n ∧ x.r = n * n * z.r ∧ z.r ≠ 0 := by
  rcases h with ⟨-, h⟩ | ⟨n, h1, h2⟩
  · exact absurd h hx
  · exact ⟨n, h1, h2, fun e => hx (by rw [h2, e, mul_zero])⟩

private theorem compat_iff {r x y k l : ℤ} (hr : r ≠ 0) (hk : 0 < k) (hl : 0 < l) (h1 : r = k * k * x) (h2 : r = l * l * y) :
    (∃ j : ℤ, x = j * j * y ∨ y = j * j * x) ↔ k ∣ l ∨ l ∣ k := by
  have hx : x ≠ 0 := fun e => hr (by rw [h1, e, mul_zero])
  have hy : y ≠ 0 := fun e => hr (by rw [h2, e, mul_zero])
  constructor
  · rintro ⟨j, e | e⟩
    · left
      have : l ^ 2 = (k * j) ^ 2 := mul_right_cancel₀ hy (by rw [e] at h1; linear_combination h1 - h2)
      rw [← Int.natAbs_dvd_natAbs, ← Nat.pow_dvd_pow_iff (two_ne_zero), ← Int.natAbs_pow, ← Int.natAbs_pow, this]
      exact Int.natAbs_dvd_natAbs.2 ⟨j ^ 2, by ring⟩
    · right
      have : k ^ 2 = (l * j) ^ 2 := mul_right_cancel₀ hx (by rw [e] at h2; linear_combination h2 - h1)
      rw [← Int.natAbs_dvd_natAbs, ← Nat.pow_dvd_pow_iff (two_ne_zero), ← Int.natAbs_pow, ← Int.natAbs_pow, this]
      exact Int.natAbs_dvd_natAbs.2 ⟨j ^ 2, by ring⟩
  · rintro (⟨j, rfl⟩ | ⟨j, rfl⟩)
    · refine ⟨j, .inl (mul_left_cancel₀ (mul_pos hk hk).ne' ?_)⟩
      linear_combination h2 - h1
    · refine ⟨j, .inr (mul_left_cancel₀ (mul_pos hl hl).ne' ?_)⟩
      linear_combination h1 - h2

private theorem pure_sq {x : Surd} (hx : x.RealOk) (ha : x.a = 0) : ∃ q : ℚ, x.val ^ 2 = q := by
  refine ⟨(x.b : ℚ) ^ 2 * x.r / x.c ^ 2, ?_⟩
  have hr : (0 : ℝ) ≤ x.r := by exact_mod_cast hx.real
  unfold Surd.val quadR
  rw [ha, div_pow]
  push_cast
  rw [zero_add, mul_pow, Real.sq_sqrt hr]

private theorem pure_absurd {z u v : ℝ} {A B C D : ℕ} (hi : Irrational z) (hu : u = A * (1 / z) + B)
    (hv : v = C * (1 / z) + D) (hA : 1 ≤ A) (hC : 1 ≤ C) (hdet : (A * D - B * C : ℤ) = 1 ∨ (A * D - B * C : ℤ) = -1)
    {p q : ℚ} (hp : u ^ 2 = p) (hq : v ^ 2 = q) : False := by
  have hA' : (A : ℝ) ≠ 0 := by exact_mod_cast (by omega : A ≠ 0)
  have hC' : (C : ℝ) ≠ 0 := by exact_mod_cast (by omega : C ≠ 0)
  have key : ∀ e : ℝ, (A * D - B * C : ℝ) = e → e * e = 1 → 2 * A * e * v = A ^ 2 * q + 1 - C ^ 2 * p := by
    intro e he he1
    have h1 : A * v - C * u = e := by rw [hu, hv, ← he]; ring
    rw [← hp, ← hq]
    have h2 : C * u = A * v - e := by linarith
    have h3 : (C * u) ^ 2 = (A * v - e) ^ 2 := by rw [h2]
    linear_combination h3 + he1
  obtain ⟨w, hw⟩ : ∃ w : ℚ, v = w := by
    rcases hdet with h | h
    · have := key 1 (by exact_mod_cast h) (by ring)
      refine ⟨(A ^ 2 * q + 1 - C ^ 2 * p) / (2 * A), ?_⟩
      push_cast
      rw [eq_div_iff (by positivity), ← this]; ring
    · have := key (-1) (by exact_mod_cast h) (by ring)
      refine ⟨-(A ^ 2 * q + 1 - C ^ 2 * p) / (2 * A), ?_⟩
      push_cast
      rw [eq_div_iff (by positivity), ← this]; ring
  apply hi
  refine ⟨((w - D) / C)⁻¹, ?_⟩
  push_cast
  rw [← hw, hv, add_sub_cancel_right, mul_div_cancel_left₀ _ hC', one_div, inv_inv]

/-- **C37** exactly when it returns.  With at least three aperiodic coefficients, let `x ↦ (Ax + B)/(Cx + D)` be the function that puts the
aperiodic coefficients after the first in front of `1/x`, and `ps` the surd of the period. The numerator `A·ps + B` and the
denominator `C·ps + D` are reduced by the library on their own and so lose squares `k²` and `l²` from the root of `ps`. The
conversion returns exactly if one of `k` and `l` divides the other; otherwise it panics because of incompatible roots. -/
theorem cf_toSurd_returns_iff (cfg : Cfg) (c : CF) (h : c.Wf) (hp : c.p ≠ []) (hl : 3 ≤ c.a.length) :
    ∃ (ps n d : Surd) (A B C D : ℕ) (k l : ℤ), periodSurd cfg c.p = .ok ps ∧
      (∀ y : ℝ, 0 < y → (A * y + B) / (C * y + D) = 1 / chain c.a.tail (1 / y)) ∧
      ((A * D - B * C : ℤ) = 1 ∨ (A * D - B * C : ℤ) = -1) ∧
      (ps.mulInt cfg A >>= fun s => s.addInt cfg B) = .ok n ∧ (ps.mulInt cfg C >>= fun s => s.addInt cfg D) = .ok d ∧
      0 < k ∧ ps.r = k * k * n.r ∧ 0 < l ∧ ps.r = l * l * d.r ∧
      ((∃ s, c.toSurd cfg = .ok s) ↔ k ∣ l ∨ l ∣ k) ∧
      (c.toSurd cfg = .error .incompatible ↔ ¬ (k ∣ l ∨ l ∣ k)) := by
  obtain ⟨ps, z, e1, o1, hz, hv, hval⟩ := periodSurd_spec cfg hp h.2.2
  obtain ⟨ha, hat, hp1⟩ := h
  obtain ⟨a, p, neg⟩ := c
  cases a with
  | nil => exact absurd rfl ha
  | cons a0 as =>
  simp only [List.tail_cons] at hat ⊢
  simp only at e1 hp hp1
  simp only [List.length_cons] at hl
  have hne : as ≠ [] := by rintro rfl; simp at hl
  obtain ⟨m, hm, hb, hc, hd, ha2, -, hf⟩ := ofRev_spec hne hat
  have hA := ha2 (by omega)
  have h0 : 0 < ps.val := by rw [hval]; positivity
  have hi : Irrational z := by
    obtain ⟨x, hx, hi⟩ := valOf_exists [] (toInts p) (toInts_ne_nil hp) (by
      intro v hv
      obtain ⟨w, hw, rfl⟩ := List.mem_map.1 hv
      exact_mod_cast hp1 w hw)
    rwa [valOf_unique hx hv] at hi
  have hpr : ps.r ≠ 0 := by
    intro hr
    apply hi
    have hb0 := o1.rational.2 hr
    refine ⟨((ps.a : ℚ) / ps.c)⁻¹, ?_⟩
    have : ps.val = ((ps.a : ℚ) / ps.c : ℚ) := by
      unfold Surd.val quadR; rw [hb0]; push_cast; simp
    rw [Rat.cast_inv, ← this, hval, one_div, inv_inv]
  obtain ⟨n1, f1, v1, q1, r1⟩ := Surd.mulInt_real o1 cfg m.a
  obtain ⟨n2, f2, v2, q2, r2⟩ := Surd.addInt_real q1 cfg m.b
  obtain ⟨d1, f3, v3, q3, r3⟩ := Surd.mulInt_real o1 cfg m.c
  obtain ⟨d2, f4, v4, q4, r4⟩ := Surd.addInt_real q3 cfg m.d
  have hmul : ∀ {x z : Surd} {j : ℕ}, 1 ≤ j → ((z.r = 0 ∧ (x.r = 0 ∨ (j : ℤ) = 0)) ∨ ∃ n : ℤ, 0 < n ∧ x.r = n * n * z.r) →
      ((z.r = 0 ∧ x.r = 0) ∨ ∃ n : ℤ, 0 < n ∧ x.r = n * n * z.r) := by
    rintro x z j hj (⟨h1, h2 | h2⟩ | h2)
    · exact .inl ⟨h1, h2⟩
    · omega
    · exact .inr h2
  obtain ⟨k1, hk1, g1, z1⟩ := nonzero_root hpr (hmul hA r1)
  obtain ⟨k2, hk2, g2, z2⟩ := nonzero_root z1 r2
  obtain ⟨l1, hl1, g3, z3⟩ := nonzero_root hpr (hmul hc r3)
  obtain ⟨l2, hl2, g4, z4⟩ := nonzero_root z3 r4
  have hn : n2.val = m.a * ps.val + m.b := by rw [v2, v1]; push_cast; ring
  have hdv : d2.val = m.c * ps.val + m.d := by rw [v4, v3]; push_cast; ring
  have hb' : (1 : ℝ) ≤ m.b := by exact_mod_cast hb
  have hc' : (1 : ℝ) ≤ m.c := by exact_mod_cast hc
  have hd' : (1 : ℝ) ≤ m.d := by exact_mod_cast hd
  have hts : toSurd cfg ⟨a0 :: as, p, neg⟩ = (n2.div cfg d2 >>= fun s => s.addInt cfg a0 >>= fun s =>
      .ok (if neg then s.neg else s)) := by
    unfold toSurd
    rw [if_neg (by simp [isRational, hp])]
    simp only
    rw [e1]
    show (tailSurd cfg (a0 :: as) ps >>= _) = _
    unfold tailSurd
    rw [if_neg (by simpa using hne)]
    show ((Mob.ofRev as.reverse >>= _) >>= _) = _
    rw [hm]
    show ((ps.mulInt cfg m.a >>= _) >>= _) = _
    rw [f1]
    show ((n1.addInt cfg m.b >>= _) >>= _) = _
    rw [f2]
    show ((ps.mulInt cfg m.c >>= _) >>= _) = _
    rw [f3]
    show ((d1.addInt cfg m.d >>= _) >>= _) = _
    rw [f4]
    rfl
  have hp' := compat_iff hpr (k := k1 * k2) (l := l1 * l2) (x := n2.r) (y := d2.r) (by positivity) (by positivity)
    (by rw [g1, g2]; ring) (by rw [g3, g4]; ring)
  have key : ((∃ s, n2.div cfg d2 = .ok s) ∧ n2.Compatible d2) ∨ (n2.div cfg d2 = .error .incompatible ∧ ¬ n2.Compatible d2) := by
    have hnv : n2.val ≠ 0 := by rw [hn]; positivity
    have hdv' : d2.val ≠ 0 := by rw [hdv]; positivity
    by_cases hcomp : n2.Compatible d2
    · rcases div_real cfg q2 q4 hnv hdv' with ⟨s, h1, -⟩ | ⟨-, -, -, h1⟩
      · exact .inl ⟨⟨s, h1⟩, hcomp⟩
      · exact absurd hcomp h1
    · rcases div_real cfg q2 q4 hnv hdv' with ⟨s, h1, -⟩ | ⟨h1, -⟩
      · exfalso
        obtain ⟨-, g⟩ := (surd_div_returns_iff cfg n2 d2 (q2.toOk cfg) (q4.toOk cfg)).1 ⟨s, h1⟩
        rcases g with g | g | ⟨-, ⟨ga, gb⟩ | g⟩
        · exact z4 g
        · exact z2 g.1
        · have hnorm := ofRev_det hm
          obtain ⟨u, hu⟩ := pure_sq q2 ga
          obtain ⟨v, hv'⟩ := pure_sq q4 gb
          exact pure_absurd hi (by rw [hval] at hn; exact hn) (by rw [hval] at hdv; exact hdv) hA hc hnorm hu hv'
        · exact hcomp g
      · exact .inr ⟨h1, hcomp⟩
  refine ⟨ps, n2, d2, m.a, m.b, m.c, m.d, k1 * k2, l1 * l2, e1, hf, ofRev_det hm, ?_, ?_, by positivity,
    by rw [g1, g2]; ring, by positivity, by rw [g3, g4]; ring, ?_⟩
  · rw [f1]; exact f2
  · rw [f3]; exact f4
  rw [hts, ← hp']
  rcases key with ⟨⟨s, h1⟩, h2⟩ | ⟨h1, h2⟩
  · rw [h1]
    obtain ⟨-, o, -⟩ := surd_div_value_real cfg _ _ _ q2 q4 h1
    obtain ⟨t, e3, -⟩ := Surd.addInt_real o cfg a0
    simp only [Surd.ok_bind]
    rw [e3]
    simp only [Surd.ok_bind]
    exact ⟨⟨fun _ => h2, fun _ => ⟨_, rfl⟩⟩, ⟨fun h => by simp at h, fun h => absurd h2 h⟩⟩
  · rw [h1]
    refine ⟨⟨fun h => ?_, fun h => absurd h h2⟩, ⟨fun _ => h2, fun _ => rfl⟩⟩
    obtain ⟨s, hs⟩ := h
    cases hs

/-- both cases occur -/
example : Wf ⟨[0, 1, 2], [2, 20, 14, 27], false⟩ ∧ Wf ⟨[0, 1, 2, 1], [2, 20, 14, 27], false⟩ ∧
    (∃ s, toSurd ⟨false, true⟩ ⟨[0, 1, 2], [2, 20, 14, 27], false⟩ = .ok s) ∧
    toSurd ⟨false, true⟩ ⟨[0, 1, 2, 1], [2, 20, 14, 27], false⟩ = .error .incompatible :=
  ⟨⟨by decide, by decide, by decide⟩, ⟨by decide, by decide, by decide⟩,
    ⟨_, (by decide +kernel : toSurd ⟨false, true⟩ ⟨[0, 1, 2], [2, 20, 14, 27], false⟩ = .ok ⟨42431, -24, 48359, 109368⟩)⟩, by decide +kernel⟩

end CF
end NumIrr
