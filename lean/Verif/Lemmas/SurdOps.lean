/- Helper lemmas: constructors, scalar operands and the root matching of binary operations. -/
import Verif.Lemmas.SurdReduce
import Verif.Spec.SurdOps

namespace NumIrr
namespace Surd

theorem Ok.ne_zero {cfg : Cfg} {s : Surd} (h : s.Ok cfg) : s.c ≠ 0 := h.c_pos.ne'

theorem fromCoeffs_eq_new (cfg : Cfg) (x : Coeffs) (r : ℤ) :
    fromCoeffs cfg x r = new cfg x.a x.b x.c r := rfl

/-- the constructor on good arguments -/
theorem new_spec {cfg : Cfg} {a b c r : ℤ} (hc : c ≠ 0) (hr : cfg.complex = false → 0 ≤ r) :
    ∃ t, new cfg a b c r = .ok t ∧ t.valC = quadC a b c r ∧ t.Ok cfg ∧ (0 ≤ r → 0 ≤ t.r) ∧
      ((t.r = 0 ∧ (b = 0 ∨ IsSquare r)) ∨ (b ≠ 0 ∧ ¬ IsSquare r ∧ ∃ k : ℤ, 0 < k ∧ r = k * k * t.r)) := by
  have hif : ¬ (cfg.complex = false ∧ r < 0) := fun h => not_lt.mpr (hr h.1) h.2
  obtain ⟨t, h1, h2, h3, h4⟩ := reduce_spec (s := ⟨a, b, c, r⟩) hc
  refine ⟨t, ?_, h2, ⟨h3, fun hf => reduce_sign_nonneg h1 (hr hf)⟩,
    fun h => reduce_sign_nonneg h1 h, h4⟩
  unfold new
  rw [if_neg hif, h1]

theorem new_inv {cfg : Cfg} {a b c r : ℤ} {t : Surd} (h : new cfg a b c r = .ok t) :
    c ≠ 0 ∧ (cfg.complex = false → 0 ≤ r) := by
  unfold new at h
  split at h
  · cases h
  · next hif =>
    constructor
    · rintro rfl
      rw [reduce_zero rfl] at h; cases h
    · intro hf
      by_contra hn
      exact hif ⟨hf, not_le.mp hn⟩

theorem new_ok {cfg : Cfg} {a b c r : ℤ} {t : Surd} (h : new cfg a b c r = .ok t) :
    t.valC = quadC a b c r ∧ t.Ok cfg := by
  obtain ⟨h1, h2⟩ := new_inv h
  obtain ⟨t', e, h3, h4, _⟩ := new_spec h1 h2 (a := a) (b := b)
  rw [h] at e; cases e
  exact ⟨h3, h4⟩

theorem new_ok_nonneg {cfg : Cfg} {a b c r : ℤ} {t : Surd} (h : new cfg a b c r = .ok t)
    (hr : 0 ≤ r) : 0 ≤ t.r := by
  obtain ⟨h1, h2⟩ := new_inv h
  obtain ⟨t', e, _, _, h5, _⟩ := new_spec h1 h2 (a := a) (b := b)
  rw [h] at e; cases e
  exact h5 hr

theorem ratioNew_ok {n d : ℤ} (h : d ≠ 0) : ratioNew n d = .ok (Rat.divInt n d) := by
  unfold ratioNew; rw [if_neg h]

theorem ok_bind {α β : Type} (a : α) (f : α → Res β) : (Except.ok a >>= f : Res β) = f a := rfl

/-! ### rational surds -/

theorem valC_of_rational {s : Surd} (h : s.isRational = true) : s.valC = (s.a : ℂ) / s.c := by
  simp only [isRational, Bool.or_eq_true, decide_eq_true_eq] at h
  unfold valC quadC
  rcases h with h | h <;> simp [h]

theorem divInt_cast (n d : ℤ) : ((Rat.divInt n d : ℚ) : ℂ) = (n : ℂ) / d := by
  rw [Rat.divInt_eq_div]; push_cast; rfl

theorem Normal.isRational_iff {s : Surd} (h : s.Normal) : s.isRational = true ↔ s.r = 0 := by
  simp only [isRational, Bool.or_eq_true, decide_eq_true_eq]
  have := h.rational; tauto

theorem Normal.isRational_false {s : Surd} (h : s.Normal) (hf : ¬ s.isRational = true) :
    s.b ≠ 0 ∧ s.r ≠ 0 ∧ ¬ IsSquare s.r := by
  have h1 : s.r ≠ 0 := fun e => hf (h.isRational_iff.mpr e)
  have h2 : s.b ≠ 0 := fun e => h1 (h.rational.mp e)
  exact ⟨h2, h1, h.irrational h1⟩

/-! ### scalar operands -/

theorem rat_den_ne (q : ℚ) : ((q.den : ℤ) : ℂ) ≠ 0 := by
  have := q.den_nz; exact_mod_cast this

theorem rat_cast_eq (q : ℚ) : (q : ℂ) = (q.num : ℂ) / ((q.den : ℤ) : ℂ) := by
  rw [Rat.cast_def]; push_cast; rfl

theorem addRat_quad {s : Surd} (hc : s.c ≠ 0) (q : ℚ) :
    (s.coeffs.addRat q).c ≠ 0 ∧
    quadC (s.coeffs.addRat q).a (s.coeffs.addRat q).b (s.coeffs.addRat q).c s.r = s.valC + q := by
  have hq := rat_den_ne q
  have hc' : (s.c:ℂ) ≠ 0 := by exact_mod_cast hc
  have hqz : (q.den : ℤ) ≠ 0 := by exact_mod_cast q.den_nz
  unfold Coeffs.addRat coeffs
  simp only
  split
  · next h =>
    refine ⟨hc, ?_⟩
    rw [rat_cast_eq q, ← h]
    unfold valC quadC
    push_cast
    field_simp
    ring
  · refine ⟨mul_ne_zero hc hqz, ?_⟩
    rw [rat_cast_eq q]
    unfold valC quadC
    push_cast at hq ⊢
    field_simp
    ring

theorem subRat_quad {s : Surd} (hc : s.c ≠ 0) (q : ℚ) :
    (s.coeffs.subRat q).c ≠ 0 ∧
    quadC (s.coeffs.subRat q).a (s.coeffs.subRat q).b (s.coeffs.subRat q).c s.r = s.valC - q := by
  have hq := rat_den_ne q
  have hc' : (s.c:ℂ) ≠ 0 := by exact_mod_cast hc
  have hqz : (q.den : ℤ) ≠ 0 := by exact_mod_cast q.den_nz
  unfold Coeffs.subRat coeffs
  simp only
  split
  · next h =>
    refine ⟨hc, ?_⟩
    rw [rat_cast_eq q, ← h]
    unfold valC quadC
    push_cast
    field_simp
    ring
  · refine ⟨mul_ne_zero hc hqz, ?_⟩
    rw [rat_cast_eq q]
    unfold valC quadC
    push_cast at hq ⊢
    field_simp
    ring

theorem mulRat_quad {s : Surd} (hc : s.c ≠ 0) (q : ℚ) :
    (s.coeffs.mulRat q).c ≠ 0 ∧
    quadC (s.coeffs.mulRat q).a (s.coeffs.mulRat q).b (s.coeffs.mulRat q).c s.r = s.valC * q := by
  have hq := rat_den_ne q
  have hc' : (s.c:ℂ) ≠ 0 := by exact_mod_cast hc
  have hqz : (q.den : ℤ) ≠ 0 := by exact_mod_cast q.den_nz
  unfold Coeffs.mulRat coeffs
  refine ⟨mul_ne_zero hc hqz, ?_⟩
  rw [rat_cast_eq q]
  unfold valC quadC
  push_cast at hq ⊢
  field_simp

theorem divRat_quad {s : Surd} (hc : s.c ≠ 0) {q : ℚ} (hq0 : q ≠ 0) :
    (s.coeffs.divRat q).c ≠ 0 ∧
    quadC (s.coeffs.divRat q).a (s.coeffs.divRat q).b (s.coeffs.divRat q).c s.r = s.valC / q := by
  have hq := rat_den_ne q
  have hc' : (s.c:ℂ) ≠ 0 := by exact_mod_cast hc
  have hn : q.num ≠ 0 := Rat.num_ne_zero.mpr hq0
  have hn' : (q.num : ℂ) ≠ 0 := by exact_mod_cast hn
  unfold Coeffs.divRat coeffs
  refine ⟨mul_ne_zero hc hn, ?_⟩
  rw [rat_cast_eq q]
  unfold valC quadC
  push_cast at hq ⊢
  field_simp

/-! ### matching the roots of two operands -/

theorem reduceRootHinted_spec {s : Surd} (hc : 0 < s.c) (hint : ℤ) :
    reduceRootHinted s hint = s ∨
    ∃ k : ℤ, 0 < k ∧ s.r = k * k * (reduceRootHinted s hint).r ∧ 0 < (reduceRootHinted s hint).c ∧
      (reduceRootHinted s hint).valC = s.valC := by
  unfold reduceRootHinted
  simp only
  split
  · exact .inl rfl
  · next hh =>
    split
    · next hrem =>
      split
      · next hsq =>
        right
        have hd : (hint.natAbs : ℤ) ∣ s.r := Int.dvd_of_tmod_eq_zero hrem
        have hk0 := isqrt_nonneg (hint.natAbs : ℤ)
        generalize hkk : isqrt (hint.natAbs : ℤ) = k at *
        have hk : 0 < k := by
          rcases eq_or_lt_of_le hk0 with h0 | h0
          · exfalso; apply hh; left; rw [← hsq, ← h0]; simp
          · exact h0
        have hr : s.r = k * k * s.r.tdiv (hint.natAbs : ℤ) := by
          rw [hsq, mul_comm]; exact (tdiv_mul_of_dvd hd).symm
        refine ⟨k, hk, hr, ?_⟩
        have hg := igcd_pos_right (igcd k s.a) hc.ne'
        have d1 : igcd (igcd k s.a) s.c ∣ s.a := (igcd_dvd_left _ _).trans (igcd_dvd_right _ _)
        have d2 : igcd (igcd k s.a) s.c ∣ s.b * k :=
          ((igcd_dvd_left _ _).trans (igcd_dvd_left _ _)).trans (Dvd.intro_left _ rfl)
        have d3 : igcd (igcd k s.a) s.c ∣ s.c := igcd_dvd_right _ _
        generalize igcd (igcd k s.a) s.c = g at *
        have e1 := tdiv_mul_of_dvd d1
        have e2 := tdiv_mul_of_dvd d2
        have e3 := tdiv_mul_of_dvd d3
        constructor
        · rw [← e3] at hc
          exact pos_of_mul_pos_left hc hg.le
        · unfold valC
          conv_rhs => rw [hr, quadC_root_move hk.le, ← e1, ← e2, ← e3]
          rw [quadC_scale hg.ne']
      · exact .inl rfl
    · exact .inl rfl

theorem reduceRootHinted_hit {s : Surd} {d : ℤ} (hd : d ≠ 0)
    (habs : d.natAbs < s.r.natAbs) {k : ℤ} (h : s.r = k * k * d) :
    (reduceRootHinted s (s.r.tdiv d)).r = d := by
  have hq : s.r.tdiv d = k * k := by
    rw [h]; exact Int.mul_tdiv_cancel _ hd
  have hkk : 1 < k * k := by
    rw [h, Int.natAbs_mul] at habs
    have : 0 < d.natAbs := Int.natAbs_pos.mpr hd
    have h1 : 1 < (k*k).natAbs := by
      by_contra hn
      have : (k*k).natAbs * d.natAbs ≤ 1 * d.natAbs := Nat.mul_le_mul_right _ (by omega)
      omega
    have h2 : (0:ℤ) ≤ k * k := mul_self_nonneg k
    omega
  have hna : ((k * k).natAbs : ℤ) = k * k := Int.natAbs_of_nonneg (mul_self_nonneg k)
  unfold reduceRootHinted
  simp only
  rw [hq, hna, if_neg (by omega), if_pos, if_pos]
  · simp only
    rw [h, mul_comm (k*k) d]; exact Int.mul_tdiv_cancel _ (by omega)
  · exact (isqrt_mul_self_eq_iff (mul_self_nonneg k)).mpr ⟨k, rfl⟩
  · rw [h]; exact Int.mul_tmod_right _ _

/-- result of matching -/
structure Matched (x y : Surd) (p : Surd × Surd) : Prop where
  v1 : p.1.valC = x.valC
  v2 : p.2.valC = y.valC
  c1 : 0 < p.1.c
  c2 : 0 < p.2.c
  r12 : p.1.r = p.2.r
  rxy : p.1.r = x.r ∨ p.1.r = y.r

private theorem match_left {x y : Surd} (hx : 0 < x.c) (hy : 0 < y.c) (hy0 : y.r ≠ 0)
    (h : y.r.natAbs < x.r.natAbs) :
    (x.Compatible y → Matched x y (x.reduceRootHinted (x.r.tdiv y.r), y)) ∧
    (¬ x.Compatible y → (x.reduceRootHinted (x.r.tdiv y.r)).r ≠ y.r) := by
  constructor
  · rintro ⟨k, hk⟩
    have hk' : x.r = k * k * y.r := by
      rcases hk with hk | hk
      · exact hk
      · exfalso
        rw [hk, Int.natAbs_mul] at h
        have : (k*k).natAbs ≠ 0 := by
          intro e
          have : k * k = 0 := Int.natAbs_eq_zero.mp e
          rw [this] at hk; simp at hk; exact hy0 hk
        have : 1 * x.r.natAbs ≤ (k*k).natAbs * x.r.natAbs := Nat.mul_le_mul_right _ (by omega)
        omega
    have hr := reduceRootHinted_hit hy0 h hk'
    rcases reduceRootHinted_spec hx (x.r.tdiv y.r) with e | ⟨m, hm, h1, h2, h3⟩
    · exfalso; rw [e] at hr; rw [hr] at h; omega
    · exact ⟨h3, rfl, h2, hy, hr, .inr hr⟩
  · intro hn e
    apply hn
    rcases reduceRootHinted_spec hx (x.r.tdiv y.r) with e' | ⟨m, hm, h1, h2, h3⟩
    · rw [e'] at e; exact ⟨1, by left; rw [e]; ring⟩
    · exact ⟨m, by left; rw [← e]; exact h1⟩

theorem compatible_symm {x y : Surd} (h : x.Compatible y) : y.Compatible x := by
  obtain ⟨k, hk⟩ := h; exact ⟨k, hk.symm⟩

theorem reduceBinOp_spec {cfg : Cfg} {x y : Surd} (hx : 0 < x.c) (hy : 0 < y.c)
    (hx0 : x.r ≠ 0) (hy0 : y.r ≠ 0) (hxr : cfg.complex = false → 0 ≤ x.r)
    (hyr : cfg.complex = false → 0 ≤ y.r) :
    (x.Compatible y → ∃ p, reduceBinOp cfg x y = .ok (some p) ∧ Matched x y p) ∧
    (¬ x.Compatible y → reduceBinOp cfg x y = .ok none) := by
  have key : ∀ (b1 b2 : Bool), (b1 = true ↔ y.r.natAbs < x.r.natAbs) →
      (b2 = true ↔ x.r.natAbs < y.r.natAbs) → (x.r.natAbs = y.r.natAbs → x.r = y.r) →
      reduceBinOp cfg x y = (if b1 then .ok (if (x.reduceRootHinted (x.r.tdiv y.r)).r = y.r then some (x.reduceRootHinted (x.r.tdiv y.r), y) else none)
        else if b2 then .ok (if x.r = (y.reduceRootHinted (y.r.tdiv x.r)).r then some (x, y.reduceRootHinted (y.r.tdiv x.r)) else none)
        else .ok (if x.r = y.r then some (x, y) else none)) →
      ((x.Compatible y → ∃ p, reduceBinOp cfg x y = .ok (some p) ∧ Matched x y p) ∧
      (¬ x.Compatible y → reduceBinOp cfg x y = .ok none)) := by
    intro b1 b2 h1 h2 h3 e
    rw [e]
    rcases lt_trichotomy x.r.natAbs y.r.natAbs with h | h | h
    · have hb1 : b1 = false := by
        cases hb : b1
        · rfl
        · have := h1.mp hb; omega
      have hb2 : b2 = true := h2.mpr h
      simp only [hb1, hb2, if_true, Bool.false_eq_true, if_false]
      have m := match_left hy hx hx0 h
      constructor
      · intro hc
        have := m.1 (compatible_symm hc)
        refine ⟨(x, y.reduceRootHinted (y.r.tdiv x.r)), ?_, this.v2, this.v1, this.c2, this.c1, this.r12.symm, .inl rfl⟩
        rw [if_pos this.r12.symm]
      · intro hc
        have := m.2 (fun hh => hc (compatible_symm hh))
        rw [if_neg (fun e => this e.symm)]
    · have hb1 : b1 = false := by
        cases hb : b1
        · rfl
        · have := h1.mp hb; omega
      have hb2 : b2 = false := by
        cases hb : b2
        · rfl
        · have := h2.mp hb; omega
      simp only [hb1, hb2, Bool.false_eq_true, if_false]
      have := h3 h
      rw [if_pos this]
      constructor
      · intro _; exact ⟨(x, y), rfl, rfl, rfl, hx, hy, this, .inl rfl⟩
      · intro hc; exact absurd ⟨1, by left; rw [this]; ring⟩ hc
    · have hb1 : b1 = true := h1.mpr h
      simp only [hb1, if_true]
      have m := match_left hx hy hy0 h
      constructor
      · intro hc
        have := m.1 hc
        refine ⟨_, ?_, this⟩
        rw [if_pos this.r12]
      · intro hc
        rw [if_neg (m.2 hc)]
  by_cases hcx : cfg.complex = true
  · by_cases hs : (decide (x.r < 0) ^^ decide (y.r < 0)) = true
    · have hnone : reduceBinOp cfg x y = .ok none := by
        unfold reduceBinOp; simp only [hcx, hs, if_true]
      refine ⟨fun hc => ?_, fun _ => hnone⟩
      exfalso
      have hsgn : (x.r < 0 ∧ 0 < y.r) ∨ (0 < x.r ∧ y.r < 0) := by
        rcases lt_or_gt_of_ne hx0 with h | h <;> rcases lt_or_gt_of_ne hy0 with h' | h'
        · simp [h, h'] at hs
        · exact .inl ⟨h, h'⟩
        · exact .inr ⟨h, h'⟩
        · have e1 : ¬ x.r < 0 := by omega
          have e2 : ¬ y.r < 0 := by omega
          simp [e1, e2] at hs
      obtain ⟨k, hk⟩ := hc
      have hk0 := mul_self_nonneg k
      rcases hk with hk | hk <;> rcases hsgn with ⟨h, h'⟩ | ⟨h, h'⟩ <;> nlinarith
    · apply key (decide (x.r.natAbs > y.r.natAbs)) (decide (y.r.natAbs > x.r.natAbs))
      · simp
      · simp
      · intro e
        rcases Int.natAbs_eq_natAbs_iff.mp e with h | h
        · exact h
        · exfalso; apply hs
          rcases lt_or_gt_of_ne hx0 with h' | h'
          · have : ¬ y.r < 0 := by omega
            simp [h', this]
          · have : ¬ x.r < 0 := by omega
            have h2 : y.r < 0 := by omega
            simp [h2, this]
      · unfold reduceBinOp
        simp only [hcx, if_true]
        rw [if_neg hs]
        simp only [divR, if_neg hx0, if_neg hy0, decide_eq_true_eq]
        rfl
  · have hcf : cfg.complex = false := by simpa using hcx
    have hx1 := hxr hcf
    have hy1 := hyr hcf
    apply key (decide (x.r > y.r)) (decide (y.r > x.r))
    · simp only [decide_eq_true_eq]; omega
    · simp only [decide_eq_true_eq]; omega
    · omega
    · unfold reduceBinOp
      simp only [hcf, Bool.false_eq_true, if_false]
      rw [if_neg (by simp [hx0, hy0])]
      simp only [divR, if_neg hx0, if_neg hy0, decide_eq_true_eq]
      rfl

theorem reduceBinOpUnwrap_spec {cfg : Cfg} {x y : Surd} (hx : 0 < x.c) (hy : 0 < y.c)
    (hx0 : x.r ≠ 0) (hy0 : y.r ≠ 0) (hxr : cfg.complex = false → 0 ≤ x.r)
    (hyr : cfg.complex = false → 0 ≤ y.r) :
    (x.Compatible y → ∃ p, reduceBinOpUnwrap cfg x y = .ok p ∧ Matched x y p) ∧
    (¬ x.Compatible y → reduceBinOpUnwrap cfg x y = .error .incompatible) := by
  obtain ⟨h1, h2⟩ := reduceBinOp_spec hx hy hx0 hy0 hxr hyr
  unfold reduceBinOpUnwrap
  constructor
  · intro hc
    obtain ⟨p, e, hp⟩ := h1 hc
    exact ⟨p, by rw [e]; rfl, hp⟩
  · intro hc
    rw [h2 hc]; rfl

end Surd
end NumIrr
