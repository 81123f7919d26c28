/-
C124: whole calculations with quadratic and Gaussian integers over primitive integers without overflow checks.
-/
import Verif.Props.QFormula
import Verif.Lemmas.QIntMod

namespace NumIrr
namespace Fx
variable {x : Fx} {cfg : Cfg} {D : ℤ} {u v : QInt}

private theorem store_d (hw : 3 ≤ x.w) (hD : x.Discr cfg D) {c : QCoeffs} {z : QInt} (h : x.qFromCoeffs cfg c D = .ok z) :
    z.d = 0 ∨ z.d = D := by
  rw [qFromCoeffs_ok hw cfg _ hD.holds hD.mod4 hD.irrational hD.real] at h
  cases h
  split
  · exact .inl rfl
  · exact .inr rfl

private theorem neg_d (hw : 2 ≤ x.w) (hx : x.checks = false) {z : QInt} (h : x.qNeg u = .ok z) : z.d = u.d := by
  unfold qNeg at h
  simp only [neg_wr hw hx, bind, Except.bind, pure, Except.pure] at h
  cases h; rfl

private theorem add_d (hw : 3 ≤ x.w) (hx : x.checks = false) (hD : x.Discr cfg D) (hu : x.InRing D u) (hv : x.InRing D v)
    (hu' : u.d = 0 ∨ u.d = D) (hv' : v.d = 0 ∨ v.d = D) {z : QInt} (h : x.qAdd cfg u v = .ok z) : z.d = 0 ∨ z.d = D := by
  have hw' : 2 ≤ x.w := by omega
  have int : ∀ (u : QInt) k, (u.d = 0 ∨ u.d = D) → x.qAddInt u k = .ok z → z.d = 0 ∨ z.d = D := by
    intro u k hu h
    unfold qAddInt at h
    rw [qcAddInt_wr hw' hx] at h
    cases h; exact hu
  unfold qAdd at h
  split at h
  · exact int _ _ hu' h
  · next h0 =>
    split at h
    · exact int _ _ hv' h
    · next h0' =>
      simp only [QInt.isRational, decide_eq_true_eq] at h0 h0'
      have e : v.d = D := hv.discr h0
      have e' : u.d = v.d := by rw [e, hu.discr h0']
      rw [(qReduceBinOpUnwrap_same hw cfg u v (by rw [e]; exact hD.holds) e' (by rw [e]; exact hD.mod4)).1] at h
      replace h : (x.qcAdd u.coeffs v.coeffs >>= fun c => x.qFromCoeffs cfg c v.d) = _ := h
      rw [qcAdd_wr hw' hx, e] at h
      exact store_d hw hD h

private theorem sub_d (hw : 3 ≤ x.w) (hx : x.checks = false) (hD : x.Discr cfg D) (hu : x.InRing D u) (hv : x.InRing D v)
    (hu' : u.d = 0 ∨ u.d = D) (hv' : v.d = 0 ∨ v.d = D) {z : QInt} (h : x.qSub cfg u v = .ok z) : z.d = 0 ∨ z.d = D := by
  have hw' : 2 ≤ x.w := by omega
  have int : ∀ (u z : QInt) k, (u.d = 0 ∨ u.d = D) → x.qSubInt u k = .ok z → z.d = 0 ∨ z.d = D := by
    intro u z k hu h
    unfold qSubInt at h
    rw [qcSubInt_wr hw' hx] at h
    cases h; exact hu
  unfold qSub at h
  split at h
  · exact int _ _ _ hu' h
  · next h0 =>
    split at h
    · obtain ⟨y, h1, -⟩ := subInt_is hw' hx hv u.a
      rw [h1] at h
      rw [neg_d hw' hx h]
      exact int _ _ _ hv' h1
    · next h0' =>
      simp only [QInt.isRational, decide_eq_true_eq] at h0 h0'
      have e : v.d = D := hv.discr h0
      have e' : u.d = v.d := by rw [e, hu.discr h0']
      rw [(qReduceBinOpUnwrap_same hw cfg u v (by rw [e]; exact hD.holds) e' (by rw [e]; exact hD.mod4)).1] at h
      replace h : (x.qcSub u.coeffs v.coeffs >>= fun c => x.qFromCoeffs cfg c v.d) = _ := h
      rw [qcSub_wr hw' hx, e] at h
      exact store_d hw hD h

private theorem four_ok (hw : 3 ≤ x.w) (hx : x.checks = false) (h4 : D % 4 ≠ 0) (hD : 0 < D) (k : ℕ) :
    ∀ (n : ℕ) (b : ℤ), k < n → x.Holds b → x.Holds (4 ^ k * D) →
      x.qStrip4 n b (4 ^ k * D) = .ok (x.wr (b * 2 ^ k), D) := by
  have hw' : 2 ≤ x.w := by omega
  induction k with
  | zero =>
    intro n b hn hb hr
    obtain ⟨n, rfl⟩ : ∃ m, n = m + 1 := ⟨n - 1, by omega⟩
    rw [qStrip4, if_neg, pow_zero, pow_zero, one_mul, mul_one, wr_of_holds hw' hb]
    rw [pow_zero, one_mul]
    intro h
    exact h4 (Int.emod_eq_zero_of_dvd (Int.dvd_of_tmod_eq_zero h))
  | succ k ih =>
    intro n b hn hb hr
    obtain ⟨n, rfl⟩ : ∃ m, n = m + 1 := ⟨n - 1, by omega⟩
    have e : (4 : ℤ) ^ (k + 1) * D = 4 * (4 ^ k * D) := by ring
    have hp : (0 : ℤ) < 4 ^ k * D := by positivity
    rw [qStrip4, if_pos (by rw [e]; exact Int.mul_tmod_right 4 _)]
    have hq : ((4 : ℤ) ^ (k + 1) * D).tdiv 4 = 4 ^ k * D := by rw [e]; exact Int.mul_tdiv_cancel_left _ (by decide)
    have hh : x.Holds (4 ^ k * D) := by
      rw [e] at hr
      have : (0:ℤ) < 2 ^ (x.w - 1) := by positivity
      unfold Holds at hr ⊢; constructor <;> omega
    rw [div_ok (by decide) (by rw [hq]; exact hh), hq]
    show (x.add b b >>= fun b' => x.qStrip4 n b' (4 ^ k * D)) = _
    rw [add_wr hw' hx]
    show x.qStrip4 n (x.wr (b + b)) (4 ^ k * D) = _
    rw [ih n _ (by omega) (wr_holds hw' _) hh]
    congr 2
    rw [wr_mul_left]; congr 1; ring

/-- the constructor without overflow checks -/
private theorem qNew_is (hw : 3 ≤ x.w) (hx : x.checks = false) {r : ℤ} {k : ℕ} (hk : r = 4 ^ k * D) (hr : x.Holds r)
    (hp : 0 < r ∨ r % 4 ≠ 0) (hD : x.Discr cfg D) {a b : ℤ} (ha : x.Holds a) (hb : x.Holds b) :
    ∃ z, x.qNew cfg a b r = .ok z ∧ (z.d = 0 ∨ z.d = D) ∧
      x.Is D z (x.md (a - omegaLin D * (b * 2 ^ k))) (x.md ((1 + omegaLin D) * (b * 2 ^ k))) := by
  have hw' : 2 ≤ x.w := by omega
  have hs : x.qStrip b r = .ok (x.wr (b * 2 ^ k), D) := by
    unfold qStrip
    rcases hp with hp | hp
    · rw [if_pos hp]
      have hDp : 0 < D := by
        have : (0:ℤ) < 4 ^ k := by positivity
        rw [hk] at hp; exact (pos_iff_pos_of_mul_pos hp).1 this
      have hkr : k < r.toNat := by
        have h1 : (k : ℤ) < 4 ^ k := by exact_mod_cast Nat.lt_pow_self (by decide)
        have h2 : (4 : ℤ) ^ k * 1 ≤ 4 ^ k * D := mul_le_mul_of_nonneg_left (by omega) (by positivity)
        rw [mul_one] at h2
        omega
      rw [hk] at hr hkr ⊢
      exact four_ok hw hx hD.mod4 hDp k _ b hkr hb hr
    · have hk0 : k = 0 := by
        rcases Nat.eq_zero_or_pos k with h | h
        · exact h
        · obtain ⟨j, rfl⟩ : ∃ j, k = j + 1 := ⟨k - 1, by omega⟩
          exfalso; apply hp; rw [hk, show (4:ℤ) ^ (j + 1) * D = 4 * (4 ^ j * D) by ring]; exact Int.mul_emod_right 4 _
      subst hk0
      rw [pow_zero, one_mul] at hk
      subst hk
      rw [pow_zero, mul_one, wr_of_holds hw' hb]
      split
      · next h =>
        obtain ⟨n, hn⟩ : ∃ n, r.toNat = n + 1 := ⟨r.toNat - 1, by omega⟩
        rw [hn, qStrip4, if_neg]
        intro h
        exact hp (Int.emod_eq_zero_of_dvd (Int.dvd_of_tmod_eq_zero h))
      · rfl
  unfold qNew
  rw [hs]
  show ∃ z, (match mod4d2 D with
    | 0 => do
      let y ← x.add (x.wr (b * 2 ^ k)) (x.wr (b * 2 ^ k))
      let z ← x.sub a (x.wr (b * 2 ^ k))
      x.qFromCoeffs cfg ⟨z, y⟩ D
    | 1 => x.qFromCoeffs cfg ⟨a, x.wr (b * 2 ^ k)⟩ D
    | _ => .error .unreachable) = .ok z ∧ _
  unfold omegaLin
  rw [mod4d2_eq, if_neg hD.mod4]
  by_cases h1 : D % 4 = 1
  · rw [if_pos h1, if_pos h1]
    simp only [add_wr hw' hx, sub_wr hw' hx, wr_add_left, wr_add_right, wr_sub_right, bind, Except.bind]
    obtain ⟨z, h2, h3⟩ := store_is hw hD (a - b * 2 ^ k) (b * 2 ^ k + b * 2 ^ k)
    refine ⟨z, h2, store_d hw hD h2, h3.ring, ?_, ?_⟩
    · rw [h3.a, one_mul]
    · rw [h3.b]; congr 1; ring
  · rw [if_neg h1, if_neg h1]
    obtain ⟨z, h2, h3⟩ := store_is hw hD a (b * 2 ^ k)
    rw [wr_of_holds hw' ha] at h2
    refine ⟨z, h2, store_d hw hD h2, h3.ring, ?_, ?_⟩
    · rw [h3.a]; congr 1; ring
    · rw [h3.b]; congr 1; ring

end Fx

namespace QFormula
open QInt

/-- coordinates of a formula over `r = 4^k·D` for the basis `1, ω` -/
private def coord (D : ℤ) (k : ℕ) : QFormula → ℤ × ℤ
  | lit a b => (a - omegaLin D * (b * 2 ^ k), (1 + omegaLin D) * (b * 2 ^ k))
  | neg f => (-(f.coord D k).1, -(f.coord D k).2)
  | conj f => ((f.coord D k).1 + omegaLin D * (f.coord D k).2, -(f.coord D k).2)
  | add f g => ((f.coord D k).1 + (g.coord D k).1, (f.coord D k).2 + (g.coord D k).2)
  | sub f g => ((f.coord D k).1 - (g.coord D k).1, (f.coord D k).2 - (g.coord D k).2)
  | mul f g => ((f.coord D k).1 * (g.coord D k).1 + omegaSq D * ((f.coord D k).2 * (g.coord D k).2),
      (f.coord D k).1 * (g.coord D k).2 + (f.coord D k).2 * (g.coord D k).1
        + omegaLin D * ((f.coord D k).2 * (g.coord D k).2))

/-- `ω` for a square root `σ` of the discriminant -/
noncomputable def om (D : ℤ) (σ : ℂ) : ℂ := if D % 4 = 1 then (1 + σ) / 2 else σ

private theorem om_neg (D : ℤ) (σ : ℂ) : om D (-σ) = omegaLin D - om D σ := by
  unfold om omegaLin; split <;> push_cast <;> ring

theorem om_sq {D : ℤ} {σ : ℂ} (h : σ * σ = D) : om D σ * om D σ = omegaSq D + omegaLin D * om D σ := by
  unfold om omegaLin omegaSq
  by_cases h1 : D % 4 = 1
  · rw [if_pos h1, if_pos h1, if_pos h1]
    obtain ⟨m, hm⟩ : ∃ m, D = 4 * m + 1 := ⟨D / 4, by omega⟩
    have : (D - 1) / 4 = m := by omega
    rw [this]
    rw [hm] at h
    push_cast at h ⊢
    linear_combination h / 4
  · rw [if_neg h1, if_neg h1, if_neg h1]
    push_cast
    linear_combination h

private theorem om_root (D : ℤ) (σ : ℂ) : (1 + omegaLin D) * om D σ - omegaLin D = σ := by
  unfold om omegaLin; split <;> push_cast <;> ring

private theorem coord_val (D : ℤ) (k : ℕ) (f : QFormula) :
    ∀ σ : ℂ, σ * σ = D → f.val (2 ^ k * σ) = (f.coord D k).1 + (f.coord D k).2 * om D σ := by
  induction f with
  | lit a b =>
    intro σ _
    simp only [val, coord]
    push_cast
    linear_combination -(b * 2 ^ k : ℂ) * om_root D σ
  | neg f ih => intro σ h; simp only [val, coord, ih σ h]; push_cast; ring
  | conj f ih =>
    intro σ h
    have := ih (-σ) (by rw [neg_mul_neg, h])
    simp only [val, coord]
    rw [show -(2 ^ k * σ) = 2 ^ k * -σ by ring, this, om_neg]; push_cast; ring
  | add f g ihf ihg => intro σ h; simp only [val, coord, ihf σ h, ihg σ h]; push_cast; ring
  | sub f g ihf ihg => intro σ h; simp only [val, coord, ihf σ h, ihg σ h]; push_cast; ring
  | mul f g ihf ihg =>
    intro σ h
    simp only [val, coord, ihf σ h, ihg σ h]; push_cast
    linear_combination ((f.coord D k).2 * (g.coord D k).2 : ℂ) * om_sq h

theorem valC_om {cfg : Cfg} {D : ℤ} {t : QInt} (ht : t.InRing cfg D) : t.valC = t.a + t.b * om D (rootC D) := by
  unfold valC
  by_cases hb : t.b = 0
  · rw [hb]; simp
  · rw [ht.discr hb]; rfl

/-- the coefficients of the exact result -/
theorem coord_exact {cfg : Cfg} {D : ℤ} (hs : ¬ IsSquare D) {t : QInt} (ht : t.InRing cfg D) {p q : ℤ}
    (h : t.valC = p + q * om D (rootC D)) : t.a = p ∧ t.b = q := by
  rw [valC_om ht] at h
  unfold om at h
  split at h
  · obtain ⟨h1, h2⟩ := root_coeff_eq hs (x := t.a + t.b / 2) (y := t.b / 2) (x' := p + q / 2) (y' := q / 2)
      (by push_cast; linear_combination h)
    have h3 : (t.b : ℚ) = q := by linarith
    have h4 : (t.a : ℚ) = p := by linarith
    exact ⟨by exact_mod_cast h4, by exact_mod_cast h3⟩
  · obtain ⟨h1, h2⟩ := root_coeff_eq hs (x := t.a) (y := t.b) (x' := p) (y' := q) (by push_cast; linear_combination h)
    exact ⟨by exact_mod_cast h1, by exact_mod_cast h2⟩

private theorem runFx_is {x : Fx} (hw : 3 ≤ x.w) (hx : x.checks = false) {cfg : Cfg} {r D : ℤ} {k : ℕ} (hk : r = 4 ^ k * D)
    (hr : x.Holds r) (hp : 0 < r ∨ r % 4 ≠ 0) (hD : x.Discr cfg D) (f : QFormula) (hf : f.Writable x) :
    ∃ z, f.runFx x cfg r = .ok z ∧ (z.d = 0 ∨ z.d = D) ∧ x.Is D z (x.md (f.coord D k).1) (x.md (f.coord D k).2) := by
  have hw' : 2 ≤ x.w := by omega
  induction f with
  | lit a b => exact Fx.qNew_is hw hx hk hr hp hD hf.1 hf.2
  | neg f ih =>
    obtain ⟨z, h1, h2, h3⟩ := ih hf
    obtain ⟨t, k1, k2⟩ := Fx.neg_is hw' hx h3.ring
    refine ⟨t, by simp only [runFx, h1]; exact k1, by rw [Fx.neg_d hw' hx k1]; exact h2, k2.ring, ?_, ?_⟩
    · rw [k2.a, h3.a]; simp [coord, Fx.md]
    · rw [k2.b, h3.b]; simp [coord, Fx.md]
  | conj f ih =>
    obtain ⟨z, h1, h2, h3⟩ := ih hf
    obtain ⟨t, k1, kd, k2⟩ := Fx.conj_is hw hx hD h3.ring h2
    refine ⟨t, by simp only [runFx, h1]; exact k1, by rw [kd]; exact h2, k2.ring, ?_, ?_⟩
    · rw [k2.a, h3.a, h3.b]; simp [coord, Fx.md]
    · rw [k2.b, h3.b]; simp [coord, Fx.md]
  | add f g ihf ihg =>
    obtain ⟨y, g1, g2, g3⟩ := ihf hf.1
    obtain ⟨z, h1, h2, h3⟩ := ihg hf.2
    obtain ⟨t, k1, k2⟩ := Fx.add_is hw hx hD g3.ring h3.ring
    refine ⟨t, by simp only [runFx, g1, h1]; exact k1, Fx.add_d hw hx hD g3.ring h3.ring g2 h2 k1, k2.ring, ?_, ?_⟩
    · rw [k2.a, g3.a, h3.a]; simp [coord, Fx.md]
    · rw [k2.b, g3.b, h3.b]; simp [coord, Fx.md]
  | sub f g ihf ihg =>
    obtain ⟨y, g1, g2, g3⟩ := ihf hf.1
    obtain ⟨z, h1, h2, h3⟩ := ihg hf.2
    obtain ⟨t, k1, k2⟩ := Fx.sub_is hw hx hD g3.ring h3.ring
    refine ⟨t, by simp only [runFx, g1, h1]; exact k1, Fx.sub_d hw hx hD g3.ring h3.ring g2 h2 k1, k2.ring, ?_, ?_⟩
    · rw [k2.a, g3.a, h3.a]; simp [coord, Fx.md]
    · rw [k2.b, g3.b, h3.b]; simp [coord, Fx.md]
  | mul f g ihf ihg =>
    obtain ⟨y, g1, g2, g3⟩ := ihf hf.1
    obtain ⟨z, h1, h2, h3⟩ := ihg hf.2
    obtain ⟨t, k1, k2⟩ := Fx.mul_is hw hx hD g3.ring h3.ring
    refine ⟨t, by simp only [runFx, g1, h1]; exact k1, Fx.mul_d hw hx hD g3.ring h3.ring g2 h2 k1, k2.ring, ?_, ?_⟩
    · rw [k2.a, g3.a, h3.a, g3.b, h3.b]; simp [coord, Fx.md]
    · rw [k2.b, g3.a, h3.a, g3.b, h3.b]; simp [coord, Fx.md]

/-- **C124** Over primitive integers without overflow checks a calculation over a root which is not a square always
returns; its coefficients are those of the exact result modulo `2^w`.  If the exact coefficients are representable they
are returned, whatever overflowed in between. -/
theorem qformula_release_partial (x : Fx) (hw : 3 ≤ x.w) (hx : x.checks = false) (cfg : Cfg) (r : ℤ) (hs : ¬ IsSquare r)
    (hr : x.Holds r) (hp : 0 < r ∨ (cfg.complex = true ∧ r < 0 ∧ r % 4 ≠ 0)) (f : QFormula) (hf : f.Writable x) :
    ∃ z t, f.runFx x cfg r = .ok z ∧ f.run cfg r = .ok t ∧ z.a ≡ t.a [ZMOD 2 ^ x.w] ∧ z.b ≡ t.b [ZMOD 2 ^ x.w] ∧
      (x.Holds t.a → z.a = t.a) ∧ (x.Holds t.b → z.b = t.b) ∧ (z.b ≠ 0 → z.d = t.d ∨ t.b = 0) := by
  have hw' : 2 ≤ x.w := by omega
  have hp' : 0 < r ∨ r % 4 ≠ 0 := by rcases hp with h | h; exact .inl h; exact .inr h.2.2
  obtain ⟨k, D, hk, h4⟩ := exists_discr r hp'
  have hDs : ¬ IsSquare D := fun h => hs (by rw [hk]; exact (isSquare_four_pow_mul k D).mpr h)
  obtain ⟨t, t1, t2, t3⟩ := run_ring cfg hs hk h4 hp f
  have hkp : (0:ℤ) < 4 ^ k := by positivity
  have hD : x.Discr cfg D := by
    refine ⟨?_, h4, hDs, fun hc => ?_⟩
    · have h1 : |D| ≤ |r| := by
        rw [hk, abs_mul, abs_of_pos hkp]
        exact le_mul_of_one_le_left (abs_nonneg _) (by omega)
      have hsgn' : 0 ≤ D → 0 ≤ r := fun h => by rw [hk]; exact mul_nonneg hkp.le h
      have hsgn : D < 0 → r < 0 := fun h => by rw [hk]; exact mul_neg_of_pos_of_neg hkp h
      unfold Fx.Holds at hr ⊢
      rcases abs_cases D with ⟨a1, a2⟩ | ⟨a1, a2⟩ <;> rcases abs_cases r with ⟨b1, b2⟩ | ⟨b1, b2⟩ <;> constructor <;>
        first | omega | (have := hsgn (by omega); omega) | (have := hsgn' (by omega); omega)
    · rcases hp with h | h
      · rw [hk] at h; exact ((pos_iff_pos_of_mul_pos h).1 hkp).le
      · rw [hc] at h; simp at h
  obtain ⟨z, h1, h2, h3⟩ := runFx_is hw hx hk hr hp' hD f hf
  have hc := coord_val D k f (rootC D) (rootC_mul_self D)
  have hρ : rootC r = 2 ^ k * rootC D := by rw [hk, rootC_four_pow]
  rw [← hρ, ← t3] at hc
  obtain ⟨ea, eb⟩ := coord_exact hDs t2 hc
  have ma : x.md z.a = x.md t.a := by rw [h3.a, ea]
  have mb : x.md z.b = x.md t.b := by rw [h3.b, eb]
  refine ⟨z, t, h1, t1, (Fx.md_iff _ _).1 ma, (Fx.md_iff _ _).1 mb, fun h => Fx.md_inj hw' h3.ring.a h ma,
    fun h => Fx.md_inj hw' h3.ring.b h mb, fun h => ?_⟩
  by_cases hb : t.b = 0
  · exact .inr hb
  · left; rw [h3.ring.discr h, t2.discr hb]

/-- `(100 + √5)·(100 - √5)·(1 + √5) - (100² + 100²·√5 - (6 + 5·√5)) = 1` over `i8` in a release build: almost every step overflows -/
def wraps : QFormula :=
  .sub (.mul (.mul (.lit 100 1) (.lit 100 (-1))) (.lit 1 1))
    (.add (.mul (.lit 100 0) (.lit 100 0)) (.sub (.mul (.mul (.lit 100 0) (.lit 100 0)) (.lit 0 1)) (.lit 6 5)))

example : wraps.Writable ⟨8, false⟩ ∧ ¬ IsSquare (5 : ℤ) ∧ wraps.runFx ⟨8, false⟩ ⟨false, false⟩ 5 = .ok ⟨1, 0, 0⟩ ∧
    wraps.run ⟨false, false⟩ 5 = .ok ⟨1, 0, 0⟩ ∧
    wraps.runFx ⟨8, true⟩ ⟨false, true⟩ 5 = .error .overflow := by
  refine ⟨by simp [wraps, Writable, Fx.Holds], by decide +kernel, by decide +kernel, by decide +kernel, by decide +kernel⟩

/-- **C124** The same for `GaussianInt` over primitive integers; there the representation is unique. -/
theorem gformula_release (x : Fx) (hw : 3 ≤ x.w) (hx : x.checks = false) (f : QFormula) (hf : f.Writable x) :
    ∃ z t, f.runGFx x = .ok z ∧ f.runG = .ok t ∧ z.re ≡ t.re [ZMOD 2 ^ x.w] ∧ z.im ≡ t.im [ZMOD 2 ^ x.w] ∧
      x.HoldsG z ∧ (x.HoldsG t → z = t) := by
  have hw' : 2 ≤ x.w := by omega
  suffices h : ∃ z t, f.runGFx x = .ok z ∧ f.runG = .ok t ∧ x.IsG z (x.md t.re) (x.md t.im) by
    obtain ⟨z, t, h1, h2, h3⟩ := h
    exact ⟨z, t, h1, h2, (Fx.md_iff _ _).1 h3.a, (Fx.md_iff _ _).1 h3.b, h3.holds,
      fun ht => h3.unique hw' ⟨ht, rfl, rfl⟩ rfl rfl⟩
  induction f with
  | lit a b => exact ⟨_, _, rfl, rfl, hf, rfl, rfl⟩
  | neg f ih =>
    obtain ⟨z, t, h1, h2, h3⟩ := ih hf
    obtain ⟨y, k1, k2⟩ := Fx.gSub_is hw' hx ⟨0, 0⟩ z
    refine ⟨y, _, by simp only [runGFx, h1]; exact k1, by simp only [runG, h2]; rfl, k2.holds, ?_, ?_⟩
    · rw [k2.a, h3.a]; simp [GInt.sub, GInt.ofCoeffs, QCoeffs.sub, GInt.coeffs, Fx.md]
    · rw [k2.b, h3.b]; simp [GInt.sub, GInt.ofCoeffs, QCoeffs.sub, GInt.coeffs, Fx.md]
  | conj f ih =>
    obtain ⟨z, t, h1, h2, h3⟩ := ih hf
    obtain ⟨y, k1, k2⟩ := Fx.gConj_is hw' hx z h3.holds
    refine ⟨y, _, by simp only [runGFx, h1]; exact k1, by simp only [runG, h2]; rfl, k2.holds, ?_, ?_⟩
    · rw [k2.a, h3.a]; simp [GInt.conj, Fx.md]
    · rw [k2.b, h3.b]; simp [GInt.conj, Fx.md]
  | add f g ihf ihg =>
    obtain ⟨y, s, g1, g2, g3⟩ := ihf hf.1
    obtain ⟨z, t, h1, h2, h3⟩ := ihg hf.2
    obtain ⟨m, k1, k2⟩ := Fx.gAdd_is hw' hx y z
    refine ⟨m, _, by simp only [runGFx, g1, h1]; exact k1, by simp only [runG, g2, h2]; rfl, k2.holds, ?_, ?_⟩
    · rw [k2.a, g3.a, h3.a]; simp [GInt.add, GInt.ofCoeffs, QCoeffs.add, GInt.coeffs, Fx.md]
    · rw [k2.b, g3.b, h3.b]; simp [GInt.add, GInt.ofCoeffs, QCoeffs.add, GInt.coeffs, Fx.md]
  | sub f g ihf ihg =>
    obtain ⟨y, s, g1, g2, g3⟩ := ihf hf.1
    obtain ⟨z, t, h1, h2, h3⟩ := ihg hf.2
    obtain ⟨m, k1, k2⟩ := Fx.gSub_is hw' hx y z
    refine ⟨m, _, by simp only [runGFx, g1, h1]; exact k1, by simp only [runG, g2, h2]; rfl, k2.holds, ?_, ?_⟩
    · rw [k2.a, g3.a, h3.a]; simp [GInt.sub, GInt.ofCoeffs, QCoeffs.sub, GInt.coeffs, Fx.md]
    · rw [k2.b, g3.b, h3.b]; simp [GInt.sub, GInt.ofCoeffs, QCoeffs.sub, GInt.coeffs, Fx.md]
  | mul f g ihf ihg =>
    obtain ⟨y, s, g1, g2, g3⟩ := ihf hf.1
    obtain ⟨z, t, h1, h2, h3⟩ := ihg hf.2
    obtain ⟨m, k1, k2⟩ := Fx.gMul_is hw hx y z
    have e : s.mul t = .ok ⟨s.re * t.re - s.im * t.im, s.re * t.im + s.im * t.re⟩ := by
      unfold GInt.mul
      rw [Fx.coeffs_mul_eq (by decide)]
      simp [GInt.ofCoeffs, GInt.coeffs, omegaSq, omegaLin, bind, Except.bind, pure, Except.pure, sub_eq_add_neg]
    refine ⟨m, _, by simp only [runGFx, g1, h1]; exact k1, by simp only [runG, g2, h2]; exact e, k2.holds, ?_, ?_⟩
    · rw [k2.a, g3.a, h3.a, g3.b, h3.b]; simp [Fx.md]
    · rw [k2.b, g3.a, h3.a, g3.b, h3.b]; simp [Fx.md]

/-- `(20 + 3i)·(20 - 3i) - 400 = 9` over `i8` -/
example : (sub (mul (lit 20 3) (lit 20 (-3))) (mul (lit 20 0) (lit 20 0))).runGFx ⟨8, false⟩ = .ok ⟨9, 0⟩ := by
  decide +kernel

end QFormula
end NumIrr
