/-
From continued fractions to surds: the Möbius transformations collected by the loops.
-/
import Verif.Model.CFSurd
import Verif.Lemmas.CFErr
import Verif.Lemmas.CFPeriod
import Verif.Lemmas.SurdArith
import Verif.Lemmas.SurdBin
import Verif.Lemmas.SurdSqrt
import Mathlib.Tactic.FieldSimp
import Mathlib.Tactic.LinearCombination

namespace NumIrr

/-- `v₀ + 1/(v₁ + 1/(… + 1/x))` -/
noncomputable def chain (l : List Nat) (x : ℝ) : ℝ := l.foldr (fun v x => (v : ℝ) + 1 / x) x

theorem chain_pos {l : List Nat} (h : ∀ v ∈ l, 1 ≤ v) {x : ℝ} (hx : 0 < x) : 0 < chain l x := by
  induction l with
  | nil => exact hx
  | cons v l ih =>
    have := ih (fun w hw => h w (by simp [hw]))
    have : (0 : ℝ) < 1 / chain l x := by positivity
    show (0 : ℝ) < (v : ℝ) + 1 / chain l x
    positivity

theorem ofRev_snoc {l : List Nat} {m : Mob} (h : Mob.ofRev l = .ok m) (v : Nat) :
    Mob.ofRev (l ++ [v]) = .ok (m.step v) := by
  cases l with
  | nil => cases h
  | cons w l => cases h; simp [Mob.ofRev]

/-- the loops compute the transformation `y ↦ 1/(v₀ + 1/(… + y))` -/
theorem ofRev_spec {l : List Nat} (hne : l ≠ []) (h : ∀ v ∈ l, 1 ≤ v) :
    ∃ m, Mob.ofRev l.reverse = .ok m ∧ 1 ≤ m.b ∧ 1 ≤ m.c ∧ 1 ≤ m.d ∧
      (2 ≤ l.length → 1 ≤ m.a) ∧ (l.length = 1 → m.a = 0 ∧ m.b = 1) ∧
      ∀ y : ℝ, 0 < y → ((m.a : ℝ) * y + m.b) / (m.c * y + m.d) = 1 / chain l (1 / y) := by
  induction l with
  | nil => exact absurd rfl hne
  | cons v l ih =>
    have hv : 1 ≤ v := h v (by simp)
    by_cases hl : l = []
    · subst hl
      refine ⟨⟨0, 1, 1, v⟩, rfl, le_rfl, le_rfl, hv, by simp, fun _ => ⟨rfl, rfl⟩, fun y hy => ?_⟩
      have : 0 < (v : ℝ) + y := by positivity
      simp [chain, add_comm]
    · obtain ⟨m, e, h1, h2, h3, -, -, h4⟩ := ih hl (fun w hw => h w (by simp [hw]))
      have hc := fun {x : ℝ} => chain_pos (l := l) (fun w hw => h w (by simp [hw])) (x := x)
      refine ⟨m.step v, by rw [List.reverse_cons]; exact ofRev_snoc e v, h3, ?_, ?_, fun _ => h2, ?_, fun y hy => ?_⟩
      · show 1 ≤ v * m.c + m.a
        have := Nat.mul_pos hv h2; omega
      · show 1 ≤ v * m.d + m.b
        omega
      · intro hlen; simp at hlen; exact absurd hlen hl
      · have hc := hc (x := 1 / y) (by positivity)
        have h4 := h4 y hy
        have hd : (0 : ℝ) < m.c * y + m.d := by
          have : (1 : ℝ) ≤ m.d := by exact_mod_cast h3
          positivity
        show ((m.c : ℝ) * y + m.d) / (((v * m.c + m.a : Nat) : ℝ) * y + ((v * m.d + m.b : Nat) : ℝ))
          = 1 / ((v : ℝ) + 1 / chain l (1 / y))
        rw [← h4]
        push_cast
        have hn : (0 : ℝ) ≤ m.a * y + m.b := by positivity
        have : ((v : ℝ) * m.c + m.a) * y + (v * m.d + m.b) = v * (m.c * y + m.d) + (m.a * y + m.b) := by ring
        have hpos : 0 < (v : ℝ) * (m.c * y + m.d) + (m.a * y + m.b) := by
          have : (1 : ℝ) ≤ v := by exact_mod_cast hv
          nlinarith
        rw [this]
        have hpos2 : 0 < (v : ℝ) + (m.a * y + m.b) / (m.c * y + m.d) := by
          have : (1 : ℝ) ≤ v := by exact_mod_cast hv
          have := div_nonneg hn hd.le
          linarith
        rw [div_eq_div_iff hpos.ne' hpos2.ne', one_mul]
        field_simp

theorem valOf_chain {a : List Nat} {p : List Int} (hp : p ≠ []) {x : ℝ} {l : List Int} (hx : ValOf l p x)
    (hx0 : 0 < x) (h : ∀ v ∈ a, 1 ≤ v) : ValOf (toInts a ++ l) p (chain a x) := by
  induction a with
  | nil => exact hx
  | cons v a ih =>
    have h1 : ∀ w ∈ a, 1 ≤ w := fun w hw => h w (by simp [hw])
    have := valOf_cons hp (ih h1) (chain_pos h1 hx0).ne' (v : Int)
    have e : toInts (v :: a) ++ l = (v : Int) :: (toInts a ++ l) := rfl
    rw [e]
    convert this using 1
    simp [chain]

theorem coeffAt_self {α : Type} [Zero α] (p : List α) (n : Nat) : coeffAt p p n = coeffAt [] p n := by
  unfold coeffAt
  rw [if_neg (by simp : ¬ n < ([] : List α).length)]
  by_cases h : n < p.length
  · rw [if_pos h]; simp [Nat.mod_eq_of_lt h]
  · rw [if_neg h]
    simp only [List.length_nil, Nat.sub_zero]
    rw [Nat.mod_eq_sub_mod (a := n) (by omega)]

theorem valOf_self {p : List Int} {x : ℝ} (hp : p ≠ []) (h : ValOf [] p x) : ValOf p p x := by
  unfold ValOf at *
  rw [if_neg hp] at *
  have : ∀ n, truncTo p p n = truncTo [] p n := fun n => by
    unfold truncTo
    exact List.map_congr_left fun i _ => coeffAt_self p i
  simpa only [this] using h

/-- the purely periodic fraction satisfies its own equation -/
theorem periodic_fix {p : List Nat} (hp : p ≠ []) (hp1 : ∀ v ∈ p, 1 ≤ v) :
    ∃ z : ℝ, 1 < z ∧ ValOf [] (toInts p) z ∧ z = chain p z := by
  have hp' : toInts p ≠ [] := CF.toInts_ne_nil hp
  have hp1' : ∀ v ∈ toInts p, 1 ≤ v := by
    intro v hv
    obtain ⟨n, hn, rfl⟩ := List.mem_map.1 hv
    exact_mod_cast hp1 n hn
  have h : ∀ n, 1 ≤ coeffAt [] (toInts p) n := fun n => hp1' _ (coeffAt_mem [] _ hp' (by simp))
  have hs : PosSeq (coeffAt [] (toInts p)) := fun n => h _
  have hv := valOf_cfLim hp' hs
  have hz : 1 < cfLim (coeffAt [] (toInts p)) := by
    have h1 := cfLim_cons hs
    have h2 : (1 : ℝ) ≤ cfLim (shft (coeffAt [] (toInts p)) 1) := shft_ge hs 0
    have h3 : (1 : ℝ) ≤ coeffAt [] (toInts p) 0 := by exact_mod_cast h 0
    have : (0 : ℝ) < 1 / cfLim (shft (coeffAt [] (toInts p)) 1) := by positivity
    linarith
  refine ⟨_, hz, hv, ?_⟩
  have h1 := valOf_chain hp' hv (by linarith) hp1
  rw [List.append_nil] at h1
  exact valOf_unique (valOf_self hp' hv) h1

namespace Surd

theorem addInt_real {x : Surd} (hx : x.RealOk) (cfg : Cfg) (k : ℤ) :
    ∃ z, x.addInt cfg k = .ok z ∧ z.val = x.val + k ∧ z.RealOk ∧
      ((z.r = 0 ∧ x.r = 0) ∨ ∃ n : ℤ, 0 < n ∧ x.r = n * n * z.r) := by
  obtain ⟨t, h1, h2, h3, h4, h5⟩ := new_spec (cfg := cfg) (a := x.a + k * x.c) (b := x.b) (c := x.c) (r := x.r)
    hx.c_pos.ne' (fun _ => hx.real)
  have hc : (x.c : ℝ) ≠ 0 := by exact_mod_cast hx.c_pos.ne'
  have e : t.valC = ((x.val + k : ℝ) : ℂ) := by
    rw [h2]
    unfold quadC val quadR rootC
    rw [if_pos hx.real]
    have hc' : (x.c : ℂ) ≠ 0 := by exact_mod_cast hc
    push_cast
    field_simp
    ring
  obtain ⟨r1, r2⟩ := real_transfer h3.toNormal e
  refine ⟨t, h1, r2, r1, ?_⟩
  rcases h5 with ⟨h6, h7⟩ | ⟨-, -, n, h6, h7⟩
  · left
    refine ⟨h6, ?_⟩
    rcases h7 with h7 | h7
    · exact hx.rational.1 h7
    · by_contra h0; exact hx.irrational h0 h7
  · exact .inr ⟨n, h6, h7⟩

theorem mulInt_real {x : Surd} (hx : x.RealOk) (cfg : Cfg) (k : ℤ) :
    ∃ z, x.mulInt cfg k = .ok z ∧ z.val = x.val * k ∧ z.RealOk ∧
      ((z.r = 0 ∧ (x.r = 0 ∨ k = 0)) ∨ ∃ n : ℤ, 0 < n ∧ x.r = n * n * z.r) := by
  obtain ⟨t, h1, h2, h3, h4, h5⟩ := new_spec (cfg := cfg) (a := x.a * k) (b := x.b * k) (c := x.c) (r := x.r)
    hx.c_pos.ne' (fun _ => hx.real)
  have hc : (x.c : ℝ) ≠ 0 := by exact_mod_cast hx.c_pos.ne'
  have e : t.valC = ((x.val * k : ℝ) : ℂ) := by
    rw [h2]
    unfold quadC val quadR rootC
    rw [if_pos hx.real]
    have hc' : (x.c : ℂ) ≠ 0 := by exact_mod_cast hc
    push_cast
    field_simp
  obtain ⟨r1, r2⟩ := real_transfer h3.toNormal e
  refine ⟨t, h1, r2, r1, ?_⟩
  rcases h5 with ⟨h6, h7⟩ | ⟨-, -, n, h6, h7⟩
  · left
    refine ⟨h6, ?_⟩
    rcases h7 with h7 | h7
    · rcases mul_eq_zero.1 h7 with h7 | h7
      · exact .inl (hx.rational.1 h7)
      · exact .inr h7
    · left; by_contra h0; exact hx.irrational h0 h7
  · exact .inr ⟨n, h6, h7⟩

end Surd

namespace CF

theorem periodSurd_spec (cfg : Cfg) {p : List Nat} (hp : p ≠ []) (hp1 : ∀ v ∈ p, 1 ≤ v) :
    ∃ s z, periodSurd cfg p = .ok s ∧ s.RealOk ∧ 1 < z ∧ ValOf [] (toInts p) z ∧ s.val = 1 / z := by
  obtain ⟨z, hz, hv, hfix⟩ := periodic_fix hp hp1
  obtain ⟨m, hm, hb, hc, hd, -, -, hf⟩ := ofRev_spec hp hp1
  have h0 : 0 < 1 / z := by positivity
  have hy := hf (1 / z) h0
  rw [one_div_one_div, ← hfix] at hy
  generalize hyz : 1 / z = y at *
  have hb' : (1 : ℝ) ≤ m.b := by exact_mod_cast hb
  have hc' : (1 : ℝ) ≤ m.c := by exact_mod_cast hc
  have hd' : (1 : ℝ) ≤ m.d := by exact_mod_cast hd
  rw [div_eq_iff (by positivity)] at hy
  have hdel : (0 : ℚ) ≤ ((m.d : ℚ) - m.a) * ((m.d : ℚ) - m.a) - 4 * m.c * -m.b := by
    have := mul_self_nonneg ((m.d : ℚ) - m.a)
    have : (0 : ℚ) ≤ m.c * m.b := by positivity
    linarith
  obtain ⟨s, e1, e2, e3⟩ := Surd.fromRationals_spec (cfg := cfg) (-((m.d : ℚ) - m.a) * (2 * (m.c : ℚ))⁻¹) (2 * (m.c : ℚ))⁻¹
    (r := ((m.d : ℚ) - m.a) * ((m.d : ℚ) - m.a) - 4 * m.c * -m.b) (fun _ => hdel)
  have hcq : (m.c : ℚ) ≠ 0 := by exact_mod_cast (by omega : m.c ≠ 0)
  have hroot : Real.sqrt ((((m.d : ℚ) - m.a) * ((m.d : ℚ) - m.a) - 4 * m.c * -m.b : ℚ) : ℝ) =
      2 * m.c * y + (m.d - m.a) := by
    apply (Real.sqrt_eq_iff_mul_self_eq (by exact_mod_cast hdel) ?_).2
    · push_cast
      linear_combination (4 * (m.c : ℝ)) * hy
    · have : y * (m.c * y) = y * (m.a - m.d) + m.b := by linear_combination -hy
      by_contra hn
      have h1 : 2 * m.c * y + ((m.d : ℝ) - m.a) < 0 := by linarith
      nlinarith [mul_pos h0 h0]
  have hval : s.valC = ((y : ℝ) : ℂ) := by
    rw [e2, rootQ, if_pos hdel, hroot]
    have hcc : (m.c : ℂ) ≠ 0 := by exact_mod_cast (by omega : m.c ≠ 0)
    push_cast
    field_simp
    ring
  obtain ⟨r1, r2⟩ := Surd.real_transfer e3.toNormal hval
  refine ⟨s, z, ?_, r1, hz, hv, hyz ▸ r2⟩
  unfold periodSurd
  rw [hm]
  simp only [Surd.ok_bind]
  unfold Surd.fromEquation
  rw [if_neg (by push_cast; exact hcq)]
  simp only
  rw [if_neg (by push_cast; rintro ⟨-, h⟩; linarith)]
  push_cast
  rw [e1]
  rfl

end CF
end NumIrr
