/-
Homographic functions of finite continued fractions: the outputs are a common prefix of two runs of Euclid's algorithm.
-/
import Verif.Spec.Expansion
import Verif.Lemmas.CFAct
import Verif.Lemmas.HomoStep
import Verif.Lemmas.FixedConst
import Verif.Props.Homo

namespace NumIrr

open Block

/-! ### Euclid's algorithm -/

/-- the quotients of Euclid's algorithm -/
def euc (n d : ℕ) : List ℤ := if h : d = 0 then [] else ((n / d : ℕ) : ℤ) :: euc d (n % d)
termination_by d
decreasing_by exact Nat.mod_lt _ (Nat.pos_of_ne_zero h)

theorem euc_zero (n : ℕ) : euc n 0 = [] := by rw [euc]; simp

theorem euc_pos (n : ℕ) {d : ℕ} (h : d ≠ 0) : euc n d = ((n / d : ℕ) : ℤ) :: euc d (n % d) := by rw [euc]; simp [h]

theorem fin_val : ∀ (a : ℤ) (l : List ℤ), (∀ v ∈ l, 1 ≤ v) → (l ≠ [] → (a :: l).getLastD 0 ≠ 1) →
    ∃ y : ℚ, cfVal (a :: l) = some y ∧ (a : ℚ) ≤ y ∧ y < a + 1 ∧ (l ≠ [] → (a : ℚ) < y) := by
  intro a l
  induction l generalizing a with
  | nil => intro _ _; exact ⟨a, by simp [cfVal], le_rfl, by linarith, fun h => absurd rfl h⟩
  | cons b l ih =>
    intro h1 h2
    have hb : (1 : ℤ) ≤ b := h1 b (by simp)
    obtain ⟨y, e, k1, k2, k3⟩ := ih b (fun v hv => h1 v (by simp [hv])) (fun hl => by
      have := h2 (by simp)
      simpa using this)
    have hb' : (1 : ℚ) ≤ b := by exact_mod_cast hb
    have hy : 1 < y := by
      by_cases hl : l = []
      · subst hl
        have h3 := h2 (by simp)
        simp at h3
        simp [cfVal] at e
        rw [← e]
        have : 2 ≤ b := by omega
        have : (2 : ℚ) ≤ b := by exact_mod_cast this
        linarith
      · have := k3 hl
        linarith
    have hy0 : y ≠ 0 := by linarith
    refine ⟨a + 1 / y, by rw [cfVal, e]; simp [hy0], ?_, ?_, fun _ => ?_⟩
    · have : 0 < 1 / y := by positivity
      linarith
    · have : 1 / y < 1 := by rw [div_lt_one (by linarith)]; exact hy
      linarith
    · have : 0 < 1 / y := by positivity
      linarith

theorem isExp_tail {a b : ℤ} {l : List ℤ} {y : ℚ} (h : IsExp (a :: b :: l) (some y)) :
    ∃ z : ℚ, IsExp (b :: l) (some z) ∧ 1 < z ∧ y = a + 1 / z := by
  obtain ⟨h1, h2, h3⟩ := h
  have hb : (1 : ℤ) ≤ b := h2 b (by simp)
  have g2 : ∀ v ∈ l, 1 ≤ v := fun v hv => h2 v (by simp [hv])
  have g3 : l ≠ [] → (b :: l).getLastD 0 ≠ 1 := fun _ => by simpa using h3 (by simp)
  obtain ⟨z, e, k1, k2, k3⟩ := fin_val b l g2 g3
  have hb' : (1 : ℚ) ≤ b := by exact_mod_cast hb
  have hz : 1 < z := by
    by_cases hl : l = []
    · subst hl
      have h4 := h3 (by simp)
      simp at h4
      simp [cfVal] at e
      rw [← e]
      have : 2 ≤ b := by omega
      have : (2 : ℚ) ≤ b := by exact_mod_cast this
      linarith
    · have := k3 hl
      linarith
  have hz0 : z ≠ 0 := by linarith
  refine ⟨z, ⟨e, g2, g3⟩, hz, ?_⟩
  rw [cfVal, e] at h1
  simp [hz0] at h1
  rw [← h1]
  simp

theorem isExp_nil {l : List ℤ} (h : IsExp l none) : l = [] := by
  obtain ⟨h1, h2, h3⟩ := h
  cases l with
  | nil => rfl
  | cons a l =>
    obtain ⟨y, e, -⟩ := fin_val a l h2 h3
    rw [e] at h1
    cases h1

theorem isExp_euc : ∀ (d n : ℕ) (l : List ℤ), IsExp l (pairVal (n, d)) → l = euc n d := by
  intro d
  induction d using Nat.strong_induction_on with
  | _ d ih =>
    intro n l h
    by_cases hd : d = 0
    · subst hd
      rw [euc_zero]
      exact isExp_nil (by simpa [pairVal] using h)
    · have hd' : (d : ℚ) ≠ 0 := by exact_mod_cast hd
      have hdp : (0 : ℚ) < d := by positivity
      have hv : pairVal ((n : ℤ), (d : ℤ)) = some ((n : ℚ) / d) := by simp [pairVal, hd]
      rw [hv] at h
      rw [euc_pos n hd]
      cases l with
      | nil => have := h.1; simp [cfVal] at this
      | cons a l =>
        cases l with
        | nil =>
          have h1 := h.1
          simp [cfVal] at h1
          have e : (n : ℤ) = a * d := by
            have : (a : ℚ) * d = n := by rw [h1]; field_simp
            exact_mod_cast this.symm
          have hm : n % d = 0 := by
            have : ((n % d : ℕ) : ℤ) = 0 := by push_cast; rw [e]; simp
            exact_mod_cast this
          have hq : ((n / d : ℕ) : ℤ) = a := by
            push_cast; rw [e]; exact Int.mul_ediv_cancel _ (by exact_mod_cast hd)
          rw [hm, euc_zero, hq]
        | cons b l =>
          obtain ⟨z, hz, z1, e⟩ := isExp_tail h
          have z0 : 0 < z := by linarith
          have i0 : 0 < 1 / z := by positivity
          have i1 : 1 / z < 1 := by rw [div_lt_one z0]; exact z1
          have hq : ((n / d : ℕ) : ℤ) = a := by
            have e1 : ⌊(n : ℚ) / d⌋ = a := by
              rw [Int.floor_eq_iff, e]
              constructor <;> linarith
            rw [← e1]
            have := Rat.floor_intCast_div_natCast (n : ℤ) d
            push_cast at this ⊢
            exact this.symm
          have hmod : ((n % d : ℕ) : ℚ) = d / z := by
            have e2 : ((n % d : ℕ) : ℤ) = n - d * a := by
              rw [← hq]; push_cast; rw [Int.emod_def]
            have e3 : ((n % d : ℕ) : ℚ) = n - d * a := by
              have := congrArg (Int.cast : ℤ → ℚ) e2
              rw [Int.cast_natCast] at this
              rw [this]; push_cast; ring
            rw [e3]
            field_simp at e ⊢
            linarith
          have hz' : z = (d : ℚ) / ((n % d : ℕ) : ℚ) := by rw [hmod]; field_simp
          have hne : n % d ≠ 0 := by
            intro h0
            rw [h0] at hmod
            have : (0 : ℚ) < d / z := by positivity
            rw [← hmod] at this
            simp at this
          rw [hq]
          congr 1
          refine ih (n % d) (Nat.mod_lt _ (Nat.pos_of_ne_zero hd)) d (b :: l) ?_
          have : pairVal ((d : ℤ), ((n % d : ℕ) : ℤ)) = some z := by
            unfold pairVal
            have : ((n % d : ℕ) : ℤ) ≠ 0 := by exact_mod_cast hne
            simp only [this, if_false]
            rw [hz']
            push_cast
            rfl
          rw [this]
          exact hz

theorem euc_good : ∀ (d n : ℕ), 0 < d → d < n → (∀ v ∈ euc n d, 1 ≤ v) ∧ (euc n d).getLastD 0 ≠ 1 ∧ euc n d ≠ [] := by
  intro d
  induction d using Nat.strong_induction_on with
  | _ d ih =>
    intro n hd hn
    rw [euc_pos n hd.ne']
    have hq : 1 ≤ n / d := (Nat.one_le_div_iff hd).mpr hn.le
    by_cases hr : n % d = 0
    · rw [hr, euc_zero]
      refine ⟨by simpa using (by exact_mod_cast hq), ?_, by simp⟩
      have : n / d ≠ 1 := by
        intro e
        have := Nat.div_add_mod n d
        rw [e, hr] at this
        omega
      simpa using (by exact_mod_cast this)
    · obtain ⟨h1, h2, h3⟩ := ih (n % d) (Nat.mod_lt _ hd) d (Nat.pos_of_ne_zero hr) (Nat.mod_lt _ hd)
      refine ⟨?_, ?_, by simp⟩
      · intro v hv
        rcases List.mem_cons.mp hv with rfl | hv
        · exact_mod_cast hq
        · exact h1 v hv
      · cases e : euc d (n % d) with
        | nil => exact absurd e h3
        | cons b l => rw [e] at h2; simpa using h2

theorem euc_isExp : ∀ (d n : ℕ), IsExp (euc n d) (pairVal (n, d)) := by
  intro d
  induction d using Nat.strong_induction_on with
  | _ d ih =>
    intro n
    by_cases hd : d = 0
    · subst hd
      rw [euc_zero]
      exact ⟨by simp [cfVal, pairVal], by simp, by simp⟩
    · have hdp := Nat.pos_of_ne_zero hd
      have hd' : (d : ℚ) ≠ 0 := by exact_mod_cast hd
      rw [euc_pos n hd]
      have hm := Nat.mod_lt n hdp
      have hdm := Nat.div_add_mod n d
      have hdm' : (n : ℚ) = d * (n / d : ℕ) + (n % d : ℕ) := by exact_mod_cast hdm.symm
      by_cases hr : n % d = 0
      · rw [hr, euc_zero]
        refine ⟨?_, by simp, by simp⟩
        rw [hr] at hdm'
        have : (n : ℚ) / d = ((n / d : ℕ) : ℚ) := by rw [hdm']; field_simp; simp
        simp only [cfVal, pairVal]
        rw [if_neg (by exact_mod_cast hd)]
        simp only [Int.cast_natCast, Option.some.injEq]
        rw [this]
      · obtain ⟨h1, h2, h3⟩ := euc_good (n % d) d (Nat.pos_of_ne_zero hr) hm
        refine ⟨?_, by simpa using h1, fun _ => ?_⟩
        · have i := (ih _ hm d).1
          have hr' : ((n % d : ℕ) : ℚ) ≠ 0 := by exact_mod_cast hr
          have v : pairVal ((d : ℤ), ((n % d : ℕ) : ℤ)) = some ((d : ℚ) / (n % d : ℕ)) := by
            have hrz : ((n % d : ℕ) : ℤ) ≠ 0 := by exact_mod_cast hr
            unfold pairVal
            simp only [hrz, if_false, Int.cast_natCast]
          rw [v] at i
          rw [cfVal, i]
          simp only [pairVal]
          have hx : (d : ℚ) / ((n % d : ℕ) : ℚ) ≠ 0 := div_ne_zero hd' hr'
          have hdz : (d : ℤ) ≠ 0 := by exact_mod_cast hd
          simp only [hx, hdz, if_false, Int.cast_natCast, Option.some.injEq]
          rw [eq_div_iff hd']
          rw [hdm']
          generalize ((n % d : ℕ) : ℚ) = r at *
          field_simp
        · cases e : euc d (n % d) with
          | nil => exact absurd e h3
          | cons b l => rw [e] at h2; simpa using h2

/-! ### the final block -/

/-- the coefficients all read -/
def Block.reads (m : Block) (l : List ℤ) : Block := l.foldl Block.rmove m

/-- the common quotients of the two columns -/
def Block.common (m : Block) : List ℤ :=
  commonPrefix (euc m.pm1.toNat m.qm1.toNat) (euc m.pm2.toNat m.qm2.toNat)

theorem rmove_nonneg {m : Block} (h : Nonneg m) {v : ℤ} (hv : 0 ≤ v) : Nonneg (m.rmove v) := by
  obtain ⟨h1, h2, h3, h4⟩ := h
  exact ⟨by simp only [rmove, update]; positivity, h1, by simp only [rmove, update]; positivity, h3⟩

theorem reads_nonneg {l : List ℤ} (hl : ∀ v ∈ l, 0 ≤ v) : ∀ {m : Block}, Nonneg m → Nonneg (m.reads l) := by
  induction l with
  | nil => intro m h; exact h
  | cons v l ih =>
    intro m h
    exact ih (fun w hw => hl w (by simp [hw])) (rmove_nonneg h (hl v (by simp)))

theorem check_of {m : Block} {i r1 r2 : ℤ} (q1 : 0 < m.qm1) (q2 : 0 < m.qm2) (p1 : 0 ≤ m.pm1) (p2 : 0 ≤ m.pm2)
    (e1 : m.pm1 = i * m.qm1 + r1) (e2 : m.pm2 = i * m.qm2 + r2) (a1 : 0 ≤ r1) (b1 : r1 < m.qm1) (a2 : 0 ≤ r2)
    (b2 : r2 < m.qm2) : m.checkInteger = some (i, r1, r2) := by
  have d1 : m.pm1 / m.qm1 = i ∧ m.pm1 % m.qm1 = r1 := by
    rw [Int.ediv_emod_unique q1]; exact ⟨by rw [e1]; ring, a1, b1⟩
  have d2 : m.pm2 / m.qm2 = i ∧ m.pm2 % m.qm2 = r2 := by
    rw [Int.ediv_emod_unique q2]; exact ⟨by rw [e2]; ring, a2, b2⟩
  unfold checkInteger
  rw [if_neg (by omega)]
  simp only [Int.tdiv_eq_ediv_of_nonneg p1, Int.tdiv_eq_ediv_of_nonneg p2, Int.tmod_eq_emod_of_nonneg p1,
    Int.tmod_eq_emod_of_nonneg p2, d1.1, d1.2, d2.1, d2.2, if_true]

theorem check_rmove {m : Block} (h : Nonneg m) {i r1 r2 v : ℤ} (hv : 0 ≤ v) (hc : m.checkInteger = some (i, r1, r2)) :
    (m.rmove v).checkInteger = some (i, v * r1 + r2, r1) ∧
      (m.after r1 r2).rmove v = (m.rmove v).after (v * r1 + r2) r1 := by
  obtain ⟨q1, q2, i0, r10, r1q, r20, r2q⟩ := checkInteger_nonneg h hc
  obtain ⟨-, -, -, -, -, -, e1, e2⟩ := checkInteger_spec hc
  obtain ⟨h1, h2, h3, h4⟩ := h
  refine ⟨check_of ?_ ?_ ?_ ?_ ?_ ?_ ?_ ?_ ?_ ?_, rfl⟩ <;> try simp only [rmove, update]
  · positivity
  · exact q1
  · positivity
  · exact h1
  · rw [e1, e2]; ring
  · exact e1
  · positivity
  · have : v * r1 ≤ v * m.qm1 := mul_le_mul_of_nonneg_left r1q.le hv
    omega
  · exact r10
  · exact r1q

theorem check_reads {l : List ℤ} (hl : ∀ v ∈ l, 0 ≤ v) : ∀ {m : Block} {i r1 r2 : ℤ}, Nonneg m →
    m.checkInteger = some (i, r1, r2) →
    ∃ t1 t2, (m.reads l).checkInteger = some (i, t1, t2) ∧ (m.after r1 r2).reads l = (m.reads l).after t1 t2 := by
  induction l with
  | nil => intro m i r1 r2 _ h; exact ⟨r1, r2, h, rfl⟩
  | cons v l ih =>
    intro m i r1 r2 hm h
    obtain ⟨h1, h2⟩ := check_rmove hm (hl v (by simp)) h
    obtain ⟨t1, t2, h3, h4⟩ := ih (fun w hw => hl w (by simp [hw])) (rmove_nonneg hm (hl v (by simp))) h1
    refine ⟨t1, t2, h3, ?_⟩
    simp only [reads, List.foldl_cons] at h4 ⊢
    rw [h2]
    exact h4

theorem common_some {m : Block} (h : Nonneg m) {i r1 r2 : ℤ} (hc : m.checkInteger = some (i, r1, r2)) :
    m.common = i :: (m.after r1 r2).common := by
  obtain ⟨q1, q2, i0, r10, r1q, r20, r2q⟩ := checkInteger_nonneg h hc
  obtain ⟨-, -, -, -, -, -, e1, e2⟩ := checkInteger_spec hc
  obtain ⟨h1, h2, h3, h4⟩ := h
  have col : ∀ p q r : ℤ, 0 ≤ p → 0 < q → 0 ≤ r → r < q → p = i * q + r →
      euc p.toNat q.toNat = i :: euc q.toNat r.toNat := by
    intro p q r p0 q0 r0 rq e
    have d : p / q = i ∧ p % q = r := by rw [Int.ediv_emod_unique q0]; exact ⟨by rw [e]; ring, r0, rq⟩
    have hq : q.toNat ≠ 0 := by omega
    rw [euc_pos _ hq]
    have g1 : ((p.toNat / q.toNat : ℕ) : ℤ) = i := by
      push_cast; rw [Int.toNat_of_nonneg p0, Int.toNat_of_nonneg q0.le]; exact d.1
    have g2 : p.toNat % q.toNat = r.toNat := by
      zify; rw [Int.toNat_of_nonneg p0, Int.toNat_of_nonneg q0.le, Int.toNat_of_nonneg r0]; exact d.2
    rw [g1, g2]
  unfold common
  rw [col _ _ _ h1 q1 r10 r1q e1, col _ _ _ h2 q2 r20 r2q e2, commonPrefix, if_pos rfl]
  rfl

theorem common_none {m : Block} (h : Nonneg m) (hc : m.checkInteger = none) : m.common = [] := by
  obtain ⟨h1, h2, h3, h4⟩ := h
  unfold common
  by_cases q1 : m.qm1 = 0
  · rw [q1]
    simp [euc_zero, commonPrefix]
  by_cases q2 : m.qm2 = 0
  · rw [q2, show (0 : ℤ).toNat = 0 from rfl, euc_zero]
    cases euc m.pm1.toNat m.qm1.toNat <;> rfl
  rw [euc_pos _ (show m.qm1.toNat ≠ 0 by omega), euc_pos _ (show m.qm2.toNat ≠ 0 by omega), commonPrefix, if_neg]
  intro e
  unfold checkInteger at hc
  rw [if_neg (by omega)] at hc
  simp only [Int.tdiv_eq_ediv_of_nonneg h1, Int.tdiv_eq_ediv_of_nonneg h2] at hc
  rw [if_pos] at hc
  · cases hc
  · push_cast at e
    rwa [Int.toNat_of_nonneg h1, Int.toNat_of_nonneg h2, Int.toNat_of_nonneg h3, Int.toNat_of_nonneg h4] at e

/-! ### the calls -/

namespace Homo

/-- the source gives the coefficients `l` from the current position, and then ends -/
def Rest (s : Homo) (l : List ℤ) : Prop := ∀ k, s.src (s.pos + k) = l[k]?

theorem Rest.move {s : Homo} {v : ℤ} {l : List ℤ} (h : Rest s (v :: l)) :
    Rest { s with block := s.block.rmove v, pos := s.pos + 1 } l := fun k => by
  have := h (k + 1)
  simp only [List.getElem?_cons_succ] at this
  rw [← this]
  show s.src (s.pos + 1 + k) = _
  congr 1; omega

/-- a call when the two columns of the final block have a common integer part -/
theorem call_some {l : List ℤ} : ∀ {s : Homo}, Rest s l → (∀ v ∈ l, 0 ≤ v) → Nonneg s.block →
    ∀ {i t1 t2 : ℤ}, (s.block.reads l).checkInteger = some (i, t1, t2) →
    ∃ s' l', Call s i s' ∧ Rest s' l' ∧ (∀ v ∈ l', 0 ≤ v) ∧ Nonneg s'.block ∧
      s'.block.reads l' = (s.block.reads l).after t1 t2 := by
  induction l with
  | nil =>
    intro s hr _ hn i t1 t2 hc
    have hc' : s.block.checkInteger = some (i, t1, t2) := hc
    obtain ⟨q1, q2, i0, r10, r1q, r20, r2q⟩ := checkInteger_nonneg hn hc'
    refine ⟨{ s with block := s.block.after t1 t2 }, [], ⟨1, fun fuel hf => ?_⟩, hr, by simp,
      ⟨q1.le, q2.le, r10, r20⟩, rfl⟩
    obtain ⟨f, rfl⟩ : ∃ f, fuel = f + 1 := ⟨fuel - 1, by omega⟩
    rw [Homo.next, reduceRecip_of_check hc']
  | cons v l ih =>
    intro s hr hl hn i t1 t2 hc
    cases hcs : s.block.checkInteger with
    | some r =>
      obtain ⟨i', r1, r2⟩ := r
      obtain ⟨q1, q2, i0, r10, r1q, r20, r2q⟩ := checkInteger_nonneg hn hcs
      obtain ⟨u1, u2, h1, h2⟩ := check_reads hl hn hcs
      rw [hc] at h1
      cases h1
      refine ⟨{ s with block := s.block.after r1 r2 }, v :: l, ⟨1, fun fuel hf => ?_⟩, hr, hl,
        ⟨q1.le, q2.le, r10, r20⟩, h2⟩
      obtain ⟨f, rfl⟩ : ∃ f, fuel = f + 1 := ⟨fuel - 1, by omega⟩
      rw [Homo.next, reduceRecip_of_check hcs]
    | none =>
      have h0 : s.src s.pos = some v := by simpa using hr 0
      obtain ⟨s', l', ⟨N, hN⟩, h1, h2, h3, h4⟩ := ih hr.move (fun w hw => hl w (by simp [hw]))
        (rmove_nonneg hn (hl v (by simp))) hc
      refine ⟨s', l', ⟨N + 1, fun fuel hf => ?_⟩, h1, h2, h3, h4⟩
      obtain ⟨f, rfl⟩ : ∃ f, fuel = f + 1 := ⟨fuel - 1, by omega⟩
      rw [Homo.next, reduceRecip_of_none hcs]
      simp only [h0]
      exact hN f (by omega)

/-- a call when they have none: the source is read to its end -/
theorem call_none {l : List ℤ} : ∀ {s : Homo}, Rest s l → (∀ v ∈ l, 0 ≤ v) → Nonneg s.block →
    (s.block.reads l).checkInteger = none →
    ∃ N s', (∀ fuel, N ≤ fuel → Homo.next fuel s = some (none, s')) ∧ Rest s' [] ∧ s'.block = s.block.reads l := by
  induction l with
  | nil =>
    intro s hr _ hn hc
    have hc' : s.block.checkInteger = none := hc
    have h0 : s.src s.pos = none := by simpa using hr 0
    refine ⟨1, { s with pos := s.pos + 1 }, fun fuel hf => ?_, fun k => ?_, rfl⟩
    · obtain ⟨f, rfl⟩ : ∃ f, fuel = f + 1 := ⟨fuel - 1, by omega⟩
      rw [Homo.next, reduceRecip_of_none hc']
      simp only [h0]
    · have := hr (k + 1)
      simp only [List.getElem?_nil] at this ⊢
      rw [← this]
      show s.src (s.pos + 1 + k) = _
      congr 1; omega
  | cons v l ih =>
    intro s hr hl hn hc
    have hcs : s.block.checkInteger = none := by
      cases hcs : s.block.checkInteger with
      | none => rfl
      | some r =>
        obtain ⟨i', r1, r2⟩ := r
        obtain ⟨u1, u2, h1, h2⟩ := check_reads hl hn hcs
        rw [hc] at h1
        cases h1
    have h0 : s.src s.pos = some v := by simpa using hr 0
    obtain ⟨N, s', hN, h1, h2⟩ := ih hr.move (fun w hw => hl w (by simp [hw])) (rmove_nonneg hn (hl v (by simp))) hc
    refine ⟨N + 1, s', fun fuel hf => ?_, h1, h2⟩
    obtain ⟨f, rfl⟩ : ∃ f, fuel = f + 1 := ⟨fuel - 1, by omega⟩
    rw [Homo.next, reduceRecip_of_none hcs]
    simp only [h0]
    exact hN f (by omega)

/-- all calls, up to and including the first one without a result -/
theorem run_common : ∀ (c : List ℤ) {s : Homo} {l : List ℤ}, Rest s l → (∀ v ∈ l, 0 ≤ v) → Nonneg s.block →
    (s.block.reads l).common = c →
    ∃ s' s'' N, Outs Call s c s' ∧ (∀ fuel, N ≤ fuel → Homo.next fuel s' = some (none, s'')) ∧ Rest s'' [] ∧
      s''.block.checkInteger = none := by
  intro c
  induction c with
  | nil =>
    intro s l hr hl hn hc
    have hnl := reads_nonneg hl hn
    have h0 : (s.block.reads l).checkInteger = none := by
      cases hcs : (s.block.reads l).checkInteger with
      | none => rfl
      | some r =>
        obtain ⟨i', r1, r2⟩ := r
        rw [common_some hnl hcs] at hc
        cases hc
    obtain ⟨N, s', hN, h1, h2⟩ := call_none hr hl hn h0
    exact ⟨s, s', N, .nil s, hN, h1, by rw [h2]; exact h0⟩
  | cons i c ih =>
    intro s l hr hl hn hc
    have hnl := reads_nonneg hl hn
    cases hcs : (s.block.reads l).checkInteger with
    | none => rw [common_none hnl hcs] at hc; cases hc
    | some r =>
      obtain ⟨i', t1, t2⟩ := r
      rw [common_some hnl hcs] at hc
      cases hc
      obtain ⟨s1, l1, h1, h2, h3, h4, h5⟩ := call_some hr hl hn hcs
      obtain ⟨s', s'', N, g1, g2, g3, g4⟩ := ih h2 h3 h4 (by rw [h5])
      exact ⟨s', s'', N, Outs.cons h1 g1, g2, g3, g4⟩

end Homo

/-! ### the columns of the final block -/

theorem reads_col1 (l : List ℤ) : ∀ m : Block, (m.reads l).pm1 = m.pm1 * (cfP l).1 + m.pm2 * (cfP l).2 ∧
    (m.reads l).qm1 = m.qm1 * (cfP l).1 + m.qm2 * (cfP l).2 := by
  induction l with
  | nil => intro m; simp [Block.reads, cfP, act]
  | cons v l ih =>
    intro m
    obtain ⟨h1, h2⟩ := ih (m.rmove v)
    have e : m.reads (v :: l) = (m.rmove v).reads l := rfl
    rw [e, h1, h2]
    simp only [rmove, update, cfP, act, Int.cast_id]
    constructor <;> ring

theorem reads_snoc (m : Block) (l : List ℤ) (v : ℤ) : m.reads (l ++ [v]) = (m.reads l).rmove v := by
  simp [Block.reads, List.foldl_append]

theorem reads_col2 (l : List ℤ) (v : ℤ) (m : Block) : (m.reads (l ++ [v])).pm2 = m.pm1 * (cfP l).1 + m.pm2 * (cfP l).2 ∧
    (m.reads (l ++ [v])).qm2 = m.qm1 * (cfP l).1 + m.qm2 * (cfP l).2 := by
  rw [reads_snoc]
  exact reads_col1 l m

theorem cfP_nonneg (l : List ℤ) (hl : ∀ v ∈ l, 0 ≤ v) : 0 ≤ (cfP l).1 ∧ 0 ≤ (cfP l).2 := by
  induction l with
  | nil => simp [cfP, act]
  | cons v l ih =>
    obtain ⟨h1, h2⟩ := ih (fun w hw => hl w (by simp [hw]))
    have := hl v (by simp)
    simp only [cfP, act, Int.cast_id] at *
    exact ⟨by positivity, h1⟩

theorem mobQ_pair (p q k d : ℤ) (v : ℤ × ℤ) (h : ¬ (v.1 = 0 ∧ v.2 = 0)) :
    mobQ p q k d (pairVal v) = pairVal (p * v.1 + q * v.2, k * v.1 + d * v.2) := by
  obtain ⟨u, w⟩ := v
  simp only at h ⊢
  unfold pairVal
  by_cases hw : w = 0
  · subst hw
    have hu : u ≠ 0 := fun e => h ⟨e, rfl⟩
    have hu' : (u : ℚ) ≠ 0 := by exact_mod_cast hu
    by_cases hk : k = 0
    · simp [mobQ, hk]
    · have hk' : (k : ℚ) ≠ 0 := by exact_mod_cast hk
      simp only [if_true, mobQ, hk, if_false, mul_zero, add_zero, mul_eq_zero, hu, or_self]
      congr 1
      push_cast
      field_simp
  · have hw' : (w : ℚ) ≠ 0 := by exact_mod_cast hw
    simp only [hw, if_false, mobQ]
    by_cases hz : k * u + d * w = 0
    · have : (k : ℚ) * ((u : ℚ) / w) + d = 0 := by
        have hz' : (k : ℚ) * u + d * w = 0 := by exact_mod_cast hz
        field_simp
        linarith
      rw [if_pos this, if_pos hz]
    · have hz' : (k : ℚ) * u + d * w ≠ 0 := by exact_mod_cast hz
      have : (k : ℚ) * ((u : ℚ) / w) + d ≠ 0 := by
        intro e
        apply hz'
        field_simp at e
        linarith
      rw [if_neg this, if_neg hz]
      congr 1
      push_cast
      field_simp

end NumIrr
