/-
`simplify` and `decimals` of finite generalized continued fractions: the outputs depend on the two columns of the last
block only.
-/
import Verif.Lemmas.HomoFinite
import Verif.Lemmas.GConv
import Verif.Lemmas.DecStep
import Verif.Props.Simplify
import Verif.Props.Decimals

namespace NumIrr

open Block

/-! ### blocks up to a common factor -/

theorem Block.Scal.moves {m m' : Block} (h : Scal m m') (g : ℕ → ℤ × ℤ) (n : ℕ) : Scal (rawN m g n) (rawN m' g n) := by
  induction n with
  | zero => exact h
  | succ n ih => exact ih.raw _ _

theorem pairVal_scale {lam : ℤ} (h : 0 < lam) (u v : ℤ) : pairVal (lam * u, lam * v) = pairVal (u, v) := by
  unfold pairVal
  have hl : (lam : ℚ) ≠ 0 := by exact_mod_cast h.ne'
  by_cases hv : v = 0
  · simp [hv]
  · have : lam * v ≠ 0 := mul_ne_zero h.ne' hv
    simp only [hv, this, if_false]
    congr 1
    push_cast
    rw [mul_div_mul_left _ _ hl]

theorem euc_scale {lam u v : ℤ} (h : 0 < lam) (hu : 0 ≤ u) (hv : 0 ≤ v) :
    euc (lam * u).toNat (lam * v).toNat = euc u.toNat v.toNat := by
  apply isExp_euc
  have := euc_isExp (lam * v).toNat (lam * u).toNat
  rw [Int.toNat_of_nonneg (by positivity), Int.toNat_of_nonneg (by positivity), pairVal_scale h] at this
  rw [Int.toNat_of_nonneg hu, Int.toNat_of_nonneg hv]
  exact this

theorem Block.Scal.common {m m' : Block} (h : Scal m m') (h0 : Nonneg m) : m'.common = m.common := by
  obtain ⟨lam, l0, e1, e2, e3, e4⟩ := h
  obtain ⟨h1, h2, h3, h4⟩ := h0
  unfold Block.common
  rw [e1, e2, e3, e4, euc_scale l0 h1 h3, euc_scale l0 h2 h4]

theorem Block.Scal.check {m m' : Block} (h : Scal m m') (h0 : Nonneg m) {i r1 r2 : ℤ} (hc : m.checkInteger = some (i, r1, r2)) :
    ∃ t1 t2, m'.checkInteger = some (i, t1, t2) ∧ Scal (m.after r1 r2) (m'.after t1 t2) ∧
      Scal (m.afterMul r1 r2) (m'.afterMul t1 t2) := by
  obtain ⟨lam, l0, e1, e2, e3, e4⟩ := h
  obtain ⟨q1, q2, i0, r10, r1q, r20, r2q⟩ := checkInteger_nonneg h0 hc
  obtain ⟨-, -, -, -, -, -, f1, f2⟩ := checkInteger_spec hc
  obtain ⟨h1, h2, h3, h4⟩ := h0
  refine ⟨lam * r1, lam * r2, check_of ?_ ?_ ?_ ?_ ?_ ?_ ?_ ?_ ?_ ?_, ⟨lam, l0, e3, e4, rfl, rfl⟩,
    ⟨lam, l0, by simp only [afterMul]; ring, by simp only [afterMul]; ring, e3, e4⟩⟩
  · rw [e3]; positivity
  · rw [e4]; positivity
  · rw [e1]; positivity
  · rw [e2]; positivity
  · rw [e1, e3, f1]; ring
  · rw [e2, e4, f2]; ring
  · positivity
  · rw [e3]; exact mul_lt_mul_of_pos_left r1q l0
  · positivity
  · rw [e4]; exact mul_lt_mul_of_pos_left r2q l0

theorem Block.Scal.check_none {m m' : Block} (h : Scal m m') (h0 : Nonneg m) (hc : m'.checkInteger = none) :
    m.checkInteger = none := by
  cases e : m.checkInteger with
  | none => rfl
  | some r =>
    obtain ⟨i, r1, r2⟩ := r
    obtain ⟨t1, t2, h1, -⟩ := h.check h0 e
    rw [hc] at h1; cases h1

theorem Block.Scal.check_rev {m m' : Block} (h : Scal m m') (h0 : Nonneg m) {i t1 t2 : ℤ} (hc : m'.checkInteger = some (i, t1, t2)) :
    ∃ r1 r2, m.checkInteger = some (i, r1, r2) ∧ Scal (m.after r1 r2) (m'.after t1 t2) ∧
      Scal (m.afterMul r1 r2) (m'.afterMul t1 t2) := by
  have hn : Nonneg m' := by
    obtain ⟨lam, l0, e1, e2, e3, e4⟩ := h
    obtain ⟨h1, h2, h3, h4⟩ := h0
    exact ⟨by rw [e1]; positivity, by rw [e2]; positivity, by rw [e3]; positivity, by rw [e4]; positivity⟩
  have hcm : m.common ≠ [] := by rw [← h.common h0, common_some hn hc]; simp
  cases e : m.checkInteger with
  | none => exact absurd (common_none h0 e) hcm
  | some r =>
    obtain ⟨i', r1, r2⟩ := r
    obtain ⟨u1, u2, g1, g2, g3⟩ := h.check h0 e
    rw [hc] at g1
    cases g1
    exact ⟨r1, r2, rfl, g2, g3⟩

/-! ### moves -/

theorem raw_nonneg {m : Block} (h : Nonneg m) {a b : ℤ} (ha : 0 ≤ a) (hb : 0 ≤ b) : Nonneg (m.raw a b) := by
  obtain ⟨h1, h2, h3, h4⟩ := h
  exact ⟨by simp only [raw]; positivity, h1, by simp only [raw]; positivity, h3⟩

theorem check_raw {m : Block} (h : Nonneg m) {i r1 r2 a b : ℤ} (ha : 1 ≤ a) (hb : 0 ≤ b)
    (hc : m.checkInteger = some (i, r1, r2)) :
    (m.raw a b).checkInteger = some (i, r1 * b + r2 * a, r1) ∧
      (m.after r1 r2).raw a b = (m.raw a b).after (r1 * b + r2 * a) r1 ∧
      (m.afterMul r1 r2).raw a b = (m.raw a b).afterMul (r1 * b + r2 * a) r1 := by
  obtain ⟨q1, q2, i0, r10, r1q, r20, r2q⟩ := checkInteger_nonneg h hc
  obtain ⟨-, -, -, -, -, -, e1, e2⟩ := checkInteger_spec hc
  obtain ⟨h1, h2, h3, h4⟩ := h
  have ha0 : 0 ≤ a := by omega
  refine ⟨check_of ?_ ?_ ?_ ?_ ?_ ?_ ?_ ?_ ?_ ?_, rfl, ?_⟩ <;> try simp only [raw]
  · have : 0 < m.qm2 * a := by positivity
    have : 0 ≤ m.qm1 * b := by positivity
    omega
  · exact q1
  · positivity
  · exact h1
  · rw [e1, e2]; ring
  · exact e1
  · positivity
  · have : r1 * b ≤ m.qm1 * b := mul_le_mul_of_nonneg_right r1q.le hb
    have : r2 * a < m.qm2 * a := mul_lt_mul_of_pos_right r2q (by omega)
    omega
  · exact r10
  · exact r1q
  · simp only [afterMul, Block.mk.injEq, and_true]; ring

/-- non-negative pairs -/
def GeG (g : ℕ → ℤ × ℤ) : Prop := ∀ k, 1 ≤ (g k).1 ∧ 0 ≤ (g k).2

theorem GeG.shift {g : ℕ → ℤ × ℤ} (h : GeG g) : GeG (shiftG g) := fun k => h (k + 1)

theorem rawN_nonneg {g : ℕ → ℤ × ℤ} (hg : GeG g) (n : ℕ) : ∀ {m : Block}, Nonneg m → Nonneg (rawN m g n) := by
  induction n with
  | zero => intro m h; exact h
  | succ n ih => intro m h; exact raw_nonneg (ih h) (by have := (hg n).1; omega) (hg n).2

theorem check_rawN {g : ℕ → ℤ × ℤ} (hg : GeG g) (n : ℕ) {m : Block} {i r1 r2 : ℤ} (h : Nonneg m)
    (hc : m.checkInteger = some (i, r1, r2)) :
    ∃ t1 t2, (rawN m g n).checkInteger = some (i, t1, t2) ∧ rawN (m.after r1 r2) g n = (rawN m g n).after t1 t2 ∧
      rawN (m.afterMul r1 r2) g n = (rawN m g n).afterMul t1 t2 := by
  induction n with
  | zero => exact ⟨r1, r2, hc, rfl, rfl⟩
  | succ n ih =>
    obtain ⟨t1, t2, h1, h2, h3⟩ := ih
    obtain ⟨g1, g2, g3⟩ := check_raw (rawN_nonneg hg n h) (hg n).1 (hg n).2 h1
    refine ⟨_, _, g1, ?_, ?_⟩
    · show (rawN (m.after r1 r2) g n).raw _ _ = _
      rw [h2]; exact g2
    · show (rawN (m.afterMul r1 r2) g n).raw _ _ = _
      rw [h3]; exact g3

/-! ### `simplify` -/

namespace GIter

/-- the source gives `n` more pairs, those of `g`, and then ends -/
def Rest (s : GIter) (g : ℕ → ℤ × ℤ) (n : ℕ) : Prop := ∀ k, s.src (s.pos + k) = if k < n then some (g k) else none

theorem Rest.zero {s : GIter} {g : ℕ → ℤ × ℤ} {n : ℕ} (h : Rest s g (n + 1)) : s.src s.pos = some (g 0) := by
  simpa using h 0

theorem Rest.move {s : GIter} {g : ℕ → ℤ × ℤ} {n : ℕ} (h : Rest s g (n + 1)) (m : Block) :
    Rest { s with block := m, pos := s.pos + 1 } (shiftG g) n := fun k => by
  have := h (k + 1)
  simp only [Nat.add_lt_add_iff_right] at this
  show s.src (s.pos + 1 + k) = _
  rw [show s.pos + 1 + k = s.pos + (k + 1) by omega, this]
  rfl

theorem Rest.ended {s : GIter} {g : ℕ → ℤ × ℤ} (h : Rest s g 0) (m : Block) :
    Rest { s with block := m, pos := s.pos + 1 } g 0 := fun k => by
  have := h (k + 1)
  show s.src (s.pos + 1 + k) = _
  rw [show s.pos + 1 + k = s.pos + (k + 1) by omega, this]
  simp

theorem simp_some (n : ℕ) : ∀ {s : GIter} {g : ℕ → ℤ × ℤ} {F : Block}, GeG g → Rest s g n → Nonneg s.block →
    Scal (rawN s.block g n) F → ∀ {i t1 t2 : ℤ}, F.checkInteger = some (i, t1, t2) →
    ∃ s' g' n', SimpCall s i s' ∧ GeG g' ∧ Rest s' g' n' ∧ Nonneg s'.block ∧ Scal (rawN s'.block g' n') (F.after t1 t2) := by
  have now : ∀ {s : GIter} {g : ℕ → ℤ × ℤ} {F : Block} (n : ℕ), GeG g → Rest s g n → Nonneg s.block →
      Scal (rawN s.block g n) F → ∀ {i t1 t2 : ℤ}, F.checkInteger = some (i, t1, t2) →
      ∀ {i' r1 r2}, s.block.checkInteger = some (i', r1, r2) →
      ∃ s' g' n', SimpCall s i s' ∧ GeG g' ∧ Rest s' g' n' ∧ Nonneg s'.block ∧
        Scal (rawN s'.block g' n') (F.after t1 t2) := by
    intro s g F n hg hr hn hs i t1 t2 hc i' r1 r2 hcs
    obtain ⟨q1, q2, i0, r10, r1q, r20, r2q⟩ := checkInteger_nonneg hn hcs
    obtain ⟨u1, u2, h1, h2, -⟩ := check_rawN hg n hn hcs
    obtain ⟨v1, v2, h3, h4, -⟩ := hs.check (rawN_nonneg hg n hn) h1
    rw [hc] at h3
    cases h3
    refine ⟨{ s with block := s.block.after r1 r2 }, g, n, ⟨1, fun fuel hf => ?_⟩, hg, hr,
      ⟨q1.le, q2.le, r10, r20⟩, by show Scal (rawN (s.block.after r1 r2) g n) _; rw [h2]; exact h4⟩
    obtain ⟨f, rfl⟩ : ∃ f, fuel = f + 1 := ⟨fuel - 1, by omega⟩
    rw [GIter.simpNext, reduceRecip_of_check hcs]
  induction n with
  | zero =>
    intro s g F hg hr hn hs i t1 t2 hc
    obtain ⟨r1, r2, h1, -⟩ := Scal.check_rev hs hn hc
    exact now 0 hg hr hn hs hc h1
  | succ n ih =>
    intro s g F hg hr hn hs i t1 t2 hc
    cases hcs : s.block.checkInteger with
    | some r => exact now (n + 1) hg hr hn hs hc hcs
    | none =>
      have hn1 : Nonneg (s.block.gmove (g 0).1 (g 0).2) :=
        (gmove_scal _ _ _).nonneg (raw_nonneg hn (by have := (hg 0).1; omega) (hg 0).2)
      obtain ⟨s', g', n', ⟨N, hN⟩, h1, h2, h3, h4⟩ := ih (s := { s with block := s.block.gmove (g 0).1 (g 0).2, pos := s.pos + 1 })
        hg.shift (hr.move _) hn1 (F := F) (by
          rw [rawN_shift] at hs
          exact ((gmove_scal s.block _ _).moves _ _).trans hs) hc
      refine ⟨s', g', n', ⟨N + 1, fun fuel hf => ?_⟩, h1, h2, h3, h4⟩
      obtain ⟨f, rfl⟩ : ∃ f, fuel = f + 1 := ⟨fuel - 1, by omega⟩
      rw [GIter.simpNext, reduceRecip_of_none hcs]
      simp only [hr.zero]
      exact hN f (by omega)

theorem simp_none (n : ℕ) : ∀ {s : GIter} {g : ℕ → ℤ × ℤ} {F : Block}, GeG g → Rest s g n → Nonneg s.block →
    Scal (rawN s.block g n) F → F.checkInteger = none →
    ∃ N s', (∀ fuel, N ≤ fuel → GIter.simpNext fuel s = some (none, s')) ∧ Rest s' g 0 ∧ s'.block.checkInteger = none := by
  induction n with
  | zero =>
    intro s g F hg hr hn hs hc
    have hc' : s.block.checkInteger = none := Scal.check_none hs hn hc
    have h0 : s.src s.pos = none := by simpa using hr 0
    refine ⟨1, { s with pos := s.pos + 1 }, fun fuel hf => ?_, hr.ended _, hc'⟩
    obtain ⟨f, rfl⟩ : ∃ f, fuel = f + 1 := ⟨fuel - 1, by omega⟩
    rw [GIter.simpNext, reduceRecip_of_none hc']
    simp only [h0]
  | succ n ih =>
    intro s g F hg hr hn hs hc
    have hcs : s.block.checkInteger = none := by
      cases e : s.block.checkInteger with
      | none => rfl
      | some r =>
        obtain ⟨i, r1, r2⟩ := r
        obtain ⟨u1, u2, h1, h2, -⟩ := check_rawN hg (n + 1) hn e
        rw [hs.check_none (rawN_nonneg hg _ hn) hc] at h1
        cases h1
    have hn1 : Nonneg (s.block.gmove (g 0).1 (g 0).2) :=
      (gmove_scal _ _ _).nonneg (raw_nonneg hn (by have := (hg 0).1; omega) (hg 0).2)
    obtain ⟨N, s', hN, h1, h2⟩ := ih (s := { s with block := s.block.gmove (g 0).1 (g 0).2, pos := s.pos + 1 })
      hg.shift (hr.move _) hn1 (F := F) (by
        rw [rawN_shift] at hs
        exact ((gmove_scal s.block _ _).moves _ _).trans hs) hc
    refine ⟨N + 1, s', fun fuel hf => ?_, fun k => by rw [h1 k]; simp, h2⟩
    obtain ⟨f, rfl⟩ : ∃ f, fuel = f + 1 := ⟨fuel - 1, by omega⟩
    rw [GIter.simpNext, reduceRecip_of_none hcs]
    simp only [hr.zero]
    exact hN f (by omega)

theorem simp_common : ∀ (c : List ℤ) {s : GIter} {g : ℕ → ℤ × ℤ} {n : ℕ} {F : Block}, GeG g → Rest s g n →
    Nonneg s.block → Scal (rawN s.block g n) F → Nonneg F → F.common = c →
    ∃ s' s'' N g', Outs SimpCall s c s' ∧ (∀ fuel, N ≤ fuel → GIter.simpNext fuel s' = some (none, s'')) ∧
      Rest s'' g' 0 ∧ s''.block.checkInteger = none := by
  intro c
  induction c with
  | nil =>
    intro s g n F hg hr hn hs hF hc
    have h0 : F.checkInteger = none := by
      cases hcs : F.checkInteger with
      | none => rfl
      | some r =>
        obtain ⟨i', r1, r2⟩ := r
        rw [common_some hF hcs] at hc
        cases hc
    obtain ⟨N, s', hN, h1, h2⟩ := simp_none n hg hr hn hs h0
    exact ⟨s, s', N, g, .nil s, hN, h1, h2⟩
  | cons i c ih =>
    intro s g n F hg hr hn hs hF hc
    cases hcs : F.checkInteger with
    | none => rw [common_none hF hcs] at hc; cases hc
    | some r =>
      obtain ⟨i', t1, t2⟩ := r
      obtain ⟨q1, q2, i0, r10, r1q, r20, r2q⟩ := checkInteger_nonneg hF hcs
      rw [common_some hF hcs] at hc
      cases hc
      obtain ⟨s1, g1, n1, h1, h2, h3, h4, h5⟩ := simp_some n hg hr hn hs hcs
      obtain ⟨s', s'', N, g', k1, k2, k3, k4⟩ := ih h2 h3 h4 h5 ⟨q1.le, q2.le, r10, r20⟩ rfl
      exact ⟨s', s'', N, g', Outs.cons h1 k1, k2, k3, k4⟩

/-! ### `decimals` -/

variable {cfg : Cfg} {ty : IntTy}

theorem dec_some (hf : ∀ n, ty.fits n = true) (n : ℕ) : ∀ {s : GIter} {g : ℕ → ℤ × ℤ} {F : Block}, GeG g → Rest s g n →
    Nonneg s.block → Scal (rawN s.block g n) F → ∀ {i t1 t2 : ℤ} {ch : ℕ}, F.checkInteger = some (i, t1, t2) →
    digitChar cfg i = .ok ch →
    ∃ s' g' n', DecCall cfg ty s ch s' ∧ GeG g' ∧ Rest s' g' n' ∧ Nonneg s'.block ∧
      Scal (rawN s'.block g' n') (F.afterMul t1 t2) := by
  have now : ∀ {s : GIter} {g : ℕ → ℤ × ℤ} {F : Block} (n : ℕ), GeG g → Rest s g n → Nonneg s.block →
      Scal (rawN s.block g n) F → ∀ {i t1 t2 : ℤ} {ch : ℕ}, F.checkInteger = some (i, t1, t2) → digitChar cfg i = .ok ch →
      ∀ {i' r1 r2}, s.block.checkInteger = some (i', r1, r2) →
      ∃ s' g' n', DecCall cfg ty s ch s' ∧ GeG g' ∧ Rest s' g' n' ∧ Nonneg s'.block ∧
        Scal (rawN s'.block g' n') (F.afterMul t1 t2) := by
    intro s g F n hg hr hn hs i t1 t2 ch hc hd i' r1 r2 hcs
    obtain ⟨q1, q2, i0, r10, r1q, r20, r2q⟩ := checkInteger_nonneg hn hcs
    obtain ⟨u1, u2, h1, -, h2⟩ := check_rawN hg n hn hcs
    obtain ⟨v1, v2, h3, -, h4⟩ := hs.check (rawN_nonneg hg n hn) h1
    rw [hc] at h3
    cases h3
    refine ⟨{ s with block := s.block.afterMul r1 r2 }, g, n, ⟨1, fun fuel hf' => ?_⟩, hg, hr,
      ⟨by simp only [afterMul]; omega, by simp only [afterMul]; omega, q1.le, q2.le⟩,
      by show Scal (rawN (s.block.afterMul r1 r2) g n) _; rw [h2]; exact h4⟩
    obtain ⟨f, rfl⟩ : ∃ f, fuel = f + 1 := ⟨fuel - 1, by omega⟩
    rw [GIter.decNext, reduceMulTy_of_check hf hcs]
    simp only [hd]
  induction n with
  | zero =>
    intro s g F hg hr hn hs i t1 t2 ch hc hd
    obtain ⟨r1, r2, h1, -⟩ := Scal.check_rev hs hn hc
    exact now 0 hg hr hn hs hc hd h1
  | succ n ih =>
    intro s g F hg hr hn hs i t1 t2 ch hc hd
    cases hcs : s.block.checkInteger with
    | some r => exact now (n + 1) hg hr hn hs hc hd hcs
    | none =>
      obtain ⟨p, q, m', hm⟩ := checkedGmove_all hf s.block (g 0).1 (g 0).2
      have hsc := checkedGmove_scal hm
      have hn1 : Nonneg (m'.update p q) := hsc.nonneg (raw_nonneg hn (by have := (hg 0).1; omega) (hg 0).2)
      obtain ⟨s', g', n', ⟨N, hN⟩, h1, h2, h3, h4⟩ := ih (s := { s with block := m'.update p q, pos := s.pos + 1 })
        hg.shift (hr.move _) hn1 (F := F) (by
          rw [rawN_shift] at hs
          exact (hsc.moves _ _).trans hs) hc hd
      refine ⟨s', g', n', ⟨N + 1, fun fuel hf' => ?_⟩, h1, h2, h3, h4⟩
      obtain ⟨f, rfl⟩ : ∃ f, fuel = f + 1 := ⟨fuel - 1, by omega⟩
      rw [GIter.decNext, reduceMulTy_of_none hcs]
      simp only [hr.zero, hm]
      exact hN f (by omega)

theorem dec_none (hf : ∀ n, ty.fits n = true) (n : ℕ) : ∀ {s : GIter} {g : ℕ → ℤ × ℤ} {F : Block}, GeG g → Rest s g n →
    Nonneg s.block → Scal (rawN s.block g n) F → F.checkInteger = none →
    ∃ N s', (∀ fuel, N ≤ fuel → GIter.decNext cfg ty fuel s = some (.ok (none, s'))) ∧ Rest s' g 0 ∧
      s'.block.checkInteger = none := by
  induction n with
  | zero =>
    intro s g F hg hr hn hs hc
    have hc' : s.block.checkInteger = none := Scal.check_none hs hn hc
    have h0 : s.src s.pos = none := by simpa using hr 0
    refine ⟨1, { s with pos := s.pos + 1 }, fun fuel hf => ?_, hr.ended _, hc'⟩
    obtain ⟨f, rfl⟩ : ∃ f, fuel = f + 1 := ⟨fuel - 1, by omega⟩
    rw [GIter.decNext, reduceMulTy_of_none hc']
    simp only [h0]
  | succ n ih =>
    intro s g F hg hr hn hs hc
    have hcs : s.block.checkInteger = none := by
      cases e : s.block.checkInteger with
      | none => rfl
      | some r =>
        obtain ⟨i, r1, r2⟩ := r
        obtain ⟨u1, u2, h1, h2, -⟩ := check_rawN hg (n + 1) hn e
        rw [hs.check_none (rawN_nonneg hg _ hn) hc] at h1
        cases h1
    obtain ⟨p, q, m', hm⟩ := checkedGmove_all hf s.block (g 0).1 (g 0).2
    have hsc := checkedGmove_scal hm
    have hn1 : Nonneg (m'.update p q) := hsc.nonneg (raw_nonneg hn (by have := (hg 0).1; omega) (hg 0).2)
    obtain ⟨N, s', hN, h1, h2⟩ := ih (s := { s with block := m'.update p q, pos := s.pos + 1 })
      hg.shift (hr.move _) hn1 (F := F) (by
        rw [rawN_shift] at hs
        exact (hsc.moves _ _).trans hs) hc
    refine ⟨N + 1, s', fun fuel hf' => ?_, fun k => by rw [h1 k]; simp, h2⟩
    obtain ⟨f, rfl⟩ : ∃ f, fuel = f + 1 := ⟨fuel - 1, by omega⟩
    rw [GIter.decNext, reduceMulTy_of_none hcs]
    simp only [hr.zero, hm]
    exact hN f (by omega)

/-- the columns of the block stand for the two numbers after `k` digits -/
def Cols (F : Block) (x y : ℝ) (k : ℕ) : Prop :=
  Nonneg F ∧ 0 < F.qm1 ∧ 0 < F.qm2 ∧ (F.pm1 : ℝ) = decTail x k * F.qm1 ∧ (F.pm2 : ℝ) = decTail y k * F.qm2

theorem Cols.floors {F : Block} {x y : ℝ} {k : ℕ} (h : Cols F x y k) :
    F.pm1 / F.qm1 = ⌊decTail x k⌋ ∧ F.pm2 / F.qm2 = ⌊decTail y k⌋ := by
  obtain ⟨-, q1, q2, e1, e2⟩ := h
  have main : ∀ (p q : ℤ) (t : ℝ), 0 < q → (p : ℝ) = t * q → p / q = ⌊t⌋ := by
    intro p q t hq e
    have hq' : (0 : ℝ) < q := by exact_mod_cast hq
    have h1 := Int.floor_le t
    have h2 := Int.lt_floor_add_one t
    have h3 : ⌊t⌋ * q ≤ p := by
      have : (⌊t⌋ : ℝ) * q ≤ p := by rw [e]; exact mul_le_mul_of_nonneg_right h1 hq'.le
      exact_mod_cast this
    have h4 : p < (⌊t⌋ + 1) * q := by
      have : (p : ℝ) < (⌊t⌋ + 1) * q := by rw [e]; exact mul_lt_mul_of_pos_right h2 hq'
      exact_mod_cast this
    apply le_antisymm
    · exact Int.lt_add_one_iff.mp (Int.ediv_lt_of_lt_mul hq h4)
    · exact Int.le_ediv_of_mul_le hq h3
  exact ⟨main _ _ _ q1 e1, main _ _ _ q2 e2⟩

theorem Cols.out {F : Block} {x y : ℝ} {k : ℕ} (h : Cols F x y k) (he : ⌊decTail x k⌋ = ⌊decTail y k⌋) :
    ∃ t1 t2, F.checkInteger = some (⌊decTail x k⌋, t1, t2) ∧ Cols (F.afterMul t1 t2) x y (k + 1) := by
  obtain ⟨f1, f2⟩ := h.floors
  obtain ⟨⟨n1, n2, n3, n4⟩, q1, q2, e1, e2⟩ := h
  have m1 := Int.emod_nonneg F.pm1 q1.ne'
  have m2 := Int.emod_nonneg F.pm2 q2.ne'
  have d1 := Int.mul_ediv_add_emod F.pm1 F.qm1
  have d2 := Int.mul_ediv_add_emod F.pm2 F.qm2
  rw [f1] at d1
  rw [f2] at d2
  refine ⟨F.pm1 % F.qm1, F.pm2 % F.qm2, check_of q1 q2 n1 n2 ?_ ?_ m1 (Int.emod_lt_of_pos _ q1) m2 (Int.emod_lt_of_pos _ q2),
    ⟨⟨by simp only [afterMul]; omega, by simp only [afterMul]; omega, n3, n4⟩, q1, q2, ?_, ?_⟩⟩
  · linarith
  · rw [he]; linarith
  · have : ((F.pm1 % F.qm1 : ℤ) : ℝ) = F.pm1 - F.qm1 * ⌊decTail x k⌋ := by
      have := congrArg (Int.cast : ℤ → ℝ) d1
      push_cast at this
      linarith
    simp only [afterMul, decTail]
    push_cast [this]
    rw [e1]; ring
  · have : ((F.pm2 % F.qm2 : ℤ) : ℝ) = F.pm2 - F.qm2 * ⌊decTail y k⌋ := by
      have := congrArg (Int.cast : ℤ → ℝ) d2
      push_cast at this
      linarith
    simp only [afterMul, decTail]
    push_cast [this]
    rw [e2]; ring

theorem Cols.stop {F : Block} {x y : ℝ} {k : ℕ} (h : Cols F x y k) (he : ⌊decTail x k⌋ ≠ ⌊decTail y k⌋) :
    F.checkInteger = none := by
  obtain ⟨f1, f2⟩ := h.floors
  obtain ⟨⟨n1, n2, n3, n4⟩, q1, q2, e1, e2⟩ := h
  unfold Block.checkInteger
  rw [if_neg (by omega)]
  simp only [Int.tdiv_eq_ediv_of_nonneg n1, Int.tdiv_eq_ediv_of_nonneg n2]
  rw [if_neg (by rw [f1, f2]; exact he)]

theorem digitChar_small {i : ℤ} (h0 : 0 ≤ i) (h1 : i < 10) : digitChar cfg i = .ok (48 + i).toNat := by
  unfold digitChar
  rw [if_neg (by omega), if_pos (by omega), add_comm]

theorem dec_common (hf : ∀ n, ty.fits n = true) {x y : ℝ} (hx0 : 0 ≤ x) (hx : x < 10) :
    ∀ (K : ℕ) {k : ℕ} {s : GIter} {g : ℕ → ℤ × ℤ} {n : ℕ} {F : Block}, GeG g → Rest s g n →
    Nonneg s.block → Scal (rawN s.block g n) F → Cols F x y k →
    (∀ j, k ≤ j → j < k + K → ⌊decTail x j⌋ = ⌊decTail y j⌋) → ⌊decTail x (k + K)⌋ ≠ ⌊decTail y (k + K)⌋ →
    ∃ s' s'' N g', Outs (DecCall cfg ty) s ((List.range K).map fun j => (48 + ⌊decTail x (k + j)⌋).toNat) s' ∧
      (∀ fuel, N ≤ fuel → GIter.decNext cfg ty fuel s' = some (.ok (none, s''))) ∧
      Rest s'' g' 0 ∧ s''.block.checkInteger = none := by
  intro K
  induction K with
  | zero =>
    intro k s g n F hg hr hn hs hF _ hne
    obtain ⟨N, s', hN, h1, h2⟩ := dec_none (cfg := cfg) hf n hg hr hn hs (hF.stop hne)
    exact ⟨s, s', N, g, .nil s, hN, h1, h2⟩
  | succ K ih =>
    intro k s g n F hg hr hn hs hF heq hne
    obtain ⟨t1, t2, hc, hF'⟩ := hF.out (heq k le_rfl (by omega))
    have hb := decTail_bounds hx0 hx k
    obtain ⟨s1, g1, n1, h1, h2, h3, h4, h5⟩ := dec_some (cfg := cfg) hf n hg hr hn hs hc
      (digitChar_small (Int.floor_nonneg.mpr hb.1) (by rw [Int.floor_lt]; exact_mod_cast hb.2))
    obtain ⟨s', s'', N, g', k1, k2, k3, k4⟩ := ih h2 h3 h4 h5 hF' (fun j hj hj' => heq j (by omega) (by omega))
      (by rw [show k + 1 + K = k + (K + 1) by omega]; exact hne)
    refine ⟨s', s'', N, g', ?_, k2, k3, k4⟩
    have := Outs.cons h1 k1
    rw [List.range_succ_eq_map, List.map_cons, List.map_map]
    rw [Nat.add_zero]
    rw [List.map_congr_left (g := fun j => (48 + ⌊decTail x (k + 1 + j)⌋).toNat)]
    · exact this
    · intro j _
      simp only [Function.comp, Nat.succ_eq_add_one]
      rw [show k + (j + 1) = k + 1 + j by omega]

end GIter
end NumIrr
