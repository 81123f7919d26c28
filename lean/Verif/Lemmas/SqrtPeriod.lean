/-
The states of the expansion of a square root: the period is a palindrome.
-/
import Verif.Lemmas.CFShort
import Verif.Lemmas.CFBest

namespace NumIrr
namespace Lagrange

variable {d rd p q : ℤ}

theorem fdiv_unique {t u q : ℤ} (hq : 0 < q) (h1 : t * q ≤ u) (h2 : u < t * q + q) : u.fdiv q = t := by
  rw [Int.fdiv_eq_ediv_of_nonneg _ hq.le]
  apply le_antisymm
  · have : u / q < t + 1 := Int.ediv_lt_of_lt_mul hq (by linarith)
    omega
  · exact (Int.le_ediv_iff_mul_le hq).2 h1

theorem coef_between (hq : 0 < q) : coef rd p q * q ≤ rd + p ∧ rd + p < coef rd p q * q + q := by
  unfold coef
  rw [Int.fdiv_eq_ediv_of_nonneg _ hq.le]
  have h1 := Int.ediv_mul_add_emod (rd + p) q
  have h2 := Int.emod_nonneg (rd + p) hq.ne'
  have h3 := Int.emod_lt_of_pos (rd + p) hq
  constructor <;> linarith

theorem Red.ineq (h : Red d rd p q) : p ≤ rd ∧ rd < p + q ∧ q - p ≤ rd := by
  have := h.red
  unfold isReduced at this
  simp only [Bool.and_eq_true, decide_eq_true_eq] at this
  omega

/-- the coefficient seen from the other side -/
theorem Red.coef_rev (hr : Root d rd) (h : Red d rd p q) : coef rd (nextP rd p q) q = coef rd p q := by
  have hq := h.qpos hr
  obtain ⟨h1, h2, -⟩ := h.ineq
  refine fdiv_unique hq ?_ ?_
  · unfold nextP; linarith
  · unfold nextP; linarith

/-- the state `√d/q`, with `q ∣ d` -/
structure Start (d rd q : ℤ) : Prop where
  root : Root d rd
  pos : 0 < q
  dvd : q ∣ d
  le : q ≤ rd

namespace Start

theorem valid (h : Start d rd q) : Valid d 0 q := ⟨h.pos.ne', by simpa using h.dvd⟩

theorem th_gt (h : Start d rd q) : 1 < th d 0 q := by
  have h1 := h.root.lt
  have h2 : (0 : ℝ) < q := by exact_mod_cast h.pos
  have h3 : (q : ℝ) ≤ rd := by exact_mod_cast h.le
  unfold th
  rw [lt_div_iff₀ h2]
  push_cast
  linarith

theorem thc_neg (h : Start d rd q) : thc d 0 q < 0 := by
  have h1 := h.root.lt
  have h2 : (0 : ℝ) < q := by exact_mod_cast h.pos
  have h3 : (q : ℝ) ≤ rd := by exact_mod_cast h.le
  unfold thc
  apply div_neg_of_neg_of_pos _ h2
  push_cast
  linarith

/-- the states after the first coefficient -/
def seq (d rd q : ℤ) (n : ℕ) : ℤ × ℤ := (stp d rd)^[n] (stp d rd (0, q))

theorem seq_succ (n : ℕ) : seq d rd q (n + 1) = stp d rd (seq d rd q n) := Function.iterate_succ_apply' _ _ _

theorem red0 (h : Start d rd q) : Red d rd (stp d rd (0, q)).1 (stp d rd (0, q)).2 :=
  ⟨next_valid h.root h.valid, (run_neg h.root h.valid h.th_gt h.thc_neg).2.1⟩

theorem red (h : Start d rd q) (n : ℕ) : Red d rd (seq d rd q n).1 (seq d rd q n).2 := iter_red h.root _ h.red0 n

theorem a0_pos (h : Start d rd q) : 1 ≤ coef rd 0 q := (run_neg h.root h.valid h.th_gt h.thc_neg).1

/-- the last state of the period -/
theorem last_red (h : Start d rd q) : Red d rd (coef rd 0 q * q) q := by
  obtain ⟨h1, h2⟩ := coef_between (rd := rd) (p := 0) h.pos
  have h3 := h.a0_pos
  have h4 := h.le
  have h5 := h.pos
  refine ⟨⟨h.pos.ne', ?_⟩, ?_⟩
  · exact dvd_sub h.dvd (Dvd.intro (coef rd 0 q * (coef rd 0 q * q)) (by ring))
  · unfold isReduced
    simp only [Bool.and_eq_true, decide_eq_true_eq]
    refine ⟨⟨by linarith, by linarith⟩, by nlinarith⟩

theorem last_coef (h : Start d rd q) : coef rd (coef rd 0 q * q) q = 2 * coef rd 0 q := by
  obtain ⟨h1, h2⟩ := coef_between (rd := rd) (p := 0) h.pos
  refine fdiv_unique h.pos ?_ ?_ <;> linarith

theorem last_next (h : Start d rd q) : stp d rd (coef rd 0 q * q, q) = stp d rd (0, q) := by
  have e : nextP rd (coef rd 0 q * q) q = nextP rd 0 q := by
    unfold nextP; rw [h.last_coef]; ring
  unfold stp nextQ
  simp only
  rw [e]

theorem seq_last (h : Start d rd q) {k : ℕ} (hk : seq d rd q (k + 1) = seq d rd q 0) :
    seq d rd q k = (coef rd 0 q * q, q) := by
  rw [seq_succ, show seq d rd q 0 = stp d rd (coef rd 0 q * q, q) from h.last_next.symm] at hk
  obtain ⟨h1, h2⟩ := (h.red k).inj h.root h.last_red (congrArg Prod.fst hk) (congrArg Prod.snd hk)
  exact Prod.ext h1 h2

theorem seq_mul (h : Start d rd q) (n : ℕ) :
    (seq d rd q n).2 * (seq d rd q (n + 1)).2 = d - (seq d rd q (n + 1)).1 * (seq d rd q (n + 1)).1 := by
  rw [seq_succ]
  exact next_mul (h.red n).valid

/-- the coefficient after the first -/
def co (d rd q : ℤ) (n : ℕ) : ℤ := coef rd (seq d rd q n).1 (seq d rd q n).2

theorem seq_p (n : ℕ) : (seq d rd q (n + 1)).1 = co d rd q n * (seq d rd q n).2 - (seq d rd q n).1 := by
  rw [seq_succ]; rfl

theorem co_rev (h : Start d rd q) (n : ℕ) : coef rd (seq d rd q (n + 1)).1 (seq d rd q n).2 = co d rd q n := by
  rw [seq_succ]
  exact (h.red n).coef_rev h.root

/-- the states of the period, read backwards -/
theorem mirror (h : Start d rd q) {k : ℕ} (hk : seq d rd q (k + 1) = seq d rd q 0) :
    ∀ j, (j ≤ k → (seq d rd q j).1 = (seq d rd q (k - j)).1) ∧
      (j + 1 ≤ k → (seq d rd q j).2 = (seq d rd q (k - 1 - j)).2) := by
  have hl := h.seq_last hk
  have e0 : (seq d rd q 0).1 = coef rd 0 q * q := by
    show nextP rd 0 q = _
    unfold nextP; ring
  have m0 : q * (seq d rd q 0).2 = d - (seq d rd q 0).1 * (seq d rd q 0).1 := next_mul h.valid
  intro j
  induction j with
  | zero =>
    refine ⟨fun _ => by rw [Nat.sub_zero, hl, e0], fun hk1 => ?_⟩
    have := h.seq_mul (k - 1)
    rw [show k - 1 + 1 = k by omega, hl] at this
    simp only at this
    rw [e0] at m0
    rw [Nat.sub_zero]
    apply mul_left_cancel₀ h.pos.ne'
    rw [m0, ← this]; ring
  | succ j ih =>
    obtain ⟨i1, i2⟩ := ih
    have key : j + 1 ≤ k → (seq d rd q (j + 1)).1 = (seq d rd q (k - (j + 1))).1 := by
      intro hj
      have e1 := i1 (by omega)
      have e2 := i2 hj
      have r1 := h.co_rev (k - (j + 1))
      rw [show k - (j + 1) + 1 = k - j by omega, ← e1, show k - (j + 1) = k - 1 - j by omega, ← e2] at r1
      have s1 := seq_p (d := d) (rd := rd) (q := q) (k - (j + 1))
      rw [show k - (j + 1) + 1 = k - j by omega, ← e1, show k - (j + 1) = k - 1 - j by omega, ← e2] at s1
      have s2 := seq_p (d := d) (rd := rd) (q := q) j
      have r2 : co d rd q j = co d rd q (k - 1 - j) := r1
      rw [show k - (j + 1) = k - 1 - j by omega, s2, r2]
      linarith
    refine ⟨key, fun hj => ?_⟩
    have e1 := key (by omega)
    have e2 := i2 (by omega)
    have t1 := h.seq_mul j
    have t2 := h.seq_mul (k - 1 - (j + 1))
    rw [show k - 1 - (j + 1) + 1 = k - (j + 1) by omega, ← e1] at t2
    rw [show k - 1 - j = k - (j + 1) by omega] at e2
    rw [← e2] at t2
    have hne := ((h.red j).qpos h.root).ne'
    apply mul_left_cancel₀ hne
    rw [t1, ← t2]; ring

theorem co_mirror (h : Start d rd q) {k : ℕ} (hk : seq d rd q (k + 1) = seq d rd q 0) (j : ℕ) (hj : j + 1 ≤ k) :
    co d rd q j = co d rd q (k - 1 - j) := by
  obtain ⟨i1, i2⟩ := h.mirror hk j
  have e1 := i1 (by omega)
  have e2 := i2 hj
  have r1 := h.co_rev (k - (j + 1))
  rw [show k - (j + 1) + 1 = k - j by omega, ← e1, show k - (j + 1) = k - 1 - j by omega, ← e2] at r1
  exact r1

theorem co_last (h : Start d rd q) {k : ℕ} (hk : seq d rd q (k + 1) = seq d rd q 0) :
    co d rd q k = 2 * coef rd 0 q := by
  unfold co
  rw [h.seq_last hk]
  exact h.last_coef

theorem recurs (h : Start d rd q) : ∃ k, seq d rd q (k + 1) = seq d rd q 0 := recur h.root _ h.red0

/-- the complete quotients -/
theorem tails_seq (h : Start d rd q) (n : ℕ) :
    tails (th d 0 q) (n + 1) = th d (seq d rd q n).1 (seq d rd q n).2 := by
  have hno : ∀ m, ¬ Off rd ((stp d rd)^[m] (0, q)).1 ((stp d rd)^[m] (0, q)).2 := by
    intro m
    cases m with
    | zero => exact not_off h.pos
    | succ m => rw [Function.iterate_succ_apply]; exact (h.red m).not_off h.root
  have := th_iter h.root (x := (0, q)) h.valid (n + 1) fun m _ => hno m
  rw [Function.iterate_succ_apply] at this
  exact this.symm

theorem floor_tails (h : Start d rd q) :
    ⌊tails (th d 0 q) 0⌋ = coef rd 0 q ∧ ∀ n, ⌊tails (th d 0 q) (n + 1)⌋ = co d rd q n := by
  constructor
  · rw [Int.floor_eq_iff]
    have := coef_exact h.root h.valid (not_off h.pos)
    exact ⟨this.1.le, this.2⟩
  · intro n
    rw [h.tails_seq, Int.floor_eq_iff]
    have := coef_exact h.root (h.red n).valid ((h.red n).not_off h.root)
    exact ⟨this.1.le, this.2⟩

theorem seq_mod {K : ℕ} (hK : seq d rd q K = seq d rd q 0) (m : ℕ) : seq d rd q (m % K) = seq d rd q m :=
  Function.IsPeriodicPt.iterate_mod_apply (show Function.IsPeriodicPt (stp d rd) K (stp d rd (0, q)) from hK) m

/-- the state at the beginning does not recur -/
theorem not_recur (h : Start d rd q) (n : ℕ) : th d (seq d rd q n).1 (seq d rd q n).2 ≠ th d 0 q := by
  intro e
  have := state_inj h.root (x := seq d rd q n) (y := (0, q)) (h.red n).valid h.valid e
  have h1 := (h.red n).bounds.1
  rw [this] at h1
  simp only at h1
  omega

end Start
end Lagrange

open Lagrange Start

namespace CF

/-- the coefficients of a square root, from the `i`-th coefficient on -/
theorem sqrt_coeff {d rd q : ℤ} {c : CF} (hw : c.Wf) (hp : c.p ≠ []) {v : ℝ} (hv : c.HasVal v) (hs : Start d rd q) {i : ℕ}
    (ht : ∀ n, tails |v| (n + i) = tails (th d 0 q) n) :
    ((coeffAt c.a c.p i : ℕ) : ℤ) = coef rd 0 q ∧ ∀ n, ((coeffAt c.a c.p (i + 1 + n) : ℕ) : ℤ) = co d rd q n := by
  obtain ⟨-, -, -, -, hc⟩ := coeff_of_val hw hp hv
  constructor
  · have := ht 0
    rw [Nat.zero_add] at this
    rw [hc, this, hs.floor_tails.1]
  · intro n
    rw [hc, show i + 1 + n = n + 1 + i by omega, ht, hs.floor_tails.2]

/-- every recurrence of the states is a period -/
theorem sqrt_same {d rd q : ℤ} {c : CF} (hw : c.Wf) (hp : c.p ≠ []) {v : ℝ} (hv : c.HasVal v) (hs : Start d rd q) {i : ℕ}
    (ht : ∀ n, tails |v| (n + i) = tails (th d 0 q) n) {k : ℕ} (hk : seq d rd q (k + 1) = seq d rd q 0) :
    c.SameCoeffs ((List.range (i + 1)).map (coeffAt c.a c.p))
      ((List.range (k + 1)).map fun j => coeffAt c.a c.p (i + 1 + j)) := by
  have hcn := (sqrt_coeff hw hp hv hs ht).2
  refine ⟨by simp, by simp, fun n => ?_⟩
  rcases Nat.lt_or_ge n (i + 1) with hn | hn
  · rw [coeffAt_lt _ _ (by simpa using hn)]; simp
  · obtain ⟨m, rfl⟩ : ∃ m, n = i + 1 + m := ⟨n - (i + 1), by omega⟩
    have hge : ∀ (a p : List ℕ) (n : ℕ), a.length ≤ n → coeffAt a p n = p.getD ((n - a.length) % p.length) 0 :=
      fun a p n h => by unfold coeffAt; rw [if_neg (by omega)]
    rw [hge _ _ _ (by simp)]
    simp only [List.length_map, List.length_range, Nat.add_sub_cancel_left]
    have hlt : m % (k + 1) < k + 1 := Nat.mod_lt _ (by omega)
    rw [List.getD_eq_getElem?_getD, List.getElem?_map, List.getElem?_range hlt]
    simp only [Option.map_some, Option.getD_some]
    have : ((coeffAt c.a c.p (i + 1 + m % (k + 1)) : ℕ) : ℤ) = (coeffAt c.a c.p (i + 1 + m) : ℕ) := by
      rw [hcn, hcn]
      unfold co
      rw [seq_mod hk]
    exact_mod_cast this

/-- the fraction of a square root, from the `i`-th coefficient on -/
theorem sqrt_shape {d rd q : ℤ} {c : CF} (hw : c.Wf) (hp : c.p ≠ []) {v : ℝ} (hv : c.HasVal v) (hs : Start d rd q) (i : ℕ)
    (ht : ∀ n, tails |v| (n + i) = tails (th d 0 q) n) (h1 : c.ShortestHead) :
    ∃ (z : List ℕ) (a0 : ℕ) (m : List ℕ), c.a = z ++ [a0] ∧ z.length = i ∧ c.p = m ++ [2 * a0] ∧ m.reverse = m ∧ (a0 : ℤ) = coef rd 0 q ∧
      seq d rd q c.p.length = seq d rd q 0 := by
  obtain ⟨hc0, hcn⟩ := sqrt_coeff hw hp hv hs ht
  have hpl : 1 ≤ c.p.length := List.length_pos_iff.2 hp
  have hself : c.SameCoeffs c.a c.p := ⟨hw.1, hp, fun _ => rfl⟩
  have hle : c.a.length ≤ i + 1 := by
    obtain ⟨k, hk⟩ := hs.recurs
    simpa using h1 _ _ (sqrt_same hw hp hv hs ht hk)
  have hgt : i < c.a.length := by
    by_contra hcon
    have h2 := tails_periodic hw hp hv hself (n := i) (by omega) 1
    have h3 := ht 0
    have h4 := ht c.p.length
    rw [one_mul, Nat.add_comm, h4] at h2
    rw [Nat.zero_add] at h3
    rw [h3] at h2
    obtain ⟨n, hn⟩ : ∃ n, c.p.length = n + 1 := ⟨c.p.length - 1, by omega⟩
    rw [hn, hs.tails_seq] at h2
    exact hs.not_recur n h2
  have hlen : c.a.length = i + 1 := by omega
  have hper : seq d rd q c.p.length = seq d rd q 0 := by
    have h2 := tails_periodic hw hp hv hself (n := i + 1) hle 1
    rw [one_mul, show i + 1 + c.p.length = c.p.length + 1 + i by omega, show i + 1 = 0 + 1 + i by omega, ht, ht,
      hs.tails_seq, hs.tails_seq] at h2
    exact state_inj hs.root (hs.red _).valid (hs.red _).valid h2
  have hpj : ∀ j (hj : j < c.p.length), ((c.p[j] : ℕ) : ℤ) = co d rd q j := fun j hj => by
    rw [← hcn, ← hlen, coeffAt_add, coeffAt_period_lt _ hj]
  obtain ⟨k, hk⟩ : ∃ k, c.p.length = k + 1 := ⟨c.p.length - 1, by omega⟩
  rw [hk] at hper
  have ha0 : ((c.a[i] : ℕ) : ℤ) = coef rd 0 q := by rw [← hc0, coeffAt_lt _ _ hgt]
  refine ⟨c.a.take i, c.a[i], c.p.dropLast, ?_, ?_, ?_, ?_, ha0, by rw [hk]; exact hper⟩
  · have : c.a = c.a.take (i + 1) := by rw [List.take_of_length_le (by omega)]
    conv_lhs => rw [this]
    rw [List.take_succ_eq_append_getElem hgt]
  · simp; omega
  · have hl : c.p.getLast hp = 2 * c.a[i] := by
      rw [List.getLast_eq_getElem]
      have h2 := hpj (c.p.length - 1) (by omega)
      have h3 := hs.co_last hper
      rw [show k = c.p.length - 1 by omega] at h3
      rw [h3, ← ha0] at h2
      exact_mod_cast h2
    rw [← hl]
    exact (List.dropLast_concat_getLast hp).symm
  · apply List.ext_getElem (by simp)
    intro j h2 h3
    rw [List.getElem_reverse]
    simp only [List.length_dropLast, List.getElem_dropLast]
    simp only [List.length_dropLast, List.length_reverse] at h2 h3
    have e1 := hpj j (by omega)
    have e2 := hpj (c.p.length - 1 - 1 - j) (by omega)
    have e3 := hs.co_mirror hper j (by omega)
    rw [show k - 1 - j = c.p.length - 1 - 1 - j by omega] at e3
    rw [e3, ← e2] at e1
    exact_mod_cast e1.symm

/-- the states recur at the multiples of the shortest period only -/
theorem sqrt_dvd {d rd q : ℤ} {c : CF} (hw : c.Wf) (hp : c.p ≠ []) {v : ℝ} (hv : c.HasVal v) (hs : Start d rd q) {i : ℕ}
    (ht : ∀ n, tails |v| (n + i) = tails (th d 0 q) n) (h2 : c.ShortestPeriod)
    (hper : seq d rd q c.p.length = seq d rd q 0) (n : ℕ) : seq d rd q n = seq d rd q 0 ↔ c.p.length ∣ n := by
  have hpl : 1 ≤ c.p.length := List.length_pos_iff.2 hp
  constructor
  · intro h
    rw [← seq_mod hper] at h
    rw [Nat.dvd_iff_mod_eq_zero]
    by_contra h0
    obtain ⟨k, hk⟩ : ∃ k, n % c.p.length = k + 1 := ⟨n % c.p.length - 1, by omega⟩
    rw [hk] at h
    have h3 := h2 _ _ (sqrt_same hw hp hv hs ht h)
    simp only [List.length_map, List.length_range] at h3
    have := Nat.mod_lt n (show 0 < c.p.length by omega)
    omega
  · rintro ⟨j, rfl⟩
    rw [← seq_mod hper, Nat.mul_mod_right]

/-- the state before the coefficient `n` -/
def st (d rd q : ℤ) (n : ℕ) : ℤ × ℤ := (stp d rd)^[n] (0, q)

theorem st_succ_eq (d rd q : ℤ) (n : ℕ) : st d rd q (n + 1) = seq d rd q n := by
  unfold st
  rw [Function.iterate_succ_apply]; rfl

/-- the convergents and the states -/
theorem block_st {d rd : ℤ} {c : CF} (hs : Start d rd 1) (hc0 : ((coeffAt c.a c.p 0 : ℕ) : ℤ) = coef rd 0 1)
    (hcn : ∀ n, ((coeffAt c.a c.p (1 + n) : ℕ) : ℤ) = co d rd 1 n) (n : ℕ) :
    (blockOf (c.trunc n)).pm1 = (blockOf (c.trunc n)).qm1 * (st d rd 1 n).1 + (blockOf (c.trunc n)).qm2 * (st d rd 1 n).2 ∧
    d * (blockOf (c.trunc n)).qm1 =
      (blockOf (c.trunc n)).pm1 * (st d rd 1 n).1 + (blockOf (c.trunc n)).pm2 * (st d rd 1 n).2 ∧
    (blockOf (c.trunc n)).pm1 * (blockOf (c.trunc n)).qm2 - (blockOf (c.trunc n)).pm2 * (blockOf (c.trunc n)).qm1 =
      (-1) ^ n := by
  have hcn' : ∀ n, ((coeffAt c.a c.p n : ℕ) : ℤ) = coef rd (st d rd 1 n).1 (st d rd 1 n).2 := by
    intro n
    cases n with
    | zero => exact hc0
    | succ n => rw [st_succ_eq, ← Nat.add_comm 1 n, hcn]; rfl
  have hval : ∀ n, Valid d (st d rd 1 n).1 (st d rd 1 n).2 := by
    intro n
    cases n with
    | zero => exact hs.valid
    | succ n => rw [st_succ_eq]; exact (hs.red n).valid
  have hst : ∀ n, st d rd 1 (n + 1) = stp d rd (st d rd 1 n) := fun n => Function.iterate_succ_apply' _ _ _
  induction n with
  | zero => simp [trunc, truncTo, blockOf, act, st]
  | succ n ih =>
    rw [block_succ, num_eq, den_eq, hcn', hst]
    obtain ⟨i1, i2, i3⟩ := ih
    have hm : (st d rd 1 n).2 * (stp d rd (st d rd 1 n)).2 = d - (stp d rd (st d rd 1 n)).1 * (stp d rd (st d rd 1 n)).1 :=
      next_mul (hval n)
    have hp : (stp d rd (st d rd 1 n)).1 = coef rd (st d rd 1 n).1 (st d rd 1 n).2 * (st d rd 1 n).2 - (st d rd 1 n).1 := rfl
    have hne := (hval n).ne
    generalize (stp d rd (st d rd 1 n)).1 = p' at *
    generalize (stp d rd (st d rd 1 n)).2 = q' at *
    generalize coef rd (st d rd 1 n).1 (st d rd 1 n).2 = a at *
    generalize (st d rd 1 n).1 = p at *
    generalize (st d rd 1 n).2 = q at *
    generalize blockOf (c.trunc n) = m at *
    simp only [Block.update]
    refine ⟨?_, ?_, ?_⟩
    · apply mul_left_cancel₀ hne
      linear_combination (-m.qm1) * hm - (m.pm1 - p' * m.qm1) * hp - i2 + p' * i1
    · apply mul_left_cancel₀ hne
      linear_combination (-m.pm1) * hm - (d * m.qm1 - m.pm1 * p') * hp - d * i1 + p' * i2
    · rw [pow_succ, ← i3]; ring

/-- the norm of a convergent -/
theorem num_den_st {d rd : ℤ} {c : CF} (hs : Start d rd 1) (hc0 : ((coeffAt c.a c.p 0 : ℕ) : ℤ) = coef rd 0 1)
    (hcn : ∀ n, ((coeffAt c.a c.p (1 + n) : ℕ) : ℤ) = co d rd 1 n) (n : ℕ) :
    c.num n ^ 2 - d * c.den n ^ 2 = (-1) ^ (n + 1) * (seq d rd 1 n).2 := by
  obtain ⟨h1, h2, h3⟩ := block_st hs hc0 hcn (n + 1)
  rw [block_succ, st_succ_eq] at h1 h2
  rw [block_succ] at h3
  simp only [Block.update] at h1 h2 h3
  rw [← h3]
  linear_combination c.num n * h1 - c.den n * h2

theorem last_iff {d rd : ℤ} (hs : Start d rd 1) (n : ℕ) :
    (seq d rd 1 n).2 = 1 ↔ seq d rd 1 (n + 1) = seq d rd 1 0 := by
  constructor
  · intro h
    have hr := hs.red n
    obtain ⟨h1, h2, -⟩ := hr.ineq
    rw [h] at h2
    have e : seq d rd 1 n = (coef rd 0 1 * 1, 1) := by
      refine Prod.ext ?_ h
      simp only [coef, Int.fdiv_one]
      omega
    rw [seq_succ, e, hs.last_next]; rfl
  · intro h
    rw [hs.seq_last h]

end CF
end NumIrr
