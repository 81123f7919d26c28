/-
Swapping the operands of `+` and `*` on continued fractions over fixed-width integers: sums and products of ratios, and
the conversion of surds that are rational numbers.
-/
import Verif.Lemmas.FixedComm
import Verif.Lemmas.FixedCFArith

namespace NumIrr
namespace Fx
open Surd (ok_bind)

variable {x : Fx}

/-! ### A surd that is a rational number is never converted to a continued fraction -/

theorem ret_eq_wr (hw : 2 ≤ x.w) {v u : Int} (h : x.ret v = .ok u) : u = x.wr v := by
  cases hc : x.checks
  · rw [ret_wr hw hc] at h; cases h; rfl
  · by_cases hv : x.Holds v
    · rw [ret_ok hv] at h; cases h; exact (wr_of_holds hw hv).symm
    · rw [ret_overflow hc hv] at h; cases h

theorem abs_wr_le (hw : 2 ≤ x.w) (v : Int) : |x.wr v| ≤ |v| := by
  by_cases hv : x.Holds v
  · rw [wr_of_holds hw hv]
  · have h := wr_holds hw v
    unfold Holds at h hv
    rw [abs_le]
    rcases abs_cases v with ⟨e, _⟩ | ⟨e, _⟩ <;> rw [e] <;> constructor <;> omega

/-- what a round of the conversion does to `(p + √0)/q` -/
theorem rho_zero (hw : 2 ≤ x.w) {p q : Int} (hp : x.Holds p) (hq : x.Holds q) {t : Int × Int × Int}
    (h : x.rho 0 0 p q = .ok t) :
    q ≠ 0 ∧ x.Holds t.2.1 ∧ x.Holds t.2.2 ∧ |t.2.2| ≤ |t.2.1| ∧ |t.2.1| < |q| ∧ |t.2.2| * |q| ≤ 2 ^ (x.w - 1) ∧
      (0 < q → t.2.1 ≤ 0) ∧ (q < 0 → 0 ≤ t.2.1) := by
  unfold rho at h
  cases h1 : x.add 0 p with
  | error e => rw [h1] at h; cases h
  | ok t1 =>
  have e1 : t1 = p := by
    rw [ret_eq_wr hw h1, zero_add, wr_of_holds hw hp]
  rw [h1, e1] at h
  simp only [ok_bind] at h
  have hq0 : q ≠ 0 := by
    rintro rfl
    unfold divFloor at h
    rw [if_pos rfl] at h; cases h
  cases h2 : x.divFloor p q with
  | error e => rw [h2] at h; cases h
  | ok a =>
  have e2 : a = p.fdiv q := by
    unfold divFloor at h2
    rw [if_neg hq0] at h2
    split at h2 <;> cases h2
    rfl
  rw [h2] at h
  simp only [ok_bind] at h
  cases h3 : x.mul a q with
  | error e => rw [h3] at h; cases h
  | ok t2 =>
  rw [h3] at h
  simp only [ok_bind] at h
  cases h4 : x.sub t2 p with
  | error e => rw [h4] at h; cases h
  | ok p' =>
  rw [h4] at h
  simp only [ok_bind] at h
  have hmod : a * q - p = -(p.fmod q) := by
    have := Int.mul_fdiv_add_fmod p q
    rw [e2]; linarith [mul_comm q (p.fdiv q)]
  have hrange : (0 < q → 0 ≤ p.fmod q ∧ p.fmod q < q) ∧ (q < 0 → q < p.fmod q ∧ p.fmod q ≤ 0) := by
    refine ⟨fun hq => ⟨Int.fmod_nonneg_of_pos _ hq, Int.fmod_lt_of_pos _ hq⟩, fun hq => ?_⟩
    have h1 := Int.fmod_nonneg_of_pos (-p) (b := -q) (by omega)
    have h2 := Int.fmod_lt_of_pos (-p) (b := -q) (by omega)
    rw [Int.neg_fmod_neg] at h1 h2
    omega
  have hM := hq
  unfold Holds at hM
  have hph : x.Holds (-(p.fmod q)) := by
    unfold Holds
    rcases lt_or_gt_of_ne hq0 with h0 | h0
    · have := hrange.2 h0; omega
    · have := hrange.1 h0; omega
  have e4 : p' = -(p.fmod q) := by
    rw [ret_eq_wr hw h4, ret_eq_wr hw h3, wr_sub_left, hmod, wr_of_holds hw hph]
  rw [← e4] at hph
  cases h5 : x.mul p' p' with
  | error e => rw [h5] at h; cases h
  | ok t3 =>
  rw [h5] at h
  simp only [ok_bind] at h
  cases h6 : x.sub 0 t3 with
  | error e => rw [h6] at h; cases h
  | ok t4 =>
  rw [h6] at h
  simp only [ok_bind] at h
  cases h7 : x.div t4 q with
  | error e => rw [h7] at h; cases h
  | ok q' =>
  rw [h7] at h
  cases h
  have e6 : t4 = x.wr (-(p' * p')) := by
    rw [ret_eq_wr hw h6, ret_eq_wr hw h5, wr_sub_right, zero_sub]
  have e7 : q' = t4.tdiv q := by
    unfold div at h7
    rw [if_neg hq0] at h7
    split at h7 <;> cases h7
    rfl
  have hlt : |p'| < |q| := by
    rw [e4, abs_neg]
    rcases lt_or_gt_of_ne hq0 with h0 | h0
    · have := hrange.2 h0; rw [abs_of_neg h0, abs_of_nonpos this.2]; omega
    · have := hrange.1 h0; rw [abs_of_pos h0, abs_of_nonneg this.1]; omega
  have b1 : |t4| ≤ |p'| * |p'| := by
    rw [e6]
    refine (abs_wr_le hw _).trans ?_
    rw [abs_neg, abs_mul]
  have b2 : |q'| * |q| ≤ |t4| := by
    rw [e7, ← abs_mul]
    have : |t4.tdiv q * q| = ((t4.natAbs / q.natAbs * q.natAbs : ℕ) : Int) := by
      rw [abs_mul, Int.abs_eq_natAbs, Int.abs_eq_natAbs, Int.natAbs_tdiv, Nat.cast_mul]
      rfl
    rw [this, Int.abs_eq_natAbs]
    exact_mod_cast Nat.div_mul_le_self _ _
  have b3 : |t4| ≤ 2 ^ (x.w - 1) := by
    have := wr_holds hw (-(p' * p'))
    rw [← e6] at this
    unfold Holds at this
    rw [abs_le]; omega
  have hle : |q'| ≤ |p'| := by
    by_contra hcon
    push Not at hcon
    have h0 := abs_nonneg p'
    nlinarith
  refine ⟨hq0, hph, div_holds _ _ _ h7, hle, hlt, b2.trans b3, fun h0 => ?_, fun h0 => ?_⟩
  · show p' ≤ 0
    have := hrange.1 h0; omega
  · show 0 ≤ p'
    have := hrange.2 h0; omega

/-- … the test at the end of the first loop is never true -/
theorem headStep_zero (hw : 2 ≤ x.w) {p q : Int} (hp : x.Holds p) (hq : x.Holds q) {t : (Int × Int × Int) × Bool}
    (h : x.headStep 0 0 p q = .ok t) : t.2 = false ∧ x.Holds t.1.2.1 ∧ x.Holds t.1.2.2 ∧ |t.1.2.2| < |q| := by
  unfold headStep at h
  cases h1 : x.rho 0 0 p q with
  | error e => rw [h1] at h; cases h
  | ok u =>
  obtain ⟨h0, hp', hq', hle, hlt, hM, hpos, hneg⟩ := rho_zero hw hp hq h1
  rw [h1] at h
  simp only [ok_bind] at h
  have hz : Ens (x.isReduced 0 u.2.1 u.2.2) (· = false) := by
    intro b hb
    unfold isReduced at hb
    split at hb
    · rename_i hle0
      have hs : x.add u.2.1 u.2.2 = .ok (u.2.1 + u.2.2) := by
        refine ret_ok ?_
        have e1 : |u.2.1| = -u.2.1 := abs_of_nonpos hle0
        have a1 := le_abs_self u.2.2
        have a2 := neg_abs_le u.2.2
        have hP : (0 : Int) < 2 ^ (x.w - 1) := by positivity
        refine ⟨?_, by omega⟩
        have hqM : |q| ≤ 2 ^ (x.w - 1) := by
          unfold Holds at hq; rw [abs_le]; omega
        rcases (abs_nonneg u.2.2).eq_or_lt with hz | hz
        · omega
        · have : 0 ≤ (|q| - 1) * (|u.2.2| - 1) := mul_nonneg (by omega) (by omega)
          nlinarith
      rw [hs] at hb
      simp only [ok_bind] at hb
      rw [if_neg (by
        have e1 : |u.2.1| = -u.2.1 := abs_of_nonpos hle0
        have a1 := le_abs_self u.2.2
        omega)] at hb
      cases hb; rfl
    · cases hb; rfl
  cases h2 : x.isReduced 0 u.2.1 u.2.2 with
  | error e => rw [h2] at h; cases h
  | ok b =>
    rw [h2] at h
    cases h
    exact ⟨hz b h2, hp', hq', lt_of_le_of_lt hle hlt⟩

theorem headLoop_zero (hw : 2 ≤ x.w) : ∀ (fuel : Nat) (acc : List Int) (p q : Int), x.Holds p → x.Holds q →
    |q| < fuel → ∃ e, x.headLoop 0 0 fuel acc p q = some (.error e)
  | 0, _, _, q, _, _, h => by have := abs_nonneg q; push_cast at h; omega
  | fuel + 1, acc, p, q, hp, hq, h => by
    unfold headLoop
    cases h1 : x.headStep 0 0 p q with
    | error e => exact ⟨e, rfl⟩
    | ok t =>
      obtain ⟨hb, hp', hq', hlt⟩ := headStep_zero hw hp hq h1
      obtain ⟨⟨a, p', q'⟩, b⟩ := t
      change b = false at hb
      subst hb
      simp only [Bool.false_eq_true, if_false]
      refine headLoop_zero hw fuel _ p' q' hp' hq' ?_
      push_cast at h
      have hlt' : |q'| < |q| := hlt
      omega

theorem wr_zero (hw : 2 ≤ x.w) : x.wr 0 = 0 := wr_of_holds hw (holds_zero x)

theorem pqForm_zero (hw : 2 ≤ x.w) {a b c : Int} (ha : x.Holds a) (hc : x.Holds c) :
    Ens (x.pqForm a b c 0) fun t => t.1 = 0 ∧ x.Holds t.2.1 ∧ x.Holds t.2.2 := by
  unfold pqForm
  refine Ens.bind (P := (· = 0)) (fun v h => by rw [ret_eq_wr hw h, zero_mul, wr_zero hw]) fun t1 h1 => ?_
  subst h1
  refine Ens.bind (P := (· = 0)) (fun v h => by rw [ret_eq_wr hw h, zero_mul, wr_zero hw]) fun d h1 => ?_
  subst h1
  refine Ens.bind (P := fun t => x.Holds t.1 ∧ x.Holds t.2) ?_ fun pq hpq => ?_
  · unfold pqSign
    split
    · exact Ens.bind (ret_holds hw _) fun p h1 => Ens.bind (ret_holds hw _) fun q h2 => Ens.pure ⟨h1, h2⟩
    · exact Ens.pure ⟨ha, hc⟩
  · refine Ens.bind Ens.triv fun t2 _ => Ens.bind Ens.triv fun t3 _ => Ens.bind Ens.triv fun m _ => ?_
    split
    · refine Ens.bind (P := (· = 0)) (fun v h => by rw [ret_eq_wr hw h, zero_mul, wr_zero hw]) fun t4 h4 => ?_
      subst h4
      refine Ens.bind (P := (· = 0)) (fun v h => by rw [ret_eq_wr hw h, zero_mul, wr_zero hw]) fun d' h5 => ?_
      exact Ens.bind (ret_holds hw _) fun p h1 => Ens.bind (ret_holds hw _) fun q h2 => Ens.pure ⟨h5, h1, h2⟩
    · exact Ens.pure ⟨rfl, hpq⟩

/-- the conversion of a rational surd panics in every build -/
theorem toContfrac_rational (hw : 2 ≤ x.w) (cfg : Cfg) {fuel : Nat} (hf : 2 ^ x.w ≤ fuel) {s : Surd} (hs : x.HoldsS s)
    (hr : s.r = 0) : ∃ e, x.toContfrac cfg fuel s = some (.error e) := by
  unfold toContfrac
  rw [if_neg (by omega)]
  have hargs : Ens (x.cfArgs cfg s) fun t => x.Holds t.1 := by
    unfold cfArgs
    refine Ens.bind Ens.triv fun n _ => ?_
    split
    · exact Ens.bind (ret_holds hw _) fun a h1 => Ens.bind Ens.triv fun b _ => Ens.pure h1
    · exact Ens.pure hs.1
  cases h1 : x.cfArgs cfg s with
  | error e => exact ⟨e, rfl⟩
  | ok t =>
    have ha := hargs t h1
    obtain ⟨a, b, n⟩ := t
    suffices ∃ e, x.quadsurdToContfrac cfg fuel a b s.c s.r n = some (.error e) by
      obtain ⟨e, he⟩ := this
      exact ⟨e, by simp only [he]; rfl⟩
    unfold quadsurdToContfrac
    split
    · exact ⟨_, rfl⟩
    · split
      · exact ⟨_, rfl⟩
      · cases h2 : x.pqForm a b s.c s.r with
        | error e => exact ⟨e, rfl⟩
        | ok t =>
          obtain ⟨d, p, q⟩ := t
          rw [hr] at h2
          obtain ⟨hd, hp, hq⟩ := pqForm_zero hw ha hs.2.2.1 _ h2
          change d = 0 at hd
          subst hd
          simp only
          unfold cfLoops
          have hsq : sqrtR 0 = .ok 0 := by decide
          rw [hsq]
          have hlt : |q| < fuel := by
            have hq' : x.Holds q := hq
            unfold Holds at hq'
            have h2 : (2 : Int) ^ x.w = 2 * 2 ^ (x.w - 1) := by
              rw [← pow_succ', Nat.sub_add_cancel (by omega)]
            have hP : (0 : Int) < 2 ^ (x.w - 1) := by positivity
            have hf' : (2 : Int) ^ x.w ≤ fuel := by exact_mod_cast hf
            rw [abs_lt]; omega
          obtain ⟨e, he⟩ := headLoop_zero hw fuel [] p q hp hq hlt
          simp only [he]
          exact ⟨e, rfl⟩

theorem toContfracUnwrap_rational (hw : 2 ≤ x.w) (cfg : Cfg) {fuel : Nat} (hf : 2 ^ x.w ≤ fuel) {s : Surd}
    (hs : x.HoldsS s) (hr : s.r = 0) : ∃ e, x.toContfracUnwrap cfg fuel s = some (.error e) := by
  obtain ⟨e, he⟩ := toContfrac_rational hw cfg hf hs hr
  unfold toContfracUnwrap
  rw [he]
  exact ⟨e, rfl⟩

/-! ### Operations on surds that are rational numbers -/

theorem mul_zero_ens (hw : 2 ≤ x.w) (v : Int) : Ens (x.mul 0 v) (· = 0) := fun u h => by
  rw [ret_eq_wr hw h, zero_mul, wr_zero hw]

theorem reduce_rational (hw : 2 ≤ x.w) {s : Surd} (h : s.b = 0 ∨ s.r = 0) : Ens (x.reduce s) (·.r = 0) := by
  unfold reduce
  split
  · exact Ens.err
  · refine Ens.bind (P := fun t => t.b = 0 ∨ t.r = 0) ?_ fun t ht => ?_
    · unfold reduceSquare
      refine Ens.bind Ens.triv fun m _ => Ens.bind Ens.triv fun root _ => Ens.bind Ens.triv fun sq _ => ?_
      split
      · split
        · rename_i hneg
          have hb : s.b = 0 := h.resolve_right (by omega)
          refine Ens.bind (P := (· = 0)) ?_ fun b hb' => Ens.bind Ens.triv fun r _ => Ens.pure (.inl hb')
          rw [hb]; exact mul_zero_ens hw _
        · exact Ens.bind Ens.triv fun t _ => Ens.bind Ens.triv fun a _ => Ens.pure (.inr rfl)
      · exact Ens.pure h
    · rw [if_pos ht]
      refine Ens.bind (P := (·.r = 0)) ?_ fun u hu => ?_
      · unfold reduceRat
        exact Ens.bind Ens.triv fun g _ => Ens.bind Ens.triv fun a _ => Ens.bind Ens.triv fun c _ => Ens.pure rfl
      · unfold reduceSign
        split
        · exact Ens.bind Ens.triv fun a _ => Ens.bind Ens.triv fun b _ => Ens.bind Ens.triv fun c _ => Ens.pure hu
        · exact Ens.pure hu

theorem forward_rational (hw : 2 ≤ x.w) (cfg : Cfg) {s : Surd} {op : Res Coeffs}
    (h : Ens op fun l => l.b = 0 ∨ s.r = 0) : Ens (x.forward cfg s op) (·.r = 0) := by
  unfold forward
  refine Ens.bind h fun l hl => ?_
  unfold fromCoeffs
  split
  · exact Ens.err
  · exact reduce_rational hw hl

theorem isRational_iff (s : Surd) : s.isRational = true ↔ s.b = 0 ∨ s.r = 0 := by simp [Surd.isRational]

theorem surdAddRat_rational (hw : 2 ≤ x.w) (cfg : Cfg) {s : Surd} (hs : s.isRational = true) (q : Rt) :
    Ens (x.surdAddRat cfg s q) (·.r = 0) := by
  refine forward_rational hw cfg ?_
  rcases (isRational_iff s).1 hs with h | h
  · unfold coeffsAddRat
    split
    · exact Ens.bind Ens.triv fun a _ => Ens.pure (.inl h)
    · refine Ens.bind Ens.triv fun t1 _ => Ens.bind Ens.triv fun t2 _ => Ens.bind Ens.triv fun a _ =>
        Ens.bind (P := (· = 0)) ?_ fun b hb => Ens.bind Ens.triv fun c _ => Ens.pure (.inl hb)
      rw [show s.coeffs.b = 0 from h]; exact mul_zero_ens hw _
  · exact fun _ _ => .inr h

theorem surdMulRat_rational (hw : 2 ≤ x.w) (cfg : Cfg) {s : Surd} (hs : s.isRational = true) (q : Rt) :
    Ens (x.surdMulRat cfg s q) (·.r = 0) := by
  refine forward_rational hw cfg ?_
  rcases (isRational_iff s).1 hs with h | h
  · unfold coeffsMulRat
    refine Ens.bind Ens.triv fun t1 _ =>
        Ens.bind (P := (· = 0)) ?_ fun b hb => Ens.bind Ens.triv fun c _ => Ens.pure (.inl hb)
    rw [show s.coeffs.b = 0 from h]; exact mul_zero_ens hw _
  · exact fun _ _ => .inr h

theorem forward_swap (cfg : Cfg) {p q : Surd} (hr : p.r = q.r) {u v : Res Coeffs} (h : u = v) :
    x.forward cfg p u = x.forward cfg q v := by
  unfold forward; rw [hr, h]

theorem surdAdd_irr_swap (cfg : Cfg) {s t : Surd} (hs : s.isRational = false) (ht : t.isRational = false) :
    x.surdAdd cfg s t = x.surdAdd cfg t s := by
  unfold surdAdd
  simp only [hs, ht, Bool.false_eq_true, if_false]
  rw [reduceBinOpUnwrap_swap cfg s t]
  cases e : x.reduceBinOpUnwrap cfg s t with
  | error e => rfl
  | ok p => exact forward_swap cfg (reduceBinOpUnwrap_root cfg s t e) (coeffsAdd_swap _ _)

theorem surdMul_irr_swap (cfg : Cfg) {s t : Surd} (hs : s.isRational = false) (ht : t.isRational = false) :
    x.surdMul cfg s t = x.surdMul cfg t s := by
  unfold surdMul
  simp only [hs, ht, Bool.false_eq_true, if_false]
  rw [Bool.and_comm]
  by_cases hp : (t.isPure && s.isPure) = true
  · rw [if_pos hp, if_pos hp, gcd_swap]
    refine bind_congr fun g => ?_
    rw [div_swap]
    refine bind_congr fun t2 => bind_congr fun t1 => ?_
    rw [Fx.mul_swap t1, Fx.mul_swap s.b, Fx.mul_swap s.c]
  · rw [if_neg hp, if_neg hp, reduceBinOpUnwrap_swap cfg s t]
    cases e : x.reduceBinOpUnwrap cfg s t with
    | error e => rfl
    | ok p =>
      have hr := reduceBinOpUnwrap_root cfg s t e
      refine forward_swap cfg hr ?_
      show _ = x.coeffsMul _ _ p.2.r
      rw [hr]; exact coeffsMul_swap _ _ _

/-! ### Sums and products of ratios -/

theorem gcd_right_ok {a b : Int} (hb : 0 < b) (hh : x.Holds b) : x.gcd a b = .ok (igcd a b) ∧ 0 < igcd a b := by
  have h1 : 0 < igcd a b := by
    unfold igcd
    exact_mod_cast Int.gcd_pos_of_ne_zero_right a hb.ne'
  have h2 : igcd a b ≤ b := Int.le_of_dvd hb (by unfold igcd; exact Int.gcd_dvd_right ..)
  have hP : (0 : Int) < 2 ^ (x.w - 1) := by positivity
  exact ⟨ret_ok ⟨by omega, lt_of_le_of_lt h2 hh.2⟩, h1⟩

theorem div_pos_ok {v g : Int} (hg : 0 < g) (hv : x.Holds v) : x.div v g = .ok (v.tdiv g) := by
  refine div_ok hg.ne' ?_
  have h : |v.tdiv g| ≤ |v| := by
    rw [Int.abs_eq_natAbs, Int.abs_eq_natAbs, Int.natAbs_tdiv]
    exact_mod_cast Nat.div_le_self _ _
  unfold Holds at *
  rcases le_total 0 v with h0 | h0
  · have := Int.tdiv_nonneg h0 hg.le
    rw [abs_of_nonneg h0, abs_of_nonneg this] at h
    omega
  · rw [abs_of_nonpos h0] at h
    have := abs_le.1 h
    have h3 : v.tdiv g ≤ 0 := by
      have := Int.tdiv_nonneg (a := -v) (by omega) hg.le
      rw [Int.neg_tdiv] at this; omega
    omega

theorem lcm_swap {a b : Int} (ha : 0 < a) (hha : x.Holds a) (hb : 0 < b) (hhb : x.Holds b) : x.lcm a b = x.lcm b a := by
  obtain ⟨h1, h2⟩ := gcd_right_ok (a := a) hb hhb
  have h3 : x.gcd b a = .ok (igcd a b) := by rw [gcd_swap]; exact h1
  unfold lcm
  rw [if_neg (by omega), if_neg (by omega), h1, h3]
  simp only [ok_bind, div_pos_ok h2 hha, div_pos_ok h2 hhb]
  have d1 : igcd a b ∣ a := by unfold igcd; exact Int.gcd_dvd_left ..
  have d2 : igcd a b ∣ b := by unfold igcd; exact Int.gcd_dvd_right ..
  have e : a * b.tdiv (igcd a b) = b * a.tdiv (igcd a b) := by
    obtain ⟨u, hu⟩ := d1
    obtain ⟨v, hv⟩ := d2
    generalize igcd a b = g at *
    subst hu hv
    rw [Int.mul_tdiv_cancel_left _ h2.ne', Int.mul_tdiv_cancel_left _ h2.ne']
    ring
  unfold mul
  rw [e]

theorem swap_of_overflow {α β γ : Type} {A : Res α} {B : Res β} (hA : ∀ e, A = .error e → e = .overflow)
    (hB : ∀ e, B = .error e → e = .overflow) (f : α → β → Res γ) :
    (A >>= fun a => B >>= fun b => f a b) = (B >>= fun b => A >>= fun a => f a b) := by
  cases A with
  | error e =>
    cases B with
    | error e' => rw [hA e rfl, hB e' rfl]; rfl
    | ok b => rfl
  | ok a =>
    cases B with
    | error e' => rfl
    | ok b => rfl

theorem ret_error {v : Int} {e : Panic} (h : x.ret v = .error e) : e = .overflow := by
  unfold ret at h
  split at h
  · cases h
  · split at h <;> cases h
    rfl

theorem div_error {v g : Int} (hg : g ≠ 0) {e : Panic} (h : x.div v g = .error e) : e = .overflow := by
  unfold div at h
  rw [if_neg hg] at h
  split at h <;> cases h
  rfl

theorem rtAdd_swap {p q : Rt} (hp : 0 < p.den) (hhp : x.Holds p.den) (hq : 0 < q.den) (hhq : x.Holds q.den) :
    x.rtAdd p q = x.rtAdd q p := by
  unfold rtAdd
  by_cases h : p.den = q.den
  · rw [if_pos h, if_pos h.symm, add_swap, h]
  · rw [if_neg h, if_neg (Ne.symm h), lcm_swap hp hhp hq hhq]
    refine bind_congr fun l => ?_
    have key := swap_of_overflow (A := x.div l p.den >>= x.mul p.num) (B := x.div l q.den >>= x.mul q.num) ?_ ?_
      (fun m n => x.add m n >>= fun s => x.ratio s l)
    · simp only [bind_assoc] at key
      rw [key]
      refine bind_congr fun t2 => bind_congr fun n => bind_congr fun t1 => bind_congr fun m => ?_
      rw [add_swap]
    · intro e he
      cases h1 : x.div l p.den with
      | error e' => rw [h1] at he; cases he; exact div_error hp.ne' h1
      | ok t => rw [h1] at he; exact ret_error he
    · intro e he
      cases h1 : x.div l q.den with
      | error e' => rw [h1] at he; cases he; exact div_error hq.ne' h1
      | ok t => rw [h1] at he; exact ret_error he

theorem rtMul_swap {p q : Rt} (hp : 0 < p.den) (hhp : x.HoldsR p) (hq : 0 < q.den) (hhq : x.HoldsR q) :
    x.rtMul p q = x.rtMul q p := by
  obtain ⟨a1, a2⟩ := gcd_right_ok (a := p.num) hq hhq.2
  obtain ⟨b1, b2⟩ := gcd_right_ok (a := q.num) hp hhp.2
  have a3 : x.gcd q.den p.num = .ok (igcd p.num q.den) := by rw [gcd_swap]; exact a1
  have b3 : x.gcd p.den q.num = .ok (igcd q.num p.den) := by rw [gcd_swap]; exact b1
  unfold rtMul
  rw [a1, a3, b1, b3]
  simp only [ok_bind, div_pos_ok a2 hhp.1, div_pos_ok a2 hhq.2, div_pos_ok b2 hhq.1, div_pos_ok b2 hhp.2]
  rw [Fx.mul_swap (p.num.tdiv _), Fx.mul_swap (p.den.tdiv _)]

/-! ### Sums and products of arbitrary pairs of integers taken as ratios -/

/-- equal, or both panic -/
def Alike {α : Type} (A B : Res α) : Prop := A = B ∨ ((∃ e, A = .error e) ∧ ∃ e, B = .error e)

theorem Alike.rfl {α : Type} {A : Res α} : Alike A A := .inl (Eq.refl _)

theorem Alike.bind {α β : Type} {A B : Res α} (h : Alike A B) {f g : α → Res β} (hf : ∀ a, Alike (f a) (g a)) :
    Alike (A >>= f) (B >>= g) := by
  rcases h with rfl | ⟨⟨e, rfl⟩, e', rfl⟩
  · cases A with
    | error e => exact .inl (Eq.refl _)
    | ok a => exact hf a
  · exact .inr ⟨⟨e, (Eq.refl _)⟩, e', (Eq.refl _)⟩

theorem Alike.swap {α β γ : Type} (A : Res α) (B : Res β) (f : α → β → Res γ) :
    Alike (A >>= fun a => B >>= fun b => f a b) (B >>= fun b => A >>= fun a => f a b) := by
  cases A with
  | error e =>
    cases B with
    | error e' => exact .inr ⟨⟨e, (Eq.refl _)⟩, e', (Eq.refl _)⟩
    | ok b => exact .inl (Eq.refl _)
  | ok a =>
    cases B with
    | error e' => exact .inl (Eq.refl _)
    | ok b => exact .inl (Eq.refl _)

theorem Alike.trans {α : Type} {A B C : Res α} (h : Alike A B) (h' : Alike B C) : Alike A C := by
  rcases h with rfl | ⟨⟨e, rfl⟩, e', rfl⟩
  · exact h'
  · rcases h' with rfl | ⟨⟨-, -⟩, k⟩
    · exact .inr ⟨⟨e, (Eq.refl _)⟩, e', (Eq.refl _)⟩
    · exact .inr ⟨⟨e, (Eq.refl _)⟩, k⟩

theorem gcd_dvd (hw : 2 ≤ x.w) {a b g : Int} (ha : x.Holds a) (hb : x.Holds b) (h0 : ¬ (a = 0 ∧ b = 0))
    (h : x.gcd a b = .ok g) : g ≠ 0 ∧ g ∣ a ∧ g ∣ b ∧ g ≠ -1 := by
  have hP : (2 : Int) ≤ 2 ^ (x.w - 1) := by
    calc (2 : Int) = 2 ^ 1 := by norm_num
      _ ≤ 2 ^ (x.w - 1) := pow_le_pow_right₀ (by norm_num) (by omega)
  have h1 : 0 < igcd a b := by
    unfold igcd
    have : Int.gcd a b ≠ 0 := fun h => h0 (Int.gcd_eq_zero_iff.1 h)
    omega
  have d1 : igcd a b ∣ a := by unfold igcd; exact Int.gcd_dvd_left ..
  have d2 : igcd a b ∣ b := by unfold igcd; exact Int.gcd_dvd_right ..
  have h2 : igcd a b ≤ 2 ^ (x.w - 1) := by
    unfold Holds at ha hb
    by_cases ha0 : a = 0
    · have hb0 : b ≠ 0 := fun h => h0 ⟨ha0, h⟩
      have := Int.le_of_dvd (abs_pos.2 hb0) ((dvd_abs _ _).2 d2)
      have := abs_le.2 (⟨hb.1, hb.2.le⟩ : _ ∧ b ≤ 2 ^ (x.w - 1))
      omega
    · have := Int.le_of_dvd (abs_pos.2 ha0) ((dvd_abs _ _).2 d1)
      have := abs_le.2 (⟨ha.1, ha.2.le⟩ : _ ∧ a ≤ 2 ^ (x.w - 1))
      omega
  rcases h2.lt_or_eq with h3 | h3
  · have e := ret_ok (x := x) (v := igcd a b) ⟨by omega, h3⟩
    unfold gcd at h
    rw [e] at h
    cases h
    exact ⟨by omega, d1, d2, by omega⟩
  · have hg : g = -igcd a b := by
      have hc : igcd a b = 2 ^ (x.w - 1) := h3
      have h4 := ret_eq_wr hw h
      have h5 : (2 : Int) ^ x.w = 2 * 2 ^ (x.w - 1) := by
        rw [← pow_succ']; congr 1; omega
      rw [h4, hc, wr_eq, h5, show (2 : Int) ^ (x.w - 1) + 2 ^ (x.w - 1) = 2 * 2 ^ (x.w - 1) by ring, Int.emod_self]
      ring
    subst hg
    exact ⟨by omega, (neg_dvd).2 d1, (neg_dvd).2 d2, by omega⟩

theorem div_dvd_ok {v g : Int} (hg : g ≠ 0) (hg1 : g ≠ -1) (hv : x.Holds v) : x.div v g = .ok (v.tdiv g) := by
  refine div_ok hg ?_
  by_cases h1 : g = 1
  · subst h1; rwa [Int.tdiv_one]
  have h2 : 2 ≤ g.natAbs := by omega
  have h3 : (v.tdiv g).natAbs ≤ v.natAbs / 2 := by
    rw [Int.natAbs_tdiv]; exact Nat.div_le_div_left h2 (by norm_num)
  have hP : (0 : Int) < 2 ^ (x.w - 1) := by positivity
  unfold Holds at *
  omega

theorem lcm_alike (hw : 2 ≤ x.w) {a b : Int} (ha : x.Holds a) (hb : x.Holds b) : x.lcm a b = x.lcm b a := by
  unfold lcm
  by_cases h0 : a = 0 ∧ b = 0
  · rw [if_pos h0, if_pos ⟨h0.2, h0.1⟩]
  rw [if_neg h0, if_neg (fun h => h0 ⟨h.2, h.1⟩), gcd_swap b a]
  cases h : x.gcd a b with
  | error e => exact (Eq.refl _)
  | ok g =>
    obtain ⟨h1, ⟨u, hu⟩, ⟨v, hv⟩, h4⟩ := gcd_dvd hw ha hb h0 h
    simp only [ok_bind, div_dvd_ok h1 h4 ha, div_dvd_ok h1 h4 hb]
    subst hu hv
    rw [Int.mul_tdiv_cancel_left _ h1, Int.mul_tdiv_cancel_left _ h1]
    unfold mul
    rw [show g * u * v = g * v * u by ring]

theorem rtAdd_alike (hw : 2 ≤ x.w) {p q : Rt} (hp : x.HoldsR p) (hq : x.HoldsR q) : Alike (x.rtAdd p q) (x.rtAdd q p) := by
  unfold rtAdd
  by_cases h : p.den = q.den
  · rw [if_pos h, if_pos h.symm, add_swap, h]; exact .rfl
  · rw [if_neg h, if_neg (Ne.symm h), lcm_alike hw hp.2 hq.2]
    refine Alike.bind .rfl fun l => ?_
    have key := Alike.swap (x.div l p.den >>= x.mul p.num) (x.div l q.den >>= x.mul q.num)
      (fun m n => x.add m n >>= fun s => x.ratio s l)
    simp only [bind_assoc] at key
    refine key.trans (.inl ?_)
    refine bind_congr fun t2 => bind_congr fun n => bind_congr fun t1 => bind_congr fun m => ?_
    rw [add_swap]

theorem rtMul_alike (p q : Rt) : Alike (x.rtMul p q) (x.rtMul q p) := by
  unfold rtMul
  rw [gcd_swap q.num p.den, gcd_swap q.den p.num]
  refine (Alike.swap _ _ _).trans (Alike.bind .rfl fun h => Alike.bind .rfl fun g => ?_)
  refine (Alike.swap _ _ _).trans (Alike.bind .rfl fun t2 => Alike.bind .rfl fun t1 => ?_)
  rw [Fx.mul_swap t1 t2]
  refine Alike.bind .rfl fun n => (Alike.swap _ _ _).trans (Alike.bind .rfl fun t4 => Alike.bind .rfl fun t3 => ?_)
  rw [Fx.mul_swap t3 t4]
  exact .rfl

end Fx
end NumIrr
