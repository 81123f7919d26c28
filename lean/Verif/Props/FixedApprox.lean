/-
C101: rational approximations over fixed-width integers.
-/
import Verif.Model.FixedApprox
import Verif.Props.FixedSurdCF
import Verif.Props.CFIter
import Verif.Lemmas.FixedCFIter

namespace NumIrr

open CF

/-- the answer with the ratio as a pair of fields -/
def Approx.fields : Approx Rat → Approx Rt
  | .approximated q => .approximated (.of q)
  | .exact q => .exact (.of q)

/-- Every convergent that `approximated` looks at fits the signed type: the first one, and, if the limit is at least one,
those for which all earlier ones except the first have a denominator below the limit. -/
def CF.ReadFits (c : CF) (B limit : Int) : Prop :=
  ∀ n r, c.HasCoeff n → c.conv n = some r → (0 < n → 1 ≤ limit) →
    (∀ i r', 0 < i → i < n → c.conv i = some r' → (r'.den : Int) < limit) →
    (r.num.natAbs : Int) < B ∧ (r.den : Int) < B

private theorem fits_num {c : CF} (h : c.Wf) {B limit : Int} (hf : c.ReadFits B limit) {n : Nat} (hn : c.HasCoeff n)
    (h0 : 0 < n → 1 ≤ limit) (hl : ∀ i, 0 < i → i < n → c.den i < limit) : c.num n < B ∧ c.den n < B := by
  obtain ⟨q, h1, h2, h3, h4⟩ := Fx.conv_fields h hn
  have := hf n _ hn h1 h0 (fun i r' hi hin hr' => by
    obtain ⟨q', g1, -, g3, -⟩ := Fx.conv_fields h (hasCoeff_mono hn i hin.le)
    rw [hr'] at g1
    have := Option.some.inj g1
    rw [this, signed_den, g3]
    exact hl i hi hin)
  exact (Fx.conv_bounds h hn h1 this).2 n le_rfl

private theorem next_big {c : CF} (h : c.Wf) {n : Nat} (hn : c.HasCoeff n) :
    (convState c n).next .big = (.ok (some (signed c.neg ((c.num n : Rat) / c.den n))), convState c (n + 1)) := by
  obtain ⟨q, e1, e2⟩ := convState_next_big h (hasCoeff_mono hn)
  obtain ⟨q', g1, g2, -, -⟩ := Fx.conv_fields h hn
  have : c.conv n = some (signed c.neg q) := by
    show (cfVal (c.trunc (n + 1))).map (signed c.neg) = _
    rw [e2]; rfl
  rw [this] at g1
  rw [e1, Option.some.inj g1, g2]

private theorem next_end {c : CF} {n : Nat} (hn : ¬ c.HasCoeff n) (x : Fx) :
    ((convState c n).next .big).1 = .ok none ∧ (x.convNext (convState c n)).1 = .ok none := by
  unfold Fx.convNext ConvIter.next convState
  rw [iterState_next, if_neg hn]
  exact ⟨rfl, rfl⟩

private theorem den_val {c : CF} (h : c.Wf) {n : Nat} (hn : c.HasCoeff n) :
    ((signed c.neg ((c.num n : Rat) / c.den n)).den : Int) = c.den n := by
  obtain ⟨q, -, g2, g3, -⟩ := Fx.conv_fields h hn
  rw [signed_den, ← g2, g3]

private theorem loop_exact {c : CF} (h : c.Wf) (x : Fx) {limit : Int} (h1 : 1 ≤ limit)
    (hf : c.ReadFits (2 ^ (x.w - 1)) limit) (fuel n : Nat) (q : Rat)
    (hl : ∀ i, 0 < i → i < n → c.den i < limit) :
    x.approxLoop limit fuel (.of q) (convState c n) =
      (approxLoop .big limit fuel q (convState c n)).map fun y => y.map Approx.fields := by
  induction fuel generalizing n q with
  | zero => rfl
  | succ fuel ih =>
    unfold Fx.approxLoop approxLoop
    by_cases hn : c.HasCoeff n
    · obtain ⟨b1, b2⟩ := fits_num h hf hn (fun _ => h1) hl
      rw [next_big h hn, Fx.convNext_exact h hn b1 b2]
      simp only
      have hd := den_val h hn
      have hd' : (Rt.of (signed c.neg ((c.num n : Rat) / c.den n))).den = c.den n := hd
      rw [hd', hd]
      by_cases hlt : c.den n < limit
      · rw [if_pos hlt, if_pos hlt]
        refine ih (n + 1) _ fun i hi hin => ?_
        rcases Nat.lt_succ_iff_lt_or_eq.1 hin with h' | h'
        · exact hl i hi h'
        · rw [h']; exact hlt
      · rw [if_neg hlt, if_neg hlt]; rfl
    · obtain ⟨e1, e2⟩ := next_end hn x
      generalize (convState c n).next .big = u at e1
      generalize x.convNext (convState c n) = v at e2
      obtain ⟨u1, u2⟩ := u
      obtain ⟨v1, v2⟩ := v
      simp only at e1 e2
      subst e1 e2
      rfl

/-- **C101** a continued fraction is approximated in both kinds of build as over arbitrary-precision integers if the
convergents that are looked at fit the signed type.  Missing: other convergents, where the claim is false
(`fixed_cf_approximated_refuted`). -/
theorem fixed_cf_approximated_partial (x : Fx) (c : CF) (h : c.Wf) (limit : Int)
    (hf : c.ReadFits (2 ^ (x.w - 1)) limit) (fuel : Nat) :
    x.cfApproximated fuel c limit = (c.approximated .big fuel limit).map fun y => y.map Approx.fields := by
  have h0 : c.HasCoeff 0 := .inr (List.length_pos_iff.2 h.1)
  obtain ⟨b1, b2⟩ := fits_num h hf h0 (by omega) (by omega)
  have e1 := next_big h h0
  have e2 := Fx.convNext_exact h h0 b1 b2
  rw [convState_zero] at e1 e2
  unfold Fx.cfApproximated approximated
  rw [e1, e2]
  simp only
  have hd := den_val h h0
  have hd' : (Rt.of (signed c.neg ((c.num 0 : Rat) / c.den 0))).den = c.den 0 := hd
  have hd0 : c.den 0 = 1 := by
    have := den_eq c 0
    simp only [trunc, truncTo, List.range_zero, List.map_nil, blockOf, act] at this
    rw [this]; ring
  rw [hd', hd, hd0]
  by_cases hl : (1 : Int) > limit
  · rw [if_pos hl, if_pos hl]
    cases hca : c.a with
    | nil => rfl
    | cons i rest =>
      have hn0 : c.num 0 = i := by
        have := num_eq c 0
        simp only [trunc, truncTo, List.range_zero, List.map_nil, blockOf, act] at this
        rw [this, coeffAt, hca]; simp
      have : castS x.w i = i := by unfold castS; rw [if_pos (by omega)]
      simp only [this, Option.map_some, Except.map, Approx.fields]
      rfl
  · rw [if_neg hl, if_neg hl]
    exact loop_exact h x (by omega) hf fuel 1 _ (by omega)

/-- **C101** in particular if the coefficients after the first are at most `A`, the first is at most `B`, and
`(A+1)(B+1)·limit` fits; then the answer is a convergent with a denominator of at most the limit, marked as exact only if
it is, and with an error of at most `1/(q·limit)`, `q` its denominator. -/
theorem fixed_cf_approximated_range (x : Fx) (c : CF) (h : c.Wf) (y : ℝ) (hy : c.HasVal y) (limit : Int) (hl : 1 ≤ limit)
    (A B : Nat) (hA : ∀ v ∈ c.a.tail ++ c.p, v ≤ A) (hB : ∀ v ∈ c.a.head?, v ≤ B)
    (hb : ((A + 1) * (B + 1) * limit : Int) < 2 ^ (x.w - 1)) :
    ∃ F, ∀ fuel, F ≤ fuel → ∃ r n q, x.cfApproximated fuel c limit = some (.ok r) ∧ r.value = .of q ∧ c.conv n = some q ∧
      (q.den : Int) ≤ limit ∧ ((∃ v, r = .exact v) ↔ y = q) ∧ |y - q| ≤ 1 / ((q.den : ℝ) * limit) := by
  have hc : ∀ n, c.HasCoeff n → 0 < n → coeffAt c.a c.p n ≤ A := by
    intro n hn h0
    unfold coeffAt
    obtain ⟨a0, as, ha⟩ := List.exists_cons_of_ne_nil h.1
    rw [ha] at hA ⊢
    split
    · rename_i hlt
      refine hA _ (List.mem_append_left _ ?_)
      obtain ⟨m, rfl⟩ : ∃ m, n = m + 1 := ⟨n - 1, by omega⟩
      have hm : m < as.length := by simpa using hlt
      simp [List.getD_eq_getElem?_getD, List.getElem?_eq_getElem hm]
    · rename_i hlt
      rcases hn with hp | hn
      · refine hA _ (List.mem_append_right _ ?_)
        have hpl : 0 < c.p.length := List.length_pos_iff.2 hp
        have hm : (n - (a0 :: as).length) % c.p.length < c.p.length := Nat.mod_lt _ hpl
        rw [List.getD_eq_getElem?_getD, List.getElem?_eq_getElem hm]
        exact List.getElem_mem _
      · rw [ha] at hn; omega
  have h0 : c.HasCoeff 0 := .inr (List.length_pos_iff.2 h.1)
  have hd0 : c.den 0 = 1 := by
    have := den_eq c 0
    simp only [trunc, truncTo, List.range_zero, List.map_nil, blockOf, act] at this
    rw [this]; ring
  have hrec1 : c.den 1 = coeffAt c.a c.p 1 * c.den 0 ∧ c.num 1 = coeffAt c.a c.p 1 * c.num 0 + 1 := by
    have e1 := den_eq c 1
    have e2 := num_eq c 1
    rw [block_succ c 0] at e1 e2
    simp only [trunc, truncTo, List.range_zero, List.map_nil, blockOf, act, Block.update] at e1 e2
    rw [e1, e2]; constructor <;> ring
  have hrec : ∀ n, c.den (n + 2) = coeffAt c.a c.p (n + 2) * c.den (n + 1) + c.den n ∧
      c.num (n + 2) = coeffAt c.a c.p (n + 2) * c.num (n + 1) + c.num n := by
    intro n
    have e1 := den_eq c (n + 2)
    have e2 := num_eq c (n + 2)
    rw [block_succ c (n + 1), block_succ c n] at e1 e2
    exact ⟨e1, e2⟩
  have hpos : ∀ n, c.HasCoeff n → 1 ≤ c.den n := fun n hn => trunc_den_pos h hn
  have hn0 : c.num 0 ≤ B := by
    have := num_eq c 0
    simp only [trunc, truncTo, List.range_zero, List.map_nil, blockOf, act] at this
    obtain ⟨a0, as, ha⟩ := List.exists_cons_of_ne_nil h.1
    have hB' := hB a0 (by rw [ha]; rfl)
    rw [this, coeffAt, ha]
    simp
    exact_mod_cast hB'
  have hn0' : 0 ≤ c.num 0 := by
    rw [num_eq]; have t := trunc_num_nonneg c 0; have := t.1; have := t.2.1; positivity
  have hden : ∀ n, c.HasCoeff n → (∀ i, 0 < i → i < n → c.den i < limit) → c.den n ≤ (A + 1) * limit := by
    intro n hn hlt
    match n, hn, hlt with
    | 0, _, _ => rw [hd0]; nlinarith
    | 1, hn, _ =>
      have := hc 1 hn one_pos
      have : ((coeffAt c.a c.p 1 : Nat) : Int) ≤ A := by exact_mod_cast this
      rw [hrec1.1, hd0]; nlinarith
    | n + 2, hn, hlt =>
      have := hc (n + 2) hn (by omega)
      have ha : ((coeffAt c.a c.p (n + 2) : Nat) : Int) ≤ A := by exact_mod_cast this
      have h1 := hlt (n + 1) (by omega) (by omega)
      have h2 := (Fx.num_den_le h (hasCoeff_mono hn (n + 1) (by omega)) n (by omega)).2
      have h3 := hpos (n + 1) (hasCoeff_mono hn (n + 1) (by omega))
      rw [(hrec n).1]
      have : ((coeffAt c.a c.p (n + 2) : Nat) : Int) * c.den (n + 1) ≤ A * limit :=
        mul_le_mul ha h1.le (by omega) (by positivity)
      linarith
  have hnum : ∀ n, (c.HasCoeff n → c.num n ≤ (B + 1) * c.den n) ∧
      (c.HasCoeff (n + 1) → c.num (n + 1) ≤ (B + 1) * c.den (n + 1)) := by
    intro n
    induction n with
    | zero =>
      refine ⟨fun _ => by rw [hd0]; linarith, fun hn => ?_⟩
      have := hpos 1 hn
      rw [hrec1.1, hd0, mul_one] at this
      rw [hrec1.1, hrec1.2, hd0, mul_one]
      nlinarith
    | succ n ih =>
      refine ⟨ih.2, fun hn => ?_⟩
      have i1 := ih.1 (hasCoeff_mono hn n (by omega))
      have i2 := ih.2 (hasCoeff_mono hn (n + 1) (by omega))
      rw [show n + 1 + 1 = n + 2 by omega, (hrec n).1, (hrec n).2]
      have : ((coeffAt c.a c.p (n + 2) : Nat) : Int) * c.num (n + 1) ≤
          (coeffAt c.a c.p (n + 2) : Nat) * ((B + 1) * c.den (n + 1)) := mul_le_mul_of_nonneg_left i2 (by positivity)
      linarith
  have hf : c.ReadFits (2 ^ (x.w - 1)) limit := by
    intro n r hn hr hn1 hlt
    obtain ⟨q, g1, -, g3, g4⟩ := Fx.conv_fields h hn
    rw [hr] at g1
    have e := Option.some.inj g1
    have hlt' : ∀ i, 0 < i → i < n → c.den i < limit := by
      intro i hi hin
      obtain ⟨q', k1, -, k3, -⟩ := Fx.conv_fields h (hasCoeff_mono hn i hin.le)
      have := hlt i _ hi hin k1
      rwa [signed_den, k3] at this
    have d1 := hden n hn hlt'
    have d2 := (hnum n).1 hn
    obtain ⟨s1, s2⟩ := Fx.signed_natAbs c.neg q
    have g0 := Fx.num_nonneg (c := c) n
    rw [e, s1, s2, g3, g4, Int.natCast_natAbs, abs_of_nonneg g0]
    have hp := hpos n hn
    have h6 : (B + 1 : Int) * c.den n ≤ (B + 1) * ((A + 1) * limit) := mul_le_mul_of_nonneg_left d1 (by positivity)
    have h7 : (A + 1 : Int) * limit ≤ (B + 1) * ((A + 1) * limit) := by nlinarith
    constructor <;> nlinarith
  obtain ⟨F, hF⟩ := cf_approximated_partial c h y hy limit hl
  refine ⟨F, fun fuel hfu => ?_⟩
  obtain ⟨r, n, h1, h2, h3, h4, h5⟩ := hF fuel hfu
  refine ⟨r.fields, n, r.value, ?_, ?_, h2, h3, ?_, h5⟩
  · rw [fixed_cf_approximated_partial x c h limit hf, h1]; rfl
  · cases r <;> rfl
  · rw [← h4]
    cases r <;> simp [Approx.fields]

example : Wf ⟨[1], [2], false⟩ ∧ (∀ v ∈ ([1] : List Nat).tail ++ [2], v ≤ 2) ∧ ((2 + 1) * (1 + 1) * 20 : Int) < 2 ^ (8 - 1) ∧
    (⟨8, false⟩ : Fx).cfApproximated 20 ⟨[1], [2], false⟩ 20 = some (.ok (.approximated ⟨17, 12⟩)) :=
  ⟨by simp [Wf], by simp, by norm_num, by decide +kernel⟩

/-- **C101** refuted in both kinds of build for every width: `[0; 1, 2^(w-1)+1]`, whose coefficients fit the unsigned type,
is approximated up to the largest limit by a number greater than one, marked as exact.  The number is less than one, and
over arbitrary-precision integers the answer is `1`. -/
theorem fixed_cf_approximated_refuted (x : Fx) (hw : 4 ≤ x.w) (fuel : Nat) :
    x.cfApproximated (fuel + 3) ⟨[0, 1, 2 ^ (x.w - 1) + 1], [], false⟩ (2 ^ (x.w - 1) - 1) =
      some (.ok (.exact ⟨2 ^ (x.w - 1) - 1, 2 ^ (x.w - 1) - 2⟩)) ∧
    CF.Fits x.w ⟨[0, 1, 2 ^ (x.w - 1) + 1], [], false⟩ ∧
    cfVal (toInts [0, 1, 2 ^ (x.w - 1) + 1]) = some ((2 ^ (x.w - 1) + 1) / (2 ^ (x.w - 1) + 2)) := by
  have hpw : (2 : Int) ^ x.w = 2 * 2 ^ (x.w - 1) := Prim.pow_split (by omega)
  have hp : (8 : Int) ≤ 2 ^ (x.w - 1) := by
    calc (8 : Int) = 2 ^ 3 := by norm_num
      _ ≤ 2 ^ (x.w - 1) := pow_le_pow_right₀ (by norm_num) (by omega)
  have e : ((2 ^ (x.w - 1) : Nat) : Int) = 2 ^ (x.w - 1) := by push_cast; rfl
  refine ⟨?_, ?_, ?_⟩
  · generalize hc : (⟨[0, 1, 2 ^ (x.w - 1) + 1], [], false⟩ : CF) = c
    have hwf : c.Wf := by rw [← hc]; simp [Wf]
    have h0 : c.HasCoeff 0 := .inr (by rw [← hc]; simp)
    have h1 : c.HasCoeff 1 := .inr (by rw [← hc]; simp)
    have h2 : c.HasCoeff 2 := .inr (by rw [← hc]; simp)
    have h3 : ¬ c.HasCoeff 3 := by rw [← hc]; simp [HasCoeff]
    have n0 : c.num 0 = 0 ∧ c.den 0 = 1 := by
      rw [← hc]; simp [num, den, trunc, truncTo, coeffAt, toInts, cfP, act]
    have n1 : c.num 1 = 1 ∧ c.den 1 = 1 := by
      rw [← hc]; simp [num, den, trunc, truncTo, coeffAt, toInts, cfP, act, List.range_succ]
    have n2 : c.num 2 = 2 ^ (x.w - 1) + 1 ∧ c.den 2 = 2 ^ (x.w - 1) + 2 := by
      rw [← hc]; simp [num, den, trunc, truncTo, coeffAt, toInts, cfP, act, List.range_succ]; ring
    have hng : c.neg = false := by rw [← hc]
    have s0 := Fx.convNext_exact (x := x) hwf h0 (by omega) (by omega)
    have s1 := Fx.convNext_exact (x := x) hwf h1 (by omega) (by omega)
    have s2 := Fx.convNext_fit (x := x) hwf h2 (by omega) (by omega)
    have s3 : x.convNext (convState c 3) = (.ok none, { convState c 3 with coeffs := iterState c 4 }) := by
      unfold Fx.convNext convState
      rw [iterState_next, if_neg h3]
    have hitem : x.convItem false (2 ^ (x.w - 1) + 1) (2 ^ (x.w - 1) + 2) = .ok ⟨2 ^ (x.w - 1) - 1, 2 ^ (x.w - 1) - 2⟩ := by
      have c1 : castS x.w ((2 : Int) ^ (x.w - 1) + 1).toNat = -(2 ^ (x.w - 1) - 1) := by
        unfold castS; rw [if_neg (by omega)]; omega
      have c2 : castS x.w ((2 : Int) ^ (x.w - 1) + 2).toNat = -(2 ^ (x.w - 1) - 2) := by
        unfold castS; rw [if_neg (by omega)]; omega
      have hg : igcd (-(2 ^ (x.w - 1) - 1)) (-(2 ^ (x.w - 1) - 2)) = 1 := by
        unfold igcd
        rw [Int.neg_gcd, Int.gcd_neg, show (2 : Int) ^ (x.w - 1) - 1 = 1 + (2 ^ (x.w - 1) - 2) by ring, Int.gcd_comm,
          Int.gcd_add_self_right]
        simp
      have r1 : ∀ v : Int, -2 ^ (x.w - 1) ≤ v → v < 2 ^ (x.w - 1) → x.ret v = .ok v := fun v h1 h2 => Fx.ret_ok ⟨h1, h2⟩
      unfold Fx.convItem Fx.ratio
      rw [c1, c2, if_neg (by omega), if_neg (by omega), if_neg (by omega)]
      have g1 : x.gcd (-(2 ^ (x.w - 1) - 1)) (-(2 ^ (x.w - 1) - 2)) = .ok 1 := by
        unfold Fx.gcd; rw [hg]; exact r1 1 (by omega) (by omega)
      have g2 : ∀ v : Int, -2 ^ (x.w - 1) ≤ v → v < 2 ^ (x.w - 1) → x.div v 1 = .ok v := fun v k1 k2 => by
        rw [Fx.div_ok (by omega) (by unfold Fx.Holds; rw [Int.tdiv_one]; omega), Int.tdiv_one]
      have g4 : x.sub 0 (-(2 ^ (x.w - 1) - 1)) = .ok (2 ^ (x.w - 1) - 1) := by
        unfold Fx.sub; rw [zero_sub, neg_neg]; exact r1 _ (by omega) (by omega)
      have g5 : x.sub 0 (-(2 ^ (x.w - 1) - 2)) = .ok (2 ^ (x.w - 1) - 2) := by
        unfold Fx.sub; rw [zero_sub, neg_neg]; exact r1 _ (by omega) (by omega)
      simp only [g1, g2 (-(2 ^ (x.w - 1) - 1)) (by omega) (by omega), g2 (-(2 ^ (x.w - 1) - 2)) (by omega) (by omega),
        bind, Except.bind, if_pos (show (-(2 ^ (x.w - 1) - 2) : Int) < 0 by omega), g4, g5]
      rfl
    rw [n2.1, n2.2, hng, hitem] at s2
    rw [n1.1, n1.2, hng] at s1
    rw [n0.1, n0.2, hng] at s0
    have v0 : (Rt.of (signed false (((0 : Int) : Rat) / ((1 : Int) : Rat)))).den = 1 := by decide +kernel
    have v1 : (Rt.of (signed false (((1 : Int) : Rat) / ((1 : Int) : Rat)))).den = 1 := by decide +kernel
    unfold Fx.cfApproximated
    rw [← convState_zero, s0]
    simp only
    rw [v0, if_neg (by omega), Fx.approxLoop, s1]
    simp only
    rw [v1, if_pos (by omega), Fx.approxLoop, s2]
    simp only [Except.map]
    rw [if_pos (by omega), Fx.approxLoop, s3]
  · intro v hv
    simp at hv
    have e' : ((2 ^ x.w : Nat) : Int) = 2 ^ x.w := by push_cast; rfl
    rcases hv with rfl | rfl | rfl <;> omega
  · have h1 : (0 : ℚ) < 2 ^ (x.w - 1) := by positivity
    simp only [toInts, List.map_cons, List.map_nil, cfVal]
    push_cast
    rw [if_neg (by linarith)]
    simp only
    have h5 : (1 : ℚ) + 1 / (2 ^ (x.w - 1) + 1) ≠ 0 := by positivity
    rw [if_neg h5]
    congr 1
    have : (2 : ℚ) ^ (x.w - 1) + 1 ≠ 0 := by positivity
    have : (2 : ℚ) ^ (x.w - 1) + 2 ≠ 0 := by positivity
    field_simp
    ring

/-- **C101** a surd: with overflow checks the call panics with an overflow or answers as over arbitrary-precision integers,
provided that the convergents looked at fit; with the bound of C76 it does so in both kinds of build.  Missing: other
convergents, and release builds beyond that bound (`fixed_surd_to_cf_refuted`). -/
theorem fixed_surd_approximated_partial (x : Fx) (hw : 2 ≤ x.w) (cfg : Cfg) (fuel : Nat) (s : Surd) (limit : Int)
    (hf : ∀ c, s.toContfrac cfg fuel = some (.ok (some c)) → c.Wf ∧ c.ReadFits (2 ^ (x.w - 1)) limit) :
    (x.checks = true → s.Normal → RefinesO (x.surdApproximated cfg fuel s limit)
      ((s.approximated cfg fuel limit).map fun y => y.map Approx.fields)) ∧
    (s.RealOk → s.r ≠ 0 → 13 * s.cfDisc + 2 * s.cfShift ^ 2 < 2 ^ (x.w - 1) →
      x.surdApproximated cfg fuel s limit = (s.approximated cfg fuel limit).map fun y => y.map Approx.fields) := by
  have key : x.toContfrac cfg fuel s = s.toContfrac cfg fuel →
      x.surdApproximated cfg fuel s limit = (s.approximated cfg fuel limit).map fun y => y.map Approx.fields := by
    intro he
    unfold Fx.surdApproximated Surd.approximated Fx.toContfracUnwrap Surd.toContfracUnwrap
    rw [he]
    cases hs : s.toContfrac cfg fuel with
    | none => rfl
    | some y =>
      cases y with
      | error e => rfl
      | ok o =>
        cases o with
        | none => rfl
        | some c =>
          obtain ⟨h1, h2⟩ := hf c hs
          exact fixed_cf_approximated_partial x c h1 limit h2 fuel
  constructor
  · intro hc hn
    rcases fixed_surd_to_cf_partial x hw hc cfg fuel s hn with h | h
    · exact .inl (key h)
    · right
      unfold Fx.surdApproximated Fx.toContfracUnwrap
      rw [h]
  · intro h hr hb
    exact key (fixed_surd_to_cf_exact x hw cfg fuel s h hr hb)

/-- **C101** refuted for surds: up to the largest limit `√2` is approximated by a number between zero and one over `i8`,
`i16` and `i64`, by a negative number over `i128`, and `(1+√5)/2` by a negative number over `i32`; all are marked as exact, and overflow checks notice nothing. -/
theorem fixed_surd_approximated_refuted (cfg : Cfg) (checks : Bool) :
    (∃ q, (⟨8, checks⟩ : Fx).surdApproximated cfg 200 ⟨0, 1, 1, 2⟩ (2 ^ 7 - 1) = some (.ok (.exact q)) ∧ 0 < q.num ∧ q.num < q.den) ∧
    (∃ q, (⟨16, checks⟩ : Fx).surdApproximated cfg 200 ⟨0, 1, 1, 2⟩ (2 ^ 15 - 1) = some (.ok (.exact q)) ∧ 0 < q.num ∧ q.num < q.den) ∧
    (∃ q, (⟨32, checks⟩ : Fx).surdApproximated cfg 200 ⟨1, 1, 2, 5⟩ (2 ^ 31 - 1) = some (.ok (.exact q)) ∧ q.num < 0 ∧ 0 < q.den) ∧
    (∃ q, (⟨64, checks⟩ : Fx).surdApproximated cfg 200 ⟨0, 1, 1, 2⟩ (2 ^ 63 - 1) = some (.ok (.exact q)) ∧ 0 < q.num ∧ q.num < q.den) ∧
    (∃ q, (⟨128, checks⟩ : Fx).surdApproximated cfg 200 ⟨0, 1, 1, 2⟩ (2 ^ 127 - 1) = some (.ok (.exact q)) ∧ q.num < 0 ∧ 0 < q.den) := by
  obtain ⟨c, d⟩ := cfg
  refine ⟨⟨⟨17, 87⟩, ?_, by decide, by decide⟩, ⟨⟨3643, 6415⟩, ?_, by decide, by decide⟩, ⟨⟨-1323752223, 1836311903⟩, ?_, by decide, by decide⟩,
    ⟨⟨1830611195522802009, 6697363838446955531⟩, ?_, by decide, by decide⟩,
    ⟨⟨-111557057670198254718623714084503565975, 161733217200188571081311986634082331709⟩, ?_, by decide, by decide⟩⟩ <;>
  · revert c d checks; decide +kernel

/-- `i16`: `√7` up to the limit 100 -/
example : (⟨16, false⟩ : Fx).surdApproximated ⟨false, true⟩ 50 ⟨0, 1, 1, 7⟩ 100 = some (.ok (.approximated ⟨127, 48⟩)) ∧
    13 * Surd.cfDisc ⟨0, 1, 1, 7⟩ + 2 * Surd.cfShift ⟨0, 1, 1, 7⟩ ^ 2 < 2 ^ 15 := by
  refine ⟨by decide +kernel, by decide +kernel⟩

end NumIrr
