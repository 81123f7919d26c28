/-
The operators of `Ratio` over fixed-width integers: with overflow checks they panic with an overflow or give the exact
rational.
-/
import Verif.Lemmas.FixedCFSurdRef

namespace NumIrr
namespace Fx

variable {x : Fx}

theorem den_ne (q : Rat) : ((q.den : Nat) : Int) ≠ 0 := by have := q.den_nz; omega

theorem ratio_val (hx : x.checks = true) {n d : Int} (hd : d ≠ 0) {q : Rat} (h : (n : Rat) / d = q) :
    Refines (x.ratio n d) (.ok (.of q)) := by
  have h1 := ratio_ref hx n d
  unfold ratioNew at h1
  rw [if_neg hd, Rat.divInt_eq_div, h] at h1
  exact h1

theorem tdiv_mul_of_dvd {a g : Int} (h : g ∣ a) : a.tdiv g * g = a := Int.tdiv_mul_cancel h

theorem igcd_dvd_left (a b : Int) : igcd a b ∣ a := by unfold igcd; exact Int.gcd_dvd_left a b
theorem igcd_dvd_right (a b : Int) : igcd a b ∣ b := by unfold igcd; exact Int.gcd_dvd_right a b

theorem rtMul_ref (hx : x.checks = true) (p q : Rat) : Refines (x.rtMul (.of p) (.of q)) (.ok (.of (p * q))) := by
  unfold rtMul Rt.of
  dsimp only
  have hg : igcd p.num q.den ≠ 0 := igcd_pos_right (den_ne q)
  have hh : igcd p.den q.num ≠ 0 := igcd_pos_left (den_ne p)
  have e1 := tdiv_mul_of_dvd (igcd_dvd_left p.num q.den)
  have e2 := tdiv_mul_of_dvd (igcd_dvd_right (p.den : Int) q.num)
  have e3 := tdiv_mul_of_dvd (igcd_dvd_left (p.den : Int) q.num)
  have e4 := tdiv_mul_of_dvd (igcd_dvd_right p.num (q.den : Int))
  refine ret_bind hx (ret_bind hx (div_bind hg (div_bind hh (ret_bind hx (div_bind hh (div_bind hg (ret_bind hx ?_)))))))
  generalize igcd p.num q.den = g at *
  generalize igcd p.den q.num = h at *
  generalize (p.num).tdiv g = a at *
  generalize (q.num).tdiv h = b at *
  generalize (p.den : Int).tdiv h = c at *
  generalize (q.den : Int).tdiv g = d at *
  have hc : c ≠ 0 := by rintro rfl; exact den_ne p (by rw [← e3]; ring)
  have hd : d ≠ 0 := by rintro rfl; exact den_ne q (by rw [← e4]; ring)
  refine ratio_val hx (mul_ne_zero hc hd) ?_
  rw [← Rat.num_div_den p, ← Rat.num_div_den q]
  have f3 : (p.den : Rat) = c * h := by exact_mod_cast e3.symm
  have f4 : (q.den : Rat) = d * g := by exact_mod_cast e4.symm
  rw [f3, f4, ← e1, ← e2]
  have : (c : Rat) ≠ 0 := by exact_mod_cast hc
  have : (d : Rat) ≠ 0 := by exact_mod_cast hd
  have : (g : Rat) ≠ 0 := by exact_mod_cast hg
  have : (h : Rat) ≠ 0 := by exact_mod_cast hh
  push_cast
  field_simp

theorem rtDiv_ref (hx : x.checks = true) (p q : Rat) (hq : q ≠ 0) :
    Refines (x.rtDiv (.of p) (.of q)) (.ok (.of (p / q))) := by
  unfold rtDiv Rt.of
  dsimp only
  have hq' : q.num ≠ 0 := Rat.num_ne_zero.2 hq
  have hg : igcd p.num q.num ≠ 0 := igcd_pos_right hq'
  have hh : igcd p.den q.den ≠ 0 := igcd_pos_left (den_ne p)
  have e1 := tdiv_mul_of_dvd (igcd_dvd_left p.num q.num)
  have e2 := tdiv_mul_of_dvd (igcd_dvd_right (p.den : Int) q.den)
  have e3 := tdiv_mul_of_dvd (igcd_dvd_left (p.den : Int) q.den)
  have e4 := tdiv_mul_of_dvd (igcd_dvd_right p.num q.num)
  refine ret_bind hx (ret_bind hx (div_bind hg (div_bind hh (ret_bind hx (div_bind hh (div_bind hg (ret_bind hx ?_)))))))
  generalize igcd p.num q.num = g at *
  generalize igcd (p.den : Int) q.den = h at *
  generalize (p.num).tdiv g = a at *
  generalize (q.den : Int).tdiv h = b at *
  generalize (p.den : Int).tdiv h = c at *
  generalize (q.num).tdiv g = d at *
  have hc : c ≠ 0 := by rintro rfl; exact den_ne p (by rw [← e3]; ring)
  have hd : d ≠ 0 := by rintro rfl; exact hq' (by rw [← e4]; ring)
  have hb : b ≠ 0 := by rintro rfl; exact den_ne q (by rw [← e2]; ring)
  refine ratio_val hx (mul_ne_zero hc hd) ?_
  rw [← Rat.num_div_den p, ← Rat.num_div_den q]
  have f3 : (p.den : Rat) = c * h := by exact_mod_cast e3.symm
  have f4 : (q.den : Rat) = b * h := by exact_mod_cast e2.symm
  rw [f3, f4, ← e1, ← e4]
  have : (c : Rat) ≠ 0 := by exact_mod_cast hc
  have : (d : Rat) ≠ 0 := by exact_mod_cast hd
  have : (b : Rat) ≠ 0 := by exact_mod_cast hb
  have : (g : Rat) ≠ 0 := by exact_mod_cast hg
  have : (h : Rat) ≠ 0 := by exact_mod_cast hh
  push_cast
  field_simp

/-- division by zero -/
theorem rtDiv_zero (hx : x.checks = true) (p : Rat) : Refines (x.rtDiv (.of p) (.of 0)) (.error .divZero) := by
  unfold rtDiv Rt.of
  dsimp only
  have e0 : (0 : Rat).num = 0 := rfl
  have hh : igcd p.den (0 : Rat).den ≠ 0 := igcd_pos_left (den_ne p)
  refine ret_bind hx (ret_bind hx ?_)
  by_cases hp : p.num = 0
  · have : x.div p.num (igcd p.num (0 : Rat).num) = .error .divZero := by
      unfold div; rw [if_pos]; rw [hp, e0]; rfl
    rw [this]; exact .rfl'
  · have hg : igcd p.num (0 : Rat).num ≠ 0 := igcd_pos_left hp
    refine div_bind hg (div_bind hh (ret_bind hx (div_bind hh (div_bind hg (ret_bind hx ?_)))))
    rw [e0, Int.zero_tdiv, mul_zero]
    unfold ratio
    rw [if_pos rfl]; exact .rfl'

theorem rtDiv_refR (hx : x.checks = true) (p q : Rat) :
    Refines (x.rtDiv (.of p) (.of q)) ((ratioDiv p q).map Rt.of) := by
  unfold ratioDiv
  by_cases hq : q = 0
  · subst hq; rw [if_pos rfl]; exact rtDiv_zero hx p
  · rw [if_neg hq]; exact rtDiv_ref hx p q hq

theorem rtMulInt_ref (hx : x.checks = true) (p : Rat) (k : Int) :
    Refines (x.rtMulInt (.of p) k) (.ok (.of (p * k))) := by
  unfold rtMulInt Rt.of
  dsimp only
  have hg : igcd p.den k ≠ 0 := igcd_pos_left (den_ne p)
  have e1 := tdiv_mul_of_dvd (igcd_dvd_left (p.den : Int) k)
  have e2 := tdiv_mul_of_dvd (igcd_dvd_right (p.den : Int) k)
  refine ret_bind hx (div_bind hg (ret_bind hx (div_bind hg ?_)))
  generalize igcd (p.den : Int) k = g at *
  generalize (p.den : Int).tdiv g = c at *
  generalize k.tdiv g = d at *
  have hc : c ≠ 0 := by rintro rfl; exact den_ne p (by rw [← e1]; ring)
  refine ratio_val hx hc ?_
  have f3 : (p.den : Rat) = c * g := by exact_mod_cast e1.symm
  conv_rhs => rw [← Rat.num_div_den p, f3, ← e2]
  have : (c : Rat) ≠ 0 := by exact_mod_cast hc
  have : (g : Rat) ≠ 0 := by exact_mod_cast hg
  push_cast
  field_simp

theorem rtDivInt_ref (hx : x.checks = true) (p : Rat) (k : Int) (hk : k ≠ 0) :
    Refines (x.rtDivInt (.of p) k) (.ok (.of (p / k))) := by
  unfold rtDivInt Rt.of
  dsimp only
  have hg : igcd p.num k ≠ 0 := igcd_pos_right hk
  have e1 := tdiv_mul_of_dvd (igcd_dvd_left p.num k)
  have e2 := tdiv_mul_of_dvd (igcd_dvd_right p.num k)
  refine ret_bind hx (div_bind hg (div_bind hg (ret_bind hx ?_)))
  generalize igcd p.num k = g at *
  generalize p.num.tdiv g = c at *
  generalize k.tdiv g = d at *
  have hd : d ≠ 0 := by rintro rfl; exact hk (by rw [← e2]; ring)
  refine ratio_val hx (mul_ne_zero (den_ne p) hd) ?_
  conv_rhs => rw [← Rat.num_div_den p, ← e1, ← e2]
  have : (d : Rat) ≠ 0 := by exact_mod_cast hd
  have : (g : Rat) ≠ 0 := by exact_mod_cast hg
  have : (p.den : Rat) ≠ 0 := by exact_mod_cast den_ne p
  push_cast
  field_simp

theorem rtDivInt_refR (hx : x.checks = true) (p : Rat) (k : Int) :
    Refines (x.rtDivInt (.of p) k) ((ratioDiv p k).map Rt.of) := by
  unfold ratioDiv
  by_cases hk : k = 0
  · subst hk
    rw [if_pos (by simp)]
    unfold rtDivInt Rt.of
    dsimp only
    refine ret_bind hx ?_
    by_cases hp : p.num = 0
    · have : x.div p.num (igcd p.num 0) = .error .divZero := by
        unfold div; rw [if_pos]; rw [hp]; rfl
      rw [this]; exact .rfl'
    · have hg : igcd p.num 0 ≠ 0 := igcd_pos_left hp
      refine div_bind hg (div_bind hg (ret_bind hx ?_))
      rw [Int.zero_tdiv, mul_zero]
      unfold ratio
      rw [if_pos rfl]; exact .rfl'
  · rw [if_neg (by exact_mod_cast hk)]; exact rtDivInt_ref hx p k hk

theorem lcm_ref (hx : x.checks = true) {a b : Int} (ha : 0 < a) (hb : 0 < b) :
    ∃ l, a ∣ l ∧ b ∣ l ∧ l ≠ 0 ∧ Refines (x.lcm a b) (.ok l) := by
  have hg : igcd a b ≠ 0 := igcd_pos_right hb.ne'
  have e1 := tdiv_mul_of_dvd (igcd_dvd_left a b)
  have e2 := tdiv_mul_of_dvd (igcd_dvd_right a b)
  refine ⟨((a * b.tdiv (igcd a b)).natAbs : Int), ?_, ?_, ?_, ?_⟩
  · rw [Int.dvd_natAbs]; exact dvd_mul_right _ _
  · rw [Int.dvd_natAbs]
    refine ⟨a.tdiv (igcd a b), ?_⟩
    generalize igcd a b = g at *
    generalize a.tdiv g = c at *
    generalize b.tdiv g = d at *
    rw [← e1, ← e2]; ring
  · have : b.tdiv (igcd a b) ≠ 0 := fun e => hb.ne' (by rw [← e2, e]; ring)
    have := mul_ne_zero ha.ne' this
    omega
  · unfold lcm
    rw [if_neg (by omega)]
    exact ret_bind hx (div_bind hg (ret_bind hx (ret_ref hx _)))

theorem rtAdd_ref (hx : x.checks = true) (p q : Rat) : Refines (x.rtAdd (.of p) (.of q)) (.ok (.of (p + q))) := by
  have hp := den_ne p
  have hq := den_ne q
  have hp' : (p.den : Rat) ≠ 0 := by exact_mod_cast hp
  have hq' : (q.den : Rat) ≠ 0 := by exact_mod_cast hq
  unfold rtAdd Rt.of
  dsimp only
  split
  · rename_i h
    refine ret_bind hx (ratio_val hx hq ?_)
    have h' : (p.den : Rat) = q.den := by exact_mod_cast h
    conv_rhs => rw [← Rat.num_div_den p, ← Rat.num_div_den q, h']
    push_cast
    field_simp
  · obtain ⟨l, h1, h2, h3, h4⟩ := lcm_ref hx (a := p.den) (b := q.den) (by omega) (by omega)
    refine h4.bindOk (div_bind hp (ret_bind hx (div_bind hq (ret_bind hx (ret_bind hx (ratio_val hx h3 ?_))))))
    have e1 := tdiv_mul_of_dvd h1
    have e2 := tdiv_mul_of_dvd h2
    generalize l.tdiv p.den = c at *
    generalize l.tdiv q.den = d at *
    have f1 : (l : Rat) = c * p.den := by exact_mod_cast e1.symm
    have f2 : (l : Rat) = d * q.den := by exact_mod_cast e2.symm
    have h3' : (l : Rat) ≠ 0 := by exact_mod_cast h3
    push_cast
    rw [add_div]
    congr 1
    · rw [f1] at h3' ⊢
      have : (c : Rat) ≠ 0 := left_ne_zero_of_mul h3'
      rw [mul_comm (c : Rat), mul_div_mul_right _ _ this, Rat.num_div_den]
    · rw [f2] at h3' ⊢
      have : (d : Rat) ≠ 0 := left_ne_zero_of_mul h3'
      rw [mul_comm (d : Rat), mul_div_mul_right _ _ this, Rat.num_div_den]

theorem rtSub_ref (hx : x.checks = true) (p q : Rat) : Refines (x.rtSub (.of p) (.of q)) (.ok (.of (p - q))) := by
  have hp := den_ne p
  have hq := den_ne q
  have hp' : (p.den : Rat) ≠ 0 := by exact_mod_cast hp
  have hq' : (q.den : Rat) ≠ 0 := by exact_mod_cast hq
  unfold rtSub Rt.of
  dsimp only
  split
  · rename_i h
    refine ret_bind hx (ratio_val hx hq ?_)
    have h' : (p.den : Rat) = q.den := by exact_mod_cast h
    conv_rhs => rw [← Rat.num_div_den p, ← Rat.num_div_den q, h']
    push_cast
    field_simp
  · obtain ⟨l, h1, h2, h3, h4⟩ := lcm_ref hx (a := p.den) (b := q.den) (by omega) (by omega)
    refine h4.bindOk (div_bind hp (ret_bind hx (div_bind hq (ret_bind hx (ret_bind hx (ratio_val hx h3 ?_))))))
    have e1 := tdiv_mul_of_dvd h1
    have e2 := tdiv_mul_of_dvd h2
    generalize l.tdiv p.den = c at *
    generalize l.tdiv q.den = d at *
    have f1 : (l : Rat) = c * p.den := by exact_mod_cast e1.symm
    have f2 : (l : Rat) = d * q.den := by exact_mod_cast e2.symm
    have h3' : (l : Rat) ≠ 0 := by exact_mod_cast h3
    push_cast
    rw [sub_div]
    congr 1
    · rw [f1] at h3' ⊢
      have : (c : Rat) ≠ 0 := left_ne_zero_of_mul h3'
      rw [mul_comm (c : Rat), mul_div_mul_right _ _ this, Rat.num_div_den]
    · rw [f2] at h3' ⊢
      have : (d : Rat) ≠ 0 := left_ne_zero_of_mul h3'
      rw [mul_comm (d : Rat), mul_div_mul_right _ _ this, Rat.num_div_den]

theorem rtNeg_ref (hx : x.checks = true) (p : Rat) : Refines (x.rtNeg (.of p)) (.ok (.of (-p))) := by
  unfold rtNeg Rt.of
  exact ret_bind hx .rfl'

theorem rtRecip_ref (hx : x.checks = true) (p : Rat) (hp : p ≠ 0) : Refines (x.rtRecip (.of p)) (.ok (.of p⁻¹)) := by
  have hp' : p.num ≠ 0 := Rat.num_ne_zero.2 hp
  unfold rtRecip Rt.of
  dsimp only
  rw [if_neg hp']
  split
  · rename_i h
    left
    have : ((p.num.natAbs : Nat) : Int) = p.num := by omega
    rw [Rat.num_inv, Rat.den_inv, if_neg hp', this, Int.sign_eq_one_of_pos h, one_mul]
  · rename_i h
    have h' : p.num < 0 := by omega
    refine ret_bind hx (ret_bind hx ?_)
    left
    have : ((p.num.natAbs : Nat) : Int) = 0 - p.num := by omega
    rw [Rat.num_inv, Rat.den_inv, if_neg hp', this, Int.sign_eq_neg_one_of_neg h', neg_one_mul, zero_sub, zero_sub]
    rfl

/-- `from_equation` -/
theorem fromEquation_ref (hx : x.checks = true) (cfg : Cfg) (a b c : Rat) :
    Refines (x.fromEquation cfg (.of a) (.of b) (.of c)) (Surd.fromEquation cfg a b c) := by
  unfold fromEquation Surd.fromEquation
  have ea : (Rt.of a).num = 0 ↔ a = 0 := Rat.num_eq_zero
  have eb : (Rt.of b).num = 0 ↔ b = 0 := Rat.num_eq_zero
  simp only [ea, eb]
  split
  · split
    · exact .rfl'
    · rename_i hb
      exact (rtNeg_ref hx c).bindOk ((rtDiv_ref hx (-c) b hb).bindOk .rfl')
  · rename_i ha
    have e4 : (⟨2 * 2, 1⟩ : Rt) = .of 4 := rfl
    have e2 : (⟨1 + 1, 1⟩ : Rt) = .of 2 := rfl
    refine ret_bind hx (ret_bind hx ?_)
    refine (rtMul_ref hx b b).bindOk ?_
    rw [show (⟨(1 + 1) * (1 + 1), 1⟩ : Rt) = .of 4 from rfl, e2]
    refine (rtMul_ref hx 4 a).bindOk ((rtMul_ref hx (4 * a) c).bindOk ((rtSub_ref hx _ _).bindOk ?_))
    have ed : (Rt.of (b * b - 4 * a * c)).num < 0 ↔ b * b - 4 * a * c < 0 := Rat.num_neg
    simp only [ed]
    split
    · exact .rfl'
    · have haa : 2 * a ≠ 0 := mul_ne_zero (by norm_num) ha
      refine (rtMul_ref hx 2 a).bindOk ((rtNeg_ref hx b).bindOk ((rtRecip_ref hx _ haa).bindOk
        ((rtMul_ref hx _ _).bindOk ((rtRecip_ref hx _ haa).bindOk ?_))))
      exact (fromRationals_ref hx cfg _ _ _).bind fun s _ => .rfl'

end Fx
end NumIrr
