/-
Bounds under which the conversion of a periodic continued fraction to a surd does not overflow.
-/
import Verif.Lemmas.FixedSafeOps
import Verif.Lemmas.FixedCFToSurd

namespace NumIrr
namespace Fx

variable {x : Fx} {L B : Int}

attribute [local irreducible] Fx.add Fx.sub Fx.mul Fx.neg Fx.div Fx.gcd Fx.ratio

/-- `run_eq` where the comparison may use the width -/
theorem run_eq_at {α : Type} {f : Fx → Res α} {b : Res α} {Q : α → Prop} (href : Refines (f ⟨x.w, true⟩) b)
    (hrel : Refines (f ⟨x.w, true⟩) (f ⟨x.w, false⟩)) (hs : Safe (f ⟨x.w, true⟩) Q) : f x = b := by
  have h1 := href.eq_of_safe hs
  obtain ⟨w, c⟩ := x
  cases c
  · exact (hrel.eq_of_safe hs).symm.trans h1
  · exact h1

theorem safe_of_eq {α : Type} {r : Res α} {v : α} (h : r = .ok v) : Safe r (fun u => u = v) := by
  rw [h]; exact Safe.pure rfl

theorem one_le_of_abs {v : Int} (h : v ≠ 0) : 1 ≤ |v| := Int.one_le_abs h

/-- bounds on both parts of a rational number -/
def RBnd2 (q : Rt) (N D : Int) : Prop := |q.num| ≤ N ∧ |q.den| ≤ D

theorem ratio_safe2 (hL : L < 2 ^ (x.w - 1)) {n d N D : Int} (hn : |n| ≤ N) (hd : |d| ≤ D) (hN : 1 ≤ N) (hD : 1 ≤ D)
    (hNL : N ≤ L) (hDL : D ≤ L) : Safe (x.ratio n d) (fun q => RBnd2 q N D) := by
  have h0 : |(0 : Int)| ≤ 0 := by simp
  unfold ratio
  split
  · exact Safe.err (by decide)
  · split
    · exact Safe.pure ⟨by simp; linarith, by simpa using hD⟩
    · split
      · exact Safe.pure ⟨by simpa using hN, by simpa using hD⟩
      · refine (gcd_safe hL hn hd hNL hDL).bind fun g _ => ?_
        refine (div_safe hL hn hNL).bind fun n' hn' => ?_
        refine (div_safe hL hd hDL).bind fun d' hd' => ?_
        split
        · refine (sub_safe hL h0 hn' (by linarith)).bind fun n'' hn'' => ?_
          refine (sub_safe hL h0 hd' (by linarith)).bind fun d'' hd'' => ?_
          exact Safe.pure ⟨by simpa using hn'', by simpa using hd''⟩
        · exact Safe.pure ⟨hn', hd'⟩

theorem rtMul_safe (hL : L < 2 ^ (x.w - 1)) {p q : Rt} {N D N' D' : Int} (hp : RBnd2 p N D) (hq : RBnd2 q N' D')
    (hN : 1 ≤ N) (hD : 1 ≤ D) (hN' : 1 ≤ N') (hD' : 1 ≤ D') (hNL : N * N' ≤ L) (hDL : D * D' ≤ L) :
    Safe (x.rtMul p q) (fun q => RBnd2 q (N * N') (D * D')) := by
  obtain ⟨h1, h2⟩ := hp
  obtain ⟨h3, h4⟩ := hq
  have e1 : N ≤ L := by nlinarith
  have e2 : N' ≤ L := by nlinarith
  have e3 : D ≤ L := by nlinarith
  have e4 : D' ≤ L := by nlinarith
  unfold rtMul
  refine (gcd_safe hL h1 h4 e1 e4).bind fun g _ => ?_
  refine (gcd_safe hL h2 h3 e3 e2).bind fun h _ => ?_
  refine (div_safe hL h1 e1).bind fun t1 ht1 => ?_
  refine (div_safe hL h3 e2).bind fun t2 ht2 => ?_
  refine (mul_safe hL ht1 ht2 hNL).bind fun n hn => ?_
  refine (div_safe hL h2 e3).bind fun t3 ht3 => ?_
  refine (div_safe hL h4 e4).bind fun t4 ht4 => ?_
  refine (mul_safe hL ht3 ht4 hDL).bind fun d hd => ?_
  exact ratio_safe2 hL hn hd (by nlinarith) (by nlinarith) hNL hDL

/-- products of integers -/
theorem rtMul_int (hL : L < 2 ^ (x.w - 1)) {p q P Q : Int} (hp : |p| ≤ P) (hq : |q| ≤ Q) (hP : 1 ≤ P) (hQ : 1 ≤ Q)
    (h : P * Q ≤ L) : x.rtMul ⟨p, 1⟩ ⟨q, 1⟩ = .ok ⟨p * q, 1⟩ := by
  rw [rt_int, rt_int, rt_int]
  refine run_eq (f := fun y => y.rtMul (.of p) (.of q)) (fun y hy => ?_) (fun y hy => rtMul_rel hy _ _)
    (rtMul_safe (x := ⟨x.w, true⟩) (D := 1) (D' := 1) hL ⟨?_, ?_⟩ ⟨?_, ?_⟩ hP le_rfl hQ le_rfl h (by nlinarith))
  · have := rtMul_ref hy (p : Rat) q
    push_cast
    exact this
  all_goals simp [Rt.of]
  · exact hp
  · exact hq

theorem rtSub_int (hL : L < 2 ^ (x.w - 1)) {p q P Q : Int} (hp : |p| ≤ P) (hq : |q| ≤ Q) (hP : 1 ≤ P)
    (h : P + Q ≤ L) : x.rtSub ⟨p, 1⟩ ⟨q, 1⟩ = .ok ⟨p - q, 1⟩ := by
  have hQ := (abs_nonneg _).trans hq
  rw [rt_int, rt_int, rt_int]
  refine run_eq (f := fun y => y.rtSub (.of p) (.of q)) (Q := fun _ => True) (fun y hy => ?_)
    (fun y hy => rtSub_rel hy _ _) ?_
  · have := rtSub_ref hy (p : Rat) q
    push_cast
    exact this
  · unfold rtSub
    rw [if_pos (by simp [Rt.of])]
    have hp' : |(Rt.of (p : Rat)).num| ≤ P := by simpa [Rt.of] using hp
    have hq' : |(Rt.of (q : Rat)).num| ≤ Q := by simpa [Rt.of] using hq
    have hd' : |(Rt.of (q : Rat)).den| ≤ 1 := by simp [Rt.of]
    refine (sub_safe (x := ⟨x.w, true⟩) hL hp' hq' h).bind fun n hn => ?_
    exact (ratio_safe2 (x := ⟨x.w, true⟩) (D := 1) hL hn hd' (by linarith) le_rfl h (by linarith)).mono fun _ _ => trivial

theorem rtRecip_safe (hL : L < 2 ^ (x.w - 1)) {a A : Int} (ha : |a| ≤ A) (hA : 1 ≤ A) (h : A ≤ L) :
    Safe (x.rtRecip ⟨a, 1⟩) (fun q => RBnd2 q 1 A) := by
  have h0 : |(0 : Int)| ≤ 0 := by simp
  have h1 : |(1 : Int)| ≤ 1 := by simp
  unfold rtRecip
  dsimp only
  split
  · exact Safe.err (by decide)
  · split
    · exact Safe.pure ⟨h1, ha⟩
    · refine (sub_safe hL h0 h1 (by linarith)).bind fun n hn => ?_
      refine (sub_safe hL h0 ha (by linarith)).bind fun d hd => ?_
      exact Safe.pure ⟨by simpa using hn, by simpa using hd⟩

/-- `from_equation` with integer coefficients up to `B` -/
theorem fromEquation_safe (hL : L < 2 ^ (x.w - 1)) (hB : 1 ≤ B) (h : 16 * B ^ 4 ≤ L) (cfg : Cfg) {a b c : Int}
    (ha : |a| ≤ B) (hb : |b| ≤ B) (hc : |c| ≤ B) (h0 : a ≠ 0) :
    Safe (x.fromEquation cfg ⟨a, 1⟩ ⟨b, 1⟩ ⟨c, 1⟩)
      (fun o => ∀ s, o = some s → Bnd s (8 * B ^ 2) (2 * B) (4 * B ^ 2) (5 * B ^ 2)) := by
  obtain ⟨p1, p2, p3, -⟩ := pows hB
  have h1 : |(1 : Int)| ≤ 1 := by simp
  have hret : ∀ v : Int, |v| ≤ L → x.ret v = .ok v := fun v hv => by
    obtain ⟨u1, u2⟩ := abs_le.mp hv
    have : x.fits v = true := by
      simp only [fits, IntTy.signed, Bool.and_eq_true, decide_eq_true_eq]
      constructor <;> omega
    unfold ret; rw [if_pos this]
  have e2 : x.add 1 1 = .ok 2 := by
    unfold add; exact hret 2 (by rw [abs_of_pos (by norm_num)]; linarith)
  have e4 : x.mul 2 2 = .ok 4 := by
    unfold mul; exact hret 4 (by rw [abs_of_pos (by norm_num)]; linarith)
  have hbb := rtMul_int (x := x) hL hb hb hB hB (by nlinarith)
  have h4a := rtMul_int (x := x) hL (p := 4) (q := a) (P := 4) (Q := B) (by norm_num) ha (by norm_num) hB (by linarith)
  have h4a' : |4 * a| ≤ 4 * B := abs_mul_le (by norm_num) ha
  have h4ac := rtMul_int (x := x) hL h4a' hc (by linarith) hB (by nlinarith)
  have h4ac' : |4 * a * c| ≤ 4 * B * B := abs_mul_le h4a' hc
  have hbb' : |b * b| ≤ B * B := abs_mul_le hb hb
  have hd := rtSub_int (x := x) hL hbb' h4ac' (by nlinarith) (by nlinarith)
  have h2a := rtMul_int (x := x) hL (p := 2) (q := a) (P := 2) (Q := B) (by norm_num) ha (by norm_num) hB (by linarith)
  have h2a' : |2 * a| ≤ 2 * B := abs_mul_le (by norm_num) ha
  have hd' : |b * b - 4 * a * c| ≤ 5 * B ^ 2 := by
    have := (abs_sub (b * b) (4 * a * c)).trans (add_le_add hbb' h4ac')
    nlinarith
  unfold fromEquation
  rw [if_neg (by exact h0)]
  refine (safe_of_eq e2).bind fun two ht => ?_
  subst ht
  refine (safe_of_eq e4).bind fun four ht => ?_
  subst ht
  refine (safe_of_eq hbb).bind fun t1 ht => ?_
  subst ht
  refine (safe_of_eq h4a).bind fun t1 ht => ?_
  subst ht
  refine (safe_of_eq h4ac).bind fun t1 ht => ?_
  subst ht
  refine (safe_of_eq hd).bind fun t1 ht => ?_
  subst ht
  split
  · exact Safe.pure (by rintro s ⟨⟩)
  · refine (safe_of_eq h2a).bind fun t1 ht => ?_
    subst ht
    have hm : Safe (x.rtNeg ⟨b, 1⟩) (fun q => RBnd2 q B 1) := by
      unfold rtNeg
      exact (neg_safe hL hb (by linarith)).bind fun n hn => Safe.pure ⟨hn, h1⟩
    refine hm.bind fun m hm => ?_
    refine (rtRecip_safe hL h2a' (by linarith) (by linarith)).bind fun r1 hr1 => ?_
    refine (rtMul_safe hL hm hr1 hB le_rfl le_rfl (by linarith) (by linarith) (by linarith)).bind fun u hu => ?_
    refine (rtRecip_safe hL h2a' (by linarith) (by linarith)).bind fun r2 hr2 => ?_
    refine Safe.bind (P := fun s => Bnd s (8 * B ^ 2) (2 * B) (4 * B ^ 2) (5 * B ^ 2)) ?_ fun s hs =>
      Safe.pure (by rintro t ⟨⟩; exact hs)
    obtain ⟨u1, u2⟩ := hu
    obtain ⟨v1, v2⟩ := hr2
    unfold fromRationals
    split
    · exact Safe.err (by decide)
    · refine (mul_safe hL hd' h1 (by linarith)).bind fun sr hsr => ?_
      refine (mul_safe hL v2 h1 (by linarith)).bind fun nb hnb => ?_
      refine (mul_safe hL u1 hnb (by nlinarith)).bind fun sa hsa => ?_
      refine (mul_safe hL v1 u2 (by linarith)).bind fun sb hsb => ?_
      refine (mul_safe hL u2 hnb (by nlinarith)).bind fun sc hsc => ?_
      have q1 : |sa| ≤ 2 * B ^ 2 := by nlinarith
      have q2 : |sb| ≤ 2 * B := by nlinarith
      have q3 : |sc| ≤ 4 * B ^ 2 := by nlinarith
      have q4 : |sr| ≤ 5 * B ^ 2 := by nlinarith
      exact reduce_safe (A' := 8 * B ^ 2) (S := 3 * B) hL ⟨q1, q2, q3, q4⟩ (by linarith) (by nlinarith) (by nlinarith)
        (by linarith) (by linarith) (by linarith) (by nlinarith) (by nlinarith) (fun _ _ => by nlinarith)

theorem continuant_pos : ∀ {l : List Nat}, (∀ u ∈ l, 1 ≤ u) → 1 ≤ continuant l
  | [], _ => le_rfl
  | [v], h => h v (by simp)
  | v :: w :: l, h => by
    have := continuant_pos (l := l) fun u hu => h u (by simp [hu])
    show 1 ≤ v * continuant (w :: l) + continuant l
    omega

/-- the surd of the period -/
theorem periodSurd_safe (hL : L < 2 ^ (x.w - 1)) (cfg : Cfg) {p : List Nat} (hp : p ≠ []) (h1 : ∀ u ∈ p, 1 ≤ u)
    (hB : ((continuant p : Nat) : Int) ≤ B) (h : 16 * B ^ 4 ≤ L) :
    Safe (x.periodSurd cfg p) (fun s => Bnd s (8 * B ^ 2) (2 * B) (4 * B ^ 2) (5 * B ^ 2)) := by
  obtain ⟨v, l, rfl⟩ := List.exists_cons_of_ne_nil hp
  obtain ⟨m, e1, e2, e3, e4, e5, e6⟩ := Mob.ofRev_spec v l h1
  have hB1 : 1 ≤ B := by have := continuant_pos h1; omega
  obtain ⟨p1, p2, p3, -⟩ := pows hB1
  have hlt : ((continuant (v :: l) : Nat) : Int) < 2 ^ (x.w - 1) := by linarith
  obtain ⟨m', f1, f2, f3, f4, f5, f6, -⟩ := mob_cast (x := x) h1 hlt
  rw [e1] at f2
  cases f2
  rw [← e2] at hB
  have hc0 : m.c ≠ 0 := by
    obtain ⟨n, g1, -, g2, -⟩ := NumIrr.ofRev_spec hp h1
    rw [e1] at g1
    cases g1
    omega
  unfold periodSurd
  refine (safe_of_eq f1).bind fun m' hm => ?_
  rw [hm]
  rw [f3, f4, f5, f6]
  have he : x.sub (m.d : Int) m.a = .ok ((m.d : Int) - m.a) := by
    unfold sub
    refine ret_ok ?_
    unfold Holds
    have := Prim.two_pow_pos (x.w - 1)
    constructor <;> omega
  have hf : x.neg (m.b : Int) = .ok (-(m.b : Int)) := by
    unfold neg
    refine ret_ok ?_
    unfold Holds
    have := Prim.two_pow_pos (x.w - 1)
    constructor <;> omega
  refine (safe_of_eq he).bind fun e hm => ?_
  subst hm
  refine (safe_of_eq hf).bind fun e hm => ?_
  subst hm
  refine (fromEquation_safe hL hB1 h cfg (a := m.c) (b := (m.d : Int) - m.a) (c := -(m.b : Int)) ?_ ?_ ?_ ?_).bind
    fun o ho => ?_
  · rw [abs_le]; constructor <;> omega
  · rw [abs_le]; constructor <;> omega
  · rw [abs_le]; constructor <;> omega
  · exact_mod_cast hc0
  · cases o with
    | none => exact Safe.err (by decide)
    | some s => exact Safe.pure (ho s rfl)

/-- the whole conversion, for a fraction with one coefficient before the period -/
theorem toSurd_safe (hL : L < 2 ^ (x.w - 1)) (cfg : Cfg) {a0 : Nat} {p : List Nat} {n : Bool} (hp : p ≠ [])
    (h1 : ∀ u ∈ p, 1 ≤ u) (hB : ((continuant p : Nat) : Int) ≤ B) (h : 16 * B ^ 4 ≤ L)
    (ha : 14 * B ^ 2 + 4 * B ^ 2 * a0 ≤ L) : Safe (x.toSurd cfg ⟨[a0], p, n⟩) (fun _ => True) := by
  have hB1 : 1 ≤ B := by
    have := continuant_pos h1; omega
  have ha0 : (0 : Int) ≤ a0 := by omega
  have hab : |((a0 : Nat) : Int)| ≤ a0 := by rw [abs_of_nonneg ha0]
  unfold toSurd
  rw [if_neg (by simp [CF.isRational, hp])]
  refine (periodSurd_safe hL cfg hp h1 hB h).bind fun ps hps => ?_
  refine Safe.bind (P := fun s => Bnd s (8 * B ^ 2) (2 * B) (4 * B ^ 2) (5 * B ^ 2)) (Safe.pure hps) fun s hs => ?_
  dsimp only
  obtain ⟨s1, s2, s3, s4⟩ := hs
  obtain ⟨p1, p2, p3, -⟩ := pows hB1
  have hk0 : (a0 : Int) ≤ B ^ 2 * (a0 : Int) := le_mul_of_one_le_left ha0 (by linarith)
  rw [castS_small (x := x) (n := a0) (by linarith)]
  have hadd : Safe (x.surdAddInt cfg s a0) (fun t => Bnd t (14 * B ^ 2 + 4 * B ^ 2 * a0) (2 * B) (4 * B ^ 2) (5 * B ^ 2)) := by
    unfold surdAddInt forward coeffsAddInt
    refine Safe.bind (P := fun t => CBnd t (8 * B ^ 2 + a0 * (4 * B ^ 2)) (2 * B) (4 * B ^ 2)) ?_ fun t ht => ?_
    · refine (mul_safe hL hab s3 (by nlinarith)).bind fun u hu => ?_
      refine (add_safe hL s1 hu (by nlinarith)).bind fun v hv => ?_
      exact Safe.pure ⟨hv, s2, s3⟩
    · refine (fromCoeffs_safe (S := 3 * B) hL cfg ht s4 (by linarith) (by nlinarith) (by nlinarith) (by nlinarith)
        (by nlinarith)).mono fun u hu => hu.mono (by nlinarith) le_rfl le_rfl le_rfl
  refine hadd.bind fun t ht => ?_
  split
  · exact (surdNeg_safe hL ht ha (by linarith)).mono fun _ _ => trivial
  · exact Safe.pure trivial

/-! ### the other operations on rational numbers -/

theorem rtDiv_safe (hL : L < 2 ^ (x.w - 1)) (hB : 1 ≤ B) (h : 2 * B ^ 2 ≤ L) {p q : Rt} (hp : RBnd2 p B B)
    (hq : RBnd2 q B B) : Safe (x.rtDiv p q) (fun q => RBnd2 q (2 * B ^ 2) (2 * B ^ 2)) := by
  obtain ⟨h1, h2⟩ := hp
  obtain ⟨h3, h4⟩ := hq
  obtain ⟨p1, -⟩ := pows hB
  have e : B ≤ L := by linarith
  unfold rtDiv
  refine (gcd_safe hL h1 h3 e e).bind fun g _ => ?_
  refine (gcd_safe hL h2 h4 e e).bind fun h' _ => ?_
  refine (div_safe hL h1 e).bind fun t1 ht1 => ?_
  refine (div_safe hL h4 e).bind fun t2 ht2 => ?_
  refine (mul_safe hL ht1 ht2 (by nlinarith)).bind fun n hn => ?_
  refine (div_safe hL h2 e).bind fun t3 ht3 => ?_
  refine (div_safe hL h3 e).bind fun t4 ht4 => ?_
  refine (mul_safe hL ht3 ht4 (by nlinarith)).bind fun d hd => ?_
  exact ratio_safe2 hL (by nlinarith) (by nlinarith) (by linarith) (by linarith) h h

theorem rtMulInt_safe (hL : L < 2 ^ (x.w - 1)) (hB : 1 ≤ B) (h : 2 * B ^ 2 ≤ L) {p : Rt} {k : Int} (hp : RBnd2 p B B)
    (hk : |k| ≤ B) : Safe (x.rtMulInt p k) (fun q => RBnd2 q (2 * B ^ 2) (2 * B ^ 2)) := by
  obtain ⟨h1, h2⟩ := hp
  obtain ⟨p1, -⟩ := pows hB
  have e : B ≤ L := by linarith
  unfold rtMulInt
  refine (gcd_safe hL h2 hk e e).bind fun g _ => ?_
  refine (div_safe hL hk e).bind fun t1 ht1 => ?_
  refine (mul_safe hL h1 ht1 (by nlinarith)).bind fun n hn => ?_
  refine (div_safe hL h2 e).bind fun d hd => ?_
  exact ratio_safe2 hL (by nlinarith) (by nlinarith) (by linarith) (by linarith) h h

theorem rtDivInt_safe (hL : L < 2 ^ (x.w - 1)) (hB : 1 ≤ B) (h : 2 * B ^ 2 ≤ L) {p : Rt} {k : Int} (hp : RBnd2 p B B)
    (hk : |k| ≤ B) : Safe (x.rtDivInt p k) (fun q => RBnd2 q (2 * B ^ 2) (2 * B ^ 2)) := by
  obtain ⟨h1, h2⟩ := hp
  obtain ⟨p1, -⟩ := pows hB
  have e : B ≤ L := by linarith
  unfold rtDivInt
  refine (gcd_safe hL h1 hk e e).bind fun g _ => ?_
  refine (div_safe hL h1 e).bind fun n hn => ?_
  refine (div_safe hL hk e).bind fun t1 ht1 => ?_
  refine (mul_safe hL h2 ht1 (by nlinarith)).bind fun d hd => ?_
  exact ratio_safe2 hL (by nlinarith) (by nlinarith) (by linarith) (by linarith) h h

/-- the least common multiple of positive numbers, and the quotients by them -/
theorem lcm_safe (hL : L < 2 ^ (x.w - 1)) (hB : 1 ≤ B) (h : B ^ 2 ≤ L) {a b : Int} (ha : |a| ≤ B) (hb : |b| ≤ B)
    (ha0 : 0 < a) (hb0 : 0 < b) :
    Safe (x.lcm a b) (fun l => |l| ≤ B ^ 2 ∧ |l.tdiv a| ≤ B ∧ |l.tdiv b| ≤ B) := by
  obtain ⟨p1, -⟩ := pows hB
  have e : B ≤ L := by linarith
  have hg : 0 < igcd a b := lt_of_le_of_ne (igcd_nonneg a b) (Ne.symm (igcd_pos_right hb0.ne'))
  obtain ⟨u, hu⟩ := igcd_dvd_left a b
  obtain ⟨v, hv⟩ := igcd_dvd_right a b
  have hu0 : 0 < u := by by_contra hh; nlinarith
  have hv0 : 0 < v := by by_contra hh; nlinarith
  have hgh : x.gcd a b = .ok (igcd a b) := by
    unfold gcd
    refine ret_ok ?_
    have := Int.le_of_dvd ha0 (igcd_dvd_left a b)
    rw [abs_of_pos ha0] at ha
    unfold Holds; constructor <;> omega
  have e1 : b.tdiv (igcd a b) = v := by
    generalize igcd a b = g at hg hv
    rw [hv, mul_comm]
    exact Int.mul_tdiv_cancel _ hg.ne'
  have hub : u ≤ B := by rw [abs_of_pos ha0] at ha; nlinarith
  have hvb : v ≤ B := by rw [abs_of_pos hb0] at hb; nlinarith
  have hav : |a * v| ≤ B ^ 2 := by
    rw [sq]; exact abs_mul_le ha (by rw [abs_of_pos hv0]; exact hvb)
  unfold lcm
  rw [if_neg (by omega)]
  refine (safe_of_eq hgh).bind fun g hg' => ?_
  subst hg'
  have hdv : x.div b (igcd a b) = .ok v := by
    unfold div
    rw [if_neg hg.ne', e1, if_pos]
    simp only [fits, IntTy.signed, Bool.and_eq_true, decide_eq_true_eq]
    constructor <;> omega
  refine (safe_of_eq hdv).bind fun t ht => ?_
  rw [ht]
  refine (mul_safe_eq hL hav h).bind fun t ht => ?_
  subst ht
  refine (abs_safe hL hav h).mono fun l hl => ?_
  subst hl
  have hp : 0 < a * v := mul_pos ha0 hv0
  refine ⟨by rw [abs_abs]; exact hav, ?_, ?_⟩
  · rw [abs_of_pos hp, show a * v = v * a by ring, Int.mul_tdiv_cancel _ ha0.ne', abs_of_pos hv0]; exact hvb
  · rw [abs_of_pos hp, show a * v = u * b by linear_combination v * hu - u * hv, Int.mul_tdiv_cancel _ hb0.ne', abs_of_pos hu0]
    exact hub

theorem div_safe_eq (hL : L < 2 ^ (x.w - 1)) {a d K : Int} (h : |a.tdiv d| ≤ K) (hK : K ≤ L) :
    Safe (x.div a d) (fun u => |u| ≤ K) := by
  have h2 := abs_le.mp h
  have : x.fits (a.tdiv d) = true := by
    simp only [fits, IntTy.signed, Bool.and_eq_true, decide_eq_true_eq]
    constructor <;> omega
  unfold div
  split
  · exact Safe.err (by decide)
  · exact Safe.pure h

theorem rtAdd_safe (hL : L < 2 ^ (x.w - 1)) (hB : 1 ≤ B) (h : 2 * B ^ 2 ≤ L) {p q : Rt} (hp : RBnd2 p B B)
    (hq : RBnd2 q B B) (hp0 : 0 < p.den) (hq0 : 0 < q.den) :
    Safe (x.rtAdd p q) (fun q => RBnd2 q (2 * B ^ 2) (2 * B ^ 2)) := by
  obtain ⟨h1, h2⟩ := hp
  obtain ⟨h3, h4⟩ := hq
  obtain ⟨p1, -⟩ := pows hB
  unfold rtAdd
  split
  · refine (add_safe hL h1 h3 (by linarith)).bind fun n hn => ?_
    exact ratio_safe2 hL (by linarith) (by linarith) (by linarith) (by linarith) h h
  · refine (lcm_safe hL hB (by linarith) h2 h4 hp0 hq0).bind fun l hl => ?_
    obtain ⟨l1, l2, l3⟩ := hl
    refine (div_safe_eq hL l2 (by linarith)).bind fun t1 ht1 => ?_
    refine (mul_safe hL h1 ht1 (by nlinarith)).bind fun m hm => ?_
    refine (div_safe_eq hL l3 (by linarith)).bind fun t2 ht2 => ?_
    refine (mul_safe hL h3 ht2 (by nlinarith)).bind fun n hn => ?_
    refine (add_safe hL hm hn (by nlinarith)).bind fun s hs => ?_
    exact ratio_safe2 hL (by nlinarith) (by linarith) (by linarith) (by linarith) h h

theorem rtSub_safe (hL : L < 2 ^ (x.w - 1)) (hB : 1 ≤ B) (h : 2 * B ^ 2 ≤ L) {p q : Rt} (hp : RBnd2 p B B)
    (hq : RBnd2 q B B) (hp0 : 0 < p.den) (hq0 : 0 < q.den) :
    Safe (x.rtSub p q) (fun q => RBnd2 q (2 * B ^ 2) (2 * B ^ 2)) := by
  obtain ⟨h1, h2⟩ := hp
  obtain ⟨h3, h4⟩ := hq
  obtain ⟨p1, -⟩ := pows hB
  unfold rtSub
  split
  · refine (sub_safe hL h1 h3 (by linarith)).bind fun n hn => ?_
    exact ratio_safe2 hL (by linarith) (by linarith) (by linarith) (by linarith) h h
  · refine (lcm_safe hL hB (by linarith) h2 h4 hp0 hq0).bind fun l hl => ?_
    obtain ⟨l1, l2, l3⟩ := hl
    refine (div_safe_eq hL l2 (by linarith)).bind fun t1 ht1 => ?_
    refine (mul_safe hL h1 ht1 (by nlinarith)).bind fun m hm => ?_
    refine (div_safe_eq hL l3 (by linarith)).bind fun t2 ht2 => ?_
    refine (mul_safe hL h3 ht2 (by nlinarith)).bind fun n hn => ?_
    refine (sub_safe hL hm hn (by nlinarith)).bind fun s hs => ?_
    exact ratio_safe2 hL (by nlinarith) (by linarith) (by linarith) (by linarith) h h

end Fx
end NumIrr
