/-
Rules for "does not overflow", tracking bounds on the absolute values, and the bounds under which each function of
Model/FixedSurd does not overflow.
-/
import Verif.Spec.Fixed
import Verif.Lemmas.Root
import Verif.Lemmas.FixedRef
import Mathlib.Tactic.Linarith
import Mathlib.Tactic.Ring
import Mathlib.Algebra.Order.Ring.Abs

namespace NumIrr

/-- no overflow, and what is returned has the property `Q` -/
def Safe {α : Type} (r : Res α) (Q : α → Prop) : Prop := r ≠ .error .overflow ∧ ∀ v, r = .ok v → Q v

theorem Safe.bind {α β : Type} {r : Res α} {P : α → Prop} {f : α → Res β} {Q : β → Prop} (h : Safe r P)
    (hf : ∀ v, P v → Safe (f v) Q) : Safe (r >>= f) Q := by
  cases r with
  | error e => exact ⟨fun hh => h.1 (by cases hh; rfl), fun v hv => by cases hv⟩
  | ok v => exact hf v (h.2 v rfl)

theorem Safe.pure {α : Type} {v : α} {Q : α → Prop} (h : Q v) : Safe (.ok v : Res α) Q :=
  ⟨fun hh => (by cases hh), fun w hw => (by cases hw; exact h)⟩

theorem Safe.err {α : Type} {e : Panic} {Q : α → Prop} (h : e ≠ .overflow) : Safe (.error e : Res α) Q :=
  ⟨fun hh => h (by cases hh; rfl), fun w hw => by cases hw⟩

theorem Safe.mono {α : Type} {r : Res α} {P Q : α → Prop} (h : Safe r P) (hf : ∀ v, P v → Q v) : Safe r Q :=
  ⟨h.1, fun v hv => hf v (h.2 v hv)⟩

/-- a run without overflow does what it refines -/
theorem Refines.eq_of_safe {α : Type} {r b : Res α} {Q : α → Prop} (h : Refines r b) (hs : Safe r Q) : r = b :=
  h.resolve_right hs.1

namespace Fx

variable {x : Fx} {L : Int}

theorem ret_safe (hL : L < 2 ^ (x.w - 1)) {v K : Int} (hv : |v| ≤ K) (hK : K ≤ L) :
    Safe (x.ret v) (fun u => |u| ≤ K) := by
  have h := abs_le.mp hv
  have : x.fits v = true := by
    simp only [fits, IntTy.signed, Bool.and_eq_true, decide_eq_true_eq]
    constructor <;> omega
  unfold ret
  rw [if_pos this]
  exact Safe.pure hv

theorem abs_mul_le {a b A B : Int} (ha : |a| ≤ A) (hb : |b| ≤ B) : |a * b| ≤ A * B := by
  rw [abs_mul]
  exact mul_le_mul ha hb (abs_nonneg _) (le_trans (abs_nonneg _) ha)

theorem mul_safe (hL : L < 2 ^ (x.w - 1)) {a b A B : Int} (ha : |a| ≤ A) (hb : |b| ≤ B) (h : A * B ≤ L) :
    Safe (x.mul a b) (fun u => |u| ≤ A * B) := ret_safe hL (abs_mul_le ha hb) h

theorem add_safe (hL : L < 2 ^ (x.w - 1)) {a b A B : Int} (ha : |a| ≤ A) (hb : |b| ≤ B) (h : A + B ≤ L) :
    Safe (x.add a b) (fun u => |u| ≤ A + B) :=
  ret_safe hL (le_trans (abs_add_le _ _) (add_le_add ha hb)) h

theorem sub_safe (hL : L < 2 ^ (x.w - 1)) {a b A B : Int} (ha : |a| ≤ A) (hb : |b| ≤ B) (h : A + B ≤ L) :
    Safe (x.sub a b) (fun u => |u| ≤ A + B) :=
  ret_safe hL (le_trans (abs_sub _ _) (add_le_add ha hb)) h

theorem neg_safe (hL : L < 2 ^ (x.w - 1)) {a A : Int} (ha : |a| ≤ A) (h : A ≤ L) :
    Safe (x.neg a) (fun u => |u| ≤ A) := ret_safe hL (by rwa [abs_neg]) h

theorem abs_safe (hL : L < 2 ^ (x.w - 1)) {a A : Int} (ha : |a| ≤ A) (h : A ≤ L) :
    Safe (x.abs a) (fun u => u = |a|) := by
  have h1 := ret_safe (x := x) hL (v := ((a.natAbs : Nat) : Int)) (K := A)
    (by rw [Int.natCast_natAbs, abs_abs]; exact ha) h
  refine ⟨h1.1, fun v hv => ?_⟩
  have hf : x.fits ((a.natAbs : Nat) : Int) = true := by
    have h := abs_le.mp ha
    simp only [fits, IntTy.signed, Bool.and_eq_true, decide_eq_true_eq]
    constructor <;> omega
  unfold abs ret at hv
  rw [if_pos hf] at hv
  cases hv
  exact Int.natCast_natAbs a

theorem abs_tdiv_le {a d A : Int} (ha : |a| ≤ A) : |a.tdiv d| ≤ A := by
  rw [Int.abs_eq_natAbs] at *
  rw [Int.natAbs_tdiv]
  exact le_trans (Int.ofNat_le.mpr (Nat.div_le_self a.natAbs d.natAbs)) ha

theorem div_safe (hL : L < 2 ^ (x.w - 1)) {a d A : Int} (ha : |a| ≤ A) (h : A ≤ L) :
    Safe (x.div a d) (fun u => |u| ≤ A) := by
  have h1 := abs_tdiv_le (d := d) ha
  have h2 := abs_le.mp h1
  have : x.fits (a.tdiv d) = true := by
    simp only [fits, IntTy.signed, Bool.and_eq_true, decide_eq_true_eq]
    constructor <;> omega
  unfold div
  split
  · exact Safe.err (by decide)
  · exact Safe.pure h1

theorem rem_safe (hL : L < 2 ^ (x.w - 1)) {a d A : Int} (ha : |a| ≤ A) (h : A ≤ L) :
    Safe (x.rem a d) (fun _ => True) := by
  have h1 := abs_tdiv_le (d := d) ha
  have h2 := abs_le.mp h1
  have : x.fits (a.tdiv d) = true := by
    simp only [fits, IntTy.signed, Bool.and_eq_true, decide_eq_true_eq]
    constructor <;> omega
  unfold rem
  split
  · exact Safe.err (by decide)
  · exact Safe.pure trivial

theorem abs_igcd_le {a b A B : Int} (ha : |a| ≤ A) (hb : |b| ≤ B) (h : A ≤ B) : |igcd a b| ≤ B := by
  rw [abs_of_nonneg (igcd_nonneg _ _)]
  by_cases h0 : b = 0
  · subst h0
    have : igcd a 0 = |a| := by unfold igcd; rw [Int.gcd_zero_right, Int.natCast_natAbs]
    omega
  · exact le_trans (Int.le_of_dvd (abs_pos.mpr h0) ((dvd_abs _ _).mpr (igcd_dvd_right a b))) hb

theorem abs_igcd_le_right {a b B : Int} (hb : |b| ≤ B) (h0 : b ≠ 0) : |igcd a b| ≤ B := by
  rw [abs_of_nonneg (igcd_nonneg _ _)]
  exact le_trans (Int.le_of_dvd (abs_pos.mpr h0) ((dvd_abs _ _).mpr (igcd_dvd_right a b))) hb

theorem gcd_safe (hL : L < 2 ^ (x.w - 1)) {a b A B : Int} (ha : |a| ≤ A) (hb : |b| ≤ B) (hA : A ≤ L) (hB : B ≤ L) :
    Safe (x.gcd a b) (fun u => |u| ≤ max A B) :=
  ret_safe hL (abs_igcd_le (le_trans ha (le_max_left A B)) (le_trans hb (le_max_right A B)) le_rfl) (max_le hA hB)

theorem gcd_safe_right (hL : L < 2 ^ (x.w - 1)) {a b B : Int} (hb : |b| ≤ B) (h0 : b ≠ 0) (hB : B ≤ L) :
    Safe (x.gcd a b) (fun u => |u| ≤ B) := ret_safe hL (abs_igcd_le_right hb h0) hB

/-- the integer square root of a number below `S²` -/
theorem sqrtR_safe {n S : Int} (hS : 0 ≤ S) (hn : |n| ≤ S * S) :
    Safe (sqrtR n) (fun u => |u| ≤ S ∧ u * u ≤ |n|) := by
  unfold sqrtR
  split
  · exact Safe.err (by decide)
  · rename_i h
    have h0 : 0 ≤ n := by omega
    have h1 := isqrt_le n h0
    have h2 := isqrt_nonneg n
    rw [abs_of_nonneg h0] at hn ⊢
    refine Safe.pure ⟨?_, h1⟩
    rw [abs_of_nonneg h2]
    by_contra h3
    nlinarith

theorem mul_safe_eq (hL : L < 2 ^ (x.w - 1)) {a b K : Int} (h : |a * b| ≤ K) (hK : K ≤ L) :
    Safe (x.mul a b) (fun u => u = a * b) := by
  refine ⟨(ret_safe hL h hK).1, fun v hv => ?_⟩
  have hf : x.fits (a * b) = true := by
    have h := abs_le.mp h
    simp only [fits, IntTy.signed, Bool.and_eq_true, decide_eq_true_eq]
    constructor <;> omega
  unfold mul ret at hv
  rw [if_pos hf] at hv
  cases hv
  rfl

/-! ### normalisation -/

/-- bounds on the four fields -/
def Bnd (s : Surd) (A B C R : Int) : Prop := |s.a| ≤ A ∧ |s.b| ≤ B ∧ |s.c| ≤ C ∧ |s.r| ≤ R

theorem Bnd.mono {s : Surd} {A B C R A' B' C' R' : Int} (h : Bnd s A B C R) (ha : A ≤ A') (hb : B ≤ B') (hc : C ≤ C')
    (hr : R ≤ R') : Bnd s A' B' C' R' :=
  ⟨h.1.trans ha, h.2.1.trans hb, h.2.2.1.trans hc, h.2.2.2.trans hr⟩

theorem reduceSquare_safe (hL : L < 2 ^ (x.w - 1)) {s : Surd} {A A' B C R S : Int} (hs : Bnd s A B C R)
    (hS : 0 ≤ S) (hR : R ≤ S * S) (hSL : S * S ≤ L) (hA : A ≤ A') (hA' : A' ≤ L) (hBS : B * S ≤ L)
    (hsq : ∀ k, k * k = s.r → A + B * S ≤ A') :
    Safe (x.reduceSquare s) (fun t => Bnd t A' B C R ∧ t.c = s.c) := by
  obtain ⟨ha, hb, hc, hr⟩ := hs
  unfold reduceSquare
  refine (abs_safe hL hr (by linarith)).bind fun m hm => ?_
  subst hm
  refine (sqrtR_safe hS (by rw [abs_abs]; linarith)).bind fun root hroot => ?_
  rw [abs_abs] at hroot
  refine (mul_safe_eq hL (abs_mul_le hroot.1 hroot.1) hSL).bind fun sq hsq' => ?_
  subst hsq'
  split
  · rename_i he
    split
    · exfalso; nlinarith
    · have h1 := hsq _ he
      refine (mul_safe hL hb hroot.1 hBS).bind fun t ht => ?_
      refine (add_safe hL ha ht (by linarith)).bind fun a ha => ?_
      refine Safe.pure ⟨⟨ha.trans h1, ?_, hc, ?_⟩, rfl⟩
      · rw [abs_zero]; exact (abs_nonneg _).trans hb
      · rw [abs_zero]; exact (abs_nonneg _).trans hr
  · exact Safe.pure ⟨⟨ha.trans hA, hb, hc, hr⟩, rfl⟩

theorem reduceRat_safe (hL : L < 2 ^ (x.w - 1)) {s : Surd} {A B C R : Int} (hs : Bnd s A B C R) (h0 : s.c ≠ 0)
    (hA : A ≤ L) (hC : C ≤ L) : Safe (x.reduceRat s) (fun t => Bnd t A B C R) := by
  obtain ⟨ha, hb, hc, hr⟩ := hs
  unfold reduceRat
  refine (gcd_safe_right hL hc h0 hC).bind fun g hg => ?_
  refine (div_safe hL ha hA).bind fun a ha => ?_
  refine (div_safe hL hc hC).bind fun c hc => ?_
  refine Safe.pure ⟨ha, ?_, hc, ?_⟩
  · rw [abs_zero]; exact (abs_nonneg _).trans hb
  · rw [abs_zero]; exact (abs_nonneg _).trans hr

theorem reduceFactor_safe (hL : L < 2 ^ (x.w - 1)) {s : Surd} {A B C R : Int} (hs : Bnd s A B C R) (h0 : s.c ≠ 0)
    (hA : A ≤ L) (hC : C * C ≤ L) (hCL : C ≤ L) (hR : R ≤ L) :
    Safe (x.reduceFactor s) (fun t => Bnd t.1 A B C R ∧ |t.2| ≤ C) := by
  obtain ⟨ha, hb, hc, hr⟩ := hs
  have hC0 : 0 ≤ C := (abs_nonneg _).trans hc
  unfold reduceFactor
  refine (gcd_safe_right hL hc h0 hCL).bind fun g hg => ?_
  refine (mul_safe hL hg hg hC).bind fun g2 hg2 => ?_
  have hm : max (C * C) R ≤ L := max_le hC hR
  refine (gcd_safe hL hg2 hr hC hR).bind fun gr hgr => ?_
  have h1 : |gr| ≤ L := hgr.trans hm
  have hu : Safe (sqrtR gr) (fun u => u * u ≤ |gr| ∧ 0 ≤ u) := by
    unfold sqrtR
    split
    · exact Safe.err (by decide)
    · rename_i h
      rw [abs_of_nonneg (by omega)]
      exact Safe.pure ⟨isqrt_le _ (by omega), isqrt_nonneg _⟩
  refine hu.bind fun u hu => ?_
  refine (mul_safe_eq hL (K := |gr|) ?_ h1).bind fun sq hsq => ?_
  · rw [abs_of_nonneg (mul_nonneg hu.2 hu.2)]; exact hu.1
  split
  · refine (div_safe hL hr hR).bind fun r hr => ?_
    refine (div_safe hL ha hA).bind fun a ha => ?_
    refine (div_safe hL hc hCL).bind fun c hc => ?_
    refine (div_safe hL hg hCL).bind fun g hg => ?_
    exact Safe.pure ⟨⟨ha, hb, hc, hr⟩, hg⟩
  · exact Safe.pure ⟨⟨ha, hb, hc, hr⟩, hg⟩

theorem reduceIrr_safe (hL : L < 2 ^ (x.w - 1)) {s : Surd} {A B C R : Int} (hs : Bnd s A B C R) (h0 : s.c ≠ 0)
    (hA : A ≤ L) (hB : B ≤ L) (hC : C * C ≤ L) (hCL : C ≤ L) (hR : R ≤ L) :
    Safe (x.reduceIrr s) (fun t => Bnd t A B C R) := by
  unfold reduceIrr
  refine (reduceFactor_safe hL hs h0 hA hC hCL hR).bind fun t ht => ?_
  obtain ⟨⟨ha, hb, hc, hr⟩, hg⟩ := ht
  refine (gcd_safe hL hg hb hCL hB).bind fun g _ => ?_
  refine (div_safe hL ha hA).bind fun a ha => ?_
  refine (div_safe hL hb hB).bind fun b hb => ?_
  refine (div_safe hL hc hCL).bind fun c hc => ?_
  exact Safe.pure ⟨ha, hb, hc, hr⟩

theorem reduceSign_safe (hL : L < 2 ^ (x.w - 1)) {s : Surd} {A B C R : Int} (hs : Bnd s A B C R)
    (hA : A ≤ L) (hB : B ≤ L) (hCL : C ≤ L) : Safe (x.reduceSign s) (fun t => Bnd t A B C R) := by
  obtain ⟨ha, hb, hc, hr⟩ := hs
  have h0 : |(0 : Int)| ≤ 0 := by simp
  unfold reduceSign
  split
  · refine (sub_safe hL h0 ha (by linarith)).bind fun a ha => ?_
    refine (sub_safe hL h0 hb (by linarith)).bind fun b hb => ?_
    refine (sub_safe hL h0 hc (by linarith)).bind fun c hc => ?_
    exact Safe.pure ⟨by simpa using ha, by simpa using hb, by simpa using hc, hr⟩
  · exact Safe.pure ⟨ha, hb, hc, hr⟩

/-- `reduce` does not overflow when `A + B√R` and `C²` fit -/
theorem reduce_safe (hL : L < 2 ^ (x.w - 1)) {s : Surd} {A A' B C R S : Int} (hs : Bnd s A B C R)
    (hS : 0 ≤ S) (hR : R ≤ S * S) (hSL : S * S ≤ L) (hA : A ≤ A') (hA' : A' ≤ L) (hB : B ≤ L) (hBS : B * S ≤ L)
    (hC : C * C ≤ L) (hsq : ∀ k, k * k = s.r → A + B * S ≤ A') :
    Safe (x.reduce s) (fun t => Bnd t A' B C R) := by
  have hCL : C ≤ L := by
    have := (abs_nonneg _).trans hs.2.2.1
    nlinarith
  unfold reduce
  split
  · exact Safe.err (by decide)
  · rename_i h0
    refine (reduceSquare_safe hL hs hS hR hSL hA hA' hBS hsq).bind fun t ht => ?_
    obtain ⟨ht, hc⟩ := ht
    refine Safe.bind (P := fun t => Bnd t A' B C R) ?_ fun t ht => reduceSign_safe hL ht hA' hB hCL
    split
    · exact reduceRat_safe hL ht (by rw [hc]; exact h0) hA' hCL
    · exact reduceIrr_safe hL ht (by rw [hc]; exact h0) hA' hB hC hCL (by linarith)

/-- `reduce_root_hinted` -/
theorem reduceRootHinted_safe (hL : L < 2 ^ (x.w - 1)) {s : Surd} {h B : Int} (hs : Bnd s B B B B) (hh : |h| ≤ B)
    (hB : 1 ≤ B) (hBB : B * B ≤ L) :
    Safe (x.reduceRootHinted s h) (fun t => Bnd t B (B * B) B B ∧ t.b * t.b ≤ B * B * B) := by
  obtain ⟨ha, hb, hc, hr⟩ := hs
  have hBL : B ≤ L := by nlinarith
  have hB2 : B ≤ B * B := by nlinarith
  have hself : Bnd s B (B * B) B B ∧ s.b * s.b ≤ B * B * B := by
    refine ⟨⟨ha, hb.trans hB2, hc, hr⟩, ?_⟩
    have := abs_le.mp (abs_mul_le hb hb)
    nlinarith
  unfold reduceRootHinted
  refine (abs_safe hL hh hBL).bind fun h' hh' => ?_
  subst hh'
  split
  · exact Safe.pure hself
  · refine (div_safe hL hr hBL).bind fun quo hq => ?_
    refine (rem_safe hL hr hBL).bind fun _ _ => ?_
    split
    · have hab : |(|h|)| ≤ B * B := by rw [abs_abs]; linarith
      refine (sqrtR_safe (by linarith) hab).bind fun root hroot => ?_
      rw [abs_abs] at hroot
      refine (mul_safe_eq hL (abs_mul_le hroot.1 hroot.1) hBB).bind fun sq hsq => ?_
      split
      · refine (gcd_safe hL hroot.1 ha hBL hBL).bind fun g1 hg1 => ?_
        refine (gcd_safe hL hg1 hc (by simpa using hBL) hBL).bind fun g hg => ?_
        refine (div_safe hL ha hBL).bind fun a ha => ?_
        have hbr := abs_mul_le hb hroot.1
        refine (mul_safe_eq hL hbr hBB).bind fun t ht => ?_
        subst ht
        have hd : Safe (x.div (s.b * root) g) (fun u => |u| ≤ |s.b * root|) :=
          div_safe hL le_rfl (hbr.trans hBB)
        refine hd.bind fun b hb' => ?_
        refine (div_safe hL hc hBL).bind fun c hc => ?_
        refine Safe.pure ⟨⟨ha, hb'.trans hbr, hc, hq⟩, ?_⟩
        show b * b ≤ B * B * B
        calc b * b = |b| * |b| := (abs_mul_abs_self b).symm
          _ ≤ |s.b * root| * |s.b * root| := mul_le_mul hb' hb' (abs_nonneg _) (abs_nonneg _)
          _ = (s.b * s.b) * (root * root) := by rw [abs_mul_abs_self]; ring
          _ ≤ (B * B) * B := by
            have h1 := abs_le.mp (abs_mul_le hb hb)
            have h2 : root * root ≤ B := hroot.2.trans hh
            exact mul_le_mul h1.2 h2 (mul_self_nonneg _) (by nlinarith)
      · exact Safe.pure hself
    · exact Safe.pure hself

end Fx
end NumIrr
