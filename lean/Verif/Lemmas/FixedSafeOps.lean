/-
Bounds under which the public operations of Model/FixedSurd do not overflow.
-/
import Verif.Lemmas.FixedSafe
import Verif.Lemmas.FixedRel

namespace NumIrr
namespace Fx

variable {x : Fx} {L B : Int}

attribute [local irreducible] Fx.add Fx.sub Fx.mul Fx.neg Fx.div

/-- polynomial inequality in `B` from the chain `1 ≤ B ≤ B² ≤ …` in the context -/
macro "poly" : tactic => `(tactic| first | linarith | nlinarith)

/-- one operator -/
macro "op_step" : tactic => `(tactic| first
  | refine (mul_safe (by assumption) (by assumption) (by assumption) (by poly)).bind fun _ _ => ?_
  | refine (add_safe (by assumption) (by assumption) (by assumption) (by poly)).bind fun _ _ => ?_
  | refine (sub_safe (by assumption) (by assumption) (by assumption) (by poly)).bind fun _ _ => ?_
  | refine (neg_safe (by assumption) (by assumption) (by poly)).bind fun _ _ => ?_
  | refine (div_safe (by assumption) (by assumption) (by poly)).bind fun _ _ => ?_)

/-- bounds on coefficients -/
def CBnd (t : Coeffs) (A B C : Int) : Prop := |t.a| ≤ A ∧ |t.b| ≤ B ∧ |t.c| ≤ C

/-- the chain of powers -/
theorem pows (hB : 1 ≤ B) : B ≤ B ^ 2 ∧ B ^ 2 ≤ B ^ 3 ∧ B ^ 3 ≤ B ^ 4 ∧ B ^ 4 ≤ B ^ 5 ∧ B ^ 5 ≤ B ^ 6 ∧
    B ^ 6 ≤ B ^ 7 ∧ B ^ 7 ≤ B ^ 8 ∧ B ^ 8 ≤ B ^ 9 ∧ B ^ 9 ≤ B ^ 10 := by
  have h : ∀ n, B ^ n ≤ B ^ (n + 1) := fun n => pow_le_pow_right₀ hB (Nat.le_succ n)
  exact ⟨by simpa using h 1, h 2, h 3, h 4, h 5, h 6, h 7, h 8, h 9⟩

theorem sq_mul_le {u v K : Int} (hu : u * u ≤ K) (hv : v * v ≤ K) : |u * v| ≤ K := by
  rw [abs_le]; constructor <;> nlinarith [mul_self_nonneg (u + v), mul_self_nonneg (u - v)]

/-! ### coefficients -/

theorem coeffsAdd_safe (hL : L < 2 ^ (x.w - 1)) (hB : 1 ≤ B) {l r : Coeffs} (hl : CBnd l B (B ^ 2) B)
    (hr : CBnd r B (B ^ 2) B) (h : 4 * B ^ 4 ≤ L) :
    Safe (x.coeffsAdd l r) (fun t => CBnd t (2 * B ^ 2) (2 * B ^ 3) (B ^ 2)) := by
  obtain ⟨_, _, _⟩ := hl
  obtain ⟨_, _, _⟩ := hr
  obtain ⟨_, _, _, _, _, _, _, _, _⟩ := pows hB
  unfold coeffsAdd
  split
  · op_step
    op_step
    exact Safe.pure ⟨by poly, by poly, by poly⟩
  · iterate 7 op_step
    exact Safe.pure ⟨by poly, by poly, by poly⟩

theorem coeffsSub_safe (hL : L < 2 ^ (x.w - 1)) (hB : 1 ≤ B) {l r : Coeffs} (hl : CBnd l B (B ^ 2) B)
    (hr : CBnd r B (B ^ 2) B) (h : 4 * B ^ 4 ≤ L) :
    Safe (x.coeffsSub l r) (fun t => CBnd t (2 * B ^ 2) (2 * B ^ 3) (B ^ 2)) := by
  obtain ⟨_, _, _⟩ := hl
  obtain ⟨_, _, _⟩ := hr
  obtain ⟨_, _, _, _, _, _, _, _, _⟩ := pows hB
  unfold coeffsSub
  split
  · op_step
    op_step
    exact Safe.pure ⟨by poly, by poly, by poly⟩
  · iterate 7 op_step
    exact Safe.pure ⟨by poly, by poly, by poly⟩

theorem coeffsMul_safe (hL : L < 2 ^ (x.w - 1)) (hB : 1 ≤ B) {l r : Coeffs} {d : Int} (hl : CBnd l B (B ^ 2) B)
    (hr : CBnd r B (B ^ 2) B) (hl2 : l.b * l.b ≤ B ^ 3) (hr2 : r.b * r.b ≤ B ^ 3) (hd : |d| ≤ B) (h : 4 * B ^ 4 ≤ L) :
    Safe (x.coeffsMul l r d) (fun t => CBnd t (B ^ 2 + B ^ 4) (2 * B ^ 3) (B ^ 2)) := by
  obtain ⟨_, _, _⟩ := hl
  obtain ⟨_, _, _⟩ := hr
  obtain ⟨_, _, _, _, _, _, _, _, _⟩ := pows hB
  have h2 := sq_mul_le hl2 hr2
  unfold coeffsMul
  op_step
  refine (mul_safe_eq hL h2 (by poly)).bind fun t2 e2 => ?_
  subst e2
  iterate 6 op_step
  exact Safe.pure ⟨by poly, by poly, by poly⟩

theorem coeffsDiv_safe (hL : L < 2 ^ (x.w - 1)) (hB : 1 ≤ B) {l r : Coeffs} {d : Int} (hl : CBnd l B (B ^ 2) B)
    (hr : CBnd r B (B ^ 2) B) (hl2 : l.b * l.b ≤ B ^ 3) (hr2 : r.b * r.b ≤ B ^ 3) (hd : |d| ≤ B) (h : 4 * B ^ 10 ≤ L) :
    Safe (x.coeffsDiv l r d) (fun t => CBnd t (B ^ 3 + B ^ 5) (2 * B ^ 4) (B ^ 3 + B ^ 5)) := by
  obtain ⟨_, _, _⟩ := hl
  obtain ⟨_, _, _⟩ := hr
  obtain ⟨_, _, _, _, _, _, _, _, _⟩ := pows hB
  have h1 := sq_mul_le hr2 hr2
  have h2 := sq_mul_le hl2 hr2
  unfold coeffsDiv
  op_step
  refine (mul_safe_eq hL h1 (by poly)).bind fun t2 e2 => ?_
  subst e2
  iterate 4 op_step
  refine (mul_safe_eq hL h2 (by poly)).bind fun t2 e2 => ?_
  subst e2
  iterate 7 op_step
  exact Safe.pure ⟨by poly, by poly, by poly⟩

/-- bounds on a rational number -/
def RBnd (q : Rt) (B : Int) : Prop := |q.num| ≤ B ∧ |q.den| ≤ B

theorem coeffsAddRat_safe (hL : L < 2 ^ (x.w - 1)) (hB : 1 ≤ B) {l : Coeffs} {q : Rt} (hl : CBnd l B B B)
    (hq : RBnd q B) (h : 4 * B ^ 4 ≤ L) :
    Safe (x.coeffsAddRat l q) (fun t => CBnd t (2 * B ^ 2) (B ^ 2) (B ^ 2)) := by
  obtain ⟨_, _, _⟩ := hl
  obtain ⟨_, _⟩ := hq
  obtain ⟨_, _, _, _, _, _, _, _, _⟩ := pows hB
  unfold coeffsAddRat
  split
  · op_step
    exact Safe.pure ⟨by poly, by poly, by poly⟩
  · iterate 5 op_step
    exact Safe.pure ⟨by poly, by poly, by poly⟩

theorem coeffsSubRat_safe (hL : L < 2 ^ (x.w - 1)) (hB : 1 ≤ B) {l : Coeffs} {q : Rt} (hl : CBnd l B B B)
    (hq : RBnd q B) (h : 4 * B ^ 4 ≤ L) :
    Safe (x.coeffsSubRat l q) (fun t => CBnd t (2 * B ^ 2) (B ^ 2) (B ^ 2)) := by
  obtain ⟨_, _, _⟩ := hl
  obtain ⟨_, _⟩ := hq
  obtain ⟨_, _, _, _, _, _, _, _, _⟩ := pows hB
  unfold coeffsSubRat
  split
  · op_step
    exact Safe.pure ⟨by poly, by poly, by poly⟩
  · iterate 5 op_step
    exact Safe.pure ⟨by poly, by poly, by poly⟩

theorem coeffsMulRat_safe (hL : L < 2 ^ (x.w - 1)) (hB : 1 ≤ B) {l : Coeffs} {q : Rt} (hl : CBnd l B B B)
    (hq : RBnd q B) (h : 4 * B ^ 4 ≤ L) :
    Safe (x.coeffsMulRat l q) (fun t => CBnd t (B ^ 2) (B ^ 2) (B ^ 2)) := by
  obtain ⟨_, _, _⟩ := hl
  obtain ⟨_, _⟩ := hq
  obtain ⟨_, _, _, _, _, _, _, _, _⟩ := pows hB
  unfold coeffsMulRat
  iterate 3 op_step
  exact Safe.pure ⟨by poly, by poly, by poly⟩

theorem coeffsDivRat_safe (hL : L < 2 ^ (x.w - 1)) (hB : 1 ≤ B) {l : Coeffs} {q : Rt} (hl : CBnd l B B B)
    (hq : RBnd q B) (h : 4 * B ^ 4 ≤ L) :
    Safe (x.coeffsDivRat l q) (fun t => CBnd t (B ^ 2) (B ^ 2) (B ^ 2)) := by
  obtain ⟨_, _, _⟩ := hl
  obtain ⟨_, _⟩ := hq
  obtain ⟨_, _, _, _, _, _, _, _, _⟩ := pows hB
  unfold coeffsDivRat
  iterate 3 op_step
  exact Safe.pure ⟨by poly, by poly, by poly⟩

theorem coeffsAddInt_safe (hL : L < 2 ^ (x.w - 1)) (hB : 1 ≤ B) {l : Coeffs} {k : Int} (hl : CBnd l B B B)
    (hk : |k| ≤ B) (h : 4 * B ^ 4 ≤ L) :
    Safe (x.coeffsAddInt l k) (fun t => CBnd t (2 * B ^ 2) (B ^ 2) (B ^ 2)) := by
  obtain ⟨_, _, _⟩ := hl
  obtain ⟨_, _, _, _, _, _, _, _, _⟩ := pows hB
  unfold coeffsAddInt
  iterate 2 op_step
  exact Safe.pure ⟨by poly, by poly, by poly⟩

theorem coeffsSubInt_safe (hL : L < 2 ^ (x.w - 1)) (hB : 1 ≤ B) {l : Coeffs} {k : Int} (hl : CBnd l B B B)
    (hk : |k| ≤ B) (h : 4 * B ^ 4 ≤ L) :
    Safe (x.coeffsSubInt l k) (fun t => CBnd t (2 * B ^ 2) (B ^ 2) (B ^ 2)) := by
  obtain ⟨_, _, _⟩ := hl
  obtain ⟨_, _, _, _, _, _, _, _, _⟩ := pows hB
  unfold coeffsSubInt
  iterate 2 op_step
  exact Safe.pure ⟨by poly, by poly, by poly⟩

theorem coeffsMulInt_safe (hL : L < 2 ^ (x.w - 1)) (hB : 1 ≤ B) {l : Coeffs} {k : Int} (hl : CBnd l B B B)
    (hk : |k| ≤ B) (h : 4 * B ^ 4 ≤ L) :
    Safe (x.coeffsMulInt l k) (fun t => CBnd t (2 * B ^ 2) (B ^ 2) (B ^ 2)) := by
  obtain ⟨_, _, _⟩ := hl
  obtain ⟨_, _, _, _, _, _, _, _, _⟩ := pows hB
  unfold coeffsMulInt
  iterate 2 op_step
  exact Safe.pure ⟨by poly, by poly, by poly⟩

theorem coeffsDivInt_safe (hL : L < 2 ^ (x.w - 1)) (hB : 1 ≤ B) {l : Coeffs} {k : Int} (hl : CBnd l B B B)
    (hk : |k| ≤ B) (h : 4 * B ^ 4 ≤ L) :
    Safe (x.coeffsDivInt l k) (fun t => CBnd t (2 * B ^ 2) (B ^ 2) (B ^ 2)) := by
  obtain ⟨_, _, _⟩ := hl
  obtain ⟨_, _, _, _, _, _, _, _, _⟩ := pows hB
  unfold coeffsDivInt
  iterate 1 op_step
  exact Safe.pure ⟨by poly, by poly, by poly⟩

/-! ### constructors -/

theorem fromCoeffs_safe (hL : L < 2 ^ (x.w - 1)) (cfg : Cfg) {t : Coeffs} {r A Bb C R S : Int} (ht : CBnd t A Bb C)
    (hr : |r| ≤ R) (hS : 1 ≤ S) (hR : R ≤ S * S) (hSL : S * S ≤ L) (hA : A + Bb * S ≤ L) (hC : C * C ≤ L) :
    Safe (x.fromCoeffs cfg t r) (fun u => Bnd u (A + Bb * S) Bb C R) := by
  have hb0 := (abs_nonneg _).trans ht.2.1
  have ha0 := (abs_nonneg _).trans ht.1
  have hbS : 0 ≤ Bb * S := mul_nonneg hb0 (by linarith)
  have hbS' : Bb ≤ Bb * S := by nlinarith
  unfold fromCoeffs
  split
  · exact Safe.err (by decide)
  · exact reduce_safe hL ⟨ht.1, ht.2.1, ht.2.2, hr⟩ (by linarith) hR hSL (by linarith) hA (by linarith)
      (by linarith) hC (fun _ _ => le_rfl)

theorem surdNew_safe (hL : L < 2 ^ (x.w - 1)) (cfg : Cfg) {a b c r A Bb C R S : Int} (ht : CBnd ⟨a, b, c⟩ A Bb C)
    (hr : |r| ≤ R) (hS : 1 ≤ S) (hR : R ≤ S * S) (hSL : S * S ≤ L) (hA : A + Bb * S ≤ L) (hC : C * C ≤ L) :
    Safe (x.surdNew cfg a b c r) (fun u => Bnd u (A + Bb * S) Bb C R) :=
  fromCoeffs_safe hL cfg ht hr hS hR hSL hA hC

/-- roots that are not squares: nothing grows -/
theorem fromCoeffs_safe_irr (hL : L < 2 ^ (x.w - 1)) (cfg : Cfg) {t : Coeffs} {r A Bb C R S : Int} (ht : CBnd t A Bb C)
    (hr : |r| ≤ R) (hn : ¬ IsSquare r) (hS : 1 ≤ S) (hR : R ≤ S * S) (hSL : S * S ≤ L) (hA : A ≤ L) (hB : Bb * S ≤ L)
    (hC : C * C ≤ L) : Safe (x.fromCoeffs cfg t r) (fun u => Bnd u A Bb C R) := by
  have hb0 := (abs_nonneg _).trans ht.2.1
  have hbS' : Bb ≤ Bb * S := by nlinarith
  unfold fromCoeffs
  split
  · exact Safe.err (by decide)
  · exact reduce_safe hL ⟨ht.1, ht.2.1, ht.2.2, hr⟩ (by linarith) hR hSL le_rfl hA (by linarith)
      (by linarith) hC (fun k hk => absurd ⟨k, hk.symm⟩ hn)

theorem fromRationals_safe (hL : L < 2 ^ (x.w - 1)) (hB : 1 ≤ B) (cfg : Cfg) {a b r : Rt} (ha : RBnd a B) (hb : RBnd b B)
    (hr : RBnd r B) (h : 2 * B ^ 6 ≤ L) : Safe (x.fromRationals cfg a b r) (fun _ => True) := by
  obtain ⟨_, _⟩ := ha
  obtain ⟨_, _⟩ := hb
  obtain ⟨_, _⟩ := hr
  obtain ⟨_, _, _, _, _, _, _, _, _⟩ := pows hB
  unfold fromRationals
  split
  · exact Safe.err (by decide)
  · op_step
    op_step
    op_step
    op_step
    op_step
    rename_i h1 _ h2 _ h3 _ h4 _ h5
    exact (reduce_safe (A' := B ^ 3 + B ^ 3) hL ⟨h3, h4, h5, h1⟩ (S := B) (by poly) (by poly) (by poly) (by poly)
      (by poly) (by poly) (by poly) (by poly) (fun _ _ => by poly)).mono fun _ _ => trivial

theorem ratio_safe (hL : L < 2 ^ (x.w - 1)) (hB : 1 ≤ B) {n d : Int} (hn : |n| ≤ B) (hd : |d| ≤ B) (h : B ≤ L) :
    Safe (x.ratio n d) (fun q => RBnd q B) := by
  have h0 : |(0 : Int)| ≤ 0 := by simp
  have hB0 : (0 : Int) ≤ B := by linarith
  unfold ratio
  split
  · exact Safe.err (by decide)
  · split
    · exact Safe.pure ⟨by simpa using hB0, by simpa using hB⟩
    · split
      · exact Safe.pure ⟨by simpa using hB, by simpa using hB⟩
      · refine (gcd_safe hL hn hd h h).bind fun g _ => ?_
        refine (div_safe hL hn h).bind fun n' hn' => ?_
        refine (div_safe hL hd h).bind fun d' hd' => ?_
        split
        · refine (sub_safe hL h0 hn' (by linarith)).bind fun n'' hn'' => ?_
          refine (sub_safe hL h0 hd' (by linarith)).bind fun d'' hd'' => ?_
          exact Safe.pure ⟨by simpa using hn'', by simpa using hd''⟩
        · exact Safe.pure ⟨hn', hd'⟩

/-! ### unary operations -/

/-- `recip` of a surd with fields up to `D` and root up to `B` -/
theorem recip_safe (hL : L < 2 ^ (x.w - 1)) (hB : 1 ≤ B) (cfg : Cfg) {s : Surd} {D : Int} (hD : 1 ≤ D)
    (hs : Bnd s D D D B) (hBL : B * B ≤ L) (h : (D * D * B + D * D) * (D * D * B + D * D) ≤ L) :
    Safe (x.recip cfg s) (fun _ => True) := by
  obtain ⟨_, _, _, _⟩ := hs
  have hDD : 1 ≤ D * D := by nlinarith
  have hDB : D * D ≤ D * D * B := by nlinarith
  have hS : D * D * B + D * D ≤ L := by nlinarith
  unfold recip
  refine (mul_safe (by assumption) (by assumption) (by assumption) (by linarith)).bind fun aa h1 => ?_
  refine (mul_safe (by assumption) (by assumption) (by assumption) (by linarith)).bind fun bb h2 => ?_
  refine (mul_safe (by assumption) (by assumption) (by assumption) (by linarith)).bind fun t1 h3 => ?_
  refine (neg_safe (by assumption) h3 (by linarith)).bind fun a h4 => ?_
  refine (mul_safe (by assumption) (by assumption) (by assumption) (by linarith)).bind fun b h5 => ?_
  refine (mul_safe (by assumption) h2 (by assumption) (by linarith)).bind fun t2 h6 => ?_
  refine (sub_safe (by assumption) h6 h1 (by linarith)).bind fun c h7 => ?_
  exact (surdNew_safe hL cfg (S := B) ⟨h4, h5, h7⟩ (by assumption) hB (by nlinarith) hBL (by linarith) h).mono
    fun _ _ => trivial

theorem surdNeg_safe (hL : L < 2 ^ (x.w - 1)) {s : Surd} {A Bb C R : Int} (hs : Bnd s A Bb C R) (hA : A ≤ L)
    (hB : Bb ≤ L) : Safe (x.surdNeg s) (fun t => Bnd t A Bb C R) := by
  obtain ⟨h1, h2, h3, h4⟩ := hs
  unfold surdNeg
  refine (neg_safe hL h1 hA).bind fun a ha => ?_
  refine (neg_safe hL h2 hB).bind fun b hb => ?_
  exact Safe.pure ⟨ha, hb, h3, h4⟩

theorem conj_safe (hL : L < 2 ^ (x.w - 1)) {s : Surd} {A Bb C R : Int} (hs : Bnd s A Bb C R)
    (hB : Bb ≤ L) : Safe (x.conj s) (fun t => Bnd t A Bb C R) := by
  obtain ⟨h1, h2, h3, h4⟩ := hs
  unfold conj
  refine (neg_safe hL h2 hB).bind fun b hb => ?_
  exact Safe.pure ⟨h1, hb, h3, h4⟩

theorem abs_sign_le (b : Int) : |b.sign| ≤ 1 := by
  rcases lt_trichotomy b 0 with h | h | h
  · rw [Int.sign_eq_neg_one_of_neg h]; simp
  · subst h; simp
  · rw [Int.sign_eq_one_of_pos h]; simp

theorem trunc_safe (hL : L < 2 ^ (x.w - 1)) (hB : 1 ≤ B) (cfg : Cfg) {s : Surd} (hs : Bnd s B B B B)
    (h : 2 * B ^ 3 ≤ L) : Safe (x.trunc cfg s) (fun t => Bnd t (B + B ^ 2) (B ^ 2) 1 1) := by
  obtain ⟨_, _, _, _⟩ := hs
  obtain ⟨_, _, _, _, _, _, _, _, _⟩ := pows hB
  have hsg := abs_sign_le s.b
  have h1 : |(1 : Int)| ≤ 1 := by simp
  unfold trunc
  split
  · iterate 3 op_step
    rename_i t3 h3
    refine (sqrtR_safe (S := B ^ 2) (by poly) (h3.trans (by poly))).bind fun q hq => ?_
    obtain ⟨hq, _⟩ := hq
    op_step
    rename_i hbr
    refine (div_safe hL (by assumption) (by poly)).bind fun u hu => ?_
    refine (div_safe hL hbr (by poly)).bind fun v hv => ?_
    refine (neg_safe hL h1 (by poly)).bind fun m hm => ?_
    refine (fromCoeffs_safe hL cfg (t := ⟨u, v, 1⟩) (S := 1) ⟨hu, hv, h1⟩ hm (by poly) (by poly) (by poly) (by poly)
      (by poly)).mono fun t ht => ht.mono (by poly) (by poly) le_rfl le_rfl
  · iterate 2 op_step
    rename_i t3 h3
    refine (sqrtR_safe (S := B ^ 2) (by poly) (h3.trans (by poly))).bind fun q hq => ?_
    obtain ⟨hq, _⟩ := hq
    op_step
    op_step
    rename_i hu
    refine (div_safe hL hu (by poly)).bind fun u hu => ?_
    refine Safe.pure ⟨hu.trans (by poly), ?_, ?_, ?_⟩
    · show |(0 : Int)| ≤ _; rw [abs_zero]; poly
    · exact h1
    · show |(0 : Int)| ≤ _; simp

theorem panicIfComplex_safe (cfg : Cfg) (s : Surd) : Safe (s.panicIfComplex cfg) (fun _ => True) := by
  unfold Surd.panicIfComplex
  split
  · exact Safe.err (by decide)
  · exact Safe.pure trivial

theorem toInteger_safe (hL : L < 2 ^ (x.w - 1)) (hB : 1 ≤ B) (cfg : Cfg) {s : Surd} (hs : Bnd s B B B B)
    (h : 2 * B ^ 3 ≤ L) : Safe (x.toInteger cfg s) (fun _ => True) := by
  unfold toInteger
  refine (panicIfComplex_safe cfg s).bind fun _ _ => ?_
  split
  · exact Safe.pure trivial
  · exact (trunc_safe hL hB cfg hs h).bind fun _ _ => Safe.pure trivial

theorem toRational_safe (hL : L < 2 ^ (x.w - 1)) (hB : 1 ≤ B) (cfg : Cfg) {s : Surd} (hs : Bnd s B B B B)
    (h : 2 * B ^ 3 ≤ L) : Safe (x.toRational cfg s) (fun _ => True) := by
  obtain ⟨_, _, _, _⟩ := hs
  obtain ⟨_, _, _, _, _, _, _, _, _⟩ := pows hB
  unfold toRational
  refine (panicIfComplex_safe cfg s).bind fun _ _ => ?_
  split
  · exact Safe.pure trivial
  · iterate 2 op_step
    rename_i t3 h3
    refine (sqrtR_safe (S := B ^ 2) (by poly) (h3.trans (by poly))).bind fun q hq => ?_
    obtain ⟨hq, _⟩ := hq
    op_step
    exact Safe.pure trivial

theorem floor_safe (hL : L < 2 ^ (x.w - 1)) (hB : 1 ≤ B) (cfg : Cfg) {s : Surd} (hs : Bnd s B B B B)
    (h : 5 * B ^ 3 ≤ L) : Safe (x.floor cfg s) (fun _ => True) := by
  obtain ⟨ha, _, hc, _⟩ := hs
  obtain ⟨_, _, _, _, _, _, _, _, _⟩ := pows hB
  have h1 : |(1 : Int)| ≤ 1 := by simp
  unfold floor
  refine (panicIfComplex_safe cfg s).bind fun _ _ => ?_
  iterate 2 op_step
  rename_i t3 h3
  refine (sqrtR_safe (S := B ^ 2) (by poly) (h3.trans (by poly))).bind fun q hq => ?_
  obtain ⟨hq, _⟩ := hq
  refine Safe.bind (P := fun n => |n| ≤ B + B ^ 2 + 1) ?_ fun n hn => ?_
  · split
    · exact (add_safe hL ha hq (by poly)).mono fun _ h => h.trans (by poly)
    · refine (sub_safe hL ha hq (by poly)).bind fun t ht => ?_
      exact sub_safe hL ht h1 (by poly)
  refine Safe.bind (P := fun n => |n| ≤ B + B ^ 2 + 1 + B + 1) ?_ fun n hn => ?_
  · split
    · exact Safe.pure (hn.trans (by poly))
    · refine (sub_safe hL hn hc (by poly)).bind fun t ht => ?_
      exact add_safe hL ht h1 (by poly)
  refine (div_safe hL hn (by poly)).bind fun _ _ => Safe.pure trivial

theorem cmpSquares_safe (hL : L < 2 ^ (x.w - 1)) (hB : 1 ≤ B) {s : Surd} (hs : Bnd s B B B B)
    (h : B ^ 3 ≤ L) (less : Bool) : Safe (x.cmpSquares s less) (fun _ => True) := by
  obtain ⟨_, _, _, _⟩ := hs
  obtain ⟨_, _, _, _, _, _, _, _, _⟩ := pows hB
  unfold cmpSquares
  iterate 3 op_step
  exact Safe.pure trivial

theorem isPositive_safe (hL : L < 2 ^ (x.w - 1)) (hB : 1 ≤ B) (cfg : Cfg) {s : Surd} (hs : Bnd s B B B B)
    (h : B ^ 3 ≤ L) : Safe (x.isPositive cfg s) (fun _ => True) := by
  unfold isPositive
  refine (panicIfComplex_safe cfg s).bind fun _ _ => ?_
  repeat' split
  all_goals first | exact Safe.pure trivial | exact cmpSquares_safe hL hB hs h _

theorem isNegative_safe (hL : L < 2 ^ (x.w - 1)) (hB : 1 ≤ B) (cfg : Cfg) {s : Surd} (hs : Bnd s B B B B)
    (h : B ^ 3 ≤ L) : Safe (x.isNegative cfg s) (fun _ => True) := by
  unfold isNegative
  refine (panicIfComplex_safe cfg s).bind fun _ _ => ?_
  repeat' split
  all_goals first | exact Safe.pure trivial | exact cmpSquares_safe hL hB hs h _

theorem eq_safe (hL : L < 2 ^ (x.w - 1)) (hB : 1 ≤ B) {l r : Surd} (hl : Bnd l B B B B) (hr : Bnd r B B B B)
    (h : B ^ 5 ≤ L) : Safe (x.eq l r) (fun _ => True) := by
  obtain ⟨_, _, _, _⟩ := hl
  obtain ⟨_, _, _, _⟩ := hr
  obtain ⟨_, _, _, _, _, _, _, _, _⟩ := pows hB
  unfold eq
  split
  · exact Safe.pure trivial
  · split
    · exact Safe.pure trivial
    · op_step
      op_step
      split
      · exact Safe.pure trivial
      · iterate 8 op_step
        exact Safe.pure trivial

/-! ### binary operations -/

/-- bounds on a surd after its root was reduced by a hint -/
def HBnd (s : Surd) (B : Int) : Prop := CBnd s.coeffs B (B ^ 2) B ∧ |s.r| ≤ B ∧ s.b * s.b ≤ B ^ 3

theorem Bnd.hinted {s : Surd} (hB : 1 ≤ B) (hs : Bnd s B B B B) : HBnd s B := by
  obtain ⟨_, _, _, _⟩ := pows hB
  obtain ⟨ha, hb, hc, hr⟩ := hs
  refine ⟨⟨ha, hb.trans (by linarith), hc⟩, hr, ?_⟩
  have := abs_le.mp (abs_mul_le hb hb)
  linarith

theorem hinted_safe (hL : L < 2 ^ (x.w - 1)) {s : Surd} {h : Int} (hs : Bnd s B B B B) (hh : |h| ≤ B)
    (hB : 1 ≤ B) (hBB : B ^ 2 ≤ L) : Safe (x.reduceRootHinted s h) (fun t => HBnd t B) :=
  (reduceRootHinted_safe hL hs hh hB (by linarith)).mono fun t ht =>
    ⟨⟨ht.1.1, ht.1.2.1.trans (by linarith), ht.1.2.2.1⟩, ht.1.2.2.2, by linarith [ht.2]⟩

theorem sameRoot_bnd {p q : Surd × Surd} (h : sameRoot p = some q) : q = p ∧ p.1.r = p.2.r := by
  unfold sameRoot at h
  split at h
  · cases h; exact ⟨rfl, by assumption⟩
  · cases h

theorem reduceBinOp_safe (hL : L < 2 ^ (x.w - 1)) (hB : 1 ≤ B) (cfg : Cfg) {l r : Surd} (hl : Bnd l B B B B)
    (hr : Bnd r B B B B) (hBB : B ^ 2 ≤ L) :
    Safe (x.reduceBinOp cfg l r) (fun o => ∀ p, o = some p → HBnd p.1 B ∧ HBnd p.2 B ∧ p.1.r = p.2.r) := by
  have hl' := hl.hinted hB
  have hr' := hr.hinted hB
  have hBL : B ≤ L := by nlinarith
  have fin : ∀ a b : Surd, HBnd a B → HBnd b B → Safe (.ok (sameRoot (a, b)) : Res (Option (Surd × Surd)))
      (fun o => ∀ p, o = some p → HBnd p.1 B ∧ HBnd p.2 B ∧ p.1.r = p.2.r) := by
    intro a b ha hb
    refine Safe.pure fun p hp => ?_
    obtain ⟨rfl, h⟩ := sameRoot_bnd hp
    exact ⟨ha, hb, h⟩
  unfold reduceBinOp
  split
  · split
    · exact Safe.pure fun p hp => by cases hp
    · refine (abs_safe hL hl.2.2.2 hBL).bind fun _ _ => ?_
      refine (abs_safe hL hr.2.2.2 hBL).bind fun _ _ => ?_
      split
      · refine (div_safe hL hl.2.2.2 hBL).bind fun hint hh => ?_
        exact (hinted_safe hL hl hh hB hBB).bind fun t ht => fin _ _ ht hr'
      · refine (abs_safe hL hr.2.2.2 hBL).bind fun _ _ => ?_
        refine (abs_safe hL hl.2.2.2 hBL).bind fun _ _ => ?_
        split
        · refine (div_safe hL hr.2.2.2 hBL).bind fun hint hh => ?_
          exact (hinted_safe hL hr hh hB hBB).bind fun t ht => fin _ _ hl' ht
        · exact fin _ _ hl' hr'
  · split
    · exact Safe.err (by decide)
    · split
      · refine (div_safe hL hl.2.2.2 hBL).bind fun hint hh => ?_
        exact (hinted_safe hL hl hh hB hBB).bind fun t ht => fin _ _ ht hr'
      · split
        · refine (div_safe hL hr.2.2.2 hBL).bind fun hint hh => ?_
          exact (hinted_safe hL hr hh hB hBB).bind fun t ht => fin _ _ hl' ht
        · exact fin _ _ hl' hr'

theorem reduceBinOpUnwrap_safe (hL : L < 2 ^ (x.w - 1)) (hB : 1 ≤ B) (cfg : Cfg) {l r : Surd} (hl : Bnd l B B B B)
    (hr : Bnd r B B B B) (hBB : B ^ 2 ≤ L) :
    Safe (x.reduceBinOpUnwrap cfg l r) (fun p => HBnd p.1 B ∧ HBnd p.2 B ∧ p.1.r = p.2.r) := by
  unfold reduceBinOpUnwrap
  refine (reduceBinOp_safe hL hB cfg hl hr hBB).bind fun o ho => ?_
  split
  · exact Safe.pure (ho _ rfl)
  · exact Safe.err (by decide)

/-- an operation on the coefficients followed by normalisation -/
theorem forward_safe (hL : L < 2 ^ (x.w - 1)) (hB : 1 ≤ B) (cfg : Cfg) {s : Surd} {op : Res Coeffs} {A Bb C : Int}
    (hop : Safe op (fun t => CBnd t A Bb C)) (hr : |s.r| ≤ B) (hBB : B ^ 2 ≤ L) (hA : A + Bb * B ≤ L) (hC : C * C ≤ L) :
    Safe (x.forward cfg s op) (fun u => Bnd u (A + Bb * B) Bb C B) :=
  hop.bind fun _ ht => fromCoeffs_safe hL cfg ht hr hB (by nlinarith) (by linarith) hA hC

theorem Bnd.coeffs {s : Surd} (hs : Bnd s B B B B) : CBnd s.coeffs B B B := ⟨hs.1, hs.2.1, hs.2.2.1⟩

theorem surdAddInt_safe (hL : L < 2 ^ (x.w - 1)) (hB : 1 ≤ B) (cfg : Cfg) {s : Surd} {k : Int} (hs : Bnd s B B B B)
    (hk : |k| ≤ B) (h : 4 * B ^ 4 ≤ L) : Safe (x.surdAddInt cfg s k) (fun _ => True) := by
  obtain ⟨_, _, _, _, _, _, _, _, _⟩ := pows hB
  exact (forward_safe hL hB cfg (coeffsAddInt_safe hL hB hs.coeffs hk h) hs.2.2.2 (by poly) (by poly) (by poly)).mono
    fun _ _ => trivial

theorem surdSubInt_safe (hL : L < 2 ^ (x.w - 1)) (hB : 1 ≤ B) (cfg : Cfg) {s : Surd} {k : Int} (hs : Bnd s B B B B)
    (hk : |k| ≤ B) (h : 4 * B ^ 4 ≤ L) : Safe (x.surdSubInt cfg s k) (fun _ => True) := by
  obtain ⟨_, _, _, _, _, _, _, _, _⟩ := pows hB
  exact (forward_safe hL hB cfg (coeffsSubInt_safe hL hB hs.coeffs hk h) hs.2.2.2 (by poly) (by poly) (by poly)).mono
    fun _ _ => trivial

theorem surdMulInt_safe (hL : L < 2 ^ (x.w - 1)) (hB : 1 ≤ B) (cfg : Cfg) {s : Surd} {k : Int} (hs : Bnd s B B B B)
    (hk : |k| ≤ B) (h : 4 * B ^ 4 ≤ L) : Safe (x.surdMulInt cfg s k) (fun _ => True) := by
  obtain ⟨_, _, _, _, _, _, _, _, _⟩ := pows hB
  exact (forward_safe hL hB cfg (coeffsMulInt_safe hL hB hs.coeffs hk h) hs.2.2.2 (by poly) (by poly) (by poly)).mono
    fun _ _ => trivial

theorem surdDivInt_safe (hL : L < 2 ^ (x.w - 1)) (hB : 1 ≤ B) (cfg : Cfg) {s : Surd} {k : Int} (hs : Bnd s B B B B)
    (hk : |k| ≤ B) (h : 4 * B ^ 4 ≤ L) : Safe (x.surdDivInt cfg s k) (fun _ => True) := by
  obtain ⟨_, _, _, _, _, _, _, _, _⟩ := pows hB
  exact (forward_safe hL hB cfg (coeffsDivInt_safe hL hB hs.coeffs hk h) hs.2.2.2 (by poly) (by poly) (by poly)).mono
    fun _ _ => trivial

theorem surdAddRat_safe (hL : L < 2 ^ (x.w - 1)) (hB : 1 ≤ B) (cfg : Cfg) {s : Surd} {q : Rt} (hs : Bnd s B B B B)
    (hq : RBnd q B) (h : 4 * B ^ 4 ≤ L) :
    Safe (x.surdAddRat cfg s q) (fun u => Bnd u (2 * B ^ 2 + B ^ 2 * B) (B ^ 2) (B ^ 2) B) := by
  obtain ⟨_, _, _, _, _, _, _, _, _⟩ := pows hB
  exact forward_safe hL hB cfg (coeffsAddRat_safe hL hB hs.coeffs hq h) hs.2.2.2 (by poly) (by poly) (by poly)

theorem surdSubRat_safe (hL : L < 2 ^ (x.w - 1)) (hB : 1 ≤ B) (cfg : Cfg) {s : Surd} {q : Rt} (hs : Bnd s B B B B)
    (hq : RBnd q B) (h : 4 * B ^ 4 ≤ L) :
    Safe (x.surdSubRat cfg s q) (fun u => Bnd u (2 * B ^ 2 + B ^ 2 * B) (B ^ 2) (B ^ 2) B) := by
  obtain ⟨_, _, _, _, _, _, _, _, _⟩ := pows hB
  exact forward_safe hL hB cfg (coeffsSubRat_safe hL hB hs.coeffs hq h) hs.2.2.2 (by poly) (by poly) (by poly)

theorem surdMulRat_safe (hL : L < 2 ^ (x.w - 1)) (hB : 1 ≤ B) (cfg : Cfg) {s : Surd} {q : Rt} (hs : Bnd s B B B B)
    (hq : RBnd q B) (h : 4 * B ^ 4 ≤ L) :
    Safe (x.surdMulRat cfg s q) (fun u => Bnd u (B ^ 2 + B ^ 2 * B) (B ^ 2) (B ^ 2) B) := by
  obtain ⟨_, _, _, _, _, _, _, _, _⟩ := pows hB
  exact forward_safe hL hB cfg (coeffsMulRat_safe hL hB hs.coeffs hq h) hs.2.2.2 (by poly) (by poly) (by poly)

theorem surdDivRat_safe (hL : L < 2 ^ (x.w - 1)) (hB : 1 ≤ B) (cfg : Cfg) {s : Surd} {q : Rt} (hs : Bnd s B B B B)
    (hq : RBnd q B) (h : 4 * B ^ 4 ≤ L) :
    Safe (x.surdDivRat cfg s q) (fun u => Bnd u (B ^ 2 + B ^ 2 * B) (B ^ 2) (B ^ 2) B) := by
  obtain ⟨_, _, _, _, _, _, _, _, _⟩ := pows hB
  exact forward_safe hL hB cfg (coeffsDivRat_safe hL hB hs.coeffs hq h) hs.2.2.2 (by poly) (by poly) (by poly)

theorem surdAdd_safe (hL : L < 2 ^ (x.w - 1)) (hB : 1 ≤ B) (cfg : Cfg) {l r : Surd} (hl : Bnd l B B B B)
    (hr : Bnd r B B B B) (h : 4 * B ^ 4 ≤ L) : Safe (x.surdAdd cfg l r) (fun _ => True) := by
  obtain ⟨_, _, _, _, _, _, _, _, _⟩ := pows hB
  unfold surdAdd
  split
  · refine (ratio_safe hL hB hr.1 hr.2.2.1 (by poly)).bind fun q hq => ?_
    exact (surdAddRat_safe hL hB cfg hl hq h).mono fun _ _ => trivial
  · split
    · refine (ratio_safe hL hB hl.1 hl.2.2.1 (by poly)).bind fun q hq => ?_
      exact (surdAddRat_safe hL hB cfg hr hq h).mono fun _ _ => trivial
    · refine (reduceBinOpUnwrap_safe hL hB cfg hl hr (by poly)).bind fun p hp => ?_
      obtain ⟨⟨h1, h2, h3⟩, ⟨h4, h5, h6⟩, _⟩ := hp
      exact (forward_safe hL hB cfg (coeffsAdd_safe hL hB h1 h4 h) h2 (by poly) (by poly) (by poly)).mono
        fun _ _ => trivial

theorem surdSub_safe (hL : L < 2 ^ (x.w - 1)) (hB : 1 ≤ B) (cfg : Cfg) {l r : Surd} (hl : Bnd l B B B B)
    (hr : Bnd r B B B B) (h : 4 * B ^ 4 ≤ L) : Safe (x.surdSub cfg l r) (fun _ => True) := by
  obtain ⟨_, _, _, _, _, _, _, _, _⟩ := pows hB
  unfold surdSub
  split
  · refine (ratio_safe hL hB hr.1 hr.2.2.1 (by poly)).bind fun q hq => ?_
    exact (surdSubRat_safe hL hB cfg hl hq h).mono fun _ _ => trivial
  · split
    · refine (ratio_safe hL hB hl.1 hl.2.2.1 (by poly)).bind fun q hq => ?_
      refine (surdSubRat_safe hL hB cfg hr hq h).bind fun d hd => ?_
      exact (surdNeg_safe hL hd (by poly) (by poly)).mono fun _ _ => trivial
    · refine (reduceBinOpUnwrap_safe hL hB cfg hl hr (by poly)).bind fun p hp => ?_
      obtain ⟨⟨h1, h2, h3⟩, ⟨h4, h5, h6⟩, _⟩ := hp
      exact (forward_safe hL hB cfg (coeffsSub_safe hL hB h1 h4 h) h2 (by poly) (by poly) (by poly)).mono
        fun _ _ => trivial

theorem surdMul_safe (hL : L < 2 ^ (x.w - 1)) (hB : 1 ≤ B) (cfg : Cfg) {l r : Surd} (hl : Bnd l B B B B)
    (hr : Bnd r B B B B) (h : 4 * B ^ 4 ≤ L) : Safe (x.surdMul cfg l r) (fun _ => True) := by
  obtain ⟨_, _, _, _, _, _, _, _, _⟩ := pows hB
  unfold surdMul
  split
  · refine (ratio_safe hL hB hr.1 hr.2.2.1 (by poly)).bind fun q hq => ?_
    exact (surdMulRat_safe hL hB cfg hl hq h).mono fun _ _ => trivial
  · split
    · refine (ratio_safe hL hB hl.1 hl.2.2.1 (by poly)).bind fun q hq => ?_
      exact (surdMulRat_safe hL hB cfg hr hq h).mono fun _ _ => trivial
    · split
      · obtain ⟨_, h1, h2, h3⟩ := hl
        obtain ⟨_, h4, h5, h6⟩ := hr
        refine (gcd_safe hL h3 h6 (by poly) (by poly)).bind fun g hg => ?_
        rw [max_self] at hg
        refine (div_safe hL h3 (by poly)).bind fun t1 ht1 => ?_
        refine (div_safe hL h6 (by poly)).bind fun t2 ht2 => ?_
        refine (mul_safe hL ht1 ht2 (by poly)).bind fun d hd => ?_
        refine (mul_safe hL h1 h4 (by poly)).bind fun t3 ht3 => ?_
        refine (mul_safe hL ht3 hg (by poly)).bind fun b hb => ?_
        refine (mul_safe hL h2 h5 (by poly)).bind fun c hc => ?_
        exact (surdNew_safe (A := 0) hL cfg (S := B) ⟨by simp, hb, hc⟩ hd hB le_rfl (by poly) (by poly) (by poly)).mono
          fun _ _ => trivial
      · refine (reduceBinOpUnwrap_safe hL hB cfg hl hr (by poly)).bind fun p hp => ?_
        obtain ⟨⟨h1, h2, h3⟩, ⟨h4, h5, h6⟩, _⟩ := hp
        exact (forward_safe hL hB cfg (coeffsMul_safe hL hB h1 h4 h3 h6 h2 h) h2 (by poly) (by poly) (by poly)).mono
          fun _ _ => trivial

theorem surdDiv_safe (hL : L < 2 ^ (x.w - 1)) (hB : 1 ≤ B) (cfg : Cfg) {l r : Surd} (hl : Bnd l B B B B)
    (hr : Bnd r B B B B) (hn : r.r ≠ 0 → ¬ IsSquare r.r) (h : 4 * B ^ 10 ≤ L) :
    Safe (x.surdDiv cfg l r) (fun _ => True) := by
  obtain ⟨_, _, _, _, _, _, _, _, _⟩ := pows hB
  have h4 : 4 * B ^ 4 ≤ L := by poly
  unfold surdDiv
  split
  · refine (ratio_safe hL hB hr.1 hr.2.2.1 (by poly)).bind fun q hq => ?_
    exact (surdDivRat_safe hL hB cfg hl hq h4).mono fun _ _ => trivial
  · rename_i hir
    have hr0 : r.r ≠ 0 := by
      intro h0
      simp [Surd.isRational, h0] at hir
    split
    · refine (ratio_safe hL hB hl.1 hl.2.2.1 (by poly)).bind fun q hq => ?_
      have hd : Safe (x.surdDivRat cfg r q) (fun u => Bnd u (B ^ 2) (B ^ 2) (B ^ 2) B) :=
        (coeffsDivRat_safe hL hB hr.coeffs hq h4).bind fun _ ht =>
          fromCoeffs_safe_irr hL cfg ht hr.2.2.2 (hn hr0) (S := B) hB (by poly) (by poly) (by poly) (by poly) (by poly)
      refine hd.bind fun d hd => ?_
      exact recip_safe hL hB cfg (D := B ^ 2) (by poly) hd (by poly) (by poly)
    · split
      · obtain ⟨_, h1, h2, h3⟩ := hl
        obtain ⟨_, h4, h5, h6⟩ := hr
        refine (gcd_safe hL h3 h6 (by poly) (by poly)).bind fun g hg => ?_
        refine (div_safe hL h3 (by poly)).bind fun t1 ht1 => ?_
        refine (div_safe hL h6 (by poly)).bind fun t2 ht2 => ?_
        refine (mul_safe hL h1 h5 (by poly)).bind fun b hb => ?_
        refine (mul_safe hL h2 h4 (by poly)).bind fun t3 ht3 => ?_
        refine (mul_safe hL ht3 ht2 (by poly)).bind fun c hc => ?_
        refine (mul_safe hL ht1 ht2 (by poly)).bind fun d hd => ?_
        exact (surdNew_safe (A := 0) hL cfg (S := B) ⟨by simp, hb, hc⟩ hd hB le_rfl (by poly) (by poly) (by poly)).mono
          fun _ _ => trivial
      · refine (reduceBinOpUnwrap_safe hL hB cfg hl hr (by poly)).bind fun p hp => ?_
        obtain ⟨⟨h1, h2, h3⟩, ⟨h4, h5, h6⟩, _⟩ := hp
        exact (forward_safe hL hB cfg (coeffsDiv_safe hL hB h1 h4 h3 h6 h2 h) h2 (by poly) (by poly) (by poly)).mono
          fun _ _ => trivial

theorem fract_safe (hL : L < 2 ^ (x.w - 1)) (hB : 1 ≤ B) (cfg : Cfg) {s : Surd} (hs : Bnd s B B B B)
    (h : 64 * B ^ 8 ≤ L) : Safe (x.fract cfg s) (fun _ => True) := by
  obtain ⟨_, _, _, _, _, _, _, _, _⟩ := pows hB
  unfold fract
  refine (trunc_safe hL hB cfg hs (by poly)).bind fun t ht => ?_
  exact surdSub_safe hL (B := 2 * B ^ 2) (by poly) cfg (hs.mono (by poly) (by poly) (by poly) (by poly))
    (ht.mono (by poly) (by poly) (by poly) (by poly)) (by poly)

/-! ### conclusion -/

/-- a run that does not overflow gives the arbitrary-precision result whether or not overflow checks are compiled in -/
theorem run_eq {α : Type} {f : Fx → Res α} {b : Res α} {Q : α → Prop}
    (href : ∀ y : Fx, y.checks = true → Refines (f y) b)
    (hrel : ∀ y : Fx, y.checks = true → Refines (f y) (f y.rel))
    (hs : Safe (f ⟨x.w, true⟩) Q) : f x = b := by
  have h1 := (href ⟨x.w, true⟩ rfl).eq_of_safe hs
  obtain ⟨w, c⟩ := x
  cases c
  · have h2 := (hrel ⟨w, true⟩ rfl).eq_of_safe hs
    exact h2.symm.trans h1
  · exact h1

end Fx
end NumIrr
