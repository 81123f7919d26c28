/- Bounds under which `from_sqrt` and `reduced` over fixed-width integers do not overflow. -/
import Verif.Lemmas.FixedSqrt
import Verif.Lemmas.FixedRtSafe

namespace NumIrr
namespace Fx

variable {x : Fx} {L B : Int}

attribute [local irreducible] Fx.add Fx.sub Fx.mul Fx.neg Fx.div Fx.gcd Fx.ratio

/-- a step that does not overflow has the exact result -/
theorem _root_.NumIrr.Safe.exact {α : Type} {r : Res α} {v : α} {P : α → Prop} (h : Safe r P) (hr : Refines r (.ok v)) :
    Safe r (fun u => u = v) := safe_of_eq (hr.eq_of_safe h)

theorem of_bnd {q : Rat} {n d N D : Int} (hd : d ≠ 0) (h : q = (n : Rat) / d) (hn : |n| ≤ N) (hD : |d| ≤ D) :
    RBnd2 (.of q) N D := by
  rw [← Rat.divInt_eq_div] at h
  subst h
  constructor
  · show |(Rat.divInt n d).num| ≤ N
    by_cases h0 : n = 0
    · subst h0; simpa using hn
    · exact (Int.le_of_dvd (abs_pos.mpr h0) ((abs_dvd_abs _ _).mpr (Rat.num_dvd n hd))).trans hn
  · show |((Rat.divInt n d).den : Int)| ≤ D
    exact (Int.le_of_dvd (abs_pos.mpr hd) ((abs_dvd_abs _ _).mpr (Rat.den_dvd n d))).trans hD

/-- `new(0, 1, d, r)` does not overflow when `|r|` and `d²` fit -/
theorem newRoot_safe (hL : L < 2 ^ (x.w - 1)) (cfg : Cfg) {d r : Int} (hd : |d| ≤ L) (hdd : d * d ≤ L) (hr : |r| ≤ L)
    (h1 : 1 ≤ L) : Safe (x.surdNew cfg 0 1 d r) (fun t => Bnd t |r| 1 |d| |r|) := by
  unfold surdNew
  split
  · exact Safe.err (by decide)
  · unfold reduce
    split
    · exact Safe.err (by decide)
    · rename_i h0
      refine Safe.bind (P := fun t => Bnd t |r| 1 |d| |r| ∧ t.c = d) ?_ fun t ht => ?_
      · unfold reduceSquare
        refine (abs_safe hL hr le_rfl).bind fun m hm => ?_
        subst hm
        refine Safe.bind (P := fun u => 0 ≤ u ∧ u * u ≤ |r|) ?_ fun root hroot => ?_
        · unfold sqrtR
          split
          · exact Safe.err (by decide)
          · exact Safe.pure ⟨isqrt_nonneg _, isqrt_le _ (abs_nonneg _)⟩
        obtain ⟨hq0, hq1⟩ := hroot
        have hq2 : |root * root| ≤ L := by rw [abs_of_nonneg (mul_nonneg hq0 hq0)]; exact hq1.trans hr
        have hq3 : |root| ≤ L := by rw [abs_of_nonneg hq0]; nlinarith
        refine (mul_safe_eq hL hq2 le_rfl).bind fun sq hsq => ?_
        subst hsq
        split
        · rename_i he
          have hle : |root| ≤ |r| := by rw [abs_of_nonneg hq0]; nlinarith
          split
          · rename_i hneg
            have hneg' : r < 0 := hneg
            have he' : root * root = r := he
            nlinarith
          · refine (mul_safe_eq hL (K := L) (by simpa using hq3) le_rfl).bind fun t ht => ?_
            subst ht
            have ha : |(0 : Int)| ≤ 0 := by simp
            have hb : |1 * root| ≤ |r| := by simpa using hle
            refine (add_safe hL ha hb (by linarith)).bind fun a ha => ?_
            exact Safe.pure ⟨⟨by simpa using ha, by simp, le_rfl, by simp⟩, rfl⟩
        · exact Safe.pure ⟨⟨by simp, by simp, le_rfl, le_rfl⟩, rfl⟩
      · obtain ⟨ht, hc⟩ := ht
        have hc0 : t.c ≠ 0 := by rw [hc]; exact h0
        refine Safe.bind (P := fun t => Bnd t |r| 1 |d| |r|) ?_ fun t ht => reduceSign_safe hL ht hr h1 hd
        split
        · exact reduceRat_safe hL ht hc0 hr hd
        · exact reduceIrr_safe hL ht hc0 hr h1 (by rw [abs_mul_abs_self]; exact hdd) hd hr

/-- the exact `new(0, 1, d, r)` has no larger fields -/
theorem big_newRoot_bnd (cfg : Cfg) {d r : Int} {s : Surd} (h : Surd.new cfg 0 1 d r = .ok s) : Bnd s |r| 1 |d| |r| := by
  have hdd : |d| ≤ d * d := by
    rcases abs_cases d with ⟨h1, h2⟩ | ⟨h1, h2⟩ <;> rw [h1] <;> nlinarith
  have h0 := abs_nonneg r
  have hd0 := abs_nonneg d
  obtain ⟨L, hLe⟩ : ∃ L, L = d * d + |r| + 1 := ⟨_, rfl⟩
  have hL : L < 2 ^ ((⟨L.natAbs + 1, true⟩ : Fx).w - 1) := by
    show L < 2 ^ (L.natAbs + 1 - 1)
    rw [Nat.add_sub_cancel]
    have h1 : L.natAbs < 2 ^ L.natAbs := Nat.lt_two_pow_self
    have h2 : L ≤ (L.natAbs : Int) := Int.le_natAbs
    have h3 : ((L.natAbs : Nat) : Int) < ((2 ^ L.natAbs : Nat) : Int) := by exact_mod_cast h1
    push_cast at h3
    have h4 := le_abs_self L
    linarith
  have hs := newRoot_safe hL cfg (d := d) (r := r) (by linarith) (by linarith) (by linarith) (by linarith)
  have he := (surdNew_ref (x := ⟨L.natAbs + 1, true⟩) rfl cfg 0 1 d r).eq_of_safe hs
  exact hs.2 s (he.trans h)

/-- `reduce` of a surd with a non-square root leaves the perfect square step without a change -/
theorem reduceSquare_nonsq (hL : L < 2 ^ (x.w - 1)) {s : Surd} (hr : |s.r| ≤ L) (hsq : ¬ IsSquare s.r) :
    Safe (x.reduceSquare s) (fun t => t = s) := by
  unfold reduceSquare
  refine (abs_safe hL hr le_rfl).bind fun m hm => ?_
  subst hm
  refine Safe.bind (P := fun u => 0 ≤ u ∧ u * u ≤ |s.r|) ?_ fun root hroot => ?_
  · unfold sqrtR
    split
    · exact Safe.err (by decide)
    · exact Safe.pure ⟨isqrt_nonneg _, isqrt_le _ (abs_nonneg _)⟩
  refine (mul_safe_eq hL (K := L) (by
    rw [abs_of_nonneg (mul_nonneg hroot.1 hroot.1)]; exact hroot.2.trans hr) le_rfl).bind fun sq hs => ?_
  subst hs
  rw [if_neg (fun e => hsq ⟨_, e.symm⟩)]
  exact Safe.pure rfl

theorem reduce_nonsq (hL : L < 2 ^ (x.w - 1)) {s : Surd} {A B C R : Int} (hs : Bnd s A B C R) (hsq : ¬ IsSquare s.r)
    (hA : A ≤ L) (hB : B ≤ L) (hC : C * C ≤ L) (hR : R ≤ L) : Safe (x.reduce s) (fun t => Bnd t A B C R) := by
  have hCL : C ≤ L := by
    have := (abs_nonneg _).trans hs.2.2.1
    nlinarith
  unfold reduce
  split
  · exact Safe.err (by decide)
  · rename_i h0
    refine (reduceSquare_nonsq hL (hs.2.2.2.trans hR) hsq).bind fun t ht => ?_
    subst ht
    refine Safe.bind (P := fun t => Bnd t A B C R) ?_ fun t ht => reduceSign_safe hL ht hA hB hCL
    split
    · exact reduceRat_safe hL hs h0 hA hCL
    · exact reduceIrr_safe hL hs h0 hA hB hC hCL hR

/-- `new(0, 1, d, r)` panics if `d²` does not fit and `r` is not a square -/
theorem newRoot_overflow (hx : x.checks = true) (cfg : Cfg) {d r : Int} (hd : 0 < d) (hdL : d < 2 ^ (x.w - 1))
    (hdd : 2 ^ (x.w - 1) ≤ d * d) (hr : 0 ≤ r) (hrL : r < 2 ^ (x.w - 1)) (hsq : ¬ IsSquare r) :
    x.surdNew cfg 0 1 d r = .error .overflow := by
  have hL : (2 ^ (x.w - 1) - 1 : Int) < 2 ^ (x.w - 1) := by linarith
  have hr0 : r ≠ 0 := by rintro rfl; exact hsq ⟨0, by simp⟩
  have hnn : (if cfg.complex = false ∧ r < 0 then true else false) = false := by
    rw [if_neg]; rintro ⟨_, h⟩; omega
  have hsqr : x.reduceSquare ⟨0, 1, d, r⟩ = .ok ⟨0, 1, d, r⟩ := by
    have hs := reduceSquare_ref hx ⟨0, 1, d, r⟩
    have hb : Surd.reduceSquare ⟨0, 1, d, r⟩ = ⟨0, 1, d, r⟩ := by
      unfold Surd.reduceSquare
      dsimp only
      rw [if_neg]
      intro e
      exact hsq ⟨_, e.symm⟩
    rw [hb] at hs
    refine hs.resolve_right ?_
    exact (reduceSquare_nonsq (s := ⟨0, 1, d, r⟩) hL (by
      show |r| ≤ _
      rw [abs_of_nonneg hr]; linarith) hsq).1
  have hf : x.fits (d * d) = false := by
    simp only [fits, IntTy.signed, Bool.and_eq_false_iff, decide_eq_false_iff_not]
    right; linarith
  have hfd : x.fits d = true := by
    have : (0 : Int) < 2 ^ (x.w - 1) := by positivity
    simp only [fits, IntTy.signed, Bool.and_eq_true, decide_eq_true_eq]
    constructor <;> omega
  have hg : x.gcd 0 d = .ok d := by
    have e : igcd 0 d = d := by unfold igcd; rw [Int.gcd_zero_left]; omega
    unfold gcd ret
    rw [e, if_pos hfd]
  have hm : x.mul d d = .error .overflow := by
    unfold mul ret
    rw [hf, hx]; rfl
  unfold surdNew
  rw [if_neg (by rintro ⟨_, h⟩; omega)]
  unfold reduce
  rw [if_neg (by show ¬ d = 0; omega), hsqr, Surd.ok_bind]
  rw [if_neg (by
    show ¬ ((1 : Int) = 0 ∨ r = 0)
    omega)]
  unfold reduceIrr reduceFactor
  show (((x.gcd 0 d >>= _) >>= _) >>= _) = _
  rw [hg, Surd.ok_bind, hm]
  rfl

theorem fromSqrtRat_safe (hL : L < 2 ^ (x.w - 1)) (cfg : Cfg) {t : Rt} (h1 : 1 ≤ L) (hn : |t.num| ≤ L)
    (hd : |t.den| ≤ L) (hr : t.den ≠ 1 → |t.num * t.den| ≤ L) (hdd : t.den * t.den ≤ L) :
    Safe (x.fromSqrtRat cfg t) (fun o => ∀ e, o = .error e → e.kind = .complex ∧ cfg.complex = false ∧ rtIsNeg t = true) := by
  unfold fromSqrtRat
  split
  · rename_i hc
    refine Safe.pure ?_
    rintro e ⟨⟩
    exact ⟨rfl, hc⟩
  · split
    · refine (newRoot_safe hL cfg (by simpa using h1) (by simpa using h1) hn h1).bind fun s _ => Safe.pure ?_
      rintro e ⟨⟩
    · rename_i hd1
      have h := hr hd1
      have hf : x.fits (t.num * t.den) = true := by
        have h := abs_le.mp h
        simp only [fits, IntTy.signed, Bool.and_eq_true, decide_eq_true_eq]
        constructor <;> omega
      rw [if_pos hf]
      refine (newRoot_safe hL cfg hd hdd h h1).bind fun s _ => Safe.pure ?_
      rintro e ⟨⟩

theorem rtSubInt_safe (hL : L < 2 ^ (x.w - 1)) {p : Rt} {k N D K : Int} (hp : RBnd2 p N D) (hk : |k| ≤ K) (hN : 1 ≤ N)
    (hD : 1 ≤ D) (hK : 1 ≤ K) (h : N + D * K ≤ L) : Safe (x.rtSubInt p k) (fun _ => True) := by
  have h1 : D ≤ D * K := by nlinarith
  have h2 : 0 ≤ D * K := by nlinarith
  unfold rtSubInt
  refine (mul_safe hL hp.2 hk (by linarith)).bind fun t ht => ?_
  refine (sub_safe hL hp.1 ht h).bind fun n hn => ?_
  exact (ratio_safe2 hL hn hp.2 (by linarith) hD h (by linarith)).mono fun _ _ => trivial

theorem reconstruct_safe (hL : L < 2 ^ (x.w - 1)) (hx : x.checks = true) (hB : 1 ≤ B) (h : 12 * B ^ 8 ≤ L) (cfg : Cfg)
    {xy y : Rat} {r : Int} (k : SqrtErrKind) (hxy : RBnd2 (.of xy) B B) (hy : RBnd2 (.of y) B B)
    (ht : RBnd2 (.of (xy * y)) B B) (hr : |r| ≤ B) :
    Safe (x.reconstruct cfg (.of xy) (.of y) r k) (fun o => ∀ e, o = .error e → e.kind = k) := by
  obtain ⟨_, _, _, _, _, _, _, _, _⟩ := pows hB
  unfold reconstruct
  refine ((rtMul_safe hL hxy hy hB hB hB hB (by nlinarith) (by nlinarith)).exact (rtMul_ref hx xy y)).bind fun t e => ?_
  subst e
  refine (fromRationals_safe hL hB cfg ht hy (r := ⟨r, 1⟩) ⟨hr, by simpa using hB⟩ (by linarith)).bind fun s _ =>
    Safe.pure ?_
  rintro e ⟨⟩
  rfl

theorem getAbc_safe (hL : L < 2 ^ (x.w - 1)) (hB : 1 ≤ B) (h : 12 * B ^ 8 ≤ L) {g y : Rt}
    (hg : RBnd2 g (3 * B ^ 3) (B ^ 2)) (hy : RBnd2 y B B) (hy0 : y.num ≠ 0) :
    Safe (x.getAbc g y) (fun o => ∀ v, o = some v → |v.1| ≤ 3 * B ^ 4 ∧ |v.2.1| ≤ B ^ 3 ∧ |v.2.2| ≤ 3 * B ^ 4) := by
  obtain ⟨p1, p2, p3, p4, p5, p6, p7, p8, p9⟩ := pows hB
  obtain ⟨hg1, hg2⟩ := hg
  obtain ⟨hy1, hy2⟩ := hy
  have one : |(1 : Int)| ≤ 1 := by simp
  have q7 : B ^ 6 ≤ B ^ 7 := by nlinarith
  have q8 : B ^ 7 ≤ B ^ 8 := by nlinarith
  unfold getAbc
  refine (add_safe hL one one (by linarith)).bind fun two h2 => ?_
  refine (mul_safe hL h2 hg1 (by linarith)).bind fun t1 ht1 => ?_
  have e2 : (1 + 1) * (3 * B ^ 3) * B ^ 2 = 6 * B ^ 5 := by ring
  refine (mul_safe hL ht1 hg2 (by rw [e2]; linarith)).bind fun tab htab => ?_
  rw [e2] at htab
  refine (gcd_safe_right hL hy1 hy0 (by linarith)).bind fun d _ => ?_
  refine (div_safe hL hy1 (by linarith)).bind fun sc hsc => ?_
  have e3 : 6 * B ^ 5 * B = 6 * B ^ 6 := by ring
  refine (mul_safe hL htab hsc (by rw [e3]; linarith)).bind fun t2 ht2 => ?_
  have e4 : 6 * B ^ 5 * B * B = 6 * B ^ 7 := by ring
  refine (mul_safe hL ht2 hsc (by rw [e4]; linarith)).bind fun t3 ht3 => ?_
  have e5 : 6 * B ^ 5 * B * B * B = 6 * B ^ 8 := by ring
  refine (mul_safe hL ht3 hy2 (by rw [e5]; linarith)).bind fun t4 ht4 => ?_
  rw [e5] at ht4
  refine (div_safe hL ht4 (by linarith)).bind fun c2 hc2 => ?_
  have e6 : 3 * B ^ 3 * B = 3 * B ^ 4 := by ring
  refine (mul_safe hL hg1 hsc (by rw [e6]; linarith)).bind fun a ha => ?_
  have e7 : B ^ 2 * B = B ^ 3 := by ring
  refine (mul_safe hL hg2 hsc (by rw [e7]; linarith)).bind fun b hb => ?_
  rw [e6] at ha
  rw [e7] at hb
  split
  · refine Safe.pure ?_
    rintro v ⟨⟩
  · have hc2' : |c2| ≤ 3 * B ^ 4 * (3 * B ^ 4) := by nlinarith
    refine (sqrtR_safe (by positivity) hc2').bind fun c hc => ?_
    obtain ⟨hc1, hc3⟩ := hc
    have hcc : |c * c| ≤ 9 * B ^ 8 := by
      have := abs_mul_le hc1 hc1
      nlinarith
    refine (mul_safe_eq hL hcc (by linarith)).bind fun cc hcc' => ?_
    split
    · refine Safe.pure ?_
      rintro v ⟨⟩
    · refine Safe.pure ?_
      rintro v ⟨⟩
      exact ⟨ha, hb, hc1⟩

theorem sqrtResult_safe (hL : L < 2 ^ (x.w - 1)) (hB : 1 ≤ B) (h : 12 * B ^ 8 ≤ L) (cfg : Cfg) {r : Int} (hr : |r| ≤ B)
    {v : Int × Int × Int} (hv : |v.1| ≤ 3 * B ^ 4 ∧ |v.2.1| ≤ B ^ 3 ∧ |v.2.2| ≤ 3 * B ^ 4) :
    Safe (x.sqrtResult cfg r v) (fun o => ∃ s, o = .ok s) := by
  obtain ⟨p1, p2, p3, p4, p5, p6, p7, p8, p9⟩ := pows hB
  have q7 : B ^ 6 ≤ B ^ 7 := by nlinarith
  have q8 : B ^ 7 ≤ B ^ 8 := by nlinarith
  unfold sqrtResult
  refine (surdNew_safe hL cfg (S := B) (A := 3 * B ^ 4) (Bb := B ^ 3) (C := 3 * B ^ 4) (R := B) ⟨hv.1, hv.2.1, hv.2.2⟩ hr hB
    (by nlinarith) (by nlinarith) ?_ ?_).bind fun s _ => ?_
  · have : B ^ 3 * B = B ^ 4 := by ring
    linarith
  · have : 3 * B ^ 4 * (3 * B ^ 4) = 9 * B ^ 8 := by ring
    linarith
  · split
    · exact Safe.err (by decide)
    · exact Safe.pure ⟨s, rfl⟩

theorem fromSqrtFinish_safe (hL : L < 2 ^ (x.w - 1)) (hx : x.checks = true) (hB : 1 ≤ B) (h : 12 * B ^ 8 ≤ L) (cfg : Cfg)
    {a b c r : Int} {δ : Rat} (hc : c ≠ 0) (hb0 : b ≠ 0) (ha : |a| ≤ B) (hb : |b| ≤ B) (hcB : |c| ≤ B) (hr : |r| ≤ B)
    (hd : RBnd2 (.of δ) (2 * B ^ 2) B) :
    Safe (x.fromSqrtFinish cfg (.of ((a : Rat) / b)) (.of ((b : Rat) / c)) (.of δ) r)
      (fun o => ∀ e, o = .error e → e.kind = .unrepresentable) := by
  obtain ⟨p1, p2, p3, p4, p5, p6, p7, p8, p9⟩ := pows hB
  have hbQ : (b : Rat) ≠ 0 := by exact_mod_cast hb0
  have hcQ : (c : Rat) ≠ 0 := by exact_mod_cast hc
  have hdQ : ((δ.den : Int) : Rat) ≠ 0 := by exact_mod_cast δ.den_nz
  have hxy : RBnd2 (.of ((a : Rat) / b)) B B := of_bnd hb0 rfl ha hb
  have hy : RBnd2 (.of ((b : Rat) / c)) B B := of_bnd hc rfl hb hcB
  have ht : RBnd2 (.of ((a : Rat) / b * (b / c))) B B := of_bnd hc (by field_simp) ha hcB
  have hy0 : (Rt.of ((b : Rat) / c)).num ≠ 0 := by
    show ((b : Rat) / c).num ≠ 0
    rw [Ne, Rat.num_eq_zero]
    exact div_ne_zero hbQ hcQ
  have hpos : ∀ q : Rat, 0 < (Rt.of q).den := fun q => by
    show (0 : Int) < ((q.den : Nat) : Int)
    exact_mod_cast q.den_pos
  have hδ : δ = ((δ.num : Int) : Rat) / ((δ.den : Int) : Rat) := (Rat.num_div_den δ).symm
  have hn : |δ.num| ≤ 2 * B ^ 2 := hd.1
  have hdd : |((δ.den : Nat) : Int)| ≤ B := hd.2
  have hbd : b * ((δ.den : Nat) : Int) ≠ 0 := mul_ne_zero hb0 (den_ne δ)
  have hbdB : |b * ((δ.den : Nat) : Int)| ≤ B ^ 2 := (abs_mul_le hb hdd).trans (by nlinarith)
  have e1 : |a * ((δ.den : Nat) : Int)| ≤ B ^ 3 := (abs_mul_le ha hdd).trans (by nlinarith)
  have e2 : |b * δ.num| ≤ 2 * B ^ 3 := (abs_mul_le hb hn).trans (by nlinarith)
  have hsub : RBnd2 (.of ((a : Rat) / b - δ)) (3 * B ^ 3) (B ^ 2) := by
    refine of_bnd (n := a * ((δ.den : Nat) : Int) - b * δ.num) hbd ?_ ((abs_sub _ _).trans (by linarith)) hbdB
    conv_lhs => rw [hδ]
    push_cast
    push_cast at hdQ
    field_simp
  have hadd : RBnd2 (.of ((a : Rat) / b + δ)) (3 * B ^ 3) (B ^ 2) := by
    refine of_bnd (n := a * ((δ.den : Nat) : Int) + b * δ.num) hbd ?_ ((abs_add_le _ _).trans (by linarith)) hbdB
    conv_lhs => rw [hδ]
    push_cast
    push_cast at hdQ
    field_simp
  have hxy' : RBnd2 (.of ((a : Rat) / b)) (2 * B ^ 2) (2 * B ^ 2) := ⟨hxy.1.trans (by linarith), hxy.2.trans (by linarith)⟩
  have hd' : RBnd2 (.of δ) (2 * B ^ 2) (2 * B ^ 2) := ⟨hd.1, hd.2.trans (by linarith)⟩
  have h8 : 2 * (2 * B ^ 2) ^ 2 ≤ L := by
    have : 2 * (2 * B ^ 2) ^ 2 = 8 * B ^ 4 := by ring
    linarith
  unfold fromSqrtFinish
  refine ((rtSub_safe hL (by linarith) h8 hxy' hd' (hpos _) (hpos _)).exact (rtSub_ref hx _ _)).bind fun g e => ?_
  subst e
  refine (getAbc_safe hL hB h hsub hy hy0).bind fun o ho => ?_
  rcases o with _ | v
  · refine ((rtAdd_safe hL (by linarith) h8 hxy' hd' (hpos _) (hpos _)).exact (rtAdd_ref hx _ _)).bind fun g e => ?_
    subst e
    refine (getAbc_safe hL hB h hadd hy hy0).bind fun o ho => ?_
    rcases o with _ | v
    · exact reconstruct_safe hL hx hB h cfg _ hxy hy ht hr
    · refine (sqrtResult_safe hL hB h cfg hr (ho v rfl)).mono ?_
      rintro o ⟨s, rfl⟩ e ⟨⟩
  · refine (sqrtResult_safe hL hB h cfg hr (ho v rfl)).mono ?_
    rintro o ⟨s, rfl⟩ e ⟨⟩

theorem sq_of_root {cfg : Cfg} {fits : Int → Bool} {q : Rat} {v : Surd} (hn : ¬ q < 0)
    (ho : Surd.fromSqrtRat cfg fits q = .ok (.ok v)) (hr : v.isRational = true) :
    v.Ok cfg ∧ v.r = 0 ∧ Rat.divInt v.a v.c * Rat.divInt v.a v.c = q := by
  have hc : ¬ (cfg.complex = false ∧ q < 0) := fun hh => hn hh.2
  by_cases hf : q.den = 1 ∨ fits (q.num * q.den) = true
  · obtain ⟨s, h1, h2, h3⟩ := Surd.fromSqrtRat_ok hc hf
    rw [h1] at ho
    cases ho
    have hr0 := h3.isRational_iff.mp hr
    refine ⟨h3, hr0, ?_⟩
    have e1 := Surd.valC_of_r_zero h3.toNormal hr0
    rw [h2] at e1
    have e2 := Surd.rootQ_sq q
    rw [e1] at e2
    exact_mod_cast e2
  · push Not at hf
    rw [Surd.fromSqrtRat_overflow hc hf.1 hf.2] at ho
    cases ho

theorem fromSqrtSurdIrr_safe (hL : L < 2 ^ (x.w - 1)) (hx : x.checks = true) (hB : 1 ≤ B) (h : 12 * B ^ 8 ≤ L) (cfg : Cfg)
    {t : Surd} (hs : Bnd t B B B B) (hc : t.c ≠ 0) (hb0 : t.b ≠ 0) :
    Safe (x.fromSqrtSurdIrr cfg t) (fun o => ∀ e, o = .error e → e.kind = .unrepresentable) := by
  obtain ⟨p1, p2, p3, p4, p5, p6, p7, p8, p9⟩ := pows hB
  obtain ⟨ha, hb, hcB, hr⟩ := hs
  have hbQ : (t.b : Rat) ≠ 0 := by exact_mod_cast hb0
  have hcQ : (t.c : Rat) ≠ 0 := by exact_mod_cast hc
  have hxy : RBnd2 (.of ((t.a : Rat) / t.b)) B B := of_bnd hb0 rfl ha hb
  have hu : RBnd2 (.of ((t.a : Rat) / t.c)) B B := of_bnd hc rfl ha hcB
  have hy : RBnd2 (.of ((t.b : Rat) / t.c)) B B := of_bnd hc rfl hb hcB
  have ht : RBnd2 (.of ((t.a : Rat) / t.b * (t.b / t.c))) B B := of_bnd hc (by field_simp) ha hcB
  have hdiv : (t.a : Rat) / t.c / (t.b / t.c) = t.a / t.b := by field_simp
  have haa : |t.a * t.a| ≤ B ^ 2 := (abs_mul_le ha ha).trans (by nlinarith)
  have hbb : |t.b * t.b| ≤ B ^ 2 := (abs_mul_le hb hb).trans (by nlinarith)
  have hbb0 : t.b * t.b ≠ 0 := mul_ne_zero hb0 hb0
  have hbbr : |t.b * t.b * t.r| ≤ B ^ 3 := (abs_mul_le hbb hr).trans (by nlinarith)
  have hsq : RBnd2 (.of ((t.a : Rat) / t.b * (t.a / t.b))) (B ^ 2) (B ^ 2) :=
    of_bnd (n := t.a * t.a) hbb0 (by push_cast; field_simp) haa hbb
  have hd2 : RBnd2 (.of ((t.a : Rat) / t.b * (t.a / t.b) - t.r)) (2 * B ^ 3) (B ^ 2) :=
    of_bnd (n := t.a * t.a - t.b * t.b * t.r) hbb0 (by push_cast; field_simp) ((abs_sub _ _).trans (by linarith)) hbb
  unfold fromSqrtSurdIrr
  have r1 : Refines (x.ratio t.a t.c) (.ok (.of ((t.a : Rat) / t.c))) := ratio_val hx hc rfl
  have r2 : Refines (x.ratio t.b t.c) (.ok (.of ((t.b : Rat) / t.c))) := ratio_val hx hc rfl
  refine ((ratio_safe hL hB ha hcB (by linarith)).exact r1).bind fun u e => ?_
  subst e
  refine ((ratio_safe hL hB hb hcB (by linarith)).exact r2).bind fun y e => ?_
  subst e
  have r3 : Refines (x.rtDiv (.of ((t.a : Rat) / t.c)) (.of ((t.b : Rat) / t.c))) (.ok (.of ((t.a : Rat) / t.b))) := by
    rw [← hdiv]
    exact rtDiv_ref hx _ _ (div_ne_zero hbQ hcQ)
  refine ((rtDiv_safe hL hB (by linarith) hu hy).exact r3).bind fun xy e => ?_
  subst e
  refine ((rtMul_safe hL hxy hxy hB hB hB hB (by nlinarith) (by nlinarith)).exact (rtMul_ref hx _ _)).bind fun sq e => ?_
  subst e
  refine ((rtSubInt_safe hL hsq hr (by linarith) (by linarith) hB (by nlinarith)).exact (rtSubInt_ref hx _ _)).bind
    fun d2 e => ?_
  subst e
  simp only [rtIsNeg_of]
  split
  · exact reconstruct_safe hL hx hB h cfg _ hxy hy ht hr
  · rename_i hneg
    generalize hD : (t.a : Rat) / t.b * (t.a / t.b) - t.r = D at *
    have hnum : |D.num| ≤ 2 * B ^ 3 := hd2.1
    have hden : |((D.den : Nat) : Int)| ≤ B ^ 2 := hd2.2
    have h2 : |(Rt.of D).num * (Rt.of D).den| ≤ L := (abs_mul_le hnum hden).trans (by
      have : 2 * B ^ 3 * B ^ 2 = 2 * B ^ 5 := by ring
      linarith)
    have h3 : (Rt.of D).den * (Rt.of D).den ≤ L := by
      have := (abs_le.mp (abs_mul_le hden hden)).2
      have e : B ^ 2 * B ^ 2 = B ^ 4 := by ring
      rw [e] at this
      exact this.trans (by linarith)
    have hsafe := fromSqrtRat_safe hL cfg (by linarith) (hnum.trans (by linarith)) (hden.trans (by linarith)) (fun _ => h2) h3
    have heq := (fromSqrtRat_ref hx cfg D).eq_of_safe hsafe
    refine Safe.bind (P := fun o => (∀ e, o = .error e → rtIsNeg (.of D) = true) ∧
      x.fromSqrtRat cfg (.of D) = .ok o) ⟨hsafe.1, fun o ho => ⟨fun e he => (hsafe.2 o ho e he).2.2, ho⟩⟩ fun o ho => ?_
    obtain ⟨ho1, ho2⟩ := ho
    cases o with
    | error e => exact absurd ((rtIsNeg_of D).mp (ho1 e rfl)) hneg
    | ok v =>
      show Safe (if v.isRational = true then _ else _) _
      split
      · rename_i hv
        have hob : Surd.fromSqrtRat cfg x.fits D = .ok (.ok v) := by
          rw [heq] at ho2
          cases hq : Surd.fromSqrtRat cfg x.fits D with
          | error e => rw [hq] at ho2; cases ho2
          | ok o' =>
            rw [hq] at ho2
            cases o' with
            | error e => cases ho2
            | ok v' => cases ho2; rfl
        obtain ⟨hok, hr0, hvv⟩ := sq_of_root hneg hob hv
        have hto : x.toRational cfg v = .ok (.exact (v.a, v.c)) := by
          unfold toRational
          rw [Surd.panicIfComplex_ok hr0.ge, Surd.ok_bind, if_pos hr0]; rfl
        rw [hto, Surd.ok_bind]
        show Safe (x.fromSqrtFinish cfg _ _ ⟨v.a, v.c⟩ _) _
        rw [rt_of_rational hok hr0]
        refine fromSqrtFinish_safe hL hx hB h cfg hc hb0 ha hb hcB hr ?_
        generalize Rat.divInt v.a v.c = δ at hvv
        constructor
        · show |δ.num| ≤ 2 * B ^ 2
          have e : δ.num * δ.num = D.num := by rw [← hvv, Rat.mul_self_num]
          rw [← e] at hnum
          rw [abs_mul] at hnum
          by_contra hcon
          push Not at hcon
          nlinarith
        · show |((δ.den : Nat) : Int)| ≤ B
          have e : δ.den * δ.den = D.den := by rw [← hvv, Rat.mul_self_den]
          rw [← e] at hden
          push_cast at hden
          rw [abs_mul] at hden
          by_contra hcon
          push Not at hcon
          nlinarith
      · exact reconstruct_safe hL hx hB h cfg _ hxy hy ht hr

theorem fromSqrtSurd_safe (hL : L < 2 ^ (x.w - 1)) (hx : x.checks = true) (hB : 1 ≤ B) (h : 12 * B ^ 8 ≤ L) (cfg : Cfg)
    {t : Surd} (hok : t.Ok cfg) (hs : Bnd t B B B B) :
    Safe (x.fromSqrtSurd cfg t) (fun o => ∀ e, o = .error e → e.kind ≠ .overflow) := by
  obtain ⟨p1, p2, p3, p4, p5, p6, p7, p8, p9⟩ := pows hB
  unfold fromSqrtSurd
  refine Safe.bind (P := fun _ => True) ?_ fun neg _ => ?_
  · split
    · exact Safe.pure trivial
    · exact isNegative_safe hL hB cfg hs (by linarith)
  · split
    · refine Safe.pure ?_
      rintro e ⟨⟩ hk
      cases hk
    · split
      · rename_i hv
        have hr0 := hok.isRational_iff.mp hv
        have hto : x.toRational cfg t = .ok (.exact (t.a, t.c)) := by
          unfold toRational
          rw [Surd.panicIfComplex_ok hr0.ge, Surd.ok_bind, if_pos hr0]; rfl
        unfold fromSqrtSurdRat
        rw [hto, Surd.ok_bind]
        obtain ⟨ha, hb, hcB, hr⟩ := hs
        refine Safe.bind (fromSqrtRat_safe hL cfg (t := ⟨t.a, t.c⟩) (by linarith) (ha.trans (by linarith))
          (hcB.trans (by linarith)) (fun _ => (abs_mul_le ha hcB).trans (by nlinarith)) ?_) fun o ho => ?_
        · have := (abs_le.mp (abs_mul_le hcB hcB)).2
          show t.c * t.c ≤ L
          nlinarith
        · cases o with
          | ok s => refine Safe.pure ?_; rintro e ⟨⟩
          | error e =>
            refine Safe.pure ?_
            rintro e' ⟨⟩ hk
            rw [(ho e rfl).1] at hk
            cases hk
      · rename_i hv
        refine (fromSqrtSurdIrr_safe hL hx hB h cfg hs hok.ne_zero ?_).mono ?_
        · intro e; exact hv (hok.isRational_iff.mpr (hok.rational.mp e))
        · intro o ho e he hk
          rw [ho e he] at hk
          cases hk

/-! ### `reduced` -/

theorem stripLoop_safe (hL : L < 2 ^ (x.w - 1)) {p M : Int} (hp : 2 ≤ p) (hM : M ≤ L) (fuel : Nat) : ∀ (b r : Int), r ≠ 0 →
    (∀ k b' r', b' = b * k → r = k * k * r' → 0 < k → |b'| ≤ M) →
    x.stripLoop fuel p b r ≠ some (.error .overflow) ∧
    ∀ b' r', x.stripLoop fuel p b r = some (.ok (b', r')) → ∃ k, 0 < k ∧ b' = b * k ∧ r = k * k * r' := by
  induction fuel with
  | zero => intro b r _ _; exact ⟨by simp [stripLoop], by simp [stripLoop]⟩
  | succ fuel ih =>
    intro b r hr hb
    unfold stripLoop
    split
    · rename_i hmod
      have hdiv : r = p * p * r.tdiv (p * p) := (Int.mul_tdiv_cancel' (Int.dvd_of_tmod_eq_zero hmod)).symm
      have hbp := hb p (b * p) _ rfl hdiv (by omega)
      have hs := (mul_safe_eq hL hbp hM)
      have hm : x.mul b p = .ok (b * p) := by
        cases hq : x.mul b p with
        | ok v => rw [hs.2 v hq]
        | error e =>
          exfalso
          have he : e = .overflow := by
            unfold mul ret at hq
            split at hq
            · cases hq
            · split at hq
              · injection hq with hq; exact hq.symm
              · cases hq
          exact hs.1 (by rw [hq, he])
      rw [hm]
      have hr' : r.tdiv (p * p) ≠ 0 := by intro e; rw [e, mul_zero] at hdiv; exact hr hdiv
      obtain ⟨h1, h2⟩ := ih (b * p) (r.tdiv (p * p)) hr' (by
        intro k b' r' e1 e2 hk
        refine hb (p * k) b' r' (by rw [e1]; ring) ?_ (by positivity)
        rw [hdiv, e2]; ring)
      refine ⟨h1, fun b' r' he => ?_⟩
      obtain ⟨k, hk, e1, e2⟩ := h2 b' r' he
      exact ⟨p * k, by positivity, by rw [e1]; ring, by rw [hdiv, e2]; ring⟩
    · refine ⟨by simp, fun b' r' he => ?_⟩
      simp only [Option.some.injEq, Except.ok.injEq, Prod.mk.injEq] at he
      exact ⟨1, by norm_num, by rw [he.1]; ring, by rw [he.2]; ring⟩

theorem stripAll_safe (hL : L < 2 ^ (x.w - 1)) {M : Int} (hM : M ≤ L) (fuel : Nat) : ∀ (ps : List Int),
    (∀ p ∈ ps, 2 ≤ p) → ∀ (b r : Int), r ≠ 0 → (∀ k b' r', b' = b * k → r = k * k * r' → 0 < k → |b'| ≤ M) →
    x.stripAll fuel ps b r ≠ some (.error .overflow) ∧
    ∀ b' r', x.stripAll fuel ps b r = some (.ok (b', r')) → ∃ k, 0 < k ∧ b' = b * k ∧ r = k * k * r' := by
  intro ps
  induction ps with
  | nil =>
    intro _ b r hr hb
    refine ⟨by simp [stripAll], fun b' r' he => ?_⟩
    simp only [stripAll, Option.some.injEq, Except.ok.injEq, Prod.mk.injEq] at he
    exact ⟨1, by norm_num, by rw [he.1]; ring, by rw [he.2]; ring⟩
  | cons p ps ih =>
    intro hps b r hr hb
    have hp := hps p (by simp)
    have hps' : ∀ q ∈ ps, 2 ≤ q := fun q hq => hps q (by simp [hq])
    unfold stripAll
    split
    · split
      · obtain ⟨h1, h2⟩ := stripLoop_safe hL hp hM fuel b r hr hb
        cases hl : x.stripLoop fuel p b r with
        | none => exact ⟨by simp, by simp⟩
        | some o =>
          cases o with
          | error e => exact ⟨by rw [hl] at h1; simpa using h1, by simp⟩
          | ok br =>
            obtain ⟨b1, r1⟩ := br
            obtain ⟨k, hk, e1, e2⟩ := h2 b1 r1 hl
            have hr1 : r1 ≠ 0 := by rintro rfl; rw [mul_zero] at e2; exact hr e2
            obtain ⟨g1, g2⟩ := ih hps' b1 r1 hr1 (by
              intro j b' r' f1 f2 hj
              refine hb (k * j) b' r' (by rw [f1, e1]; ring) ?_ (by positivity)
              rw [e2, f2]; ring)
            refine ⟨g1, fun b' r' he => ?_⟩
            obtain ⟨j, hj, f1, f2⟩ := g2 b' r' he
            exact ⟨k * j, by positivity, by rw [f1, e1]; ring, by rw [e2, f2]; ring⟩
      · exact ih hps' b r hr hb
    · exact ⟨by simp, by simp⟩

theorem reduced_safe (hL : L < 2 ^ (x.w - 1)) (hB : 1 ≤ B) (h : B ^ 2 ≤ L) (fuel : Nat) {s : Surd} (hs : Bnd s B B B B)
    (hr : ¬ IsSquare s.r) : x.reduced fuel s ≠ some (.error .overflow) := by
  obtain ⟨p1, p2, p3, p4, p5, p6, p7, p8, p9⟩ := pows hB
  obtain ⟨ha, hb, hc, hrB⟩ := hs
  have hr0 : s.r ≠ 0 := by intro e; exact hr ⟨0, by rw [e]; rfl⟩
  have hbk : ∀ k b' r' : Int, b' = s.b * k → s.r = k * k * r' → 0 < k → |b'| ≤ B ^ 2 := by
    intro k b' r' e1 e2 hk
    have hr' : r' ≠ 0 := by rintro rfl; rw [mul_zero] at e2; exact hr0 e2
    have h1 : 1 ≤ |r'| := Int.one_le_abs hr'
    have h2 : k * k * |r'| ≤ B := by
      rw [e2, abs_mul, abs_of_pos (mul_pos hk hk)] at hrB; exact hrB
    have h3 : |k| ≤ B := by rw [abs_of_pos hk]; nlinarith
    rw [e1]
    exact (abs_mul_le hb h3).trans (by nlinarith)
  obtain ⟨h1, h2⟩ := stripAll_safe (x := x) hL (M := B ^ 2) (by linarith) fuel Surd.smallPrimes
    (fun p hp => by have := Surd.smallPrimes_gt p hp; omega) s.b s.r hr0 hbk
  unfold reduced
  cases hl : x.stripAll fuel Surd.smallPrimes s.b s.r with
  | none => simp
  | some o =>
    cases o with
    | error e => rw [hl] at h1; simpa using h1
    | ok br =>
      obtain ⟨b', r'⟩ := br
      obtain ⟨k, hk, e1, e2⟩ := h2 b' r' hl
      have hr' : |r'| ≤ B := by
        rw [e2, abs_mul, abs_of_pos (mul_pos hk hk)] at hrB
        have := abs_nonneg r'
        nlinarith [mul_pos hk hk]
      have hns : ¬ IsSquare r' := by
        rintro ⟨m, hm⟩
        exact hr ⟨k * m, by rw [e2, hm]; ring⟩
      have hsafe := reduce_nonsq (x := x) (s := ⟨s.a, b', s.c, r'⟩) hL ⟨ha, hbk k b' r' e1 e2 hk, hc, hr'⟩ hns
        (by nlinarith) h (by nlinarith) (by nlinarith)
      intro he
      exact hsafe.1 (by injection he)

end Fx
end NumIrr
