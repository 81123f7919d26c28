/-
Rules for `Refines`, one per kind of operator, and the refinement of every function of Model/FixedSurd.
-/
import Verif.Spec.Fixed
import Verif.Lemmas.SurdReduce
import Mathlib.Tactic.Ring
import Mathlib.Data.Rat.Lemmas

namespace NumIrr

theorem Refines.rfl' {α : Type} {b : Res α} : Refines b b := Or.inl rfl

theorem Refines.bind {α β : Type} {r b : Res α} {f g : α → Res β} (h : Refines r b)
    (hf : ∀ v, b = .ok v → Refines (f v) (g v)) : Refines (r >>= f) (b >>= g) := by
  rcases h with h | h
  · subst h
    cases r with
    | error e => exact Or.inl rfl
    | ok v => exact hf v rfl
  · subst h
    exact Or.inr rfl

/-- an intermediate result that the arbitrary-precision program computes without a separate step -/
theorem Refines.bindOk {α β : Type} {r : Res α} {v : α} {f : α → Res β} {b : Res β} (h : Refines r (.ok v))
    (hf : Refines (f v) b) : Refines (r >>= f) b := by
  rcases h with h | h
  · subst h; exact hf
  · subst h; exact Or.inr rfl

theorem Refines.returns {α : Type} {r b : Res α} {v : α} (h : Refines r b) (e : r = .ok v) : b = .ok v := by
  rcases h with h | h
  · rw [← h]; exact e
  · rw [h] at e; cases e

namespace Fx

variable {x : Fx}

theorem ret_ref (hx : x.checks = true) (v : Int) : Refines (x.ret v) (.ok v) := by
  unfold ret
  rw [hx]
  split
  · exact Or.inl rfl
  · exact Or.inr rfl

theorem ret_bind {β : Type} (hx : x.checks = true) {v : Int} {f : Int → Res β} {b : Res β} (h : Refines (f v) b) :
    Refines (x.ret v >>= f) b := (ret_ref hx v).bindOk h

theorem div_ref {a d : Int} (hd : d ≠ 0) : Refines (x.div a d) (.ok (a.tdiv d)) := by
  unfold div
  rw [if_neg hd]
  split
  · exact Or.inl rfl
  · exact Or.inr rfl

theorem div_refR (a d : Int) : Refines (x.div a d) (divR a d) := by
  unfold div divR
  split
  · exact Or.inl rfl
  · split
    · exact Or.inl rfl
    · exact Or.inr rfl

theorem rem_ref {a d : Int} (hd : d ≠ 0) : Refines (x.rem a d) (.ok (a.tmod d)) := by
  unfold rem
  rw [if_neg hd]
  split
  · exact Or.inl rfl
  · exact Or.inr rfl

theorem div_bind {β : Type} {a d : Int} (hd : d ≠ 0) {f : Int → Res β} {b : Res β} (h : Refines (f (a.tdiv d)) b) :
    Refines (x.div a d >>= f) b := (div_ref hd).bindOk h

theorem sqrtR_bind {β : Type} {n : Int} (hn : 0 ≤ n) {f : Int → Res β} {b : Res β} (h : Refines (f (isqrt n)) b) :
    Refines (sqrtR n >>= f) b := by
  have : sqrtR n = .ok (isqrt n) := by unfold sqrtR; rw [if_neg (by omega)]
  rw [this]; exact h

/-! ### coefficients -/

theorem coeffsAdd_ref (hx : x.checks = true) (l r : Coeffs) : Refines (x.coeffsAdd l r) (.ok (l.add r)) := by
  unfold coeffsAdd Coeffs.add
  split
  · exact ret_bind hx (ret_bind hx .rfl')
  · exact ret_bind hx (ret_bind hx (ret_bind hx (ret_bind hx (ret_bind hx (ret_bind hx (ret_bind hx .rfl'))))))

theorem coeffsSub_ref (hx : x.checks = true) (l r : Coeffs) : Refines (x.coeffsSub l r) (.ok (l.sub r)) := by
  unfold coeffsSub Coeffs.sub
  split
  · exact ret_bind hx (ret_bind hx .rfl')
  · exact ret_bind hx (ret_bind hx (ret_bind hx (ret_bind hx (ret_bind hx (ret_bind hx (ret_bind hx .rfl'))))))

theorem coeffsMul_ref (hx : x.checks = true) (l r : Coeffs) (d : Int) :
    Refines (x.coeffsMul l r d) (.ok (l.mul r d)) := by
  unfold coeffsMul Coeffs.mul
  iterate 8 refine ret_bind hx ?_
  exact .rfl'

theorem coeffsDiv_ref (hx : x.checks = true) (l r : Coeffs) (d : Int) :
    Refines (x.coeffsDiv l r d) (.ok (l.div r d)) := by
  unfold coeffsDiv Coeffs.div
  iterate 14 refine ret_bind hx ?_
  exact .rfl'

theorem coeffsAddRat_ref (hx : x.checks = true) (l : Coeffs) (q : Rat) :
    Refines (x.coeffsAddRat l (.of q)) (.ok (l.addRat q)) := by
  unfold coeffsAddRat Coeffs.addRat Rt.of
  split
  · exact ret_bind hx .rfl'
  · iterate 5 refine ret_bind hx ?_
    exact .rfl'

theorem coeffsSubRat_ref (hx : x.checks = true) (l : Coeffs) (q : Rat) :
    Refines (x.coeffsSubRat l (.of q)) (.ok (l.subRat q)) := by
  unfold coeffsSubRat Coeffs.subRat Rt.of
  split
  · exact ret_bind hx .rfl'
  · iterate 5 refine ret_bind hx ?_
    exact .rfl'

theorem coeffsMulRat_ref (hx : x.checks = true) (l : Coeffs) (q : Rat) :
    Refines (x.coeffsMulRat l (.of q)) (.ok (l.mulRat q)) := by
  unfold coeffsMulRat Coeffs.mulRat Rt.of
  iterate 3 refine ret_bind hx ?_
  exact .rfl'

theorem coeffsDivRat_ref (hx : x.checks = true) (l : Coeffs) (q : Rat) :
    Refines (x.coeffsDivRat l (.of q)) (.ok (l.divRat q)) := by
  unfold coeffsDivRat Coeffs.divRat Rt.of
  iterate 3 refine ret_bind hx ?_
  exact .rfl'

theorem coeffsAddInt_ref (hx : x.checks = true) (l : Coeffs) (k : Int) :
    Refines (x.coeffsAddInt l k) (.ok (l.addInt k)) := by
  unfold coeffsAddInt Coeffs.addInt
  iterate 2 refine ret_bind hx ?_
  exact .rfl'

theorem coeffsSubInt_ref (hx : x.checks = true) (l : Coeffs) (k : Int) :
    Refines (x.coeffsSubInt l k) (.ok (l.subInt k)) := by
  unfold coeffsSubInt Coeffs.subInt
  iterate 2 refine ret_bind hx ?_
  exact .rfl'

theorem coeffsMulInt_ref (hx : x.checks = true) (l : Coeffs) (k : Int) :
    Refines (x.coeffsMulInt l k) (.ok (l.mulInt k)) := by
  unfold coeffsMulInt Coeffs.mulInt
  iterate 2 refine ret_bind hx ?_
  exact .rfl'

theorem coeffsDivInt_ref (hx : x.checks = true) (l : Coeffs) (k : Int) :
    Refines (x.coeffsDivInt l k) (.ok (l.divInt k)) := by
  unfold coeffsDivInt Coeffs.divInt
  refine ret_bind hx ?_
  exact .rfl'

/-! ### normalisation -/

theorem igcd_pos_right {a b : Int} (h : b ≠ 0) : igcd a b ≠ 0 := by
  unfold igcd
  have := Int.gcd_pos_of_ne_zero_right a h
  omega

theorem igcd_pos_left {a b : Int} (h : a ≠ 0) : igcd a b ≠ 0 := by
  unfold igcd
  have := Int.gcd_pos_of_ne_zero_left b h
  omega

theorem igcd_nonneg' (a b : Int) : 0 ≤ igcd a b := by unfold igcd; omega

theorem isqrt_ne {n : Int} (h : 0 < n) : isqrt n ≠ 0 := by
  unfold isqrt
  have : 0 < Nat.sqrt n.toNat := Nat.sqrt_pos.2 (by omega)
  omega

theorem reduceSquare_ref (hx : x.checks = true) (s : Surd) :
    Refines (x.reduceSquare s) (.ok s.reduceSquare) := by
  unfold reduceSquare Surd.reduceSquare
  refine ret_bind hx (sqrtR_bind (by omega) (ret_bind hx ?_))
  dsimp only
  split
  · split
    · exact ret_bind hx (ret_bind hx .rfl')
    · exact ret_bind hx (ret_bind hx .rfl')
  · exact .rfl'

theorem reduceRat_ref (hx : x.checks = true) (s : Surd) (hc : s.c ≠ 0) :
    Refines (x.reduceRat s) (.ok s.reduceRat) := by
  unfold reduceRat Surd.reduceRat
  have := igcd_pos_right (a := s.a) hc
  exact ret_bind hx (div_bind this (div_bind this .rfl'))

theorem reduceFactor_ref (hx : x.checks = true) (s : Surd) (hc : s.c ≠ 0) :
    Refines (x.reduceFactor s) (.ok s.reduceFactor) := by
  unfold reduceFactor Surd.reduceFactor
  have h1 := igcd_pos_right (a := s.a) hc
  have h2 : igcd (igcd s.a s.c * igcd s.a s.c) s.r ≠ 0 := igcd_pos_left (mul_ne_zero h1 h1)
  have h3 := igcd_nonneg' (igcd s.a s.c * igcd s.a s.c) s.r
  have h4 := isqrt_ne (lt_of_le_of_ne h3 (Ne.symm h2))
  refine ret_bind hx (ret_bind hx (ret_bind hx (sqrtR_bind h3 (ret_bind hx ?_))))
  dsimp only
  split
  · exact div_bind h2 (div_bind h4 (div_bind h4 (div_bind h4 .rfl')))
  · exact .rfl'

theorem reduceSign_ref (hx : x.checks = true) (s : Surd) : Refines (x.reduceSign s) (.ok s.reduceSign) := by
  unfold reduceSign Surd.reduceSign
  split
  · iterate 3 refine ret_bind hx ?_
    exact .rfl'
  · exact .rfl'

theorem reduceIrr_ref (hx : x.checks = true) (s : Surd) (hc : s.c ≠ 0) (hr : s.r ≠ 0) :
    Refines (x.reduceIrr s) (.ok s.reduceIrr) := by
  unfold reduceIrr Surd.reduceIrr
  obtain ⟨k, hk, h1, h2, h3, h4, h5⟩ := Surd.reduceFactor_spec hc hr
  have h6 : (Surd.reduceFactor s).2 ≠ 0 := by
    intro e
    rw [e, zero_mul] at h5
    exact igcd_pos_right hc h5
  have h7 : igcd (Surd.reduceFactor s).2 (Surd.reduceFactor s).1.b ≠ 0 := igcd_pos_left h6
  refine (reduceFactor_ref hx s hc).bindOk (ret_bind hx ?_)
  exact div_bind h7 (div_bind h7 (div_bind h7 .rfl'))

theorem reduceSquare_c (s : Surd) : (Surd.reduceSquare s).c = s.c := by
  unfold Surd.reduceSquare
  dsimp only
  split
  · split <;> rfl
  · rfl

theorem reduce_ref (hx : x.checks = true) (s : Surd) : Refines (x.reduce s) s.reduce := by
  unfold reduce Surd.reduce
  split
  · exact .rfl'
  · rename_i hc
    have hc' : (Surd.reduceSquare s).c ≠ 0 := by rw [reduceSquare_c]; exact hc
    refine (reduceSquare_ref hx s).bindOk ?_
    dsimp only
    split
    · exact (reduceRat_ref hx _ hc').bindOk (reduceSign_ref hx _)
    · rename_i h
      exact (reduceIrr_ref hx _ hc' (fun e => h (Or.inr e))).bindOk (reduceSign_ref hx _)

theorem surdNew_ref (hx : x.checks = true) (cfg : Cfg) (a b c r : Int) :
    Refines (x.surdNew cfg a b c r) (Surd.new cfg a b c r) := by
  unfold surdNew Surd.new
  split
  · exact .rfl'
  · exact reduce_ref hx _

theorem fromCoeffs_ref (hx : x.checks = true) (cfg : Cfg) (l : Coeffs) (r : Int) :
    Refines (x.fromCoeffs cfg l r) (Surd.fromCoeffs cfg l r) := by
  unfold fromCoeffs Surd.fromCoeffs
  split
  · exact .rfl'
  · exact reduce_ref hx _

theorem fromRationals_ref (hx : x.checks = true) (cfg : Cfg) (a b r : Rat) :
    Refines (x.fromRationals cfg (.of a) (.of b) (.of r)) (Surd.fromRationals cfg a b r) := by
  unfold fromRationals Surd.fromRationals Rt.of
  have : r.num < 0 ↔ r < 0 := Rat.num_neg
  dsimp only
  simp only [this]
  split
  · exact .rfl'
  · iterate 5 refine ret_bind hx ?_
    exact reduce_ref hx _

theorem reduceRootHinted_ref (hx : x.checks = true) (s : Surd) (h : Int) :
    Refines (x.reduceRootHinted s h) (.ok (s.reduceRootHinted h)) := by
  unfold reduceRootHinted Surd.reduceRootHinted
  refine ret_bind hx ?_
  dsimp only
  split
  · exact .rfl'
  · rename_i hh
    have h0 : ((h.natAbs : Nat) : Int) ≠ 0 := fun e => hh (Or.inl e)
    have h1 : 0 ≤ ((h.natAbs : Nat) : Int) := by omega
    have h2 := isqrt_ne (lt_of_le_of_ne h1 (Ne.symm h0))
    refine div_bind h0 ((rem_ref h0).bindOk ?_)
    split
    · refine sqrtR_bind h1 (ret_bind hx ?_)
      split
      · have h3 : igcd (igcd (isqrt ((h.natAbs : Nat) : Int)) s.a) s.c ≠ 0 := igcd_pos_left (igcd_pos_left h2)
        refine ret_bind hx (ret_bind hx (div_bind h3 (ret_bind hx (div_bind h3 (div_bind h3 .rfl')))))
      · exact .rfl'
    · exact .rfl'

/-! ### unary operations -/

theorem recip_ref (hx : x.checks = true) (cfg : Cfg) (s : Surd) : Refines (x.recip cfg s) (s.recip cfg) := by
  unfold recip Surd.recip
  iterate 7 refine ret_bind hx ?_
  exact surdNew_ref hx _ _ _ _ _

theorem conj_ref (hx : x.checks = true) (s : Surd) : Refines (x.conj s) (.ok s.conj) := by
  unfold conj Surd.conj
  exact ret_bind hx .rfl'

theorem surdNeg_ref (hx : x.checks = true) (s : Surd) : Refines (x.surdNeg s) (.ok s.neg) := by
  unfold surdNeg Surd.neg
  exact ret_bind hx (ret_bind hx .rfl')

theorem trunc_ref (hx : x.checks = true) (cfg : Cfg) (s : Surd) : Refines (x.trunc cfg s) (s.trunc cfg) := by
  unfold trunc Surd.trunc
  split
  · iterate 3 refine ret_bind hx ?_
    refine Refines.rfl'.bind fun q _ => ret_bind hx ((div_refR _ _).bind fun u _ => (div_refR _ _).bind fun v _ => ?_)
    exact ret_bind hx (fromCoeffs_ref hx _ _ _)
  · iterate 2 refine ret_bind hx ?_
    refine Refines.rfl'.bind fun q _ => ret_bind hx (ret_bind hx ((div_refR _ _).bind fun u _ => .rfl'))

theorem toInteger_ref (hx : x.checks = true) (cfg : Cfg) (s : Surd) :
    Refines (x.toInteger cfg s) (s.toInteger cfg) := by
  unfold toInteger Surd.toInteger
  refine Refines.rfl'.bind fun _ _ => ?_
  split
  · exact .rfl'
  · exact (trunc_ref hx cfg s).bind fun _ _ => .rfl'

theorem toRational_ref (hx : x.checks = true) (cfg : Cfg) (s : Surd) :
    Refines (x.toRational cfg s) (s.toRational cfg) := by
  unfold toRational Surd.toRational
  refine Refines.rfl'.bind fun _ _ => ?_
  split
  · exact .rfl'
  · exact ret_bind hx (ret_bind hx (Refines.rfl'.bind fun _ _ => ret_bind hx .rfl'))

theorem floor_ref (hx : x.checks = true) (cfg : Cfg) (s : Surd) : Refines (x.floor cfg s) (s.floor cfg) := by
  unfold floor Surd.floor
  refine Refines.rfl'.bind fun _ _ => ret_bind hx (ret_bind hx (Refines.rfl'.bind fun br _ => ?_))
  dsimp only
  have key : ∀ num : Int, Refines
      ((if 0 ≤ num then (pure num : Res Int) else do
          let t ← x.sub num s.c
          x.add t 1) >>= fun num => x.div num s.c >>= fun q => pure (Surd.ofInt q))
      (divR (if 0 ≤ num then num else num - s.c + 1) s.c >>= fun u => pure (Surd.ofInt u)) := by
    intro num
    split
    · exact (div_refR _ _).bind fun _ _ => .rfl'
    · refine Refines.bindOk (v := num - s.c + 1) ?_ ((div_refR _ _).bind fun _ _ => .rfl')
      exact ret_bind hx (ret_ref hx _)
  split
  · exact (ret_ref hx _).bindOk (key _)
  · exact Refines.bindOk (ret_bind hx (ret_ref hx _)) (key _)

theorem cmpSquares_ref (hx : x.checks = true) (s : Surd) (less : Bool) :
    Refines (x.cmpSquares s less)
      (.ok (if less then decide (s.a * s.a < s.b * s.b * s.r) else decide (s.a * s.a > s.b * s.b * s.r))) := by
  unfold cmpSquares
  iterate 3 refine ret_bind hx ?_
  exact .rfl'

theorem isPositive_ref (hx : x.checks = true) (cfg : Cfg) (s : Surd) :
    Refines (x.isPositive cfg s) (s.isPositive cfg) := by
  unfold isPositive Surd.isPositive
  refine Refines.rfl'.bind fun _ _ => ?_
  split
  · exact .rfl'
  · split
    · split
      · exact .rfl'
      · exact cmpSquares_ref hx s true
    · split
      · exact .rfl'
      · exact cmpSquares_ref hx s false

theorem isNegative_ref (hx : x.checks = true) (cfg : Cfg) (s : Surd) :
    Refines (x.isNegative cfg s) (s.isNegative cfg) := by
  unfold isNegative Surd.isNegative
  refine Refines.rfl'.bind fun _ _ => ?_
  split
  · exact .rfl'
  · split
    · split
      · exact .rfl'
      · exact cmpSquares_ref hx s true
    · split
      · exact .rfl'
      · exact cmpSquares_ref hx s false

theorem eq_ref (hx : x.checks = true) (l r : Surd) : Refines (x.eq l r) (.ok (Surd.eq l r)) := by
  unfold eq Surd.eq
  split
  · exact .rfl'
  · split
    · exact .rfl'
    · iterate 2 refine ret_bind hx ?_
      split
      · exact .rfl'
      · iterate 8 refine ret_bind hx ?_
        exact .rfl'

/-! ### binary operations -/

theorem reduceBinOp_ref (hx : x.checks = true) (cfg : Cfg) (l r : Surd) :
    Refines (x.reduceBinOp cfg l r) (Surd.reduceBinOp cfg l r) := by
  unfold reduceBinOp Surd.reduceBinOp
  dsimp only
  split
  · split
    · exact .rfl'
    · iterate 2 refine ret_bind hx ?_
      have e1 : (((l.r.natAbs : Nat) : Int) > ((r.r.natAbs : Nat) : Int)) = (l.r.natAbs > r.r.natAbs) := by
        exact propext (by omega)
      have e2 : (((r.r.natAbs : Nat) : Int) > ((l.r.natAbs : Nat) : Int)) = (r.r.natAbs > l.r.natAbs) := by
        exact propext (by omega)
      simp only [e1]
      split
      · exact (div_refR _ _).bind fun hint _ => (reduceRootHinted_ref hx _ _).bindOk .rfl'
      · iterate 2 refine ret_bind hx ?_
        simp only [e2]
        split
        · exact (div_refR _ _).bind fun hint _ => (reduceRootHinted_ref hx _ _).bindOk .rfl'
        · exact .rfl'
  · split
    · exact .rfl'
    · split
      · exact (div_refR _ _).bind fun hint _ => (reduceRootHinted_ref hx _ _).bindOk .rfl'
      · split
        · exact (div_refR _ _).bind fun hint _ => (reduceRootHinted_ref hx _ _).bindOk .rfl'
        · exact .rfl'

theorem reduceBinOpUnwrap_ref (hx : x.checks = true) (cfg : Cfg) (l r : Surd) :
    Refines (x.reduceBinOpUnwrap cfg l r) (Surd.reduceBinOpUnwrap cfg l r) :=
  (reduceBinOp_ref hx cfg l r).bind fun _ _ => .rfl'

theorem forward_ref (hx : x.checks = true) (cfg : Cfg) (s : Surd) {op : Res Coeffs} {l : Coeffs}
    (h : Refines op (.ok l)) : Refines (x.forward cfg s op) (Surd.fromCoeffs cfg l s.r) :=
  h.bindOk (fromCoeffs_ref hx _ _ _)

/-- the fields of a fraction in lowest terms -/
theorem rt_of_coprime {n d g n' d' : Int} (hg : g ≠ 0) (hn : n' * g = n) (hd : d' * g = d) (h0 : 0 < d')
    (hc : Nat.Coprime n'.natAbs d'.natAbs) : Rt.of (Rat.divInt n d) = ⟨n', d'⟩ := by
  have e : Rat.divInt n d = (n' : ℚ) / d' := by
    rw [Rat.divInt_eq_div, ← hn, ← hd]
    push_cast
    exact mul_div_mul_right _ _ (by exact_mod_cast hg)
  unfold Rt.of
  rw [e, Rat.num_div_eq_of_coprime h0 hc, Rat.den_div_eq_of_coprime h0 hc]

/-- `Ratio::new` gives the fields of the rational. -/
theorem ratio_ref (hx : x.checks = true) (n d : Int) : Refines (x.ratio n d) ((ratioNew n d).map Rt.of) := by
  unfold ratio ratioNew
  split
  · exact .rfl'
  · rename_i hd
    have hg : igcd n d ≠ 0 := igcd_pos_right hd
    split
    · rename_i hn
      left
      subst hn
      simp [Except.map, Rt.of]
    · split
      · rename_i hn
        left
        subst hn
        simp [Except.map, Rt.of, Rat.divInt_self' hd]
      · have hgp : 0 < igcd n d := lt_of_le_of_ne (igcd_nonneg' n d) (Ne.symm hg)
        have e1 : n.tdiv (igcd n d) * igcd n d = n := Int.tdiv_mul_cancel (Int.gcd_dvd_left ..)
        have e2 : d.tdiv (igcd n d) * igcd n d = d := Int.tdiv_mul_cancel (Int.gcd_dvd_right ..)
        have e3 : d.tdiv (igcd n d) ≠ 0 := by
          intro e; rw [e, zero_mul] at e2; exact hd e2.symm
        have hc : Nat.Coprime (n.tdiv (igcd n d)).natAbs (d.tdiv (igcd n d)).natAbs := by
          have h := Int.gcd_mul_right (n.tdiv (igcd n d)) (igcd n d) (d.tdiv (igcd n d))
          rw [e1, e2] at h
          have hp : 0 < Int.gcd n d := by unfold igcd at hgp; omega
          have h' : (igcd n d).natAbs = Int.gcd n d := by unfold igcd; omega
          rw [h'] at h
          exact Nat.eq_of_mul_eq_mul_right hp (by rw [one_mul]; exact h.symm)
        refine ret_bind hx (div_bind hg (div_bind hg ?_))
        split
        · rename_i hneg
          refine ret_bind hx (ret_bind hx (Or.inl ?_))
          have := rt_of_coprime (n := n) (d := d) (g := -igcd n d) (n' := 0 - n.tdiv (igcd n d))
            (d' := 0 - d.tdiv (igcd n d)) (by omega) (by rw [zero_sub, neg_mul_neg]; exact e1)
            (by rw [zero_sub, neg_mul_neg]; exact e2) (by omega)
            (by rw [zero_sub, zero_sub, Int.natAbs_neg, Int.natAbs_neg]; exact hc)
          show Except.ok _ = Except.ok _
          rw [this]
        · refine Or.inl ?_
          have := rt_of_coprime hg e1 e2 (by omega) hc
          show Except.ok _ = Except.ok _
          rw [this]

/-- a rational operand -/
theorem ratio_bind {β : Type} (hx : x.checks = true) {n d : Int} {f : Rt → Res β} {g : Rat → Res β}
    (h : ∀ q, Refines (f (.of q)) (g q)) : Refines (x.ratio n d >>= f) (ratioNew n d >>= g) := by
  rcases ratio_ref hx n d with e | e
  · rw [e]
    cases hq : ratioNew n d with
    | error e => exact .rfl'
    | ok q => exact h q
  · rw [e]; exact Or.inr rfl

theorem surdAddRat_ref (hx : x.checks = true) (cfg : Cfg) (s : Surd) (q : Rat) :
    Refines (x.surdAddRat cfg s (.of q)) (s.addRat cfg q) := forward_ref hx cfg s (coeffsAddRat_ref hx _ q)
theorem surdSubRat_ref (hx : x.checks = true) (cfg : Cfg) (s : Surd) (q : Rat) :
    Refines (x.surdSubRat cfg s (.of q)) (s.subRat cfg q) := forward_ref hx cfg s (coeffsSubRat_ref hx _ q)
theorem surdMulRat_ref (hx : x.checks = true) (cfg : Cfg) (s : Surd) (q : Rat) :
    Refines (x.surdMulRat cfg s (.of q)) (s.mulRat cfg q) := forward_ref hx cfg s (coeffsMulRat_ref hx _ q)
theorem surdDivRat_ref (hx : x.checks = true) (cfg : Cfg) (s : Surd) (q : Rat) :
    Refines (x.surdDivRat cfg s (.of q)) (s.divRat cfg q) := forward_ref hx cfg s (coeffsDivRat_ref hx _ q)
theorem surdAddInt_ref (hx : x.checks = true) (cfg : Cfg) (s : Surd) (k : Int) :
    Refines (x.surdAddInt cfg s k) (s.addInt cfg k) := forward_ref hx cfg s (coeffsAddInt_ref hx _ k)
theorem surdSubInt_ref (hx : x.checks = true) (cfg : Cfg) (s : Surd) (k : Int) :
    Refines (x.surdSubInt cfg s k) (s.subInt cfg k) := forward_ref hx cfg s (coeffsSubInt_ref hx _ k)
theorem surdMulInt_ref (hx : x.checks = true) (cfg : Cfg) (s : Surd) (k : Int) :
    Refines (x.surdMulInt cfg s k) (s.mulInt cfg k) := forward_ref hx cfg s (coeffsMulInt_ref hx _ k)
theorem surdDivInt_ref (hx : x.checks = true) (cfg : Cfg) (s : Surd) (k : Int) :
    Refines (x.surdDivInt cfg s k) (s.divInt cfg k) := forward_ref hx cfg s (coeffsDivInt_ref hx _ k)

theorem surdAdd_ref (hx : x.checks = true) (cfg : Cfg) (l r : Surd) :
    Refines (x.surdAdd cfg l r) (Surd.add cfg l r) := by
  unfold surdAdd Surd.add
  split
  · exact ratio_bind hx fun q => surdAddRat_ref hx cfg l q
  · split
    · exact ratio_bind hx fun q => surdAddRat_ref hx cfg r q
    · exact (reduceBinOpUnwrap_ref hx cfg l r).bind fun p _ => forward_ref hx cfg _ (coeffsAdd_ref hx _ _)

theorem surdSub_ref (hx : x.checks = true) (cfg : Cfg) (l r : Surd) :
    Refines (x.surdSub cfg l r) (Surd.sub cfg l r) := by
  unfold surdSub Surd.sub
  split
  · exact ratio_bind hx fun q => surdSubRat_ref hx cfg l q
  · split
    · exact ratio_bind hx fun q => (surdSubRat_ref hx cfg r q).bind fun d _ => surdNeg_ref hx d
    · exact (reduceBinOpUnwrap_ref hx cfg l r).bind fun p _ => forward_ref hx cfg _ (coeffsSub_ref hx _ _)

theorem isPure_b {s : Surd} (h : ¬ s.isRational = true) : s.r ≠ 0 := by
  intro e
  apply h
  simp [Surd.isRational, e]

theorem surdMul_ref (hx : x.checks = true) (cfg : Cfg) (l r : Surd) :
    Refines (x.surdMul cfg l r) (Surd.mul cfg l r) := by
  unfold surdMul Surd.mul
  split
  · exact ratio_bind hx fun q => surdMulRat_ref hx cfg l q
  · rename_i hr
    split
    · exact ratio_bind hx fun q => surdMulRat_ref hx cfg r q
    · split
      · have hg : igcd l.r r.r ≠ 0 := igcd_pos_right (isPure_b hr)
        exact ret_bind hx (div_bind hg (div_bind hg (ret_bind hx (ret_bind hx (ret_bind hx (ret_bind hx
          (surdNew_ref hx _ _ _ _ _)))))))
      · exact (reduceBinOpUnwrap_ref hx cfg l r).bind fun p _ => forward_ref hx cfg _ (coeffsMul_ref hx _ _ _)

theorem surdDiv_ref (hx : x.checks = true) (cfg : Cfg) (l r : Surd) :
    Refines (x.surdDiv cfg l r) (Surd.div cfg l r) := by
  unfold surdDiv Surd.div
  split
  · exact ratio_bind hx fun q => surdDivRat_ref hx cfg l q
  · rename_i hr
    split
    · exact ratio_bind hx fun q => (surdDivRat_ref hx cfg r q).bind fun d _ => recip_ref hx cfg d
    · split
      · have hg : igcd l.r r.r ≠ 0 := igcd_pos_right (isPure_b hr)
        exact ret_bind hx (div_bind hg (div_bind hg (ret_bind hx (ret_bind hx (ret_bind hx (ret_bind hx
          (surdNew_ref hx _ _ _ _ _)))))))
      · exact (reduceBinOpUnwrap_ref hx cfg l r).bind fun p _ => forward_ref hx cfg _ (coeffsDiv_ref hx _ _ _)

theorem fract_ref (hx : x.checks = true) (cfg : Cfg) (s : Surd) : Refines (x.fract cfg s) (s.fract cfg) :=
  (trunc_ref hx cfg s).bind fun t _ => surdSub_ref hx cfg s t

end Fx
end NumIrr
