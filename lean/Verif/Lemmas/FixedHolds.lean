/-
Every integer stored by a function of Model/FixedSurd is representable, with or without overflow checks.
-/
import Verif.Spec.Fixed
import Mathlib.Tactic.Linarith
import Mathlib.Tactic.Ring
import Mathlib.Tactic.Positivity

namespace NumIrr

/-- what is returned, if anything, has the property `P` -/
def Ens {α : Type} (r : Res α) (P : α → Prop) : Prop := ∀ v, r = .ok v → P v

theorem Ens.bind {α β : Type} {r : Res α} {P : α → Prop} {f : α → Res β} {Q : β → Prop} (h : Ens r P)
    (hf : ∀ v, P v → Ens (f v) Q) : Ens (r >>= f) Q := by
  cases r with
  | error e => intro v hv; cases hv
  | ok v => exact hf v (h v rfl)

theorem Ens.pure {α : Type} {v : α} {P : α → Prop} (h : P v) : Ens (.ok v : Res α) P := by
  intro w hw; cases hw; exact h

theorem Ens.err {α : Type} {e : Panic} {P : α → Prop} : Ens (.error e : Res α) P := by
  intro w hw; cases hw

theorem Ens.triv {α : Type} {r : Res α} : Ens r (fun _ => True) := fun _ _ => trivial

namespace Fx

variable {x : Fx}

theorem fits_holds {n : Int} (h : x.fits n = true) : x.Holds n := by
  simpa [fits, IntTy.signed, Holds] using h

theorem wrap_holds (hw : 2 ≤ x.w) (n : Int) : x.Holds ((IntTy.signed x.w).wrap n) := by
  obtain ⟨k, hk⟩ : ∃ k, x.w = k + 1 := ⟨x.w - 1, by omega⟩
  simp only [Holds, IntTy.signed, hk, Nat.add_sub_cancel]
  have hp : (2 : Int) ^ (k + 1) = 2 * 2 ^ k := by ring
  have h0 : (0 : Int) < 2 ^ k := by positivity
  have h1 := Int.emod_nonneg (n + 2 ^ k) (show (2 : Int) ^ (k + 1) ≠ 0 by omega)
  have h2 := Int.emod_lt_of_pos (n + 2 ^ k) (show (0 : Int) < 2 ^ (k + 1) by omega)
  constructor <;> omega

theorem ret_holds (hw : 2 ≤ x.w) (v : Int) : Ens (x.ret v) x.Holds := by
  unfold ret
  split
  · rename_i h; exact Ens.pure (fits_holds h)
  · split
    · exact Ens.err
    · exact Ens.pure (wrap_holds hw v)

theorem div_holds (a b : Int) : Ens (x.div a b) x.Holds := by
  unfold div
  split
  · exact Ens.err
  · split
    · rename_i h; exact Ens.pure (fits_holds h)
    · exact Ens.err

theorem holds_zero (x : Fx) : x.Holds 0 := by
  have : (0 : Int) < 2 ^ (x.w - 1) := by positivity
  constructor <;> omega

theorem holds_one (hw : 2 ≤ x.w) : x.Holds 1 := by
  have h : (2 : Int) ^ 1 ≤ 2 ^ (x.w - 1) := pow_le_pow_right₀ (by norm_num) (by omega)
  constructor <;> omega

/-- coefficients -/
def HoldsC (x : Fx) (t : Coeffs) : Prop := x.Holds t.a ∧ x.Holds t.b ∧ x.Holds t.c

/-- rationals -/
def HoldsR (x : Fx) (q : Rt) : Prop := x.Holds q.num ∧ x.Holds q.den

/-- walks through the operators of a function -/
syntax "hold_steps" ident : tactic
macro_rules
  | `(tactic| hold_steps $hw:ident) =>
    `(tactic| repeat' (first
      | exact Ens.err
      | (refine Ens.pure ?_; (repeat' (first | assumption | exact holds_zero _ | exact holds_one $hw | refine And.intro ?_ ?_)); done)
      | refine Ens.bind (ret_holds $hw _) fun _ _ => ?_
      | refine Ens.bind (div_holds _ _) fun _ _ => ?_
      | refine Ens.bind Ens.triv fun _ _ => ?_
      | split))

theorem coeffsAdd_holds (hw : 2 ≤ x.w) {l r : Coeffs} (hl : x.HoldsC l) (hr : x.HoldsC r) : Ens (x.coeffsAdd l r) x.HoldsC := by
  obtain ⟨_, _, _⟩ := hl
  obtain ⟨_, _, _⟩ := hr
  unfold coeffsAdd
  hold_steps hw

theorem coeffsSub_holds (hw : 2 ≤ x.w) {l r : Coeffs} (hl : x.HoldsC l) (hr : x.HoldsC r) : Ens (x.coeffsSub l r) x.HoldsC := by
  obtain ⟨_, _, _⟩ := hl
  obtain ⟨_, _, _⟩ := hr
  unfold coeffsSub
  hold_steps hw

theorem coeffsMul_holds (hw : 2 ≤ x.w) (l r : Coeffs) (d : Int) : Ens (x.coeffsMul l r d) x.HoldsC := by
  unfold coeffsMul
  hold_steps hw

theorem coeffsDiv_holds (hw : 2 ≤ x.w) (l r : Coeffs) (d : Int) : Ens (x.coeffsDiv l r d) x.HoldsC := by
  unfold coeffsDiv
  hold_steps hw

theorem coeffsAddRat_holds (hw : 2 ≤ x.w) {l : Coeffs} (hl : x.HoldsC l) (q : Rt) : Ens (x.coeffsAddRat l q) x.HoldsC := by
  obtain ⟨_, _, _⟩ := hl
  unfold coeffsAddRat
  hold_steps hw

theorem coeffsSubRat_holds (hw : 2 ≤ x.w) {l : Coeffs} (hl : x.HoldsC l) (q : Rt) : Ens (x.coeffsSubRat l q) x.HoldsC := by
  obtain ⟨_, _, _⟩ := hl
  unfold coeffsSubRat
  hold_steps hw

theorem coeffsMulRat_holds (hw : 2 ≤ x.w) {l : Coeffs} (hl : x.HoldsC l) (q : Rt) : Ens (x.coeffsMulRat l q) x.HoldsC := by
  obtain ⟨_, _, _⟩ := hl
  unfold coeffsMulRat
  hold_steps hw

theorem coeffsDivRat_holds (hw : 2 ≤ x.w) {l : Coeffs} (hl : x.HoldsC l) (q : Rt) : Ens (x.coeffsDivRat l q) x.HoldsC := by
  obtain ⟨_, _, _⟩ := hl
  unfold coeffsDivRat
  hold_steps hw

theorem coeffsAddInt_holds (hw : 2 ≤ x.w) {l : Coeffs} (hl : x.HoldsC l) (k : Int) : Ens (x.coeffsAddInt l k) x.HoldsC := by
  obtain ⟨_, _, _⟩ := hl
  unfold coeffsAddInt
  hold_steps hw

theorem coeffsSubInt_holds (hw : 2 ≤ x.w) {l : Coeffs} (hl : x.HoldsC l) (k : Int) : Ens (x.coeffsSubInt l k) x.HoldsC := by
  obtain ⟨_, _, _⟩ := hl
  unfold coeffsSubInt
  hold_steps hw

theorem coeffsMulInt_holds (hw : 2 ≤ x.w) {l : Coeffs} (hl : x.HoldsC l) (k : Int) : Ens (x.coeffsMulInt l k) x.HoldsC := by
  obtain ⟨_, _, _⟩ := hl
  unfold coeffsMulInt
  hold_steps hw

theorem coeffsDivInt_holds (hw : 2 ≤ x.w) {l : Coeffs} (hl : x.HoldsC l) (k : Int) : Ens (x.coeffsDivInt l k) x.HoldsC := by
  obtain ⟨_, _, _⟩ := hl
  unfold coeffsDivInt
  hold_steps hw

theorem ratio_holds (hw : 2 ≤ x.w) (n d : Int) : Ens (x.ratio n d) x.HoldsR := by
  unfold ratio
  hold_steps hw

theorem reduceSquare_holds (hw : 2 ≤ x.w) {s : Surd} (hs : x.HoldsS s) : Ens (x.reduceSquare s) x.HoldsS := by
  have hs' := hs
  obtain ⟨_, _, _, _⟩ := hs
  unfold reduceSquare
  hold_steps hw

theorem reduceRat_holds (hw : 2 ≤ x.w) {s : Surd} (hs : x.HoldsS s) : Ens (x.reduceRat s) x.HoldsS := by
  have hs' := hs
  obtain ⟨_, _, _, _⟩ := hs
  unfold reduceRat
  hold_steps hw

theorem reduceSign_holds (hw : 2 ≤ x.w) {s : Surd} (hs : x.HoldsS s) : Ens (x.reduceSign s) x.HoldsS := by
  have hs' := hs
  obtain ⟨_, _, _, _⟩ := hs
  unfold reduceSign
  hold_steps hw

theorem reduceFactor_holds (hw : 2 ≤ x.w) {s : Surd} (hs : x.HoldsS s) :
    Ens (x.reduceFactor s) (fun t => x.HoldsS t.1 ∧ x.Holds t.2) := by
  have hs' := hs
  obtain ⟨_, _, _, _⟩ := hs
  unfold reduceFactor
  hold_steps hw

theorem reduceIrr_holds (hw : 2 ≤ x.w) {s : Surd} (hs : x.HoldsS s) : Ens (x.reduceIrr s) x.HoldsS := by
  unfold reduceIrr
  refine (reduceFactor_holds hw hs).bind fun t ht => ?_
  obtain ⟨⟨_, _, _, _⟩, _⟩ := ht
  hold_steps hw

theorem reduce_holds (hw : 2 ≤ x.w) {s : Surd} (hs : x.HoldsS s) : Ens (x.reduce s) x.HoldsS := by
  unfold reduce
  split
  · exact Ens.err
  · refine (reduceSquare_holds hw hs).bind fun t ht => ?_
    refine Ens.bind (P := x.HoldsS) ?_ fun t ht => reduceSign_holds hw ht
    split
    · exact reduceRat_holds hw ht
    · exact reduceIrr_holds hw ht

theorem reduceRootHinted_holds (hw : 2 ≤ x.w) {s : Surd} (hs : x.HoldsS s) (h : Int) :
    Ens (x.reduceRootHinted s h) x.HoldsS := by
  have hs' := hs
  obtain ⟨_, _, _, _⟩ := hs
  unfold reduceRootHinted
  refine Ens.bind Ens.triv fun _ _ => ?_
  split
  · exact Ens.pure hs'
  · refine Ens.bind (div_holds _ _) fun _ _ => ?_
    refine Ens.bind Ens.triv fun _ _ => ?_
    split
    · refine Ens.bind Ens.triv fun _ _ => ?_
      refine Ens.bind Ens.triv fun _ _ => ?_
      split
      · hold_steps hw
      · exact Ens.pure hs'
    · exact Ens.pure hs'

theorem fromCoeffs_holds (hw : 2 ≤ x.w) (cfg : Cfg) {t : Coeffs} {r : Int} (ht : x.HoldsC t) (hr : x.Holds r) :
    Ens (x.fromCoeffs cfg t r) x.HoldsS := by
  unfold fromCoeffs
  split
  · exact Ens.err
  · exact reduce_holds hw ⟨ht.1, ht.2.1, ht.2.2, hr⟩

theorem surdNew_holds (hw : 2 ≤ x.w) (cfg : Cfg) {a b c r : Int} (ha : x.Holds a) (hb : x.Holds b) (hc : x.Holds c)
    (hr : x.Holds r) : Ens (x.surdNew cfg a b c r) x.HoldsS :=
  fromCoeffs_holds hw cfg (t := ⟨a, b, c⟩) ⟨ha, hb, hc⟩ hr

theorem fromRationals_holds (hw : 2 ≤ x.w) (cfg : Cfg) (a b r : Rt) : Ens (x.fromRationals cfg a b r) x.HoldsS := by
  unfold fromRationals
  split
  · exact Ens.err
  · refine Ens.bind (ret_holds hw _) fun _ h1 => ?_
    refine Ens.bind (ret_holds hw _) fun _ h2 => ?_
    refine Ens.bind (ret_holds hw _) fun _ h3 => ?_
    refine Ens.bind (ret_holds hw _) fun _ h4 => ?_
    refine Ens.bind (ret_holds hw _) fun _ h5 => ?_
    exact reduce_holds hw ⟨h3, h4, h5, h1⟩

theorem recip_holds (hw : 2 ≤ x.w) (cfg : Cfg) {s : Surd} (hs : x.HoldsS s) : Ens (x.recip cfg s) x.HoldsS := by
  unfold recip
  refine Ens.bind (ret_holds hw _) fun _ h1 => ?_
  refine Ens.bind (ret_holds hw _) fun _ h2 => ?_
  refine Ens.bind (ret_holds hw _) fun _ h3 => ?_
  refine Ens.bind (ret_holds hw _) fun _ h4 => ?_
  refine Ens.bind (ret_holds hw _) fun _ h5 => ?_
  refine Ens.bind (ret_holds hw _) fun _ h6 => ?_
  refine Ens.bind (ret_holds hw _) fun _ h7 => ?_
  exact surdNew_holds hw cfg h4 h5 h7 hs.2.2.2

theorem conj_holds (hw : 2 ≤ x.w) {s : Surd} (hs : x.HoldsS s) : Ens (x.conj s) x.HoldsS := by
  obtain ⟨_, _, _, _⟩ := hs
  unfold conj
  hold_steps hw

theorem surdNeg_holds (hw : 2 ≤ x.w) {s : Surd} (hs : x.HoldsS s) : Ens (x.surdNeg s) x.HoldsS := by
  obtain ⟨_, _, _, _⟩ := hs
  unfold surdNeg
  hold_steps hw

theorem trunc_holds (hw : 2 ≤ x.w) (cfg : Cfg) (s : Surd) : Ens (x.trunc cfg s) x.HoldsS := by
  unfold trunc
  split
  · iterate 5 refine Ens.bind Ens.triv fun _ _ => ?_
    refine Ens.bind (div_holds _ _) fun _ h1 => ?_
    refine Ens.bind (div_holds _ _) fun _ h2 => ?_
    refine Ens.bind (ret_holds hw _) fun _ h3 => ?_
    exact fromCoeffs_holds hw cfg ⟨h1, h2, holds_one hw⟩ h3
  · iterate 5 refine Ens.bind Ens.triv fun _ _ => ?_
    refine Ens.bind (div_holds _ _) fun _ h1 => ?_
    exact Ens.pure ⟨h1, holds_zero _, holds_one hw, holds_zero _⟩

theorem floor_holds (hw : 2 ≤ x.w) (cfg : Cfg) (s : Surd) : Ens (x.floor cfg s) x.HoldsS := by
  unfold floor
  iterate 6 refine Ens.bind Ens.triv fun _ _ => ?_
  refine Ens.bind (div_holds _ _) fun _ h1 => ?_
  exact Ens.pure ⟨h1, holds_zero _, holds_one hw, holds_zero _⟩

theorem sameRoot_holds {a b : Surd} (ha : x.HoldsS a) (hb : x.HoldsS b) (p : Surd × Surd)
    (h : sameRoot (a, b) = some p) : x.HoldsS p.1 ∧ x.HoldsS p.2 := by
  unfold sameRoot at h
  split at h
  · cases h; exact ⟨ha, hb⟩
  · cases h

theorem reduceBinOp_holds (hw : 2 ≤ x.w) (cfg : Cfg) {l r : Surd} (hl : x.HoldsS l) (hr : x.HoldsS r) :
    Ens (x.reduceBinOp cfg l r) (fun o => ∀ p, o = some p → x.HoldsS p.1 ∧ x.HoldsS p.2) := by
  unfold reduceBinOp
  repeat' (first
    | exact Ens.err
    | exact Ens.pure fun p hp => (by cases hp)
    | exact Ens.pure (sameRoot_holds hl hr)
    | exact (reduceRootHinted_holds hw hl _).bind fun t ht => Ens.pure (sameRoot_holds ht hr)
    | exact (reduceRootHinted_holds hw hr _).bind fun t ht => Ens.pure (sameRoot_holds hl ht)
    | refine Ens.bind Ens.triv fun _ _ => ?_
    | split)

theorem reduceBinOpUnwrap_holds (hw : 2 ≤ x.w) (cfg : Cfg) {l r : Surd} (hl : x.HoldsS l) (hr : x.HoldsS r) :
    Ens (x.reduceBinOpUnwrap cfg l r) (fun p => x.HoldsS p.1 ∧ x.HoldsS p.2) := by
  unfold reduceBinOpUnwrap
  refine (reduceBinOp_holds hw cfg hl hr).bind fun o ho => ?_
  split
  · exact Ens.pure (ho _ rfl)
  · exact Ens.err

theorem HoldsS.coeffs {s : Surd} (hs : x.HoldsS s) : x.HoldsC s.coeffs := ⟨hs.1, hs.2.1, hs.2.2.1⟩

theorem forward_holds (hw : 2 ≤ x.w) (cfg : Cfg) {s : Surd} {op : Res Coeffs} (hs : x.HoldsS s)
    (hop : Ens op x.HoldsC) : Ens (x.forward cfg s op) x.HoldsS :=
  hop.bind fun _ ht => fromCoeffs_holds hw cfg ht hs.2.2.2

theorem surdAddInt_holds (hw : 2 ≤ x.w) (cfg : Cfg) {s : Surd} (hs : x.HoldsS s) (k : Int) :
    Ens (x.surdAddInt cfg s k) x.HoldsS := forward_holds hw cfg hs (coeffsAddInt_holds hw hs.coeffs k)

theorem surdSubInt_holds (hw : 2 ≤ x.w) (cfg : Cfg) {s : Surd} (hs : x.HoldsS s) (k : Int) :
    Ens (x.surdSubInt cfg s k) x.HoldsS := forward_holds hw cfg hs (coeffsSubInt_holds hw hs.coeffs k)

theorem surdMulInt_holds (hw : 2 ≤ x.w) (cfg : Cfg) {s : Surd} (hs : x.HoldsS s) (k : Int) :
    Ens (x.surdMulInt cfg s k) x.HoldsS := forward_holds hw cfg hs (coeffsMulInt_holds hw hs.coeffs k)

theorem surdDivInt_holds (hw : 2 ≤ x.w) (cfg : Cfg) {s : Surd} (hs : x.HoldsS s) (k : Int) :
    Ens (x.surdDivInt cfg s k) x.HoldsS := forward_holds hw cfg hs (coeffsDivInt_holds hw hs.coeffs k)

theorem surdAddRat_holds (hw : 2 ≤ x.w) (cfg : Cfg) {s : Surd} (hs : x.HoldsS s) (k : Rt) :
    Ens (x.surdAddRat cfg s k) x.HoldsS := forward_holds hw cfg hs (coeffsAddRat_holds hw hs.coeffs k)

theorem surdSubRat_holds (hw : 2 ≤ x.w) (cfg : Cfg) {s : Surd} (hs : x.HoldsS s) (k : Rt) :
    Ens (x.surdSubRat cfg s k) x.HoldsS := forward_holds hw cfg hs (coeffsSubRat_holds hw hs.coeffs k)

theorem surdMulRat_holds (hw : 2 ≤ x.w) (cfg : Cfg) {s : Surd} (hs : x.HoldsS s) (k : Rt) :
    Ens (x.surdMulRat cfg s k) x.HoldsS := forward_holds hw cfg hs (coeffsMulRat_holds hw hs.coeffs k)

theorem surdDivRat_holds (hw : 2 ≤ x.w) (cfg : Cfg) {s : Surd} (hs : x.HoldsS s) (k : Rt) :
    Ens (x.surdDivRat cfg s k) x.HoldsS := forward_holds hw cfg hs (coeffsDivRat_holds hw hs.coeffs k)

theorem surdAdd_holds (hw : 2 ≤ x.w) (cfg : Cfg) {l r : Surd} (hl : x.HoldsS l) (hr : x.HoldsS r) :
    Ens (x.surdAdd cfg l r) x.HoldsS := by
  unfold surdAdd
  split
  · exact Ens.bind Ens.triv fun _ _ => surdAddRat_holds hw cfg hl _
  · split
    · exact Ens.bind Ens.triv fun _ _ => surdAddRat_holds hw cfg hr _
    · refine (reduceBinOpUnwrap_holds hw cfg hl hr).bind fun p hp => ?_
      exact forward_holds hw cfg hp.1 (coeffsAdd_holds hw hp.1.coeffs hp.2.coeffs)

theorem surdSub_holds (hw : 2 ≤ x.w) (cfg : Cfg) {l r : Surd} (hl : x.HoldsS l) (hr : x.HoldsS r) :
    Ens (x.surdSub cfg l r) x.HoldsS := by
  unfold surdSub
  split
  · exact Ens.bind Ens.triv fun _ _ => surdSubRat_holds hw cfg hl _
  · split
    · exact Ens.bind Ens.triv fun _ _ => (surdSubRat_holds hw cfg hr _).bind fun _ h => surdNeg_holds hw h
    · refine (reduceBinOpUnwrap_holds hw cfg hl hr).bind fun p hp => ?_
      exact forward_holds hw cfg hp.1 (coeffsSub_holds hw hp.1.coeffs hp.2.coeffs)

theorem surdMul_holds (hw : 2 ≤ x.w) (cfg : Cfg) {l r : Surd} (hl : x.HoldsS l) (hr : x.HoldsS r) :
    Ens (x.surdMul cfg l r) x.HoldsS := by
  unfold surdMul
  split
  · exact Ens.bind Ens.triv fun _ _ => surdMulRat_holds hw cfg hl _
  · split
    · exact Ens.bind Ens.triv fun _ _ => surdMulRat_holds hw cfg hr _
    · split
      · iterate 3 refine Ens.bind Ens.triv fun _ _ => ?_
        refine Ens.bind (ret_holds hw _) fun _ h1 => ?_
        refine Ens.bind Ens.triv fun _ _ => ?_
        refine Ens.bind (ret_holds hw _) fun _ h2 => ?_
        refine Ens.bind (ret_holds hw _) fun _ h3 => ?_
        exact surdNew_holds hw cfg (holds_zero _) h2 h3 h1
      · refine (reduceBinOpUnwrap_holds hw cfg hl hr).bind fun p hp => ?_
        exact forward_holds hw cfg hp.1 (coeffsMul_holds hw _ _ _)

theorem surdDiv_holds (hw : 2 ≤ x.w) (cfg : Cfg) {l r : Surd} (hl : x.HoldsS l) (hr : x.HoldsS r) :
    Ens (x.surdDiv cfg l r) x.HoldsS := by
  unfold surdDiv
  split
  · exact Ens.bind Ens.triv fun _ _ => surdDivRat_holds hw cfg hl _
  · split
    · exact Ens.bind Ens.triv fun _ _ => (surdDivRat_holds hw cfg hr _).bind fun _ h => recip_holds hw cfg h
    · split
      · iterate 3 refine Ens.bind Ens.triv fun _ _ => ?_
        refine Ens.bind (ret_holds hw _) fun _ h1 => ?_
        refine Ens.bind Ens.triv fun _ _ => ?_
        refine Ens.bind (ret_holds hw _) fun _ h2 => ?_
        refine Ens.bind (ret_holds hw _) fun _ h3 => ?_
        exact surdNew_holds hw cfg (holds_zero _) h1 h2 h3
      · refine (reduceBinOpUnwrap_holds hw cfg hl hr).bind fun p hp => ?_
        exact forward_holds hw cfg hp.1 (coeffsDiv_holds hw _ _ _)

theorem fract_holds (hw : 2 ≤ x.w) (cfg : Cfg) {s : Surd} (hs : x.HoldsS s) : Ens (x.fract cfg s) x.HoldsS :=
  (trunc_holds hw cfg s).bind fun _ ht => surdSub_holds hw cfg hs ht

end Fx
end NumIrr
