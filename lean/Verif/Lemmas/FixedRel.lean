/-
Builds with and without overflow checks compared: when the checked run does not panic with an overflow, the unchecked
run does the same.
-/
import Verif.Lemmas.FixedRef

namespace NumIrr
namespace Fx

/-- the same type, compiled without overflow checks -/
def rel (x : Fx) : Fx := ⟨x.w, false⟩

variable {x : Fx}

theorem ret_rel (hx : x.checks = true) (v : Int) : Refines (x.ret v) (x.rel.ret v) := by
  unfold ret
  rw [hx]
  by_cases h : x.fits v = true
  · have h' : x.rel.fits v = true := h
    rw [if_pos h, if_pos h']; exact .rfl'
  · rw [if_neg h]; exact Or.inr rfl

/-- compares two runs of the same text step by step; `ls` are the known comparisons of the parts -/
syntax "same_steps" ident "[" term,* "]" : tactic
macro_rules
  | `(tactic| same_steps $hx:ident [$ls:term,*]) => do
    let args ← ls.getElems.mapM fun t => `(Lean.Parser.Tactic.SolveByElim.arg| $t:term)
    `(tactic| repeat' (first
      | exact ret_rel $hx _
      | solve_by_elim only [$args,*]
      | with_reducible exact Refines.rfl'
      | (with_reducible refine Refines.bind ?_ fun _ _ => ?_)
      | split
      | exact Refines.rfl'))

theorem coeffsAdd_rel (hx : x.checks = true) (l r : Coeffs) : Refines (x.coeffsAdd l r) (x.rel.coeffsAdd l r) := by
  unfold coeffsAdd
  same_steps hx []

theorem coeffsSub_rel (hx : x.checks = true) (l r : Coeffs) : Refines (x.coeffsSub l r) (x.rel.coeffsSub l r) := by
  unfold coeffsSub
  same_steps hx []

theorem coeffsMul_rel (hx : x.checks = true) (l r : Coeffs) (d : Int) : Refines (x.coeffsMul l r d) (x.rel.coeffsMul l r d) := by
  unfold coeffsMul
  same_steps hx []

theorem coeffsDiv_rel (hx : x.checks = true) (l r : Coeffs) (d : Int) : Refines (x.coeffsDiv l r d) (x.rel.coeffsDiv l r d) := by
  unfold coeffsDiv
  same_steps hx []

theorem coeffsAddRat_rel (hx : x.checks = true) (l : Coeffs) (q : Rt) : Refines (x.coeffsAddRat l q) (x.rel.coeffsAddRat l q) := by
  unfold coeffsAddRat
  same_steps hx []

theorem coeffsSubRat_rel (hx : x.checks = true) (l : Coeffs) (q : Rt) : Refines (x.coeffsSubRat l q) (x.rel.coeffsSubRat l q) := by
  unfold coeffsSubRat
  same_steps hx []

theorem coeffsMulRat_rel (hx : x.checks = true) (l : Coeffs) (q : Rt) : Refines (x.coeffsMulRat l q) (x.rel.coeffsMulRat l q) := by
  unfold coeffsMulRat
  same_steps hx []

theorem coeffsDivRat_rel (hx : x.checks = true) (l : Coeffs) (q : Rt) : Refines (x.coeffsDivRat l q) (x.rel.coeffsDivRat l q) := by
  unfold coeffsDivRat
  same_steps hx []

theorem coeffsAddInt_rel (hx : x.checks = true) (l : Coeffs) (k : Int) : Refines (x.coeffsAddInt l k) (x.rel.coeffsAddInt l k) := by
  unfold coeffsAddInt
  same_steps hx []

theorem coeffsSubInt_rel (hx : x.checks = true) (l : Coeffs) (k : Int) : Refines (x.coeffsSubInt l k) (x.rel.coeffsSubInt l k) := by
  unfold coeffsSubInt
  same_steps hx []

theorem coeffsMulInt_rel (hx : x.checks = true) (l : Coeffs) (k : Int) : Refines (x.coeffsMulInt l k) (x.rel.coeffsMulInt l k) := by
  unfold coeffsMulInt
  same_steps hx []

theorem coeffsDivInt_rel (hx : x.checks = true) (l : Coeffs) (k : Int) : Refines (x.coeffsDivInt l k) (x.rel.coeffsDivInt l k) := by
  unfold coeffsDivInt
  same_steps hx []

theorem ratio_rel (hx : x.checks = true) (n d : Int) : Refines (x.ratio n d) (x.rel.ratio n d) := by
  unfold ratio
  same_steps hx []

theorem reduceSquare_rel (hx : x.checks = true) (s : Surd) : Refines (x.reduceSquare s) (x.rel.reduceSquare s) := by
  unfold reduceSquare
  same_steps hx []

theorem reduceRat_rel (hx : x.checks = true) (s : Surd) : Refines (x.reduceRat s) (x.rel.reduceRat s) := by
  unfold reduceRat
  same_steps hx []

theorem reduceFactor_rel (hx : x.checks = true) (s : Surd) : Refines (x.reduceFactor s) (x.rel.reduceFactor s) := by
  unfold reduceFactor
  same_steps hx []

theorem reduceIrr_rel (hx : x.checks = true) (s : Surd) : Refines (x.reduceIrr s) (x.rel.reduceIrr s) := by
  unfold reduceIrr
  same_steps hx [reduceFactor_rel hx]

theorem reduceSign_rel (hx : x.checks = true) (s : Surd) : Refines (x.reduceSign s) (x.rel.reduceSign s) := by
  unfold reduceSign
  same_steps hx []

theorem reduce_rel (hx : x.checks = true) (s : Surd) : Refines (x.reduce s) (x.rel.reduce s) := by
  unfold reduce
  same_steps hx [reduceSquare_rel hx, reduceRat_rel hx, reduceIrr_rel hx, reduceSign_rel hx]

theorem reduceRootHinted_rel (hx : x.checks = true) (s : Surd) (h : Int) : Refines (x.reduceRootHinted s h) (x.rel.reduceRootHinted s h) := by
  unfold reduceRootHinted
  same_steps hx []

theorem surdNew_rel (hx : x.checks = true) (cfg : Cfg) (a b c r : Int) : Refines (x.surdNew cfg a b c r) (x.rel.surdNew cfg a b c r) := by
  unfold surdNew
  same_steps hx [reduce_rel hx]

theorem fromCoeffs_rel (hx : x.checks = true) (cfg : Cfg) (l : Coeffs) (r : Int) : Refines (x.fromCoeffs cfg l r) (x.rel.fromCoeffs cfg l r) := by
  unfold fromCoeffs
  same_steps hx [reduce_rel hx]

theorem fromRationals_rel (hx : x.checks = true) (cfg : Cfg) (a b r : Rt) : Refines (x.fromRationals cfg a b r) (x.rel.fromRationals cfg a b r) := by
  unfold fromRationals
  same_steps hx [reduce_rel hx]

theorem fromSqrtInt_rel (hx : x.checks = true) (cfg : Cfg) (t : Int) : Refines (x.fromSqrtInt cfg t) (x.rel.fromSqrtInt cfg t) := by
  unfold fromSqrtInt
  same_steps hx [surdNew_rel hx]

theorem recip_rel (hx : x.checks = true) (cfg : Cfg) (s : Surd) : Refines (x.recip cfg s) (x.rel.recip cfg s) := by
  unfold recip
  same_steps hx [surdNew_rel hx]

theorem conj_rel (hx : x.checks = true) (s : Surd) : Refines (x.conj s) (x.rel.conj s) := by
  unfold conj
  same_steps hx []

theorem surdNeg_rel (hx : x.checks = true) (s : Surd) : Refines (x.surdNeg s) (x.rel.surdNeg s) := by
  unfold surdNeg
  same_steps hx []

theorem trunc_rel (hx : x.checks = true) (cfg : Cfg) (s : Surd) : Refines (x.trunc cfg s) (x.rel.trunc cfg s) := by
  unfold trunc
  same_steps hx [fromCoeffs_rel hx]

theorem toInteger_rel (hx : x.checks = true) (cfg : Cfg) (s : Surd) : Refines (x.toInteger cfg s) (x.rel.toInteger cfg s) := by
  unfold toInteger
  same_steps hx [trunc_rel hx]

theorem toRational_rel (hx : x.checks = true) (cfg : Cfg) (s : Surd) : Refines (x.toRational cfg s) (x.rel.toRational cfg s) := by
  unfold toRational
  same_steps hx []

theorem floor_rel (hx : x.checks = true) (cfg : Cfg) (s : Surd) : Refines (x.floor cfg s) (x.rel.floor cfg s) := by
  unfold floor
  same_steps hx []

theorem cmpSquares_rel (hx : x.checks = true) (s : Surd) (less : Bool) : Refines (x.cmpSquares s less) (x.rel.cmpSquares s less) := by
  unfold cmpSquares
  same_steps hx []

theorem isPositive_rel (hx : x.checks = true) (cfg : Cfg) (s : Surd) : Refines (x.isPositive cfg s) (x.rel.isPositive cfg s) := by
  unfold isPositive
  same_steps hx [cmpSquares_rel hx]

theorem isNegative_rel (hx : x.checks = true) (cfg : Cfg) (s : Surd) : Refines (x.isNegative cfg s) (x.rel.isNegative cfg s) := by
  unfold isNegative
  same_steps hx [cmpSquares_rel hx]

theorem eq_rel (hx : x.checks = true) (l r : Surd) : Refines (x.eq l r) (x.rel.eq l r) := by
  unfold eq
  same_steps hx []

theorem reduceBinOp_rel (hx : x.checks = true) (cfg : Cfg) (l r : Surd) : Refines (x.reduceBinOp cfg l r) (x.rel.reduceBinOp cfg l r) := by
  unfold reduceBinOp
  same_steps hx [reduceRootHinted_rel hx]

theorem reduceBinOpUnwrap_rel (hx : x.checks = true) (cfg : Cfg) (l r : Surd) : Refines (x.reduceBinOpUnwrap cfg l r) (x.rel.reduceBinOpUnwrap cfg l r) := by
  unfold reduceBinOpUnwrap
  same_steps hx [reduceBinOp_rel hx]

theorem forward_rel (hx : x.checks = true) (cfg : Cfg) (s : Surd) {op op' : Res Coeffs} (h : Refines op op') :
    Refines (x.forward cfg s op) (x.rel.forward cfg s op') := h.bind fun _ _ => fromCoeffs_rel hx _ _ _

theorem surdAddInt_rel (hx : x.checks = true) (cfg : Cfg) (s : Surd) (k : Int) :
    Refines (x.surdAddInt cfg s k) (x.rel.surdAddInt cfg s k) := forward_rel hx cfg s (coeffsAddInt_rel hx _ _)
theorem surdSubInt_rel (hx : x.checks = true) (cfg : Cfg) (s : Surd) (k : Int) :
    Refines (x.surdSubInt cfg s k) (x.rel.surdSubInt cfg s k) := forward_rel hx cfg s (coeffsSubInt_rel hx _ _)
theorem surdMulInt_rel (hx : x.checks = true) (cfg : Cfg) (s : Surd) (k : Int) :
    Refines (x.surdMulInt cfg s k) (x.rel.surdMulInt cfg s k) := forward_rel hx cfg s (coeffsMulInt_rel hx _ _)
theorem surdDivInt_rel (hx : x.checks = true) (cfg : Cfg) (s : Surd) (k : Int) :
    Refines (x.surdDivInt cfg s k) (x.rel.surdDivInt cfg s k) := forward_rel hx cfg s (coeffsDivInt_rel hx _ _)
theorem surdAddRat_rel (hx : x.checks = true) (cfg : Cfg) (s : Surd) (q : Rt) :
    Refines (x.surdAddRat cfg s q) (x.rel.surdAddRat cfg s q) := forward_rel hx cfg s (coeffsAddRat_rel hx _ _)
theorem surdSubRat_rel (hx : x.checks = true) (cfg : Cfg) (s : Surd) (q : Rt) :
    Refines (x.surdSubRat cfg s q) (x.rel.surdSubRat cfg s q) := forward_rel hx cfg s (coeffsSubRat_rel hx _ _)
theorem surdMulRat_rel (hx : x.checks = true) (cfg : Cfg) (s : Surd) (q : Rt) :
    Refines (x.surdMulRat cfg s q) (x.rel.surdMulRat cfg s q) := forward_rel hx cfg s (coeffsMulRat_rel hx _ _)
theorem surdDivRat_rel (hx : x.checks = true) (cfg : Cfg) (s : Surd) (q : Rt) :
    Refines (x.surdDivRat cfg s q) (x.rel.surdDivRat cfg s q) := forward_rel hx cfg s (coeffsDivRat_rel hx _ _)

theorem surdAdd_rel (hx : x.checks = true) (cfg : Cfg) (l r : Surd) :
    Refines (x.surdAdd cfg l r) (x.rel.surdAdd cfg l r) := by
  have hf : ∀ p : Surd × Surd, Refines (x.forward cfg p.1 (x.coeffsAdd p.1.coeffs p.2.coeffs))
      (x.rel.forward cfg p.1 (x.rel.coeffsAdd p.1.coeffs p.2.coeffs)) :=
    fun p => forward_rel hx cfg _ (coeffsAdd_rel hx _ _)
  unfold surdAdd
  same_steps hx [ratio_rel hx, surdAddRat_rel hx, reduceBinOpUnwrap_rel hx, hf]

theorem surdSub_rel (hx : x.checks = true) (cfg : Cfg) (l r : Surd) :
    Refines (x.surdSub cfg l r) (x.rel.surdSub cfg l r) := by
  have hf : ∀ p : Surd × Surd, Refines (x.forward cfg p.1 (x.coeffsSub p.1.coeffs p.2.coeffs))
      (x.rel.forward cfg p.1 (x.rel.coeffsSub p.1.coeffs p.2.coeffs)) :=
    fun p => forward_rel hx cfg _ (coeffsSub_rel hx _ _)
  unfold surdSub
  same_steps hx [ratio_rel hx, surdSubRat_rel hx, reduceBinOpUnwrap_rel hx, hf, surdNeg_rel hx]

theorem surdMul_rel (hx : x.checks = true) (cfg : Cfg) (l r : Surd) :
    Refines (x.surdMul cfg l r) (x.rel.surdMul cfg l r) := by
  have hf : ∀ p : Surd × Surd, Refines (x.forward cfg p.1 (x.coeffsMul p.1.coeffs p.2.coeffs p.1.r))
      (x.rel.forward cfg p.1 (x.rel.coeffsMul p.1.coeffs p.2.coeffs p.1.r)) :=
    fun p => forward_rel hx cfg _ (coeffsMul_rel hx _ _ _)
  unfold surdMul
  same_steps hx [ratio_rel hx, surdMulRat_rel hx, reduceBinOpUnwrap_rel hx, hf, surdNew_rel hx]

theorem surdDiv_rel (hx : x.checks = true) (cfg : Cfg) (l r : Surd) :
    Refines (x.surdDiv cfg l r) (x.rel.surdDiv cfg l r) := by
  have hf : ∀ p : Surd × Surd, Refines (x.forward cfg p.1 (x.coeffsDiv p.1.coeffs p.2.coeffs p.1.r))
      (x.rel.forward cfg p.1 (x.rel.coeffsDiv p.1.coeffs p.2.coeffs p.1.r)) :=
    fun p => forward_rel hx cfg _ (coeffsDiv_rel hx _ _ _)
  unfold surdDiv
  same_steps hx [ratio_rel hx, surdDivRat_rel hx, reduceBinOpUnwrap_rel hx, hf, surdNew_rel hx, recip_rel hx]

theorem fract_rel (hx : x.checks = true) (cfg : Cfg) (s : Surd) : Refines (x.fract cfg s) (x.rel.fract cfg s) := by
  unfold fract
  same_steps hx [trunc_rel hx, surdSub_rel hx]

end Fx
end NumIrr
