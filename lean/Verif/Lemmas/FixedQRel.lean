/-
Builds with and without overflow checks compared, for the functions of Model/FixedQInt.
-/
import Verif.Lemmas.FixedQRef

namespace NumIrr
namespace Fx

variable {x : Fx}

theorem divRemRound_rel (hx : x.checks = true) (n y : Int) : Refines (x.divRemRound n y) (x.rel.divRemRound n y) := by
  unfold divRemRound
  same_steps hx []

theorem qcAddInt_rel (hx : x.checks = true) (u : QCoeffs) (k : Int) : Refines (x.qcAddInt u k) (x.rel.qcAddInt u k) := by
  unfold qcAddInt
  same_steps hx []

theorem qcAdd_rel (hx : x.checks = true) (u v : QCoeffs) : Refines (x.qcAdd u v) (x.rel.qcAdd u v) := by
  unfold qcAdd
  same_steps hx []

theorem qcSubInt_rel (hx : x.checks = true) (u : QCoeffs) (k : Int) : Refines (x.qcSubInt u k) (x.rel.qcSubInt u k) := by
  unfold qcSubInt
  same_steps hx []

theorem qcSub_rel (hx : x.checks = true) (u v : QCoeffs) : Refines (x.qcSub u v) (x.rel.qcSub u v) := by
  unfold qcSub
  same_steps hx []

theorem qcMulInt_rel (hx : x.checks = true) (u : QCoeffs) (k : Int) : Refines (x.qcMulInt u k) (x.rel.qcMulInt u k) := by
  unfold qcMulInt
  same_steps hx []

theorem qcDivInt_rel (hx : x.checks = true) (u : QCoeffs) (k : Int) : Refines (x.qcDivInt u k) (x.rel.qcDivInt u k) := by
  unfold qcDivInt
  same_steps hx [divRemRound_rel hx]

theorem qcRemInt_rel (hx : x.checks = true) (u : QCoeffs) (k : Int) : Refines (x.qcRemInt u k) (x.rel.qcRemInt u k) := by
  unfold qcRemInt
  same_steps hx [divRemRound_rel hx]

theorem qcNorm_rel (hx : x.checks = true) (u : QCoeffs) (d : Int) : Refines (x.qcNorm u d) (x.rel.qcNorm u d) := by
  unfold qcNorm
  same_steps hx []

theorem qcMul_rel (hx : x.checks = true) (u v : QCoeffs) (d : Int) : Refines (x.qcMul u v d) (x.rel.qcMul u v d) := by
  unfold qcMul
  mod4_cases d <;> same_steps hx []

theorem qcDivNumer_rel (hx : x.checks = true) (u v : QCoeffs) (d : Int) : Refines (x.qcDivNumer u v d) (x.rel.qcDivNumer u v d) := by
  unfold qcDivNumer
  mod4_cases d <;> same_steps hx []

theorem qcDivRem_rel (hx : x.checks = true) (u v : QCoeffs) (d : Int) : Refines (x.qcDivRem u v d) (x.rel.qcDivRem u v d) := by
  unfold qcDivRem
  exact (qcDivNumer_rel hx _ _ _).bind fun _ _ => (qcNorm_rel hx _ _).bind fun _ _ =>
    (divRemRound_rel hx _ _).bind fun _ _ => (divRemRound_rel hx _ _).bind fun _ _ =>
    (qcMul_rel hx _ _ _).bind fun _ _ => (qcDivInt_rel hx _ _).bind fun _ _ => .rfl'

theorem qcDiv_rel (hx : x.checks = true) (u v : QCoeffs) (d : Int) : Refines (x.qcDiv u v d) (x.rel.qcDiv u v d) := by
  unfold qcDiv
  same_steps hx [qcDivRem_rel hx]

theorem qcConj_rel (hx : x.checks = true) (u : QCoeffs) (d : Int) : Refines (x.qcConj u d) (x.rel.qcConj u d) := by
  unfold qcConj
  same_steps hx []

theorem qSquare_rel (hx : x.checks = true) (c : QCoeffs) (d : Int) : Refines (x.qSquare c d) (x.rel.qSquare c d) := by
  unfold qSquare
  same_steps hx []

theorem qFromCoeffs_rel (hx : x.checks = true) (cfg : Cfg) (c : QCoeffs) (d : Int) : Refines (x.qFromCoeffs cfg c d) (x.rel.qFromCoeffs cfg c d) := by
  unfold qFromCoeffs
  same_steps hx [qSquare_rel hx]

theorem qStrip4_rel (hx : x.checks = true) (fuel : Nat) : ∀ (b r : Int),
    Refines (x.qStrip4 fuel b r) (x.rel.qStrip4 fuel b r) := by
  induction fuel with
  | zero => intro b r; exact .rfl'
  | succ n ih =>
    intro b r
    unfold qStrip4
    same_steps hx [ih]

theorem qStrip_rel (hx : x.checks = true) (b r : Int) : Refines (x.qStrip b r) (x.rel.qStrip b r) := by
  unfold qStrip
  same_steps hx [qStrip4_rel hx]

theorem qNew_rel (hx : x.checks = true) (cfg : Cfg) (a b r : Int) : Refines (x.qNew cfg a b r) (x.rel.qNew cfg a b r) := by
  unfold qNew
  same_steps hx [qStrip_rel hx, qFromCoeffs_rel hx]

theorem qConj_rel (hx : x.checks = true) (u : QInt) : Refines (x.qConj u) (x.rel.qConj u) := by
  unfold qConj
  same_steps hx [qcConj_rel hx]

theorem qNorm_rel (hx : x.checks = true) (u : QInt) : Refines (x.qNorm u) (x.rel.qNorm u) := by
  unfold qNorm
  same_steps hx [qcNorm_rel hx]

theorem qIsPure_rel (hx : x.checks = true) (u : QInt) : Refines (x.qIsPure u) (x.rel.qIsPure u) := by
  unfold qIsPure
  same_steps hx []

theorem qPartsDoubled_rel (hx : x.checks = true) (u : QInt) : Refines (x.qPartsDoubled u) (x.rel.qPartsDoubled u) := by
  unfold qPartsDoubled
  same_steps hx []

theorem qReduceRootHinted_rel (hx : x.checks = true) (cfg : Cfg) (u : QInt) (h : Int) : Refines (x.qReduceRootHinted cfg u h) (x.rel.qReduceRootHinted cfg u h) := by
  unfold qReduceRootHinted
  same_steps hx [qFromCoeffs_rel hx]

theorem qNeg_rel (hx : x.checks = true) (u : QInt) : Refines (x.qNeg u) (x.rel.qNeg u) := by
  unfold qNeg
  same_steps hx []

theorem qReduceBinOp_rel (hx : x.checks = true) (cfg : Cfg) (u v : QInt) : Refines (x.qReduceBinOp cfg u v) (x.rel.qReduceBinOp cfg u v) := by
  unfold qReduceBinOp
  same_steps hx [qReduceRootHinted_rel hx]

theorem qReduceBinOpUnwrap_rel (hx : x.checks = true) (cfg : Cfg) (u v : QInt) : Refines (x.qReduceBinOpUnwrap cfg u v) (x.rel.qReduceBinOpUnwrap cfg u v) := by
  unfold qReduceBinOpUnwrap
  same_steps hx [qReduceBinOp_rel hx]

theorem qEq_rel (hx : x.checks = true) (u v : QInt) : Refines (x.qEq u v) (x.rel.qEq u v) := by
  unfold qEq
  same_steps hx [qPartsDoubled_rel hx]

theorem qAddInt_rel (hx : x.checks = true) (u : QInt) (k : Int) : Refines (x.qAddInt u k) (x.rel.qAddInt u k) := by
  unfold qAddInt
  same_steps hx [qcAddInt_rel hx]

theorem qSubInt_rel (hx : x.checks = true) (u : QInt) (k : Int) : Refines (x.qSubInt u k) (x.rel.qSubInt u k) := by
  unfold qSubInt
  same_steps hx [qcSubInt_rel hx]

theorem qMulInt_rel (hx : x.checks = true) (u : QInt) (k : Int) : Refines (x.qMulInt u k) (x.rel.qMulInt u k) := by
  unfold qMulInt
  same_steps hx [qcMulInt_rel hx]

theorem qDivInt_rel (hx : x.checks = true) (u : QInt) (k : Int) : Refines (x.qDivInt u k) (x.rel.qDivInt u k) := by
  unfold qDivInt
  same_steps hx [qcDivInt_rel hx]

theorem qRemInt_rel (hx : x.checks = true) (u : QInt) (k : Int) : Refines (x.qRemInt u k) (x.rel.qRemInt u k) := by
  unfold qRemInt
  same_steps hx [qcRemInt_rel hx]

theorem qAdd_rel (hx : x.checks = true) (cfg : Cfg) (u v : QInt) : Refines (x.qAdd cfg u v) (x.rel.qAdd cfg u v) := by
  unfold qAdd
  same_steps hx [qAddInt_rel hx, qReduceBinOpUnwrap_rel hx, qcAdd_rel hx, qFromCoeffs_rel hx]

theorem qSub_rel (hx : x.checks = true) (cfg : Cfg) (u v : QInt) : Refines (x.qSub cfg u v) (x.rel.qSub cfg u v) := by
  unfold qSub
  same_steps hx [qSubInt_rel hx, qNeg_rel hx, qReduceBinOpUnwrap_rel hx, qcSub_rel hx, qFromCoeffs_rel hx]

theorem qMul_rel (hx : x.checks = true) (cfg : Cfg) (u v : QInt) : Refines (x.qMul cfg u v) (x.rel.qMul cfg u v) := by
  unfold qMul
  same_steps hx [qMulInt_rel hx, qReduceBinOpUnwrap_rel hx, qcMul_rel hx, qFromCoeffs_rel hx]

theorem qDiv_rel (hx : x.checks = true) (cfg : Cfg) (u v : QInt) : Refines (x.qDiv cfg u v) (x.rel.qDiv cfg u v) := by
  unfold qDiv
  same_steps hx [qDivInt_rel hx, qReduceBinOpUnwrap_rel hx, qcDiv_rel hx, qFromCoeffs_rel hx]

theorem qRem_rel (hx : x.checks = true) (cfg : Cfg) (u v : QInt) : Refines (x.qRem cfg u v) (x.rel.qRem cfg u v) := by
  unfold qRem
  same_steps hx [qDivInt_rel hx, qReduceBinOpUnwrap_rel hx, qcDivRem_rel hx, qFromCoeffs_rel hx]

theorem gConj_rel (hx : x.checks = true) (u : GInt) : Refines (x.gConj u) (x.rel.gConj u) := by
  unfold gConj
  same_steps hx []

theorem gNorm_rel (hx : x.checks = true) (u : GInt) : Refines (x.gNorm u) (x.rel.gNorm u) := by
  unfold gNorm
  same_steps hx []

theorem gAdd_rel (hx : x.checks = true) (u v : GInt) : Refines (x.gAdd u v) (x.rel.gAdd u v) := by
  unfold gAdd
  same_steps hx [qcAdd_rel hx]

theorem gSub_rel (hx : x.checks = true) (u v : GInt) : Refines (x.gSub u v) (x.rel.gSub u v) := by
  unfold gSub
  same_steps hx [qcSub_rel hx]

theorem gMul_rel (hx : x.checks = true) (u v : GInt) : Refines (x.gMul u v) (x.rel.gMul u v) := by
  unfold gMul
  same_steps hx [qcMul_rel hx]

theorem gDiv_rel (hx : x.checks = true) (u v : GInt) : Refines (x.gDiv u v) (x.rel.gDiv u v) := by
  unfold gDiv
  same_steps hx [qcDiv_rel hx]

theorem gRem_rel (hx : x.checks = true) (u v : GInt) : Refines (x.gRem u v) (x.rel.gRem u v) := by
  unfold gRem
  same_steps hx [qcDivRem_rel hx]

theorem toGaussint_rel (hx : x.checks = true) (cfg : Cfg) (s : Surd) : Refines (x.toGaussint cfg s) (x.rel.toGaussint cfg s) := by
  unfold toGaussint
  same_steps hx [trunc_rel hx]

theorem toQuadint_rel (hx : x.checks = true) (cfg : Cfg) (s : Surd) : Refines (x.toQuadint cfg s) (x.rel.toQuadint cfg s) := by
  unfold toQuadint
  same_steps hx [qNew_rel hx]

end Fx
end NumIrr
