/-
Refinement of every function of Model/FixedQInt, and the comparison of builds with and without overflow checks.
-/
import Verif.Lemmas.FixedRel
import Verif.Model.FixedQInt

namespace NumIrr
namespace Fx

variable {x : Fx}

theorem mod4d2_cases (d : Int) : mod4d2 d = 0 ∨ mod4d2 d = 1 ∨ mod4d2 d = -1 := by
  unfold mod4d2
  simp only
  split
  · exact Or.inr (Or.inr rfl)
  · split <;> split <;> simp

/-- cases of `mod4d2 d` on both sides of a refinement -/
macro "mod4_cases" d:term : tactic =>
  `(tactic| rcases mod4d2_cases $d with h4 | h4 | h4 <;> rw [h4])

theorem divRemRound_ref (hx : x.checks = true) (n y : Int) : Refines (x.divRemRound n y) (NumIrr.divRemRound n y) := by
  unfold divRemRound NumIrr.divRemRound
  refine ret_bind hx (div_bind (by decide) (ret_bind hx (ret_bind hx ?_)))
  by_cases h : y = 0
  · rw [if_pos h]
    unfold div
    rw [if_pos h]
    exact .rfl'
  · rw [if_neg h]
    refine div_bind h ((rem_ref h).bindOk (ret_bind hx .rfl'))

/-! ### coefficients -/

theorem qcAddInt_ref (hx : x.checks = true) (u : QCoeffs) (k : Int) : Refines (x.qcAddInt u k) (.ok (u.addInt k)) := by
  unfold qcAddInt QCoeffs.addInt
  exact ret_bind hx .rfl'

theorem qcAdd_ref (hx : x.checks = true) (u v : QCoeffs) : Refines (x.qcAdd u v) (.ok (u.add v)) := by
  unfold qcAdd QCoeffs.add
  exact ret_bind hx (ret_bind hx .rfl')

theorem qcSubInt_ref (hx : x.checks = true) (u : QCoeffs) (k : Int) : Refines (x.qcSubInt u k) (.ok (u.subInt k)) := by
  unfold qcSubInt QCoeffs.subInt
  exact ret_bind hx .rfl'

theorem qcSub_ref (hx : x.checks = true) (u v : QCoeffs) : Refines (x.qcSub u v) (.ok (u.sub v)) := by
  unfold qcSub QCoeffs.sub
  exact ret_bind hx (ret_bind hx .rfl')

theorem qcMulInt_ref (hx : x.checks = true) (u : QCoeffs) (k : Int) : Refines (x.qcMulInt u k) (.ok (u.mulInt k)) := by
  unfold qcMulInt QCoeffs.mulInt
  exact ret_bind hx (ret_bind hx .rfl')

theorem qcDivInt_ref (hx : x.checks = true) (u : QCoeffs) (k : Int) : Refines (x.qcDivInt u k) (u.divInt k) := by
  unfold qcDivInt QCoeffs.divInt
  exact (divRemRound_ref hx _ _).bind fun _ _ => (divRemRound_ref hx _ _).bind fun _ _ => .rfl'

theorem qcRemInt_ref (hx : x.checks = true) (u : QCoeffs) (k : Int) : Refines (x.qcRemInt u k) (u.remInt k) := by
  unfold qcRemInt QCoeffs.remInt
  exact (divRemRound_ref hx _ _).bind fun _ _ => (divRemRound_ref hx _ _).bind fun _ _ => .rfl'

theorem qcNorm_ref (hx : x.checks = true) (u : QCoeffs) (d : Int) : Refines (x.qcNorm u d) (u.norm d) := by
  unfold qcNorm QCoeffs.norm
  split
  · exact ret_ref hx _
  · mod4_cases d
    · iterate 5 refine ret_bind hx ?_
      refine div_bind (by decide) (ret_bind hx (ret_ref hx _))
    · exact ret_bind hx (ret_bind hx (ret_bind hx (ret_ref hx _)))
    · exact .rfl'

theorem qcMul_ref (hx : x.checks = true) (u v : QCoeffs) (d : Int) : Refines (x.qcMul u v d) (u.mul v d) := by
  unfold qcMul QCoeffs.mul
  mod4_cases d
  · iterate 3 refine ret_bind hx ?_
    refine div_bind (by decide) ?_
    iterate 6 refine ret_bind hx ?_
    exact .rfl'
  · iterate 7 refine ret_bind hx ?_
    exact .rfl'
  · exact .rfl'

theorem qcDivNumer_ref (hx : x.checks = true) (u v : QCoeffs) (d : Int) :
    Refines (x.qcDivNumer u v d) (u.divNumer v d) := by
  unfold qcDivNumer QCoeffs.divNumer
  mod4_cases d
  · iterate 5 refine ret_bind hx ?_
    refine div_bind (by decide) ?_
    iterate 5 refine ret_bind hx ?_
    exact .rfl'
  · iterate 7 refine ret_bind hx ?_
    exact .rfl'
  · exact .rfl'

theorem qcDivRem_ref (hx : x.checks = true) (u v : QCoeffs) (d : Int) : Refines (x.qcDivRem u v d) (u.divRem v d) := by
  unfold qcDivRem QCoeffs.divRem
  exact (qcDivNumer_ref hx _ _ _).bind fun _ _ => (qcNorm_ref hx _ _).bind fun _ _ =>
    (divRemRound_ref hx _ _).bind fun _ _ => (divRemRound_ref hx _ _).bind fun _ _ =>
    (qcMul_ref hx _ _ _).bind fun _ _ => (qcDivInt_ref hx _ _).bind fun _ _ => .rfl'

theorem qcDiv_ref (hx : x.checks = true) (u v : QCoeffs) (d : Int) : Refines (x.qcDiv u v d) (u.div v d) := by
  unfold qcDiv QCoeffs.div
  exact (qcDivRem_ref hx _ _ _).bind fun _ _ => .rfl'

theorem qcConj_ref (hx : x.checks = true) (u : QCoeffs) (d : Int) : Refines (x.qcConj u d) (u.conj d) := by
  unfold qcConj QCoeffs.conj
  split
  · exact .rfl'
  · mod4_cases d
    · exact ret_bind hx (ret_bind hx .rfl')
    · exact ret_bind hx .rfl'
    · exact .rfl'

/-! ### `QuadraticInt` -/

theorem qFromCoeffs_ref (hx : x.checks = true) (cfg : Cfg) (c : QCoeffs) (d : Int) :
    Refines (x.qFromCoeffs cfg c d) (QInt.fromCoeffs cfg c d) := by
  unfold qFromCoeffs QInt.fromCoeffs qSquare
  split
  · exact .rfl'
  · split
    · exact .rfl'
    · have key : Refines (x.qSquare c d) (.ok (if isqrt ((d.natAbs : Nat) : Int) * isqrt ((d.natAbs : Nat) : Int) = d then
          if d < 0 then (c.a, c.b * isqrt ((d.natAbs : Nat) : Int), -1)
          else (c.a + c.b * isqrt ((d.natAbs : Nat) : Int), 0, 0) else (c.a, c.b, d))) := by
        unfold qSquare
        refine ret_bind hx (sqrtR_bind (Int.natCast_nonneg _) (ret_bind hx ?_))
        split
        · split
          · exact ret_bind hx (ret_bind hx .rfl')
          · exact ret_bind hx (ret_bind hx .rfl')
        · exact .rfl'
      refine key.bindOk ?_
      simp only
      split
      · exact .rfl'
      · exact .rfl'

theorem qStrip4_ref (hx : x.checks = true) (fuel : Nat) : ∀ (b r : Int),
    Refines (x.qStrip4 fuel b r) (.ok (QInt.strip4 fuel b r)) := by
  induction fuel with
  | zero => intro b r; exact .rfl'
  | succ n ih =>
    intro b r
    unfold qStrip4 QInt.strip4
    split
    · exact div_bind (by decide) (ret_bind hx (ih _ _))
    · exact .rfl'

theorem qStrip_ref (hx : x.checks = true) (b r : Int) :
    Refines (x.qStrip b r) (.ok (if 0 < r then QInt.strip4 r.toNat b r else (b, r))) := by
  unfold qStrip
  split
  · exact qStrip4_ref hx _ _ _
  · exact .rfl'

theorem qNew_ref (hx : x.checks = true) (cfg : Cfg) (a b r : Int) : Refines (x.qNew cfg a b r) (QInt.new cfg a b r) := by
  unfold qNew QInt.new
  refine (qStrip_ref hx b r).bindOk ?_
  simp only
  generalize (if 0 < r then QInt.strip4 r.toNat b r else (b, r)) = br
  mod4_cases br.2
  · exact ret_bind hx (ret_bind hx (qFromCoeffs_ref hx _ _ _))
  · exact qFromCoeffs_ref hx _ _ _
  · exact .rfl'

theorem qConj_ref (hx : x.checks = true) (u : QInt) : Refines (x.qConj u) u.conj :=
  (qcConj_ref hx _ _).bind fun _ _ => .rfl'

theorem qNorm_ref (hx : x.checks = true) (u : QInt) : Refines (x.qNorm u) u.norm := qcNorm_ref hx _ _

theorem qIsPure_ref (hx : x.checks = true) (u : QInt) : Refines (x.qIsPure u) u.isPure := by
  unfold qIsPure QInt.isPure
  mod4_cases u.d
  · exact ret_bind hx (ret_bind hx .rfl')
  · exact .rfl'
  · exact .rfl'

theorem qPartsDoubled_ref (hx : x.checks = true) (u : QInt) : Refines (x.qPartsDoubled u) u.partsDoubled := by
  unfold qPartsDoubled QInt.partsDoubled
  mod4_cases u.d
  · exact ret_bind hx (ret_bind hx .rfl')
  · exact ret_bind hx (ret_bind hx .rfl')
  · exact .rfl'

theorem qReduceRootHinted_ref (hx : x.checks = true) (cfg : Cfg) (u : QInt) (h : Int) :
    Refines (x.qReduceRootHinted cfg u h) (u.reduceRootHinted cfg h) := by
  unfold qReduceRootHinted QInt.reduceRootHinted
  refine ret_bind hx ?_
  simp only
  split
  · exact .rfl'
  · rename_i hh
    have h0 : ((h.natAbs : Nat) : Int) ≠ 0 := fun e => hh (Or.inl e)
    refine div_bind h0 ((rem_ref h0).bindOk ?_)
    split
    · refine sqrtR_bind (Int.natCast_nonneg _) (ret_bind hx ?_)
      split
      · mod4_cases u.d
        · exact ret_bind hx (div_bind (by decide) (ret_bind hx (ret_bind hx (ret_bind hx (qFromCoeffs_ref hx _ _ _)))))
        · exact ret_bind hx (qFromCoeffs_ref hx _ _ _)
        · exact .rfl'
      · exact .rfl'
    · exact .rfl'

theorem qNeg_ref (hx : x.checks = true) (u : QInt) : Refines (x.qNeg u) (.ok u.neg) :=
  ret_bind hx (ret_bind hx .rfl')

theorem qReduceBinOp_ref (hx : x.checks = true) (cfg : Cfg) (u v : QInt) :
    Refines (x.qReduceBinOp cfg u v) (QInt.reduceBinOp cfg u v) := by
  have stepL : ∀ v : QInt, Refines (x.div u.d v.d >>= fun h => x.qReduceRootHinted cfg u h >>= fun u' => .ok (qMatch (u', v)))
      (divR u.d v.d >>= fun h => u.reduceRootHinted cfg h >>= fun u' => .ok (qMatch (u', v))) := fun v =>
    (div_refR _ _).bind fun _ _ => (qReduceRootHinted_ref hx cfg _ _).bind fun _ _ => .rfl'
  have stepR : ∀ u : QInt, Refines (x.div v.d u.d >>= fun h => x.qReduceRootHinted cfg v h >>= fun v' => .ok (qMatch (u, v')))
      (divR v.d u.d >>= fun h => v.reduceRootHinted cfg h >>= fun v' => .ok (qMatch (u, v'))) := fun u =>
    (div_refR _ _).bind fun _ _ => (qReduceRootHinted_ref hx cfg _ _).bind fun _ _ => .rfl'
  unfold qReduceBinOp QInt.reduceBinOp
  simp only
  split
  · split
    · exact .rfl'
    · refine ret_bind hx (ret_bind hx ?_)
      by_cases h1 : u.d.natAbs > v.d.natAbs
      · rw [if_pos (by omega), if_pos h1]; exact stepL v
      · rw [if_neg (by omega), if_neg h1]
        by_cases h2 : v.d.natAbs > u.d.natAbs
        · rw [if_pos (by omega), if_pos h2]; exact stepR u
        · rw [if_neg (by omega), if_neg h2]; exact .rfl'
  · split
    · exact .rfl'
    · split
      · exact stepL v
      · split
        · exact stepR u
        · exact .rfl'

theorem qReduceBinOpUnwrap_ref (hx : x.checks = true) (cfg : Cfg) (u v : QInt) :
    Refines (x.qReduceBinOpUnwrap cfg u v) (QInt.reduceBinOpUnwrap cfg u v) := by
  unfold qReduceBinOpUnwrap QInt.reduceBinOpUnwrap
  exact (qReduceBinOp_ref hx cfg u v).bind fun _ _ => .rfl'

theorem qEq_ref (hx : x.checks = true) (u v : QInt) : Refines (x.qEq u v) (QInt.eq u v) := by
  unfold qEq QInt.eq
  split
  · exact .rfl'
  · split
    · exact .rfl'
    · refine (qPartsDoubled_ref hx u).bind fun l _ => (qPartsDoubled_ref hx v).bind fun r _ => ?_
      split
      · rename_i h
        iterate 4 refine ret_bind hx ?_
        simp only [h, true_and]
        exact .rfl'
      · rename_i h
        simp only [h, false_and, decide_false]
        exact .rfl'

theorem qAddInt_ref (hx : x.checks = true) (u : QInt) (k : Int) : Refines (x.qAddInt u k) (.ok (u.addInt k)) :=
  (qcAddInt_ref hx _ _).bindOk .rfl'

theorem qSubInt_ref (hx : x.checks = true) (u : QInt) (k : Int) : Refines (x.qSubInt u k) (.ok (u.subInt k)) :=
  (qcSubInt_ref hx _ _).bindOk .rfl'

theorem qMulInt_ref (hx : x.checks = true) (u : QInt) (k : Int) : Refines (x.qMulInt u k) (.ok (u.mulInt k)) := by
  unfold qMulInt QInt.mulInt
  split
  · exact .rfl'
  · exact (qcMulInt_ref hx _ _).bindOk .rfl'

theorem qDivInt_ref (hx : x.checks = true) (u : QInt) (k : Int) : Refines (x.qDivInt u k) (u.divInt k) :=
  (qcDivInt_ref hx _ _).bind fun _ _ => .rfl'

theorem qRemInt_ref (hx : x.checks = true) (u : QInt) (k : Int) : Refines (x.qRemInt u k) (u.remInt k) :=
  (qcRemInt_ref hx _ _).bind fun _ _ => .rfl'

theorem qAdd_ref (hx : x.checks = true) (cfg : Cfg) (u v : QInt) : Refines (x.qAdd cfg u v) (QInt.add cfg u v) := by
  unfold qAdd QInt.add
  split
  · exact qAddInt_ref hx _ _
  · split
    · exact qAddInt_ref hx _ _
    · exact (qReduceBinOpUnwrap_ref hx cfg _ _).bind fun _ _ => (qcAdd_ref hx _ _).bindOk (qFromCoeffs_ref hx _ _ _)

theorem qSub_ref (hx : x.checks = true) (cfg : Cfg) (u v : QInt) : Refines (x.qSub cfg u v) (QInt.sub cfg u v) := by
  unfold qSub QInt.sub
  split
  · exact qSubInt_ref hx _ _
  · split
    · exact (qSubInt_ref hx _ _).bindOk (qNeg_ref hx _)
    · exact (qReduceBinOpUnwrap_ref hx cfg _ _).bind fun _ _ => (qcSub_ref hx _ _).bindOk (qFromCoeffs_ref hx _ _ _)

theorem qMul_ref (hx : x.checks = true) (cfg : Cfg) (u v : QInt) : Refines (x.qMul cfg u v) (QInt.mul cfg u v) := by
  unfold qMul QInt.mul
  split
  · exact qMulInt_ref hx _ _
  · split
    · exact qMulInt_ref hx _ _
    · exact (qReduceBinOpUnwrap_ref hx cfg _ _).bind fun _ _ => (qcMul_ref hx _ _ _).bind fun _ _ => qFromCoeffs_ref hx _ _ _

theorem qDiv_ref (hx : x.checks = true) (cfg : Cfg) (u v : QInt) : Refines (x.qDiv cfg u v) (QInt.div cfg u v) := by
  unfold qDiv QInt.div
  split
  · exact qDivInt_ref hx _ _
  · split
    · exact (qcDiv_ref hx _ _ _).bind fun _ _ => qFromCoeffs_ref hx _ _ _
    · exact (qReduceBinOpUnwrap_ref hx cfg _ _).bind fun _ _ => (qcDiv_ref hx _ _ _).bind fun _ _ => qFromCoeffs_ref hx _ _ _

theorem qRem_ref (hx : x.checks = true) (cfg : Cfg) (u v : QInt) : Refines (x.qRem cfg u v) (QInt.rem cfg u v) := by
  unfold qRem QInt.rem
  split
  · exact qDivInt_ref hx _ _
  · exact (qReduceBinOpUnwrap_ref hx cfg _ _).bind fun _ _ => (qcDivRem_ref hx _ _ _).bind fun _ _ => qFromCoeffs_ref hx _ _ _

/-! ### `GaussianInt` -/

theorem gConj_ref (hx : x.checks = true) (u : GInt) : Refines (x.gConj u) (.ok u.conj) := ret_bind hx .rfl'

theorem gNorm_ref (hx : x.checks = true) (u : GInt) : Refines (x.gNorm u) (.ok u.norm) :=
  ret_bind hx (ret_bind hx (ret_ref hx _))

theorem gAdd_ref (hx : x.checks = true) (u v : GInt) : Refines (x.gAdd u v) (.ok (u.add v)) :=
  (qcAdd_ref hx _ _).bindOk .rfl'

theorem gSub_ref (hx : x.checks = true) (u v : GInt) : Refines (x.gSub u v) (.ok (u.sub v)) :=
  (qcSub_ref hx _ _).bindOk .rfl'

theorem gMul_ref (hx : x.checks = true) (u v : GInt) : Refines (x.gMul u v) (u.mul v) :=
  ret_bind hx ((qcMul_ref hx _ _ _).bind fun _ _ => .rfl')

theorem gDiv_ref (hx : x.checks = true) (u v : GInt) : Refines (x.gDiv u v) (u.div v) :=
  ret_bind hx ((qcDiv_ref hx _ _ _).bind fun _ _ => .rfl')

theorem gRem_ref (hx : x.checks = true) (u v : GInt) : Refines (x.gRem u v) (u.rem v) :=
  ret_bind hx ((qcDivRem_ref hx _ _ _).bind fun _ _ => .rfl')

/-! ### Conversions -/

theorem toGaussint_ref (hx : x.checks = true) (cfg : Cfg) (s : Surd) : Refines (x.toGaussint cfg s) (s.toGaussint cfg) := by
  unfold toGaussint Surd.toGaussint
  split
  · exact .rfl'
  · exact (trunc_ref hx cfg s).bind fun _ _ => .rfl'

theorem toQuadint_ref (hx : x.checks = true) (cfg : Cfg) (s : Surd) : Refines (x.toQuadint cfg s) (s.toQuadint cfg) := by
  unfold toQuadint Surd.toQuadint
  split
  · exact (qNew_ref hx cfg _ _ _).bind fun _ _ => .rfl'
  · exact (div_refR _ _).bind fun _ _ => (div_refR _ _).bind fun _ _ => (qNew_ref hx cfg _ _ _).bind fun _ _ => .rfl'

end Fx
end NumIrr
