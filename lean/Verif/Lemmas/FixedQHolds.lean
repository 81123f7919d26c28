/-
Every integer stored by a function of Model/FixedQInt is representable, with or without overflow checks.
-/
import Verif.Lemmas.FixedHolds
import Verif.Model.FixedQInt

namespace NumIrr
namespace Fx

variable {x : Fx}

/-- coefficients of a quadratic integer -/
def HoldsQC (x : Fx) (t : QCoeffs) : Prop := x.Holds t.a ∧ x.Holds t.b

theorem divRemRound_holds (hw : 2 ≤ x.w) (n y : Int) :
    Ens (x.divRemRound n y) (fun p => x.Holds p.1 ∧ x.Holds p.2) := by
  unfold divRemRound
  refine Ens.bind Ens.triv fun _ _ => ?_
  refine Ens.bind Ens.triv fun _ _ => ?_
  refine Ens.bind Ens.triv fun _ _ => ?_
  refine Ens.bind Ens.triv fun _ _ => ?_
  refine Ens.bind (div_holds _ _) fun _ h1 => ?_
  refine Ens.bind Ens.triv fun _ _ => ?_
  refine Ens.bind (ret_holds hw _) fun _ h2 => ?_
  exact Ens.pure ⟨h1, h2⟩

theorem qcAddInt_holds (hw : 2 ≤ x.w) {u : QCoeffs} (hu : x.HoldsQC u) (k : Int) : Ens (x.qcAddInt u k) x.HoldsQC :=
  Ens.bind (ret_holds hw _) fun _ h => Ens.pure ⟨h, hu.2⟩

theorem qcSubInt_holds (hw : 2 ≤ x.w) {u : QCoeffs} (hu : x.HoldsQC u) (k : Int) : Ens (x.qcSubInt u k) x.HoldsQC :=
  Ens.bind (ret_holds hw _) fun _ h => Ens.pure ⟨h, hu.2⟩

theorem qcAdd_holds (hw : 2 ≤ x.w) (u v : QCoeffs) : Ens (x.qcAdd u v) x.HoldsQC :=
  Ens.bind (ret_holds hw _) fun _ h => Ens.bind (ret_holds hw _) fun _ h' => Ens.pure ⟨h, h'⟩

theorem qcSub_holds (hw : 2 ≤ x.w) (u v : QCoeffs) : Ens (x.qcSub u v) x.HoldsQC :=
  Ens.bind (ret_holds hw _) fun _ h => Ens.bind (ret_holds hw _) fun _ h' => Ens.pure ⟨h, h'⟩

theorem qcMulInt_holds (hw : 2 ≤ x.w) (u : QCoeffs) (k : Int) : Ens (x.qcMulInt u k) x.HoldsQC :=
  Ens.bind (ret_holds hw _) fun _ h => Ens.bind (ret_holds hw _) fun _ h' => Ens.pure ⟨h, h'⟩

theorem qcDivInt_holds (hw : 2 ≤ x.w) (u : QCoeffs) (k : Int) : Ens (x.qcDivInt u k) x.HoldsQC :=
  Ens.bind (divRemRound_holds hw _ _) fun _ h => Ens.bind (divRemRound_holds hw _ _) fun _ h' => Ens.pure ⟨h.1, h'.1⟩

theorem qcRemInt_holds (hw : 2 ≤ x.w) (u : QCoeffs) (k : Int) : Ens (x.qcRemInt u k) x.HoldsQC :=
  Ens.bind (divRemRound_holds hw _ _) fun _ h => Ens.bind (divRemRound_holds hw _ _) fun _ h' => Ens.pure ⟨h.2, h'.2⟩

theorem qcNorm_holds (hw : 2 ≤ x.w) (u : QCoeffs) (d : Int) : Ens (x.qcNorm u d) x.Holds := by
  unfold qcNorm
  repeat' (first
    | exact Ens.err
    | exact ret_holds hw _
    | refine Ens.bind Ens.triv fun _ _ => ?_
    | split)

theorem qcMul_holds (hw : 2 ≤ x.w) (u v : QCoeffs) (d : Int) : Ens (x.qcMul u v d) x.HoldsQC := by
  unfold qcMul
  split
  · hold_steps hw
  · hold_steps hw
  · exact Ens.err

theorem qcDivRem_holds (hw : 2 ≤ x.w) (u v : QCoeffs) (d : Int) :
    Ens (x.qcDivRem u v d) (fun p => x.HoldsQC p.1 ∧ x.HoldsQC p.2) := by
  unfold qcDivRem
  refine Ens.bind Ens.triv fun _ _ => ?_
  refine Ens.bind Ens.triv fun _ _ => ?_
  refine Ens.bind (divRemRound_holds hw _ _) fun _ h1 => ?_
  refine Ens.bind (divRemRound_holds hw _ _) fun _ h2 => ?_
  refine Ens.bind Ens.triv fun _ _ => ?_
  refine Ens.bind (qcDivInt_holds hw _ _) fun _ h3 => ?_
  exact Ens.pure ⟨⟨h1.1, h2.1⟩, h3⟩

theorem qcDiv_holds (hw : 2 ≤ x.w) (u v : QCoeffs) (d : Int) : Ens (x.qcDiv u v d) x.HoldsQC :=
  Ens.bind (qcDivRem_holds hw _ _ _) fun _ h => Ens.pure h.1

theorem qcConj_holds (hw : 2 ≤ x.w) {u : QCoeffs} (hu : x.HoldsQC u) (d : Int) : Ens (x.qcConj u d) x.HoldsQC := by
  have hu' := hu
  obtain ⟨_, _⟩ := hu
  unfold qcConj
  split
  · exact Ens.pure hu'
  · split
    · hold_steps hw
    · hold_steps hw
    · exact Ens.err

theorem qFromCoeffs_holds (hw : 2 ≤ x.w) (cfg : Cfg) {c : QCoeffs} {d : Int} (hc : x.HoldsQC c) (hd : x.Holds d) :
    Ens (x.qFromCoeffs cfg c d) x.HoldsQ := by
  obtain ⟨_, _⟩ := hc
  have key : Ens (x.qSquare c d) (fun t => x.Holds t.1 ∧ x.Holds t.2.1 ∧ x.Holds t.2.2) := by
    unfold qSquare
    hold_steps hw
  unfold qFromCoeffs
  split
  · exact Ens.err
  · split
    · exact Ens.err
    · refine key.bind fun t ht => ?_
      split
      · exact Ens.pure ⟨ht.1, holds_zero _, holds_zero _⟩
      · exact Ens.pure ht

theorem qStrip4_holds (hw : 2 ≤ x.w) (fuel : Nat) : ∀ {b r : Int}, x.Holds b → x.Holds r →
    Ens (x.qStrip4 fuel b r) (fun p => x.Holds p.1 ∧ x.Holds p.2) := by
  induction fuel with
  | zero => intro b r hb hr; exact Ens.pure ⟨hb, hr⟩
  | succ n ih =>
    intro b r hb hr
    unfold qStrip4
    split
    · exact Ens.bind (div_holds _ _) fun _ h => Ens.bind (ret_holds hw _) fun _ h' => ih h' h
    · exact Ens.pure ⟨hb, hr⟩

theorem qNew_holds (hw : 2 ≤ x.w) (cfg : Cfg) {a b r : Int} (ha : x.Holds a) (hb : x.Holds b) (hr : x.Holds r) :
    Ens (x.qNew cfg a b r) x.HoldsQ := by
  unfold qNew
  have key : Ens (x.qStrip b r) (fun p => x.Holds p.1 ∧ x.Holds p.2) := by
    unfold qStrip
    split
    · exact qStrip4_holds hw _ hb hr
    · exact Ens.pure ⟨hb, hr⟩
  refine key.bind fun p hp => ?_
  split
  · exact Ens.bind (ret_holds hw _) fun _ h => Ens.bind (ret_holds hw _) fun _ h' => qFromCoeffs_holds hw cfg ⟨h', h⟩ hp.2
  · exact qFromCoeffs_holds hw cfg ⟨ha, hp.1⟩ hp.2
  · exact Ens.err

theorem HoldsQ.coeffs {u : QInt} (hu : x.HoldsQ u) : x.HoldsQC u.coeffs := ⟨hu.1, hu.2.1⟩

theorem HoldsQC.mk {c : QCoeffs} {d : Int} (hc : x.HoldsQC c) (hd : x.Holds d) : x.HoldsQ (.mk' c d) := ⟨hc.1, hc.2, hd⟩

theorem qConj_holds (hw : 2 ≤ x.w) {u : QInt} (hu : x.HoldsQ u) : Ens (x.qConj u) x.HoldsQ :=
  Ens.bind (qcConj_holds hw hu.coeffs _) fun _ h => Ens.pure (h.mk hu.2.2)

theorem qNorm_holds (hw : 2 ≤ x.w) (u : QInt) : Ens (x.qNorm u) x.Holds := qcNorm_holds hw _ _

theorem qReduceRootHinted_holds (hw : 2 ≤ x.w) (cfg : Cfg) {u : QInt} (hu : x.HoldsQ u) (h : Int) :
    Ens (x.qReduceRootHinted cfg u h) x.HoldsQ := by
  unfold qReduceRootHinted
  refine Ens.bind Ens.triv fun _ _ => ?_
  split
  · exact Ens.pure hu
  · refine Ens.bind (div_holds _ _) fun _ hq => ?_
    refine Ens.bind Ens.triv fun _ _ => ?_
    split
    · refine Ens.bind Ens.triv fun _ _ => ?_
      refine Ens.bind Ens.triv fun _ _ => ?_
      split
      · split
        · refine Ens.bind Ens.triv fun _ _ => ?_
          refine Ens.bind Ens.triv fun _ _ => ?_
          refine Ens.bind Ens.triv fun _ _ => ?_
          exact Ens.bind (ret_holds hw _) fun _ h => Ens.bind (ret_holds hw _) fun _ h' => qFromCoeffs_holds hw cfg ⟨h, h'⟩ hq
        · exact Ens.bind (ret_holds hw _) fun _ h => qFromCoeffs_holds hw cfg ⟨hu.1, h⟩ hq
        · exact Ens.err
      · exact Ens.pure hu
    · exact Ens.pure hu

theorem qNeg_holds (hw : 2 ≤ x.w) {u : QInt} (hu : x.HoldsQ u) : Ens (x.qNeg u) x.HoldsQ :=
  Ens.bind (ret_holds hw _) fun _ h => Ens.bind (ret_holds hw _) fun _ h' => Ens.pure ⟨h, h', hu.2.2⟩

theorem qMatch_holds {a b : QInt} (ha : x.HoldsQ a) (hb : x.HoldsQ b) (p : QInt × QInt)
    (h : qMatch (a, b) = some p) : x.HoldsQ p.1 ∧ x.HoldsQ p.2 := by
  unfold qMatch at h
  split at h
  · cases h; exact ⟨ha, hb⟩
  · cases h

theorem qReduceBinOp_holds (hw : 2 ≤ x.w) (cfg : Cfg) {l r : QInt} (hl : x.HoldsQ l) (hr : x.HoldsQ r) :
    Ens (x.qReduceBinOp cfg l r) (fun o => ∀ p, o = some p → x.HoldsQ p.1 ∧ x.HoldsQ p.2) := by
  unfold qReduceBinOp
  repeat' (first
    | exact Ens.err
    | exact Ens.pure fun p hp => (by cases hp)
    | exact Ens.pure (qMatch_holds hl hr)
    | exact (qReduceRootHinted_holds hw cfg hl _).bind fun t ht => Ens.pure (qMatch_holds ht hr)
    | exact (qReduceRootHinted_holds hw cfg hr _).bind fun t ht => Ens.pure (qMatch_holds hl ht)
    | refine Ens.bind Ens.triv fun _ _ => ?_
    | split)

theorem qReduceBinOpUnwrap_holds (hw : 2 ≤ x.w) (cfg : Cfg) {l r : QInt} (hl : x.HoldsQ l) (hr : x.HoldsQ r) :
    Ens (x.qReduceBinOpUnwrap cfg l r) (fun p => x.HoldsQ p.1 ∧ x.HoldsQ p.2) := by
  unfold qReduceBinOpUnwrap
  refine (qReduceBinOp_holds hw cfg hl hr).bind fun o ho => ?_
  split
  · exact Ens.pure (ho _ rfl)
  · exact Ens.err

theorem qAddInt_holds (hw : 2 ≤ x.w) {u : QInt} (hu : x.HoldsQ u) (k : Int) : Ens (x.qAddInt u k) x.HoldsQ :=
  Ens.bind (qcAddInt_holds hw hu.coeffs _) fun _ h => Ens.pure (h.mk hu.2.2)

theorem qSubInt_holds (hw : 2 ≤ x.w) {u : QInt} (hu : x.HoldsQ u) (k : Int) : Ens (x.qSubInt u k) x.HoldsQ :=
  Ens.bind (qcSubInt_holds hw hu.coeffs _) fun _ h => Ens.pure (h.mk hu.2.2)

theorem qMulInt_holds (hw : 2 ≤ x.w) {u : QInt} (hu : x.HoldsQ u) (k : Int) : Ens (x.qMulInt u k) x.HoldsQ := by
  unfold qMulInt
  split
  · exact Ens.pure ⟨holds_zero _, holds_zero _, holds_zero _⟩
  · exact Ens.bind (qcMulInt_holds hw _ _) fun _ h => Ens.pure (h.mk hu.2.2)

theorem qDivInt_holds (hw : 2 ≤ x.w) {u : QInt} (hu : x.HoldsQ u) (k : Int) : Ens (x.qDivInt u k) x.HoldsQ :=
  Ens.bind (qcDivInt_holds hw _ _) fun _ h => Ens.pure (h.mk hu.2.2)

theorem qRemInt_holds (hw : 2 ≤ x.w) {u : QInt} (hu : x.HoldsQ u) (k : Int) : Ens (x.qRemInt u k) x.HoldsQ :=
  Ens.bind (qcRemInt_holds hw _ _) fun _ h => Ens.pure (h.mk hu.2.2)

theorem qAdd_holds (hw : 2 ≤ x.w) (cfg : Cfg) {u v : QInt} (hu : x.HoldsQ u) (hv : x.HoldsQ v) :
    Ens (x.qAdd cfg u v) x.HoldsQ := by
  unfold qAdd
  split
  · exact qAddInt_holds hw hu _
  · split
    · exact qAddInt_holds hw hv _
    · exact (qReduceBinOpUnwrap_holds hw cfg hu hv).bind fun _ hp => (qcAdd_holds hw _ _).bind fun _ hc =>
        qFromCoeffs_holds hw cfg hc hp.2.2.2

theorem qSub_holds (hw : 2 ≤ x.w) (cfg : Cfg) {u v : QInt} (hu : x.HoldsQ u) (hv : x.HoldsQ v) :
    Ens (x.qSub cfg u v) x.HoldsQ := by
  unfold qSub
  split
  · exact qSubInt_holds hw hu _
  · split
    · exact (qSubInt_holds hw hv _).bind fun _ h => qNeg_holds hw h
    · exact (qReduceBinOpUnwrap_holds hw cfg hu hv).bind fun _ hp => (qcSub_holds hw _ _).bind fun _ hc =>
        qFromCoeffs_holds hw cfg hc hp.2.2.2

theorem qMul_holds (hw : 2 ≤ x.w) (cfg : Cfg) {u v : QInt} (hu : x.HoldsQ u) (hv : x.HoldsQ v) :
    Ens (x.qMul cfg u v) x.HoldsQ := by
  unfold qMul
  split
  · exact qMulInt_holds hw hu _
  · split
    · exact qMulInt_holds hw hv _
    · exact (qReduceBinOpUnwrap_holds hw cfg hu hv).bind fun _ hp => (qcMul_holds hw _ _ _).bind fun _ hc =>
        qFromCoeffs_holds hw cfg hc hp.2.2.2

theorem qDiv_holds (hw : 2 ≤ x.w) (cfg : Cfg) {u v : QInt} (hu : x.HoldsQ u) (hv : x.HoldsQ v) :
    Ens (x.qDiv cfg u v) x.HoldsQ := by
  unfold qDiv
  split
  · exact qDivInt_holds hw hu _
  · split
    · exact (qcDiv_holds hw _ _ _).bind fun _ hc => qFromCoeffs_holds hw cfg hc hv.2.2
    · exact (qReduceBinOpUnwrap_holds hw cfg hu hv).bind fun _ hp => (qcDiv_holds hw _ _ _).bind fun _ hc =>
        qFromCoeffs_holds hw cfg hc hp.2.2.2

theorem qRem_holds (hw : 2 ≤ x.w) (cfg : Cfg) {u v : QInt} (hu : x.HoldsQ u) (hv : x.HoldsQ v) :
    Ens (x.qRem cfg u v) x.HoldsQ := by
  unfold qRem
  split
  · exact qDivInt_holds hw hu _
  · exact (qReduceBinOpUnwrap_holds hw cfg hu hv).bind fun _ hp => (qcDivRem_holds hw _ _ _).bind fun _ hc =>
      qFromCoeffs_holds hw cfg hc.2 hp.2.2.2

theorem gConj_holds (hw : 2 ≤ x.w) {u : GInt} (hu : x.HoldsG u) : Ens (x.gConj u) x.HoldsG :=
  Ens.bind (ret_holds hw _) fun _ h => Ens.pure ⟨hu.1, h⟩

theorem gNorm_holds (hw : 2 ≤ x.w) (u : GInt) : Ens (x.gNorm u) x.Holds :=
  Ens.bind Ens.triv fun _ _ => Ens.bind Ens.triv fun _ _ => ret_holds hw _

theorem gAdd_holds (hw : 2 ≤ x.w) (u v : GInt) : Ens (x.gAdd u v) x.HoldsG :=
  Ens.bind (qcAdd_holds hw _ _) fun _ h => Ens.pure h

theorem gSub_holds (hw : 2 ≤ x.w) (u v : GInt) : Ens (x.gSub u v) x.HoldsG :=
  Ens.bind (qcSub_holds hw _ _) fun _ h => Ens.pure h

theorem gMul_holds (hw : 2 ≤ x.w) (u v : GInt) : Ens (x.gMul u v) x.HoldsG :=
  Ens.bind Ens.triv fun _ _ => Ens.bind (qcMul_holds hw _ _ _) fun _ h => Ens.pure h

theorem gDiv_holds (hw : 2 ≤ x.w) (u v : GInt) : Ens (x.gDiv u v) x.HoldsG :=
  Ens.bind Ens.triv fun _ _ => Ens.bind (qcDiv_holds hw _ _ _) fun _ h => Ens.pure h

theorem gRem_holds (hw : 2 ≤ x.w) (u v : GInt) : Ens (x.gRem u v) x.HoldsG :=
  Ens.bind Ens.triv fun _ _ => Ens.bind (qcDivRem_holds hw _ _ _) fun _ h => Ens.pure h.2

end Fx
end NumIrr
