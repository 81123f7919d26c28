/-
The coefficients of Euler's constant over signed primitive integers: a call refines the one over the unbounded integers.
-/
import Verif.Lemmas.FixedCoeffs
import Verif.Lemmas.FixedCFToSurd
import Verif.Lemmas.FixedRtRef
import Verif.Props.GammaFrac

namespace NumIrr

theorem streamR_error_mono {σ β : Type} {next : σ → Res (Option β × σ)} {s : σ} {e : Panic} {n : Nat}
    (h : streamR next s n = .error e) (k : Nat) (hk : n ≤ k) : streamR next s k = .error e := by
  induction n generalizing s k with
  | zero =>
    unfold streamR at h
    cases hn : next s with
    | ok r => rw [hn] at h; cases h
    | error e' =>
      rw [hn] at h
      cases k <;> (unfold streamR; rw [hn]; exact h)
  | succ n ih =>
    obtain ⟨k, rfl⟩ : ∃ j, k = j + 1 := ⟨k - 1, by omega⟩
    unfold streamR at h ⊢
    cases hn : next s with
    | ok r =>
      rw [hn, Surd.ok_bind] at h
      rw [Surd.ok_bind]
      exact ih h k (by omega)
    | error e' => rw [hn] at h; exact h

namespace Fx

variable {x : Fx}

/-- the state with the fields of the ratios -/
def gamOf (s : GammaCoeffs) : Gam := ⟨s.n, s.qm1, s.qm2, .of s.sm1, .of s.rm1⟩

theorem rtOf_int (z : Int) : (Rt.of (z : Rat)) = ⟨z, 1⟩ := by
  unfold Rt.of
  simp

theorem rtAddInt_ref (hx : x.checks = true) (p : Rat) (k : Int) :
    Refines (x.rtAddInt (.of p) k) (.ok (.of (p + k))) := by
  unfold rtAddInt mul add
  refine ret_bind hx (ret_bind hx (ratio_val hx (den_ne p) ?_))
  unfold Rt.of
  simp only
  have h := p.den_nz
  have h' : (p.den : Rat) ≠ 0 := by exact_mod_cast h
  push_cast
  rw [add_div, Rat.num_div_den, mul_div_cancel_left₀ _ h']

theorem rtAddInt_rel (hx : x.checks = true) (p : Rt) (k : Int) : Refines (x.rtAddInt p k) (x.rel.rtAddInt p k) := by
  unfold rtAddInt; same_steps hx [ratio_rel hx]

theorem rtToInteger_ref (p : Rat) : Refines (x.rtToInteger (.of p)) (.ok (GammaCoeffs.toInteger p)) := by
  unfold rtToInteger Rt.of
  exact div_ref (den_ne p)

theorem gamRho_ref (hx : x.checks = true) (s : GammaCoeffs) :
    Refines (x.gamRho s.n (.of s.sm1)) (.ok (.of s.newRho)) := by
  unfold gamRho GammaCoeffs.newRho mul
  split
  · exact .rfl'
  · split
    · exact .rfl'
    · split
      · exact .rfl'
      · refine ret_bind hx (div_bind (by norm_num) ?_)
        rw [← rtOf_int]
        exact rtMul_ref hx _ _

theorem gamRho_rel (hx : x.checks = true) (n : Nat) (p : Rt) : Refines (x.gamRho n p) (x.rel.gamRho n p) := by
  unfold gamRho
  split
  · exact .rfl'
  · split
    · exact .rfl'
    · split
      · exact .rfl'
      · same_steps hx [rtMul_rel hx]

theorem gamStep_rel (hx : x.checks = true) (s : Gam) : Refines (x.gamStep s) (x.rel.gamStep s) := by
  unfold gamStep
  refine Refines.bind (ret_rel hx _) fun _ _ => ?_
  refine Refines.bind (ret_rel hx _) fun _ _ => ?_
  refine Refines.bind (ret_rel hx _) fun _ _ => ?_
  refine Refines.bind (ret_rel hx _) fun _ _ => ?_
  refine Refines.bind (ret_rel hx _) fun _ _ => ?_
  refine Refines.bind (ret_rel hx _) fun _ _ => ?_
  refine Refines.bind (rtMul_rel hx _ _) fun _ _ => ?_
  refine Refines.bind (ratio_rel hx _ _) fun _ _ => ?_
  refine Refines.bind (rtMulInt_rel hx _ _) fun _ _ => ?_
  refine Refines.bind (rtAdd_rel hx _ _) fun _ _ => ?_
  refine Refines.bind (rtNeg_rel hx _) fun _ _ => ?_
  refine Refines.bind (rtDiv_rel hx _ _) fun _ _ => ?_
  refine Refines.bind (ret_rel hx _) fun _ _ => ?_
  refine Refines.bind (ratio_rel hx _ _) fun _ _ => ?_
  refine Refines.bind (rtDiv_rel hx _ _) fun _ _ => ?_
  refine Refines.bind (ret_rel hx _) fun _ _ => ?_
  refine Refines.bind (rtAddInt_rel hx _ _) fun _ _ => ?_
  refine Refines.bind (gamRho_rel hx _ _) fun _ _ => ?_
  refine Refines.bind (rtMul_rel hx _ _) fun _ _ => ?_
  refine Refines.bind (rtMul_rel hx _ _) fun _ _ => ?_
  refine Refines.bind .rfl' fun _ _ => ?_
  refine Refines.bind (rtMul_rel hx _ _) fun _ _ => ?_
  refine Refines.bind .rfl' fun _ _ => ?_
  exact .rfl'

/-- the step over the unbounded integers -/
theorem gamStep_ref (hx : x.checks = true) {st : GammaCoeffs} (hn : 2 ≤ st.n) (hs : st.sm1 ≠ 0) :
    ∃ p st', GammaCoeffs.next st = .ok (some p, st') ∧ Refines (x.gamStep (gamOf st)) (.ok (some p, gamOf st')) ∧
      st'.n = st.n + 1 ∧ st'.qm1 = st.newQ := by
  have hn0 : ((st.n : Nat) : Int) ≠ 0 := by omega
  let s : Rat := ((((st.n - 1 : Nat) : Int) * ((st.n - 1 : Nat) : Int) : Int) : Rat) * st.sm1
    + ((((st.n - 2 : Nat) : Int) : Rat) / (((st.n : Nat) : Int) : Rat)) * (st.qm1 : Rat)
  let a : Rat := -s / st.sm1
  let b : Rat := ((((st.n - 2 : Nat) : Int) * st.qm2 : Int) : Rat) / (((st.n : Nat) : Int) : Rat) / st.sm1
    + ((2 * ((st.n : Nat) : Int) : Int) : Rat)
  refine ⟨(GammaCoeffs.toInteger (st.newRho * st.rm1 * a), GammaCoeffs.toInteger (st.newRho * b)),
    ⟨st.n + 1, st.newQ, st.qm1, s, st.newRho⟩, ?_, ?_, rfl, rfl⟩
  rotate_left
  · unfold gamStep gamOf
    simp only
    refine ret_bind hx (ret_bind hx (ret_bind hx (ret_bind hx (ret_bind hx (ret_bind hx ?_)))))
    rw [← rtOf_int]
    refine (rtMul_ref hx _ _).bindOk ?_
    refine Refines.bindOk (ratio_val hx hn0 rfl) ?_
    refine (rtMulInt_ref hx _ _).bindOk ?_
    refine (rtAdd_ref hx _ _).bindOk ?_
    refine (rtNeg_ref hx _).bindOk ?_
    refine (rtDiv_ref hx _ _ hs).bindOk ?_
    refine ret_bind hx ?_
    refine Refines.bindOk (ratio_val hx hn0 rfl) ?_
    refine (rtDiv_ref hx _ _ hs).bindOk ?_
    refine ret_bind hx ?_
    refine (rtAddInt_ref hx _ _).bindOk ?_
    refine (gamRho_ref hx st).bindOk ?_
    refine (rtMul_ref hx _ _).bindOk ?_
    refine (rtMul_ref hx _ _).bindOk ?_
    refine (rtToInteger_ref _).bindOk ?_
    refine (rtMul_ref hx _ _).bindOk ?_
    refine (rtToInteger_ref _).bindOk ?_
    exact .rfl'
  · unfold GammaCoeffs.next
    rw [if_neg (by omega), if_neg (by omega)]
    simp only [ratioNew, if_neg hn0, ratioDiv, if_neg hs, bind, Except.bind, pure, Except.pure, Rat.divInt_eq_div]
    rfl

theorem gamNext_rel (hx : x.checks = true) (s : Gam) : Refines (x.gamNext s) (x.rel.gamNext s) := by
  unfold gamNext
  split
  · exact .rfl'
  · split
    · exact .rfl'
    · have : x.rel.fits s.n = x.fits s.n := rfl
      rw [this]
      split
      · exact gamStep_rel hx s
      · exact .rfl'

end Fx
end NumIrr
