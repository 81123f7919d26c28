/- Every public operation keeps surds in normal form. -/
import Verif.Spec.SurdReach
import Verif.Lemmas.SurdGauss
import Verif.Lemmas.SurdSqrt
import Verif.Lemmas.Trunc
import Verif.Props.SurdSqrt

namespace NumIrr
namespace Surd
variable {cfg : Cfg} {fits : ℤ → Bool}

theorem bind_ok_inv {α β : Type} {x : Res α} {f : α → Res β} {z : β} (h : (x >>= f) = .ok z) :
    ∃ a, x = .ok a ∧ f a = .ok z := by
  cases x with
  | error e => cases h
  | ok a => exact ⟨a, rfl, h⟩

structure Good (cfg : Cfg) (s : Surd) : Prop where
  ok : s.Ok cfg
  ginv : GInv s

theorem new_good {a b c r : ℤ} {t : Surd} (h : new cfg a b c r = .ok t) : Good cfg t :=
  ⟨(new_ok h).2, new_ginv h⟩

theorem fromCoeffs_good {x : Coeffs} {r : ℤ} {t : Surd} (h : fromCoeffs cfg x r = .ok t) :
    Good cfg t := new_good (h : new cfg _ _ _ _ = _)

theorem ofInt_good (n : ℤ) : Good cfg (ofInt n) :=
  ⟨surd_ofInt_normal cfg n, GInv.of_r (surd_ofInt_normal cfg n).toNormal le_rfl⟩

theorem ofRat_good (q : ℚ) : Good cfg (ofRat q) :=
  ⟨surd_ofRat_normal cfg q, GInv.of_r (surd_ofRat_normal cfg q).toNormal le_rfl⟩

theorem neg_good {s : Surd} (h : Good cfg s) : Good cfg (neg s) := ⟨neg_ok h.ok, neg_ginv h.ginv⟩

theorem fromRationals_good {a b r : ℚ} {t : Surd} (h : fromRationals cfg a b r = .ok t) :
    Good cfg t := by rw [fromRationals_eq] at h; exact new_good h

theorem add_good {x y t : Surd} (h : add cfg x y = .ok t) : Good cfg t := by
  unfold add at h
  split at h
  · obtain ⟨q, _, h⟩ := bind_ok_inv h; exact fromCoeffs_good h
  split at h
  · obtain ⟨q, _, h⟩ := bind_ok_inv h; exact fromCoeffs_good h
  · obtain ⟨q, _, h⟩ := bind_ok_inv h; exact fromCoeffs_good h

theorem sub_good {x y t : Surd} (h : sub cfg x y = .ok t) : Good cfg t := by
  unfold sub at h
  split at h
  · obtain ⟨q, _, h⟩ := bind_ok_inv h; exact fromCoeffs_good h
  split at h
  · obtain ⟨q, _, h⟩ := bind_ok_inv h
    obtain ⟨d, hd, h⟩ := bind_ok_inv h
    cases h
    exact neg_good (fromCoeffs_good hd)
  · obtain ⟨q, _, h⟩ := bind_ok_inv h; exact fromCoeffs_good h

theorem mul_good {x y t : Surd} (h : mul cfg x y = .ok t) : Good cfg t := by
  unfold mul at h
  split at h
  · obtain ⟨q, _, h⟩ := bind_ok_inv h; exact fromCoeffs_good h
  split at h
  · obtain ⟨q, _, h⟩ := bind_ok_inv h; exact fromCoeffs_good h
  split at h
  · exact new_good h
  · obtain ⟨q, _, h⟩ := bind_ok_inv h; exact fromCoeffs_good h

theorem recip_good {x t : Surd} (h : recip cfg x = .ok t) : Good cfg t := new_good h

theorem div_good {x y t : Surd} (h : div cfg x y = .ok t) : Good cfg t := by
  unfold div at h
  split at h
  · obtain ⟨q, _, h⟩ := bind_ok_inv h; exact fromCoeffs_good h
  split at h
  · obtain ⟨q, _, h⟩ := bind_ok_inv h
    obtain ⟨d, hd, h⟩ := bind_ok_inv h
    exact recip_good h
  split at h
  · exact new_good h
  · obtain ⟨q, _, h⟩ := bind_ok_inv h; exact fromCoeffs_good h

theorem trunc_good {x t : Surd} (h : trunc cfg x = .ok t) : Good cfg t := by
  unfold trunc at h
  split at h
  · obtain ⟨_, _, h⟩ := bind_ok_inv h
    obtain ⟨_, _, h⟩ := bind_ok_inv h
    obtain ⟨_, _, h⟩ := bind_ok_inv h
    exact fromCoeffs_good h
  · obtain ⟨_, _, h⟩ := bind_ok_inv h
    obtain ⟨_, _, h⟩ := bind_ok_inv h
    cases h; exact ofInt_good _

theorem floor_good {x t : Surd} (h : floor cfg x = .ok t) : Good cfg t := by
  unfold floor at h
  obtain ⟨_, _, h⟩ := bind_ok_inv h
  obtain ⟨_, _, h⟩ := bind_ok_inv h
  obtain ⟨_, _, h⟩ := bind_ok_inv h
  cases h; exact ofInt_good _

theorem fromSqrtRat_good {q : ℚ} {t : Surd} (h : fromSqrtRat cfg fits q = .ok (.ok t)) :
    Good cfg t := by
  unfold fromSqrtRat at h
  split at h
  · cases h
  split at h
  · obtain ⟨s, hs, h⟩ := bind_ok_inv h; cases h; exact new_good hs
  split at h
  · obtain ⟨s, hs, h⟩ := bind_ok_inv h; cases h; exact new_good hs
  · cases h

theorem reconstruct_good {xy y : ℚ} {r : ℤ} {k : SqrtErrKind} {e : SqrtErr Surd}
    (h : reconstruct cfg xy y r k = .ok e) : Good cfg e.data := by
  unfold reconstruct at h
  obtain ⟨s, hs, h⟩ := bind_ok_inv h
  cases h; exact fromRationals_good hs

/-- goodness of either outcome -/
def GoodOut (cfg : Cfg) : Except (SqrtErr Surd) Surd → Prop
  | .ok s => Good cfg s
  | .error e => Good cfg e.data

theorem fromSqrtFinish_good {xy y δ : ℚ} {r : ℤ} {o : Except (SqrtErr Surd) Surd}
    (h : fromSqrtFinish cfg xy y δ r = .ok o) : GoodOut cfg o := by
  unfold fromSqrtFinish at h
  obtain ⟨m, _, h⟩ := bind_ok_inv h
  split at h
  · obtain ⟨s, hs, h⟩ := bind_ok_inv h
    split at h
    · cases h
    · cases h; exact new_good hs
  · obtain ⟨m', _, h⟩ := bind_ok_inv h
    split at h
    · obtain ⟨s, hs, h⟩ := bind_ok_inv h
      split at h
      · cases h
      · cases h; exact new_good hs
    · obtain ⟨e, he, h⟩ := bind_ok_inv h
      cases h; exact reconstruct_good he

theorem fromSqrtSurd_good {x : Surd} (hx : Good cfg x) {o : Except (SqrtErr Surd) Surd}
    (h : fromSqrtSurd cfg fits x = .ok o) : GoodOut cfg o := by
  unfold fromSqrtSurd at h
  obtain ⟨n, _, h⟩ := bind_ok_inv h
  split at h
  · cases h; exact hx
  split at h
  · unfold fromSqrtSurdRat at h
    obtain ⟨v, _, h⟩ := bind_ok_inv h
    split at h
    · obtain ⟨w, hw, h⟩ := bind_ok_inv h
      split at h
      · cases h; exact fromSqrtRat_good hw
      · cases h; exact ofRat_good _
    · cases h
  · unfold fromSqrtSurdIrr at h
    obtain ⟨_, _, h⟩ := bind_ok_inv h
    obtain ⟨_, _, h⟩ := bind_ok_inv h
    obtain ⟨_, _, h⟩ := bind_ok_inv h
    simp only at h
    split at h
    · obtain ⟨e, he, h⟩ := bind_ok_inv h
      cases h; exact reconstruct_good he
    · obtain ⟨w, hw, h⟩ := bind_ok_inv h
      split at h
      · obtain ⟨e, he, h⟩ := bind_ok_inv h
        cases h; exact reconstruct_good he
      · split at h
        · obtain ⟨_, _, h⟩ := bind_ok_inv h
          exact fromSqrtFinish_good h
        · obtain ⟨e, he, h⟩ := bind_ok_inv h
          cases h; exact reconstruct_good he

theorem stripLoop_sign {p : ℤ} : ∀ (n : ℕ) (b r : ℤ) (br : ℤ × ℤ),
    stripLoop n p (b, r) = some br → 0 ≤ r → 0 ≤ br.2 := by
  intro n
  induction n with
  | zero => intro b r br h; simp [stripLoop] at h
  | succ n ih =>
    intro b r br h hr
    rw [stripLoop] at h
    split at h
    · exact ih _ _ _ h (Int.tdiv_nonneg hr (mul_self_nonneg p))
    · cases h; exact hr

theorem stripAll_sign (fuel : ℕ) : ∀ (ps : List ℤ) (b r : ℤ) (br : ℤ × ℤ),
    stripAll fuel fits ps (b, r) = some (.ok br) → 0 ≤ r → 0 ≤ br.2 := by
  intro ps
  induction ps with
  | nil => intro b r br h hr; simp only [stripAll] at h; cases h; exact hr
  | cons p ps ih =>
    intro b r br h hr
    rw [stripAll] at h
    split at h
    · split at h
      · split at h
        · cases h
        · next br' hbr => obtain ⟨b', r'⟩ := br'; exact ih _ _ _ h (stripLoop_sign _ _ _ _ hbr hr)
      · exact ih _ _ _ h hr
    · cases h

theorem reduced_good {x t : Surd} {fuel : ℕ} (hx : Good cfg x)
    (h : reduced fuel fits x = some (.ok t)) : Good cfg t := by
  unfold reduced at h
  split at h
  · cases h
  · cases h
  · next b r hbr =>
    have h' : reduce ⟨x.a, b, x.c, r⟩ = .ok t := Option.some.inj h
    have hc : (Surd.mk x.a b x.c r).c ≠ 0 := hx.ok.ne_zero
    obtain ⟨t', e, _, hn, _⟩ := reduce_spec hc
    rw [h'] at e; cases e
    refine ⟨⟨hn, fun hcx => ?_⟩, reduce_ginv h'⟩
    exact reduce_sign_nonneg h' (stripAll_sign fuel _ _ _ _ hbr (hx.ok.real hcx))

theorem reach_good {s : Surd} (h : Reach cfg fits s) : Good cfg s := by
  induction h with
  | new h => exact new_good h
  | fromCoeffs h => exact fromCoeffs_good h
  | ofInt n => exact ofInt_good n
  | ofRat q => exact ofRat_good q
  | zero => exact ofInt_good 0
  | one => exact ofInt_good 1
  | fromPrim h =>
    unfold fromPrim at h
    split at h
    · cases h; exact ofInt_good _
    · cases h
  | fromRationals h => exact fromRationals_good h
  | fromEquation h =>
    unfold fromEquation at h
    split at h
    · split at h
      · cases h
      · cases h; exact ofRat_good _
    · simp only at h
      split at h
      · cases h
      · obtain ⟨s, hs, h⟩ := bind_ok_inv h; cases h; exact fromRationals_good hs
  | fromSqrtInt h =>
    unfold fromSqrtInt at h
    split at h
    · cases h
    · obtain ⟨s, hs, h⟩ := bind_ok_inv h; cases h; exact new_good hs
  | fromSqrtRat h => exact fromSqrtRat_good h
  | fromSqrt _ h ih => exact fromSqrtSurd_good ih h
  | fromSqrtErr _ h ih => exact fromSqrtSurd_good ih h
  | recip _ h _ => exact recip_good h
  | conj _ ih => exact ⟨surd_conj_ok cfg _ ih.ok, conj_ginv ih.ginv⟩
  | neg _ ih => exact neg_good ih
  | trunc _ h _ => exact trunc_good h
  | fract _ h _ =>
    unfold fract at h
    obtain ⟨_, _, h⟩ := bind_ok_inv h
    exact sub_good h
  | floor _ h _ => exact floor_good h
  | @numer x _ ih => exact ⟨(surd_numer_denom cfg x ih.ok).1, fun _ _ _ => isUnit_one⟩
  | denom _ _ => exact ofInt_good _
  | reduced _ h ih => exact reduced_good ih h
  | add _ _ h _ _ => exact add_good h
  | sub _ _ h _ _ => exact sub_good h
  | mul _ _ h _ _ => exact mul_good h
  | div _ _ h _ _ => exact div_good h
  | addInt _ h _ => exact fromCoeffs_good h
  | subInt _ h _ => exact fromCoeffs_good h
  | mulInt _ h _ => exact fromCoeffs_good h
  | divInt _ h _ => exact fromCoeffs_good h
  | addRat _ h _ => exact fromCoeffs_good h
  | subRat _ h _ => exact fromCoeffs_good h
  | mulRat _ h _ => exact fromCoeffs_good h
  | divRat _ h _ => exact fromCoeffs_good h

end Surd
end NumIrr
