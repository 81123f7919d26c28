/- Helper lemmas: `from_sqrt` and `reduced` over fixed-width integers, compared with big integers and with the unchecked build. -/
import Verif.Model.FixedSqrt
import Verif.Lemmas.FixedCFToSurd
import Verif.Lemmas.SurdSqrt
import Verif.Props.SurdSqrt

namespace NumIrr

/-- the same error, with the fraction given by its stored fields -/
def SqrtErr.rt (e : SqrtErr Rat) : SqrtErr Rt := ⟨.of e.data, e.kind⟩

/-- the result of `from_sqrt` on a fraction, with stored fields in the error -/
def sqrtRt : Except (SqrtErr Rat) Surd → Except (SqrtErr Rt) Surd
  | .ok s => .ok s
  | .error e => .error e.rt

namespace Fx

variable {x : Fx}

theorem holds_fits {n : Int} (h : x.Holds n) : x.fits n = true := by
  simpa [fits, IntTy.signed, Holds] using h

/-- the primes of the table fit a type of nine bits or more -/
theorem holds_251 (hw : 9 ≤ x.w) {p : Int} (h0 : 0 ≤ p) (h1 : p ≤ 251) : x.fits p = true := by
  have hL : (2 : Int) ^ 8 ≤ 2 ^ (x.w - 1) := pow_le_pow_right₀ (by norm_num) (by omega)
  exact holds_fits ⟨by linarith, by linarith⟩

theorem map_bind {β : Type} {r : Res Rt} {b : Res Rat} {f : Rt → Res β} {g : Rat → Res β}
    (h : Refines r (b.map Rt.of)) (hf : ∀ q, b = .ok q → Refines (f (.of q)) (g q)) : Refines (r >>= f) (b >>= g) := by
  rcases h with e | e
  · rw [e]
    cases hq : b with
    | error e => exact .rfl'
    | ok q => exact hf q hq
  · rw [e]; exact Or.inr rfl

theorem rtIsNeg_of (q : Rat) : rtIsNeg (.of q) = true ↔ q < 0 := by
  have h1 : q.num < 0 ↔ q < 0 := Rat.num_neg
  have h2 := q.den_pos
  unfold rtIsNeg Rt.of
  simp only [decide_eq_true_eq]
  rw [← h1]
  omega

theorem rtSubInt_ref (hx : x.checks = true) (p : Rat) (k : Int) :
    Refines (x.rtSubInt (.of p) k) (.ok (.of (p - k))) := by
  unfold rtSubInt
  refine ret_bind hx (ret_bind hx ?_)
  refine ratio_val hx (den_ne p) ?_
  unfold Rt.of
  have hd : (p.den : Rat) ≠ 0 := by exact_mod_cast p.den_nz
  push_cast
  rw [sub_div, mul_div_assoc, mul_comm, div_mul_cancel₀ _ hd, Rat.num_div_den]

theorem fromSqrtRat_ref (hx : x.checks = true) (cfg : Cfg) (t : Rat) :
    Refines (x.fromSqrtRat cfg (.of t)) ((Surd.fromSqrtRat cfg x.fits t).map sqrtRt) := by
  unfold fromSqrtRat Surd.fromSqrtRat
  have hd : (Rt.of t).den = 1 ↔ t.den = 1 := by unfold Rt.of; simp
  simp only [rtIsNeg_of, hd]
  split
  · exact .rfl'
  · split
    · rcases surdNew_ref hx cfg 0 1 1 t.num with e | e
      · rw [show (Rt.of t).num = t.num from rfl, e]
        cases Surd.new cfg 0 1 1 t.num <;> exact .rfl'
      · rw [show (Rt.of t).num = t.num from rfl, e]; exact Or.inr rfl
    · show Refines (if x.fits (t.num * t.den) = true then _ else _) _
      split
      · rcases surdNew_ref hx cfg 0 1 t.den (t.num * t.den) with e | e
        · rw [show (Rt.of t).num = t.num from rfl, show (Rt.of t).den = t.den from rfl, e]
          cases Surd.new cfg 0 1 t.den (t.num * t.den) <;> exact .rfl'
        · rw [show (Rt.of t).num = t.num from rfl, show (Rt.of t).den = t.den from rfl, e]; exact Or.inr rfl
      · exact .rfl'

theorem reconstruct_ref (hx : x.checks = true) (cfg : Cfg) (xy y : Rat) (r : Int) (k : SqrtErrKind) :
    Refines (x.reconstruct cfg (.of xy) (.of y) r k)
      (Surd.reconstruct cfg xy y r k >>= fun e => pure (Except.error e)) := by
  unfold reconstruct Surd.reconstruct
  refine (rtMul_ref hx xy y).bindOk ?_
  rw [rt_int]
  rcases fromRationals_ref hx cfg (xy * y) y r with e | e
  · rw [e]
    cases Surd.fromRationals cfg (xy * y) y r <;> exact .rfl'
  · rw [e]; exact Or.inr rfl

theorem getAbc_ref (hx : x.checks = true) (g y : Rat) : Refines (x.getAbc (.of g) (.of y)) (Surd.getAbc g y) := by
  unfold getAbc Surd.getAbc
  refine ret_bind hx (ret_bind hx (ret_bind hx (ret_bind hx ?_)))
  show Refines (x.div y.num (igcd ((1 + 1) * g.num * g.den) y.num) >>= _) _
  rw [show (1 + 1 : Int) = 2 from rfl]
  refine Refines.bind (div_refR _ _) fun scale _ => ?_
  refine ret_bind hx (ret_bind hx (ret_bind hx ?_))
  refine Refines.bind (div_refR _ _) fun c2 _ => ?_
  refine ret_bind hx (ret_bind hx ?_)
  split
  · exact .rfl'
  · refine Refines.bind .rfl' fun c _ => ?_
    refine ret_bind hx ?_
    exact .rfl'

theorem sqrtResult_ref (hx : x.checks = true) (cfg : Cfg) (r a b c : Int) :
    Refines (x.sqrtResult cfg r (a, b, c)) (do
      let ret ← Surd.new cfg a b c r
      if cfg.debug = true ∧ ret.a < 0 then .error .debugAssert else return .ok ret) := by
  unfold sqrtResult
  exact Refines.bind (surdNew_ref hx cfg a b c r) fun _ _ => .rfl'

theorem fromSqrtFinish_ref (hx : x.checks = true) (cfg : Cfg) (xy y δ : Rat) (r : Int) :
    Refines (x.fromSqrtFinish cfg (.of xy) (.of y) (.of δ) r) (Surd.fromSqrtFinish cfg xy y δ r) := by
  unfold fromSqrtFinish Surd.fromSqrtFinish
  refine (rtSub_ref hx xy δ).bindOk ?_
  refine Refines.bind (getAbc_ref hx _ _) fun o _ => ?_
  rcases o with _ | ⟨a, b, c⟩
  · refine (rtAdd_ref hx xy δ).bindOk ?_
    refine Refines.bind (getAbc_ref hx _ _) fun o _ => ?_
    rcases o with _ | ⟨a, b, c⟩
    · exact reconstruct_ref hx cfg xy y r _
    · exact sqrtResult_ref hx cfg r a b c
  · exact sqrtResult_ref hx cfg r a b c

/-- a rational normal surd stores its value in lowest terms -/
theorem rt_of_rational {cfg : Cfg} {s : Surd} (h : s.Ok cfg) (hr : s.r = 0) :
    (⟨s.a, s.c⟩ : Rt) = .of (Rat.divInt s.a s.c) := by
  refine (rt_of_coprime (g := 1) one_ne_zero (mul_one _) (mul_one _) h.c_pos ?_).symm
  have hb := h.rational.mpr hr
  rw [Nat.coprime_iff_gcd_eq_one]
  have h1 := h.coprime (Int.gcd s.a s.c) (Int.gcd_dvd_left ..) (by rw [hb]; exact dvd_zero _) (Int.gcd_dvd_right ..)
  rw [Int.isUnit_iff] at h1
  have : Int.gcd s.a s.c = 1 := by omega
  exact this

theorem toRational_of_rational (cfg : Cfg) {s : Surd} (hr : s.r = 0) :
    Surd.toRational cfg s = .ok (.exact (s.a, s.c)) := by
  unfold Surd.toRational
  rw [Surd.panicIfComplex_ok hr.ge, Surd.ok_bind, if_pos hr]; rfl

theorem fromSqrtSurdRat_ref (hx : x.checks = true) (cfg : Cfg) {t : Surd} (h : t.Ok cfg) (hr : t.r = 0) :
    Refines (x.fromSqrtSurdRat cfg t) (Surd.fromSqrtSurdRat cfg x.fits t) := by
  unfold fromSqrtSurdRat Surd.fromSqrtSurdRat
  refine Refines.bind (toRational_ref hx cfg t) fun v hv => ?_
  rw [toRational_of_rational cfg hr] at hv
  obtain rfl : Approx.exact (t.a, t.c) = v := by injection hv
  show Refines (x.fromSqrtRat cfg ⟨t.a, t.c⟩ >>= _) (Surd.fromSqrtRat cfg x.fits (Rat.divInt t.a t.c) >>= _)
  rw [rt_of_rational h hr]
  rcases fromSqrtRat_ref hx cfg (Rat.divInt t.a t.c) with e | e
  · rw [e]
    cases Surd.fromSqrtRat cfg x.fits (Rat.divInt t.a t.c) with
    | error e => exact .rfl'
    | ok o => cases o <;> exact .rfl'
  · rw [e]; exact Or.inr rfl

theorem fromSqrtSurdIrr_ref (hx : x.checks = true) (cfg : Cfg) (t : Surd) :
    Refines (x.fromSqrtSurdIrr cfg t) (Surd.fromSqrtSurdIrr cfg x.fits t) := by
  unfold fromSqrtSurdIrr Surd.fromSqrtSurdIrr
  refine ratio_bind hx fun u => ratio_bind hx fun y => ?_
  refine map_bind (rtDiv_refR hx u y) fun xy _ => ?_
  refine (rtMul_ref hx xy xy).bindOk ((rtSubInt_ref hx _ _).bindOk ?_)
  simp only [rtIsNeg_of]
  split
  · exact reconstruct_ref hx cfg xy y _ _
  · rename_i hn
    rcases fromSqrtRat_ref hx cfg (xy * xy - t.r) with e | e
    · rw [e]
      cases ho : Surd.fromSqrtRat cfg x.fits (xy * xy - t.r) with
      | error e => exact .rfl'
      | ok o =>
        cases o with
        | error e => exact reconstruct_ref hx cfg xy y _ _
        | ok v =>
          show Refines (if v.isRational = true then _ else _) (if v.isRational = true then _ else _)
          split
          · rename_i hv
            have hok : v.Ok cfg := by
              have hc : ¬ (cfg.complex = false ∧ xy * xy - t.r < 0) := fun hh => hn hh.2
              by_cases hf : (xy * xy - t.r).den = 1 ∨ x.fits ((xy * xy - t.r).num * (xy * xy - t.r).den) = true
              · obtain ⟨s, h1, _, h3⟩ := Surd.fromSqrtRat_ok hc hf
                rw [h1] at ho
                cases ho; exact h3
              · push Not at hf
                rw [Surd.fromSqrtRat_overflow hc hf.1 hf.2] at ho
                cases ho
            have hr : v.r = 0 := hok.isRational_iff.mp hv
            refine Refines.bind (toRational_ref hx cfg v) fun w hw => ?_
            rw [toRational_of_rational cfg hr] at hw
            obtain rfl : Approx.exact (v.a, v.c) = w := by injection hw
            show Refines (x.fromSqrtFinish cfg _ _ ⟨v.a, v.c⟩ _) _
            rw [rt_of_rational hok hr]
            exact fromSqrtFinish_ref hx cfg xy y _ _
          · exact reconstruct_ref hx cfg xy y _ _
    · rw [e]; exact Or.inr rfl

theorem fromSqrtSurd_ref (hx : x.checks = true) (cfg : Cfg) {t : Surd} (h : t.Ok cfg) :
    Refines (x.fromSqrtSurd cfg t) (Surd.fromSqrtSurd cfg x.fits t) := by
  unfold fromSqrtSurd Surd.fromSqrtSurd
  refine Refines.bind ?_ fun neg _ => ?_
  · split
    · exact .rfl'
    · exact isNegative_ref hx cfg t
  · split
    · exact .rfl'
    · split
      · rename_i hv
        exact fromSqrtSurdRat_ref hx cfg h (h.isRational_iff.mp hv)
      · exact fromSqrtSurdIrr_ref hx cfg t

theorem stripLoop_ref (hx : x.checks = true) (p : Int) : ∀ (fuel : Nat) (b r : Int),
    RefinesO (x.stripLoop fuel p b r) ((Surd.stripLoop fuel p (b, r)).map Except.ok)
  | 0, _, _ => Or.inl rfl
  | fuel + 1, b, r => by
    unfold stripLoop Surd.stripLoop
    split
    · rcases ret_ref hx (b * p) with e | e
      · rw [show x.mul b p = .ok (b * p) from e]
        exact stripLoop_ref hx p fuel _ _
      · rw [show x.mul b p = .error .overflow from e]; exact Or.inr rfl
    · exact Or.inl rfl

theorem stripAll_ref (hx : x.checks = true) (fuel : Nat) : ∀ (ps : List Int) (b r : Int),
    RefinesO (x.stripAll fuel ps b r) (Surd.stripAll fuel x.fits ps (b, r))
  | [], _, _ => Or.inl rfl
  | p :: ps, b, r => by
    unfold stripAll Surd.stripAll
    split
    · split
      · rcases stripLoop_ref hx p fuel b r with e | e
        · rw [e]
          cases Surd.stripLoop fuel p (b, r) with
          | none => exact Or.inl rfl
          | some br => exact stripAll_ref hx fuel ps br.1 br.2
        · rw [e]; exact Or.inr rfl
      · exact stripAll_ref hx fuel ps b r
    · exact Or.inl rfl

theorem reduced_ref (hx : x.checks = true) (fuel : Nat) (s : Surd) :
    RefinesO (x.reduced fuel s) (Surd.reduced fuel x.fits s) := by
  unfold reduced Surd.reduced
  rcases stripAll_ref hx fuel Surd.smallPrimes s.b s.r with e | e
  · rw [e]
    cases Surd.stripAll fuel x.fits Surd.smallPrimes (s.b, s.r) with
    | none => exact Or.inl rfl
    | some o =>
      cases o with
      | error e => exact Or.inl rfl
      | ok br =>
        obtain ⟨b, r⟩ := br
        rcases reduce_ref hx ⟨s.a, b, s.c, r⟩ with e | e
        · left; show some _ = some _; rw [e]
        · right; show some _ = some _; rw [e]
  · rw [e]; exact Or.inr rfl

/-! ### The unchecked build -/

theorem rtSubInt_rel (hx : x.checks = true) (p : Rt) (k : Int) : Refines (x.rtSubInt p k) (x.rel.rtSubInt p k) := by
  unfold rtSubInt; same_steps hx [ratio_rel hx]

theorem fromSqrtRat_rel (hx : x.checks = true) (cfg : Cfg) (t : Rt) :
    Refines (x.fromSqrtRat cfg t) (x.rel.fromSqrtRat cfg t) := by
  unfold fromSqrtRat
  split
  · exact .rfl'
  · split
    · exact Refines.bind (surdNew_rel hx _ _ _ _ _) fun _ _ => .rfl'
    · show Refines (if x.fits _ = true then _ else _) (if x.fits _ = true then _ else _)
      split
      · exact Refines.bind (surdNew_rel hx _ _ _ _ _) fun _ _ => .rfl'
      · exact .rfl'

theorem reconstruct_rel (hx : x.checks = true) (cfg : Cfg) (xy y : Rt) (r : Int) (k : SqrtErrKind) :
    Refines (x.reconstruct cfg xy y r k) (x.rel.reconstruct cfg xy y r k) := by
  unfold reconstruct; same_steps hx [rtMul_rel hx, fromRationals_rel hx]

theorem getAbc_rel (hx : x.checks = true) (g y : Rt) : Refines (x.getAbc g y) (x.rel.getAbc g y) := by
  unfold getAbc; same_steps hx []

theorem sqrtResult_rel (hx : x.checks = true) (cfg : Cfg) (r : Int) (v : Int × Int × Int) :
    Refines (x.sqrtResult cfg r v) (x.rel.sqrtResult cfg r v) := by
  unfold sqrtResult; same_steps hx [surdNew_rel hx]

theorem fromSqrtFinish_rel (hx : x.checks = true) (cfg : Cfg) (xy y δ : Rt) (r : Int) :
    Refines (x.fromSqrtFinish cfg xy y δ r) (x.rel.fromSqrtFinish cfg xy y δ r) := by
  unfold fromSqrtFinish
  refine Refines.bind (rtSub_rel hx _ _) fun g _ => ?_
  refine Refines.bind (getAbc_rel hx _ _) fun o _ => ?_
  rcases o with _ | v
  · refine Refines.bind (rtAdd_rel hx _ _) fun g _ => ?_
    refine Refines.bind (getAbc_rel hx _ _) fun o _ => ?_
    rcases o with _ | v
    · exact reconstruct_rel hx cfg xy y r _
    · exact sqrtResult_rel hx cfg r v
  · exact sqrtResult_rel hx cfg r v

theorem fromSqrtSurdRat_rel (hx : x.checks = true) (cfg : Cfg) (t : Surd) :
    Refines (x.fromSqrtSurdRat cfg t) (x.rel.fromSqrtSurdRat cfg t) := by
  unfold fromSqrtSurdRat
  refine Refines.bind (toRational_rel hx cfg t) fun v _ => ?_
  cases v with
  | exact v => exact Refines.bind (fromSqrtRat_rel hx cfg _) fun _ _ => .rfl'
  | approximated v => exact .rfl'

theorem fromSqrtSurdIrr_rel (hx : x.checks = true) (cfg : Cfg) (t : Surd) :
    Refines (x.fromSqrtSurdIrr cfg t) (x.rel.fromSqrtSurdIrr cfg t) := by
  unfold fromSqrtSurdIrr
  refine Refines.bind (ratio_rel hx _ _) fun u _ => ?_
  refine Refines.bind (ratio_rel hx _ _) fun y _ => ?_
  refine Refines.bind (rtDiv_rel hx _ _) fun xy _ => ?_
  refine Refines.bind (rtMul_rel hx _ _) fun sq _ => ?_
  refine Refines.bind (rtSubInt_rel hx _ _) fun d _ => ?_
  split
  · exact reconstruct_rel hx ..
  · refine Refines.bind (fromSqrtRat_rel hx cfg _) fun o _ => ?_
    cases o with
    | error e => exact reconstruct_rel hx ..
    | ok v =>
      show Refines (if v.isRational = true then _ else _) (if v.isRational = true then _ else _)
      split
      · exact Refines.bind (toRational_rel hx cfg v) fun w _ => fromSqrtFinish_rel hx ..
      · exact reconstruct_rel hx ..

theorem fromSqrtSurd_rel (hx : x.checks = true) (cfg : Cfg) (t : Surd) :
    Refines (x.fromSqrtSurd cfg t) (x.rel.fromSqrtSurd cfg t) := by
  unfold fromSqrtSurd
  refine Refines.bind ?_ fun neg _ => ?_
  · split
    · exact .rfl'
    · exact isNegative_rel hx cfg t
  · split
    · exact .rfl'
    · split
      · exact fromSqrtSurdRat_rel hx cfg t
      · exact fromSqrtSurdIrr_rel hx cfg t

theorem stripLoop_rel (hx : x.checks = true) (p : Int) : ∀ (fuel : Nat) (b r : Int),
    RefinesO (x.stripLoop fuel p b r) (x.rel.stripLoop fuel p b r)
  | 0, _, _ => Or.inl rfl
  | fuel + 1, b, r => by
    unfold stripLoop
    split
    · rcases ret_rel hx (b * p) with e | e
      · rw [show x.mul b p = x.rel.mul b p from e]
        cases x.rel.mul b p with
        | error e => exact Or.inl rfl
        | ok b' => exact stripLoop_rel hx p fuel _ _
      · rw [show x.mul b p = .error .overflow from e]; exact Or.inr rfl
    · exact Or.inl rfl

theorem stripAll_rel (hx : x.checks = true) (fuel : Nat) : ∀ (ps : List Int) (b r : Int),
    RefinesO (x.stripAll fuel ps b r) (x.rel.stripAll fuel ps b r)
  | [], _, _ => Or.inl rfl
  | p :: ps, b, r => by
    unfold stripAll
    show RefinesO (if x.fits p = true then _ else _) (if x.fits p = true then _ else _)
    split
    · show RefinesO (if x.fits (p * p) = true then _ else _) (if x.fits (p * p) = true then _ else _)
      split
      · rcases stripLoop_rel hx p fuel b r with e | e
        · rw [e]
          cases x.rel.stripLoop fuel p b r with
          | none => exact Or.inl rfl
          | some o =>
            cases o with
            | error e => exact Or.inl rfl
            | ok br => exact stripAll_rel hx fuel ps br.1 br.2
        · rw [e]; exact Or.inr rfl
      · exact stripAll_rel hx fuel ps b r
    · exact Or.inl rfl

theorem reduced_rel (hx : x.checks = true) (fuel : Nat) (s : Surd) : RefinesO (x.reduced fuel s) (x.rel.reduced fuel s) := by
  unfold reduced
  rcases stripAll_rel hx fuel Surd.smallPrimes s.b s.r with e | e
  · rw [e]
    cases x.rel.stripAll fuel Surd.smallPrimes s.b s.r with
    | none => exact Or.inl rfl
    | some o =>
      cases o with
      | error e => exact Or.inl rfl
      | ok br =>
        obtain ⟨b, r⟩ := br
        rcases reduce_rel hx ⟨s.a, b, s.c, r⟩ with e | e
        · left; show some _ = some _; rw [e]
        · right; show some _ = some _; rw [e]
  · rw [e]; exact Or.inr rfl

/-! ### Stored integers -/

/-- the integers stored in a result of `from_sqrt` are representable -/
def HoldsO (x : Fx) : Except (SqrtErr Surd) Surd → Prop
  | .ok s => x.HoldsS s
  | .error e => x.HoldsS e.data

/-- the same for a fraction as argument -/
def HoldsSQ (x : Fx) : Except (SqrtErr Rt) Surd → Prop
  | .ok s => x.HoldsS s
  | .error e => x.HoldsR e.data

theorem fromSqrtRat_holds (hw : 2 ≤ x.w) (cfg : Cfg) {t : Rt} (h : x.HoldsR t) : Ens (x.fromSqrtRat cfg t) x.HoldsSQ := by
  unfold fromSqrtRat
  split
  · exact Ens.pure h
  · split
    · exact Ens.bind (surdNew_holds hw cfg (holds_zero x) (holds_one hw) (holds_one hw) h.1) fun s hs => Ens.pure hs
    · split
      · rename_i hf
        exact Ens.bind (surdNew_holds hw cfg (holds_zero x) (holds_one hw) h.2 (fits_holds hf)) fun s hs => Ens.pure hs
      · exact Ens.pure h

theorem reconstruct_holds (hw : 2 ≤ x.w) (cfg : Cfg) (xy y : Rt) (r : Int) (k : SqrtErrKind) :
    Ens (x.reconstruct cfg xy y r k) x.HoldsO := by
  unfold reconstruct
  exact Ens.bind Ens.triv fun t _ => Ens.bind (fromRationals_holds hw cfg _ _ _) fun s hs => Ens.pure hs

theorem sqrtR_holds {n : Int} (h : x.Holds n) : Ens (sqrtR n) x.Holds := by
  intro v hv
  unfold sqrtR at hv
  split at hv
  · cases hv
  · rename_i hn
    cases hv
    have h1 : isqrt n ≤ n := by
      unfold isqrt
      have := Nat.sqrt_le_self n.toNat
      omega
    have h0 : 0 ≤ isqrt n := by unfold isqrt; omega
    refine ⟨?_, lt_of_le_of_lt h1 h.2⟩
    have := h.2
    have : (0 : Int) < 2 ^ (x.w - 1) := by positivity
    omega

theorem getAbc_holds (hw : 2 ≤ x.w) (g y : Rt) :
    Ens (x.getAbc g y) fun o => ∀ v, o = some v → x.Holds v.1 ∧ x.Holds v.2.1 ∧ x.Holds v.2.2 := by
  unfold getAbc
  iterate 8 refine Ens.bind Ens.triv fun _ _ => ?_
  refine Ens.bind (div_holds _ _) fun c2 h2 => ?_
  refine Ens.bind (ret_holds hw _) fun a ha => Ens.bind (ret_holds hw _) fun b hb => ?_
  split
  · exact Ens.pure (by simp)
  · refine Ens.bind (sqrtR_holds h2) fun c hc => Ens.bind Ens.triv fun _ _ => ?_
    split
    · exact Ens.pure (by simp)
    · refine Ens.pure ?_
      rintro v ⟨⟩
      exact ⟨ha, hb, hc⟩

theorem sqrtResult_holds (hw : 2 ≤ x.w) (cfg : Cfg) {r : Int} (hr : x.Holds r) {v : Int × Int × Int}
    (hv : x.Holds v.1 ∧ x.Holds v.2.1 ∧ x.Holds v.2.2) : Ens (x.sqrtResult cfg r v) x.HoldsO := by
  unfold sqrtResult
  refine Ens.bind (surdNew_holds hw cfg hv.1 hv.2.1 hv.2.2 hr) fun s hs => ?_
  split
  · exact Ens.err
  · exact Ens.pure hs

theorem fromSqrtFinish_holds (hw : 2 ≤ x.w) (cfg : Cfg) (xy y δ : Rt) {r : Int} (hr : x.Holds r) :
    Ens (x.fromSqrtFinish cfg xy y δ r) x.HoldsO := by
  unfold fromSqrtFinish
  refine Ens.bind Ens.triv fun g _ => Ens.bind (getAbc_holds hw _ _) fun o ho => ?_
  rcases o with _ | v
  · refine Ens.bind Ens.triv fun g _ => Ens.bind (getAbc_holds hw _ _) fun o ho => ?_
    rcases o with _ | v
    · exact reconstruct_holds hw _ _ _ _ _
    · exact sqrtResult_holds hw cfg hr (ho v rfl)
  · exact sqrtResult_holds hw cfg hr (ho v rfl)

theorem toRational_exact_holds (cfg : Cfg) {s : Surd} (h : x.HoldsS s) :
    Ens (x.toRational cfg s) fun o => ∀ v, o = .exact v → x.Holds v.1 ∧ x.Holds v.2 := by
  unfold toRational
  refine Ens.bind Ens.triv fun _ _ => ?_
  split
  · refine Ens.pure ?_
    rintro v ⟨⟩
    exact ⟨h.1, h.2.2.1⟩
  · iterate 4 refine Ens.bind Ens.triv fun _ _ => ?_
    refine Ens.pure ?_
    rintro v ⟨⟩

theorem fromSqrtSurdRat_holds (hw : 2 ≤ x.w) (cfg : Cfg) {t : Surd} (h : x.HoldsS t) :
    Ens (x.fromSqrtSurdRat cfg t) x.HoldsO := by
  unfold fromSqrtSurdRat
  refine Ens.bind (toRational_exact_holds cfg h) fun v hv => ?_
  cases v with
  | exact v =>
    refine Ens.bind (fromSqrtRat_holds hw cfg (t := ⟨v.1, v.2⟩) (hv v rfl)) fun o ho => ?_
    cases o with
    | ok s => exact Ens.pure ho
    | error e => exact Ens.pure (surdOfRt_holds ho)
  | approximated v => exact Ens.err

theorem fromSqrtSurdIrr_holds (hw : 2 ≤ x.w) (cfg : Cfg) {t : Surd} (h : x.HoldsS t) :
    Ens (x.fromSqrtSurdIrr cfg t) x.HoldsO := by
  unfold fromSqrtSurdIrr
  iterate 5 refine Ens.bind Ens.triv fun _ _ => ?_
  split
  · exact reconstruct_holds hw _ _ _ _ _
  · refine Ens.bind Ens.triv fun o _ => ?_
    cases o with
    | error e => exact reconstruct_holds hw _ _ _ _ _
    | ok v =>
      show Ens (if v.isRational = true then _ else _) _
      split
      · exact Ens.bind Ens.triv fun w _ => fromSqrtFinish_holds hw cfg _ _ _ h.2.2.2
      · exact reconstruct_holds hw _ _ _ _ _

theorem fromSqrtSurd_holds (hw : 2 ≤ x.w) (cfg : Cfg) {t : Surd} (h : x.HoldsS t) :
    Ens (x.fromSqrtSurd cfg t) x.HoldsO := by
  unfold fromSqrtSurd
  refine Ens.bind Ens.triv fun neg _ => ?_
  split
  · exact Ens.pure h
  · split
    · exact fromSqrtSurdRat_holds hw cfg h
    · exact fromSqrtSurdIrr_holds hw cfg h

/-! ### `reduced` keeps representable state -/

theorem stripLoop_holds (hw : 2 ≤ x.w) {p : Int} (fuel : Nat) : ∀ (b r : Int), x.Holds b → x.Holds r →
    ∀ b' r', x.stripLoop fuel p b r = some (.ok (b', r')) → x.Holds b' ∧ x.Holds r' := by
  induction fuel with
  | zero => intro b r _ _ b' r' h; simp [stripLoop] at h
  | succ fuel ih =>
    intro b r hb hr b' r' h
    unfold stripLoop at h
    split at h
    · cases hm : x.mul b p with
      | error e => rw [hm] at h; simp at h
      | ok v =>
        rw [hm] at h
        refine ih v _ (ret_holds (by omega) _ v hm) ?_ b' r' h
        obtain ⟨h1, h2⟩ := hr
        have h0 : 0 ≤ p * p := mul_self_nonneg p
        have h3 : (r.tdiv (p * p)).natAbs ≤ r.natAbs := by rw [Int.natAbs_tdiv]; exact Nat.div_le_self _ _
        have hL : (0 : Int) < 2 ^ (x.w - 1) := by positivity
        rcases le_or_gt 0 r with h4 | h4
        · have h5 : 0 ≤ r.tdiv (p * p) := Int.tdiv_nonneg h4 h0
          constructor <;> omega
        · have h5 : r.tdiv (p * p) ≤ 0 := by
            have := Int.tdiv_nonneg (a := -r) (b := p * p) (by omega) h0
            rw [Int.neg_tdiv] at this
            omega
          constructor <;> omega
    · simp only [Option.some.injEq, Except.ok.injEq, Prod.mk.injEq] at h
      exact ⟨h.1 ▸ hb, h.2 ▸ hr⟩

theorem stripAll_holds (hw : 2 ≤ x.w) (fuel : Nat) : ∀ (ps : List Int) (b r : Int), x.Holds b → x.Holds r →
    ∀ b' r', x.stripAll fuel ps b r = some (.ok (b', r')) → x.Holds b' ∧ x.Holds r' := by
  intro ps
  induction ps with
  | nil =>
    intro b r hb hr b' r' h
    simp only [stripAll, Option.some.injEq, Except.ok.injEq, Prod.mk.injEq] at h
    exact ⟨h.1 ▸ hb, h.2 ▸ hr⟩
  | cons p ps ih =>
    intro b r hb hr b' r' h
    unfold stripAll at h
    split at h
    · split at h
      · cases hl : x.stripLoop fuel p b r with
        | none => rw [hl] at h; simp at h
        | some o =>
          cases o with
          | error e => rw [hl] at h; simp at h
          | ok br =>
            obtain ⟨b1, r1⟩ := br
            rw [hl] at h
            obtain ⟨h1, h2⟩ := stripLoop_holds hw fuel b r hb hr b1 r1 hl
            exact ih b1 r1 h1 h2 b' r' h
      · exact ih b r hb hr b' r' h
    · simp at h

theorem reduced_holds (hw : 2 ≤ x.w) (fuel : Nat) {s : Surd} (h : x.HoldsS s) : EnsO (x.reduced fuel s) x.HoldsS := by
  intro t ht
  unfold reduced at ht
  cases hl : x.stripAll fuel Surd.smallPrimes s.b s.r with
  | none => rw [hl] at ht; simp at ht
  | some o =>
    cases o with
    | error e => rw [hl] at ht; simp at ht
    | ok br =>
      obtain ⟨b', r'⟩ := br
      rw [hl] at ht
      obtain ⟨h1, h2⟩ := stripAll_holds hw fuel _ s.b s.r h.2.1 h.2.2.2 b' r' hl
      simp only [Option.some.injEq] at ht
      exact reduce_holds hw (s := ⟨s.a, b', s.c, r'⟩) ⟨h.1, h1, h.2.2.1, h2⟩ t ht

end Fx
end NumIrr
