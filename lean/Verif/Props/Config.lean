/-
C138: the build configuration.  Neither the feature `complex` nor debug assertions change what the library does with real
numbers.
-/
import Verif.Model.SurdSqrt
import Verif.Model.QInt
import Verif.Spec.SurdProg
import Verif.Spec.Formula
import Verif.Lemmas.SurdOps
import Verif.Props.SurdSqrt

namespace NumIrr

private theorem bind_same {α β : Type} {r r' : Res α} {f f' : α → Res β} (h : r = r') (hf : ∀ a, r' = .ok a → f a = f' a) :
    (r >>= f) = (r' >>= f') := by
  subst h
  cases r with
  | error e => rfl
  | ok a => exact hf a rfl

private theorem bind_ok {α β : Type} {r : Res α} {f : α → Res β} {v : β} (h : (r >>= f) = .ok v) :
    ∃ a, r = .ok a ∧ f a = .ok v := by
  cases r with
  | error e => cases h
  | ok a => exact ⟨a, rfl, h⟩

namespace Surd

variable (cfg cfg' : Cfg)

/-! ### constructors -/

theorem fromCoeffs_config {c : Coeffs} {r : ℤ} (h : 0 ≤ r) : fromCoeffs cfg c r = fromCoeffs cfg' c r := by
  unfold fromCoeffs
  rw [if_neg (by omega), if_neg (by omega)]

theorem new_config {a b c r : ℤ} (h : 0 ≤ r) : new cfg a b c r = new cfg' a b c r := by
  unfold new
  rw [if_neg (by omega), if_neg (by omega)]

theorem fromCoeffs_real {cfg : Cfg} {c : Coeffs} {r : ℤ} {s : Surd} (h : 0 ≤ r) (e : fromCoeffs cfg c r = .ok s) : 0 ≤ s.r := by
  unfold fromCoeffs at e
  rw [if_neg (by omega)] at e
  exact reduce_sign_nonneg e h

theorem new_real {cfg : Cfg} {a b c r : ℤ} {s : Surd} (h : 0 ≤ r) (e : new cfg a b c r = .ok s) : 0 ≤ s.r := by
  unfold new at e
  rw [if_neg (by omega)] at e
  exact reduce_sign_nonneg e h

private theorem pic {s : Surd} (h : 0 ≤ s.r) : panicIfComplex cfg s = .ok () := by
  unfold panicIfComplex
  rw [if_neg (by omega)]

private theorem hinted_r {s : Surd} (h : 0 ≤ s.r) (k : ℤ) : 0 ≤ (s.reduceRootHinted k).r := by
  unfold reduceRootHinted
  dsimp only
  split
  · exact h
  · split
    · split
      · exact Int.tdiv_nonneg h (by omega)
      · exact h
    · exact h

private theorem rbo {x y : Surd} (hx : 0 < x.r) (hy : 0 < y.r) : reduceBinOp cfg x y = reduceBinOp cfg' x y := by
  have key : ∀ c d, reduceBinOp ⟨c, d⟩ x y = reduceBinOp ⟨false, false⟩ x y := by
    intro c d
    unfold reduceBinOp
    have e1 : ((decide (x.r < 0)) ^^ (decide (y.r < 0))) = false := by
      rw [decide_eq_false (by omega), decide_eq_false (by omega)]; rfl
    have e2 : (x.r.natAbs > y.r.natAbs) = (x.r > y.r) := by apply propext; omega
    have e3 : (y.r.natAbs > x.r.natAbs) = (y.r > x.r) := by apply propext; omega
    have e4 : ¬ (x.r = 0 ∨ y.r = 0) := by omega
    cases c <;> cases d <;> simp [e1, e2, e3, e4]
  rw [key cfg.complex cfg.debug, key cfg'.complex cfg'.debug]

private theorem rbu {x y : Surd} (hx : 0 < x.r) (hy : 0 < y.r) :
    reduceBinOpUnwrap cfg x y = reduceBinOpUnwrap cfg' x y := by
  unfold reduceBinOpUnwrap
  rw [rbo cfg cfg' hx hy]

private theorem rbu_r {cfg : Cfg} {x y : Surd} (hx : 0 ≤ x.r) {p : Surd × Surd}
    (h : reduceBinOpUnwrap cfg x y = .ok p) : 0 ≤ p.1.r := by
  unfold reduceBinOpUnwrap at h
  obtain ⟨o, h1, h2⟩ := bind_ok h
  cases o with
  | none => cases h2
  | some q =>
    have h2 : q = p := Except.ok.inj h2
    subst h2
    have fin : ∀ {a b : Surd}, 0 ≤ a.r → (if a.r = b.r then some (a, b) else none) = some q → 0 ≤ q.1.r := by
      intro a b ha h
      split at h
      · cases h; exact ha
      · cases h
    have key : ∀ {a b : Surd}, 0 ≤ a.r →
        (pure (if a.r = b.r then some (a, b) else none) : Res (Option (Surd × Surd))) = .ok (some q) → 0 ≤ q.1.r := by
      intro a b ha h
      exact fin ha (Except.ok.inj h)
    unfold reduceBinOp at h1
    dsimp only at h1
    split at h1
    · split at h1
      · cases h1
      · split at h1
        · obtain ⟨k, -, h3⟩ := bind_ok h1
          exact key (hinted_r hx k) h3
        · split at h1
          · obtain ⟨k, -, h3⟩ := bind_ok h1
            exact key hx h3
          · exact key hx h1
    · split at h1
      · cases h1
      · split at h1
        · obtain ⟨k, -, h3⟩ := bind_ok h1
          exact key (hinted_r hx k) h3
        · split at h1
          · obtain ⟨k, -, h3⟩ := bind_ok h1
            exact key hx h3
          · exact key hx h1

private theorem pos_of {x : Surd} (hx : 0 ≤ x.r) (h : ¬ x.isRational = true) : 0 < x.r := by
  rcases hx.lt_or_eq with h1 | h1
  · exact h1
  · exact absurd (by simp [isRational, ← h1]) h

/-! ### arithmetic -/

/-- **C138** the four operations of two surds with non-negative roots. -/
theorem surd_config_binary (x y : Surd) (hx : 0 ≤ x.r) (hy : 0 ≤ y.r) :
    add cfg x y = add cfg' x y ∧ sub cfg x y = sub cfg' x y ∧ mul cfg x y = mul cfg' x y ∧ div cfg x y = div cfg' x y := by
  have ops : ∀ q : ℚ, ∀ s : Surd, 0 ≤ s.r → addRat cfg s q = addRat cfg' s q ∧ subRat cfg s q = subRat cfg' s q ∧
      mulRat cfg s q = mulRat cfg' s q ∧ divRat cfg s q = divRat cfg' s q := fun q s hs =>
    ⟨fromCoeffs_config _ _ hs, fromCoeffs_config _ _ hs, fromCoeffs_config _ _ hs, fromCoeffs_config _ _ hs⟩
  have hgcd : 0 ≤ igcd x.r y.r := by unfold igcd; omega
  have hl : 0 ≤ x.r.tdiv (igcd x.r y.r) := Int.tdiv_nonneg hx hgcd
  have hr : 0 ≤ y.r.tdiv (igcd x.r y.r) := Int.tdiv_nonneg hy hgcd
  refine ⟨?_, ?_, ?_, ?_⟩
  · unfold add
    split
    · exact bind_same rfl fun q _ => (ops q x hx).1
    · next h1 =>
      split
      · exact bind_same rfl fun q _ => (ops q y hy).1
      · next h2 =>
        exact bind_same (rbu cfg cfg' (pos_of hx h2) (pos_of hy h1)) fun p hp => fromCoeffs_config _ _ (rbu_r hx hp)
  · unfold sub
    split
    · exact bind_same rfl fun q _ => (ops q x hx).2.1
    · next h1 =>
      split
      · exact bind_same rfl fun q _ => by rw [(ops q y hy).2.1]
      · next h2 =>
        exact bind_same (rbu cfg cfg' (pos_of hx h2) (pos_of hy h1)) fun p hp => fromCoeffs_config _ _ (rbu_r hx hp)
  · unfold mul
    split
    · exact bind_same rfl fun q _ => (ops q x hx).2.2.1
    · next h1 =>
      split
      · exact bind_same rfl fun q _ => (ops q y hy).2.2.1
      · next h2 =>
        split
        · exact new_config _ _ (mul_nonneg hl hr)
        · exact bind_same (rbu cfg cfg' (pos_of hx h2) (pos_of hy h1)) fun p hp => fromCoeffs_config _ _ (rbu_r hx hp)
  · unfold div
    split
    · exact bind_same rfl fun q _ => (ops q x hx).2.2.2
    · next h1 =>
      split
      · refine bind_same rfl fun q _ => bind_same (ops q y hy).2.2.2 fun d hd => ?_
        exact new_config _ _ (fromCoeffs_real hy hd)
      · next h2 =>
        split
        · exact new_config _ _ (mul_nonneg hl hr)
        · exact bind_same (rbu cfg cfg' (pos_of hx h2) (pos_of hy h1)) fun p hp => fromCoeffs_config _ _ (rbu_r hx hp)

/-- the results of these operations have non-negative roots again -/
theorem surd_config_root (x y z : Surd) (hx : 0 ≤ x.r) (hy : 0 ≤ y.r)
    (h : add cfg x y = .ok z ∨ sub cfg x y = .ok z ∨ mul cfg x y = .ok z ∨ div cfg x y = .ok z) : 0 ≤ z.r := by
  have hgcd : 0 ≤ igcd x.r y.r := by unfold igcd; omega
  have hl : 0 ≤ x.r.tdiv (igcd x.r y.r) := Int.tdiv_nonneg hx hgcd
  have hr : 0 ≤ y.r.tdiv (igcd x.r y.r) := Int.tdiv_nonneg hy hgcd
  rcases h with h | h | h | h
  · unfold add at h
    split at h
    · obtain ⟨q, -, h⟩ := bind_ok h
      exact fromCoeffs_real hx h
    · split at h
      · obtain ⟨q, -, h⟩ := bind_ok h
        exact fromCoeffs_real hy h
      · obtain ⟨p, hp, h⟩ := bind_ok h
        exact fromCoeffs_real (rbu_r hx hp) h
  · unfold sub at h
    split at h
    · obtain ⟨q, -, h⟩ := bind_ok h
      exact fromCoeffs_real hx h
    · split at h
      · obtain ⟨q, -, h⟩ := bind_ok h
        obtain ⟨d, hd, h⟩ := bind_ok h
        have h : d.neg = z := Except.ok.inj h
        subst h
        exact (fromCoeffs_real hy hd : 0 ≤ d.r)
      · obtain ⟨p, hp, h⟩ := bind_ok h
        exact fromCoeffs_real (rbu_r hx hp) h
  · unfold mul at h
    split at h
    · obtain ⟨q, -, h⟩ := bind_ok h
      exact fromCoeffs_real hx h
    · split at h
      · obtain ⟨q, -, h⟩ := bind_ok h
        exact fromCoeffs_real hy h
      · split at h
        · exact new_real (mul_nonneg hl hr) h
        · obtain ⟨p, hp, h⟩ := bind_ok h
          exact fromCoeffs_real (rbu_r hx hp) h
  · unfold div at h
    split at h
    · obtain ⟨q, -, h⟩ := bind_ok h
      exact fromCoeffs_real hx h
    · split at h
      · obtain ⟨q, -, h⟩ := bind_ok h
        obtain ⟨d, hd, h⟩ := bind_ok h
        exact new_real (fromCoeffs_real hy hd) h
      · split at h
        · exact new_real (mul_nonneg hl hr) h
        · obtain ⟨p, hp, h⟩ := bind_ok h
          exact fromCoeffs_real (rbu_r hx hp) h

example : add ⟨false, true⟩ ⟨1, 1, 1, 8⟩ ⟨1, 1, 3, 2⟩ = .ok ⟨4, 7, 3, 2⟩ ∧
    add ⟨true, false⟩ ⟨1, 1, 1, 8⟩ ⟨1, 1, 3, 2⟩ = .ok ⟨4, 7, 3, 2⟩ ∧
    div ⟨true, true⟩ ⟨1, 1, 1, 8⟩ ⟨1, 1, 3, 3⟩ = .error .incompatible ∧
    div ⟨false, false⟩ ⟨1, 1, 1, 8⟩ ⟨1, 1, 3, 3⟩ = .error .incompatible := by decide +kernel

/-- **C138** functions of one surd with a non-negative root. -/
theorem surd_config_unary (s : Surd) (h : 0 ≤ s.r) :
    recip cfg s = recip cfg' s ∧ trunc cfg s = trunc cfg' s ∧ fract cfg s = fract cfg' s ∧ floor cfg s = floor cfg' s ∧
      toInteger cfg s = toInteger cfg' s ∧ toRational cfg s = toRational cfg' s ∧
      isPositive cfg s = isPositive cfg' s ∧ isNegative cfg s = isNegative cfg' s ∧
      ∀ f, toPrim cfg f s = toPrim cfg' f s := by
  have ht : ∀ c : Cfg, trunc c s = trunc cfg' s := by
    intro c
    unfold trunc
    rw [if_neg (by omega), if_neg (by omega)]
  have hi : ∀ c : Cfg, toInteger c s = toInteger cfg' s := by
    intro c
    unfold toInteger
    rw [pic c h, pic cfg' h, ht c]
  refine ⟨new_config _ _ h, ht _, ?_, ?_, hi _, ?_, ?_, ?_, ?_⟩
  · unfold fract
    refine bind_same (ht _) fun t h1 => (surd_config_binary cfg cfg' s t h ?_).2.1
    unfold trunc at h1
    rw [if_neg (by omega)] at h1
    obtain ⟨q, -, h1⟩ := bind_ok h1
    obtain ⟨x, -, h1⟩ := bind_ok h1
    have h1 : ofInt x = t := Except.ok.inj h1
    subst h1
    exact le_rfl
  · unfold floor; rw [pic cfg h, pic cfg' h]
  · unfold toRational; rw [pic cfg h, pic cfg' h]
  · unfold isPositive; rw [pic cfg h, pic cfg' h]
  · unfold isNegative; rw [pic cfg h, pic cfg' h]
  · intro f
    unfold toPrim
    rw [hi cfg]

/-- **C138** operations with an integer or a rational number. -/
theorem surd_config_number (s : Surd) (h : 0 ≤ s.r) (k : ℤ) (q : ℚ) :
    addInt cfg s k = addInt cfg' s k ∧ subInt cfg s k = subInt cfg' s k ∧ mulInt cfg s k = mulInt cfg' s k ∧
      divInt cfg s k = divInt cfg' s k ∧ addRat cfg s q = addRat cfg' s q ∧ subRat cfg s q = subRat cfg' s q ∧
      mulRat cfg s q = mulRat cfg' s q ∧ divRat cfg s q = divRat cfg' s q :=
  ⟨fromCoeffs_config _ _ h, fromCoeffs_config _ _ h, fromCoeffs_config _ _ h, fromCoeffs_config _ _ h, fromCoeffs_config _ _ h, fromCoeffs_config _ _ h, fromCoeffs_config _ _ h, fromCoeffs_config _ _ h⟩

example : floor ⟨false, true⟩ ⟨1, 1, 2, 5⟩ = .ok ⟨1, 0, 1, 0⟩ ∧ floor ⟨true, false⟩ ⟨1, 1, 2, 5⟩ = .ok ⟨1, 0, 1, 0⟩ ∧
    addInt ⟨true, true⟩ ⟨1, 1, 2, 5⟩ 3 = .ok ⟨7, 1, 2, 5⟩ := by decide +kernel

/-- **C138** constructors, with a non-negative number under the root. -/
theorem surd_config_new (a b c r : ℤ) (p q t : ℚ) (l : Coeffs) :
    (0 ≤ r → new cfg a b c r = new cfg' a b c r ∧ fromCoeffs cfg l r = fromCoeffs cfg' l r ∧
      fromSqrtInt cfg r = fromSqrtInt cfg' r) ∧
    (0 ≤ t → fromRationals cfg p q t = fromRationals cfg' p q t ∧ ∀ f, fromSqrtRat cfg f t = fromSqrtRat cfg' f t) ∧
    (0 ≤ q * q - 4 * p * t → fromEquation cfg p q t = fromEquation cfg' p q t) := by
  refine ⟨fun h => ⟨new_config _ _ h, fromCoeffs_config _ _ h, ?_⟩, fun h => ⟨?_, fun f => ?_⟩, fun h => ?_⟩
  · unfold fromSqrtInt
    rw [if_neg (by omega), if_neg (by omega), new_config cfg cfg' h]
  · unfold fromRationals
    rw [if_neg (fun e => absurd e.2 (not_lt.2 h)), if_neg (fun e => absurd e.2 (not_lt.2 h))]
  · unfold fromSqrtRat
    have hn : 0 ≤ t.num := Rat.num_nonneg.2 h
    rw [if_neg (fun e : cfg.complex = false ∧ t < 0 => absurd e.2 (not_lt.2 h)),
      if_neg (fun e : cfg'.complex = false ∧ t < 0 => absurd e.2 (not_lt.2 h)), new_config cfg cfg' hn,
      new_config cfg cfg' (mul_nonneg hn (by omega) : 0 ≤ t.num * (t.den : ℤ))]
  · unfold fromEquation
    dsimp only
    split
    · rfl
    · rw [if_neg (fun e => absurd e.2 (not_lt.2 h)), if_neg (fun e => absurd e.2 (not_lt.2 h))]
      refine bind_same ?_ fun _ _ => rfl
      unfold fromRationals
      rw [if_neg (fun e => absurd e.2 (not_lt.2 h)), if_neg (fun e => absurd e.2 (not_lt.2 h))]


example : fromEquation ⟨false, true⟩ 1 (-1) (-1) = .ok (some ⟨1, 1, 2, 5⟩) ∧
    fromEquation ⟨true, false⟩ 1 (-1) (-1) = .ok (some ⟨1, 1, 2, 5⟩) ∧
    fromSqrtInt ⟨false, false⟩ 12 = .ok (.ok ⟨0, 1, 1, 12⟩) ∧ fromSqrtInt ⟨true, true⟩ 12 = .ok (.ok ⟨0, 1, 1, 12⟩) := by
  decide +kernel

/-! ### square roots of surds -/

private abbrev rel : Cfg := ⟨false, false⟩

private theorem fr {p q t : ℚ} (h : 0 ≤ t) : fromRationals cfg p q t = fromRationals cfg' p q t :=
  ((surd_config_new cfg cfg' 0 0 0 0 p q t ⟨0, 0, 0⟩).2.1 h).1

private theorem reconstruct_same {xy y : ℚ} {r : ℤ} (h : 0 ≤ r) (k : SqrtErrKind) :
    reconstruct cfg xy y r k = reconstruct rel xy y r k := by
  unfold reconstruct
  exact bind_same (fr cfg rel (by exact_mod_cast h)) fun _ _ => rfl

private theorem finish_same {xy y δ : ℚ} {r : ℤ} (h : 0 ≤ r) {o : Except (SqrtErr Surd) Surd}
    (e : fromSqrtFinish cfg xy y δ r = .ok o) : fromSqrtFinish rel xy y δ r = .ok o := by
  have fin : ∀ {a b c : ℤ} {k : Surd → Res (Except (SqrtErr Surd) Surd)},
      (∀ s, (if cfg.debug = true ∧ s.a < 0 then .error .debugAssert else pure (.ok s)) = k s) →
      (new cfg a b c r >>= k) = .ok o →
      (new rel a b c r >>= fun s => (if rel.debug = true ∧ s.a < 0 then .error .debugAssert else pure (.ok s))) = .ok o := by
    intro a b c k hk e
    obtain ⟨s, h1, h2⟩ := bind_ok e
    rw [new_config rel cfg h, h1, ok_bind, if_neg (fun e => absurd e.1 (by decide))]
    rw [← hk s] at h2
    split at h2
    · cases h2
    · exact h2
  unfold fromSqrtFinish at e ⊢
  obtain ⟨m, h1, h2⟩ := bind_ok e
  rw [h1, ok_bind]
  cases m with
  | some v => exact fin (fun _ => rfl) h2
  | none =>
    obtain ⟨m', h3, h4⟩ := bind_ok h2
    dsimp only
    rw [h3, ok_bind]
    cases m' with
    | some v => exact fin (fun _ => rfl) h4
    | none =>
      dsimp only at h4 ⊢
      rw [← reconstruct_same cfg h]
      exact h4

private theorem irr_same {fits : ℤ → Bool} {t : Surd} (h : 0 ≤ t.r) {o : Except (SqrtErr Surd) Surd}
    (e : fromSqrtSurdIrr cfg fits t = .ok o) : fromSqrtSurdIrr rel fits t = .ok o := by
  unfold fromSqrtSurdIrr at e ⊢
  obtain ⟨X, h1, e⟩ := bind_ok e
  obtain ⟨y, h2, e⟩ := bind_ok e
  obtain ⟨xy, h3, e⟩ := bind_ok e
  rw [h1, ok_bind, h2, ok_bind, h3, ok_bind]
  dsimp only at e ⊢
  split at e
  · next hn =>
    rw [if_pos hn, ← reconstruct_same cfg h]
    exact e
  · next hn =>
    rw [if_neg hn]
    obtain ⟨m, h4, e⟩ := bind_ok e
    rw [← (((surd_config_new cfg rel 0 0 0 0 0 0 _ ⟨0, 0, 0⟩).2.1 (not_lt.1 hn)).2 fits), h4, ok_bind]
    cases m with
    | error k =>
      dsimp only at e ⊢
      rw [← reconstruct_same cfg h]
      exact e
    | ok v =>
      dsimp only at e ⊢
      split at e
      · next hv =>
        rw [if_pos hv]
        obtain ⟨w, h5, e⟩ := bind_ok e
        have hv0 : 0 ≤ v.r := by
          have hn := not_lt.1 hn
          unfold fromSqrtRat at h4
          rw [if_neg (fun e : cfg.complex = false ∧ xy * xy - t.r < 0 => absurd e.2 (not_lt.2 hn))] at h4
          split at h4
          · obtain ⟨s, h6, h7⟩ := bind_ok h4
            cases h7
            exact new_real (Rat.num_nonneg.2 hn) h6
          · split at h4
            · obtain ⟨s, h6, h7⟩ := bind_ok h4
              cases h7
              exact new_real (mul_nonneg (Rat.num_nonneg.2 hn) (by omega)) h6
            · cases h4
        rw [← (surd_config_unary cfg rel v hv0).2.2.2.2.2.1, h5, ok_bind]
        exact finish_same cfg h e
      · next hv =>
        rw [if_neg hv, ← reconstruct_same cfg h]
        exact e

private theorem sqrt_same {fits : ℤ → Bool} {t : Surd} (h : t.RealOk) (h0 : 0 ≤ t.val) {o : Except (SqrtErr Surd) Surd}
    (e : fromSqrtSurd cfg fits t = .ok o) : fromSqrtSurd rel fits t = .ok o := by
  have hn : ∀ c : Cfg, (if c.complex = true then (pure false : Res Bool) else isNegative c t) = .ok false := by
    intro c
    split
    · rfl
    · obtain ⟨b, hb, hbv⟩ := surd_isNegative c t h
      cases b with
      | true => exact absurd (hbv.1 rfl) (not_lt.2 h0)
      | false => exact hb
  unfold fromSqrtSurd at e ⊢
  rw [hn, ok_bind] at e ⊢
  rw [if_neg (by decide)] at e ⊢
  split at e
  · next hr =>
    rw [if_pos hr]
    have hr := h.isRational_iff.1 hr
    have hval : (0 : ℚ) ≤ Rat.divInt t.a t.c := by
      have := h.valC
      rw [valC_of_r_zero h.toNormal hr] at this
      have : t.val = (Rat.divInt t.a t.c : ℚ) := by exact_mod_cast this.symm
      rw [this] at h0
      exact_mod_cast h0
    unfold fromSqrtSurdRat at e ⊢
    obtain ⟨w, h1, e⟩ := bind_ok e
    have hw : w = .exact (t.a, t.c) := by
      unfold toRational at h1
      rw [pic cfg h.2, ok_bind, if_pos hr] at h1
      exact (Except.ok.inj h1).symm
    subst hw
    rw [← (surd_config_unary cfg rel t h.2).2.2.2.2.2.1, h1, ok_bind]
    dsimp only at e ⊢
    rw [← (((surd_config_new cfg rel 0 0 0 0 0 0 _ ⟨0, 0, 0⟩).2.1 hval).2 fits)]
    exact e
  · next hr =>
    rw [if_neg hr]
    exact irr_same cfg h.2 e

/-- **C138** `from_sqrt` of a surd that is not negative: the answer, error kinds included, is the same, and so the debug
assertion in it never fails. -/
theorem surd_config_sqrt (fits : ℤ → Bool) (t : Surd) (h : t.RealOk) (h0 : 0 ≤ t.val) :
    fromSqrtSurd cfg fits t = fromSqrtSurd cfg' fits t := by
  obtain ⟨o, e, -⟩ := fromSqrtSurd_spec cfg fits t ⟨h.toNormal, fun _ => h.2⟩
  obtain ⟨o', e', -⟩ := fromSqrtSurd_spec cfg' fits t ⟨h.toNormal, fun _ => h.2⟩
  rw [e, e']
  exact (sqrt_same cfg h h0 e).symm.trans (sqrt_same cfg' h h0 e')

example : RealOk ⟨7, 4, 1, 3⟩ ∧ fromSqrtSurd ⟨false, true⟩ (fun _ => true) ⟨7, 4, 1, 3⟩ = .ok (.ok ⟨2, 1, 1, 3⟩) ∧
    fromSqrtSurd ⟨true, false⟩ (fun _ => true) ⟨7, 4, 1, 3⟩ = .ok (.ok ⟨2, 1, 1, 3⟩) := by decide +kernel

/-- of negative numbers it is not the same: that is what the feature is for -/
theorem surd_config_sqrt_refuted :
    fromSqrtSurd ⟨false, true⟩ (fun _ => true) ⟨-4, 0, 1, 0⟩ = .ok (.error ⟨⟨-4, 0, 1, 0⟩, .complex⟩) ∧
      fromSqrtSurd ⟨true, true⟩ (fun _ => true) ⟨-4, 0, 1, 0⟩ = .ok (.ok ⟨0, 1, 1, -4⟩) := by decide +kernel

end Surd

/-! ### programs -/

namespace SProg

/-- no root of a negative number is written in it -/
def Expr.RealLits : Expr → Prop
  | var _ => True
  | lit _ _ _ r => 0 ≤ r
  | op1 _ e => e.RealLits
  | op2 _ e f => e.RealLits ∧ f.RealLits

def Test.RealLits : Test → Prop
  | positive e | negative e | zero e | one e | rational e | integer e => e.RealLits
  | equal e f => e.RealLits ∧ f.RealLits
  | not t => t.RealLits
  | and t u => t.RealLits ∧ u.RealLits

def Prog.RealLits : Prog → Prop
  | skip => True
  | assign _ e => e.RealLits
  | seq p q => p.RealLits ∧ q.RealLits
  | ite t p q => t.RealLits ∧ p.RealLits ∧ q.RealLits
  | .while t p => t.RealLits ∧ p.RealLits

variable (cfg cfg' : Cfg)

private theorem op1_same (o : Op1) (s : Surd) (h : 0 ≤ s.r) : o.run cfg s = o.run cfg' s := by
  have h1 := Surd.surd_config_unary cfg cfg' s h
  have h2 := fun k q => Surd.surd_config_number cfg cfg' s h k q
  cases o with
  | neg => rfl
  | recip => exact h1.1
  | floor => exact h1.2.2.2.1
  | addI k => exact (h2 k 0).1
  | subI k => exact (h2 k 0).2.1
  | mulI k => exact (h2 k 0).2.2.1
  | divI k => exact (h2 k 0).2.2.2.1
  | addR q => exact (h2 0 q).2.2.2.2.1
  | subR q => exact (h2 0 q).2.2.2.2.2.1
  | mulR q => exact (h2 0 q).2.2.2.2.2.2.1
  | divR q => exact (h2 0 q).2.2.2.2.2.2.2

private theorem op1_root (o : Op1) (s t : Surd) (h : 0 ≤ s.r) (e : o.run cfg s = .ok t) : 0 ≤ t.r := by
  cases o with
  | neg => have e : s.neg = t := Except.ok.inj e
           subst e; exact h
  | recip => exact Surd.new_real h e
  | floor =>
    have e : s.floor cfg = .ok t := e
    unfold Surd.floor at e
    obtain ⟨_, -, e⟩ := bind_ok e
    obtain ⟨_, -, e⟩ := bind_ok e
    obtain ⟨_, -, e⟩ := bind_ok e
    cases e
    exact le_rfl
  | addI k => exact Surd.fromCoeffs_real h e
  | subI k => exact Surd.fromCoeffs_real h e
  | mulI k => exact Surd.fromCoeffs_real h e
  | divI k => exact Surd.fromCoeffs_real h e
  | addR q => exact Surd.fromCoeffs_real h e
  | subR q => exact Surd.fromCoeffs_real h e
  | mulR q => exact Surd.fromCoeffs_real h e
  | divR q => exact Surd.fromCoeffs_real h e

private theorem op2_same (o : Op2) (s t : Surd) (h : 0 ≤ s.r) (h' : 0 ≤ t.r) : o.run cfg s t = o.run cfg' s t := by
  obtain ⟨h1, h2, h3, h4⟩ := Surd.surd_config_binary cfg cfg' s t h h'
  cases o with
  | add => exact h1
  | sub => exact h2
  | mul => exact h3
  | div => exact h4

private theorem op2_root (o : Op2) (s t u : Surd) (h : 0 ≤ s.r) (h' : 0 ≤ t.r) (e : o.run cfg s t = .ok u) : 0 ≤ u.r := by
  refine Surd.surd_config_root cfg s t u h h' ?_
  cases o with
  | add => exact .inl e
  | sub => exact .inr (.inl e)
  | mul => exact .inr (.inr (.inl e))
  | div => exact .inr (.inr (.inr e))

private theorem expr_root {σ : Nat → Surd} (hσ : ∀ i, 0 ≤ (σ i).r) : ∀ (e : Expr) (s : Surd), e.RealLits →
    e.run cfg σ = .ok s → 0 ≤ s.r
  | .var i, s, _, h => by
    have h : σ i = s := Except.ok.inj h
    subst h; exact hσ i
  | .lit a b c r, s, hl, h => Surd.new_real hl h
  | .op1 o e, s, hl, h => by
    obtain ⟨t, h1, h2⟩ := bind_ok h
    exact op1_root cfg o t s (expr_root hσ e t hl h1) h2
  | .op2 o e f, s, hl, h => by
    obtain ⟨t, h1, h2⟩ := bind_ok h
    obtain ⟨u, h3, h4⟩ := bind_ok h2
    exact op2_root cfg o t u s (expr_root hσ e t hl.1 h1) (expr_root hσ f u hl.2 h3) h4

private theorem expr_same {σ : Nat → Surd} (hσ : ∀ i, 0 ≤ (σ i).r) : ∀ (e : Expr), e.RealLits →
    e.run cfg σ = e.run cfg' σ
  | .var _, _ => rfl
  | .lit _ _ _ _, hl => Surd.new_config cfg cfg' hl
  | .op1 o e, hl => bind_same (expr_same hσ e hl) fun t ht => op1_same cfg cfg' o t (expr_root cfg' hσ e t hl ht)
  | .op2 o e f, hl => bind_same (expr_same hσ e hl.1) fun t ht => bind_same (expr_same hσ f hl.2) fun u hu =>
      op2_same cfg cfg' o t u (expr_root cfg' hσ e t hl.1 ht) (expr_root cfg' hσ f u hl.2 hu)

private theorem test_same {σ : Nat → Surd} (hσ : ∀ i, 0 ≤ (σ i).r) : ∀ (t : Test), t.RealLits →
    t.run cfg σ = t.run cfg' σ
  | .positive e, hl => bind_same (expr_same cfg cfg' hσ e hl) fun s hs =>
      (Surd.surd_config_unary cfg cfg' s (expr_root cfg' hσ e s hl hs)).2.2.2.2.2.2.1
  | .negative e, hl => bind_same (expr_same cfg cfg' hσ e hl) fun s hs =>
      (Surd.surd_config_unary cfg cfg' s (expr_root cfg' hσ e s hl hs)).2.2.2.2.2.2.2.1
  | .zero e, hl => bind_same (expr_same cfg cfg' hσ e hl) fun _ _ => rfl
  | .one e, hl => bind_same (expr_same cfg cfg' hσ e hl) fun _ _ => rfl
  | .rational e, hl => bind_same (expr_same cfg cfg' hσ e hl) fun _ _ => rfl
  | .integer e, hl => bind_same (expr_same cfg cfg' hσ e hl) fun _ _ => rfl
  | .equal e f, hl => bind_same (expr_same cfg cfg' hσ e hl.1) fun _ _ =>
      bind_same (expr_same cfg cfg' hσ f hl.2) fun _ _ => rfl
  | .not t, hl => bind_same (test_same hσ t hl) fun _ _ => rfl
  | .and t u, hl => bind_same (test_same hσ t hl.1) fun b _ => by
      cases b with
      | false => rfl
      | true => exact test_same hσ u hl.2

/-- **C138** whole programs: a program in which no root of a negative number is written, started with numbers with
non-negative roots, does the same in every build: the same results, the same panics, and it runs for the same number of
steps. -/
theorem prog_config : ∀ (n : Nat) (p : Prog) (σ : Nat → Surd), p.RealLits → (∀ i, 0 ≤ (σ i).r) →
    p.run cfg n σ = p.run cfg' n σ ∧ ∀ σ', p.run cfg n σ = some (.ok σ') → ∀ i, 0 ≤ (σ' i).r
  | 0, _, _, _, _ => ⟨rfl, fun _ h => by cases h⟩
  | n + 1, .skip, σ, _, hσ => ⟨rfl, fun σ' h => by cases h; exact hσ⟩
  | n + 1, .assign i e, σ, hl, hσ => by
    have h1 := expr_same cfg cfg' hσ e hl
    refine ⟨by simp only [Prog.run, h1], fun σ' h j => ?_⟩
    simp only [Prog.run] at h
    split at h
    · cases h
    · next s hs =>
      cases h
      by_cases hj : j = i
      · subst hj
        rw [Function.update_self]
        exact expr_root cfg hσ e s hl hs
      · rw [Function.update_of_ne hj]
        exact hσ j
  | n + 1, .seq p q, σ, hl, hσ => by
    obtain ⟨h1, h2⟩ := prog_config n p σ hl.1 hσ
    cases hp : p.run cfg n σ with
    | none => refine ⟨by simp only [Prog.run, ← h1, hp], fun σ' h => by simp [Prog.run, hp] at h⟩
    | some r =>
      cases r with
      | error e => refine ⟨by simp only [Prog.run, ← h1, hp], fun σ' h => by simp [Prog.run, hp] at h⟩
      | ok σ1 =>
        obtain ⟨h3, h4⟩ := prog_config n q σ1 hl.2 (h2 σ1 hp)
        exact ⟨by simp only [Prog.run, ← h1, hp]; exact h3, fun σ' h => h4 σ' (by simpa only [Prog.run, hp] using h)⟩
  | n + 1, .ite t p q, σ, hl, hσ => by
    have h1 := test_same cfg cfg' hσ t hl.1
    obtain ⟨h2, h3⟩ := prog_config n p σ hl.2.1 hσ
    obtain ⟨h4, h5⟩ := prog_config n q σ hl.2.2 hσ
    cases ht : t.run cfg σ with
    | error e => refine ⟨by simp only [Prog.run, ← h1, ht], fun σ' h => by simp [Prog.run, ht] at h⟩
    | ok b =>
      cases b with
      | true => exact ⟨by simp only [Prog.run, ← h1, ht]; exact h2, fun σ' h => h3 σ' (by simpa only [Prog.run, ht] using h)⟩
      | false => exact ⟨by simp only [Prog.run, ← h1, ht]; exact h4, fun σ' h => h5 σ' (by simpa only [Prog.run, ht] using h)⟩
  | n + 1, .while t p, σ, hl, hσ => by
    have h1 := test_same cfg cfg' hσ t hl.1
    obtain ⟨h2, h3⟩ := prog_config n p σ hl.2 hσ
    cases ht : t.run cfg σ with
    | error e => refine ⟨by simp only [Prog.run, ← h1, ht], fun σ' h => by simp [Prog.run, ht] at h⟩
    | ok b =>
      cases b with
      | false =>
        refine ⟨by simp only [Prog.run, ← h1, ht], fun σ' h => ?_⟩
        simp only [Prog.run, ht] at h
        cases h
        exact hσ
      | true =>
        cases hp : p.run cfg n σ with
        | none => refine ⟨by simp only [Prog.run, ← h1, ht, ← h2, hp], fun σ' h => by simp [Prog.run, ht, hp] at h⟩
        | some r =>
          cases r with
          | error e => refine ⟨by simp only [Prog.run, ← h1, ht, ← h2, hp], fun σ' h => by simp [Prog.run, ht, hp] at h⟩
          | ok σ1 =>
            obtain ⟨h4, h5⟩ := prog_config n (.while t p) σ1 hl (h3 σ1 hp)
            exact ⟨by simp only [Prog.run, ← h1, ht, ← h2, hp]; exact h4,
              fun σ' h => h5 σ' (by simpa only [Prog.run, ht, hp] using h)⟩

/-- not so if a root of a negative number is written: `√-1` is a panic or a number -/
theorem prog_config_refuted :
    (Prog.assign 0 (.lit 0 1 1 (-1))).run ⟨false, true⟩ 1 (fun _ => ⟨0, 0, 1, 0⟩) = some (.error .negRoot) ∧
    ∃ σ, (Prog.assign 0 (.lit 0 1 1 (-1))).run ⟨true, true⟩ 1 (fun _ => ⟨0, 0, 1, 0⟩) = some (.ok σ) := by
  have e1 : Surd.new ⟨false, true⟩ 0 1 1 (-1) = .error .negRoot := by decide +kernel
  have e2 : Surd.new ⟨true, true⟩ 0 1 1 (-1) = .ok ⟨0, 1, 1, -1⟩ := by decide +kernel
  exact ⟨by simp only [Prog.run, Expr.run, e1], _, by simp only [Prog.run, Expr.run, e2]; rfl⟩

/-- doubling `√2` until it is larger than 10 -/
private def doubling : Prog :=
  .seq (.assign 0 (.lit 0 1 1 2))
    (.while (.negative (.op2 .sub (.var 0) (.lit 10 0 1 0))) (.assign 0 (.op2 .add (.var 0) (.var 0))))

example : doubling.RealLits ∧ ((doubling.run ⟨false, true⟩ 12 fun _ => ⟨0, 0, 1, 0⟩).map fun r => r.map fun σ => σ 0) =
      some (.ok ⟨0, 8, 1, 2⟩) ∧
    ((doubling.run ⟨true, false⟩ 12 fun _ => ⟨0, 0, 1, 0⟩).map fun r => r.map fun σ => σ 0) = some (.ok ⟨0, 8, 1, 2⟩) := by
  refine ⟨⟨by show (0:ℤ) ≤ 2; decide, ⟨trivial, by show (0:ℤ) ≤ 0; decide⟩, trivial, trivial⟩, by decide +kernel, by decide +kernel⟩

end SProg
end NumIrr
