/-
Sums and products of surds do not change at all when the operands are exchanged.
-/
import Verif.Lemmas.SurdBin
import Verif.Props.SurdNew

namespace NumIrr

namespace Coeffs

theorem add_swap (x y : Coeffs) : x.add y = y.add x := by
  unfold add
  by_cases h : x.c = y.c
  · rw [if_pos h, if_pos h.symm, h, add_comm x.a, add_comm x.b]
  · rw [if_neg h, if_neg (Ne.symm h)]
    congr 1 <;> ring

theorem mul_swap (x y : Coeffs) (r : ℤ) : x.mul y r = y.mul x r := by
  unfold mul
  congr 1 <;> ring

end Coeffs

namespace Surd

theorem error_bind {α β : Type} (e : Panic) (f : α → Res β) : (Except.error e >>= f) = Except.error e := rfl

private theorem fin_swap (p : Surd × Surd) : (if p.2.r = p.1.r then some (p.2, p.1) else none) =
    (if p.1.r = p.2.r then some p else none).map Prod.swap := by
  by_cases h : p.1.r = p.2.r
  · rw [if_pos h, if_pos h.symm]; rfl
  · rw [if_neg h, if_neg (Ne.symm h)]; rfl

theorem reduceBinOp_swap (cfg : Cfg) (x y : Surd) :
    reduceBinOp cfg y x = (reduceBinOp cfg x y).map (Option.map Prod.swap) := by
  unfold reduceBinOp
  have hd : ∀ (m n : ℤ) (f : ℤ → Surd × Surd),
      (divR m n >>= fun hint => (.ok (if (f hint).2.r = (f hint).1.r then some ((f hint).2, (f hint).1) else none) : Res _)) =
      (divR m n >>= fun hint => (.ok (if (f hint).1.r = (f hint).2.r then some (f hint) else none) : Res _)).map
        (Option.map Prod.swap) := fun m n f => by
    cases divR m n with
    | error e => rfl
    | ok v => simp only [ok_bind]; rw [fin_swap]; rfl
  by_cases hc : cfg.complex = true
  · simp only [hc, if_true]
    rw [Bool.xor_comm]
    split
    · rfl
    · by_cases h1 : y.r.natAbs > x.r.natAbs
      · rw [if_pos h1, if_neg (show ¬ x.r.natAbs > y.r.natAbs by omega), if_pos h1]
        exact hd y.r x.r fun hint => (x, y.reduceRootHinted hint)
      · rw [if_neg h1]
        by_cases h2 : x.r.natAbs > y.r.natAbs
        · rw [if_pos h2, if_pos h2]
          exact hd x.r y.r fun hint => (x.reduceRootHinted hint, y)
        · rw [if_neg h2, if_neg h2, if_neg h1]
          exact congrArg Except.ok (fin_swap (x, y))
  · simp only [hc, Bool.false_eq_true, if_false]
    by_cases h0 : cfg.debug = true ∧ (x.r = 0 ∨ y.r = 0)
    · rw [if_pos h0, if_pos ⟨h0.1, h0.2.symm⟩]; rfl
    · rw [if_neg h0, if_neg (fun h => h0 ⟨h.1, h.2.symm⟩)]
      by_cases h1 : y.r > x.r
      · rw [if_pos h1, if_neg (show ¬ x.r > y.r by omega), if_pos h1]
        exact hd y.r x.r fun hint => (x, y.reduceRootHinted hint)
      · rw [if_neg h1]
        by_cases h2 : x.r > y.r
        · rw [if_pos h2, if_pos h2]
          exact hd x.r y.r fun hint => (x.reduceRootHinted hint, y)
        · rw [if_neg h2, if_neg h2, if_neg h1]
          exact congrArg Except.ok (fin_swap (x, y))

theorem reduceBinOpUnwrap_swap (cfg : Cfg) (x y : Surd) :
    reduceBinOpUnwrap cfg y x = (reduceBinOpUnwrap cfg x y).map Prod.swap := by
  unfold reduceBinOpUnwrap
  rw [reduceBinOp_swap cfg x y]
  cases reduceBinOp cfg x y with
  | error e => rfl
  | ok o => cases o <;> rfl

private theorem fin_same {cfg : Cfg} {x y : Surd} {p : Surd × Surd} (h : reduceBinOp cfg x y = .ok (some p)) :
    p.1.r = p.2.r := by
  have fin : ∀ q : Surd × Surd, (.ok (if q.1.r = q.2.r then some q else none) : Res _) = .ok (some p) → p.1.r = p.2.r := by
    intro q hq
    by_cases e : q.1.r = q.2.r
    · rw [if_pos e] at hq; cases hq; exact e
    · rw [if_neg e] at hq; cases hq
  have hd : ∀ (m n : ℤ) (f : ℤ → Surd × Surd), (divR m n >>= fun hint =>
      (.ok (if (f hint).1.r = (f hint).2.r then some (f hint) else none) : Res _)) = .ok (some p) → p.1.r = p.2.r := by
    intro m n f hq
    cases hm : divR m n with
    | error e => rw [hm] at hq; cases hq
    | ok v => rw [hm] at hq; exact fin _ hq
  unfold reduceBinOp at h
  simp only at h
  split at h
  · split at h
    · cases h
    · split at h
      · exact hd _ _ (fun hint => (x.reduceRootHinted hint, y)) h
      · split at h
        · exact hd _ _ (fun hint => (x, y.reduceRootHinted hint)) h
        · exact fin (x, y) h
  · split at h
    · cases h
    · split at h
      · exact hd _ _ (fun hint => (x.reduceRootHinted hint, y)) h
      · split at h
        · exact hd _ _ (fun hint => (x, y.reduceRootHinted hint)) h
        · exact fin (x, y) h

theorem reduceBinOpUnwrap_same {cfg : Cfg} {x y : Surd} {p : Surd × Surd} (h : reduceBinOpUnwrap cfg x y = .ok p) :
    p.1.r = p.2.r := by
  unfold reduceBinOpUnwrap at h
  cases hr : reduceBinOp cfg x y with
  | error e => rw [hr] at h; cases h
  | ok o =>
    rw [hr] at h
    cases o with
    | none => cases h
    | some q => cases h; exact fin_same hr

/-- the fraction of a rational surd in normal form is in lowest terms -/
theorem Normal.rat_eq {x : Surd} (h : x.Normal) (hr : x.r = 0) : x = ofRat (Rat.divInt x.a x.c) := by
  have hb := h.rational.2 hr
  have hg : Int.gcd x.a x.c = 1 := by
    have := h.coprime (Int.gcd x.a x.c) (Int.gcd_dvd_left ..) (by rw [hb]; exact dvd_zero _) (Int.gcd_dvd_right ..)
    simpa [Int.isUnit_iff_natAbs_eq] using this
  have hc := h.c_pos
  obtain ⟨a, b, c, r⟩ := x
  simp only at *
  lift c to ℕ using hc.le
  have hc' : c ≠ 0 := by rintro rfl; simp at hc
  have hg' : a.natAbs.Coprime c := by simpa [Int.gcd] using hg
  have e : (⟨a, c, hc', hg'⟩ : ℚ) = Rat.divInt a c := Rat.mk_eq_divInt
  rw [← e]
  simp [ofRat, hb, hr]

/-- The sum of two surds does not depend on their order: the same surd, or the same panic. -/
theorem add_swap (cfg : Cfg) {x y : Surd} (hx : x.Ok cfg) (hy : y.Ok cfg) : add cfg x y = add cfg y x := by
  unfold add
  by_cases h1 : y.isRational = true <;> by_cases h2 : x.isRational = true
  · rw [if_pos h1, if_pos h2, ratioNew_ok hx.ne_zero, ratioNew_ok hy.ne_zero, ok_bind, ok_bind]
    have e1 := hx.toNormal.rat_eq (hx.isRational_iff.1 h2)
    have e2 := hy.toNormal.rat_eq (hy.isRational_iff.1 h1)
    generalize Rat.divInt x.a x.c = q at *
    generalize Rat.divInt y.a y.c = q' at *
    subst e1 e2
    unfold addRat
    congr 1
    simp only [Coeffs.addRat, coeffs, ofRat]
    by_cases h : ((q.den : Nat) : Int) = ((q'.den : Nat) : Int)
    · simp only [h, if_true, add_comm q.num]
    · simp only [h, Ne.symm h, if_false]
      congr 1 <;> ring
  · rw [if_pos h1, if_neg h2, if_pos h1]
  · rw [if_neg h1, if_pos h2, if_pos h2]
  · rw [if_neg h1, if_neg h2, if_neg h2, if_neg h1, reduceBinOpUnwrap_swap cfg x y]
    cases hp : reduceBinOpUnwrap cfg x y with
    | error e => rfl
    | ok p =>
      have hs := reduceBinOpUnwrap_same hp
      change fromCoeffs cfg (p.1.coeffs.add p.2.coeffs) p.1.r = fromCoeffs cfg (p.2.coeffs.add p.1.coeffs) p.2.r
      rw [hs, Coeffs.add_swap]

/-- The product of two surds does not depend on their order: the same surd, or the same panic. -/
theorem mul_swap (cfg : Cfg) {x y : Surd} (hx : x.Ok cfg) (hy : y.Ok cfg) : mul cfg x y = mul cfg y x := by
  unfold mul
  by_cases h1 : y.isRational = true <;> by_cases h2 : x.isRational = true
  · rw [if_pos h1, if_pos h2, ratioNew_ok hx.ne_zero, ratioNew_ok hy.ne_zero, ok_bind, ok_bind]
    have e1 := hx.toNormal.rat_eq (hx.isRational_iff.1 h2)
    have e2 := hy.toNormal.rat_eq (hy.isRational_iff.1 h1)
    generalize Rat.divInt x.a x.c = q at *
    generalize Rat.divInt y.a y.c = q' at *
    subst e1 e2
    unfold mulRat
    congr 1
    simp only [Coeffs.mulRat, coeffs, ofRat]
    congr 1 <;> ring
  · rw [if_pos h1, if_neg h2, if_pos h1]
  · rw [if_neg h1, if_pos h2, if_pos h2]
  · rw [if_neg h1, if_neg h2, if_neg h2, if_neg h1, Bool.and_comm]
    split
    · simp only [igcd, Int.gcd_comm x.r y.r]
      congr 1 <;> ring
    · rw [reduceBinOpUnwrap_swap cfg x y]
      cases hp : reduceBinOpUnwrap cfg x y with
      | error e => rfl
      | ok p =>
        have hs := reduceBinOpUnwrap_same hp
        change fromCoeffs cfg (p.1.coeffs.mul p.2.coeffs p.1.r) p.1.r = fromCoeffs cfg (p.2.coeffs.mul p.1.coeffs p.2.r) p.2.r
        rw [hs, Coeffs.mul_swap]

end Surd
end NumIrr
