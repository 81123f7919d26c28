/-
Negation of surds and the operations on them, field by field.
-/
import Verif.Lemmas.SurdSwap

namespace NumIrr
namespace Surd

theorem neg_neg' (s : Surd) : s.neg.neg = s := by cases s; simp [neg]

private theorem igcd_neg (a b : ℤ) : igcd (-a) b = igcd a b := by unfold igcd; rw [Int.neg_gcd]

private theorem igcd_neg_right (a b : ℤ) : igcd a (-b) = igcd a b := by unfold igcd; rw [Int.gcd_neg]

private theorem reduceSquare_neg (s : Surd) : s.neg.reduceSquare = s.reduceSquare.neg := by
  unfold reduceSquare
  have hr : s.neg.r = s.r := rfl
  simp only [hr]
  generalize isqrt ((s.r.natAbs : Nat) : Int) = k
  by_cases h1 : k * k = s.r
  · by_cases h2 : s.r < 0
    · simp [neg, h1, h2]
    · simp [neg, h1, h2, add_comm]
  · simp [neg, h1]

private theorem reduceRat_neg (s : Surd) : s.neg.reduceRat = s.reduceRat.neg := by
  simp [reduceRat, neg, igcd_neg, Int.neg_tdiv]

private theorem reduceFactor_neg (s : Surd) : s.neg.reduceFactor = (s.reduceFactor.1.neg, s.reduceFactor.2) := by
  unfold reduceFactor
  simp only [neg, igcd_neg, Int.neg_tdiv]
  split <;> rfl

private theorem reduceIrr_neg (s : Surd) : s.neg.reduceIrr = s.reduceIrr.neg := by
  unfold reduceIrr
  simp only [reduceFactor_neg]
  simp only [neg, igcd_neg_right, Int.neg_tdiv]

private theorem reduceSign_neg (s : Surd) : s.neg.reduceSign = s.reduceSign.neg := by
  unfold reduceSign
  by_cases h : s.c < 0 <;> simp [neg, h]

theorem reduce_neg (s : Surd) : reduce s.neg = (reduce s).map neg := by
  unfold reduce
  have hc : s.neg.c = s.c := rfl
  rw [hc]
  split
  · rfl
  · simp only [Except.map]
    rw [reduceSquare_neg]
    generalize s.reduceSquare = t
    have hbr : (t.neg.b = 0 ∨ t.neg.r = 0) ↔ (t.b = 0 ∨ t.r = 0) := by simp [neg]
    congr 1
    by_cases h : t.b = 0 ∨ t.r = 0
    · rw [if_pos h, if_pos (hbr.2 h), reduceRat_neg, reduceSign_neg]
    · rw [if_neg h, if_neg (fun h' => h (hbr.1 h')), reduceIrr_neg, reduceSign_neg]

theorem fromCoeffs_neg (cfg : Cfg) (x : Coeffs) (r : ℤ) :
    fromCoeffs cfg ⟨-x.a, -x.b, x.c⟩ r = (fromCoeffs cfg x r).map neg := by
  unfold fromCoeffs
  split
  · rfl
  · exact reduce_neg ⟨x.a, x.b, x.c, r⟩

private theorem reduceRootHinted_neg (s : Surd) (h : ℤ) : s.neg.reduceRootHinted h = (s.reduceRootHinted h).neg := by
  unfold reduceRootHinted
  have hr : s.neg.r = s.r := rfl
  simp only [hr]
  by_cases h0 : ((h.natAbs : Nat) : Int) = 0 ∨ ((h.natAbs : Nat) : Int) = 1 ∨ ((h.natAbs : Nat) : Int) < 0
  · rw [if_pos h0, if_pos h0]
  · rw [if_neg h0, if_neg h0]
    by_cases h1 : s.r.tmod ((h.natAbs : Nat) : Int) = 0
    · rw [if_pos h1, if_pos h1]
      by_cases h2 : isqrt ((h.natAbs : Nat) : Int) * isqrt ((h.natAbs : Nat) : Int) = ((h.natAbs : Nat) : Int)
      · rw [if_pos h2, if_pos h2]
        simp only [neg, igcd_neg_right, Int.neg_tdiv, neg_mul]
      · rw [if_neg h2, if_neg h2]
    · rw [if_neg h1, if_neg h1]

private theorem reduceBinOp_neg_right (cfg : Cfg) (x y : Surd) :
    reduceBinOp cfg x y.neg = (reduceBinOp cfg x y).map (Option.map fun p => (p.1, p.2.neg)) := by
  have hr : y.neg.r = y.r := rfl
  unfold reduceBinOp
  rw [hr]
  have fin : ∀ u v : Surd, (if u.r = v.neg.r then some (u, v.neg) else none) =
      (if u.r = v.r then some (u, v) else none).map fun p => (p.1, p.2.neg) := fun u v => by
    change (if u.r = v.r then _ else _) = _
    split <;> rfl
  have hd : ∀ (m n : ℤ) (f g : ℤ → Surd),
      (divR m n >>= fun hint => (.ok (if (f hint).r = (g hint).neg.r then some (f hint, (g hint).neg) else none) : Res _)) =
      (divR m n >>= fun hint => (.ok (if (f hint).r = (g hint).r then some (f hint, g hint) else none) : Res _)).map
        (Option.map fun p => (p.1, p.2.neg)) := fun m n f g => by
    cases divR m n with
    | error e => rfl
    | ok v => simp only [ok_bind]; rw [fin]; rfl
  simp only [reduceRootHinted_neg]
  split
  · split
    · rfl
    · split
      · exact hd _ _ (fun hint => x.reduceRootHinted hint) (fun _ => y)
      · split
        · exact hd _ _ (fun _ => x) (fun hint => y.reduceRootHinted hint)
        · exact congrArg Except.ok (fin x y)
  · split
    · rfl
    · split
      · exact hd _ _ (fun hint => x.reduceRootHinted hint) (fun _ => y)
      · split
        · exact hd _ _ (fun _ => x) (fun hint => y.reduceRootHinted hint)
        · exact congrArg Except.ok (fin x y)

/-- The difference is the sum with the negated surd: the same surd, or the same panic. -/
theorem sub_eq_add_neg' (cfg : Cfg) {x y : Surd} (hy : y.Ok cfg) (hx : x.Ok cfg) : sub cfg x y = add cfg x y.neg := by
  unfold sub add
  have hr : y.neg.isRational = y.isRational := by
    unfold isRational neg
    by_cases h : y.b = 0 <;> simp [h]
  rw [hr]
  by_cases h1 : y.isRational = true
  · rw [if_pos h1, if_pos h1]
    have hc : y.neg.c ≠ 0 := hy.ne_zero
    rw [ratioNew_ok hy.ne_zero, ratioNew_ok hc, ok_bind, ok_bind]
    have e : Rat.divInt y.neg.a y.neg.c = -Rat.divInt y.a y.c := by simp [neg, Rat.neg_divInt]
    rw [e]
    generalize Rat.divInt y.a y.c = q
    unfold subRat addRat
    congr 1
    simp [Coeffs.subRat, Coeffs.addRat, coeffs, sub_eq_add_neg]
  · rw [if_neg h1, if_neg h1]
    by_cases h2 : x.isRational = true
    · rw [if_pos h2, if_pos h2, ratioNew_ok hx.ne_zero, ok_bind, ok_bind]
      generalize Rat.divInt x.a x.c = q
      unfold subRat addRat
      have hyr : y.neg.r = y.r := rfl
      have e : y.neg.coeffs.addRat q = ⟨-(y.coeffs.subRat q).a, -(y.coeffs.subRat q).b, (y.coeffs.subRat q).c⟩ := by
        simp only [Coeffs.subRat, Coeffs.addRat, coeffs, neg]
        by_cases h : y.c = ((q.den : Nat) : Int)
        · simp only [h, if_true]
          congr 1; ring
        · simp only [h, if_false]
          congr 1 <;> ring
      rw [e, hyr, fromCoeffs_neg]
      cases fromCoeffs cfg (y.coeffs.subRat q) y.r <;> rfl
    · rw [if_neg h2, if_neg h2]
      unfold reduceBinOpUnwrap
      rw [reduceBinOp_neg_right]
      cases reduceBinOp cfg x y with
      | error e => rfl
      | ok o =>
        cases o with
        | none => rfl
        | some p =>
          change fromCoeffs cfg (p.1.coeffs.sub p.2.coeffs) p.1.r = fromCoeffs cfg (p.1.coeffs.add p.2.neg.coeffs) p.1.r
          congr 1
          simp only [Coeffs.sub, Coeffs.add, coeffs, neg]
          by_cases h : p.1.c = p.2.c
          · simp only [h, if_true, sub_eq_add_neg]
          · simp only [h, if_false, sub_eq_add_neg, neg_mul]

end Surd
end NumIrr
