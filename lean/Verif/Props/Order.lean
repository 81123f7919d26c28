/-
C143: comparing and sorting surds by the sign of their difference.
-/
import Verif.Spec.Order
import Verif.Props.SurdArith
import Verif.Props.SurdRound
import Verif.Props.FixedSurd
import Mathlib.Data.List.Perm.Basic

namespace NumIrr

/-- the roots go together: `x - y` does not panic -/
def Surd.Comparable (x y : Surd) : Prop := x.r = 0 ∨ y.r = 0 ∨ x.Compatible y

/-- **C143** Comparing real surds by the sign of the difference: it returns exactly if the roots go together, with the right
answer, and panics otherwise. -/
theorem surd_less (cfg : Cfg) (x y : Surd) (hx : x.RealOk) (hy : y.RealOk) :
    (x.Comparable y → ∃ b, Surd.lessThan cfg x y = .ok b ∧ (b = true ↔ x.val < y.val)) ∧
    (¬ x.Comparable y → Surd.lessThan cfg x y = .error .incompatible) := by
  obtain ⟨h1, h2⟩ := Surd.sub_spec (hx.toOk cfg) (hy.toOk cfg)
  constructor
  · intro h
    obtain ⟨z, e, -⟩ := h1 h
    obtain ⟨oz, vz⟩ := surd_sub_value_real cfg x y z hx hy e
    obtain ⟨b, e2, hb⟩ := surd_isNegative cfg z oz
    refine ⟨b, ?_, by rw [hb, vz, sub_neg]⟩
    unfold Surd.lessThan
    rw [e]
    exact e2
  · intro h
    unfold Surd.lessThan
    rw [h2 h]
    rfl

example : Surd.lessThan ⟨false, true⟩ ⟨1, 1, 2, 5⟩ ⟨5, 0, 3, 0⟩ = .ok true ∧
    Surd.lessThan ⟨false, true⟩ ⟨0, 1, 1, 8⟩ ⟨0, 2, 1, 2⟩ = .ok false ∧
    Surd.lessThan ⟨false, true⟩ ⟨0, 1, 1, 2⟩ ⟨0, 1, 1, 3⟩ = .error .incompatible := by decide +kernel

/-- **C143** So it orders real surds of one field strictly and totally. -/
theorem surd_less_order (cfg : Cfg) (x y z : Surd) (hx : x.RealOk) (hy : y.RealOk) (hz : z.RealOk)
    (hxy : x.Comparable y) (hyx : y.Comparable x) (hyz : y.Comparable z) (hxz : x.Comparable z) :
    Surd.lessThan cfg x x = .ok false ∧
    (Surd.lessThan cfg x y = .ok true → Surd.lessThan cfg y x = .ok false) ∧
    (Surd.lessThan cfg x y = .ok true → Surd.lessThan cfg y z = .ok true → Surd.lessThan cfg x z = .ok true) ∧
    (Surd.lessThan cfg x y = .ok false → Surd.lessThan cfg y x = .ok false → x.val = y.val) := by
  have key : ∀ x y : Surd, x.RealOk → y.RealOk → x.Comparable y →
      (Surd.lessThan cfg x y = .ok true ↔ x.val < y.val) ∧ (Surd.lessThan cfg x y = .ok false ↔ ¬ x.val < y.val) := by
    intro x y hx hy h
    obtain ⟨b, e, hb⟩ := (surd_less cfg x y hx hy).1 h
    rw [e, ← hb]
    cases b <;> simp
  have hxx : x.Comparable x := .inr (.inr ⟨1, .inl (by ring)⟩)
  refine ⟨((key x x hx hx hxx).2).2 (lt_irrefl _), fun h => ?_, fun h k => ?_, fun h k => ?_⟩
  · exact (key y x hy hx hyx).2.2 (not_lt.2 ((key x y hx hy hxy).1.1 h).le)
  · exact (key x z hx hz hxz).1.2 (lt_trans ((key x y hx hy hxy).1.1 h) ((key y z hy hz hyz).1.1 k))
  · exact le_antisymm (not_lt.1 ((key y x hy hx hyx).2.1 k)) (not_lt.1 ((key x y hx hy hxy).2.1 h))

private theorem insert_ok (cfg : Cfg) (x : Surd) (hx : x.RealOk) (l : List Surd) (hl : ∀ y ∈ l, y.RealOk ∧ y.Comparable x)
    (hs : l.Pairwise fun y z => y.val ≤ z.val) :
    ∃ m, insertBy (Surd.lessThan cfg) x l = .ok m ∧ m.Perm (x :: l) ∧ m.Pairwise fun y z => y.val ≤ z.val := by
  induction l with
  | nil => exact ⟨[x], rfl, .refl _, by simp⟩
  | cons y l ih =>
    obtain ⟨oy, cy⟩ := hl y (by simp)
    obtain ⟨b, e, hb⟩ := (surd_less cfg y x oy hx).1 cy
    rw [List.pairwise_cons] at hs
    unfold insertBy
    rw [e, Surd.ok_bind]
    cases b with
    | true =>
      obtain ⟨m, e1, e2, e3⟩ := ih (fun z hz => hl z (by simp [hz])) hs.2
      refine ⟨y :: m, ?_, (e2.cons y).trans (.swap x y l), ?_⟩
      · rw [if_pos rfl, e1]
        rfl
      · refine List.pairwise_cons.2 ⟨fun z hz => ?_, e3⟩
        rcases List.mem_cons.1 (e2.mem_iff.1 hz) with rfl | hz
        · exact (hb.1 rfl).le
        · exact hs.1 z hz
    | false =>
      have hxy : x.val ≤ y.val := not_lt.1 fun h => by simpa using hb.2 h
      refine ⟨x :: y :: l, rfl, .refl _, List.pairwise_cons.2 ⟨fun z hz => ?_, List.pairwise_cons.2 hs⟩⟩
      rcases List.mem_cons.1 hz with rfl | hz
      · exact hxy
      · exact hxy.trans (hs.1 z hz)

/-- **C143** Sorting real surds of one field with this comparison never panics; the result is a rearrangement in ascending
order. -/
theorem surd_sort (cfg : Cfg) (l : List Surd) (hl : ∀ x ∈ l, x.RealOk) (hc : ∀ x ∈ l, ∀ y ∈ l, x.Comparable y) :
    ∃ m, sortBy (Surd.lessThan cfg) l = .ok m ∧ m.Perm l ∧ m.Pairwise fun x y => x.val ≤ y.val := by
  induction l with
  | nil => exact ⟨[], rfl, .refl _, .nil⟩
  | cons x l ih =>
    obtain ⟨m, e1, e2, e3⟩ := ih (fun y hy => hl y (by simp [hy])) fun y hy z hz => hc y (by simp [hy]) z (by simp [hz])
    obtain ⟨k, f1, f2, f3⟩ := insert_ok cfg x (hl x (by simp)) m (fun y hy => by
      have := e2.mem_iff.1 hy
      exact ⟨hl y (by simp [this]), hc y (by simp [this]) x (by simp)⟩) e3
    refine ⟨k, ?_, f2.trans (e2.cons x), f3⟩
    unfold sortBy
    rw [e1]
    exact f1

example : sortBy (Surd.lessThan ⟨false, true⟩) [⟨0, 1, 1, 8⟩, ⟨3, 0, 1, 0⟩, ⟨1, 1, 1, 2⟩, ⟨5, -1, 2, 2⟩] =
    .ok [⟨5, -1, 2, 2⟩, ⟨1, 1, 1, 2⟩, ⟨0, 1, 1, 8⟩, ⟨3, 0, 1, 0⟩] := by decide +kernel

/-- **C143** Over primitive integers with overflow checks the answer is right or the comparison panics. -/
theorem fixed_less (x : Fx) (hx : x.checks = true) (cfg : Cfg) (s t : Surd) (hs : s.RealOk) (ht : t.RealOk) :
    Refines (x.lessThan cfg s t) (Surd.lessThan cfg s t) ∧
    ∀ b, x.lessThan cfg s t = .ok b → (b = true ↔ s.val < t.val) := by
  have h : Refines (x.lessThan cfg s t) (Surd.lessThan cfg s t) :=
    (Fx.surdSub_ref hx cfg s t).bind fun v _ => Fx.isNegative_ref hx cfg v
  refine ⟨h, fun b e => ?_⟩
  have e' := h.returns e
  by_cases hc : s.Comparable t
  · obtain ⟨b', e2, hb⟩ := (surd_less cfg s t hs ht).1 hc
    rw [e'] at e2
    cases e2
    exact hb
  · rw [(surd_less cfg s t hs ht).2 hc] at e'
    cases e'

/-- **C143** … and sorting gives the sorted list or panics. -/
theorem fixed_sort (x : Fx) (hx : x.checks = true) (cfg : Cfg) (l : List Surd) :
    Refines (sortBy (x.lessThan cfg) l) (sortBy (Surd.lessThan cfg) l) := by
  have h : ∀ s t, Refines (x.lessThan cfg s t) (Surd.lessThan cfg s t) := fun s t =>
    (Fx.surdSub_ref hx cfg s t).bind fun v _ => Fx.isNegative_ref hx cfg v
  have hi : ∀ s l, Refines (insertBy (x.lessThan cfg) s l) (insertBy (Surd.lessThan cfg) s l) := by
    intro s l
    induction l with
    | nil => exact .rfl'
    | cons y l ih =>
      unfold insertBy
      refine (h y s).bind fun b _ => ?_
      split
      · exact ih.bind fun _ _ => .rfl'
      · exact .rfl'
  induction l with
  | nil => exact .rfl'
  | cons s l ih =>
    unfold sortBy
    exact ih.bind fun m _ => hi s m

/-- **C143** Without overflow checks the answer can be wrong: half the greatest number counts as less than its negative. -/
theorem fixed_less_refuted : ∀ w ∈ [8, 16, 32, 64, 128],
    (Fx.mk w false).lessThan ⟨false, false⟩ ⟨2 ^ (w - 2), 0, 1, 0⟩ ⟨-2 ^ (w - 2), 0, 1, 0⟩ = .ok true ∧
    Surd.lessThan ⟨false, false⟩ ⟨2 ^ (w - 2), 0, 1, 0⟩ ⟨-2 ^ (w - 2), 0, 1, 0⟩ = .ok false ∧
    (Fx.mk w true).lessThan ⟨false, true⟩ ⟨2 ^ (w - 2), 0, 1, 0⟩ ⟨-2 ^ (w - 2), 0, 1, 0⟩ = .error .overflow := by
  decide +kernel

end NumIrr
