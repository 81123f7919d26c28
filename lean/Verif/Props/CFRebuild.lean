/-
C99: rebuilding a continued fraction from its parts: `new` of the accessors, and `collect` of the coefficients.
-/
import Verif.Props.CFNew
import Verif.Props.CFIter

namespace NumIrr
namespace CF

/-- the rounds of `new` on positive coefficients push them -/
private theorem newLoop_pos (debug b ng : Bool) : ∀ (l : List ℕ) (top : ℤ) (rest : List ℤ), (∀ v ∈ l, 1 ≤ v) → (rest = [] ∨ top ≠ 0) →
    newLoop debug ⟨top :: rest, some b, ng⟩ (l.map fun n : ℕ => if ng then -(n : ℤ) else n) =
      .ok ⟨(toInts l).reverse ++ top :: rest, some b, ng⟩
  | [], _, _, _, _ => rfl
  | v :: l, top, rest, hl, ht => by
    have hv : 1 ≤ v := hl v (by simp)
    have e : newStep debug ⟨top :: rest, some b, ng⟩ (if ng then -(v : ℤ) else v) = .ok ⟨(v : ℤ) :: top :: rest, some b, ng⟩ := by
      unfold newStep
      have ea : (if ng = true then 0 - (if ng then -(v : ℤ) else v) else (if ng then -(v : ℤ) else v)) = v := by
        cases ng <;> simp
      simp only [ea]
      rw [if_neg (by omega), if_neg (by omega)]
      cases rest with
      | nil => simp
      | cons am2 r =>
        simp only
        rw [if_neg (by simpa using ht)]
        simp
    rw [List.map_cons, newLoop, e]
    have := newLoop_pos debug b ng l v (top :: rest) (fun u hu => hl u (by simp [hu])) (.inr (by omega))
    simp only [bind, Except.bind]
    rw [this]
    simp [toInts]

private theorem toUnsignedAll_toInts : ∀ l : List ℕ, toUnsignedAll (toInts l) = .ok l
  | [] => rfl
  | v :: l => by
    have := toUnsignedAll_toInts l
    simp only [toInts, List.map_cons] at this ⊢
    simp only [toUnsignedAll]
    rw [this]
    simp only [toUnsigned]
    rw [if_neg (by omega)]
    rfl

private theorem cleanup_canon (l : List ℤ) (h : ∀ x y r, l = x :: y :: r → 2 ≤ x) (n : ℕ) : cleanup n l = l := by
  match n, l, h with
  | 0, _, _ => simp [cleanup]
  | n + 1, [], _ => simp [cleanup]
  | n + 1, [x], _ => simp [cleanup]
  | n + 1, x :: y :: r, h =>
    have := h x y r rfl
    simp only [cleanup]
    rw [if_neg (by omega), if_neg (by omega)]

/-- the rounds of `new` on coefficients that are all negated (`σ`) or none -/
private theorem newLoop_signed (debug σ ng0 : Bool) (u : ℕ) (us : List ℕ) (hus : ∀ v ∈ us, 1 ≤ v) :
    ∃ n ng, newLoop debug ⟨[], none, ng0⟩ ((u :: us).map fun n : ℕ => if σ then -(n : ℤ) else n) =
      .ok ⟨(toInts (u :: us)).reverse, n, ng⟩ ∧ (n = some (σ ^^ ng0) ∨ n = none ∧ ng = ng0 ∧ us = [] ∧ u = 0) := by
  rw [List.map_cons, newLoop]
  rcases Nat.eq_zero_or_pos u with rfl | hu
  · have e : newStep debug ⟨[], none, ng0⟩ (if σ then -((0 : ℕ) : ℤ) else ((0 : ℕ) : ℤ)) = .ok ⟨[0], none, ng0⟩ := by
      cases σ <;> cases ng0 <;> rfl
    rw [e]
    cases us with
    | nil => exact ⟨none, ng0, rfl, .inr ⟨rfl, rfl, rfl, rfl⟩⟩
    | cons v vs =>
      have hv : 1 ≤ v := hus v (by simp)
      have e2 : newStep debug ⟨[0], none, ng0⟩ (if σ then -(v : ℤ) else v) = .ok ⟨[(v : ℤ), 0], some (σ ^^ ng0), σ⟩ := by
        have f1 : v ≠ 0 := by omega
        have f2 : 0 < v := by omega
        have f3 : ¬ (v : ℤ) < 0 := by omega
        unfold newStep
        cases σ <;> cases ng0 <;> simp [propagate, f1, f2, f3]
      refine ⟨some (σ ^^ ng0), σ, ?_, .inl rfl⟩
      simp only [bind, Except.bind]
      rw [List.map_cons, newLoop, e2]
      simp only [bind, Except.bind]
      rw [newLoop_pos debug _ σ vs v [0] (fun w hw => hus w (by simp [hw])) (.inr (by omega))]
      simp [toInts]
  · have e : newStep debug ⟨[], none, ng0⟩ (if σ then -(u : ℤ) else (u : ℤ)) = .ok ⟨[(u : ℤ)], some (σ ^^ ng0), σ⟩ := by
      have f2 : 0 < u := by omega
      have f1 : u ≠ 0 := by omega
      have f3 : ¬ (u : ℤ) < 0 := by omega
      unfold newStep
      cases σ <;> cases ng0 <;> simp [f1, f2, f3]
    rw [e]
    refine ⟨some (σ ^^ ng0), σ, ?_, .inl rfl⟩
    simp only [bind, Except.bind]
    rw [newLoop_pos debug _ σ us u [] hus (.inl rfl)]
    simp [toInts]

/-- the end of `new` -/
private theorem new_end {debug : Bool} {a : List ℤ} {neg : Bool} {c : CF} {n : Option Bool} {ng : Bool} (ha : a ≠ []) (hc : c.Std)
    (hl : newLoop debug ⟨[], none, neg⟩ a = .ok ⟨(toInts c.a).reverse, n, ng⟩)
    (hs : n = some c.neg ∨ n = none ∧ ng = c.neg ∧ c.p ≠ [] ∨ n = none ∧ c.a = [0] ∧ c.p = []) :
    new debug a (toInts c.p) neg = .ok c := by
  obtain ⟨⟨w1, w2, w3⟩, hcan⟩ := hc
  have hlen : ¬ (a.length = 0) := by simpa using ha
  have hlen' : ¬ ((toInts c.a).reverse.length = 0) := by simpa [toInts] using w1
  unfold new
  simp only [hlen, false_and, if_false, hl, bind, Except.bind, hlen']
  have hp0 : ((toInts c.p).length = 0) ↔ c.p = [] := by simp [toInts]
  by_cases hp : c.p = []
  · rw [if_pos (hp0.mpr hp)]
    obtain ⟨-, k1, k2, k3, k4⟩ := hcan hp
    have hcl : cleanup (toInts c.a).reverse.length (toInts c.a).reverse = (toInts c.a).reverse := by
      refine cleanup_canon _ (fun x y r e => ?_) _
      have e' : toInts c.a = r.reverse ++ [y] ++ [x] := by
        have := congrArg List.reverse e
        simpa using this
      obtain ⟨a', last, hal⟩ : ∃ a' last, c.a = a' ++ [last] := ⟨_, _, (List.dropLast_append_getLast k1).symm⟩
      rw [hal] at e' k2 k3
      have : toInts (a' ++ [last]) = toInts a' ++ [(last : ℤ)] := by simp [toInts]
      rw [this] at e'
      obtain ⟨e1, e2⟩ := List.append_inj' e' rfl
      simp only [List.cons.injEq, and_true] at e2
      have ha' : a' ≠ [] := by rintro rfl; simp [toInts] at e1
      obtain ⟨u, us, rfl⟩ := List.exists_cons_of_ne_nil ha'
      have h1 : 1 ≤ last := k2 last (by simp)
      have h2 : last ≠ 1 := by
        have := k3 (by simp)
        rwa [List.getLastD_concat] at this
      omega
    rw [hcl]
    have hrev : (toInts c.a).reverse = [0] ↔ c.a = [0] := by
      rw [← List.reverse_inj, List.reverse_reverse]
      constructor
      · intro h
        obtain ⟨u, us, hu⟩ := List.exists_cons_of_ne_nil k1
        rw [hu] at h ⊢
        simpa [toInts] using h
      · intro h; rw [h]; rfl
    have hfin : finalSign (if (toInts c.a).reverse = [0] then some false else n) ng (toInts c.p) = .ok c.neg := by
      rcases hs with rfl | ⟨rfl, rfl, h⟩ | ⟨rfl, h, -⟩
      · split
        · rename_i h; rw [finalSign, k4 (hrev.mp h)]
        · rfl
      · exact absurd hp h
      · rw [if_pos (hrev.mpr h), finalSign, k4 h]
    simp only [hfin, List.reverse_reverse, toUnsignedAll_toInts]
    rfl
  · rw [if_neg (by rwa [hp0])]
    have hfin : finalSign n ng (toInts c.p) = .ok c.neg := by
      rcases hs with rfl | ⟨rfl, rfl, h⟩ | ⟨rfl, -, h⟩
      · rfl
      · obtain ⟨q, qs, hq⟩ := List.exists_cons_of_ne_nil hp
        have : 1 ≤ q := w3 q (by rw [hq]; simp)
        rw [hq]
        simp only [finalSign, toInts, List.map_cons]
        rw [if_neg (by omega)]
      · exact absurd h hp
    simp only [hfin, List.reverse_reverse, toUnsignedAll_toInts]
    rfl

/-- **C99** `ContinuedFraction::new(c.aperiodic_coeffs(), c.periodic_coeffs(), c.is_negative())` is `c`, for every fraction in
standard form, finite or periodic. -/
theorem cf_rebuild (debug : Bool) (c : CF) (hc : c.Std) : new debug (toInts c.a) (toInts c.p) c.neg = .ok c := by
  obtain ⟨⟨w1, w2, w3⟩, hcan⟩ := id hc
  obtain ⟨u, us, hu⟩ := List.exists_cons_of_ne_nil w1
  obtain ⟨n, ng, h1, h2⟩ := newLoop_signed debug false c.neg u us (fun v hv => w2 v (by rw [hu]; exact hv))
  refine new_end (n := n) (ng := ng) (by simpa [toInts] using w1) hc (by rw [hu]; exact h1) ?_
  rcases h2 with rfl | ⟨rfl, rfl, rfl, rfl⟩
  · simp
  · by_cases hp : c.p = []
    · exact .inr (.inr ⟨rfl, hu, hp⟩)
    · exact .inr (.inl ⟨rfl, rfl, hp⟩)

example : Std ⟨[0, 1, 2], [3, 4], true⟩ ∧ new true [0, 1, 2] [3, 4] true = .ok ⟨[0, 1, 2], [3, 4], true⟩ := by
  refine ⟨⟨⟨by decide, by decide, by decide⟩, fun h => absurd h (by decide)⟩, by decide +kernel⟩

/-- the list of all items of `c.coeffs()`, which ends -/
def Collects (c : CF) (l : List ℤ) : Prop :=
  (∀ n (h : n < l.length), itemAt SignedIter.next n c.coeffs = some l[n]) ∧ itemAt SignedIter.next l.length c.coeffs = none

/-- the coefficients of a finite fraction come to an end -/
private theorem collects_iff (c : CF) (hp : c.p = []) (l : List ℤ) : c.Collects l ↔ l = c.a.map fun n : ℕ => if c.neg then -(n : ℤ) else n := by
  have key : ∀ n, itemAt SignedIter.next n c.coeffs = (c.a.map fun n : ℕ => if c.neg then -(n : ℤ) else n)[n]? := by
    intro n
    rw [cf_coeffs]
    unfold HasCoeff coeffAt
    by_cases hn : n < c.a.length
    · simp [hn, signed]
    · simp [hp, hn]
  unfold Collects
  simp only [key]
  constructor
  · rintro ⟨h1, h2⟩
    have hle := List.getElem?_eq_none_iff.mp h2
    refine List.ext_getElem? fun n => ?_
    by_cases hn : n < l.length
    · rw [h1 n hn, List.getElem?_eq_getElem hn]
    · rw [List.getElem?_eq_none_iff.mpr (by omega), List.getElem?_eq_none_iff.mpr (by omega)]
  · rintro rfl
    exact ⟨fun n h => List.getElem?_eq_getElem h, List.getElem?_eq_none_iff.mpr le_rfl⟩

/-- **C99** `c.coeffs().collect()` ends for every finite fraction, and gives back `c` exactly when `c` is in canonical form. -/
theorem cf_collect (debug : Bool) (c : CF) (hp : c.p = []) (hv : c.valQ ≠ none) :
    ∃ l, c.Collects l ∧ (fromIter debug l = .ok c ↔ c.Canonical) := by
  refine ⟨_, (collects_iff c hp _).mpr rfl, fun h => ?_, fun h => ?_⟩
  · refine new_canonical debug _ _ c h ?_
    have hneg : ∀ l : List ℕ, cfVal (l.map fun n : ℕ => if c.neg then -(n : ℤ) else n) = (cfVal (toInts l)).map (signed c.neg) := by
      intro l
      induction l with
      | nil => rfl
      | cons v l ih =>
        simp only [toInts, List.map_cons, cfVal] at ih ⊢
        rw [ih]
        cases hq : cfVal (List.map (fun n : ℕ => (n : ℤ)) l) with
        | none => cases c.neg <;> simp [signed]
        | some q =>
          by_cases q0 : q = 0
          · subst q0; cases c.neg <;> simp [signed]
          · cases c.neg
            · simp [signed, q0]
            · simp [signed, q0]; ring
    rw [hneg]
    exact hv
  · obtain ⟨u, us, hu⟩ := List.exists_cons_of_ne_nil h.2.1
    have hus : ∀ v ∈ us, 1 ≤ v := fun v hv => h.2.2.1 v (by rw [hu]; exact hv)
    obtain ⟨n, ng, h1, h2⟩ := newLoop_signed debug c.neg false u us hus
    have := new_end (n := n) (ng := ng) (debug := debug) (neg := false) (c := c)
      (a := c.a.map fun n : ℕ => if c.neg then -(n : ℤ) else n) (by simpa using h.2.1)
      ⟨⟨h.2.1, h.2.2.1, by rw [hp]; simp⟩, fun _ => h⟩ (by rw [hu]; exact h1) ?_
    · rw [hp] at this; exact this
    · rcases h2 with rfl | ⟨rfl, rfl, rfl, rfl⟩
      · simp
      · exact .inr (.inr ⟨rfl, hu, hp⟩)

example : Canonical ⟨[0, 1, 2], [], true⟩ ∧ fromIter true [0, -1, -2] = .ok ⟨[0, 1, 2], [], true⟩ ∧
    fromIter true [0, 2, 1] = .ok ⟨[0, 3], [], false⟩ := by
  refine ⟨?_, by decide +kernel, by decide +kernel⟩
  unfold Canonical; decide

/-- **C99** `collect` of the coefficients of a periodic fraction does not end -/
theorem cf_collect_periodic (c : CF) (hp : c.p ≠ []) (l : List ℤ) : ¬ c.Collects l := by
  rintro ⟨-, h⟩
  rw [cf_coeffs, if_pos (.inl hp)] at h
  cases h

end CF
end NumIrr
