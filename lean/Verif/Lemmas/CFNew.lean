/-
The loop of `ContinuedFraction::new`: what it preserves.
-/
import Verif.Lemmas.CFAct

namespace NumIrr
namespace CF

/-- sign recorded so far -/
def NewSt.S (s : NewSt) : Bool := s.negative == some true

section value
variable {R : Type} [CommRing R]

theorem propagate_act (debug : Bool) (ng : Option Bool) (neg : Bool) (st : List Int) (t : Int) (s' : NewSt)
    (h : propagate debug ng neg st t = .ok s') :
    ∃ f : Bool, (∀ u : R × R, Prj (flp f (actR st ((t : R) * u.1 + u.2, u.1)))
        (actR s'.stack (flp (s'.negate ^^ neg) u))) ∧
      (f = true → s'.negative = some true) ∧ (f = false → s'.negative = ng ∨ s'.negative = some false) ∧
      (st.head? ≠ some 0 → st ≠ [1] → f = false ∧ s'.negative = ng) := by
  fun_induction propagate debug ng neg st t with
  | case1 => cases h
  | case2 => cases h
  | case3 t _ =>
    cases h
    refine ⟨false, fun u => .inl ?_, by simp, by simp, by simp⟩
    cases neg <;> simp [actR] <;> constructor <;> ring
  | case4 t _ =>
    cases h
    refine ⟨true, fun u => .inl ?_, by simp, by simp, by simp⟩
    cases neg <;> simp [actR]
  | case5 => cases h
  | case6 am1 t _ h1 h0 _ =>
    cases h
    refine ⟨false, fun u => .inl ?_, by simp, by simp, by simp⟩
    cases neg <;> simp [actR] <;> constructor <;> ring
  | case7 => cases h
  | case8 am2 rest t _ =>
    cases h
    refine ⟨false, fun u => .inl ?_, by simp, by simp, by simp⟩
    simp only [flp_false, actR]
    congr 1
    cases neg <;> simp <;> constructor <;> ring
  | case9 am2 rest t _ h1 hlt ih =>
    obtain ⟨f, hf, h2, h3, -⟩ := ih h
    refine ⟨f, fun u => ?_, h2, h3, by simp⟩
    have := hf u
    simp only [actR] at this ⊢
    convert this using 4
    · simp
      ring
    · simp
  | case10 am2 rest t _ h1 hlt =>
    cases h
    refine ⟨false, fun u => .inl ?_, by simp, by simp, by simp⟩
    simp only [flp_false, actR]
    congr 1
    cases neg <;> simp <;> ring
  | case11 => cases h
  | case12 am1 am2 rest t _ h1 h0 _ =>
    cases h
    refine ⟨false, fun u => .inl ?_, by simp, by simp, by simp⟩
    simp only [flp_false, actR]
    congr 1
    cases neg <;> simp <;> constructor <;> ring

/-- the coefficient after applying the carried sign -/
def eff (s : NewSt) (a : Int) : Int := if s.negate then 0 - a else a

theorem flp_step (n : Bool) (a : Int) (v : R × R) :
    Prj (flp n ((a : R) * v.1 + v.2, v.1))
      ((((if n then 0 - a else a : Int) : R)) * (flp n v).1 + (flp n v).2, (flp n v).1) := by
  cases n
  · exact .inl (by simp)
  · refine .inr ?_
    simp

theorem newStep_act (debug : Bool) (s : NewSt) (a : Int) (s' : NewSt) (h : newStep debug s a = .ok s') :
    ∃ f : Bool, (∀ v : R × R, Prj (flp f (actR s.stack (flp s.negate ((a : R) * v.1 + v.2, v.1))))
        (actR s'.stack (flp s'.negate v))) ∧
      (f = true → s'.negative = some true) ∧
      (f = false → s'.negative = s.negative ∨ s'.negative = some false) ∧
      (s.stack ≠ [] → (0 ≤ eff s a ∨ s.stack.head? ≠ some 0 ∧ s.stack ≠ [1]) →
        f = false ∧ (s.negative ≠ none → s'.negative = s.negative)) := by
  suffices H : ∃ f : Bool, (∀ u : R × R, Prj (flp f (actR s.stack ((eff s a : R) * u.1 + u.2, u.1)))
        (actR s'.stack (flp (s'.negate ^^ s.negate) u))) ∧
      (f = true → s'.negative = some true) ∧
      (f = false → s'.negative = s.negative ∨ s'.negative = some false) ∧
      (s.stack ≠ [] → (0 ≤ eff s a ∨ s.stack.head? ≠ some 0 ∧ s.stack ≠ [1]) →
        f = false ∧ (s.negative ≠ none → s'.negative = s.negative)) by
    obtain ⟨f, hf, h2⟩ := H
    refine ⟨f, fun v => ?_, h2⟩
    have h1 := hf (flp s.negate v)
    rw [flp_flp, Bool.xor_assoc, Bool.xor_self, Bool.xor_false] at h1
    exact (((flp_step s.negate a v).actR s.stack).flp f).trans h1
  unfold newStep at h
  obtain ⟨stack, negative, negate⟩ := s
  simp only [] at h
  change (match stack with
    | [] => if eff ⟨stack, negative, negate⟩ a < 0 then _ else _
    | top :: rest => _) = _ at h
  unfold eff at *
  simp only at h ⊢
  generalize (if negate = true then 0 - a else a) = e at h ⊢
  match stack, h with
  | [], h =>
    simp only at h
    split at h
    · cases h
      refine ⟨true, fun u => .inr ?_, by simp, by simp, by simp⟩
      cases negate <;> simp [actR]
    · cases h
      refine ⟨false, fun u => .inl ?_, by simp, fun _ => ?_, by simp +contextual⟩
      · cases negate <;> simp [actR]
      · by_cases h0 : e = 0 <;> simp [h0]
  | top :: rest, h =>
    simp only at h
    split at h
    · rename_i h0
      split at h
      · rename_i ht
        cases h
        refine ⟨false, fun u => .inl ?_, by simp, by simp, by simp⟩
        cases negate <;> simp [actR, ht, h0]
      · cases h
        refine ⟨false, fun u => .inl ?_, by simp, by simp, by simp⟩
        cases negate <;> simp [actR]
    · split at h
      · rename_i hneg
        obtain ⟨f, h1, h2, h3, h4⟩ := propagate_act (R := R) debug _ _ _ _ _ h
        refine ⟨f, h1, h2, h3, fun _ hh => ?_⟩
        rcases hh with hh | hh
        · omega
        · exact ⟨(h4 hh.1 hh.2).1, fun _ => (h4 hh.1 hh.2).2⟩
      · match rest, h with
        | am2 :: rest', h =>
          simp only at h
          split at h
          · rename_i ht
            cases h
            refine ⟨false, fun u => .inl ?_, by simp, by simp, by simp⟩
            cases negate <;> simp [actR, ht] <;> congr 2 <;> ring
          · cases h
            refine ⟨false, fun u => .inl ?_, by simp, fun _ => ?_, by simp +contextual⟩
            · cases negate <;> simp [actR]
            · by_cases h0 : negative = none <;> simp [h0]
        | [], h =>
          cases h
          refine ⟨false, fun u => .inl ?_, by simp, fun _ => ?_, by simp +contextual⟩
          · cases negate <;> simp [actR]
          · by_cases h0 : negative = none <;> simp [h0]

/-- the loop preserves the number, up to sign -/
theorem newLoop_act (debug : Bool) (as : List Int) (s s' : NewSt) (h : newLoop debug s as = .ok s') :
    ∃ f : Bool, ∀ v : R × R, Prj (flp f (actR s.stack (flp s.negate (act as v))))
        (actR s'.stack (flp s'.negate v)) := by
  induction as generalizing s with
  | nil => cases h; exact ⟨false, fun v => .inl rfl⟩
  | cons a as ih =>
    rw [newLoop] at h
    cases hs : newStep debug s a with
    | error e => rw [hs] at h; cases h
    | ok s1 =>
      rw [hs] at h
      obtain ⟨f, hf⟩ := ih s1 h
      obtain ⟨g, hg, -⟩ := newStep_act (R := R) debug s a s1 hs
      refine ⟨f ^^ g, fun v => ?_⟩
      have := (hg (act as v)).flp f
      rw [flp_flp] at this
      exact this.trans (hf v)

end value

/-! ### Shape of the stack -/

/-- all entries below the top: positive, except that the bottom one may be zero -/
def TInv : List Int → Prop
  | [] => True
  | [b] => 0 ≤ b
  | x :: y :: l => 1 ≤ x ∧ TInv (y :: l)

/-- a stack: the top may also be zero -/
def SInv : List Int → Prop
  | [] => True
  | x :: l => 0 ≤ x ∧ TInv l

theorem TInv.sinv : ∀ {l : List Int}, TInv l → SInv l
  | [], _ => trivial
  | [_], h => ⟨h, trivial⟩
  | _ :: _ :: _, h => ⟨by have := h.1; omega, h.2⟩

theorem TInv.tail : ∀ {x : Int} {l : List Int}, TInv (x :: l) → TInv l
  | _, [], _ => trivial
  | _, _ :: _, h => h.2

theorem TInv.push {x : Int} {l : List Int} (hx : 1 ≤ x) (h : TInv l) : TInv (x :: l) := by
  cases l with
  | nil => exact by show 0 ≤ x; omega
  | cons y l => exact ⟨hx, h⟩

theorem TInv.bump {x y : Int} {l : List Int} (hxy : x ≤ y) (h : TInv (x :: l)) : TInv (y :: l) := by
  cases l with
  | nil => have : 0 ≤ x := h; show 0 ≤ y; omega
  | cons z l => exact ⟨by have := h.1; omega, h.2⟩

theorem TInv.nonneg {x : Int} {l : List Int} (h : TInv (x :: l)) : 0 ≤ x := h.sinv.1

theorem propagate_inv (debug : Bool) (ng : Option Bool) (neg : Bool) (st : List Int) (t : Int) (s' : NewSt)
    (hst : SInv st) (ht : t < 0) (h : propagate debug ng neg st t = .ok s') : SInv s'.stack := by
  fun_induction propagate debug ng neg st t with
  | case1 => cases h
  | case2 => cases h
  | case3 t _ => cases h; exact ⟨by omega, TInv.push (by omega) (by show (0:Int) ≤ 0; omega)⟩
  | case4 t _ => cases h; exact ⟨by omega, by show (0:Int) ≤ 0; omega⟩
  | case5 => cases h
  | case6 am1 t _ h1 h0 _ =>
    cases h
    have := hst.1
    exact ⟨by omega, TInv.push (by omega) (by show (0:Int) ≤ am1 - 1; omega)⟩
  | case7 => cases h
  | case8 am2 rest t _ => cases h; exact ⟨by omega, TInv.bump (by omega) hst.2⟩
  | case9 am2 rest t _ h1 hlt ih => exact ih hst.2.tail.sinv (by omega) h
  | case10 am2 rest t _ h1 hlt => cases h; exact ⟨by omega, hst.2.tail⟩
  | case11 => cases h
  | case12 am1 am2 rest t _ h1 h0 _ =>
    cases h
    have := hst.1
    exact ⟨by omega, by omega, TInv.push (by omega) hst.2⟩

theorem newStep_inv (debug : Bool) (s : NewSt) (a : Int) (s' : NewSt) (hs : SInv s.stack)
    (h : newStep debug s a = .ok s') : SInv s'.stack := by
  unfold newStep at h
  obtain ⟨stack, negative, negate⟩ := s
  simp only at h hs
  generalize (if negate = true then 0 - a else a) = e at h
  match stack, h, hs with
  | [], h, _ =>
    simp only at h
    split at h <;> cases h
    · exact ⟨by omega, trivial⟩
    · exact ⟨by omega, trivial⟩
  | top :: rest, h, hs =>
    simp only at h
    split at h
    · split at h <;> cases h
      · exact hs.2.sinv
      · exact ⟨by omega, TInv.push (by have := hs.1; omega) hs.2⟩
    · split at h
      · exact propagate_inv debug _ _ _ _ _ hs (by omega) h
      · match rest, h, hs with
        | am2 :: rest', h, hs =>
          simp only at h
          split at h <;> cases h
          · exact (TInv.bump (by omega) hs.2).sinv
          · exact ⟨by omega, by have := hs.1; omega, hs.2⟩
        | [], h, hs => cases h; exact ⟨by omega, hs.1⟩

theorem newLoop_inv (debug : Bool) (as : List Int) (s s' : NewSt) (hs : SInv s.stack)
    (h : newLoop debug s as = .ok s') : SInv s'.stack := by
  induction as generalizing s with
  | nil => cases h; exact hs
  | cons a as ih =>
    rw [newLoop] at h
    cases hs1 : newStep debug s a with
    | error e => rw [hs1] at h; cases h
    | ok s1 =>
      rw [hs1] at h
      exact ih s1 (newStep_inv debug s a s1 hs hs1) h

/-! ### The clean-up loop -/

theorem cleanup_act {R : Type} [CommRing R] (fuel : Nat) (l : List Int) :
    actR (cleanup fuel l) ((1, 0) : R × R) = actR l (1, 0) := by
  fun_induction cleanup fuel l with
  | case1 fuel y rest ih => rw [ih]; simp [actR]
  | case2 fuel y rest h ih => rw [ih]; simp [actR]
  | case3 => rfl
  | case4 => rfl

/-- result of the clean-up: either empty, or positive below, and not ending in one -/
def CInv : List Int → Prop
  | [] => True
  | [b] => 0 ≤ b
  | x :: y :: l => 2 ≤ x ∧ TInv (y :: l)

theorem cleanup_inv (fuel : Nat) (l : List Int) (hf : l.length ≤ fuel) (h : SInv l) : CInv (cleanup fuel l) := by
  fun_induction cleanup fuel l with
  | case1 fuel y rest ih =>
    refine ih ?_ h.2.tail.sinv
    simp only [List.length_cons] at hf; omega
  | case2 fuel y rest h0 ih =>
    refine ih ?_ (TInv.bump (by omega) h.2).sinv
    simp only [List.length_cons] at hf ⊢; omega
  | case3 fuel x y rest h0 h1 => have := h.1; exact ⟨by omega, h.2⟩
  | case4 fuel l hn =>
    match fuel, l, hf, hn with
    | _, [], _, _ => trivial
    | _, [b], _, _ => exact h.1
    | 0, x :: y :: l, hf, _ => simp at hf
    | f + 1, x :: y :: l, _, hn => exact absurd rfl (hn f x y l rfl)

end CF
end NumIrr
