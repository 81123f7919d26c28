/-
Integer shifts, conversions and iterators of continued fractions over primitive integers.
-/
import Verif.Lemmas.FixedCFNew
import Verif.Lemmas.FixedWrap

namespace NumIrr
namespace Prim
open CF

variable {t : Prim}

/-! ### `new` on non-negative coefficients -/

/-- every number between `0` and `S` is representable -/
def WideNN (t : Prim) (S : Int) : Prop := ∀ v : Int, 0 ≤ v → v ≤ S → t.Holds v

theorem newStep_nonneg {S : Int} (hS : t.WideNN S) (debug : Bool) (s : NewSt) (a : Int) (hst : SInv s.stack)
    (hn : s.negate = false) (ha : 0 ≤ a) (hsum : absSum s.stack + a ≤ S) :
    t.newStep debug s a = CF.newStep debug s a ∧
      Ens (CF.newStep debug s a) (fun s' => s'.negate = false ∧ absSum s'.stack ≤ absSum s.stack + a) := by
  obtain ⟨stack, negative, negate⟩ := s
  simp only at hn hst hsum ⊢
  subst hn
  unfold newStep CF.newStep applyNegate
  simp only [Bool.false_eq_true, if_false]
  show t.newPush debug _ a = _ ∧ _
  unfold newPush
  have hna : ¬ a < 0 := by omega
  simp only [if_neg hna]
  match stack, hst, hsum with
  | [], hst, hsum =>
    exact ⟨rfl, Ens.pure ⟨rfl, by simp [absSum_cons, absSum_nil, abs_of_nonneg ha]⟩⟩
  | top :: rest, hst, hsum =>
    simp only
    have hr := absSum_nonneg rest
    rw [absSum_cons] at hsum ⊢
    have h0 := hst.1
    rw [abs_of_nonneg h0] at hsum ⊢
    split
    · split
      · exact ⟨rfl, Ens.pure ⟨rfl, by simp only; omega⟩⟩
      · exact ⟨rfl, Ens.pure ⟨rfl, by simp only [absSum_cons, abs_of_nonneg ha, abs_of_nonneg h0]; omega⟩⟩
    · match rest, hst, hr, hsum with
      | [], hst, hr, hsum =>
        exact ⟨rfl, Ens.pure ⟨rfl, by simp only [absSum_cons, absSum_nil, abs_of_nonneg ha, abs_of_nonneg h0]; omega⟩⟩
      | am2 :: rest', hst, hr, hsum =>
        have h2 := hst.2.nonneg
        have hr' := absSum_nonneg rest'
        simp only
        rw [absSum_cons, abs_of_nonneg h2] at hsum ⊢
        split
        · unfold add
          rw [ret_ok (hS _ (by omega) (by omega))]
          exact ⟨rfl, Ens.pure ⟨rfl, by simp only [absSum_cons]; rw [abs_of_nonneg (by omega)]; omega⟩⟩
        · exact ⟨rfl, Ens.pure ⟨rfl, by
            simp only [absSum_cons, abs_of_nonneg ha, abs_of_nonneg h0, abs_of_nonneg h2]; omega⟩⟩

theorem newLoop_nonneg' {S : Int} (hS : t.WideNN S) (debug : Bool) (as : List Int) (s : NewSt) (hst : SInv s.stack)
    (hn : s.negate = false) (ha : ∀ v ∈ as, 0 ≤ v) (hsum : absSum s.stack + absSum as ≤ S) :
    t.newLoop debug s as = CF.newLoop debug s as ∧
      Ens (CF.newLoop debug s as) (fun s' => absSum s'.stack ≤ absSum s.stack + absSum as) := by
  induction as generalizing s with
  | nil => exact ⟨rfl, Ens.pure (by simp [absSum_nil])⟩
  | cons a as ih =>
    have ha0 := ha a (by simp)
    rw [absSum_cons, abs_of_nonneg ha0] at hsum ⊢
    have hs := absSum_nonneg as
    obtain ⟨h1, h2⟩ := newStep_nonneg hS debug s a hst hn ha0 (by omega)
    rw [newLoop, CF.newLoop, h1]
    cases hs : CF.newStep debug s a with
    | error e => exact ⟨rfl, Ens.err⟩
    | ok s1 =>
      obtain ⟨h3, h4⟩ := h2 s1 hs
      obtain ⟨h5, h6⟩ := ih s1 (newStep_inv debug s a s1 hst hs) h3 (fun v hv => ha v (by simp [hv])) (by omega)
      exact ⟨h5, fun s' hs' => (h6 s' hs').trans (by omega)⟩

theorem cleanup_nonneg {S : Int} (hS : t.WideNN S) (fuel : Nat) (l : List Int) (hl : ∀ v ∈ l, 0 ≤ v)
    (hsum : absSum l ≤ S) : t.cleanup fuel l = .ok (CF.cleanup fuel l) := by
  fun_induction CF.cleanup fuel l with
  | case1 fuel y rest ih =>
    rw [cleanup, if_pos rfl]
    simp only [absSum_cons] at hsum
    have := abs_nonneg y
    exact ih (fun v hv => hl v (by simp [hv])) (by simp at hsum; omega)
  | case2 fuel y rest h ih =>
    rw [cleanup, if_neg (by decide), if_pos rfl]
    have hy := hl y (by simp)
    simp only [absSum_cons, abs_one, abs_of_nonneg hy] at hsum
    have hn := absSum_nonneg rest
    unfold add
    rw [ret_ok (hS _ (by omega) (by omega))]
    refine ih ?_ (by rw [absSum_cons, abs_of_nonneg (by omega)]; omega)
    intro v hv
    rcases List.mem_cons.1 hv with rfl | hv
    · omega
    · exact hl v (by simp [hv])
  | case3 fuel x y rest h0 h1 => rw [cleanup, if_neg h0, if_neg h1]
  | case4 fuel l h => rw [cleanup.eq_2 _ _ _ h]

theorem new_nonneg {S : Int} (ht : t.Ok) (hS : t.WideNN S) (debug : Bool) (a p : List Int)
    (ha : ∀ v ∈ a, 0 ≤ v) (hsum : absSum a ≤ S) (hp : ∀ v ∈ p, t.Holds v) (hp0 : ∀ v ∈ p, 0 ≤ v) :
    t.new debug a p false = CF.new debug a p false := by
  rw [new_eq, cf_new_eq]
  split
  · rfl
  obtain ⟨h1, h2⟩ := newLoop_nonneg' hS debug a ⟨[], none, false⟩ trivial rfl ha (by rw [absSum_nil]; omega)
  rw [h1]
  cases hL : CF.newLoop debug ⟨[], none, false⟩ a with
  | error e => rfl
  | ok s =>
    have h3 := h2 s hL
    rw [absSum_nil] at h3
    have hs := newLoop_nil_stack debug a false s hL
    show t.newEnd p s = bigEnd p s
    refine newEnd_of_finish ht hs hp hp0
      (fun v hv => hS v (hs.all v hv) ?_) ?_
    · have := mem_le_absSum hv
      rw [abs_of_nonneg (hs.all v hv)] at this
      omega
    · unfold finish
      split
      · rw [cleanup_nonneg hS _ _ hs.all (by omega)]; rfl
      · rfl

end Prim

namespace Fx
open CF

variable {x : Fx}

theorem prim_ok (hw : 2 ≤ x.w) : x.prim.Ok := ⟨by show 1 ≤ x.w; omega, fun _ => hw⟩
theorem uns_ok (hw : 2 ≤ x.w) : x.uns.Ok := ⟨by show 1 ≤ x.w; omega, fun h => by cases h⟩

theorem prim_holds {v : Int} : x.prim.Holds v ↔ x.Holds v := Iff.rfl
theorem uns_holds {v : Int} : x.uns.Holds v ↔ 0 ≤ v ∧ v < 2 ^ x.w := Iff.rfl

theorem prim_wide (x : Fx) : x.prim.Wide (2 ^ (x.w - 1) - 1) := by
  intro v hv
  rw [abs_le] at hv
  rw [prim_holds]; unfold Holds
  omega

theorem castS_small {n : Nat} (h : (n : Int) < 2 ^ (x.w - 1)) : castS x.w n = n := by
  unfold castS; rw [if_pos h]

theorem castS_map {l : List Nat} (h : ∀ v ∈ l, ((v : Nat) : Int) < 2 ^ (x.w - 1)) :
    l.map (castS x.w) = l.map (fun n : Nat => (n : Int)) :=
  List.map_congr_left fun v hv => castS_small (h v hv)

theorem castU_of_nonneg (hw : 2 ≤ x.w) {v : Int} (h : x.Holds v) (h0 : 0 ≤ v) : castU x.w v = v.natAbs := by
  have := Prim.castU_nonneg (t := x.prim) (by show 1 ≤ x.w; omega) h h0
  show castU x.prim.w v = _
  rw [this]; omega

theorem castU_natCast {n : Nat} (h : n < 2 ^ x.w) : castU x.w (n : Int) = n := by
  unfold castU
  have : ((2 ^ x.w : Nat) : Int) = 2 ^ x.w := by push_cast; rfl
  rw [Int.emod_eq_of_lt (by omega) (by omega)]
  omega

/-- the magnitude of a negative number: exact, except that `MIN` panics with overflow checks -/
theorem neg_cast (hw : 2 ≤ x.w) {v : Int} (h : x.Holds v) (h0 : v < 0) (hm : x.checks = true → v ≠ -2 ^ (x.w - 1)) :
    ∃ m, x.neg v = .ok m ∧ castU x.w m = v.natAbs := by
  have hp : (2 : Int) ^ x.w = 2 * 2 ^ (x.w - 1) := Prim.pow_split (by omega)
  have hq := Prim.two_pow_pos (x.w - 1)
  unfold Holds at h
  by_cases hmin : v = -2 ^ (x.w - 1)
  · have hx : x.checks = false := by
      cases hc : x.checks
      · rfl
      · exact absurd hmin (hm hc)
    refine ⟨_, neg_wr hw hx v, ?_⟩
    have : x.wr (-v) = -2 ^ (x.w - 1) := by
      rw [wr_eq, hmin, neg_neg, ← two_mul, ← hp, Int.emod_self]; ring
    rw [this]
    unfold castU
    rw [show (-2 ^ (x.w - 1) : Int) = 2 ^ (x.w - 1) - 2 ^ x.w by omega, Int.sub_emod_right,
      Int.emod_eq_of_lt (by omega) (by omega)]
    omega
  · have hh : x.Holds (-v) := by unfold Holds; omega
    refine ⟨-v, Prim.ret_ok (t := x.prim) hh, ?_⟩
    rw [castU_of_nonneg hw hh (by omega)]
    omega

theorem neg_min (hc : x.checks = true) : x.neg (-2 ^ (x.w - 1)) = .error .overflow := by
  unfold neg ret
  rw [neg_neg, if_neg, if_pos hc]
  intro h
  have := fits_holds h
  unfold Holds at this
  omega

/-! ### integer shifts -/

/-- the first coefficient of a shifted fraction, and whether the sign flips -/
def bigShift (neg : Bool) (i : Nat) (rhs : Int) : Nat × Bool :=
  match neg, decide (rhs < 0) with
  | true, true => (rhs.natAbs + i, false)
  | true, false => if i < rhs.natAbs then (rhs.natAbs - i, true) else (i - rhs.natAbs, false)
  | false, true => if i < rhs.natAbs then (rhs.natAbs - i, true) else (i - rhs.natAbs, false)
  | false, false => (i + rhs.natAbs, false)

/-- the part of `Add<T>` after the case distinction -/
def shiftEnd (x : Fx) (debug : Bool) (c : CF) (rest : List Nat) (t : Nat × Bool) : Res CF :=
  if t.2 then do
    let h ← x.neg (castS x.w t.1)
    x.prim.new debug (h :: rest.map (castS x.w)) (c.p.map (castS x.w)) c.neg
  else
    let result : CF := ⟨t.1 :: rest, c.p, c.neg⟩
    return (if result.isZero then { result with neg := false } else result)

/-- the same over arbitrary-precision integers -/
def bigShiftEnd (debug : Bool) (c : CF) (rest : List Nat) (t : Nat × Bool) : Res CF :=
  if t.2 then
    CF.new debug (-(t.1 : Int) :: List.map (fun n : Nat => (n : Int)) rest)
      (List.map (fun n : Nat => (n : Int)) c.p) c.neg
  else
    let result : CF := ⟨t.1 :: rest, c.p, c.neg⟩
    .ok (if result.isZero then { result with neg := false } else result)

theorem addInt_eq (debug : Bool) {c : CF} {i : Nat} {rest : List Nat} (h : c.a = i :: rest) (rhs : Int) :
    x.addInt debug c rhs = x.shiftFirst c.neg i rhs >>= x.shiftEnd debug c rest := by
  unfold addInt; rw [h]; rfl

theorem cf_addInt_eq (debug : Bool) {c : CF} {i : Nat} {rest : List Nat} (h : c.a = i :: rest) (rhs : Int) :
    c.addInt debug rhs = bigShiftEnd debug c rest (bigShift c.neg i rhs) := by
  unfold CF.addInt; rw [h]; rfl

theorem uns_add {a b : Nat} (h : a + b < 2 ^ x.w) : x.uns.add a b = .ok ((a + b : Nat) : Int) := by
  have : ((2 ^ x.w : Nat) : Int) = 2 ^ x.w := by push_cast; rfl
  exact Prim.ret_ok (uns_holds.2 (by omega))

theorem uns_sub {a b : Nat} (h : b ≤ a) (ha : a < 2 ^ x.w) : x.uns.sub a b = .ok ((a - b : Nat) : Int) := by
  have : ((2 ^ x.w : Nat) : Int) = 2 ^ x.w := by push_cast; rfl
  have e : ((a - b : Nat) : Int) = a - b := by omega
  rw [e]
  exact Prim.ret_ok (uns_holds.2 (by omega))

theorem natAbs_lt (hw : 2 ≤ x.w) {v : Int} (h : x.Holds v) : v.natAbs < 2 ^ x.w := by
  have hp : (2 : Int) ^ x.w = 2 * 2 ^ (x.w - 1) := Prim.pow_split (by omega)
  have hq := Prim.two_pow_pos (x.w - 1)
  have : ((2 ^ x.w : Nat) : Int) = 2 ^ x.w := by push_cast; rfl
  unfold Holds at h
  omega

/-- the first coefficient, when the addition of two numbers of the same sign does not overflow -/
theorem shiftFirst_exact (hw : 2 ≤ x.w) {i : Nat} (hi : i < 2 ^ x.w) {rhs : Int} (hr : x.Holds rhs) (neg : Bool)
    (hm : x.checks = true → rhs ≠ -2 ^ (x.w - 1)) (hs : neg = decide (rhs < 0) → i + rhs.natAbs < 2 ^ x.w) :
    x.shiftFirst neg i rhs = .ok (bigShift neg i rhs) := by
  have hk := natAbs_lt hw hr
  unfold shiftFirst bigShift
  by_cases h0 : rhs < 0
  · obtain ⟨m, h1, h2⟩ := neg_cast hw hr h0 hm
    rw [decide_eq_true h0]
    cases neg
    · simp only
      rw [h1]
      show (if i < castU x.w m then _ else _) = _
      rw [h2]
      split
      · rw [uns_sub (by omega) hk]; rfl
      · rw [uns_sub (by omega) hi]; rfl
    · simp only
      rw [h1]
      show (x.uns.add ((castU x.w m : Nat) : Int) (i : Int) >>= _) = _
      rw [h2, uns_add (by have := hs (decide_eq_true h0).symm; omega)]; rfl
  · have h2 := castU_of_nonneg hw hr (by omega)
    rw [decide_eq_false h0]
    cases neg
    · simp only
      rw [h2, uns_add (hs (decide_eq_false h0).symm)]; rfl
    · simp only
      rw [h2]
      split
      · rw [uns_sub (by omega) hk]; rfl
      · rw [uns_sub (by omega) hi]; rfl

theorem uns_ret_ref {β : Type} (hc : x.checks = true) {v : Int} {f : Int → Res β} {b : Res β} (h : Refines (f v) b) :
    Refines (x.uns.ret v >>= f) b := Prim.ret_bind hc h

theorem shiftFirst_ref (hw : 2 ≤ x.w) (hc : x.checks = true) {i : Nat} (hi : i < 2 ^ x.w) {rhs : Int}
    (hr : x.Holds rhs) (neg : Bool) : Refines (x.shiftFirst neg i rhs) (.ok (bigShift neg i rhs)) := by
  by_cases hm : rhs = -2 ^ (x.w - 1)
  · right
    have h0 : rhs < 0 := by have := Prim.two_pow_pos (x.w - 1); omega
    unfold shiftFirst
    rw [decide_eq_true h0, hm]
    cases neg <;> simp only <;> rw [neg_min hc] <;> rfl
  · by_cases hs : neg = decide (rhs < 0) → i + rhs.natAbs < 2 ^ x.w
    · exact Or.inl (shiftFirst_exact hw hi hr neg (fun _ => hm) hs)
    · push Not at hs
      obtain ⟨rfl, hs⟩ := hs
      have hb : ∀ a b : Nat, 2 ^ x.w ≤ a + b → x.uns.add a b = .error .overflow := by
        intro a b hab
        have e : ((2 ^ x.w : Nat) : Int) = 2 ^ x.w := by push_cast; rfl
        unfold Prim.add Prim.ret
        rw [if_neg, if_pos (show x.uns.checks = true from hc)]
        intro h
        have := uns_holds.1 (Prim.fits_iff.1 h)
        omega
      right
      unfold shiftFirst
      by_cases h0 : rhs < 0
      · obtain ⟨m, h1, h2⟩ := neg_cast hw hr h0 (fun _ => hm)
        rw [decide_eq_true h0]
        simp only
        rw [h1]
        show (x.uns.add ((castU x.w m : Nat) : Int) (i : Int) >>= _) = _
        rw [h2, hb _ _ (by omega)]; rfl
      · rw [decide_eq_false h0]
        simp only
        rw [castU_of_nonneg hw hr (by omega), hb _ _ hs]; rfl

/-- a flipped first coefficient is small -/
theorem bigShift_flip {neg : Bool} {i : Nat} {rhs : Int} (h : (bigShift neg i rhs).2 = true) :
    (bigShift neg i rhs).1 ≤ rhs.natAbs ∧ 1 ≤ (bigShift neg i rhs).1 ∧
      (bigShift neg i rhs).1 + i = rhs.natAbs := by
  unfold bigShift at *
  cases neg <;> cases hd : decide (rhs < 0) <;> rw [hd] at h <;> simp only at h ⊢
  · cases h
  · split at h
    · rename_i hlt; rw [if_pos hlt]; exact ⟨by simp, by simp only; omega, by simp only; omega⟩
    · cases h
  · split at h
    · rename_i hlt; rw [if_pos hlt]; exact ⟨by simp, by simp only; omega, by simp only; omega⟩
    · cases h
  · cases h

theorem holds_natCast {n : Nat} (h : (n : Int) < 2 ^ (x.w - 1)) : x.Holds (n : Int) := by
  have := Prim.two_pow_pos (x.w - 1)
  unfold Holds; omega

theorem holds_negCast {n : Nat} (h : (n : Int) < 2 ^ (x.w - 1)) : x.Holds (-(n : Int)) := by
  have := Prim.two_pow_pos (x.w - 1)
  unfold Holds; omega

theorem addInt_ref (hw : 2 ≤ x.w) (hc : x.checks = true) (debug : Bool) {c : CF} (hf : c.Fits x.w) {rhs : Int}
    (hr : x.Holds rhs) (hsm : ∀ v ∈ c.a.tail ++ c.p, ((v : Nat) : Int) < 2 ^ (x.w - 1)) :
    Refines (x.addInt debug c rhs) (c.addInt debug rhs) := by
  match ha : c.a with
  | [] => unfold addInt CF.addInt; rw [ha]; exact .rfl'
  | i :: rest =>
    rw [ha] at hsm
    have hi : i < 2 ^ x.w := hf i (by rw [ha]; simp)
    rw [addInt_eq debug ha, cf_addInt_eq debug ha]
    by_cases hm : rhs = -2 ^ (x.w - 1)
    · -- the negation of `MIN` panics
      have h0 : rhs < 0 := by have := Prim.two_pow_pos (x.w - 1); omega
      have : x.shiftFirst c.neg i rhs = .error .overflow := by
        unfold shiftFirst
        rw [decide_eq_true h0, hm]
        cases c.neg <;> simp only <;> rw [neg_min hc] <;> rfl
      rw [this]; exact Or.inr rfl
    refine (shiftFirst_ref hw hc hi hr c.neg).bindOk ?_
    unfold shiftEnd bigShiftEnd
    split
    · rename_i hfl
      obtain ⟨h1, -, -⟩ := bigShift_flip hfl
      have hlt : (((bigShift c.neg i rhs).1 : Nat) : Int) < 2 ^ (x.w - 1) := by
        unfold Holds at hr
        omega
      rw [castS_small hlt]
      have hn : x.neg (((bigShift c.neg i rhs).1 : Nat) : Int) = .ok (-(((bigShift c.neg i rhs).1 : Nat) : Int)) :=
        Prim.ret_ok (t := x.prim) (holds_negCast hlt)
      rw [hn]
      show Refines
        (x.prim.new debug (-(((bigShift c.neg i rhs).1 : Nat) : Int) :: rest.map (castS x.w)) (c.p.map (castS x.w)) c.neg) _
      rw [castS_map (fun v hv => hsm v (by simp [hv])), castS_map (fun v hv => hsm v (by simp [hv]))]
      refine Prim.new_ref (prim_ok hw) hc debug _ _ _ ?_ ?_ ?_
      · intro v hv
        rcases List.mem_cons.1 hv with rfl | hv
        · exact holds_negCast hlt
        · obtain ⟨u, hu, rfl⟩ := List.mem_map.1 hv
          exact holds_natCast (hsm u (by simp [hu]))
      · intro v hv
        obtain ⟨u, hu, rfl⟩ := List.mem_map.1 hv
        exact holds_natCast (hsm u (by simp [hu]))
      · intro v hv
        obtain ⟨u, hu, rfl⟩ := List.mem_map.1 hv
        omega
    · exact .rfl'

/-- the sum of the coefficients -/
theorem absSum_toInts (l : List Nat) : absSum (l.map (fun n : Nat => (n : Int))) = (l.sum : Nat) := by
  induction l with
  | nil => rfl
  | cons v l ih =>
    rw [List.map_cons, Prim.absSum_cons, ih, List.sum_cons]
    push_cast
    rw [abs_of_nonneg (by omega)]

theorem addInt_exact (hw : 2 ≤ x.w) (debug : Bool) {c : CF} {rhs : Int}
    (hsum : ((c.a.sum : Nat) : Int) + |rhs| < 2 ^ (x.w - 1)) (hp : ∀ v ∈ c.p, ((v : Nat) : Int) < 2 ^ (x.w - 1)) :
    x.addInt debug c rhs = c.addInt debug rhs := by
  have hpw : (2 : Int) ^ x.w = 2 * 2 ^ (x.w - 1) := Prim.pow_split (by omega)
  have hq := Prim.two_pow_pos (x.w - 1)
  match ha : c.a with
  | [] => unfold addInt CF.addInt; rw [ha]
  | i :: rest =>
    rw [ha, List.sum_cons] at hsum
    have hab := Int.abs_eq_natAbs rhs
    have e : ((2 ^ x.w : Nat) : Int) = 2 ^ x.w := by push_cast; rfl
    have hr : x.Holds rhs := by unfold Holds; omega
    rw [addInt_eq debug ha, cf_addInt_eq debug ha,
      shiftFirst_exact hw (by omega) hr c.neg (fun _ => by omega) (fun _ => by omega)]
    show x.shiftEnd _ _ _ _ = _
    unfold shiftEnd bigShiftEnd
    split
    · rename_i hfl
      obtain ⟨h1, -, -⟩ := bigShift_flip hfl
      have hlt : (((bigShift c.neg i rhs).1 : Nat) : Int) < 2 ^ (x.w - 1) := by omega
      rw [castS_small hlt]
      have hn : x.neg (((bigShift c.neg i rhs).1 : Nat) : Int) = .ok (-(((bigShift c.neg i rhs).1 : Nat) : Int)) :=
        Prim.ret_ok (t := x.prim) (holds_negCast hlt)
      rw [hn]
      show x.prim.new debug (-(((bigShift c.neg i rhs).1 : Nat) : Int) :: rest.map (castS x.w)) (c.p.map (castS x.w)) c.neg = _
      have hrest : ∀ v ∈ rest, ((v : Nat) : Int) < 2 ^ (x.w - 1) := by
        intro v hv
        have := List.single_le_sum (fun _ _ => Nat.zero_le _) v hv
        omega
      rw [castS_map hrest, castS_map hp]
      refine Prim.new_exact (prim_ok hw) (prim_wide x) debug _ _ _ ?_ ?_ ?_
      · rw [Prim.absSum_cons, abs_neg, absSum_toInts, abs_of_nonneg (by omega)]
        omega
      · intro v hv
        obtain ⟨u, hu, rfl⟩ := List.mem_map.1 hv
        exact holds_natCast (hp u hu)
      · intro v hv
        obtain ⟨u, hu, rfl⟩ := List.mem_map.1 hv
        omega
    · rfl

/-! ### the smallest number -/

theorem ret_min (hw : 2 ≤ x.w) (hc : x.checks = false) : x.prim.ret (2 ^ (x.w - 1)) = .ok (-2 ^ (x.w - 1)) := by
  have hp : (2 : Int) ^ x.w = 2 * 2 ^ (x.w - 1) := Prim.pow_split (by omega)
  have := ret_wr hw hc (2 ^ (x.w - 1))
  rw [show x.wr (2 ^ (x.w - 1)) = -2 ^ (x.w - 1) by
    rw [wr_eq, ← two_mul, ← hp, Int.emod_self]; ring] at this
  exact this

theorem sub_min (hw : 2 ≤ x.w) (hc : x.checks = false) : x.prim.sub 0 (-2 ^ (x.w - 1)) = .ok (-2 ^ (x.w - 1)) := by
  unfold Prim.sub
  rw [zero_sub, neg_neg, ret_min hw hc]

theorem castU_min (hw : 2 ≤ x.w) : castU x.w (-2 ^ (x.w - 1)) = 2 ^ (x.w - 1) := by
  have hp : (2 : Int) ^ x.w = 2 * 2 ^ (x.w - 1) := Prim.pow_split (by omega)
  have hq := Prim.two_pow_pos (x.w - 1)
  have e : ((2 ^ (x.w - 1) : Nat) : Int) = 2 ^ (x.w - 1) := by push_cast; rfl
  unfold castU
  rw [show (-2 ^ (x.w - 1) : Int) = 2 ^ (x.w - 1) - 2 ^ x.w by omega, Int.sub_emod_right,
    Int.emod_eq_of_lt (by omega) (by omega)]
  omega

end Fx
end NumIrr
