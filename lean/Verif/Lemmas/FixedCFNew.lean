/-
`ContinuedFraction::new` over primitive integers: refinement of the arbitrary-precision constructor, representability of
the result, and absence of overflow when the sum of the absolute values is representable.
-/
import Verif.Lemmas.FixedRel
import Verif.Lemmas.FixedHolds
import Verif.Lemmas.CFNewFin
import Mathlib.Algebra.BigOperators.Group.List.Basic

namespace NumIrr
namespace Prim
open CF

variable {t : Prim}

/-- a representable range: `0` and `1` are in it -/
def Ok (t : Prim) : Prop := 1 ≤ t.w ∧ (t.sg = true → 2 ≤ t.w)

theorem fits_iff {n : Int} : t.ty.fits n = true ↔ t.Holds n := by
  unfold ty Holds
  cases t.sg <;> simp [IntTy.signed, IntTy.unsigned]

theorem pow_split {w : Nat} (hw : 1 ≤ w) : (2 : Int) ^ w = 2 * 2 ^ (w - 1) := by
  rw [← pow_succ', Nat.sub_add_cancel hw]

theorem two_pow_pos (w : Nat) : (0 : Int) < 2 ^ w := by positivity

theorem wrap_holds (ht : t.Ok) (n : Int) : t.Holds (t.ty.wrap n) := by
  have hp := pow_split ht.1
  have h0 := two_pow_pos (t.w - 1)
  unfold Holds ty
  cases t.sg
  · simp only [Bool.false_eq_true, if_false, IntTy.unsigned]
    exact ⟨Int.emod_nonneg _ (by omega), Int.emod_lt_of_pos _ (by omega)⟩
  · simp only [if_true, IntTy.signed]
    have h1 := Int.emod_nonneg (n + 2 ^ (t.w - 1)) (show (2 : Int) ^ t.w ≠ 0 by omega)
    have h2 := Int.emod_lt_of_pos (n + 2 ^ (t.w - 1)) (show (0 : Int) < 2 ^ t.w by omega)
    omega

theorem holds_zero (ht : t.Ok) : t.Holds 0 := by
  have h0 := two_pow_pos (t.w - 1)
  have hp := pow_split ht.1
  unfold Holds
  split <;> omega

theorem holds_one (ht : t.Ok) : t.Holds 1 := by
  have h0 := two_pow_pos (t.w - 1)
  have hp := pow_split ht.1
  unfold Holds
  split
  · rename_i h
    have := ht.2 h
    have hp2 : (2 : Int) ^ (t.w - 1) = 2 * 2 ^ (t.w - 1 - 1) := pow_split (by omega)
    have := two_pow_pos (t.w - 1 - 1)
    omega
  · omega

theorem ret_holds (ht : t.Ok) (v : Int) : Ens (t.ret v) t.Holds := by
  unfold ret
  split
  · rename_i h; exact Ens.pure (fits_iff.1 h)
  · split
    · exact Ens.err
    · exact Ens.pure (wrap_holds ht v)

theorem ret_ref (hc : t.checks = true) (v : Int) : Refines (t.ret v) (.ok v) := by
  unfold ret
  rw [hc]
  split
  · exact Or.inl rfl
  · exact Or.inr rfl

theorem ret_bind {β : Type} (hc : t.checks = true) {v : Int} {f : Int → Res β} {b : Res β} (h : Refines (f v) b) :
    Refines (t.ret v >>= f) b := (ret_ref hc v).bindOk h

theorem ret_ok {v : Int} (h : t.Holds v) : t.ret v = .ok v := by
  unfold ret; rw [if_pos (fits_iff.2 h)]

/-- the same type without overflow checks -/
def rel (t : Prim) : Prim := ⟨t.w, t.sg, false⟩

theorem ret_rel (hc : t.checks = true) (v : Int) : Refines (t.ret v) (t.rel.ret v) := by
  unfold ret
  rw [hc]
  by_cases h : t.ty.fits v = true
  · have h' : t.rel.ty.fits v = true := h
    rw [if_pos h, if_pos h']; exact .rfl'
  · rw [if_neg h]; exact Or.inr rfl

/-! ### refinement -/

theorem propagate_ref (hc : t.checks = true) (debug : Bool) (ng : Option Bool) (neg : Bool) (st : List Int)
    (u : Int) : Refines (t.propagate debug ng neg st u) (CF.propagate debug ng neg st u) := by
  fun_induction CF.propagate debug ng neg st u with
  | case1 => exact .rfl'
  | case2 am1 u h => rw [propagate, if_pos h]; exact .rfl'
  | case3 u h =>
    rw [propagate, if_neg h, if_pos rfl]
    refine ret_bind hc (ret_bind hc ?_)
    rw [zero_sub]; exact .rfl'
  | case4 u h =>
    rw [propagate, if_neg h, if_neg (by decide), if_pos rfl]
    refine ret_bind hc ?_
    rw [zero_sub]; exact .rfl'
  | case5 am1 u h h1 h0 h2 => rw [propagate, if_neg h, if_neg h1, if_neg h0, if_pos h2]; exact .rfl'
  | case6 am1 u h h1 h0 h2 =>
    rw [propagate, if_neg h, if_neg h1, if_neg h0, if_neg h2]
    refine ret_bind hc (ret_bind hc (ret_bind hc ?_))
    rw [zero_sub]; exact .rfl'
  | case7 am1 am2 rest u h => rw [propagate, if_pos h]; exact .rfl'
  | case8 am2 rest u h =>
    rw [propagate, if_neg h, if_pos rfl]
    refine ret_bind hc (ret_bind hc (ret_bind hc ?_))
    rw [zero_sub]; exact .rfl'
  | case9 am2 rest u hlt h h1 ih =>
    rw [propagate, if_neg h, if_neg (by decide), if_pos rfl]
    rcases ret_ref hc (am2 + u) with hr | hr
    · unfold add; rw [hr]; simp only; rw [if_pos hlt]; exact ih
    · unfold add; rw [hr]; exact Or.inr rfl
  | case10 am2 rest u hlt h h1 =>
    rw [propagate, if_neg h, if_neg (by decide), if_pos rfl]
    rcases ret_ref hc (am2 + u) with hr | hr
    · unfold add; rw [hr]; simp only; rw [if_neg hlt]; exact .rfl'
    · unfold add; rw [hr]; exact Or.inr rfl
  | case11 am1 am2 rest u h h1 h0 h2 => rw [propagate, if_neg h, if_neg h1, if_neg h0, if_pos h2]; exact .rfl'
  | case12 am1 am2 rest u h h1 h0 h2 =>
    rw [propagate, if_neg h, if_neg h1, if_neg h0, if_neg h2]
    refine ret_bind hc (ret_bind hc (ret_bind hc ?_))
    rw [zero_sub]; exact .rfl'

theorem newStep_ref (hc : t.checks = true) (debug : Bool) (s : NewSt) (a : Int) :
    Refines (t.newStep debug s a) (CF.newStep debug s a) := by
  have key : ∀ e : Int, Refines (t.newPush debug s e) (match s.stack with
    | [] =>
      if e < 0 then .ok ⟨[0 - e], some true, !s.negate⟩
      else .ok ⟨[e], if e = 0 then s.negative else some false, s.negate⟩
    | top :: rest =>
      if e = 0 then
        if top = 0 then .ok { s with stack := rest }
        else .ok { s with stack := e :: top :: rest }
      else if e < 0 then CF.propagate debug s.negative s.negate (top :: rest) e
      else
        match rest with
        | am2 :: rest' =>
          if top = 0 then .ok { s with stack := (am2 + e) :: rest' }
          else .ok ⟨e :: top :: am2 :: rest', if s.negative = none then some false else s.negative, s.negate⟩
        | [] => .ok ⟨[e, top], if s.negative = none then some false else s.negative, s.negate⟩) := by
    intro e
    unfold newPush
    match s.stack with
    | [] =>
      simp only
      split
      · exact ret_bind hc .rfl'
      · exact .rfl'
    | top :: rest =>
      simp only
      split
      · exact .rfl'
      · split
        · exact propagate_ref hc _ _ _ _ _
        · match rest with
          | [] => exact .rfl'
          | am2 :: rest' =>
            simp only
            split
            · exact ret_bind hc .rfl'
            · exact .rfl'
  unfold newStep applyNegate CF.newStep
  cases hn : s.negate
  · have := key a
    rw [hn] at this
    exact this
  · simp only [if_true]
    refine ret_bind hc ?_
    have := key (0 - a)
    rw [hn] at this
    exact this

theorem newLoop_ref (hc : t.checks = true) (debug : Bool) (as : List Int) (s : NewSt) :
    Refines (t.newLoop debug s as) (CF.newLoop debug s as) := by
  induction as generalizing s with
  | nil => exact .rfl'
  | cons a as ih =>
    rw [newLoop, CF.newLoop]
    exact (newStep_ref hc debug s a).bind fun v _ => ih v

theorem cleanup_ref (hc : t.checks = true) (fuel : Nat) (l : List Int) :
    Refines (t.cleanup fuel l) (.ok (CF.cleanup fuel l)) := by
  fun_induction CF.cleanup fuel l with
  | case1 fuel y rest ih => rw [cleanup, if_pos rfl]; exact ih
  | case2 fuel y rest h ih => rw [cleanup, if_neg (by decide), if_pos rfl]; exact ret_bind hc ih
  | case3 fuel x y rest h0 h1 => rw [cleanup, if_neg h0, if_neg h1]; exact .rfl'
  | case4 fuel l h =>
    rw [cleanup.eq_2 _ _ _ h]
    exact .rfl'

theorem finish_ref (hc : t.checks = true) (s : NewSt) (b : Bool) :
    Refines (t.finish s b) (.ok (if b = true then
      ⟨CF.cleanup s.stack.length s.stack,
        if CF.cleanup s.stack.length s.stack = [0] then some false else s.negative, s.negate⟩ else s)) := by
  unfold finish
  cases b
  · exact .rfl'
  · simp only [if_true]
    exact (cleanup_ref hc _ _).bindOk .rfl'

/-! ### representability -/

theorem propagate_holds (ht : t.Ok) (debug : Bool) (ng : Option Bool) (neg : Bool) (st : List Int)
    (u : Int) (hst : ∀ v ∈ st, t.Holds v) :
    Ens (t.propagate debug ng neg st u) (fun s => ∀ v ∈ s.stack, t.Holds v) := by
  have h0 := holds_zero ht
  have h1 := holds_one ht
  fun_induction propagate t debug ng neg st u with
  | case1 => exact Ens.err
  | case2 => exact Ens.err
  | case3 u h =>
    refine Ens.bind (ret_holds ht _) fun a _ => Ens.bind (ret_holds ht _) fun b hb => Ens.pure ?_
    simp [hb, h0, h1]
  | case4 u h =>
    refine Ens.bind (ret_holds ht _) fun a ha => Ens.pure ?_
    simp [ha, h0]
  | case5 => exact Ens.err
  | case6 am1 u h h1 h0 h2 =>
    refine Ens.bind (ret_holds ht _) fun m hm => Ens.bind (ret_holds ht _) fun a _ =>
      Ens.bind (ret_holds ht _) fun b hb => Ens.pure ?_
    simp [*]
  | case7 => exact Ens.err
  | case8 am2 rest u h =>
    refine Ens.bind (ret_holds ht _) fun m hm => Ens.bind (ret_holds ht _) fun a _ =>
      Ens.bind (ret_holds ht _) fun b hb => Ens.pure ?_
    simp only [List.mem_cons, forall_eq_or_imp] at hst ⊢
    exact ⟨hb, hm, hst.2.2⟩
  | case9 => exact Ens.err
  | case10 am2 rest u h h1 v hv hlt ih => exact ih (fun w hw => hst w (by simp [hw]))
  | case11 am2 rest u =>
    refine Ens.pure ?_
    simp only [List.mem_cons, forall_eq_or_imp] at hst ⊢
    exact ⟨ret_holds ht _ _ (by assumption), hst.2.2⟩
  | case12 => exact Ens.err
  | case13 am1 am2 rest u h h1 h0 h2 =>
    refine Ens.bind (ret_holds ht _) fun m hm => Ens.bind (ret_holds ht _) fun a _ =>
      Ens.bind (ret_holds ht _) fun b hb => Ens.pure ?_
    simp only [List.mem_cons, forall_eq_or_imp] at hst ⊢
    exact ⟨hb, holds_one ht, hm, hst.2.1, hst.2.2⟩

theorem newStep_holds (ht : t.Ok) (debug : Bool) (s : NewSt) (a : Int) (hs : ∀ v ∈ s.stack, t.Holds v)
    (ha : t.Holds a) : Ens (t.newStep debug s a) (fun s => ∀ v ∈ s.stack, t.Holds v) := by
  unfold newStep
  refine Ens.bind (P := t.Holds) ?_ fun e he => ?_
  · unfold applyNegate
    split
    · exact ret_holds ht _
    · exact Ens.pure ha
  · unfold newPush
    match hst : s.stack with
    | [] =>
      simp only
      split
      · exact Ens.bind (ret_holds ht _) fun b hb => Ens.pure (by simp [hb])
      · exact Ens.pure (by simp [he])
    | top :: rest =>
      rw [hst] at hs
      simp only
      split
      · split
        · exact Ens.pure (fun v hv => hs v (by simp [hv]))
        · exact Ens.pure (by
            simp only [List.mem_cons, forall_eq_or_imp] at hs ⊢
            exact ⟨he, hs⟩)
      · split
        · exact propagate_holds ht _ _ _ _ _ hs
        · match rest, hs with
          | [], hs => exact Ens.pure (by
              simp only [List.mem_cons, forall_eq_or_imp] at hs ⊢
              exact ⟨he, hs⟩)
          | am2 :: rest', hs =>
            simp only [List.mem_cons, forall_eq_or_imp] at hs
            simp only
            split
            · refine Ens.bind (ret_holds ht _) fun b hb => Ens.pure ?_
              simp only [List.mem_cons, forall_eq_or_imp]
              exact ⟨hb, hs.2.2⟩
            · refine Ens.pure ?_
              simp only [List.mem_cons, forall_eq_or_imp]
              exact ⟨he, hs⟩

theorem newLoop_holds (ht : t.Ok) (debug : Bool) (as : List Int) (s : NewSt) (hs : ∀ v ∈ s.stack, t.Holds v)
    (ha : ∀ v ∈ as, t.Holds v) : Ens (t.newLoop debug s as) (fun s => ∀ v ∈ s.stack, t.Holds v) := by
  induction as generalizing s with
  | nil => exact Ens.pure hs
  | cons a as ih =>
    rw [newLoop]
    exact Ens.bind (newStep_holds ht debug s a hs (ha a (by simp))) fun s' hs' =>
      ih s' hs' (fun v hv => ha v (by simp [hv]))

theorem cleanup_holds (ht : t.Ok) (fuel : Nat) (l : List Int) (hl : ∀ v ∈ l, t.Holds v) :
    Ens (t.cleanup fuel l) (fun l => ∀ v ∈ l, t.Holds v) := by
  fun_induction cleanup t fuel l with
  | case1 fuel y rest ih => exact ih (fun v hv => hl v (by simp [hv]))
  | case2 fuel y rest h ih =>
    refine Ens.bind (ret_holds ht _) fun b hb => ih b ?_
    simp only [List.mem_cons, forall_eq_or_imp] at hl ⊢
    exact ⟨hb, hl.2.2⟩
  | case3 => exact Ens.pure hl
  | case4 => exact Ens.pure hl

theorem finish_holds (ht : t.Ok) (s : NewSt) (b : Bool) (hs : ∀ v ∈ s.stack, t.Holds v) :
    Ens (t.finish s b) (fun s => ∀ v ∈ s.stack, t.Holds v) := by
  unfold finish
  split
  · exact Ens.bind (cleanup_holds ht _ _ hs) fun l hl => Ens.pure hl
  · exact Ens.pure hs

theorem castU_lt (w : Nat) (v : Int) : castU w v < 2 ^ w := by
  have h := Int.emod_lt_of_pos v (two_pow_pos w)
  have h' := Int.emod_nonneg v (show (2 : Int) ^ w ≠ 0 from (two_pow_pos w).ne')
  unfold castU
  have : ((2 ^ w : Nat) : Int) = 2 ^ w := by push_cast; rfl
  omega

theorem castU_nonneg {v : Int} (ht : 1 ≤ t.w) (h : t.Holds v) (h0 : 0 ≤ v) : castU t.w v = v.toNat := by
  have hp := pow_split ht
  have hq := two_pow_pos (t.w - 1)
  unfold castU
  rw [Int.emod_eq_of_lt h0]
  unfold Holds at h
  split at h <;> omega

theorem map_castU (ht : 1 ≤ t.w) (l : List Int) (h : ∀ v ∈ l, t.Holds v) (h0 : ∀ v ∈ l, 0 ≤ v) :
    toUnsignedAll l = .ok (l.map (castU t.w)) := by
  rw [toUnsignedAll_ok l h0]
  congr 1
  apply List.map_congr_left
  intro v hv
  exact (castU_nonneg ht (h v hv) (h0 v hv)).symm

/-! ### the whole constructor -/

/-- `new` after its loop -/
def newEnd (t : Prim) (p : List Int) (s : NewSt) : Res CF :=
  if s.stack.length = 0 ∧ p.length = 0 then .error .noCoeff
  else do
    let s ← t.finish s (p.length = 0)
    let negative ← finalSign s.negative s.negate p
    return ⟨s.stack.reverse.map (castU t.w), p.map (castU t.w), negative⟩

/-- the end of the arbitrary-precision constructor -/
def bigEnd (p : List Int) (s : NewSt) : Res CF :=
  if s.stack.length = 0 ∧ p.length = 0 then .error .noCoeff
  else
    let s : NewSt :=
      if p.length = 0 then
        let st := CF.cleanup s.stack.length s.stack
        ⟨st, if st = [0] then some false else s.negative, s.negate⟩
      else s
    do
    let negative ← finalSign s.negative s.negate p
    let a' ← toUnsignedAll s.stack.reverse
    let p' ← toUnsignedAll p
    return ⟨a', p', negative⟩

theorem new_eq (t : Prim) (debug : Bool) (a p : List Int) (n : Bool) : t.new debug a p n =
    if a.length = 0 ∧ p.length = 0 then .error .noCoeff
    else t.newLoop debug ⟨[], none, n⟩ a >>= t.newEnd p := rfl

theorem cf_new_eq (debug : Bool) (a p : List Int) (n : Bool) : CF.new debug a p n =
    if a.length = 0 ∧ p.length = 0 then .error .noCoeff
    else CF.newLoop debug ⟨[], none, n⟩ a >>= bigEnd p := rfl

/-- the end of `new` when the clean-up does what it should -/
theorem newEnd_of_finish (ht : t.Ok) {p : List Int} {s : NewSt} (hs : SInv s.stack) (hp : ∀ v ∈ p, t.Holds v)
    (hp0 : ∀ v ∈ p, 0 ≤ v) (hst : ∀ v ∈ s.stack, t.Holds v)
    (hf : t.finish s (p.length = 0) = .ok (if (decide (p.length = 0)) = true then
      ⟨CF.cleanup s.stack.length s.stack,
        if CF.cleanup s.stack.length s.stack = [0] then some false else s.negative, s.negate⟩ else s)) :
    t.newEnd p s = bigEnd p s := by
  unfold newEnd bigEnd
  split
  · rfl
  have hh := finish_holds ht s (p.length = 0) hst _ hf
  rw [hf]
  simp only [decide_eq_true_eq] at hh ⊢
  show (finalSign _ _ p >>= _) = _
  by_cases hpl : p.length = 0
  · rw [if_pos hpl] at hh ⊢
    dsimp only at hh ⊢
    have hc := cleanup_inv _ _ le_rfl hs
    rw [map_castU ht.1 _ (fun v hv => hh v (List.mem_reverse.1 hv)) (fun v hv => hc.all v (List.mem_reverse.1 hv)),
      map_castU ht.1 p hp hp0]
    cases finalSign (if CF.cleanup s.stack.length s.stack = [0] then some false else s.negative) s.negate p <;> rfl
  · rw [if_neg hpl] at hh ⊢
    rw [map_castU ht.1 _ (fun v hv => hh v (List.mem_reverse.1 hv)) (fun v hv => hs.all v (List.mem_reverse.1 hv)),
      map_castU ht.1 p hp hp0]
    cases finalSign s.negative s.negate p <;> rfl

theorem new_ref (ht : t.Ok) (hc : t.checks = true) (debug : Bool) (a p : List Int) (n : Bool)
    (ha : ∀ v ∈ a, t.Holds v) (hp : ∀ v ∈ p, t.Holds v) (hp0 : ∀ v ∈ p, 0 ≤ v) :
    Refines (t.new debug a p n) (CF.new debug a p n) := by
  rw [new_eq, cf_new_eq]
  split
  · exact .rfl'
  have hH := newLoop_holds ht debug a ⟨[], none, n⟩ (by simp) ha
  rcases newLoop_ref hc debug a ⟨[], none, n⟩ with hl | hl
  · rw [← hl]
    cases hL : t.newLoop debug ⟨[], none, n⟩ a with
    | error e => exact .rfl'
    | ok s =>
      show Refines (t.newEnd p s) (bigEnd p s)
      have hst := hH s hL
      have hs : SInv s.stack := newLoop_nil_stack debug a n s (by rw [← hl]; exact hL)
      rcases finish_ref hc s (p.length = 0) with hf | hf
      · exact Or.inl (newEnd_of_finish ht hs hp hp0 hst hf)
      · unfold newEnd bigEnd
        split
        · exact .rfl'
        · rw [hf]; exact Or.inr rfl
  · rw [hl]; exact Or.inr rfl

theorem new_holds (t : Prim) (debug : Bool) (a p : List Int) (n : Bool) :
    Ens (t.new debug a p n) (fun c => c.Fits t.w) := by
  rw [new_eq]
  split
  · exact Ens.err
  refine Ens.bind Ens.triv fun s _ => ?_
  unfold newEnd
  split
  · exact Ens.err
  refine Ens.bind Ens.triv fun s _ => Ens.bind Ens.triv fun b _ => Ens.pure ?_
  intro v hv
  simp only [List.mem_append, List.mem_map] at hv
  rcases hv with ⟨u, -, rfl⟩ | ⟨u, -, rfl⟩ <;> exact castU_lt _ _

/-! ### builds with and without overflow checks -/

theorem propagate_rel (hc : t.checks = true) (debug : Bool) (ng : Option Bool) (neg : Bool) (st : List Int)
    (u : Int) : Refines (t.propagate debug ng neg st u) (t.rel.propagate debug ng neg st u) := by
  have hr := ret_rel hc
  fun_induction propagate t debug ng neg st u with
  | case1 => exact .rfl'
  | case2 am1 u h => rw [propagate, if_pos h]; exact .rfl'
  | case3 u h =>
    rw [propagate, if_neg h, if_pos rfl]
    exact (hr _).bind fun _ _ => (hr _).bind fun _ _ => .rfl'
  | case4 u h =>
    rw [propagate, if_neg h, if_neg (by decide), if_pos rfl]
    exact (hr _).bind fun _ _ => .rfl'
  | case5 am1 u h h1 h0 h2 => rw [propagate, if_neg h, if_neg h1, if_neg h0, if_pos h2]; exact .rfl'
  | case6 am1 u h h1 h0 h2 =>
    rw [propagate, if_neg h, if_neg h1, if_neg h0, if_neg h2]
    exact (hr _).bind fun _ _ => (hr _).bind fun _ _ => (hr _).bind fun _ _ => .rfl'
  | case7 am1 am2 rest u h => rw [propagate, if_pos h]; exact .rfl'
  | case8 am2 rest u h =>
    rw [propagate, if_neg h, if_pos rfl]
    exact (hr _).bind fun _ _ => (hr _).bind fun _ _ => (hr _).bind fun _ _ => .rfl'
  | case9 am2 rest u e he h h1 =>
    rcases hr (am2 + u) with h' | h'
    · rw [propagate, if_neg h, if_neg (by decide), if_pos rfl]
      unfold add at he ⊢
      rw [← h', he]; exact .rfl'
    · unfold add at he
      rw [h'] at he
      cases he
      exact Or.inr rfl
  | case10 am2 rest u v hv hlt h h1 ih =>
    rcases hr (am2 + u) with h' | h'
    · rw [propagate, if_neg h, if_neg (by decide), if_pos rfl]
      unfold add at hv ⊢
      rw [← h', hv]
      simp only
      rw [if_pos hlt]; exact ih
    · unfold add at hv
      rw [h'] at hv
      cases hv
  | case11 am2 rest u v hv hlt h h1 =>
    rcases hr (am2 + u) with h' | h'
    · rw [propagate, if_neg h, if_neg (by decide), if_pos rfl]
      unfold add at hv ⊢
      rw [← h', hv]
      simp only
      rw [if_neg hlt]; exact .rfl'
    · unfold add at hv
      rw [h'] at hv
      cases hv
  | case12 am1 am2 rest u h h1 h0 h2 => rw [propagate, if_neg h, if_neg h1, if_neg h0, if_pos h2]; exact .rfl'
  | case13 am1 am2 rest u h h1 h0 h2 =>
    rw [propagate, if_neg h, if_neg h1, if_neg h0, if_neg h2]
    exact (hr _).bind fun _ _ => (hr _).bind fun _ _ => (hr _).bind fun _ _ => .rfl'

theorem newStep_rel (hc : t.checks = true) (debug : Bool) (s : NewSt) (a : Int) :
    Refines (t.newStep debug s a) (t.rel.newStep debug s a) := by
  have hr := ret_rel hc
  unfold newStep
  refine Refines.bind ?_ fun e _ => ?_
  · unfold applyNegate
    split
    · exact hr _
    · exact .rfl'
  · unfold newPush
    match s.stack with
    | [] =>
      simp only
      split
      · exact (hr _).bind fun _ _ => .rfl'
      · exact .rfl'
    | top :: rest =>
      simp only
      split
      · exact .rfl'
      · split
        · exact propagate_rel hc _ _ _ _ _
        · match rest with
          | [] => exact .rfl'
          | am2 :: rest' =>
            simp only
            split
            · exact (hr _).bind fun _ _ => .rfl'
            · exact .rfl'

theorem newLoop_rel (hc : t.checks = true) (debug : Bool) (as : List Int) (s : NewSt) :
    Refines (t.newLoop debug s as) (t.rel.newLoop debug s as) := by
  induction as generalizing s with
  | nil => exact .rfl'
  | cons a as ih =>
    rw [newLoop, newLoop]
    exact (newStep_rel hc debug s a).bind fun v _ => ih v

theorem cleanup_rel (hc : t.checks = true) (fuel : Nat) (l : List Int) :
    Refines (t.cleanup fuel l) (t.rel.cleanup fuel l) := by
  fun_induction cleanup t fuel l with
  | case1 fuel y rest ih => rw [cleanup, if_pos rfl]; exact ih
  | case2 fuel y rest h ih =>
    rw [cleanup, if_neg (by decide), if_pos rfl]
    exact (ret_rel hc _).bind fun u _ => ih u
  | case3 fuel x y rest h0 h1 => rw [cleanup, if_neg h0, if_neg h1]; exact .rfl'
  | case4 fuel l h => rw [cleanup.eq_2 _ _ _ h]; exact .rfl'

theorem new_rel (hc : t.checks = true) (debug : Bool) (a p : List Int) (n : Bool) :
    Refines (t.new debug a p n) (t.rel.new debug a p n) := by
  rw [new_eq, new_eq]
  split
  · exact .rfl'
  refine (newLoop_rel hc debug a _).bind fun s _ => ?_
  unfold newEnd
  split
  · exact .rfl'
  refine Refines.bind ?_ fun s _ => Refines.bind .rfl' fun b _ => .rfl'
  unfold finish
  split
  · exact (cleanup_rel hc _ _).bind fun l _ => .rfl'
  · exact .rfl'

/-! ### no overflow -/

theorem absSum_cons (v : Int) (l : List Int) : absSum (v :: l) = |v| + absSum l := by simp [absSum]
theorem absSum_nil : absSum [] = 0 := rfl
theorem absSum_nonneg (l : List Int) : 0 ≤ absSum l := by
  induction l with
  | nil => simp [absSum]
  | cons v l ih => rw [absSum_cons]; have := abs_nonneg v; omega

/-- every number of absolute value at most `S` is representable -/
def Wide (t : Prim) (S : Int) : Prop := ∀ v : Int, |v| ≤ S → t.Holds v

theorem Wide.ret {S : Int} (h : t.Wide S) {v : Int} (hv : |v| ≤ S) : t.ret v = .ok v := ret_ok (h v hv)

theorem propagate_exact {S : Int} (hS : t.Wide S) (debug : Bool) (ng : Option Bool) (neg : Bool) (st : List Int)
    (u : Int) (hu : u < 0) (hst : SInv st) (hsum : absSum st + |u| ≤ S) :
    t.propagate debug ng neg st u = CF.propagate debug ng neg st u ∧
      Ens (CF.propagate debug ng neg st u) (fun s => absSum s.stack ≤ absSum st + |u|) := by
  have hr : ∀ v : Int, |v| ≤ S → t.ret v = .ok v := fun v => hS.ret
  fun_induction CF.propagate debug ng neg st u with
  | case1 => exact ⟨rfl, Ens.err⟩
  | case2 am1 u h => rw [propagate, if_pos h]; exact ⟨rfl, Ens.err⟩
  | case3 u h =>
    simp only [absSum_cons, absSum_nil, abs_of_neg hu, abs_one] at hsum
    rw [propagate, if_neg h, if_pos rfl]
    unfold sub
    rw [hr _ (abs_le.2 ⟨by omega, by omega⟩)]
    show (t.ret _ >>= _) = _ ∧ _
    rw [hr _ (abs_le.2 ⟨by omega, by omega⟩)]
    refine ⟨by rw [zero_sub]; rfl, Ens.pure ?_⟩
    simp only [absSum_cons, absSum_nil, abs_of_neg hu]
    rw [abs_of_nonneg (show 0 ≤ -u - 1 by omega)]
    simp
  | case4 u h =>
    simp only [absSum_cons, absSum_nil, abs_of_neg hu, abs_zero] at hsum
    rw [propagate, if_neg h, if_neg (by decide), if_pos rfl]
    unfold sub
    rw [hr _ (abs_le.2 ⟨by omega, by omega⟩)]
    refine ⟨by rw [zero_sub]; rfl, Ens.pure ?_⟩
    simp [absSum_cons, absSum_nil]
  | case5 am1 u h h1 h0 h2 => rw [propagate, if_neg h, if_neg h1, if_neg h0, if_pos h2]; exact ⟨rfl, Ens.err⟩
  | case6 am1 u h h1 h0 h2 =>
    have hp := hst.1
    simp only [absSum_cons, absSum_nil, abs_of_neg hu, abs_of_nonneg hp] at hsum
    rw [propagate, if_neg h, if_neg h1, if_neg h0, if_neg h2]
    unfold sub
    rw [hr _ (abs_le.2 ⟨by omega, by omega⟩), hr _ (abs_le.2 ⟨by omega, by omega⟩)]
    show (t.ret _ >>= _) = _ ∧ _
    rw [hr _ (abs_le.2 ⟨by omega, by omega⟩)]
    refine ⟨by rw [zero_sub]; rfl, Ens.pure ?_⟩
    simp only [absSum_cons, absSum_nil, abs_of_neg hu, abs_of_nonneg hp]
    rw [abs_of_nonneg (show 0 ≤ -u - 1 by omega), abs_of_nonneg (show 0 ≤ am1 - 1 by omega)]
    simp
    omega
  | case7 am1 am2 rest u h => rw [propagate, if_pos h]; exact ⟨rfl, Ens.err⟩
  | case8 am2 rest u h =>
    have hp := hst.2.nonneg
    have hn := absSum_nonneg rest
    simp only [absSum_cons, abs_of_neg hu, abs_of_nonneg hp, abs_one] at hsum
    rw [propagate, if_neg h, if_pos rfl]
    unfold sub add
    rw [hr _ (abs_le.2 ⟨by omega, by omega⟩), hr _ (abs_le.2 ⟨by omega, by omega⟩)]
    show (t.ret _ >>= _) = _ ∧ _
    rw [hr _ (abs_le.2 ⟨by omega, by omega⟩)]
    refine ⟨by rw [zero_sub]; rfl, Ens.pure ?_⟩
    simp only [absSum_cons, abs_of_neg hu, abs_of_nonneg hp, abs_one]
    rw [abs_of_nonneg (show 0 ≤ -u - 1 by omega), abs_of_nonneg (show 0 ≤ am2 + 1 by omega)]
    omega
  | case9 am2 rest u hlt h h1 ih =>
    have hp := hst.2.nonneg
    have hn := absSum_nonneg rest
    simp only [absSum_cons, abs_of_neg hu, abs_of_nonneg hp, abs_zero] at hsum
    rw [propagate, if_neg h, if_neg (by decide), if_pos rfl]
    unfold add
    rw [hr _ (abs_le.2 ⟨by omega, by omega⟩)]
    simp only
    rw [if_pos hlt]
    obtain ⟨h2, h3⟩ := ih hlt hst.2.tail.sinv (by rw [abs_of_neg hlt]; omega)
    refine ⟨h2, fun s hs => (h3 s hs).trans ?_⟩
    simp only [absSum_cons, abs_of_neg hu, abs_of_nonneg hp, abs_zero, abs_of_neg hlt]
    omega
  | case10 am2 rest u hlt h h1 =>
    have hp := hst.2.nonneg
    have hn := absSum_nonneg rest
    simp only [absSum_cons, abs_of_neg hu, abs_of_nonneg hp, abs_zero] at hsum
    rw [propagate, if_neg h, if_neg (by decide), if_pos rfl]
    unfold add
    rw [hr _ (abs_le.2 ⟨by omega, by omega⟩)]
    simp only
    rw [if_neg hlt]
    refine ⟨rfl, Ens.pure ?_⟩
    simp only [absSum_cons, abs_of_neg hu, abs_of_nonneg hp, abs_zero]
    rw [abs_of_nonneg (show 0 ≤ am2 + u by omega)]
    omega
  | case11 am1 am2 rest u h h1 h0 h2 =>
    rw [propagate, if_neg h, if_neg h1, if_neg h0, if_pos h2]; exact ⟨rfl, Ens.err⟩
  | case12 am1 am2 rest u h h1 h0 h2 =>
    have hp := hst.1
    have hp2 := hst.2.nonneg
    have hn := absSum_nonneg rest
    simp only [absSum_cons, abs_of_neg hu, abs_of_nonneg hp, abs_of_nonneg hp2] at hsum
    rw [propagate, if_neg h, if_neg h1, if_neg h0, if_neg h2]
    unfold sub
    rw [hr _ (abs_le.2 ⟨by omega, by omega⟩), hr _ (abs_le.2 ⟨by omega, by omega⟩)]
    show (t.ret _ >>= _) = _ ∧ _
    rw [hr _ (abs_le.2 ⟨by omega, by omega⟩)]
    refine ⟨by rw [zero_sub]; rfl, Ens.pure ?_⟩
    simp only [absSum_cons, abs_of_neg hu, abs_of_nonneg hp, abs_of_nonneg hp2, abs_one]
    rw [abs_of_nonneg (show 0 ≤ -u - 1 by omega), abs_of_nonneg (show 0 ≤ am1 - 1 by omega)]
    omega

theorem abs_eff (n : Bool) (a : Int) : |if n = true then 0 - a else a| = |a| := by
  cases n <;> simp

theorem newStep_exact {S : Int} (hS : t.Wide S) (debug : Bool) (s : NewSt) (a : Int) (hst : SInv s.stack)
    (hsum : absSum s.stack + |a| ≤ S) :
    t.newStep debug s a = CF.newStep debug s a ∧
      Ens (CF.newStep debug s a) (fun s' => absSum s'.stack ≤ absSum s.stack + |a|) := by
  have hr : ∀ v : Int, |v| ≤ S → t.ret v = .ok v := fun v => hS.ret
  have hnn := absSum_nonneg s.stack
  have happ : t.applyNegate s.negate a = .ok (if s.negate then 0 - a else a) := by
    unfold applyNegate
    split
    · unfold sub; rw [hr _ (by rw [zero_sub, abs_neg]; omega)]
    · rfl
  have hab := abs_eff s.negate a
  unfold newStep CF.newStep
  rw [happ]
  show t.newPush debug s _ = _ ∧ _
  rw [← hab] at hsum ⊢
  clear hab happ
  generalize (if s.negate = true then 0 - a else a) = e at hsum ⊢
  unfold newPush
  match hs : s.stack, hst, hsum with
  | [], hst, hsum =>
    simp only
    rw [absSum_nil] at hsum ⊢
    split
    · unfold sub
      rw [hr _ (by rw [zero_sub, abs_neg]; omega)]
      exact ⟨rfl, Ens.pure (by simp [absSum])⟩
    · exact ⟨rfl, Ens.pure (by simp [absSum])⟩
  | top :: rest, hst, hsum =>
    simp only
    have hn := absSum_nonneg rest
    rw [absSum_cons] at hsum ⊢
    split
    · split
      · exact ⟨rfl, Ens.pure (by have := abs_nonneg top; have := abs_nonneg e; simp only; omega)⟩
      · exact ⟨rfl, Ens.pure (by simp only [absSum_cons]; omega)⟩
    · split
      · rename_i h
        have := propagate_exact hS debug s.negative s.negate (top :: rest) e h hst (by rw [absSum_cons]; exact hsum)
        rw [absSum_cons] at this
        exact this
      · match rest, hst, hn, hsum with
        | [], hst, hn, hsum =>
          exact ⟨rfl, Ens.pure (by simp only [absSum_cons, absSum_nil]; omega)⟩
        | am2 :: rest', hst, hn, hsum =>
          simp only
          rw [absSum_cons] at hsum hn ⊢
          have hn' := absSum_nonneg rest'
          have h1 := abs_add_le am2 e
          have h2 := abs_nonneg top
          split
          · unfold add
            rw [hr _ (by omega)]
            exact ⟨rfl, Ens.pure (by simp only [absSum_cons]; omega)⟩
          · exact ⟨rfl, Ens.pure (by simp only [absSum_cons]; omega)⟩

theorem newLoop_exact {S : Int} (hS : t.Wide S) (debug : Bool) (as : List Int) (s : NewSt) (hst : SInv s.stack)
    (hsum : absSum s.stack + absSum as ≤ S) :
    t.newLoop debug s as = CF.newLoop debug s as ∧
      Ens (CF.newLoop debug s as) (fun s' => absSum s'.stack ≤ absSum s.stack + absSum as) := by
  induction as generalizing s with
  | nil => exact ⟨rfl, Ens.pure (by simp [absSum_nil])⟩
  | cons a as ih =>
    rw [absSum_cons] at hsum ⊢
    have hn := absSum_nonneg as
    obtain ⟨h1, h2⟩ := newStep_exact hS debug s a hst (by omega)
    rw [newLoop, CF.newLoop, h1]
    cases hs : CF.newStep debug s a with
    | error e => exact ⟨rfl, Ens.err⟩
    | ok s1 =>
      have h3 := h2 s1 hs
      obtain ⟨h4, h5⟩ := ih s1 (newStep_inv debug s a s1 hst hs) (by omega)
      exact ⟨h4, fun s' hs' => (h5 s' hs').trans (by omega)⟩

theorem cleanup_exact {S : Int} (hS : t.Wide S) (fuel : Nat) (l : List Int) (hsum : absSum l ≤ S) :
    t.cleanup fuel l = .ok (CF.cleanup fuel l) := by
  fun_induction CF.cleanup fuel l with
  | case1 fuel y rest ih =>
    rw [cleanup, if_pos rfl]
    simp only [absSum_cons] at hsum
    have := abs_nonneg y
    exact ih (by simp at hsum; omega)
  | case2 fuel y rest h ih =>
    rw [cleanup, if_neg (by decide), if_pos rfl]
    simp only [absSum_cons, abs_one] at hsum
    have hn := absSum_nonneg rest
    have h1 := abs_add_le y 1
    rw [abs_one] at h1
    unfold add
    rw [hS.ret (by omega)]
    exact ih (by rw [absSum_cons]; omega)
  | case3 fuel x y rest h0 h1 => rw [cleanup, if_neg h0, if_neg h1]
  | case4 fuel l h => rw [cleanup.eq_2 _ _ _ h]

theorem mem_le_absSum {l : List Int} {v : Int} (h : v ∈ l) : |v| ≤ absSum l := by
  induction l with
  | nil => cases h
  | cons u l ih =>
    rw [absSum_cons]
    rcases List.mem_cons.1 h with rfl | h
    · have := absSum_nonneg l; omega
    · have := ih h; have := abs_nonneg u; omega

theorem new_exact {S : Int} (ht : t.Ok) (hS : t.Wide S) (debug : Bool) (a p : List Int) (n : Bool)
    (hsum : absSum a ≤ S) (hp : ∀ v ∈ p, t.Holds v) (hp0 : ∀ v ∈ p, 0 ≤ v) :
    t.new debug a p n = CF.new debug a p n := by
  rw [new_eq, cf_new_eq]
  split
  · rfl
  obtain ⟨h1, h2⟩ := newLoop_exact hS debug a ⟨[], none, n⟩ trivial (by rw [absSum_nil]; omega)
  rw [h1]
  cases hL : CF.newLoop debug ⟨[], none, n⟩ a with
  | error e => rfl
  | ok s =>
    have h3 := h2 s hL
    rw [absSum_nil] at h3
    show t.newEnd p s = bigEnd p s
    refine newEnd_of_finish ht (newLoop_nil_stack debug a n s hL) hp hp0
      (fun v hv => hS v ((mem_le_absSum hv).trans (by omega))) ?_
    unfold finish
    split
    · rw [cleanup_exact hS _ _ (by omega)]; rfl
    · rfl

end Prim
end NumIrr
