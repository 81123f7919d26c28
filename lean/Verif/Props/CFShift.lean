/-
C31: negation and integer shifts of continued fractions.
-/
import Verif.Lemmas.CFShift
import Verif.Props.CFNew

namespace NumIrr
namespace CF

/-- Negation is exact and keeps the form of the fraction. -/
theorem cf_neg (c : CF) (x : ℝ) (hx : c.HasVal x) :
    c.neg'.HasVal (-x) ∧ (c.Wf → c.neg'.Wf) ∧ (c.Std → c.neg'.Std) := by
  unfold neg'
  by_cases hz : c.isZero = true
  · rw [if_pos hz]
    have hz' : c.a = [0] ∧ c.p = [] := by simpa [isZero] using hz
    obtain ⟨q, h1, rfl⟩ := (hasVal_finite hz'.2).1 hx
    unfold valQ at h1
    rw [hz'.1] at h1
    have hq : q = 0 := by
      simp [toInts, cfVal] at h1
      rw [← h1]; cases c.neg <;> simp [signed]
    subst hq
    refine ⟨?_, id, id⟩
    simpa using hx
  · rw [if_neg hz]
    refine ⟨?_, id, ?_⟩
    · obtain ⟨y, hy, rfl⟩ := hx
      refine ⟨y, hy, ?_⟩
      cases c.neg <;> simp [signed]
    · rintro ⟨h1, h2⟩
      refine ⟨h1, fun hp => ?_⟩
      obtain ⟨k1, k2, k3, k4, k5⟩ := h2 hp
      refine ⟨k1, k2, k3, k4, fun h0 => ?_⟩
      exact absurd (by simp [isZero]; exact ⟨h0, hp⟩) hz

example : Std ⟨[1], [2], false⟩ ∧ (neg' ⟨[1], [2], false⟩) = ⟨[1], [2], true⟩ := ⟨⟨by simp [Wf], by simp⟩, rfl⟩

private theorem canonical_head {i j : Nat} {rest p : List Nat} {b b' : Bool} (h : Canonical ⟨i :: rest, p, b⟩)
    (h0 : j :: rest = [0] → b' = false) : Canonical ⟨j :: rest, p, b'⟩ := by
  obtain ⟨h1, h2, h3, h4, h5⟩ := h
  refine ⟨h1, by simp, h3, ?_, h0⟩
  intro hr
  simp only [List.tail_cons] at hr h4
  have := h4 hr
  match rest, hr, this with
  | r :: rs, _, this => simpa using this

/-- `c + k` is exact, except when the integer part changes its sign (`a₀ ± k < 0`) and
* the fraction is periodic with a single aperiodic coefficient, or
* the fraction is positive with more than one coefficient and `a₀ + k = -1`.
The result is canonical if the operand is finite and canonical, and well-formed except when the integer part changes
its sign and the aperiodic part of a periodic operand is `[a₀; 1]`.
Missing: the excluded cases, where the claim is false (`cf_addInt_wrong`, `cf_addInt_not_wf`). -/
theorem cf_addInt_partial (debug : Bool) (c : CF) (h : c.Wf) (x : ℝ) (hx : c.HasVal x) (k : Int)
    (hA : ((c.a.headD 0 : Nat) : Int) + signed c.neg k < 0 → ¬ (c.p ≠ [] ∧ c.a.length = 1))
    (hB : ¬ (c.neg = false ∧ 2 ≤ c.a.length ∧ ((c.a.headD 0 : Nat) : Int) + k = -1)) :
    ∃ c', c.addInt debug k = .ok c' ∧ c'.HasVal (x + k) ∧ (c.Std → c.p = [] → c'.Std) ∧
      ((((c.a.headD 0 : Nat) : Int) + signed c.neg k < 0 → c.p ≠ [] → c.a.tail ≠ [1]) → c'.Wf) := by
  obtain ⟨y, hy, rfl⟩ := hx
  obtain ⟨a, p, n⟩ := c
  match a, h with
  | i :: rest, h =>
    simp only [List.headD_cons, List.length_cons, List.tail_cons] at *
    have hrest : ∀ v ∈ rest, 1 ≤ v := h.2.1
    have hper : ∀ v ∈ p, 1 ≤ v := h.2.2
    have hxk : ∀ z : ℝ, z = y + ((signed n k : Int) : ℝ) → signed n y + k = signed n z := by
      rintro z rfl
      cases n
      · simp [signed]
      · simp only [signed, if_true]; push_cast; ring
    by_cases hflip : ((i : Nat) : Int) + signed n k < 0
    · -- the integer part changes its sign
      have hA' := hA hflip
      have hT : addInt debug ⟨i :: rest, p, n⟩ k =
          new debug (-(k.natAbs - i : Int) :: toInts rest) (toInts p) n := by
        unfold addInt
        cases n with
        | false =>
          simp only [signed, Bool.false_eq_true, if_false] at hflip
          have hk : decide (k < 0) = true := by simp; omega
          simp only [hk]
          rw [if_pos (show i < k.natAbs by omega)]
          simp only [if_true]
          rw [Nat.cast_sub (by omega)]
          rfl
        | true =>
          simp only [signed, if_true] at hflip
          have hk : decide (k < 0) = false := by simp; omega
          simp only [hk]
          rw [if_pos (show i < k.natAbs by omega)]
          simp only [if_true]
          rw [Nat.cast_sub (by omega)]
          rfl
      obtain ⟨t, htdef⟩ : ∃ t : Int, t = (k.natAbs - i : Int) := ⟨_, rfl⟩
      have hki : (signed n k : Int) = -(k.natAbs : Int) := by
        cases n
        · simp only [signed, Bool.false_eq_true, if_false] at *; omega
        · simp only [signed, if_true] at *; omega
      have ht : 1 ≤ t := by omega
      have hz : ValOf (-t :: toInts rest) (toInts p) (y + ((signed n k : Int) : ℝ)) := by
        have := valOf_shift (i := ((i : Nat) : Int)) (r := toInts rest) hy (-t)
        have e : y + (((-t : Int) : ℝ) - (((i : Nat) : Int) : ℝ)) = y + ((signed n k : Int) : ℝ) := by
          rw [htdef, hki]; push_cast; ring
        rw [e] at this
        exact this
      rw [hT, ← htdef]
      have hppos : ∀ v ∈ toInts p, 1 ≤ v := by
        intro v hv
        obtain ⟨u, hu, rfl⟩ := List.mem_map.1 hv
        exact_mod_cast hper u hu
      match rest, hrest, hz, hA', hB, h, hy with
      | [], hrest, hz, hA', hB, h, hy =>
        -- an integer
        have hp : p = [] := by
          by_contra hp
          exact hA' ⟨hp, by simp⟩
        subst hp
        simp only [toInts, List.map_nil] at hz ⊢
        have h1 : newStep debug ⟨[], none, n⟩ (-t) = .ok ⟨[t], some (!n), true⟩ := by
          unfold newStep
          cases n
          · simp only [Bool.false_eq_true, if_false]
            rw [if_pos (by omega)]
            simp
          · simp only [if_true]
            rw [if_neg (by omega)]
            simp only [zero_sub, neg_neg]
            rw [if_neg (by omega)]
            rfl
        obtain ⟨c', k1, k2, k3, k4, -⟩ := new_of_loop debug [-t] [] n (!n) ⟨[t], some (!n), true⟩
          (by rw [newLoop, h1]; rfl) (by simp) rfl (by simp)
        have hv : ValOf [t] [] (t : ℝ) := ⟨t, by simp [cfVal], by simp⟩
        have hv' : ValOf [-t] [] (-t : ℝ) := ⟨-t, by simp [cfVal], by simp⟩
        have hzt := valOf_unique hz hv'
        have hcan : c'.Canonical := k4 rfl ⟨t, hv⟩
        refine ⟨c', k1, ?_, fun _ _ => ⟨hcan.wf, fun _ => hcan⟩, fun _ => hcan.wf⟩
        rw [hxk _ rfl, hzt]
        have := k3 _ hv
        cases n <;> simpa [signed] using this
      | v :: more, hrest, hz, hA', hB, h, hy =>
        obtain ⟨c', k1, k2, k3, k4, k5⟩ := new_flip debug t ht v (by exact_mod_cast hrest v (by simp)) (toInts more) (toInts p)
          (by
            intro u hu
            obtain ⟨w, hw, rfl⟩ := List.mem_map.1 hu
            exact_mod_cast hrest w (by simp [hw])) hppos n
        have hnB : ¬ (n = false ∧ t = 1) := by
          rintro ⟨rfl, ht1⟩
          refine hB ⟨rfl, by simp, ?_⟩
          simp only [signed, Bool.false_eq_true, if_false] at hki
          omega
        have hval := k3 _ hz
        rw [if_neg hnB] at hval
        refine ⟨c', k1, by rw [hxk _ rfl]; exact hval, ?_, ?_⟩
        · intro _ hp
          subst hp
          have hcan := k4 rfl ⟨_, hz⟩
          exact ⟨hcan.wf, fun _ => hcan⟩
        · intro hw
          by_cases hp : p = []
          · subst hp
            exact (k4 rfl ⟨_, hz⟩).wf
          · refine k5 (toInts_ne_nil hp) ?_
            rintro ⟨hv1, hm0⟩
            refine hw hflip hp ?_
            have : v = 1 := by exact_mod_cast hv1
            have : more = [] := by
              by_contra hm
              exact toInts_ne_nil hm hm0
            simp [*]
    · -- the integer part keeps its sign
      obtain ⟨j, hj⟩ : ∃ j : Nat, (j : Int) = (i : Int) + signed n k := ⟨((i : Int) + signed n k).toNat, by omega⟩
      have hT : addInt debug ⟨i :: rest, p, n⟩ k =
          .ok (if isZero ⟨j :: rest, p, n⟩ then ⟨j :: rest, p, false⟩ else ⟨j :: rest, p, n⟩) := by
        unfold addInt
        cases n with
        | false =>
          simp only [signed, Bool.false_eq_true, if_false] at hflip hj
          by_cases hk : k < 0
          · have hk' : decide (k < 0) = true := by simpa using hk
            simp only [hk']
            rw [if_neg (show ¬ i < k.natAbs by omega)]
            have : i - k.natAbs = j := by omega
            simp only [this, Bool.false_eq_true, if_false]
          · have hk' : decide (k < 0) = false := by simpa using hk
            simp only [hk']
            have : i + k.natAbs = j := by omega
            simp only [this, Bool.false_eq_true, if_false]
        | true =>
          simp only [signed, if_true] at hflip hj
          by_cases hk : k < 0
          · have hk' : decide (k < 0) = true := by simpa using hk
            simp only [hk']
            have : k.natAbs + i = j := by omega
            simp only [this, Bool.false_eq_true, if_false]
          · have hk' : decide (k < 0) = false := by simpa using hk
            simp only [hk']
            rw [if_neg (show ¬ i < k.natAbs by omega)]
            have : i - k.natAbs = j := by omega
            simp only [this, Bool.false_eq_true, if_false]
      have hv : ValOf (toInts (j :: rest)) (toInts p) (y + ((signed n k : Int) : ℝ)) := by
        have := valOf_shift (i := ((i : Nat) : Int)) (r := toInts rest) hy ((j : Nat) : Int)
        have e : y + ((((j : Nat) : Int) : ℝ) - (((i : Nat) : Int) : ℝ)) = y + ((signed n k : Int) : ℝ) := by
          rw [hj]; push_cast; ring
        rw [e] at this
        exact this
      rw [hT, hxk _ rfl]
      by_cases hz : isZero ⟨j :: rest, p, n⟩ = true
      · rw [if_pos hz]
        have hz' : j = 0 ∧ rest = [] ∧ p = [] := by simpa [isZero, and_assoc] using hz
        obtain ⟨rfl, rfl, rfl⟩ := hz'
        have hcan : Canonical ⟨[0], [], false⟩ := canonical_of_canL (show CanL [0] from trivial) (fun _ => rfl)
        refine ⟨_, rfl, ?_, fun _ _ => ⟨hcan.wf, fun _ => hcan⟩, fun _ => hcan.wf⟩
        have h0 : y + ((signed n k : Int) : ℝ) = 0 := valOf_unique hv ⟨0, by simp [toInts, cfVal], by simp⟩
        rw [h0]
        exact ⟨0, ⟨0, by simp [toInts, cfVal], by simp⟩, by cases n <;> simp [signed]⟩
      · rw [if_neg hz]
        have hwf : Wf ⟨j :: rest, p, n⟩ := ⟨by simp, hrest, hper⟩
        refine ⟨_, rfl, ⟨_, hv, rfl⟩, fun hs hp => ⟨hwf, fun _ => canonical_head (hs.2 hp) ?_⟩, fun _ => hwf⟩
        intro h0
        exact absurd (by simp [isZero, hp]; simpa using h0) hz

example : Std ⟨[2, 3], [], true⟩ ∧ addInt true ⟨[2, 3], [], true⟩ 5 = .ok ⟨[2, 1, 2], [], false⟩ ∧
    addInt true ⟨[1, 1], [1, 2], false⟩ (-5) = .ok ⟨[3, 1, 0], [1, 2], true⟩ := by
  refine ⟨⟨by simp [Wf], fun _ => canonical_of_canL (by simp [CanL]) (by simp)⟩, by decide +kernel, by decide +kernel⟩

/-- The same for `c - k`. -/
theorem cf_subInt_partial (debug : Bool) (c : CF) (h : c.Wf) (x : ℝ) (hx : c.HasVal x) (k : Int)
    (hA : ((c.a.headD 0 : Nat) : Int) - signed c.neg k < 0 → ¬ (c.p ≠ [] ∧ c.a.length = 1))
    (hB : ¬ (c.neg = false ∧ 2 ≤ c.a.length ∧ ((c.a.headD 0 : Nat) : Int) - k = -1)) :
    ∃ c', c.subInt debug k = .ok c' ∧ c'.HasVal (x - k) ∧ (c.Std → c.p = [] → c'.Std) ∧
      ((((c.a.headD 0 : Nat) : Int) - signed c.neg k < 0 → c.p ≠ [] → c.a.tail ≠ [1]) → c'.Wf) := by
  have e : (signed c.neg (-k) : Int) = - signed c.neg k := by cases c.neg <;> simp [signed]
  have := cf_addInt_partial debug c h x hx (-k) (by rw [e, ← sub_eq_add_neg]; exact hA)
    (by rw [← sub_eq_add_neg]; exact hB)
  rw [e, ← sub_eq_add_neg] at this
  obtain ⟨c', h1, h2, h3⟩ := this
  refine ⟨c', h1, ?_, h3⟩
  push_cast at h2
  rw [sub_eq_add_neg]
  exact h2
example : Wf ⟨[2, 3], [], true⟩ ∧ subInt true ⟨[2, 3], [], true⟩ (-5) = .ok ⟨[2, 1, 2], [], false⟩ :=
  ⟨by simp [Wf], by decide +kernel⟩

/-- In the excluded cases the result is wrong, for every fraction in standard form. -/
theorem cf_addInt_wrong (debug : Bool) (c : CF) (h : c.Std) (x : ℝ) (hx : c.HasVal x) (k : Int)
    (hbad : (((c.a.headD 0 : Nat) : Int) + signed c.neg k < 0 ∧ c.p ≠ [] ∧ c.a.length = 1) ∨
      (c.neg = false ∧ 2 ≤ c.a.length ∧ ((c.a.headD 0 : Nat) : Int) + k = -1)) :
    ∃ c', c.addInt debug k = .ok c' ∧ ∃ x', c'.HasVal x' ∧ x' ≠ x + k := by
  obtain ⟨y, hy, rfl⟩ := hx
  obtain ⟨a, p, n⟩ := c
  have hwf := h.1
  match a, h, hwf with
  | i :: rest, h, hwf =>
    simp only [List.headD_cons, List.length_cons] at *
    have hrest : ∀ v ∈ rest, 1 ≤ v := hwf.2.1
    have hper : ∀ v ∈ p, 1 ≤ v := hwf.2.2
    have hflip : ((i : Nat) : Int) + signed n k < 0 := by
      rcases hbad with ⟨h1, -⟩ | ⟨rfl, -, h1⟩
      · exact h1
      · simp only [signed, Bool.false_eq_true, if_false]; omega
    have hT : addInt debug ⟨i :: rest, p, n⟩ k =
        new debug (-(k.natAbs - i : Int) :: toInts rest) (toInts p) n := by
      unfold addInt
      cases n with
      | false =>
        simp only [signed, Bool.false_eq_true, if_false] at hflip
        have hk : decide (k < 0) = true := by simp; omega
        simp only [hk]
        rw [if_pos (show i < k.natAbs by omega)]
        simp only [if_true]
        rw [Nat.cast_sub (by omega)]
        rfl
      | true =>
        simp only [signed, if_true] at hflip
        have hk : decide (k < 0) = false := by simp; omega
        simp only [hk]
        rw [if_pos (show i < k.natAbs by omega)]
        simp only [if_true]
        rw [Nat.cast_sub (by omega)]
        rfl
    obtain ⟨t, htdef⟩ : ∃ t : Int, t = (k.natAbs - i : Int) := ⟨_, rfl⟩
    have hki : (signed n k : Int) = -(k.natAbs : Int) := by
      cases n
      · simp only [signed, Bool.false_eq_true, if_false] at *; omega
      · simp only [signed, if_true] at *; omega
    have ht : 1 ≤ t := by omega
    have hz : ValOf (-t :: toInts rest) (toInts p) (y + ((signed n k : Int) : ℝ)) := by
      have := valOf_shift (i := ((i : Nat) : Int)) (r := toInts rest) hy (-t)
      have e : y + (((-t : Int) : ℝ) - (((i : Nat) : Int) : ℝ)) = y + ((signed n k : Int) : ℝ) := by
        rw [htdef, hki]; push_cast; ring
      rw [e] at this
      exact this
    have hxk : signed n y + k = signed n (y + ((signed n k : Int) : ℝ)) := by
      cases n
      · simp [signed]
      · simp only [signed, if_true]; push_cast; ring
    have hppos : ∀ v ∈ toInts p, 1 ≤ v := by
      intro v hv
      obtain ⟨u, hu, rfl⟩ := List.mem_map.1 hv
      exact_mod_cast hper u hu
    rw [hT, ← htdef, hxk]
    match rest, hrest, hz, hbad, h, hy with
    | [], hrest, hz, hbad, h, hy =>
      have hp : p ≠ [] := by
        rcases hbad with ⟨-, h1, -⟩ | ⟨-, h1, -⟩
        · exact h1
        · simp at h1
      have h1 : newStep debug ⟨[], none, n⟩ (-t) = .ok ⟨[t], some (!n), true⟩ := by
        unfold newStep
        cases n
        · simp only [Bool.false_eq_true, if_false]
          rw [if_pos (by omega)]
          simp
        · simp only [if_true]
          rw [if_neg (by omega)]
          simp only [zero_sub, neg_neg]
          rw [if_neg (by omega)]
          rfl
      obtain ⟨c', k1, k2, k3, -, -⟩ := new_of_loop debug [-t] (toInts p) n (!n) ⟨[t], some (!n), true⟩
        (by rw [newLoop, h1]; rfl) (by simp) rfl hppos
      simp only [toInts, List.map_nil] at hz ⊢
      have hz2 := valOf_shift hz t
      obtain ⟨z, hzd⟩ : ∃ z, z = y + ((signed n k : Int) : ℝ) := ⟨_, rfl⟩
      rw [← hzd] at hz hz2 ⊢
      refine ⟨c', k1, _, k3 _ hz2, ?_⟩
      -- the fractional part is not zero
      intro he
      have hpne : toInts p ≠ [] := toInts_ne_nil hp
      obtain ⟨u, hu, hirr⟩ := valOf_exists [-t] (toInts p) hpne hppos
      have hzu := valOf_unique hz hu
      rw [← hzu] at hirr
      have : z = ((-t : Int) : ℝ) := by
        cases n
        · simp only [signed, Bool.not_false, if_true, Bool.false_eq_true, if_false] at he
          push_cast at he ⊢
          linarith
        · simp only [signed, Bool.not_true, if_true, Bool.false_eq_true, if_false] at he
          push_cast at he ⊢
          linarith
      exact hirr.ne_int _ this
    | v :: more, hrest, hz, hbad, h, hy =>
      have hB : n = false ∧ ((i : Nat) : Int) + k = -1 := by
        rcases hbad with ⟨-, -, h1⟩ | ⟨h1, -, h2⟩
        · simp at h1
        · exact ⟨h1, h2⟩
      obtain ⟨rfl, hik⟩ := hB
      have ht1 : t = 1 := by omega
      obtain ⟨c', k1, k2, k3, -, -⟩ := new_flip debug t ht v (by exact_mod_cast hrest v (by simp)) (toInts more) (toInts p)
        (by
          intro u hu
          obtain ⟨w, hw, rfl⟩ := List.mem_map.1 hu
          exact_mod_cast hrest w (by simp [hw])) hppos false
      have hval := k3 _ hz
      rw [if_pos ⟨rfl, ht1⟩] at hval
      refine ⟨c', k1, _, hval, ?_⟩
      simp only [signed, Bool.false_eq_true, if_false]
      intro he
      have hz0 : y + (k : ℝ) = 0 := by linarith
      -- then the fraction is an integer
      have hk : y = ((-k : Int) : ℝ) := by push_cast; linarith
      by_cases hp : p = []
      · subst hp
        have hcan := h.2 rfl
        obtain ⟨q, g1, g2, g3, g4⟩ := canL_val hcan.canL
        obtain ⟨q', g5, g6⟩ := hy
        simp only at g1 g5
        rw [g1] at g5
        have := Option.some.inj g5
        subst this
        rw [g6] at hk
        have hq : q = ((-k : Int) : Rat) := by exact_mod_cast hk
        simp only [List.headD_cons] at g2 g3 g4
        have : q = ((i : Nat) : Rat) + 1 := by
          rw [hq]
          have : -k = (i : Int) + 1 := by omega
          rw [this]; push_cast; ring
        linarith
      · have hs := wf_posSeq hwf hp
        have := (valOf_iff (toInts_ne_nil hp) hs).1 hy
        exact (cfLim_irrational hs).ne_int _ (this ▸ hk)
example : Std ⟨[1], [2], false⟩ ∧ ((([1] : List Nat).headD 0 : Nat) : Int) + signed false (-3) < 0 ∧
    addInt true ⟨[1], [2], false⟩ (-3) = .ok ⟨[2], [2], true⟩ :=
  ⟨⟨by simp [Wf], by simp⟩, by decide, by decide +kernel⟩

/-- Concrete failures: `1/4 - 1 = +3/4` and `√2 - 2 = -√2`. -/
theorem cf_addInt_refuted (debug : Bool) :
    (subInt debug ⟨[0, 4], [], false⟩ 1 = .ok ⟨[0, 1, 3], [], false⟩ ∧ valQ ⟨[0, 4], [], false⟩ = some (1 / 4) ∧
      valQ ⟨[0, 1, 3], [], false⟩ = some (3 / 4)) ∧
    subInt debug ⟨[1], [2], false⟩ 2 = .ok ⟨[1], [2], true⟩ := by
  cases debug <;> refine ⟨⟨by decide +kernel, by decide +kernel, by decide +kernel⟩, by decide +kernel⟩

/-- The result can be ill-formed: `[0; 1, (2)] - 2` has the aperiodic part `[1; 1, 0]`. -/
theorem cf_addInt_not_wf (debug : Bool) : Wf ⟨[0, 1], [2], false⟩ ∧
    subInt debug ⟨[0, 1], [2], false⟩ 2 = .ok ⟨[1, 1, 0], [2], true⟩ ∧ ¬ Wf ⟨[1, 1, 0], [2], true⟩ := by
  refine ⟨by simp [Wf], by cases debug <;> decide +kernel, by simp [Wf]⟩

end CF
end NumIrr
