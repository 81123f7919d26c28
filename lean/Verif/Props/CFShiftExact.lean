/-
C31: what adding an integer to a finite continued fraction does, in all cases.
-/
import Verif.Props.CFShift
import Verif.Props.CFRat

namespace NumIrr
namespace CF

/-- what `c + k` gives: the sum, but with the sign lost where a positive number becomes one between -1 and 0 -/
def shiftQ (q : ℚ) (k : ℤ) : ℚ := if 0 < q ∧ -1 < q + k ∧ q + k < 0 then -(q + k) else q + k

private theorem ofRat_of_val {w : CF} (h : w.Canonical) {q : ℚ} (hv : w.HasVal q) : w = CF.ofRat q := by
  obtain ⟨r, h1, h2, h3⟩ := cf_toRational_finite w h.wf h.1
  have : r = q := by exact_mod_cast HasVal.unique h3 hv
  rw [← cf_ofRat_toRational w h r h1, this]

/-- where a positive fraction passes below zero by less than one, the sign is lost -/
private theorem sign_lost (debug : Bool) (i v : Nat) (more : List Nat) (h : Canonical ⟨i :: v :: more, [], false⟩) (y : ℝ)
    (hy : HasVal ⟨i :: v :: more, [], false⟩ y) (k : Int) (hk : (i : Int) + k = -1) :
    ∃ c', addInt debug ⟨i :: v :: more, [], false⟩ k = .ok c' ∧ c'.Canonical ∧ c'.HasVal (-(y + k)) := by
  obtain ⟨y, hy, rfl⟩ := hy
  simp only [signed, Bool.false_eq_true, if_false] at hy ⊢
  have hrest : ∀ u ∈ v :: more, 1 ≤ u := h.wf.2.1
  have hT : addInt debug ⟨i :: v :: more, [], false⟩ k = new debug (-1 :: (v : Int) :: toInts more) [] false := by
    unfold addInt
    have hk' : decide (k < 0) = true := by simp; omega
    simp only [hk']
    rw [if_pos (show i < k.natAbs by omega)]
    simp only [if_true]
    have : k.natAbs - i = 1 := by omega
    rw [this]
    rfl
  have hz : ValOf (-1 :: (v : Int) :: toInts more) [] (y + k) := by
    have := valOf_shift (i := ((i : Nat) : Int)) (r := toInts (v :: more)) hy (-1)
    have e : y + (((-1 : Int) : ℝ) - (((i : Nat) : Int) : ℝ)) = y + (k : ℝ) := by
      have : (((i : Int) + k : Int) : ℝ) = ((-1 : Int) : ℝ) := by rw [hk]
      push_cast at this ⊢
      linarith
    rw [e] at this
    exact this
  obtain ⟨c', k1, k2, k3, k4, -⟩ := new_flip debug 1 le_rfl v (by exact_mod_cast hrest v (by simp)) (toInts more) []
    (by
      intro u hu
      obtain ⟨w, hw, rfl⟩ := List.mem_map.1 hu
      exact_mod_cast hrest w (by simp [hw])) (by simp) false
  have hval := k3 _ hz
  rw [if_pos ⟨rfl, rfl⟩] at hval
  exact ⟨c', hT.trans k1, k4 rfl ⟨_, hz⟩, hval⟩

/-- **C31** for every finite fraction: the sum, except that a positive number which becomes one between -1 and 0 loses
its sign. -/
theorem cf_addInt_exact (debug : Bool) (q : ℚ) (k : ℤ) :
    (CF.ofRat q).addInt debug k = .ok (CF.ofRat (shiftQ q k)) ∧
    (CF.ofRat q).subInt debug k = .ok (CF.ofRat (shiftQ q (-k))) := by
  have main : ∀ k : ℤ, (CF.ofRat q).addInt debug k = .ok (CF.ofRat (shiftQ q k)) := by
    intro k
    obtain ⟨hcan, hval⟩ := cf_ofRat q
    have hv : (CF.ofRat q).HasVal q := (hasVal_finite hcan.1).2 ⟨q, hval, rfl⟩
    generalize CF.ofRat q = c at *
    obtain ⟨s, g1, g2, g3, g4⟩ := canL_val hcan.canL
    have hs : signed c.neg s = q := by
      unfold valQ at hval
      rw [g1] at hval
      simpa using hval
    by_cases hB : c.neg = false ∧ 2 ≤ c.a.length ∧ ((c.a.headD 0 : Nat) : Int) + k = -1
    · obtain ⟨a, p, n⟩ := c
      obtain ⟨rfl, hl, hk⟩ := hB
      have hp : p = [] := hcan.1
      subst hp
      match a, hl with
      | i :: v :: more, _ =>
        simp only [List.headD_cons] at hk g2 g3 g4
        obtain ⟨c', k1, k2, k3⟩ := sign_lost debug i v more hcan q hv k hk
        have hsq : s = q := by simpa [signed] using hs
        subst hsq
        have hne : s ≠ (i : ℚ) := fun h => by simpa using g4.2 h
        have hlt : (i : ℚ) < s := lt_of_le_of_ne g2 (Ne.symm hne)
        have hk' : (i : ℚ) + (k : ℚ) = -1 := by exact_mod_cast hk
        have hi : (0 : ℚ) ≤ i := by positivity
        have e : shiftQ s k = -(s + k) := by
          unfold shiftQ
          rw [if_pos ⟨by linarith, by linarith, by linarith⟩]
        rw [k1, e, ofRat_of_val k2 (q := -(s + k)) (by push_cast; exact k3)]
    · obtain ⟨c', k1, k2, k3, -⟩ := cf_addInt_partial debug c hcan.wf q hv k (fun _ h => h.1 hcan.1) hB
      have hstd := k3 ⟨hcan.wf, fun _ => hcan⟩ hcan.1
      have e : shiftQ q k = q + k := by
        unfold shiftQ
        rw [if_neg]
        rintro ⟨h1, h2, h3⟩
        apply hB
        have hn : c.neg = false := by
          by_contra hn
          have hn : c.neg = true := by simpa using hn
          rw [hn] at hs
          simp only [signed, if_true] at hs
          have : (0 : ℚ) ≤ ((c.a.headD 0 : Nat) : ℚ) := by positivity
          linarith
        rw [hn] at hs
        simp only [signed, Bool.false_eq_true, if_false] at hs
        subst hs
        have i1 : (((c.a.headD 0 : Nat) : Int) + k) < 0 := by
          have : (((((c.a.headD 0 : Nat) : Int) + k : Int)) : ℚ) < ((0 : Int) : ℚ) := by push_cast; linarith
          exact_mod_cast this
        have i2 : -2 < (((c.a.headD 0 : Nat) : Int) + k) := by
          have : ((-2 : Int) : ℚ) < (((((c.a.headD 0 : Nat) : Int) + k : Int)) : ℚ) := by push_cast; linarith
          exact_mod_cast this
        have i3 : (((c.a.headD 0 : Nat) : Int) + k) = -1 := by omega
        refine ⟨hn, ?_, i3⟩
        by_contra hl
        have : c.a.tail = [] := by
          match hca : c.a with
          | [] => rfl
          | [_] => rfl
          | _ :: _ :: _ => rw [hca] at hl; simp at hl
        have hq := g4.1 this
        have : (((c.a.headD 0 : Nat) : ℚ)) + (k : ℚ) = -1 := by exact_mod_cast i3
        linarith
      have hp' : c'.p = [] := by
        by_contra hp'
        obtain ⟨a, p, n⟩ := c
        have hp : p = [] := hcan.1
        subst hp
        obtain ⟨y, hy, hy'⟩ := k2
        obtain ⟨u, hu, hirr⟩ := valOf_exists (toInts c'.a) (toInts c'.p) (toInts_ne_nil hp') (by
          intro v hv
          obtain ⟨u, hu, rfl⟩ := List.mem_map.1 hv
          exact_mod_cast hstd.1.2.2 u hu)
        have := valOf_unique hy hu
        subst this
        apply hirr
        refine ⟨signed c'.neg (q + k), ?_⟩
        have : signed c'.neg ((q : ℝ) + k) = y := by rw [hy']; cases c'.neg <;> simp [signed]
        rw [← this]
        cases c'.neg <;> simp [signed]
      rw [k1, e, ofRat_of_val (hstd.2 hp') (q := q + k) (by push_cast; exact k2)]
  exact ⟨main k, main (-k)⟩

example : (CF.ofRat (5 / 2)).subInt true 3 = .ok (CF.ofRat (1 / 2)) ∧ shiftQ (5 / 2) (-3) = 1 / 2 ∧
    (CF.ofRat (5 / 2)).subInt true 4 = .ok (CF.ofRat (-3 / 2)) ∧ shiftQ (5 / 2) (-4) = -3 / 2 := by
  refine ⟨by decide +kernel, by norm_num [shiftQ], by decide +kernel, by norm_num [shiftQ]⟩

/-- what `c + k` gives for any fraction: where the integer part changes its sign, a purely periodic fraction keeps its
fractional part instead of subtracting it from one, and a positive number which becomes one between -1 and 0 loses its
sign; otherwise the sum -/
noncomputable def addIntReal (c : CF) (x : ℝ) (k : ℤ) : ℝ :=
  let i := c.a.headD 0
  if (i : Int) + signed c.neg k < 0 ∧ c.p ≠ [] ∧ c.a.length = 1 then
    signed (!c.neg) ((k.natAbs : ℝ) - i + (signed c.neg x - i))
  else if c.neg = false ∧ 2 ≤ c.a.length ∧ (i : Int) + k = -1 then -(x + k)
  else x + k

private theorem wrong_value (debug : Bool) (c : CF) (hwf : c.Wf) (x : ℝ) (hx : c.HasVal x) (k : Int)
    (hbad : (((c.a.headD 0 : Nat) : Int) + signed c.neg k < 0 ∧ c.p ≠ [] ∧ c.a.length = 1) ∨
      (c.neg = false ∧ 2 ≤ c.a.length ∧ ((c.a.headD 0 : Nat) : Int) + k = -1)) :
    ∃ c', c.addInt debug k = .ok c' ∧ c'.HasVal (addIntReal c x k) := by
  obtain ⟨y, hy, rfl⟩ := hx
  obtain ⟨a, p, n⟩ := c
  match a, hwf with
  | i :: rest, hwf =>
    simp only [List.headD_cons, List.length_cons] at *
    have hrest : ∀ v ∈ rest, 1 ≤ v := hwf.2.1
    have hper : ∀ v ∈ p, 1 ≤ v := hwf.2.2
    have hflip : ((i : Nat) : Int) + signed n k < 0 := by
      rcases hbad with ⟨h1, -⟩ | ⟨rfl, -, h1⟩
      · exact h1
      · simp only [signed, Bool.false_eq_true, if_false]; omega
    have hT : addInt debug ⟨i :: rest, p, n⟩ k =
        new debug (-(k.natAbs - i : Int) :: toInts rest) (toInts p) n := by
      unfold addInt
      cases n with
      | false =>
        simp only [signed, Bool.false_eq_true, if_false] at hflip
        have hk : decide (k < 0) = true := by simp; omega
        simp only [hk]
        rw [if_pos (show i < k.natAbs by omega)]
        simp only [if_true]
        rw [Nat.cast_sub (by omega)]
        rfl
      | true =>
        simp only [signed, if_true] at hflip
        have hk : decide (k < 0) = false := by simp; omega
        simp only [hk]
        rw [if_pos (show i < k.natAbs by omega)]
        simp only [if_true]
        rw [Nat.cast_sub (by omega)]
        rfl
    obtain ⟨t, htdef⟩ : ∃ t : Int, t = (k.natAbs - i : Int) := ⟨_, rfl⟩
    have hki : (signed n k : Int) = -(k.natAbs : Int) := by
      cases n
      · simp only [signed, Bool.false_eq_true, if_false] at *; omega
      · simp only [signed, if_true] at *; omega
    have ht : 1 ≤ t := by omega
    have hz : ValOf (-t :: toInts rest) (toInts p) (y + ((signed n k : Int) : ℝ)) := by
      have := valOf_shift (i := ((i : Nat) : Int)) (r := toInts rest) hy (-t)
      have e : y + (((-t : Int) : ℝ) - (((i : Nat) : Int) : ℝ)) = y + ((signed n k : Int) : ℝ) := by
        rw [htdef, hki]; push_cast; ring
      rw [e] at this
      exact this
    have hxk : signed n y + k = signed n (y + ((signed n k : Int) : ℝ)) := by
      cases n
      · simp [signed]
      · simp only [signed, if_true]; push_cast; ring
    have hppos : ∀ v ∈ toInts p, 1 ≤ v := by
      intro v hv
      obtain ⟨u, hu, rfl⟩ := List.mem_map.1 hv
      exact_mod_cast hper u hu
    rw [hT, ← htdef]
    match rest, hrest, hz, hbad, hy with
    | [], hrest, hz, hbad, hy =>
      have hp : p ≠ [] := by
        rcases hbad with ⟨-, h1, -⟩ | ⟨-, h1, -⟩
        · exact h1
        · simp at h1
      have h1 : newStep debug ⟨[], none, n⟩ (-t) = .ok ⟨[t], some (!n), true⟩ := by
        unfold newStep
        cases n
        · simp only [Bool.false_eq_true, if_false]
          rw [if_pos (by omega)]
          simp
        · simp only [if_true]
          rw [if_neg (by omega)]
          simp only [zero_sub, neg_neg]
          rw [if_neg (by omega)]
          rfl
      obtain ⟨c', k1, k2, k3, -, -⟩ := new_of_loop debug [-t] (toInts p) n (!n) ⟨[t], some (!n), true⟩
        (by rw [newLoop, h1]; rfl) (by simp) rfl hppos
      simp only [toInts, List.map_nil] at hz ⊢
      have hz2 := valOf_shift hz t
      obtain ⟨z, hzd⟩ : ∃ z, z = y + ((signed n k : Int) : ℝ) := ⟨_, rfl⟩
      rw [← hzd] at hz hz2
      refine ⟨c', k1, ?_⟩
      have e : addIntReal ⟨[i], p, n⟩ (signed n y) k = signed (!n) (z + ((t : ℝ) - ((-t : Int) : ℝ))) := by
        unfold addIntReal
        rw [if_pos ⟨by simpa using hflip, hp, rfl⟩, hzd, hki, htdef]
        cases n <;> simp [signed] <;> ring
      rw [e]
      exact k3 _ hz2
    | v :: more, hrest, hz, hbad, hy =>
      have hB : n = false ∧ ((i : Nat) : Int) + k = -1 := by
        rcases hbad with ⟨-, -, h1⟩ | ⟨h1, -, h2⟩
        · simp at h1
        · exact ⟨h1, h2⟩
      obtain ⟨rfl, hik⟩ := hB
      have ht1 : t = 1 := by omega
      obtain ⟨c', k1, k2, k3, -, -⟩ := new_flip debug t ht v (by exact_mod_cast hrest v (by simp)) (toInts more) (toInts p)
        (by
          intro u hu
          obtain ⟨w, hw, rfl⟩ := List.mem_map.1 hu
          exact_mod_cast hrest w (by simp [hw])) hppos false
      have hval := k3 _ hz
      rw [if_pos ⟨rfl, ht1⟩] at hval
      refine ⟨c', k1, ?_⟩
      have e : addIntReal ⟨i :: v :: more, p, false⟩ (signed false y) k = -(y + ((signed false k : Int) : ℝ)) := by
        unfold addIntReal
        rw [if_neg (by simp), if_pos ⟨rfl, by simp, by simpa using hik⟩]
        simp [signed]
      rw [e]
      exact hval

/-- **C31** the value of `c + k` for every fraction and every integer; it never panics -/
theorem cf_addInt_value (debug : Bool) (c : CF) (h : c.Wf) (x : ℝ) (hx : c.HasVal x) (k : Int) :
    ∃ c', c.addInt debug k = .ok c' ∧ c'.HasVal (addIntReal c x k) := by
  by_cases hA : ((c.a.headD 0 : Nat) : Int) + signed c.neg k < 0 ∧ c.p ≠ [] ∧ c.a.length = 1
  · exact wrong_value debug c h x hx k (.inl hA)
  · by_cases hB : c.neg = false ∧ 2 ≤ c.a.length ∧ ((c.a.headD 0 : Nat) : Int) + k = -1
    · exact wrong_value debug c h x hx k (.inr hB)
    · obtain ⟨c', h1, h2, -⟩ := cf_addInt_partial debug c h x hx k (fun h1 h2 => hA ⟨h1, h2⟩) hB
      refine ⟨c', h1, ?_⟩
      have e : addIntReal c x k = x + k := by
        unfold addIntReal
        rw [if_neg hA, if_neg hB]
      rwa [e]

example : Wf ⟨[1], [2], false⟩ ∧ addIntReal ⟨[1], [2], false⟩ (√2) (-3) = -(√2 + 1) ∧
    addInt true ⟨[1], [2], false⟩ (-3) = .ok ⟨[2], [2], true⟩ := by
  refine ⟨by simp [Wf], ?_, by decide +kernel⟩
  unfold addIntReal
  rw [if_pos ⟨by simp [signed], by simp, by simp⟩]
  simp [signed]
  ring

end CF
end NumIrr
