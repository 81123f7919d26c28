/-
Conversion to surds of arbitrary fractions with a positive period, and the shape of what `new` returns.
-/
import Verif.Props.CFSurd
import Verif.Lemmas.CFNewFin

namespace NumIrr

theorem chain_pos_any (l : List Nat) {x : ℝ} (hx : 0 < x) : 0 < chain l x := by
  induction l with
  | nil => exact hx
  | cons v l ih =>
    have : (0 : ℝ) < 1 / chain l x := by positivity
    show (0 : ℝ) < (v : ℝ) + 1 / chain l x
    positivity

theorem valOf_chain_any {a : List Nat} {p : List Int} (hp : p ≠ []) {x : ℝ} {l : List Int} (hx : ValOf l p x)
    (hx0 : 0 < x) : ValOf (toInts a ++ l) p (chain a x) := by
  induction a with
  | nil => exact hx
  | cons v a ih =>
    have := valOf_cons hp ih (chain_pos_any a hx0).ne' (v : Int)
    have e : toInts (v :: a) ++ l = (v : Int) :: (toInts a ++ l) := rfl
    rw [e]
    convert this using 1
    simp [chain]

/-- the loops compute `y ↦ 1/(v₀ + 1/(… + y))` for all coefficients -/
theorem ofRev_any {l : List Nat} (hne : l ≠ []) :
    ∃ m, Mob.ofRev l.reverse = .ok m ∧ ∀ y : ℝ, 0 < y → 0 < (m.a : ℝ) * y + m.b ∧ 0 < (m.c : ℝ) * y + m.d ∧
      ((m.a : ℝ) * y + m.b) / (m.c * y + m.d) = 1 / chain l (1 / y) := by
  induction l with
  | nil => exact absurd rfl hne
  | cons v l ih =>
    by_cases hl : l = []
    · subst hl
      refine ⟨⟨0, 1, 1, v⟩, rfl, fun y hy => ⟨by simp, by simp; positivity, ?_⟩⟩
      simp [chain, add_comm]
    · obtain ⟨m, e, h4⟩ := ih hl
      refine ⟨m.step v, by rw [List.reverse_cons]; exact ofRev_snoc e v, fun y hy => ?_⟩
      have hc := chain_pos_any l (x := 1 / y) (by positivity)
      obtain ⟨hn, hd, h5⟩ := h4 y hy
      have hpos : 0 < (v : ℝ) * (m.c * y + m.d) + (m.a * y + m.b) := by positivity
      have e2 : ((v * m.c + m.a : Nat) : ℝ) * y + ((v * m.d + m.b : Nat) : ℝ) =
          v * (m.c * y + m.d) + (m.a * y + m.b) := by push_cast; ring
      refine ⟨hd, ?_, ?_⟩
      · show 0 < ((v * m.c + m.a : Nat) : ℝ) * y + ((v * m.d + m.b : Nat) : ℝ)
        rw [e2]; exact hpos
      · show ((m.c : ℝ) * y + m.d) / (((v * m.c + m.a : Nat) : ℝ) * y + ((v * m.d + m.b : Nat) : ℝ))
          = 1 / ((v : ℝ) + 1 / chain l (1 / y))
        rw [← h5, e2]
        have hpos2 : 0 < (v : ℝ) + (m.a * y + m.b) / (m.c * y + m.d) := by positivity
        rw [div_eq_div_iff hpos.ne' hpos2.ne', one_mul]
        field_simp

namespace CF

theorem tail_any (cfg : Cfg) (a0 : Nat) (as : List Nat) {ps : Surd} (hps : ps.RealOk) {z : ℝ} (hz : 0 < z)
    (hv : ps.val = 1 / z) :
    (∃ s, tailSurd cfg (a0 :: as) ps = .ok s ∧ s.RealOk ∧ s.val = 1 / chain as z) ∨
    tailSurd cfg (a0 :: as) ps = .error .incompatible := by
  by_cases hne : as = []
  · subst hne
    exact .inl ⟨ps, rfl, hps, hv⟩
  · obtain ⟨m, hm, hf⟩ := ofRev_any hne
    have h0 : 0 < ps.val := by rw [hv]; positivity
    obtain ⟨f1, f2, f3⟩ := hf _ h0
    obtain ⟨n1, e1, v1, o1, r1⟩ := Surd.mulInt_real hps cfg m.a
    obtain ⟨n2, e2, v2, o2, r2⟩ := Surd.addInt_real o1 cfg m.b
    obtain ⟨d1, e3, v3, o3, r3⟩ := Surd.mulInt_real hps cfg m.c
    obtain ⟨d2, e4, v4, o4, r4⟩ := Surd.addInt_real o3 cfg m.d
    have hn : n2.val = m.a * ps.val + m.b := by rw [v2, v1]; push_cast; ring
    have hdv : d2.val = m.c * ps.val + m.d := by rw [v4, v3]; push_cast; ring
    have ht : tailSurd cfg (a0 :: as) ps = n2.div cfg d2 := by
      unfold tailSurd
      rw [if_neg (by simpa using hne)]
      show (Mob.ofRev as.reverse >>= _) = _
      rw [hm]
      show (ps.mulInt cfg m.a >>= _) = _
      rw [e1]
      show (n1.addInt cfg m.b >>= _) = _
      rw [e2]
      show (ps.mulInt cfg m.c >>= _) = _
      rw [e3]
      show (d1.addInt cfg m.d >>= _) = _
      rw [e4]
      rfl
    rw [ht]
    rcases div_real cfg o2 o4 (by rw [hn]; exact f1.ne') (by rw [hdv]; exact f2.ne') with ⟨s, h1, h2, h3⟩ | ⟨h1, -⟩
    · refine .inl ⟨s, h1, h2, ?_⟩
      rw [h3, hn, hdv, f3, hv, one_div_one_div]
    · exact .inr h1

/-- the conversion of any fraction with a first coefficient and a positive period, zeros included -/
theorem toSurd_any (cfg : Cfg) (c : CF) (ha : c.a ≠ []) (hp : c.p ≠ []) (hp1 : ∀ v ∈ c.p, 1 ≤ v) :
    (∃ s, c.toSurd cfg = .ok s ∧ s.RealOk ∧ c.HasVal s.val) ∨ c.toSurd cfg = .error .incompatible := by
  obtain ⟨ps, z, e1, o1, hz, hv, hval⟩ := periodSurd_spec cfg hp hp1
  obtain ⟨a, p, neg⟩ := c
  cases a with
  | nil => exact absurd rfl ha
  | cons a0 as =>
    simp only at e1 hp
    have hz0 : 0 < z := by linarith
    have hts : toSurd cfg ⟨a0 :: as, p, neg⟩ = (tailSurd cfg (a0 :: as) ps >>= fun s => s.addInt cfg a0 >>= fun s =>
        .ok (if neg then s.neg else s)) := by
      unfold toSurd
      rw [if_neg (by simp [isRational, hp])]
      simp only
      rw [e1]
      rfl
    rw [hts]
    rcases tail_any cfg a0 as o1 hz0 hval with ⟨s, e2, o2, v2⟩ | e2
    · obtain ⟨t, e3, v3, o3, -⟩ := Surd.addInt_real o2 cfg a0
      rw [e2]
      simp only [Surd.ok_bind]
      rw [e3]
      simp only [Surd.ok_bind]
      have hp' := toInts_ne_nil hp
      have hch := valOf_chain_any (a := as) hp' hv hz0
      rw [List.append_nil] at hch
      have hV : ValOf (toInts (a0 :: as)) (toInts p) t.val := by
        have := valOf_cons hp' hch (chain_pos_any as hz0).ne' (a0 : Int)
        rw [v3, v2, add_comm]
        exact this
      refine .inl ⟨_, rfl, ?_⟩
      cases neg
      · exact ⟨o3, _, hV, rfl⟩
      · obtain ⟨k1, k2⟩ := surd_neg_value cfg t (o3.toOk cfg)
        have : t.neg.valC = ((-t.val : ℝ) : ℂ) := by rw [k1, o3.valC]; push_cast; rfl
        obtain ⟨k3, k4⟩ := Surd.real_transfer k2.toNormal this
        exact ⟨k3, _, hV, by simp [k4, signed]⟩
    · rw [e2]; exact .inr rfl

theorem TInv.dropLast_pos : ∀ {l : List Int}, TInv l → ∀ v ∈ l.dropLast, 1 ≤ v
  | [], _ => by simp
  | [_], _ => by simp
  | x :: y :: l, h => by
    intro v hv
    rw [List.dropLast_cons_cons, List.mem_cons] at hv
    rcases hv with rfl | hv
    · exact h.1
    · exact TInv.dropLast_pos h.2 v hv

/-- what `new` returns for a positive period -/
theorem new_per_shape (debug : Bool) (a p : List Int) (n : Bool) (c : CF) (hp : p ≠ [])
    (h : new debug a p n = .ok c) : toInts c.p = p ∧ ∀ v ∈ c.a.tail.dropLast, 1 ≤ v := by
  unfold new at h
  rw [if_neg (by simp [hp])] at h
  match hl : newLoop debug ⟨[], none, n⟩ a with
  | .error e => rw [hl] at h; cases h
  | .ok s =>
    rw [hl] at h
    have hinv := newLoop_nil_stack debug a n s hl
    change (if s.stack.length = 0 ∧ p.length = 0 then _ else _) = _ at h
    rw [if_neg (by simp [hp])] at h
    simp only [show ¬ (p.length = 0) by simp [hp], if_false] at h
    match hf : finalSign s.negative s.negate p with
    | .error e => rw [hf] at h; cases h
    | .ok b =>
      rw [hf] at h
      match hs : toUnsignedAll s.stack.reverse with
      | .error e => 
        change (toUnsignedAll s.stack.reverse >>= _) = _ at h
        rw [hs] at h; cases h
      | .ok a' =>
        change (toUnsignedAll s.stack.reverse >>= _) = _ at h
        rw [hs] at h
        match hpu : toUnsignedAll p with
        | .error e => 
          change (toUnsignedAll p >>= _) = _ at h
          rw [hpu] at h; cases h
        | .ok p' =>
          change (toUnsignedAll p >>= _) = _ at h
          rw [hpu] at h
          cases h
          obtain ⟨q1, q2⟩ := toUnsignedAll_inv _ _ hpu
          obtain ⟨t1, t2⟩ := toUnsignedAll_inv _ _ hs
          refine ⟨by rw [q2]; exact toInts_toNat _ q1, ?_⟩
          show ∀ v ∈ a'.tail.dropLast, 1 ≤ v
          rw [t2]
          match hst : s.stack, hinv with
          | [], _ => simp
          | x :: l, hi =>
            have hd := TInv.dropLast_pos hi.2
            intro v hv
            rw [← List.map_tail, ← List.map_dropLast, List.reverse_cons] at hv
            obtain ⟨w, hw, rfl⟩ := List.mem_map.1 hv
            have : w ∈ l.dropLast := by
              by_cases hl0 : l = []
              · subst hl0; simp at hw
              · rw [List.tail_append_of_ne_nil (by simpa using hl0), List.dropLast_concat, List.tail_reverse,
                  List.mem_reverse] at hw
                exact hw
            have := hd w this
            omega

end CF
end NumIrr
