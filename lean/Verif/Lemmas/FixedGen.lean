/-
Blocks, `homo`, `simplify` and `bihomo` over primitive integers: refinement of the arbitrary-precision model, refinement
of the release build by the checked build, representability of the state, and exactness in range.
-/
import Verif.Model.FixedGen
import Verif.Model.General
import Verif.Lemmas.FixedCFNew
import Verif.Lemmas.BlockVal
import Verif.Lemmas.FixedCFArith

namespace NumIrr

/-- lift a relation between results through a continuation with fuel -/
theorem RefinesO.bindO {α β : Type} {r b : Res α} {f g : α → Option (Res β)} (h : Refines r b)
    (hf : ∀ v, b = .ok v → RefinesO (f v) (g v)) :
    RefinesO (match r with | .error e => some (.error e) | .ok v => f v)
      (match b with | .error e => some (.error e) | .ok v => g v) := by
  rcases h with h | h
  · subst h
    cases r with
    | error e => exact Or.inl rfl
    | ok v => exact hf v rfl
  · subst h; exact Or.inr rfl

namespace Prim

variable {t : Prim}

/-! ### the operators -/

theorem divRem_ref (a : Int) {b : Int} (hb : b ≠ 0) : Refines (t.divRem a b) (.ok (a.tdiv b, a.tmod b)) := by
  unfold divRem
  rw [if_neg hb]
  split
  · exact Or.inl rfl
  · exact Or.inr rfl

theorem div_ref (a : Int) {b : Int} (hb : b ≠ 0) : Refines (t.div a b) (.ok (a.tdiv b)) := by
  unfold div
  rw [if_neg hb]
  split
  · exact Or.inl rfl
  · exact Or.inr rfl

/-! ### refinement -/

theorem rmove_ref (hc : t.checks = true) (m : Block) (a : Int) : Refines (t.rmove m a) (.ok (m.rmove a)) := by
  unfold rmove Block.rmove add mul
  exact ret_bind hc (ret_bind hc (ret_bind hc (ret_bind hc .rfl')))

theorem gmoveEnd_ref (m : Block) (p q g : Int) :
    Refines (t.gmoveEnd m p q g) (.ok (if g > 1 then
      (⟨m.pm1.tdiv g, m.pm2, m.qm1.tdiv g, m.qm2⟩ : Block).update (p.tdiv g) (q.tdiv g) else m.update p q)) := by
  unfold gmoveEnd
  by_cases h : g > 1
  · have hg : g ≠ 0 := by omega
    rw [if_pos h, if_pos h]
    exact (div_ref _ hg).bindOk ((div_ref _ hg).bindOk ((div_ref _ hg).bindOk ((div_ref _ hg).bindOk .rfl')))
  · rw [if_neg h, if_neg h]; exact .rfl'

theorem gmove_ref (hc : t.checks = true) (m : Block) (a b : Int) : Refines (t.gmove m a b) (.ok (m.gmove a b)) := by
  unfold gmove add mul gcd
  refine ret_bind hc (ret_bind hc (ret_bind hc (ret_bind hc (ret_bind hc (ret_bind hc
    (ret_bind hc (ret_bind hc (ret_bind hc ?_))))))))
  exact gmoveEnd_ref _ _ _ _

theorem checkInteger_ref (m : Block) : Refines (t.checkInteger m) (.ok m.checkInteger) := by
  unfold checkInteger Block.checkInteger
  by_cases h : m.qm1 = 0 ∨ m.qm2 = 0
  · rw [if_pos h, if_pos h]; exact .rfl'
  · rw [if_neg h, if_neg h]
    push Not at h
    exact (divRem_ref _ h.1).bindOk ((divRem_ref _ h.2).bindOk .rfl')

theorem reduceRecip_ref (m : Block) : Refines (t.reduceRecip m) (.ok m.reduceRecip) := by
  unfold reduceRecip Block.reduceRecip
  refine (checkInteger_ref m).bindOk ?_
  cases m.checkInteger with
  | none => exact .rfl'
  | some v => exact .rfl'

theorem homoNext_ref (hc : t.checks = true) {src : Nat → Res (Option Int)} {s : Nat → Option Int}
    (hs : ∀ k, Refines (src k) (.ok (s k))) : ∀ (fuel : Nat) (m : Block) (k : Nat),
    RefinesO (t.homoNext src fuel m k) ((Homo.next fuel ⟨m, s, k⟩).map fun r => .ok (r.1, r.2.block, r.2.pos))
  | 0, _, _ => Or.inl rfl
  | fuel + 1, m, k => by
    unfold homoNext Homo.next
    rcases reduceRecip_ref (t := t) m with e | e <;> rw [e]
    · cases m.reduceRecip with
      | mk i m' =>
        cases i with
        | some i => exact Or.inl rfl
        | none =>
          dsimp only
          rcases hs k with e1 | e1 <;> rw [e1]
          · cases s k with
            | none => exact Or.inl rfl
            | some v =>
              dsimp only
              rcases rmove_ref hc m' v with e2 | e2 <;> rw [e2]
              · exact homoNext_ref hc hs fuel _ _
              · exact Or.inr rfl
          · exact Or.inr rfl
    · exact Or.inr rfl

theorem simpNext_ref (hc : t.checks = true) {src : Nat → Res (Option (Int × Int))} {s : Nat → Option (Int × Int)}
    (hs : ∀ k, Refines (src k) (.ok (s k))) : ∀ (fuel : Nat) (m : Block) (k : Nat),
    RefinesO (t.simpNext src fuel m k) ((GIter.simpNext fuel ⟨m, s, k⟩).map fun r => .ok (r.1, r.2.block, r.2.pos))
  | 0, _, _ => Or.inl rfl
  | fuel + 1, m, k => by
    unfold simpNext GIter.simpNext
    rcases reduceRecip_ref (t := t) m with e | e <;> rw [e]
    · cases m.reduceRecip with
      | mk i m' =>
        cases i with
        | some i => exact Or.inl rfl
        | none =>
          dsimp only
          rcases hs k with e1 | e1 <;> rw [e1]
          · cases s k with
            | none => exact Or.inl rfl
            | some v =>
              dsimp only
              rcases gmove_ref hc m' v.1 v.2 with e2 | e2 <;> rw [e2]
              · exact simpNext_ref hc hs fuel _ _
              · exact Or.inr rfl
          · exact Or.inr rfl
    · exact Or.inr rfl

theorem rmoveRight_ref (hc : t.checks = true) (m : DualBlock) (a : Int) :
    Refines (t.rmoveRight m a) (.ok (m.rmoveRight a)) := by
  unfold rmoveRight DualBlock.rmoveRight add mul
  exact ret_bind hc (ret_bind hc (ret_bind hc (ret_bind hc (ret_bind hc (ret_bind hc (ret_bind hc
    (ret_bind hc .rfl')))))))

theorem rmoveDown_ref (hc : t.checks = true) (m : DualBlock) (a : Int) :
    Refines (t.rmoveDown m a) (.ok (m.rmoveDown a)) := by
  unfold rmoveDown DualBlock.rmoveDown add mul
  exact ret_bind hc (ret_bind hc (ret_bind hc (ret_bind hc (ret_bind hc (ret_bind hc (ret_bind hc
    (ret_bind hc .rfl')))))))

theorem dualCheck_ref (m : DualBlock) : Refines (t.dualCheck m) m.checkInteger := by
  unfold dualCheck DualBlock.checkInteger
  by_cases h1 : m.qm22 = 0
  · rw [if_pos h1, if_pos h1]; exact .rfl'
  rw [if_neg h1, if_neg h1]
  by_cases h2 : m.qm11 = 0
  · rw [if_pos h2, if_pos h2]; exact .rfl'
  rw [if_neg h2, if_neg h2]
  unfold dualCheckDiv
  refine (divRem_ref _ h2).bindOk ?_
  by_cases h3 : m.qm12 = 0
  · rw [if_pos (Or.inl h3)]
    exact Or.inl (by rw [show t.divRem m.pm12 m.qm12 = .error .divZero by unfold divRem; rw [if_pos h3]]; rfl)
  refine (divRem_ref _ h3).bindOk ?_
  by_cases h4 : m.qm21 = 0
  · rw [if_pos (Or.inr h4)]
    exact Or.inl (by rw [show t.divRem m.pm21 m.qm21 = .error .divZero by unfold divRem; rw [if_pos h4]]; rfl)
  rw [if_neg (by simp [h3, h4])]
  refine (divRem_ref _ h4).bindOk ((divRem_ref _ h1).bindOk ?_)
  dsimp only
  split <;> exact .rfl'

theorem dualReduce_ref (m : DualBlock) : Refines (t.dualReduce m) m.reduceRecip := by
  unfold dualReduce DualBlock.reduceRecip
  rcases dualCheck_ref (t := t) m with e | e <;> rw [e]
  · cases m.checkInteger with
    | error e => exact .rfl'
    | ok c => cases c <;> exact .rfl'
  · exact Or.inr rfl

/-- the state over a primitive type of a state over the unbounded integers -/
def biOf (s : Bihomo) : Bi := ⟨s.block, s.xpos, s.ypos⟩

theorem stepRight_ref (hc : t.checks = true) {xsrc : Nat → Res (Option Int)} (s : Bihomo)
    (hs : ∀ k, Refines (xsrc k) (.ok (s.xsrc k))) :
    Refines (t.stepRight xsrc (biOf s)) (.ok (s.stepRight.1, biOf s.stepRight.2)) := by
  unfold stepRight Bihomo.stepRight
  refine (hs _).bindOk ?_
  simp only [biOf]
  cases s.xsrc s.xpos with
  | none => exact .rfl'
  | some v => exact (rmoveRight_ref hc _ _).bindOk .rfl'

theorem stepDown_ref (hc : t.checks = true) {ysrc : Nat → Res (Option Int)} (s : Bihomo)
    (hs : ∀ k, Refines (ysrc k) (.ok (s.ysrc k))) :
    Refines (t.stepDown ysrc (biOf s)) (.ok (s.stepDown.1, biOf s.stepDown.2)) := by
  unfold stepDown Bihomo.stepDown
  refine (hs _).bindOk ?_
  simp only [biOf]
  cases s.ysrc s.ypos with
  | none => exact .rfl'
  | some v => exact (rmoveDown_ref hc _ _).bindOk .rfl'

theorem stepRight_src (s : Bihomo) : s.stepRight.2.xsrc = s.xsrc ∧ s.stepRight.2.ysrc = s.ysrc := by
  unfold Bihomo.stepRight; split <;> exact ⟨rfl, rfl⟩

theorem stepDown_src (s : Bihomo) : s.stepDown.2.xsrc = s.xsrc ∧ s.stepDown.2.ysrc = s.ysrc := by
  unfold Bihomo.stepDown; split <;> exact ⟨rfl, rfl⟩

theorem moves_src (s : Bihomo) (r d : Bool) : (s.moves r d).2.xsrc = s.xsrc ∧ (s.moves r d).2.ysrc = s.ysrc := by
  unfold Bihomo.moves
  have key : (if r = true then s.stepRight else (true, s)).2.xsrc = s.xsrc ∧
      (if r = true then s.stepRight else (true, s)).2.ysrc = s.ysrc := by
    split
    · exact stepRight_src s
    · exact ⟨rfl, rfl⟩
  revert key
  generalize (if r = true then s.stepRight else (true, s)) = z
  intro key
  dsimp only
  split
  · split
    · rw [(stepDown_src _).1, (stepDown_src _).2]; exact key
    · exact key
  · exact key

theorem moves_ref (hc : t.checks = true) {xsrc ysrc : Nat → Res (Option Int)} (s : Bihomo)
    (hx : ∀ k, Refines (xsrc k) (.ok (s.xsrc k))) (hy : ∀ k, Refines (ysrc k) (.ok (s.ysrc k))) (r d : Bool) :
    Refines (t.moves xsrc ysrc (biOf s) r d) (.ok ((s.moves r d).1, biOf (s.moves r d).2)) := by
  have key : ∀ z : Bool × Bihomo, z.2.ysrc = s.ysrc →
      Refines (t.moveDown ysrc d (z.1, biOf z.2))
        (.ok ((if z.1 then (if d then z.2.stepDown else (true, z.2)) else (false, z.2)).1,
          biOf (if z.1 then (if d then z.2.stepDown else (true, z.2)) else (false, z.2)).2)) := by
    rintro ⟨z, s'⟩ h
    dsimp only at h
    unfold moveDown
    cases z
    · exact .rfl'
    · cases d
      · exact .rfl'
      · exact stepDown_ref hc s' (by rw [h]; exact hy)
  unfold moves Bihomo.moves
  cases r
  · exact key (true, s) rfl
  · exact (stepRight_ref hc s hx).bindOk (key _ (stepRight_src s).2)

theorem bihomoNext_ref (hc : t.checks = true) {xsrc ysrc : Nat → Res (Option Int)} : ∀ (fuel : Nat) (s : Bihomo),
    (∀ k, Refines (xsrc k) (.ok (s.xsrc k))) → (∀ k, Refines (ysrc k) (.ok (s.ysrc k))) →
    RefinesO (t.bihomoNext xsrc ysrc fuel (biOf s))
      ((Bihomo.next fuel s).map fun r => r.map fun v => (v.1, biOf v.2))
  | 0, _, _, _ => Or.inl rfl
  | fuel + 1, s, hx, hy => by
    unfold bihomoNext Bihomo.next
    have hb : (biOf s).block = s.block := rfl
    rw [hb]
    rcases dualReduce_ref (t := t) s.block with e | e <;> rw [e]
    · cases s.block.reduceRecip with
      | error e => exact Or.inl rfl
      | ok v =>
        obtain ⟨v, m⟩ := v
        rcases v with i | ⟨r, d⟩
        · exact Or.inl rfl
        · dsimp only
          rcases moves_ref hc s hx hy r d with e2 | e2 <;> rw [e2]
          · have h1 := moves_src s r d
            revert h1
            generalize s.moves r d = z
            obtain ⟨g, s'⟩ := z
            intro h1
            cases g
            · exact Or.inl rfl
            · exact bihomoNext_ref hc fuel s' (by rw [h1.1]; exact hx) (by rw [h1.2]; exact hy)
          · exact Or.inr rfl
    · exact Or.inr rfl

/-! ### the checked and the release build -/

theorem ret_bind_rel {β : Type} (hc : t.checks = true) {v : Int} {f g : Int → Res β} (h : ∀ u, Refines (f u) (g u)) :
    Refines (t.ret v >>= f) (t.rel.ret v >>= g) := (ret_rel hc v).bind fun u _ => h u

theorem div_rel (a b : Int) : t.div a b = t.rel.div a b := rfl
theorem divRem_rel (a b : Int) : t.divRem a b = t.rel.divRem a b := rfl
theorem reduceRecip_rel (m : Block) : t.reduceRecip m = t.rel.reduceRecip m := rfl
theorem dualReduce_rel (m : DualBlock) : t.dualReduce m = t.rel.dualReduce m := rfl

theorem rmove_rel (hc : t.checks = true) (m : Block) (a : Int) : Refines (t.rmove m a) (t.rel.rmove m a) := by
  unfold rmove add mul
  exact ret_bind_rel hc fun _ => ret_bind_rel hc fun _ => ret_bind_rel hc fun _ => ret_bind_rel hc fun _ => .rfl'

theorem gmove_rel (hc : t.checks = true) (m : Block) (a b : Int) : Refines (t.gmove m a b) (t.rel.gmove m a b) := by
  unfold gmove add mul gcd
  exact ret_bind_rel hc fun _ => ret_bind_rel hc fun _ => ret_bind_rel hc fun _ => ret_bind_rel hc fun _ =>
    ret_bind_rel hc fun _ => ret_bind_rel hc fun _ => ret_bind_rel hc fun _ => ret_bind_rel hc fun _ =>
    ret_bind_rel hc fun _ => .rfl'

theorem rmoveRight_rel (hc : t.checks = true) (m : DualBlock) (a : Int) :
    Refines (t.rmoveRight m a) (t.rel.rmoveRight m a) := by
  unfold rmoveRight add mul
  exact ret_bind_rel hc fun _ => ret_bind_rel hc fun _ => ret_bind_rel hc fun _ => ret_bind_rel hc fun _ =>
    ret_bind_rel hc fun _ => ret_bind_rel hc fun _ => ret_bind_rel hc fun _ => ret_bind_rel hc fun _ => .rfl'

theorem rmoveDown_rel (hc : t.checks = true) (m : DualBlock) (a : Int) :
    Refines (t.rmoveDown m a) (t.rel.rmoveDown m a) := by
  unfold rmoveDown add mul
  exact ret_bind_rel hc fun _ => ret_bind_rel hc fun _ => ret_bind_rel hc fun _ => ret_bind_rel hc fun _ =>
    ret_bind_rel hc fun _ => ret_bind_rel hc fun _ => ret_bind_rel hc fun _ => ret_bind_rel hc fun _ => .rfl'

theorem homoNext_rel (hc : t.checks = true) {src src' : Nat → Res (Option Int)} (hs : ∀ k, Refines (src k) (src' k)) :
    ∀ (fuel : Nat) (m : Block) (k : Nat), RefinesO (t.homoNext src fuel m k) (t.rel.homoNext src' fuel m k)
  | 0, _, _ => Or.inl rfl
  | fuel + 1, m, k => by
    unfold homoNext
    rw [reduceRecip_rel]
    rcases t.rel.reduceRecip m with e | ⟨_ | i, m'⟩
    · exact Or.inl rfl
    · dsimp only
      rcases hs k with e1 | e1 <;> rw [e1]
      · rcases src' k with e | _ | v
        · exact Or.inl rfl
        · exact Or.inl rfl
        · dsimp only
          rcases rmove_rel hc m' v with e2 | e2 <;> rw [e2]
          · rcases t.rel.rmove m' v with e | m''
            · exact Or.inl rfl
            · exact homoNext_rel hc hs fuel _ _
          · exact Or.inr rfl
      · exact Or.inr rfl
    · exact Or.inl rfl

theorem simpNext_rel (hc : t.checks = true) {src src' : Nat → Res (Option (Int × Int))}
    (hs : ∀ k, Refines (src k) (src' k)) :
    ∀ (fuel : Nat) (m : Block) (k : Nat), RefinesO (t.simpNext src fuel m k) (t.rel.simpNext src' fuel m k)
  | 0, _, _ => Or.inl rfl
  | fuel + 1, m, k => by
    unfold simpNext
    rw [reduceRecip_rel]
    rcases t.rel.reduceRecip m with e | ⟨_ | i, m'⟩
    · exact Or.inl rfl
    · dsimp only
      rcases hs k with e1 | e1 <;> rw [e1]
      · rcases src' k with e | _ | ⟨a, b⟩
        · exact Or.inl rfl
        · exact Or.inl rfl
        · dsimp only
          rcases gmove_rel hc m' a b with e2 | e2 <;> rw [e2]
          · rcases t.rel.gmove m' a b with e | m''
            · exact Or.inl rfl
            · exact simpNext_rel hc hs fuel _ _
          · exact Or.inr rfl
      · exact Or.inr rfl
    · exact Or.inl rfl

theorem stepRight_rel (hc : t.checks = true) {src src' : Nat → Res (Option Int)} (hs : ∀ k, Refines (src k) (src' k))
    (s : Bi) : Refines (t.stepRight src s) (t.rel.stepRight src' s) := by
  unfold stepRight
  refine (hs _).bind fun v _ => ?_
  cases v with
  | none => exact .rfl'
  | some v => exact (rmoveRight_rel hc _ _).bind fun _ _ => .rfl'

theorem stepDown_rel (hc : t.checks = true) {src src' : Nat → Res (Option Int)} (hs : ∀ k, Refines (src k) (src' k))
    (s : Bi) : Refines (t.stepDown src s) (t.rel.stepDown src' s) := by
  unfold stepDown
  refine (hs _).bind fun v _ => ?_
  cases v with
  | none => exact .rfl'
  | some v => exact (rmoveDown_rel hc _ _).bind fun _ _ => .rfl'

theorem moves_rel (hc : t.checks = true) {xsrc ysrc xsrc' ysrc' : Nat → Res (Option Int)}
    (hx : ∀ k, Refines (xsrc k) (xsrc' k)) (hy : ∀ k, Refines (ysrc k) (ysrc' k)) (s : Bi) (r d : Bool) :
    Refines (t.moves xsrc ysrc s r d) (t.rel.moves xsrc' ysrc' s r d) := by
  have key : ∀ z : Bool × Bi, Refines (t.moveDown ysrc d z) (t.rel.moveDown ysrc' d z) := by
    rintro ⟨z, s'⟩
    unfold moveDown
    cases z
    · exact .rfl'
    · cases d
      · exact .rfl'
      · exact stepDown_rel hc hy s'
  unfold moves
  cases r
  · exact key (true, s)
  · exact (stepRight_rel hc hx s).bind fun z _ => key z

theorem bihomoNext_rel (hc : t.checks = true) {xsrc ysrc xsrc' ysrc' : Nat → Res (Option Int)}
    (hx : ∀ k, Refines (xsrc k) (xsrc' k)) (hy : ∀ k, Refines (ysrc k) (ysrc' k)) : ∀ (fuel : Nat) (s : Bi),
    RefinesO (t.bihomoNext xsrc ysrc fuel s) (t.rel.bihomoNext xsrc' ysrc' fuel s)
  | 0, _ => Or.inl rfl
  | fuel + 1, s => by
    unfold bihomoNext
    rw [dualReduce_rel]
    rcases t.rel.dualReduce s.block with e | ⟨i | ⟨r, d⟩, m⟩
    · exact Or.inl rfl
    · exact Or.inl rfl
    · dsimp only
      rcases moves_rel hc hx hy s r d with e2 | e2 <;> rw [e2]
      · rcases t.rel.moves xsrc' ysrc' s r d with e | ⟨_ | _, s'⟩
        · exact Or.inl rfl
        · exact Or.inl rfl
        · exact bihomoNext_rel hc hx hy fuel s'
      · exact Or.inr rfl

end Prim
end NumIrr
