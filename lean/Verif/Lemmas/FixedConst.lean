/-
Runs of `simplify` over primitive integers that can be evaluated.
-/
import Verif.Props.FixedSimplify
import Verif.Props.FixedHomo

namespace NumIrr

section
variable {σ β : Type} {step : σ → β → σ → Prop}

theorem Outs.cons {s s1 : σ} {b : β} (h : step s b s1) : ∀ {l : List β} {s2 : σ}, Outs step s1 l s2 → Outs step s (b :: l) s2 := by
  intro l s2 h2
  induction h2 with
  | nil => exact Outs.snoc (l := []) (Outs.nil _) h
  | snoc _ hs ih => exact Outs.snoc (l := b :: _) ih hs

end

namespace Prim

/-- the state after `n` calls of the simplification -/
def simpRun (t : Prim) (src : Nat → Res (Option (Int × Int))) (fuel : Nat) : Nat → Block × Nat → Option (List Int × Block × Nat)
  | 0, s => some ([], s)
  | n + 1, s =>
    match t.simpNext src fuel s.1 s.2 with
    | some (.ok (some i, s')) =>
      match simpRun t src fuel n s' with
      | some (l, z) => some (i :: l, z)
      | none => none
    | _ => none

theorem simpRun_outs {t : Prim} {src : Nat → Res (Option (Int × Int))} {fuel : Nat} : ∀ {n : Nat} {s z : Block × Nat} {l : List Int},
    t.simpRun src fuel n s = some (l, z) → Outs (t.SimpCall src) s l z := by
  intro n
  induction n with
  | zero =>
    intro s z l h
    unfold simpRun at h
    simp only [Option.some.injEq, Prod.mk.injEq] at h
    obtain ⟨rfl, rfl⟩ := h
    exact Outs.nil _
  | succ n ih =>
    intro s z l h
    unfold simpRun at h
    split at h
    · rename_i i s' hs
      split at h
      · rename_i l' z' hr
        simp only [Option.some.injEq, Prod.mk.injEq] at h
        obtain ⟨rfl, rfl⟩ := h
        exact Outs.cons ⟨fuel, hs⟩ (ih hr)
      · cases h
    · cases h

end Prim
end NumIrr
