/-
Swapping the operands of `+` and `*` on quadratic and Gaussian integers over fixed-width integers.
-/
import Verif.Lemmas.FixedComm
import Verif.Lemmas.QIntMod

namespace NumIrr
namespace Fx
open Surd (ok_bind)

variable {x : Fx}

theorem qcAdd_swap (u v : QCoeffs) : x.qcAdd u v = x.qcAdd v u := by
  unfold qcAdd; rw [add_swap u.a, add_swap u.b]

theorem coeffs_mul_swap (u v : QCoeffs) (d : Int) : u.mul v d = v.mul u d := by
  unfold QCoeffs.mul
  split
  · congr 2 <;> ring
  · congr 2 <;> ring
  · rfl

/-- outside the class of 1 modulo 4 the steps are the same in both orders, up to the two products of the second part -/
theorem qcMul_swap (u v : QCoeffs) {d : Int} (h : mod4d2 d ≠ 0) : x.qcMul u v d = x.qcMul v u d := by
  unfold qcMul
  split
  · exact absurd ‹_› h
  · rw [mul_swap u.a v.a, mul_swap u.b v.b]
    refine bind_congr fun t1 => bind_congr fun t2 => bind_congr fun t3 => bind_congr fun a => ?_
    rw [mul_swap u.a v.b, mul_swap u.b v.a]
    unfold mul
    rw [ret_swap (v.b * u.a) (v.a * u.b)]
    refine bind_congr fun t4 => bind_congr fun t3 => ?_
    rw [add_swap]
  · rfl

theorem qcMul_swap_wr (hw : 3 ≤ x.w) (hx : x.checks = false) (u v : QCoeffs) {d : Int} (hd : x.Holds d) :
    x.qcMul u v d = x.qcMul v u d := by
  by_cases h : mod4d2 d = 0
  · have e : ∃ c, u.mul v d = .ok c := by unfold QCoeffs.mul; rw [h]; exact ⟨_, rfl⟩
    obtain ⟨c, e⟩ := e
    rw [qcMul_wr hw hx u v c hd e, qcMul_wr hw hx v u c hd (by rw [coeffs_mul_swap]; exact e)]
  · exact qcMul_swap u v h

theorem qMatch_swap (p : QInt × QInt) : qMatch p.swap = (qMatch p).map Prod.swap := by
  unfold qMatch
  by_cases h : p.1.d = p.2.d
  · rw [if_pos h, if_pos (show p.swap.1.d = p.swap.2.d from h.symm)]; rfl
  · rw [if_neg h, if_neg (show ¬ p.swap.1.d = p.swap.2.d from Ne.symm h)]; rfl

theorem qReduceBinOp_swap (cfg : Cfg) (u v : QInt) :
    x.qReduceBinOp cfg v u = (x.qReduceBinOp cfg u v).map (Option.map Prod.swap) := by
  have hl : ∀ e, ((do
        let hint ← e
        let u' ← x.qReduceRootHinted cfg u hint
        return qMatch (v, u')) : Res (Option (QInt × QInt))) =
      Except.map (Option.map Prod.swap) (do
        let hint ← e
        let u' ← x.qReduceRootHinted cfg u hint
        return qMatch (u', v)) := fun e => by
    cases e with
    | error e => rfl
    | ok h =>
      cases h' : x.qReduceRootHinted cfg u h with
      | error e => simp only [ok_bind, h']; rfl
      | ok l' => simp only [ok_bind, h']; exact congrArg Except.ok (qMatch_swap (l', v))
  have hr : ∀ e, ((do
        let hint ← e
        let v' ← x.qReduceRootHinted cfg v hint
        return qMatch (v', u)) : Res (Option (QInt × QInt))) =
      Except.map (Option.map Prod.swap) (do
        let hint ← e
        let v' ← x.qReduceRootHinted cfg v hint
        return qMatch (u, v')) := fun e => by
    cases e with
    | error e => rfl
    | ok h =>
      cases h' : x.qReduceRootHinted cfg v h with
      | error e => simp only [ok_bind, h']; rfl
      | ok l' => simp only [ok_bind, h']; exact congrArg Except.ok (qMatch_swap (u, l'))
  unfold qReduceBinOp
  cases cfg.complex
  · simp only [Bool.false_eq_true, if_false]
    by_cases hd : cfg.debug = true ∧ (u.d = 0 ∨ v.d = 0)
    · rw [if_pos hd, if_pos ⟨hd.1, hd.2.symm⟩]; rfl
    · rw [if_neg hd, if_neg fun h => hd ⟨h.1, h.2.symm⟩]
      rcases lt_trichotomy u.d v.d with h | h | h
      · rw [if_pos h, if_neg (not_lt.2 h.le), if_pos h, hr]
      · rw [if_neg (by omega), if_neg (by omega), if_neg (by omega), if_neg (by omega)]
        exact congrArg Except.ok (qMatch_swap (u, v))
      · rw [if_neg (not_lt.2 h.le), if_pos h, if_pos h, hl]
  · simp only [if_true]
    rw [Bool.xor_comm]
    by_cases hd : (decide (u.d < 0) ^^ decide (v.d < 0)) = true
    · rw [if_pos hd, if_pos hd]; rfl
    · rw [if_neg hd, if_neg hd]
      unfold abs
      rw [ret_swap]
      cases e1 : x.ret (u.d.natAbs : Int) with
      | error e => rfl
      | ok al =>
        cases e2 : x.ret (v.d.natAbs : Int) with
        | error e => rfl
        | ok ar =>
          simp only [ok_bind]
          rcases lt_trichotomy al ar with h | h | h
          · rw [if_pos h, if_neg (not_lt.2 h.le), if_pos h, hr]
          · rw [if_neg (by omega), if_neg (by omega), if_neg (by omega), if_neg (by omega)]
            exact congrArg Except.ok (qMatch_swap (u, v))
          · rw [if_neg (not_lt.2 h.le), if_pos h, if_pos h, hl]

theorem qReduceBinOpUnwrap_swap (cfg : Cfg) (u v : QInt) :
    x.qReduceBinOpUnwrap cfg v u = (x.qReduceBinOpUnwrap cfg u v).map Prod.swap := by
  unfold qReduceBinOpUnwrap
  rw [qReduceBinOp_swap]
  cases x.qReduceBinOp cfg u v with
  | error e => rfl
  | ok o => cases o <;> rfl

/-- the two reduced operands have one discriminant, and it is that of one of the operands -/
theorem qReduceBinOpUnwrap_root (cfg : Cfg) (u v : QInt) {p : QInt × QInt}
    (h : x.qReduceBinOpUnwrap cfg u v = .ok p) : p.1.d = p.2.d ∧ (p.1 = u ∨ p.2 = v) := by
  have hs : ∀ q : QInt × QInt, qMatch q = some p → p.1.d = p.2.d ∧ p = q := fun q e => by
    unfold qMatch at e
    by_cases hq : q.1.d = q.2.d
    · rw [if_pos hq] at e; cases e; exact ⟨hq, rfl⟩
    · rw [if_neg hq] at e; cases e
  have hb : ∀ (e : Res Int) (s : QInt) (g : QInt → QInt × QInt), ((do
        let hint ← e
        let l' ← x.qReduceRootHinted cfg s hint
        return qMatch (g l')) : Res (Option (QInt × QInt))) = .ok (some p) →
      p.1.d = p.2.d ∧ ∃ l', p = g l' := fun e s g h => by
    cases e with
    | error e => cases h
    | ok w =>
      simp only [ok_bind] at h
      cases h' : x.qReduceRootHinted cfg s w with
      | error e => rw [h'] at h; cases h
      | ok l' => rw [h'] at h; exact ⟨(hs _ (Except.ok.inj h)).1, l', (hs _ (Except.ok.inj h)).2⟩
  have h1 : ∀ e, ((do
        let hint ← e
        let l' ← x.qReduceRootHinted cfg u hint
        return qMatch (l', v)) : Res (Option (QInt × QInt))) = .ok (some p) → p.1.d = p.2.d ∧ (p.1 = u ∨ p.2 = v) :=
    fun e h => by
      obtain ⟨a, l', b⟩ := hb e u (fun l' => (l', v)) h
      exact ⟨a, .inr (by rw [b])⟩
  have h2 : ∀ e, ((do
        let hint ← e
        let l' ← x.qReduceRootHinted cfg v hint
        return qMatch (u, l')) : Res (Option (QInt × QInt))) = .ok (some p) → p.1.d = p.2.d ∧ (p.1 = u ∨ p.2 = v) :=
    fun e h => by
      obtain ⟨a, l', b⟩ := hb e v (fun l' => (u, l')) h
      exact ⟨a, .inl (by rw [b])⟩
  have h3 : qMatch (u, v) = some p → p.1.d = p.2.d ∧ (p.1 = u ∨ p.2 = v) := fun h => by
    obtain ⟨a, b⟩ := hs _ h
    exact ⟨a, .inl (by rw [b])⟩
  unfold qReduceBinOpUnwrap at h
  cases e : x.qReduceBinOp cfg u v with
  | error e' => rw [e] at h; cases h
  | ok o =>
    rw [e] at h
    cases o with
    | none => cases h
    | some q =>
      cases h
      unfold qReduceBinOp at e
      split at e
      · split at e
        · cases e
        · cases k1 : x.abs u.d with
          | error e' => rw [k1] at e; cases e
          | ok al =>
            cases k2 : x.abs v.d with
            | error e' => rw [k1, k2] at e; cases e
            | ok ar =>
              simp only [k1, k2, ok_bind] at e
              split at e
              · exact h1 _ e
              · split at e
                · exact h2 _ e
                · exact h3 (Except.ok.inj e)
      · split at e
        · cases e
        · split at e
          · exact h1 _ e
          · split at e
            · exact h2 _ e
            · exact h3 (Except.ok.inj e)

end Fx
end NumIrr
