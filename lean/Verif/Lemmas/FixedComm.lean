/-
Swapping the operands of `+` and `*` on surds over fixed-width integers: the steps that come in another order either
succeed or panic with the same error.
-/
import Verif.Lemmas.FixedHolds
import Verif.Lemmas.FixedWrap
import Verif.Lemmas.FixedSqrt
import Verif.Lemmas.SurdOps

namespace NumIrr
namespace Fx
open Surd (ok_bind)

variable {x : Fx}

theorem ret_swap {β : Type} (u v : Int) (f : Int → Int → Res β) :
    (x.ret u >>= fun a => x.ret v >>= fun b => f a b) = (x.ret v >>= fun b => x.ret u >>= fun a => f a b) := by
  unfold ret
  split_ifs <;> rfl

theorem div_swap {β : Type} (u v d : Int) (f : Int → Int → Res β) :
    (x.div u d >>= fun a => x.div v d >>= fun b => f a b) = (x.div v d >>= fun b => x.div u d >>= fun a => f a b) := by
  unfold div
  split_ifs <;> rfl

theorem add_swap (a b : Int) : x.add a b = x.add b a := by unfold add; rw [add_comm]
theorem mul_swap (a b : Int) : x.mul a b = x.mul b a := by unfold mul; rw [mul_comm]
theorem gcd_swap (a b : Int) : x.gcd a b = x.gcd b a := by unfold gcd igcd; rw [Int.gcd_comm]

theorem coeffsAdd_swap (l r : Coeffs) : x.coeffsAdd l r = x.coeffsAdd r l := by
  unfold coeffsAdd
  by_cases h : l.c = r.c
  · rw [if_pos h, if_pos h.symm, add_swap l.a, add_swap l.b, h]
  · rw [if_neg h, if_neg (Ne.symm h)]
    unfold mul
    rw [ret_swap (l.a * r.c) (r.a * l.c)]
    refine bind_congr fun t2 => bind_congr fun t1 => ?_
    rw [add_swap t1 t2]
    refine bind_congr fun a => ?_
    rw [ret_swap (l.b * r.c) (r.b * l.c)]
    refine bind_congr fun t4 => bind_congr fun t3 => ?_
    rw [add_swap t3 t4, mul_comm r.c]

theorem coeffsMul_swap (l r : Coeffs) (d : Int) : x.coeffsMul l r d = x.coeffsMul r l d := by
  unfold coeffsMul
  rw [mul_swap l.a r.a, mul_swap l.b r.b]
  refine bind_congr fun t1 => bind_congr fun t2 => bind_congr fun t3 => bind_congr fun a => ?_
  rw [mul_swap l.a r.b, mul_swap l.b r.a, mul_swap l.c r.c]
  unfold mul
  rw [ret_swap (r.b * l.a) (r.a * l.b)]
  refine bind_congr fun t4 => bind_congr fun t3 => ?_
  rw [add_swap]

theorem sameRoot_swap (p : Surd × Surd) : sameRoot p.swap = (sameRoot p).map Prod.swap := by
  unfold sameRoot
  by_cases h : p.1.r = p.2.r
  · rw [if_pos h, if_pos (show p.swap.1.r = p.swap.2.r from h.symm)]; rfl
  · rw [if_neg h, if_neg (show ¬ p.swap.1.r = p.swap.2.r from Ne.symm h)]; rfl

theorem reduceBinOp_swap (cfg : Cfg) (l r : Surd) :
    x.reduceBinOp cfg r l = (x.reduceBinOp cfg l r).map (Option.map Prod.swap) := by
  have hl : ∀ e, ((do
        let hint ← e
        let l' ← x.reduceRootHinted l hint
        return sameRoot (r, l')) : Res (Option (Surd × Surd))) =
      Except.map (Option.map Prod.swap) (do
        let hint ← e
        let l' ← x.reduceRootHinted l hint
        return sameRoot (l', r)) := fun e => by
    cases e with
    | error e => rfl
    | ok h =>
      cases h' : x.reduceRootHinted l h with
      | error e => simp only [ok_bind, h']; rfl
      | ok l' => simp only [ok_bind, h']; exact congrArg Except.ok (sameRoot_swap (l', r))
  have hr : ∀ e, ((do
        let hint ← e
        let r' ← x.reduceRootHinted r hint
        return sameRoot (r', l)) : Res (Option (Surd × Surd))) =
      Except.map (Option.map Prod.swap) (do
        let hint ← e
        let r' ← x.reduceRootHinted r hint
        return sameRoot (l, r')) := fun e => by
    cases e with
    | error e => rfl
    | ok h =>
      cases h' : x.reduceRootHinted r h with
      | error e => simp only [ok_bind, h']; rfl
      | ok l' => simp only [ok_bind, h']; exact congrArg Except.ok (sameRoot_swap (l, l'))
  unfold reduceBinOp
  cases cfg.complex
  · simp only [Bool.false_eq_true, if_false]
    by_cases hd : cfg.debug = true ∧ (l.r = 0 ∨ r.r = 0)
    · rw [if_pos hd, if_pos ⟨hd.1, hd.2.symm⟩]; rfl
    · rw [if_neg hd, if_neg fun h => hd ⟨h.1, h.2.symm⟩]
      rcases lt_trichotomy l.r r.r with h | h | h
      · rw [if_pos h, if_neg (not_lt.2 h.le), if_pos h, hr]
      · rw [if_neg (by omega), if_neg (by omega), if_neg (by omega), if_neg (by omega)]
        exact congrArg Except.ok (sameRoot_swap (l, r))
      · rw [if_neg (not_lt.2 h.le), if_pos h, if_pos h, hl]
  · simp only [if_true]
    rw [Bool.xor_comm]
    by_cases hd : (decide (l.r < 0) ^^ decide (r.r < 0)) = true
    · rw [if_pos hd, if_pos hd]; rfl
    · rw [if_neg hd, if_neg hd]
      unfold abs
      rw [ret_swap]
      cases e1 : x.ret (l.r.natAbs : Int) with
      | error e => rfl
      | ok al =>
        cases e2 : x.ret (r.r.natAbs : Int) with
        | error e => rfl
        | ok ar =>
          simp only [ok_bind]
          rcases lt_trichotomy al ar with h | h | h
          · rw [if_pos h, if_neg (not_lt.2 h.le), if_pos h, hr]
          · rw [if_neg (by omega), if_neg (by omega), if_neg (by omega), if_neg (by omega)]
            exact congrArg Except.ok (sameRoot_swap (l, r))
          · rw [if_neg (not_lt.2 h.le), if_pos h, if_pos h, hl]

theorem reduceBinOpUnwrap_swap (cfg : Cfg) (l r : Surd) :
    x.reduceBinOpUnwrap cfg r l = (x.reduceBinOpUnwrap cfg l r).map Prod.swap := by
  unfold reduceBinOpUnwrap
  rw [reduceBinOp_swap]
  cases x.reduceBinOp cfg l r with
  | error e => rfl
  | ok o => cases o <;> rfl

theorem reduceBinOpUnwrap_root (cfg : Cfg) (l r : Surd) {p : Surd × Surd} (h : x.reduceBinOpUnwrap cfg l r = .ok p) :
    p.1.r = p.2.r := by
  have hs : ∀ q : Surd × Surd, sameRoot q = some p → p.1.r = p.2.r := fun q e => by
    unfold sameRoot at e
    by_cases hq : q.1.r = q.2.r
    · rw [if_pos hq] at e; cases e; exact hq
    · rw [if_neg hq] at e; cases e
  have hb : ∀ (e : Res Int) (s : Surd) (g : Surd → Surd × Surd), ((do
        let hint ← e
        let l' ← x.reduceRootHinted s hint
        return sameRoot (g l')) : Res (Option (Surd × Surd))) = .ok (some p) → p.1.r = p.2.r := fun e s g h => by
    cases e with
    | error e => cases h
    | ok v =>
      simp only [ok_bind] at h
      cases h' : x.reduceRootHinted s v with
      | error e => rw [h'] at h; cases h
      | ok l' => rw [h'] at h; exact hs _ (Except.ok.inj h)
  unfold reduceBinOpUnwrap at h
  cases e : x.reduceBinOp cfg l r with
  | error e' => rw [e] at h; cases h
  | ok o =>
    rw [e] at h
    cases o with
    | none => cases h
    | some q =>
      cases h
      unfold reduceBinOp at e
      split at e
      · split at e
        · cases e
        · cases h1 : x.abs l.r with
          | error e' => rw [h1] at e; cases e
          | ok al =>
            cases h2 : x.abs r.r with
            | error e' => rw [h1, h2] at e; cases e
            | ok ar =>
              simp only [h1, h2, ok_bind] at e
              split at e
              · exact hb _ _ (fun l' => (l', r)) e
              · split at e
                · exact hb _ _ (fun r' => (l, r')) e
                · exact hs _ (Except.ok.inj e)
      · split at e
        · cases e
        · split at e
          · exact hb _ _ (fun l' => (l', r)) e
          · split at e
            · exact hb _ _ (fun r' => (l, r')) e
            · exact hs _ (Except.ok.inj e)

/-- a rational number in lowest terms is what `Ratio::new` makes of its two parts -/
theorem ratio_normal (hw : 2 ≤ x.w) {s : Surd} (hs : s.Normal) (hh : x.HoldsS s) (h0 : s.b = 0) :
    x.ratio s.a s.c = .ok ⟨s.a, s.c⟩ := by
  have hg : Int.gcd s.a s.c = 1 := by
    have h1 := hs.coprime (Int.gcd s.a s.c) (Int.gcd_dvd_left ..) (by rw [h0]; exact dvd_zero _) (Int.gcd_dvd_right ..)
    have := Int.isUnit_iff.1 h1
    omega
  have hc := hs.c_pos
  have one : x.fits 1 = true := holds_fits (by
    have : (2 : Int) ^ 1 ≤ 2 ^ (x.w - 1) := pow_le_pow_right₀ (by norm_num) (by omega)
    constructor <;> omega)
  unfold ratio
  rw [if_neg (by omega)]
  split
  · rename_i h
    have : s.c = 1 := by
      rw [h, Int.gcd_zero_left] at hg; omega
    rw [h, this]
  · split
    · rename_i h
      have : s.c = 1 := by
        rw [h, Int.gcd_self] at hg; omega
      rw [h, this]
    · have hd : ∀ v, x.Holds v → x.div v 1 = .ok v := fun v hv => by
        unfold div
        rw [if_neg (by decide), Int.tdiv_one, if_pos (holds_fits hv)]
      unfold gcd igcd
      rw [hg]
      unfold ret
      rw [if_pos (by exact_mod_cast one)]
      simp only [ok_bind, Nat.cast_one, hd _ hh.1, hd _ hh.2.2.1]
      rw [if_neg (by omega)]
      rfl

end Fx
end NumIrr
