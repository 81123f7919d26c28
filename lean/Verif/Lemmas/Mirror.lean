/-
Runs on the negative of a generalized continued fraction mirror the runs on the fraction.
-/
import Verif.Spec.Mirror
import Verif.Lemmas.DecStep
import Verif.Lemmas.CFConv
import Mathlib.Tactic.NormNum
import Mathlib.Tactic.Linarith

namespace NumIrr
open Filter Topology

namespace Block

/-- the block met on the negative fraction; `e` is a sign -/
def mirror (e : ℤ) (m : Block) : Block := ⟨e * m.pm1, -e * m.pm2, -e * m.qm1, e * m.qm2⟩

variable {e : ℤ}

private theorem igcd_sign (he : e = 1 ∨ e = -1) (p q : ℤ) : igcd (e * p) q = igcd p q ∧ igcd p (e * q) = igcd p q := by
  rcases he with rfl | rfl <;> simp [igcd]

private theorem igcd_sign' (he : e = 1 ∨ e = -1) (p q : ℤ) : igcd (-e * p) q = igcd p q ∧ igcd p (-e * q) = igcd p q :=
  igcd_sign (by omega) p q

private theorem tdiv_sign (he : e = 1 ∨ e = -1) (p g : ℤ) : (e * p).tdiv g = e * p.tdiv g := by
  rcases he with rfl | rfl <;> simp

private theorem tdiv_sign' (he : e = 1 ∨ e = -1) (p g : ℤ) : (-e * p).tdiv g = -e * p.tdiv g := tdiv_sign (by omega) p g

theorem mirror_gmove (he : e = 1 ∨ e = -1) (m : Block) (a b : ℤ) :
    (m.mirror e).gmove a (-b) = (m.gmove a b).mirror (-e) := by
  have h1 : (m.mirror e).pm1 * -b + (m.mirror e).pm2 * a = -e * (m.pm1 * b + m.pm2 * a) := by simp only [mirror]; ring
  have h2 : (m.mirror e).qm1 * -b + (m.mirror e).qm2 * a = e * (m.qm1 * b + m.qm2 * a) := by simp only [mirror]; ring
  unfold gmove
  simp only [h1, h2]
  generalize m.pm1 * b + m.pm2 * a = p
  generalize m.qm1 * b + m.qm2 * a = q
  have h3 : igcd (igcd (igcd (-e * p) (e * q)) (m.mirror e).pm1) (m.mirror e).qm1 = igcd (igcd (igcd p q) m.pm1) m.qm1 := by
    simp only [mirror]
    rw [(igcd_sign' he _ _).1, (igcd_sign he _ _).2, (igcd_sign he _ _).2, (igcd_sign' he _ _).2]
  rw [h3]
  generalize igcd (igcd (igcd p q) m.pm1) m.qm1 = g
  split
  · simp only [mirror, update, tdiv_sign he, tdiv_sign' he, neg_neg]
  · simp only [mirror, update, neg_neg]

theorem mirror_checked {fits : ℤ → Bool} (hf : ∀ n, fits n = true) (he : e = 1 ∨ e = -1) (m : Block) (a b : ℤ) :
    ∃ p q m', m.checkedGmove fits a b = (some (p, q), m') ∧
      (m.mirror e).checkedGmove fits a (-b) = (some (-e * p, e * q), m'.mirror e) ∧
      (m'.mirror e).update (-e * p) (e * q) = (m'.update p q).mirror (-e) := by
  have h1 : -b * (m.mirror e).pm1 + a * (m.mirror e).pm2 = -e * (b * m.pm1 + a * m.pm2) := by simp only [mirror]; ring
  have h2 : -b * (m.mirror e).qm1 + a * (m.mirror e).qm2 = e * (b * m.qm1 + a * m.qm2) := by simp only [mirror]; ring
  unfold checkedGmove
  simp only [hf, Bool.and_self, if_true, h1, h2]
  generalize b * m.pm1 + a * m.pm2 = p
  generalize b * m.qm1 + a * m.qm2 = q
  have h3 : igcd (igcd (igcd (-e * p) (e * q)) (m.mirror e).pm1) (m.mirror e).qm1 = igcd (igcd (igcd p q) m.pm1) m.qm1 := by
    simp only [mirror]
    rw [(igcd_sign' he _ _).1, (igcd_sign he _ _).2, (igcd_sign he _ _).2, (igcd_sign' he _ _).2]
  rw [h3]
  generalize igcd (igcd (igcd p q) m.pm1) m.qm1 = g
  split
  · refine ⟨_, _, _, rfl, ?_, ?_⟩
    · simp only [mirror, tdiv_sign he, tdiv_sign' he]
    · simp only [mirror, update, neg_neg]
  · exact ⟨_, _, _, rfl, rfl, by simp only [mirror, update, neg_neg]⟩

theorem mirror_check (he : e = 1 ∨ e = -1) (m : Block) :
    (m.mirror e).checkInteger = m.checkInteger.map fun t => (-t.1, e * t.2.1, -e * t.2.2) := by
  unfold checkInteger
  have q1 : (m.mirror e).qm1 = 0 ↔ m.qm1 = 0 := by simp only [mirror]; rcases he with rfl | rfl <;> simp
  have q2 : (m.mirror e).qm2 = 0 ↔ m.qm2 = 0 := by simp only [mirror]; rcases he with rfl | rfl <;> simp
  simp only [q1, q2]
  have d1 : (m.mirror e).pm1.tdiv (m.mirror e).qm1 = -m.pm1.tdiv m.qm1 := by
    simp only [mirror]; rcases he with rfl | rfl <;> simp
  have d2 : (m.mirror e).pm2.tdiv (m.mirror e).qm2 = -m.pm2.tdiv m.qm2 := by
    simp only [mirror]; rcases he with rfl | rfl <;> simp
  have r1 : (m.mirror e).pm1.tmod (m.mirror e).qm1 = e * m.pm1.tmod m.qm1 := by
    simp only [mirror]; rcases he with rfl | rfl <;> simp
  have r2 : (m.mirror e).pm2.tmod (m.mirror e).qm2 = -e * m.pm2.tmod m.qm2 := by
    simp only [mirror]; rcases he with rfl | rfl <;> simp
  rw [d1, d2, r1, r2]
  by_cases h : m.qm1 = 0 ∨ m.qm2 = 0
  · rw [if_pos h, if_pos h]; rfl
  · rw [if_neg h, if_neg h]
    by_cases h' : m.pm1.tdiv m.qm1 = m.pm2.tdiv m.qm2
    · rw [if_pos h', if_pos (by rw [h'])]; rfl
    · rw [if_neg h', if_neg (by simpa using h')]; rfl

end Block

namespace GIter
open Block

/-- the state met on the negative fraction -/
def Mir (s t : GIter) : Prop :=
  ∃ e : ℤ, (e = 1 ∨ e = -1) ∧ t = ⟨s.block.mirror e, negPairs s.src, s.pos⟩

theorem mir_new (src : ℕ → Option (ℤ × ℤ)) : Mir (new src) (new (negPairs src)) :=
  ⟨1, .inl rfl, by simp [new, mirror, identity]⟩

theorem mir_simp : ∀ (fuel : ℕ) (s t : GIter), Mir s t →
    (simpNext fuel s = none ∧ simpNext fuel t = none) ∨
    ∃ v s' t', simpNext fuel s = some (v, s') ∧ simpNext fuel t = some (v.map (-·), t') ∧ Mir s' t' := by
  intro fuel
  induction fuel with
  | zero => intro s t _; exact .inl ⟨rfl, rfl⟩
  | succ n ih =>
    rintro s t ⟨e, he, rfl⟩
    rw [simpNext, simpNext]
    simp only [reduceRecip, mirror_check he]
    cases hc : s.block.checkInteger with
    | some r =>
      obtain ⟨i, r1, r2⟩ := r
      refine .inr ⟨some i, _, _, rfl, rfl, -e, by omega, ?_⟩
      simp only [mirror, neg_neg]
    | none =>
      simp only [Option.map_none, negPairs]
      cases hs : s.src s.pos with
      | none => exact .inr ⟨none, _, _, rfl, rfl, e, he, rfl⟩
      | some p =>
        obtain ⟨a, b⟩ := p
        simp only [Option.map_some]
        refine ih _ _ ⟨-e, by omega, ?_⟩
        rw [mirror_gmove he]

theorem mir_conv (s t : GIter) (h : Mir s t) :
    (s.convNext IntTy.big = .error .divZero ∧ t.convNext IntTy.big = .error .divZero) ∨
    ∃ v s' t', s.convNext IntTy.big = .ok (v, s') ∧ t.convNext IntTy.big = .ok (v.map (-·), t') ∧ Mir s' t' := by
  obtain ⟨e, he, rfl⟩ := h
  unfold convNext
  simp only [negPairs]
  cases hs : s.src s.pos with
  | none => exact .inr ⟨none, _, _, rfl, rfl, e, he, rfl⟩
  | some p =>
    obtain ⟨a, b⟩ := p
    simp only [Option.map_some]
    obtain ⟨p, q, m', h1, h2, h3⟩ := mirror_checked (fits := IntTy.big.fits) (fun _ => rfl) he s.block a b
    rw [h1, h2]
    simp only [ratioNew]
    have q0 : e * q = 0 ↔ q = 0 := by rcases he with rfl | rfl <;> simp
    by_cases hq : q = 0
    · rw [if_pos hq, if_pos (q0.2 hq)]; exact .inl ⟨rfl, rfl⟩
    · rw [if_neg hq, if_neg (fun h => hq (q0.1 h))]
      have hv : Rat.divInt (-e * p) (e * q) = -Rat.divInt p q := by
        rcases he with rfl | rfl <;> simp [Rat.divInt_eq_div, neg_div, div_neg]
      refine .inr ⟨_, _, ⟨(m'.mirror e).update (-e * p) (e * q), negPairs s.src, s.pos + 1⟩, rfl, ?_, -e, by omega, ?_⟩
      · rw [hv]; rfl
      · rw [h3]

/-- the loop of `decimals` without the conversion to a character -/
def decRaw : ℕ → GIter → Option (Option ℤ × GIter)
  | 0, _ => none
  | fuel + 1, s =>
    match s.block.checkInteger with
    | some (i, r1, r2) => some (some i, { s with block := s.block.afterMul r1 r2 })
    | none =>
      match s.src s.pos with
      | none => some (none, { s with pos := s.pos + 1 })
      | some (a, b) =>
        match s.block.checkedGmove (fun _ => true) a b with
        | (none, m') => some (none, { s with block := m', pos := s.pos + 1 })
        | (some (p, q), m') => decRaw fuel { s with block := m'.update p q, pos := s.pos + 1 }

theorem decNext_raw (cfg : Cfg) (ty : IntTy) (hf : ∀ n, ty.fits n = true) : ∀ (fuel : ℕ) (s : GIter),
    decNext cfg ty fuel s = (decRaw fuel s).map fun r =>
      match r with
      | (none, s') => .ok (none, s')
      | (some i, s') => match digitChar cfg i with
        | .error e => .error e
        | .ok ch => .ok (some ch, s') := by
  have hf' : ty.fits = fun _ => true := funext hf
  intro fuel
  induction fuel with
  | zero => intro s; rfl
  | succ n ih =>
    intro s
    rw [decNext, decRaw]
    cases hc : s.block.checkInteger with
    | some r =>
      obtain ⟨i, r1, r2⟩ := r
      rw [reduceMulTy_of_check hf hc]
      simp only [Option.map_some]
      cases digitChar cfg i <;> rfl
    | none =>
      rw [reduceMulTy_of_none hc]
      simp only
      cases hs : s.src s.pos with
      | none => rfl
      | some p =>
        obtain ⟨a, b⟩ := p
        simp only [hf']
        obtain ⟨p, q, m', hm⟩ := checkedGmove_all (fits := fun _ => true) (fun _ => rfl) s.block a b
        rw [hm]
        exact ih _

theorem mir_dec : ∀ (fuel : ℕ) (s t : GIter), Mir s t →
    (decRaw fuel s = none ∧ decRaw fuel t = none) ∨
    ∃ v s' t', decRaw fuel s = some (v, s') ∧ decRaw fuel t = some (v.map (-·), t') ∧ Mir s' t' := by
  intro fuel
  induction fuel with
  | zero => intro s t _; exact .inl ⟨rfl, rfl⟩
  | succ n ih =>
    rintro s t ⟨e, he, rfl⟩
    rw [decRaw, decRaw]
    simp only [mirror_check he]
    cases hc : s.block.checkInteger with
    | some r =>
      obtain ⟨i, r1, r2⟩ := r
      refine .inr ⟨some i, _, _, rfl, rfl, e, he, ?_⟩
      simp only [mirror, afterMul]
      congr 2 <;> ring
    | none =>
      simp only [Option.map_none, negPairs]
      cases hs : s.src s.pos with
      | none => exact .inr ⟨none, _, _, rfl, rfl, e, he, rfl⟩
      | some p =>
        obtain ⟨a, b⟩ := p
        simp only [Option.map_some]
        obtain ⟨p, q, m', h1, h2, h3⟩ := mirror_checked (fits := fun _ => true) (fun _ => rfl) he s.block a b
        rw [h1, h2]
        simp only
        rw [h3]
        exact ih _ _ ⟨-e, by omega, rfl⟩

end GIter

/-- the pairs of a simple continued fraction converge to its value -/
theorem pairs_val {c : ℕ → ℤ} (h : PosSeq c) (h0 : 0 ≤ c 0) :
    PosG (fun k => (1, c k)) ∧ GVal (fun k => (1, c k)) (cfLim c) := by
  have hp : PosG (fun k => (1, c k)) := ⟨rfl, h0, fun k => ⟨le_rfl, h k⟩⟩
  refine ⟨hp, CTo.gVal hp ?_⟩
  have key : ∀ n, gP (fun k => (1, c k)) n = cP c n ∧ gQ (fun k => (1, c k)) n = cQ c n ∧
      gP (fun k => (1, c k)) (n + 1) = cP c (n + 1) ∧ gQ (fun k => (1, c k)) (n + 1) = cQ c (n + 1) := by
    intro n
    induction n with
    | zero => refine ⟨rfl, rfl, ?_, ?_⟩ <;> simp [gP_cons, gQ_cons]
    | succ n ih =>
      obtain ⟨h1, h2, h3, h4⟩ := ih
      refine ⟨h3, h4, ?_, ?_⟩
      · rw [gP_rec, cP_rec, h1, h3]; ring
      · rw [gQ_rec, cQ_rec, h2, h4]; ring
  unfold CTo
  simp only [(key _).2.2.1, (key _).2.2.2]
  exact cfLim_tendsto h

end NumIrr
