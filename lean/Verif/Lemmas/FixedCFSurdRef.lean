/-
Surds to continued fractions over fixed-width integers: refinement, representability and the comparison of builds.
-/
import Verif.Lemmas.FixedCFIter
import Verif.Lemmas.SurdCF
import Verif.Lemmas.FixedRel

namespace NumIrr

theorem RefinesO.rfl' {α : Type} {b : Option (Res α)} : RefinesO b b := Or.inl rfl

theorem RefinesO.mapSome {r b : Option (Res CF)} (h : RefinesO r b) :
    RefinesO (r.map fun y => y.map some) (b.map fun y => y.map some) := by
  rcases h with h | h
  · rw [h]; exact .rfl'
  · rw [h]; exact Or.inr rfl

theorem Refines.toO {α : Type} {r b : Res α} (h : Refines r b) : RefinesO (some r) (some b) := by
  rcases h with h | h
  · rw [h]; exact .rfl'
  · rw [h]; exact Or.inr rfl

/-- what is returned, if anything, has the property `P` -/
def EnsO {α : Type} (r : Option (Res α)) (P : α → Prop) : Prop := ∀ v, r = some (.ok v) → P v

namespace Fx
open CF

variable {x : Fx}

theorem divFloor_ref (a b : Int) : Refines (x.divFloor a b) (divFloorR a b) := by
  unfold divFloor divFloorR
  split
  · exact .rfl'
  · split
    · exact .rfl'
    · exact Or.inr rfl

theorem rem_refR (a b : Int) : Refines (x.rem a b) (remR a b) := by
  unfold rem remR
  split
  · exact .rfl'
  · split
    · exact .rfl'
    · exact Or.inr rfl

theorem divFloor_holds (a b : Int) : Ens (x.divFloor a b) x.Holds := by
  unfold divFloor
  split
  · exact Ens.err
  · split
    · rename_i h; exact Ens.pure (fits_holds h)
    · exact Ens.err

/-! ### the loops -/

theorem rho_ref (hc : x.checks = true) (d rd p q : Int) : Refines (x.rho d rd p q) (NumIrr.rho d rd p q) := by
  unfold rho NumIrr.rho
  refine ret_bind hc ((divFloor_ref _ _).bind fun a _ => ret_bind hc (ret_bind hc (ret_bind hc (ret_bind hc ?_))))
  exact (div_refR _ _).bind fun q' _ => .rfl'

theorem rho_holds (hw : 2 ≤ x.w) (d rd p q : Int) :
    Ens (x.rho d rd p q) (fun t => x.Holds t.1 ∧ x.Holds t.2.1 ∧ x.Holds t.2.2) := by
  unfold rho
  refine Ens.bind Ens.triv fun t1 _ => (divFloor_holds _ _).bind fun a ha => Ens.bind Ens.triv fun t2 _ => ?_
  refine (ret_holds hw _).bind fun p' hp => Ens.bind Ens.triv fun t3 _ => Ens.bind Ens.triv fun t4 _ => ?_
  exact (div_holds _ _).bind fun q' hq => Ens.pure ⟨ha, hp, hq⟩

theorem rho_rel (hc : x.checks = true) (d rd p q : Int) : Refines (x.rho d rd p q) (x.rel.rho d rd p q) := by
  unfold rho
  same_steps hc []

theorem isReduced_ref (hc : x.checks = true) (rd p q : Int) :
    Refines (x.isReduced rd p q) (.ok (NumIrr.isReduced rd p q)) := by
  unfold isReduced NumIrr.isReduced
  by_cases h1 : p ≤ rd
  · rw [if_pos h1]
    refine ret_bind hc ?_
    by_cases h2 : rd < p + q
    · rw [if_pos h2]
      exact ret_bind hc (Or.inl (by simp [h1, h2]; rfl))
    · rw [if_neg h2]
      exact Or.inl (by simp [h2]; rfl)
  · rw [if_neg h1]
    exact Or.inl (by simp [h1]; rfl)

theorem isReduced_rel (hc : x.checks = true) (rd p q : Int) :
    Refines (x.isReduced rd p q) (x.rel.isReduced rd p q) := by
  unfold isReduced
  same_steps hc []

theorem headStep_ref (hc : x.checks = true) (d rd p q : Int) :
    Refines (x.headStep d rd p q)
      (NumIrr.rho d rd p q >>= fun t => .ok (t, NumIrr.isReduced rd t.2.1 t.2.2)) := by
  unfold headStep
  exact (rho_ref hc d rd p q).bind fun t _ => (isReduced_ref hc _ _ _).bindOk .rfl'

theorem headStep_rel (hc : x.checks = true) (d rd p q : Int) :
    Refines (x.headStep d rd p q) (x.rel.headStep d rd p q) := by
  unfold headStep
  exact (rho_rel hc d rd p q).bind fun t _ => (isReduced_rel hc _ _ _).bind fun b _ => .rfl'

theorem headLoop_ref (hc : x.checks = true) (d rd : Int) : ∀ (fuel : Nat) (acc : List Int) (p q : Int),
    RefinesO (x.headLoop d rd fuel acc p q) (NumIrr.headLoop d rd fuel acc p q)
  | 0, _, _, _ => .rfl'
  | fuel + 1, acc, p, q => by
    rw [headLoop, NumIrr.headLoop]
    rcases headStep_ref hc d rd p q with h | h
    · rw [h]
      cases hr : NumIrr.rho d rd p q with
      | error e => exact .rfl'
      | ok t =>
        obtain ⟨a, p', q'⟩ := t
        show RefinesO (if NumIrr.isReduced rd p' q' = true then _ else _)
          (if NumIrr.isReduced rd p' q' = true then _ else _)
        split
        · exact .rfl'
        · exact headLoop_ref hc d rd fuel _ _ _
    · rw [h]; exact Or.inr rfl

theorem headLoop_rel (hc : x.checks = true) (d rd : Int) : ∀ (fuel : Nat) (acc : List Int) (p q : Int),
    RefinesO (x.headLoop d rd fuel acc p q) (x.rel.headLoop d rd fuel acc p q)
  | 0, _, _, _ => .rfl'
  | fuel + 1, acc, p, q => by
    rw [headLoop, headLoop]
    rcases headStep_rel hc d rd p q with h | h
    · rw [← h]
      cases x.headStep d rd p q with
      | error e => exact .rfl'
      | ok t =>
        obtain ⟨⟨a, p', q'⟩, b⟩ := t
        cases b
        · exact headLoop_rel hc d rd fuel _ _ _
        · exact .rfl'
    · rw [h]; exact Or.inr rfl

theorem headLoop_holds (hw : 2 ≤ x.w) (d rd : Int) : ∀ (fuel : Nat) (acc : List Int) (p q : Int),
    (∀ v ∈ acc, x.Holds v) → EnsO (x.headLoop d rd fuel acc p q) (fun t => ∀ v ∈ t.1, x.Holds v)
  | 0, _, _, _, _ => fun v hv => by cases hv
  | fuel + 1, acc, p, q, hacc => by
    intro v hv
    rw [headLoop] at hv
    cases hs : x.headStep d rd p q with
    | error e => rw [hs] at hv; cases hv
    | ok t =>
      obtain ⟨⟨a, p', q'⟩, b⟩ := t
      rw [hs] at hv
      have ha : x.Holds a := by
        unfold headStep at hs
        cases hr : x.rho d rd p q with
        | error e => rw [hr] at hs; cases hs
        | ok t =>
          rw [hr] at hs
          have h1 := rho_holds hw d rd p q t hr
          have : t = (a, p', q') := by
            cases hb : x.isReduced rd t.2.1 t.2.2 with
            | error e =>
              have : (x.isReduced rd t.2.1 t.2.2 >>= fun b => (.ok (t, b) : Res _)) = .ok ((a, p', q'), b) := hs
              rw [hb] at this; cases this
            | ok b' =>
              have : (x.isReduced rd t.2.1 t.2.2 >>= fun b => (.ok (t, b) : Res _)) = .ok ((a, p', q'), b) := hs
              rw [hb] at this
              cases this; rfl
          subst this
          exact h1.1
      have hacc' : ∀ v ∈ a :: acc, x.Holds v := by
        intro u hu
        rcases List.mem_cons.1 hu with rfl | hu
        · exact ha
        · exact hacc u hu
      cases b
      · exact headLoop_holds hw d rd fuel _ p' q' hacc' v hv
      · cases hv
        intro u hu
        exact hacc' u (List.mem_reverse.1 hu)

theorem periodLoop_ref (hc : x.checks = true) (d rd ip iq : Int) : ∀ (fuel : Nat) (acc : List Int) (p q : Int),
    RefinesO (x.periodLoop d rd ip iq fuel acc p q) (NumIrr.periodLoop d rd ip iq fuel acc p q)
  | 0, _, _, _ => .rfl'
  | fuel + 1, acc, p, q => by
    rw [periodLoop, NumIrr.periodLoop]
    rcases rho_ref hc d rd p q with h | h
    · rw [h]
      cases hr : NumIrr.rho d rd p q with
      | error e => exact .rfl'
      | ok t =>
        obtain ⟨a, p', q'⟩ := t
        show RefinesO (if p' = ip ∧ q' = iq then _ else _) (if p' = ip ∧ q' = iq then _ else _)
        split
        · exact .rfl'
        · exact periodLoop_ref hc d rd ip iq fuel _ _ _
    · rw [h]; exact Or.inr rfl

theorem periodLoop_rel (hc : x.checks = true) (d rd ip iq : Int) : ∀ (fuel : Nat) (acc : List Int) (p q : Int),
    RefinesO (x.periodLoop d rd ip iq fuel acc p q) (x.rel.periodLoop d rd ip iq fuel acc p q)
  | 0, _, _, _ => .rfl'
  | fuel + 1, acc, p, q => by
    rw [periodLoop, periodLoop]
    rcases rho_rel hc d rd p q with h | h
    · rw [← h]
      cases x.rho d rd p q with
      | error e => exact .rfl'
      | ok t =>
        obtain ⟨a, p', q'⟩ := t
        show RefinesO (if p' = ip ∧ q' = iq then _ else _) (if p' = ip ∧ q' = iq then _ else _)
        split
        · exact .rfl'
        · exact periodLoop_rel hc d rd ip iq fuel _ _ _
    · rw [h]; exact Or.inr rfl

theorem periodLoop_holds (hw : 2 ≤ x.w) (d rd ip iq : Int) : ∀ (fuel : Nat) (acc : List Int) (p q : Int),
    (∀ v ∈ acc, x.Holds v) → EnsO (x.periodLoop d rd ip iq fuel acc p q) (fun t => ∀ v ∈ t, x.Holds v)
  | 0, _, _, _, _ => fun v hv => by cases hv
  | fuel + 1, acc, p, q, hacc => by
    intro v hv
    rw [periodLoop] at hv
    cases hs : x.rho d rd p q with
    | error e => rw [hs] at hv; cases hv
    | ok t =>
      obtain ⟨a, p', q'⟩ := t
      rw [hs] at hv
      have ha : x.Holds a := (rho_holds hw d rd p q _ hs).1
      have hacc' : ∀ v ∈ a :: acc, x.Holds v := by
        intro u hu
        rcases List.mem_cons.1 hu with rfl | hu
        · exact ha
        · exact hacc u hu
      have hv : (if p' = ip ∧ q' = iq then some (.ok (a :: acc).reverse)
        else x.periodLoop d rd ip iq fuel (a :: acc) p' q') = some (.ok v) := hv
      split at hv
      · cases hv
        intro u hu
        exact hacc' u (List.mem_reverse.1 hu)
      · exact periodLoop_holds hw d rd ip iq fuel _ p' q' hacc' v hv

theorem pqForm_ref (hc : x.checks = true) (a b c r : Int) : Refines (x.pqForm a b c r) (NumIrr.pqForm a b c r) := by
  have hs : Refines (x.pqSign a b c) (.ok (if b < 0 then -a else a, if b < 0 then -c else c)) := by
    unfold pqSign
    split
    · exact ret_bind hc (ret_bind hc .rfl')
    · exact .rfl'
  unfold pqForm NumIrr.pqForm
  refine ret_bind hc (ret_bind hc (hs.bindOk (ret_bind hc (ret_bind hc ?_))))
  refine Refines.bind (rem_refR _ _) fun m _ => ?_
  · split
    · exact ret_bind hc (ret_bind hc (ret_bind hc (ret_bind hc .rfl')))
    · exact .rfl'

theorem pqForm_rel (hc : x.checks = true) (a b c r : Int) : Refines (x.pqForm a b c r) (x.rel.pqForm a b c r) := by
  have hs : Refines (x.pqSign a b c) (x.rel.pqSign a b c) := by
    unfold pqSign
    same_steps hc []
  unfold pqForm
  same_steps hc [hs]

theorem cfLoops_ref (hw : 2 ≤ x.w) (hc : x.checks = true) (debug : Bool) (fuel : Nat) (d p q : Int) (neg : Bool)
    (hp : ∀ as p' q' ps, NumIrr.headLoop d (isqrt d) fuel [] p q = some (.ok (as, p', q')) →
      NumIrr.periodLoop d (isqrt d) p' q' fuel [] p' q' = some (.ok ps) → ∀ v ∈ ps, 0 ≤ v) :
    RefinesO (x.cfLoops debug fuel d p q neg)
      (match sqrtR d with
      | .error e => some (.error e)
      | .ok rd => cfOfState debug fuel d rd p q neg) := by
  unfold cfLoops
  cases hrd : sqrtR d with
  | error e => exact .rfl'
  | ok rd =>
    simp only
    have hrd : isqrt d = rd := by
      unfold sqrtR at hrd
      split at hrd
      · cases hrd
      · cases hrd; rfl
    subst hrd
    unfold cfOfState
    have hH := headLoop_holds hw d (isqrt d) fuel [] p q (by simp)
    rcases headLoop_ref hc d (isqrt d) fuel [] p q with h | h
    · rw [h] at hH ⊢
      cases hh : NumIrr.headLoop d (isqrt d) fuel [] p q with
      | none => exact .rfl'
      | some t =>
        cases t with
        | error e => exact .rfl'
        | ok t =>
          obtain ⟨as, p', q'⟩ := t
          simp only
          have hP := periodLoop_holds hw d (isqrt d) p' q' fuel [] p' q' (by simp)
          rcases periodLoop_ref hc d (isqrt d) p' q' fuel [] p' q' with h2 | h2
          · rw [h2] at hP ⊢
            cases hh2 : NumIrr.periodLoop d (isqrt d) p' q' fuel [] p' q' with
            | none => exact .rfl'
            | some t =>
              cases t with
              | error e => exact .rfl'
              | ok ps =>
                refine (Prim.new_ref (prim_ok hw) hc debug as ps neg (fun v hv => ?_) (fun v hv => ?_)
                  (hp as p' q' ps hh hh2)).toO
                · exact prim_holds.2 (hH _ hh v hv)
                · exact prim_holds.2 (hP _ hh2 v hv)
          · rw [h2]; exact Or.inr rfl
    · rw [h]; exact Or.inr rfl

theorem prim_rel : x.rel.prim = x.prim.rel := rfl

theorem cfLoops_rel (hc : x.checks = true) (debug : Bool) (fuel : Nat) (d p q : Int) (neg : Bool) :
    RefinesO (x.cfLoops debug fuel d p q neg) (x.rel.cfLoops debug fuel d p q neg) := by
  unfold cfLoops
  cases sqrtR d with
  | error e => exact .rfl'
  | ok rd =>
    simp only
    rcases headLoop_rel hc d rd fuel [] p q with h | h
    · rw [← h]
      cases x.headLoop d rd fuel [] p q with
      | none => exact .rfl'
      | some t =>
        cases t with
        | error e => exact .rfl'
        | ok t =>
          obtain ⟨as, p', q'⟩ := t
          simp only
          rcases periodLoop_rel hc d rd p' q' fuel [] p' q' with h2 | h2
          · rw [← h2]
            cases x.periodLoop d rd p' q' fuel [] p' q' with
            | none => exact .rfl'
            | some t =>
              cases t with
              | error e => exact .rfl'
              | ok ps => exact (Prim.new_rel (t := x.prim) hc debug as ps neg).toO
          · rw [h2]; exact Or.inr rfl
    · rw [h]; exact Or.inr rfl

theorem quadsurd_rel (hc : x.checks = true) (cfg : Cfg) (fuel : Nat) (a b c r : Int) (neg : Bool) :
    RefinesO (x.quadsurdToContfrac cfg fuel a b c r neg) (x.rel.quadsurdToContfrac cfg fuel a b c r neg) := by
  unfold quadsurdToContfrac
  split
  · exact .rfl'
  split
  · exact .rfl'
  rcases pqForm_rel hc a b c r with h | h
  · rw [← h]
    cases x.pqForm a b c r with
    | error e => exact .rfl'
    | ok t =>
      obtain ⟨d, p, q⟩ := t
      exact cfLoops_rel hc _ _ _ _ _ _
  · rw [h]; exact Or.inr rfl

theorem cfArgs_rel (hc : x.checks = true) (cfg : Cfg) (s : Surd) : Refines (x.cfArgs cfg s) (x.rel.cfArgs cfg s) := by
  unfold cfArgs
  refine (isNegative_rel hc cfg s).bind fun n _ => ?_
  same_steps hc []

theorem toContfrac_rel (hc : x.checks = true) (cfg : Cfg) (fuel : Nat) (s : Surd) :
    RefinesO (x.toContfrac cfg fuel s) (x.rel.toContfrac cfg fuel s) := by
  unfold toContfrac
  split
  · exact .rfl'
  rcases cfArgs_rel hc cfg s with h | h
  · rw [← h]
    cases x.cfArgs cfg s with
    | error e => exact .rfl'
    | ok t =>
      obtain ⟨a, b, n⟩ := t
      exact (quadsurd_rel hc cfg fuel a b s.c s.r n).mapSome
  · rw [h]; exact Or.inr rfl

theorem quadsurd_ref (hw : 2 ≤ x.w) (hc : x.checks = true) (cfg : Cfg) (fuel : Nat) (a b c r : Int) (neg : Bool)
    (hp : ∀ d p q as p' q' ps, NumIrr.pqForm a b c r = .ok (d, p, q) →
      NumIrr.headLoop d (isqrt d) fuel [] p q = some (.ok (as, p', q')) →
      NumIrr.periodLoop d (isqrt d) p' q' fuel [] p' q' = some (.ok ps) → ∀ v ∈ ps, 0 ≤ v) :
    RefinesO (x.quadsurdToContfrac cfg fuel a b c r neg) (NumIrr.quadsurdToContfrac cfg fuel a b c r neg) := by
  unfold quadsurdToContfrac NumIrr.quadsurdToContfrac
  split
  · exact .rfl'
  split
  · exact .rfl'
  rcases pqForm_ref hc a b c r with h | h
  · rw [h]
    cases hpq : NumIrr.pqForm a b c r with
    | error e => exact .rfl'
    | ok t =>
      obtain ⟨d, p, q⟩ := t
      exact cfLoops_ref hw hc cfg.debug fuel d p q neg (fun as p' q' ps => hp d p q as p' q' ps hpq)
  · rw [h]; exact Or.inr rfl

/-- the coefficients of the second loop of the arbitrary-precision run are not negative -/
theorem period_nonneg {a b c r : Int} (hc : 0 < c) (hr : 0 ≤ r) (hs : ¬ IsSquare r) (hb : b ≠ 0) {fuel : Nat}
    {d p q : Int} {as : List Int} {p' q' : Int} {ps : List Int} (h1 : NumIrr.pqForm a b c r = .ok (d, p, q))
    (h2 : NumIrr.headLoop d (isqrt d) fuel [] p q = some (.ok (as, p', q')))
    (h3 : NumIrr.periodLoop d (isqrt d) p' q' fuel [] p' q' = some (.ok ps)) : ∀ v ∈ ps, 0 ≤ v := by
  have hroot := disc_root (a := a) hc hr hs hb
  obtain ⟨p0, q0, k1, k2, -⟩ := pqForm_spec (a := a) (b := b) (r := r) hc
  rw [h1] at k1
  cases k1
  obtain ⟨l, p1, q1, e, hrun, -⟩ := Lagrange.run_of_headLoop hroot fuel [] p q k2 _ h2
  cases e
  obtain ⟨hv, hred⟩ := hrun.valid hroot k2
  obtain ⟨l', e, hp⟩ := Lagrange.pRun_of_periodLoop hroot fuel [] _ _ hv _ h3
  cases e
  obtain ⟨ns, -, e, -, -⟩ := hp.spec hroot ⟨hv, hred⟩
  intro v hv
  rw [List.reverse_nil, List.nil_append, e] at hv
  simp only [toInts, List.mem_map] at hv
  obtain ⟨n, -, rfl⟩ := hv
  exact Int.natCast_nonneg n

theorem quadsurd_ref_irr (hw : 2 ≤ x.w) (hx : x.checks = true) (cfg : Cfg) (fuel : Nat) {a b c r : Int} (neg : Bool)
    (hc : 0 < c) (hr : 0 ≤ r) (hs : ¬ IsSquare r) (hb : b ≠ 0) :
    RefinesO (x.quadsurdToContfrac cfg fuel a b c r neg) (NumIrr.quadsurdToContfrac cfg fuel a b c r neg) :=
  quadsurd_ref hw hx cfg fuel a b c r neg fun _ _ _ _ _ _ _ h1 h2 h3 => period_nonneg hc hr hs hb h1 h2 h3

theorem quadsurd_ref_rat (hw : 2 ≤ x.w) (hx : x.checks = true) (cfg : Cfg) (fuel : Nat) {a c : Int} (neg : Bool)
    (hc : 0 < c) :
    RefinesO (x.quadsurdToContfrac cfg fuel a 0 c 0 neg) (NumIrr.quadsurdToContfrac cfg fuel a 0 c 0 neg) := by
  refine quadsurd_ref hw hx cfg fuel a 0 c 0 neg fun d p q as p' q' ps h1 h2 h3 => ?_
  exfalso
  have hd : d = 0 ∧ q ≠ 0 ∧ q ∣ p * p := by
    by_cases h : c ∣ 0 * 0 * 0 - a * a
    · rw [pqForm_dvd hc h] at h1
      cases h1
      exact ⟨rfl, hc.ne', by simpa using h⟩
    · rw [pqForm_ndvd hc h] at h1
      cases h1
      exact ⟨by simp, (mul_pos hc hc).ne', ⟨a * a, by ring⟩⟩
  obtain ⟨rfl, hq, hd⟩ := hd
  obtain ⟨N, hN⟩ := headLoop_rational _ p q le_rfl hq hd
  have : isqrt 0 = 0 := rfl
  rw [this, hN] at h2
  split at h2 <;> cases h2

theorem cfArgs_ref (hx : x.checks = true) (cfg : Cfg) (s : Surd) :
    Refines (x.cfArgs cfg s) (s.isNegative cfg >>= fun n => .ok (if n then (-s.a, -s.b, true) else (s.a, s.b, false))) := by
  unfold cfArgs
  refine (isNegative_ref hx cfg s).bind fun n _ => ?_
  cases n
  · exact .rfl'
  · exact ret_bind hx (ret_bind hx .rfl')

/-- The conversion of a normalised surd with overflow checks panics with an overflow or does what it does for
arbitrary precision. -/
theorem toContfrac_ref (hw : 2 ≤ x.w) (hx : x.checks = true) (cfg : Cfg) (fuel : Nat) {s : Surd} (h : s.Normal) :
    RefinesO (x.toContfrac cfg fuel s) (s.toContfrac cfg fuel) := by
  unfold toContfrac Surd.toContfrac
  by_cases hr0 : s.r < 0
  · rw [if_pos hr0, if_pos hr0]; exact .rfl'
  rw [if_neg hr0, if_neg hr0]
  have hq : ∀ σ : Bool, ∀ a b : Int, (b = 0 ↔ s.b = 0) →
      RefinesO (x.quadsurdToContfrac cfg fuel a b s.c s.r σ) (NumIrr.quadsurdToContfrac cfg fuel a b s.c s.r σ) := by
    intro σ a b hb
    by_cases hr : s.r = 0
    · rw [hr, hb.2 (h.rational.2 hr)]
      exact quadsurd_ref_rat hw hx cfg fuel σ h.c_pos
    · exact quadsurd_ref_irr hw hx cfg fuel σ h.c_pos (by omega) (h.irrational hr)
        (fun e => hr (h.rational.1 (hb.1 e)))
  rcases cfArgs_ref hx cfg s with e | e
  · rw [e]
    cases s.isNegative cfg with
    | error e => exact .rfl'
    | ok n =>
      cases n
      · exact (hq false s.a s.b Iff.rfl).mapSome
      · exact (hq true (-s.a) (-s.b) (by omega)).mapSome
  · rw [e]; exact Or.inr rfl

theorem cfLoops_holds (debug : Bool) (fuel : Nat) (d p q : Int) (neg : Bool) :
    EnsO (x.cfLoops debug fuel d p q neg) (CF.Fits x.w) := by
  intro c hc
  unfold cfLoops at hc
  split at hc
  · cases hc
  · split at hc
    · cases hc
    · cases hc
    · split at hc
      · cases hc
      · cases hc
      · exact Prim.new_holds x.prim debug _ _ neg c (Option.some.inj hc)

theorem toContfrac_holds (cfg : Cfg) (fuel : Nat) (s : Surd) :
    EnsO (x.toContfrac cfg fuel s) (fun o => ∀ c, o = some c → c.Fits x.w) := by
  intro o ho c hc
  subst hc
  unfold toContfrac at ho
  split at ho
  · cases ho
  · split at ho
    · cases ho
    · rename_i a b n _
      cases hq : x.quadsurdToContfrac cfg fuel a b s.c s.r n with
      | none => rw [hq] at ho; cases ho
      | some y =>
        rw [hq] at ho
        cases y with
        | error e => cases ho
        | ok c' =>
          cases ho
          unfold quadsurdToContfrac at hq
          split at hq
          · cases hq
          split at hq
          · cases hq
          split at hq
          · cases hq
          · exact cfLoops_holds cfg.debug fuel _ _ _ n c hq

end Fx
end NumIrr
