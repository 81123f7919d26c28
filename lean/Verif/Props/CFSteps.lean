/-
C107: how many rounds the conversion of a surd takes, for every surd.
-/
import Verif.Props.CFLength
import Verif.Lemmas.HeadBound

namespace NumIrr
namespace Surd

open Lagrange

private theorem signed_sq (σ : Bool) (b : ℤ) (r : ℤ) : r * signed σ b * signed σ b = r * b * b := by
  cases σ
  · rfl
  · simp only [signed, if_true]; ring

private theorem propagate_length (debug : Bool) (neg : Option Bool) (negate : Bool) : ∀ (l : List ℤ) (t : ℤ) (s : CF.NewSt),
    CF.propagate debug neg negate l t = .ok s → s.stack.length ≤ l.length + 2
  | [], _, _, h => by cases h
  | [am1], t, s, h => by
    unfold CF.propagate at h
    split at h; · cases h
    split at h; · cases h; simp
    split at h; · cases h; simp
    split at h; · cases h
    cases h; simp
  | am1 :: am2 :: rest, t, s, h => by
    unfold CF.propagate at h
    split at h; · cases h
    split at h; · cases h; simp
    split at h
    · split at h
      · have := propagate_length debug neg negate rest _ s h
        simp only [List.length_cons]; omega
      · cases h; simp only [List.length_cons]; omega
    split at h; · cases h
    cases h; simp

private theorem newStep_length {debug : Bool} {s s' : CF.NewSt} {a : ℤ} (h : CF.newStep debug s a = .ok s') :
    s'.stack.length ≤ s.stack.length + 2 := by
  obtain ⟨st, neg, negate⟩ := s
  unfold CF.newStep at h
  simp only at h
  generalize (if negate = true then 0 - a else a) = a at h
  cases st with
  | nil =>
    simp only at h
    split at h <;> (cases h; simp)
  | cons top rest =>
    simp only at h
    split at h
    · split at h
      · cases h; simp only [List.length_cons]; omega
      · cases h; simp
    · split at h
      · exact propagate_length _ _ _ _ _ _ h
      · cases rest with
        | nil => cases h; simp
        | cons am2 rest =>
          simp only at h
          split at h
          · cases h; simp only [List.length_cons]; omega
          · cases h; simp

private theorem newLoop_length {debug : Bool} : ∀ {l : List ℤ} {s s' : CF.NewSt}, CF.newLoop debug s l = .ok s' →
    s'.stack.length ≤ s.stack.length + 2 * l.length
  | [], s, s', h => by cases h; simp
  | a :: l, s, s', h => by
    unfold CF.newLoop at h
    cases e : CF.newStep debug s a with
    | error x => rw [e] at h; cases h
    | ok s1 =>
      rw [e] at h
      have h1 := newStep_length e
      have h2 := newLoop_length (l := l) (s := s1) (s' := s') h
      simp only [List.length_cons]; omega

private theorem toUnsignedAll_length : ∀ {l : List ℤ} {m : List ℕ}, CF.toUnsignedAll l = .ok m → m.length = l.length
  | [], m, h => by cases h; rfl
  | a :: l, m, h => by
    unfold CF.toUnsignedAll at h
    cases e : CF.toUnsigned a with
    | error x => rw [e] at h; cases h
    | ok n =>
      rw [e] at h
      cases e' : CF.toUnsignedAll l with
      | error x => rw [e'] at h; cases h
      | ok ns =>
        rw [e'] at h
        cases h
        simp [toUnsignedAll_length e']

private theorem new_length {debug : Bool} {l p : List ℤ} {neg : Bool} {c : CF} (hp : p ≠ [])
    (h : CF.new debug l p neg = .ok c) : c.a.length ≤ 2 * l.length := by
  have hp' : ¬ p.length = 0 := fun e => hp (List.length_eq_zero_iff.1 e)
  unfold CF.new at h
  rw [if_neg (by simp [hp'])] at h
  cases e : CF.newLoop debug ⟨[], none, neg⟩ l with
  | error x => rw [e] at h; cases h
  | ok s =>
    rw [e] at h
    have h1 := newLoop_length e
    simp only [List.length_nil, zero_add] at h1
    change (if _ then _ else _) = _ at h
    rw [if_neg (by simp [hp'])] at h
    simp only [hp', if_false] at h
    cases e1 : CF.finalSign s.negative s.negate p with
    | error x => rw [e1] at h; cases h
    | ok b =>
      rw [e1] at h
      cases e2 : CF.toUnsignedAll s.stack.reverse with
      | error x => simp only [e2] at h; cases h
      | ok a' =>
        have h2 := toUnsignedAll_length e2
        cases e3 : CF.toUnsignedAll p with
        | error x => simp only [e2, e3] at h; cases h
        | ok p' =>
          simp only [e2, e3] at h
          cases h
          simp only [List.length_reverse] at h2
          exact h2.trans_le h1

private theorem start_small (cfg : Cfg) {s : Surd} (h : s.RealOk) (hr : s.r ≠ 0) {n : ℕ} (hn : s.c < 2 ^ n) :
    ∃ σ p q, Valid s.cfDisc p q ∧ Root s.cfDisc (isqrt s.cfDisc) ∧ q.natAbs < 4 ^ n ∧
      ∀ fuel, s.toContfrac cfg fuel =
        (cfOfState cfg.debug fuel s.cfDisc (isqrt s.cfDisc) p q σ).map fun x => x.map some := by
  obtain ⟨σ, hσ, e⟩ := toContfrac_start cfg h hr
  have hb : s.b ≠ 0 := fun e => hr (h.rational.1 e)
  have hb' : signed σ s.b ≠ 0 := by cases σ <;> simp [signed, hb]
  have hdisc : disc (signed σ s.a) (signed σ s.b) s.c s.r = s.cfDisc := by
    unfold disc cfDisc; rw [signed_sq]
    have : signed σ s.a * signed σ s.a = s.a * s.a := by cases σ <;> simp [signed]
    rw [this]
  have hroot := disc_root (a := signed σ s.a) h.c_pos h.real (h.irrational hr) hb'
  obtain ⟨p, q, h1, h2, -⟩ := pqForm_spec (a := signed σ s.a) (b := signed σ s.b) (r := s.r) h.c_pos
  have hc := h.c_pos
  have hq : q.natAbs < 4 ^ n := by
    have h4 : (4 : ℤ) ^ n = 2 ^ n * 2 ^ n := by rw [← mul_pow]; norm_num
    have : |q| < 4 ^ n := by
      by_cases hd : s.c ∣ s.r * signed σ s.b * signed σ s.b - signed σ s.a * signed σ s.a
      · have hq : |q| = s.c := by
          rw [pqForm_dvd hc hd] at h1
          have e1 := congrArg Prod.snd (congrArg Prod.snd (Except.ok.inj h1))
          simp only at e1
          rw [← e1]
          split
          · rw [abs_neg, abs_of_pos hc]
          · exact abs_of_pos hc
        rw [hq, h4]
        nlinarith
      · have hq : q = s.c * s.c := by
          rw [pqForm_ndvd hc hd] at h1
          exact (congrArg Prod.snd (congrArg Prod.snd (Except.ok.inj h1))).symm
        rw [hq, abs_of_pos (mul_pos hc hc), h4]
        exact mul_lt_mul'' hn hn hc.le hc.le
    rw [Int.abs_eq_natAbs] at this
    exact_mod_cast this
  rw [hdisc] at h1 h2 hroot
  refine ⟨σ, p, q, h2, hroot, hq, fun fuel => ?_⟩
  rw [e, quadsurd_eq cfg fuel σ hc.ne' h.real (h.irrational hr) h1 hroot.dpos.le]

/-- **C107** if `c < 2ⁿ`, then the conversion takes at most `2n + 5` rounds of the first loop and at most `R (R + 1)` rounds
of the second, or it never ends (exactly for the numbers of `surd_toContfrac_returns_iff`); so a counter of this many rounds
decides whether it ends. -/
theorem surd_toContfrac_rounds (cfg : Cfg) (s : Surd) (h : s.RealOk) (hr : s.r ≠ 0) (n : ℕ) (hn : s.c < 2 ^ n) (fuel : ℕ)
    (hf : 2 * n + 5 ≤ fuel) (hf' : ⌊√(s.cfDisc : ℝ)⌋ * (⌊√(s.cfDisc : ℝ)⌋ + 1) ≤ fuel) :
    (¬ Hangs s.cfDisc s.cfStart ↔ ∃ c, s.toContfrac cfg fuel = some (.ok (some c))) ∧
    (Hangs s.cfDisc s.cfStart ↔ s.toContfrac cfg fuel = none) := by
  obtain ⟨-, k2, k3⟩ := surd_toContfrac_returns_iff cfg s h hr
  have key : (∃ c, s.toContfrac cfg fuel = some (.ok (some c))) ∨ Hangs s.cfDisc s.cfStart := by
    obtain ⟨σ, p, q, hv, hroot, hq, e⟩ := start_small cfg h hr hn
    rcases run_bound hroot n p q hq hv with ⟨l, p', q', h1, h2⟩ | ⟨p', q', h1, h2⟩
    · left
      obtain ⟨hv', hred'⟩ := h1.valid hroot hv
      obtain ⟨ns, -, -, hper, -⟩ := period_spec hroot ⟨hv', hred'⟩
      have hlen := pRun_length hroot ⟨hv', hred'⟩ hper
      rw [hroot.floor] at hf'
      have e2 := e fuel
      unfold cfOfState at e2
      rw [headLoop_of_run hroot h1 hv fuel (by omega) []] at e2
      simp only at e2
      rw [periodLoop_of_pRun hroot hper hv' fuel (by omega) []] at e2
      simp only [Option.map_some] at e2
      revert e2
      generalize CF.new _ _ _ _ = x
      intro e2
      cases x with
      | error x => exact absurd e2 (k3 fuel x)
      | ok c => exact ⟨c, e2⟩
    · right
      refine k2.2 fun fuel => ?_
      rw [e, cfOfState_stuck cfg.debug fuel σ hroot hv h1 h2]; rfl
  constructor
  · refine ⟨fun hh => key.resolve_right hh, ?_⟩
    rintro ⟨c, hc⟩ hh
    rw [k2.1 hh fuel] at hc; cases hc
  · refine ⟨fun hh => k2.1 hh fuel, fun hh => key.resolve_left ?_⟩
    rintro ⟨c, hc⟩
    rw [hh] at hc; cases hc

example : RealOk ⟨30, -1, 1, 7⟩ ∧ (1 : ℤ) < 2 ^ 1 ∧ isqrt (cfDisc ⟨30, -1, 1, 7⟩) = 2 ∧
    toContfrac ⟨false, false⟩ 7 ⟨30, -1, 1, 7⟩ = some (.ok (some ⟨[27, 2, 1], [4, 1, 1, 1], false⟩)) := by decide +kernel

/-- So seven rounds show that `30 - √3` is never converted. -/
example (fuel : ℕ) : toContfrac ⟨false, false⟩ fuel ⟨30, -1, 1, 3⟩ = none := by
  have hw : RealOk ⟨30, -1, 1, 3⟩ := by decide +kernel
  have hd : cfDisc ⟨30, -1, 1, 3⟩ = 3 := by decide +kernel
  have hfl : ⌊√((3 : ℤ) : ℝ)⌋ = 1 := Root.floor ⟨by norm_num, by norm_num, by norm_num⟩
  have := (surd_toContfrac_rounds ⟨false, false⟩ ⟨30, -1, 1, 3⟩ hw (by decide) 1 (by decide) 7 (by norm_num)
    (by rw [hd, hfl]; norm_num)).2.2 (by decide +kernel)
  exact (surd_toContfrac_returns_iff _ _ hw (by decide)).2.1.1 this fuel

/-- **C107** if `c < 2ⁿ`, then every fraction that the conversion returns has at most `4n + 10` coefficients before its
period. -/
theorem surd_head_length (cfg : Cfg) (s : Surd) (h : s.RealOk) (hr : s.r ≠ 0) (n : ℕ) (hn : s.c < 2 ^ n) (fuel : ℕ) (c : CF)
    (hc : s.toContfrac cfg fuel = some (.ok (some c))) : c.a.length ≤ 4 * n + 10 := by
  obtain ⟨σ, p, q, hv, hroot, hq, e⟩ := start_small cfg h hr hn
  rw [e] at hc
  rcases run_bound hroot n p q hq hv with ⟨l, p', q', h1, h2⟩ | ⟨p', q', h1, h2⟩
  · cases hy : cfOfState cfg.debug fuel s.cfDisc (isqrt s.cfDisc) p q σ with
    | none => rw [hy] at hc; cases hc
    | some y =>
      rw [hy] at hc
      cases y with
      | error _ => cases hc
      | ok c' =>
        cases hc
        unfold cfOfState at hy
        cases hh : headLoop s.cfDisc (isqrt s.cfDisc) fuel [] p q with
        | none => rw [hh] at hy; cases hy
        | some z =>
          obtain ⟨l', p'', q'', rfl, h3, -⟩ := run_of_headLoop hroot fuel [] p q hv z hh
          obtain ⟨rfl, rfl, rfl⟩ := h1.det h3
          rw [hh] at hy
          simp only at hy
          obtain ⟨hv', hred'⟩ := h1.valid hroot hv
          cases hk : periodLoop s.cfDisc (isqrt s.cfDisc) p' q' fuel [] p' q' with
          | none => rw [hk] at hy; cases hy
          | some z =>
            obtain ⟨ps, rfl, h4⟩ := pRun_of_periodLoop hroot fuel [] p' q' hv' z hk
            rw [hk] at hy
            simp only [List.reverse_nil, List.nil_append, Option.some.injEq] at hy
            have hps : ps ≠ [] := by cases h4 <;> simp
            have := new_length hps hy
            omega
  · rw [cfOfState_stuck cfg.debug fuel σ hroot hv h1 h2] at hc; cases hc

example : RealOk ⟨89, 1, 55, 3⟩ ∧ (55 : ℤ) < 2 ^ 6 ∧ toContfrac ⟨false, false⟩ 40 ⟨89, 1, 55, 3⟩ =
    some (.ok (some ⟨[1, 1, 1, 1, 5], [1, 6, 1, 4, 3, 1, 1, 1, 1, 7, 95, 7, 1, 1, 1, 1, 3, 4], false⟩)) := by decide +kernel

end Surd
end NumIrr
