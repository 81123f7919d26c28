/-
Arithmetic of continued fractions over fixed-width integers, compared with arbitrary precision.
-/
import Verif.Lemmas.FixedCFToSurd
import Verif.Lemmas.SurdOps

namespace NumIrr

/-! ### Results of the operations on surds are in normal form -/

namespace Surd

theorem fromCoeffs_normal {cfg : Cfg} {t : Coeffs} {r : ℤ} {z : Surd} (h : fromCoeffs cfg t r = .ok z) : z.Normal :=
  (new_ok (a := t.a) (b := t.b) (c := t.c) h).2.toNormal

theorem neg_normal {s : Surd} (h : s.Normal) : s.neg.Normal where
  c_pos := h.c_pos
  coprime d h1 h2 h3 := h.coprime d ((dvd_neg).1 h1) ((dvd_neg).1 h2) h3
  rational := by show -s.b = 0 ↔ _; rw [neg_eq_zero]; exact h.rational
  irrational := h.irrational

theorem bind_ok {α β : Type} {r : Res α} {f : α → Res β} {z : β} (h : (r >>= f) = .ok z) : ∃ v, r = .ok v ∧ f v = .ok z := by
  cases r with
  | error e => cases h
  | ok v => exact ⟨v, rfl, h⟩

theorem add_normal {cfg : Cfg} {l r z : Surd} (h : add cfg l r = .ok z) : z.Normal := by
  unfold add at h
  split at h
  · obtain ⟨q, -, h⟩ := bind_ok h; exact fromCoeffs_normal h
  · split at h
    · obtain ⟨q, -, h⟩ := bind_ok h; exact fromCoeffs_normal h
    · obtain ⟨q, -, h⟩ := bind_ok h; exact fromCoeffs_normal h

theorem sub_normal {cfg : Cfg} {l r z : Surd} (h : sub cfg l r = .ok z) : z.Normal := by
  unfold sub at h
  split at h
  · obtain ⟨q, -, h⟩ := bind_ok h; exact fromCoeffs_normal h
  · split at h
    · obtain ⟨q, -, h⟩ := bind_ok h
      obtain ⟨d, hd, h⟩ := bind_ok h
      cases h; exact neg_normal (fromCoeffs_normal hd)
    · obtain ⟨q, -, h⟩ := bind_ok h; exact fromCoeffs_normal h

theorem mul_normal {cfg : Cfg} {l r z : Surd} (h : mul cfg l r = .ok z) : z.Normal := by
  unfold mul at h
  split at h
  · obtain ⟨q, -, h⟩ := bind_ok h; exact fromCoeffs_normal h
  · split at h
    · obtain ⟨q, -, h⟩ := bind_ok h; exact fromCoeffs_normal h
    · split at h
      · exact (new_ok h).2.toNormal
      · obtain ⟨q, -, h⟩ := bind_ok h; exact fromCoeffs_normal h

theorem div_normal {cfg : Cfg} {l r z : Surd} (h : div cfg l r = .ok z) : z.Normal := by
  unfold div at h
  split at h
  · obtain ⟨q, -, h⟩ := bind_ok h; exact fromCoeffs_normal h
  · split at h
    · obtain ⟨q, -, h⟩ := bind_ok h
      obtain ⟨d, -, h⟩ := bind_ok h
      exact (new_ok h).2.toNormal
    · split at h
      · exact (new_ok h).2.toNormal
      · obtain ⟨q, -, h⟩ := bind_ok h; exact fromCoeffs_normal h

end Surd

namespace Fx

variable {x : Fx}

/-! ### With overflow checks -/

theorem toContfracUnwrap_ref (hw : 2 ≤ x.w) (hx : x.checks = true) (cfg : Cfg) (fuel : Nat) {s : Surd} (h : s.Normal) :
    RefinesO (x.toContfracUnwrap cfg fuel s) (s.toContfracUnwrap cfg fuel) := by
  unfold toContfracUnwrap Surd.toContfracUnwrap
  rcases toContfrac_ref hw hx cfg fuel h with h | h
  · rw [h]; left
    cases s.toContfrac cfg fuel with
    | none => rfl
    | some r => cases r with
      | error e => rfl
      | ok o => cases o <;> rfl
  · rw [h]; exact .inr rfl

theorem viaSurd_ref (hw : 2 ≤ x.w) (hx : x.checks = true) (cfg : Cfg) (fuel : Nat) {c : CF} (h : c.Wf)
    (hr : c.Reads x.w) {f g : Surd → Res Surd} (hf : ∀ s, Refines (f s) (g s)) (hn : ∀ s z, g s = .ok z → z.Normal) :
    RefinesO (x.viaSurd cfg fuel c f) (CF.viaSurd cfg fuel c g) := by
  unfold viaSurd CF.viaSurd
  rcases (toSurd_ref hx cfg h hr).bind fun s _ => hf s with h1 | h1
  · rw [h1]
    cases hz : c.toSurd cfg >>= g with
    | error e => exact .rfl'
    | ok z =>
      obtain ⟨s, -, hz⟩ := Surd.bind_ok hz
      exact toContfracUnwrap_ref hw hx cfg fuel (hn s z hz)
  · rw [h1]; exact .inr rfl

theorem ofRat_ref (hw : 2 ≤ x.w) (hx : x.checks = true) {q : Rat} (h : x.HoldsR (.of q)) {fuel : Nat}
    (hf : 2 ^ x.w ≤ fuel) : RefinesO (x.ofRat fuel (.of q)) (some (.ok (CF.ofRat q))) := by
  obtain ⟨hn, hd⟩ := h
  have hp : (2 : Int) ^ x.w = 2 * 2 ^ (x.w - 1) := Prim.pow_split (by omega)
  have hq := Prim.two_pow_pos (x.w - 1)
  have e : ((2 ^ x.w : Nat) : Int) = 2 ^ x.w := by push_cast; rfl
  have hn' : x.Holds q.num := hn
  have hd' : x.Holds (q.den : Int) := hd
  by_cases hm : q.num = -2 ^ (x.w - 1)
  · right
    unfold ofRat Rt.of
    simp only
    rw [if_neg (by omega), if_pos (by omega), show x.sub 0 q.num = x.neg q.num by unfold sub neg; rw [zero_sub], hm,
      neg_min hx]
  · left
    refine ofRat_exact hw hn' hd' hm ?_
    unfold Holds at hn' hd'
    omega

theorem ratValue_exact {c : CF} (h : c.Wf) (hp : c.p = []) (hr : c.Reads x.w) :
    ∃ r : Rat, x.ratValue c = .ok (.of r) ∧ c.toRational .big = .ok (.exact r) ∧ c.valQ = some r ∧
      x.HoldsR (.of r) := by
  unfold CF.Reads at hr
  rw [if_pos hp] at hr
  obtain ⟨r, h1, h2, h3⟩ := hr
  refine ⟨r, ?_, ?_, h1, ?_, ?_⟩
  · unfold ratValue cfToRational
    rw [if_pos (by simp [CF.isRational, hp]), lastConvergent_exact h hp h1 h2 h3]
    rfl
  · unfold CF.toRational
    rw [if_pos (by simp [CF.isRational, hp]), big_lastConvergent h hp h1]
    rfl
  · show x.Holds r.num
    unfold Holds; omega
  · show x.Holds (r.den : Int)
    exact holds_natCast h3

theorem opNumber_ref (hw : 2 ≤ x.w) (hx : x.checks = true) (cfg : Cfg) {fuel : Nat} (hfuel : 2 ^ x.w ≤ fuel) {c : CF}
    (h : c.Wf) (hr : c.Reads x.w) {f : Rt → Res Rt} {f' : Rat → Res Rat} {g g' : Surd → Res Surd}
    (hf : ∀ q : Rat, Refines (f (.of q)) ((f' q).map Rt.of)) (hfh : ∀ q, Ens (f q) x.HoldsR)
    (hg : ∀ s, Refines (g s) (g' s)) (hn : ∀ s z, g' s = .ok z → z.Normal) :
    RefinesO (x.opNumber cfg fuel c f g) (CF.opNumber cfg fuel c f' g') := by
  unfold opNumber CF.opNumber
  by_cases hp : c.p = []
  · rw [if_pos (by simp [CF.isRational, hp]), if_pos (by simp [CF.isRational, hp])]
    obtain ⟨r, h1, h2, -⟩ := ratValue_exact h hp hr
    rw [h1, h2]
    simp only [Surd.ok_bind, Approx.value]
    have h3 := hf r
    cases h4 : f' r with
    | error e =>
      rw [h4] at h3
      rcases h3 with h3 | h3
      · rw [h3]; exact .rfl'
      · rw [h3]; exact .inr rfl
    | ok q =>
      rw [h4] at h3
      rcases h3 with h3 | h3
      · rw [h3]
        exact ofRat_ref hw hx (hfh _ _ h3) hfuel
      · rw [h3]; exact .inr rfl
  · rw [if_neg (by simp [CF.isRational, hp]), if_neg (by simp [CF.isRational, hp])]
    exact viaSurd_ref hw hx cfg fuel h hr hg hn

section
variable (hw : 2 ≤ x.w) (hx : x.checks = true) (cfg : Cfg) {fuel : Nat} (hfuel : 2 ^ x.w ≤ fuel) {c : CF}
  (h : c.Wf) (hr : c.Reads x.w)
include hw hx hfuel h hr

theorem cfMulInt_ref (k : Int) : RefinesO (x.cfMulInt cfg fuel c k) (c.mulInt cfg fuel k) :=
  opNumber_ref hw hx cfg hfuel h hr (fun q => rtMulInt_ref hx q k) (fun q => rtMulInt_holds hw q k)
    (fun s => surdMulInt_ref hx cfg s k) (fun _ _ => Surd.fromCoeffs_normal)

theorem cfDivInt_ref (k : Int) : RefinesO (x.cfDivInt cfg fuel c k) (c.divInt cfg fuel k) :=
  opNumber_ref hw hx cfg hfuel h hr (fun q => rtDivInt_refR hx q k) (fun q => rtDivInt_holds hw q k)
    (fun s => surdDivInt_ref hx cfg s k) (fun _ _ => Surd.fromCoeffs_normal)

theorem cfAddRat_ref (k : Rat) : RefinesO (x.cfAddRat cfg fuel c (.of k)) (c.addRat cfg fuel k) :=
  opNumber_ref hw hx cfg hfuel h hr (fun q => rtAdd_ref hx q k) (fun q => rtAdd_holds hw q _)
    (fun s => surdAddRat_ref hx cfg s k) (fun _ _ => Surd.fromCoeffs_normal)

theorem cfSubRat_ref (k : Rat) : RefinesO (x.cfSubRat cfg fuel c (.of k)) (c.subRat cfg fuel k) :=
  opNumber_ref hw hx cfg hfuel h hr (fun q => rtSub_ref hx q k) (fun q => rtSub_holds hw q _)
    (fun s => surdSubRat_ref hx cfg s k) (fun _ _ => Surd.fromCoeffs_normal)

theorem cfMulRat_ref (k : Rat) : RefinesO (x.cfMulRat cfg fuel c (.of k)) (c.mulRat cfg fuel k) :=
  opNumber_ref hw hx cfg hfuel h hr (fun q => rtMul_ref hx q k) (fun q => rtMul_holds hw q _)
    (fun s => surdMulRat_ref hx cfg s k) (fun _ _ => Surd.fromCoeffs_normal)

theorem cfDivRat_ref (k : Rat) : RefinesO (x.cfDivRat cfg fuel c (.of k)) (c.divRat cfg fuel k) :=
  opNumber_ref hw hx cfg hfuel h hr (fun q => rtDiv_refR hx q k) (fun q => rtDiv_holds hw q _)
    (fun s => surdDivRat_ref hx cfg s k) (fun _ _ => Surd.fromCoeffs_normal)

omit hfuel in
theorem opCF_ref {e : CF} (he : e.Wf) (hre : e.Reads x.w) {f : CF → Rt → Option (Res CF)}
    {f' : CF → Rat → Option (Res CF)} {g g' : Surd → Surd → Res Surd}
    (hf : ∀ q : Rat, RefinesO (f c (.of q)) (f' c q)) (hg : ∀ s t, Refines (g s t) (g' s t))
    (hn : ∀ s t z, g' s t = .ok z → z.Normal) : RefinesO (x.opCF cfg fuel c e f g) (CF.opCF cfg fuel c e f' g') := by
  unfold opCF CF.opCF
  by_cases hp : e.p = []
  · rw [if_pos (by simp [CF.isRational, hp]), if_pos (by simp [CF.isRational, hp])]
    obtain ⟨r, h1, h2, -⟩ := ratValue_exact he hp hre
    rw [h1, h2]
    exact hf r
  · rw [if_neg (by simp [CF.isRational, hp]), if_neg (by simp [CF.isRational, hp])]
    refine viaSurd_ref hw hx cfg fuel h hr (fun s => (toSurd_ref hx cfg he hre).bind fun t _ => hg s t) fun s z hz => ?_
    obtain ⟨t, -, hz⟩ := Surd.bind_ok hz
    exact hn s t z hz

theorem cfAdd_ref {e : CF} (he : e.Wf) (hre : e.Reads x.w) : RefinesO (x.cfAdd cfg fuel c e) (c.add cfg fuel e) :=
  opCF_ref hw hx cfg h hr he hre (cfAddRat_ref hw hx cfg hfuel h hr) (surdAdd_ref hx cfg)
    (fun _ _ _ => Surd.add_normal)

theorem cfSub_ref {e : CF} (he : e.Wf) (hre : e.Reads x.w) : RefinesO (x.cfSub cfg fuel c e) (c.sub cfg fuel e) :=
  opCF_ref hw hx cfg h hr he hre (cfSubRat_ref hw hx cfg hfuel h hr) (surdSub_ref hx cfg)
    (fun _ _ _ => Surd.sub_normal)

theorem cfMul_ref {e : CF} (he : e.Wf) (hre : e.Reads x.w) : RefinesO (x.cfMul cfg fuel c e) (c.mul cfg fuel e) :=
  opCF_ref hw hx cfg h hr he hre (cfMulRat_ref hw hx cfg hfuel h hr) (surdMul_ref hx cfg)
    (fun _ _ _ => Surd.mul_normal)

theorem cfDiv_ref {e : CF} (he : e.Wf) (hre : e.Reads x.w) : RefinesO (x.cfDiv cfg fuel c e) (c.div cfg fuel e) :=
  opCF_ref hw hx cfg h hr he hre (cfDivRat_ref hw hx cfg hfuel h hr) (surdDiv_ref hx cfg)
    (fun _ _ _ => Surd.div_normal)

end

/-! ### Builds without overflow checks -/

theorem toContfracUnwrap_rel (hx : x.checks = true) (cfg : Cfg) (fuel : Nat) (s : Surd) :
    RefinesO (x.toContfracUnwrap cfg fuel s) (x.rel.toContfracUnwrap cfg fuel s) := by
  unfold toContfracUnwrap
  rcases toContfrac_rel hx cfg fuel s with h | h
  · rw [h]; exact .rfl'
  · rw [h]; exact .inr rfl

theorem viaSurd_rel (hx : x.checks = true) (cfg : Cfg) (fuel : Nat) (c : CF) {f g : Surd → Res Surd}
    (hf : ∀ s, Refines (f s) (g s)) : RefinesO (x.viaSurd cfg fuel c f) (x.rel.viaSurd cfg fuel c g) := by
  unfold viaSurd
  rcases (toSurd_rel hx cfg c).bind fun s _ => hf s with h1 | h1
  · rw [h1]
    cases x.rel.toSurd cfg c >>= g with
    | error e => exact .rfl'
    | ok z => exact toContfracUnwrap_rel hx cfg fuel z
  · rw [h1]; exact .inr rfl

theorem euclid_rel : ∀ (fuel : Nat) (n d : Int) (acc : List Nat), x.rel.euclid fuel n d acc = x.euclid fuel n d acc
  | 0, _, _, _ => rfl
  | fuel + 1, n, d, acc => by
    unfold euclid
    have e1 : ∀ n d, x.rel.div n d = x.div n d := fun _ _ => rfl
    have e2 : ∀ n d, x.rel.rem n d = x.rem n d := fun _ _ => rfl
    simp only [e1, e2, euclid_rel fuel]
    rfl

theorem ofRat_rel (hx : x.checks = true) (fuel : Nat) (q : Rt) : RefinesO (x.ofRat fuel q) (x.rel.ofRat fuel q) := by
  unfold ofRat
  split
  · exact .rfl'
  · have h : Refines (if q.num < 0 then x.sub 0 q.num else .ok q.num)
        (if q.num < 0 then x.rel.sub 0 q.num else .ok q.num) := by
      split
      · exact ret_rel hx _
      · exact .rfl'
    rcases h with h | h
    · rw [h]
      cases (if q.num < 0 then x.rel.sub 0 q.num else .ok q.num) with
      | error e => exact .rfl'
      | ok n => simp only [euclid_rel]; exact .rfl'
    · rw [h]; exact .inr rfl

theorem ratValue_rel (hx : x.checks = true) (c : CF) : Refines (x.ratValue c) (x.rel.ratValue c) := by
  unfold ratValue
  exact (cfToRational_rel hx c).bind fun _ _ => .rfl'

theorem opNumber_rel (hx : x.checks = true) (cfg : Cfg) (fuel : Nat) (c : CF) {f f' : Rt → Res Rt} {g g' : Surd → Res Surd}
    (hf : ∀ q, Refines (f q) (f' q)) (hg : ∀ s, Refines (g s) (g' s)) :
    RefinesO (x.opNumber cfg fuel c f g) (x.rel.opNumber cfg fuel c f' g') := by
  unfold opNumber
  split
  · rcases (ratValue_rel hx c).bind fun q _ => hf q with h1 | h1
    · rw [h1]
      cases x.rel.ratValue c >>= f' with
      | error e => exact .rfl'
      | ok q => exact ofRat_rel hx fuel q
    · rw [h1]; exact .inr rfl
  · exact viaSurd_rel hx cfg fuel c hg

theorem cfMulInt_rel (hx : x.checks = true) (cfg : Cfg) (fuel : Nat) (c : CF) (k : Int) :
    RefinesO (x.cfMulInt cfg fuel c k) (x.rel.cfMulInt cfg fuel c k) :=
  opNumber_rel hx cfg fuel c (fun q => rtMulInt_rel hx q k) (fun s => surdMulInt_rel hx cfg s k)
theorem cfDivInt_rel (hx : x.checks = true) (cfg : Cfg) (fuel : Nat) (c : CF) (k : Int) :
    RefinesO (x.cfDivInt cfg fuel c k) (x.rel.cfDivInt cfg fuel c k) :=
  opNumber_rel hx cfg fuel c (fun q => rtDivInt_rel hx q k) (fun s => surdDivInt_rel hx cfg s k)
theorem cfAddRat_rel (hx : x.checks = true) (cfg : Cfg) (fuel : Nat) (c : CF) (k : Rt) :
    RefinesO (x.cfAddRat cfg fuel c k) (x.rel.cfAddRat cfg fuel c k) :=
  opNumber_rel hx cfg fuel c (fun q => rtAdd_rel hx q k) (fun s => surdAddRat_rel hx cfg s k)
theorem cfSubRat_rel (hx : x.checks = true) (cfg : Cfg) (fuel : Nat) (c : CF) (k : Rt) :
    RefinesO (x.cfSubRat cfg fuel c k) (x.rel.cfSubRat cfg fuel c k) :=
  opNumber_rel hx cfg fuel c (fun q => rtSub_rel hx q k) (fun s => surdSubRat_rel hx cfg s k)
theorem cfMulRat_rel (hx : x.checks = true) (cfg : Cfg) (fuel : Nat) (c : CF) (k : Rt) :
    RefinesO (x.cfMulRat cfg fuel c k) (x.rel.cfMulRat cfg fuel c k) :=
  opNumber_rel hx cfg fuel c (fun q => rtMul_rel hx q k) (fun s => surdMulRat_rel hx cfg s k)
theorem cfDivRat_rel (hx : x.checks = true) (cfg : Cfg) (fuel : Nat) (c : CF) (k : Rt) :
    RefinesO (x.cfDivRat cfg fuel c k) (x.rel.cfDivRat cfg fuel c k) :=
  opNumber_rel hx cfg fuel c (fun q => rtDiv_rel hx q k) (fun s => surdDivRat_rel hx cfg s k)

theorem opCF_rel (hx : x.checks = true) (cfg : Cfg) (fuel : Nat) (c e : CF) {f f' : CF → Rt → Option (Res CF)}
    {g g' : Surd → Surd → Res Surd} (hf : ∀ q, RefinesO (f c q) (f' c q)) (hg : ∀ s t, Refines (g s t) (g' s t)) :
    RefinesO (x.opCF cfg fuel c e f g) (x.rel.opCF cfg fuel c e f' g') := by
  unfold opCF
  split
  · rcases ratValue_rel hx e with h1 | h1
    · rw [h1]
      cases x.rel.ratValue e with
      | error e => exact .rfl'
      | ok q => exact hf q
    · rw [h1]; exact .inr rfl
  · exact viaSurd_rel hx cfg fuel c fun s => (toSurd_rel hx cfg e).bind fun t _ => hg s t

theorem cfAdd_rel (hx : x.checks = true) (cfg : Cfg) (fuel : Nat) (c e : CF) :
    RefinesO (x.cfAdd cfg fuel c e) (x.rel.cfAdd cfg fuel c e) :=
  opCF_rel hx cfg fuel c e (cfAddRat_rel hx cfg fuel c) (surdAdd_rel hx cfg)
theorem cfSub_rel (hx : x.checks = true) (cfg : Cfg) (fuel : Nat) (c e : CF) :
    RefinesO (x.cfSub cfg fuel c e) (x.rel.cfSub cfg fuel c e) :=
  opCF_rel hx cfg fuel c e (cfSubRat_rel hx cfg fuel c) (surdSub_rel hx cfg)
theorem cfMul_rel (hx : x.checks = true) (cfg : Cfg) (fuel : Nat) (c e : CF) :
    RefinesO (x.cfMul cfg fuel c e) (x.rel.cfMul cfg fuel c e) :=
  opCF_rel hx cfg fuel c e (cfMulRat_rel hx cfg fuel c) (surdMul_rel hx cfg)
theorem cfDiv_rel (hx : x.checks = true) (cfg : Cfg) (fuel : Nat) (c e : CF) :
    RefinesO (x.cfDiv cfg fuel c e) (x.rel.cfDiv cfg fuel c e) :=
  opCF_rel hx cfg fuel c e (cfDivRat_rel hx cfg fuel c) (surdDiv_rel hx cfg)

/-! ### Stored coefficients -/

/-- what a run with a loop returns has the property `P` -/
def EnsF (r : Option (Res CF)) (P : CF → Prop) : Prop := ∀ c, r = some (.ok c) → P c

theorem toContfracUnwrap_fits (cfg : Cfg) (fuel : Nat) (s : Surd) : EnsF (x.toContfracUnwrap cfg fuel s) (CF.Fits x.w) := by
  intro c hc
  unfold toContfracUnwrap at hc
  split at hc
  · cases hc
  · cases hc
  · cases hc
  · rename_i h; cases hc; exact toContfrac_holds cfg fuel s _ h c rfl

theorem viaSurd_fits (cfg : Cfg) (fuel : Nat) (c : CF) (f : Surd → Res Surd) :
    EnsF (x.viaSurd cfg fuel c f) (CF.Fits x.w) := by
  intro d hd
  unfold viaSurd at hd
  split at hd
  · cases hd
  · exact toContfracUnwrap_fits cfg fuel _ d hd

theorem castU_lt (w : Nat) (v : Int) : castU w v < 2 ^ w := by
  unfold castU
  have h0 : (0 : Int) < 2 ^ w := by positivity
  have h1 := Int.emod_lt_of_pos v h0
  have h2 := Int.emod_nonneg v h0.ne'
  have e : ((2 ^ w : Nat) : Int) = 2 ^ w := by push_cast; rfl
  omega

theorem euclid_fits : ∀ (fuel : Nat) (n d : Int) (acc : List Nat), (∀ v ∈ acc, v < 2 ^ x.w) →
    ∀ l, x.euclid fuel n d acc = some (.ok l) → ∀ v ∈ l, v < 2 ^ x.w
  | 0, _, _, _, _, l, h => by cases h
  | fuel + 1, n, d, acc, ha, l, h => by
    unfold euclid at h
    split at h
    · cases h; intro v hv; exact ha v (by simpa using hv)
    · split at h
      · cases h
      · rename_i q r _
        exact euclid_fits fuel d r _ (by
          intro v hv
          rcases List.mem_cons.1 hv with rfl | hv
          · exact castU_lt _ _
          · exact ha v hv) l h

theorem ofRat_fits (fuel : Nat) (q : Rt) : EnsF (x.ofRat fuel q) (CF.Fits x.w) := by
  intro c hc
  unfold ofRat at hc
  split at hc
  · cases hc
    intro v hv
    have : v = 0 := by simpa [CF.zero] using hv
    subst this; positivity
  · split at hc
    · cases hc
    · rename_i n _
      simp only at hc
      have key : ∀ n d acc, (∀ v ∈ acc, v < 2 ^ x.w) → ∀ c : CF,
          ((x.euclid fuel n d acc).map fun l => l.map fun l => (⟨l, [], decide (q.num < 0)⟩ : CF)) = some (.ok c) →
          c.Fits x.w := by
        intro n d acc ha c hc
        cases h : x.euclid fuel n d acc with
        | none => rw [h] at hc; cases hc
        | some r => cases r with
          | error e => rw [h] at hc; cases hc
          | ok l =>
            rw [h] at hc; cases hc
            intro v hv
            exact euclid_fits fuel n d acc ha l h v (by simpa using hv)
      split at hc
      · exact key _ _ _ (by intro v hv; have : v = 0 := by simpa using hv
                            subst this; positivity) c hc
      · exact key _ _ _ (by simp) c hc

theorem opNumber_fits (cfg : Cfg) (fuel : Nat) (c : CF) (f : Rt → Res Rt) (g : Surd → Res Surd) :
    EnsF (x.opNumber cfg fuel c f g) (CF.Fits x.w) := by
  intro d hd
  unfold opNumber at hd
  split at hd
  · split at hd
    · cases hd
    · exact ofRat_fits fuel _ d hd
  · exact viaSurd_fits cfg fuel c g d hd

theorem opCF_fits (cfg : Cfg) (fuel : Nat) (c e : CF) (f : CF → Rt → Option (Res CF)) (g : Surd → Surd → Res Surd)
    (hf : ∀ q, EnsF (f c q) (CF.Fits x.w)) : EnsF (x.opCF cfg fuel c e f g) (CF.Fits x.w) := by
  intro d hd
  unfold opCF at hd
  split at hd
  · split at hd
    · cases hd
    · exact hf _ d hd
  · exact viaSurd_fits cfg fuel c _ d hd

end Fx
end NumIrr
