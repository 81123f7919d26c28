/-
C74: over a primitive integer type the iterators on generalized continued fractions keep only representable integers.
-/
import Verif.Lemmas.GFits
import Verif.Props.GConvergents

namespace NumIrr

open Block

namespace GIter

/-- C74: a call of `next` on the convergents keeps the entries of the block representable, whether it yields a number
or not. -/
theorem gconv_block_fits {ty : IntTy} (ht : ty.IsPrim) {s s' : GIter} {v : Option ℚ} (h : s.block.Fits ty)
    (hc : s.convNext ty = .ok (v, s')) : s'.block.Fits ty := by
  unfold convNext at hc
  split at hc
  · cases hc; exact h
  · split at hc
    · rename_i m hm
      cases hc
      rw [checkedGmove_none hm]; exact h
    · rename_i p q m hm
      split at hc
      · cases hc
      · cases hc
        exact (checkedGmove_fits ht h hm).1

/-- a call of `next` on the convergents which returns, with or without a number -/
def ConvStep (ty : IntTy) (s : GIter) (v : Option ℚ) (s' : GIter) : Prop := s.convNext ty = .ok (v, s')

/-- C74: the convergents yielded over a primitive integer type for non-negative pairs have representable numerators and
denominators, also those yielded after an overflow. -/
theorem gconv_fits {ty : IntTy} (ht : ty.IsPrim) (src : ℕ → Option (ℤ × ℤ))
    (hs : ∀ k a b, src k = some (a, b) → 0 ≤ a ∧ 0 ≤ b) {outs : List (Option ℚ)} {s : GIter}
    (h : Outs (ConvStep ty) (GIter.new src) outs s) :
    s.block.Fits ty ∧ ∀ v, some v ∈ outs → ty.fits v.num = true ∧ ty.fits v.den = true := by
  suffices H : (s.src = src ∧ s.block.Fits ty ∧ NN s.block) ∧
      ∀ v, some v ∈ outs → ty.fits v.num = true ∧ ty.fits v.den = true from ⟨H.1.2.1, H.2⟩
  generalize hs0 : GIter.new src = s0 at h
  induction h with
  | nil =>
    subst hs0
    exact ⟨⟨rfl, new_fits ht src, show NN identity by unfold NN; decide⟩, by simp⟩
  | @snoc s2 s3 l o _ hcall ih =>
    obtain ⟨⟨e, hf, hn⟩, hl⟩ := ih
    have hf' := gconv_block_fits ht hf hcall
    have hcall' := hcall
    unfold ConvStep convNext at hcall
    split at hcall
    · cases hcall
      exact ⟨⟨e, hf', hn⟩, fun v hv => hl v (by simpa using hv)⟩
    · rename_i a b hab
      obtain ⟨ha, hb⟩ := hs _ a b (by rw [← e]; exact hab)
      split at hcall
      · rename_i m hm
        cases hcall
        refine ⟨⟨e, hf', ?_⟩, fun v hv => hl v (by simpa using hv)⟩
        rw [checkedGmove_none hm]; exact hn
      · rename_i p q m hm
        obtain ⟨hn', hp, hq⟩ := checkedGmove_nn hn ha hb hm
        obtain ⟨-, fp, fq⟩ := checkedGmove_fits ht hf hm
        split at hcall
        · cases hcall
        · rename_i r hr
          cases hcall
          refine ⟨⟨e, hf', hn'⟩, fun v hv => ?_⟩
          rw [List.mem_append, List.mem_singleton] at hv
          rcases hv with hv | hv
          · exact hl v hv
          · cases hv
            unfold ratioNew at hr
            split at hr
            · cases hr
            · rename_i hq0
              cases hr
              have d1 : ((Rat.divInt p q).num) ∣ p := Rat.num_dvd p hq0
              have d2 : ((Rat.divInt p q).den : ℤ) ∣ q := Rat.den_dvd p q
              have n0 : 0 ≤ (Rat.divInt p q).num := Rat.num_nonneg.2 (Rat.divInt_nonneg hp hq)
              constructor
              · refine IsPrim.mono ht fp (.inl ⟨n0, ?_⟩)
                rcases hp.eq_or_lt with hp | hp
                · rw [← hp]; simp
                · exact Int.le_of_dvd hp d1
              · exact IsPrim.mono ht fq (.inl ⟨by positivity, Int.le_of_dvd (by omega) d2⟩)

/-- C74: a call of `next` on the decimals keeps the entries of the block representable, in both kinds of builds. -/
theorem decimals_block_fits (cfg : Cfg) {ty : IntTy} (ht : ty.IsPrim) : ∀ (fuel : ℕ) (s s' : GIter) (ch : Option ℕ),
    s.block.Fits ty → decNext cfg ty fuel s = some (.ok (ch, s')) → s'.block.Fits ty
  | 0, _, _, _, _, h => by cases h
  | fuel + 1, s, s', ch, hf, h => by
    rw [decNext] at h
    split at h
    · cases h
    · rename_i i m hm
      split at h
      · cases h
      · cases h
        exact reduceMulTy_fits ht hf hm
    · rename_i m hm
      have hm' := reduceMulTy_fits ht hf hm
      split at h
      · cases h; exact hm'
      · split at h
        · rename_i m2 hm2
          cases h
          rw [checkedGmove_none hm2]; exact hm'
        · rename_i p q m2 hm2
          exact decimals_block_fits cfg ht fuel _ _ _ (checkedGmove_fits ht hm' hm2).1 h

example : IntTy.IsPrim (.unsigned 8) ∧ IntTy.IsPrim (.signed 64) :=
  ⟨⟨8, by norm_num, .inl rfl⟩, ⟨64, by norm_num, .inr rfl⟩⟩

/-- the capacity of `u8` is reached in the middle: the products fit, the sum `200 + 56` does not -/
example : convRun (IntTy.unsigned 8) 3 (GIter.new fun k => some (if k = 0 then (1, 56) else if k = 1 then (200, 1) else (1, 1)))
    = ([some 56, none, some 57], none) := by decide +kernel

end GIter
end NumIrr
