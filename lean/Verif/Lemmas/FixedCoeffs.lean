/-
Iterators of coefficients over primitive integers: the state after `k` calls and the conditions for a call to be exact.
-/
import Verif.Lemmas.FixedGenFit

namespace NumIrr

/-- the state of an iterator after `k` calls -/
def stateAt {σ β : Type} (next : σ → Option β × σ) (s : σ) : Nat → σ
  | 0 => s
  | k + 1 => stateAt next (next s).2 k

section stream
variable {σ β : Type} {next : σ → Option β × σ} {next' : σ → Res (Option β × σ)} {s : σ}

theorem stateAt_succ (next : σ → Option β × σ) (s : σ) (k : Nat) :
    stateAt next s (k + 1) = (next (stateAt next s k)).2 := by
  induction k generalizing s with
  | zero => rfl
  | succ k ih => exact ih (next s).2

theorem streamR_shift (n k : Nat) (h : ∀ j < n, next' (stateAt next s j) = .ok (next (stateAt next s j))) :
    streamR next' s (n + k) = streamR next' (stateAt next s n) k := by
  induction n generalizing s with
  | zero => rw [Nat.zero_add]; rfl
  | succ n ih =>
    rw [show n + 1 + k = (n + k) + 1 by omega]
    refine Eq.trans ?_ (ih (s := (next s).2) fun j hj => h (j + 1) (by omega))
    conv_lhs => unfold streamR
    rw [show next' s = .ok (next s) from h 0 (by omega), Surd.ok_bind]

theorem streamR_exact (k : Nat) (h : ∀ j ≤ k, next' (stateAt next s j) = .ok (next (stateAt next s j))) :
    streamR next' s k = .ok (stream next s k) := by
  induction k generalizing s with
  | zero =>
    unfold streamR
    rw [show next' s = .ok (next s) from h 0 (by omega)]
    rfl
  | succ k ih =>
    unfold streamR
    rw [show next' s = .ok (next s) from h 0 (by omega), Surd.ok_bind]
    exact ih fun j hj => h (j + 1) (by omega)

theorem streamR_error {e : Panic} (n : Nat) (h : ∀ j < n, next' (stateAt next s j) = .ok (next (stateAt next s j)))
    (he : next' (stateAt next s n) = .error e) (k : Nat) (hk : n ≤ k) : streamR next' s k = .error e := by
  obtain ⟨j, rfl⟩ := Nat.exists_eq_add_of_le hk
  rw [streamR_shift n j h]
  cases j <;> (unfold streamR; rw [he]; rfl)

theorem streamR_ref (h : ∀ s, Refines (next' s) (.ok (next s))) (s : σ) (k : Nat) :
    Refines (streamR next' s k) (.ok (stream next s k)) := by
  induction k generalizing s with
  | zero => exact (h s).bindOk .rfl'
  | succ k ih => exact (h s).bindOk (ih _)

theorem streamR_rel {n1 n2 : σ → Res (Option β × σ)} (h : ∀ s, Refines (n1 s) (n2 s)) (s : σ) (k : Nat) :
    Refines (streamR n1 s k) (streamR n2 s k) := by
  induction k generalizing s with
  | zero => exact (h s).bind fun _ _ => .rfl'
  | succ k ih => exact (h s).bind fun r _ => ih r.2

end stream

namespace Prim

variable {t : Prim}

theorem holds_small (hw : 4 ≤ t.w) {v : Int} (h0 : 0 ≤ v) (h7 : v ≤ 7) : t.Holds v := by
  have h1 : (8 : Int) ≤ 2 ^ (t.w - 1) := by
    calc (8 : Int) = 2 ^ 3 := by norm_num
      _ ≤ 2 ^ (t.w - 1) := pow_le_pow_right₀ (by norm_num) (by omega)
  have h2 := pow_split (w := t.w) (by omega)
  unfold Holds
  split <;> omega

theorem holds_conv {a b c : Int} (ha : t.Holds a) (hb : t.Holds b) (h1 : a ≤ c) (h2 : c ≤ b) : t.Holds c := by
  unfold Holds at *
  split at ha <;> rename_i h
  · rw [if_pos h] at hb ⊢; omega
  · rw [if_neg h] at hb ⊢; omega

theorem ret_over (hc : t.checks = true) {v : Int} (h : ¬ t.Holds v) : t.ret v = .error .overflow := by
  unfold ret
  rw [if_neg (fun hf => h (fits_iff.1 hf)), hc]
  rfl

theorem ret_wrap (hc : t.checks = false) {v : Int} (h : ¬ t.Holds v) : t.ret v = .ok (t.ty.wrap v) := by
  unfold ret
  rw [if_neg (fun hf => h (fits_iff.1 hf)), hc]
  rfl

/-! ### e -/

theorem e_state (k : Nat) : stateAt ECoeffs.next .new (k + 1) = ⟨2 * ((k / 3 : Nat) + 1), k % 3⟩ := by
  induction k with
  | zero => rfl
  | succ k ih =>
    rw [stateAt_succ, ih]
    unfold ECoeffs.next
    rw [if_neg (by simp only; omega)]
    simp only
    by_cases h : k % 3 = 2
    · rw [if_pos h]
      have h1 : (k + 1) / 3 = k / 3 + 1 := by omega
      have h2 : (k + 1) % 3 = 0 := by omega
      simp only [h1, h2]
      congr 1
      push_cast
      ring
    · rw [if_neg h]
      have h1 : (k + 1) / 3 = k / 3 := by omega
      have h2 : (k + 1) % 3 = k % 3 + 1 := by omega
      simp only [h1, h2]

theorem eNext_ref (hc : t.checks = true) (s : ECoeffs) : Refines (t.eNext s) (.ok (ECoeffs.next s)) := by
  unfold eNext ECoeffs.next add
  split
  · exact ret_bind hc (ret_bind hc .rfl')
  · split
    · unfold eTurn add
      exact ((ret_bind hc (ret_bind hc .rfl')) : Refines _ (.ok _)).bindOk .rfl'
    · exact .rfl'

theorem eNext_rel (hc : t.checks = true) (s : ECoeffs) : Refines (t.eNext s) (t.rel.eNext s) := by
  unfold eNext add
  split
  · exact ret_bind_rel hc fun _ => ret_bind_rel hc fun _ => .rfl'
  · split
    · refine Refines.bind ?_ fun _ _ => .rfl'
      unfold eTurn add
      exact ret_bind_rel hc fun _ => ret_bind_rel hc fun _ => .rfl'
    · exact .rfl'

theorem eNext_exact (h2 : t.Holds 2) {s : ECoeffs} (h : s.i ≠ 0 → s.m = 2 → t.Holds (2 + s.i)) :
    t.eNext s = .ok (ECoeffs.next s) := by
  unfold eNext ECoeffs.next add
  split
  · rw [show (1 : Int) + 1 = 2 by norm_num, ret_ok h2]; rfl
  · rename_i h0
    split
    · rename_i hm
      unfold eTurn add
      rw [show (1 : Int) + 1 = 2 by norm_num, ret_ok h2, Surd.ok_bind, ret_ok (h h0 hm)]
      rfl
    · rfl

theorem eNext_over (hc : t.checks = true) (h2 : t.Holds 2) {s : ECoeffs} (h0 : s.i ≠ 0) (hm : s.m = 2)
    (h : ¬ t.Holds (2 + s.i)) : t.eNext s = .error .overflow := by
  unfold eNext add
  rw [if_neg h0, if_pos hm]
  unfold eTurn add
  rw [show (1 : Int) + 1 = 2 by norm_num, ret_ok h2, Surd.ok_bind, ret_over hc h]
  rfl

/-- the call number `k` is exact if `2(k/3 + 1)` is representable -/
theorem e_step (hw : 4 ≤ t.w) (k : Nat) (h : t.Holds (2 * ((k / 3 : Nat) + 1))) :
    t.eNext (stateAt ECoeffs.next .new k) = .ok (ECoeffs.next (stateAt ECoeffs.next .new k)) := by
  refine eNext_exact (holds_small hw (by norm_num) (by norm_num)) fun h0 hm => ?_
  cases k with
  | zero => exact absurd rfl h0
  | succ k =>
    rw [e_state] at hm ⊢
    simp only at hm ⊢
    have : (k + 1) / 3 = k / 3 + 1 := by omega
    rw [this] at h
    rw [show (2 : Int) + 2 * (((k / 3 : Nat) : Int) + 1) = 2 * (((k / 3 + 1 : Nat) : Int) + 1) by push_cast; ring]
    exact h

theorem e_mono {j k : Nat} (hjk : j ≤ k) (h : t.Holds (2 * ((k / 3 : Nat) + 1))) :
    t.Holds (2 * ((j / 3 : Nat) + 1)) := by
  have : j / 3 ≤ k / 3 := Nat.div_le_div_right hjk
  exact holds_mono h (Or.inl ⟨by omega, by omega⟩)

/-- the first call whose new counter is not representable -/
theorem e_first (k : Nat) (h : ¬ t.Holds (2 * ((k / 3 : Nat) + 1))) :
    ∃ n, n ≤ k ∧ (∀ j < n, t.Holds (2 * ((j / 3 : Nat) + 1))) ∧ ¬ t.Holds (2 * ((n / 3 : Nat) + 1)) := by
  classical
  have hex : ∃ n, ¬ t.Holds (2 * ((n / 3 : Nat) + 1)) := ⟨k, h⟩
  exact ⟨Nat.find hex, Nat.find_min' hex h, fun j hj => not_not.1 (Nat.find_min hex hj), Nat.find_spec hex⟩

theorem e_over (hc : t.checks = true) (hw : 4 ≤ t.w) (n : Nat) (h1 : ∀ j < n, t.Holds (2 * ((j / 3 : Nat) + 1)))
    (h2 : ¬ t.Holds (2 * ((n / 3 : Nat) + 1))) : t.eNext (stateAt ECoeffs.next .new n) = .error .overflow := by
  cases n with
  | zero => exact absurd (holds_small hw (by norm_num) (by norm_num)) h2
  | succ k =>
    have hm : k % 3 = 2 := by
      by_contra hm
      have h := h1 k (by omega)
      rw [show (k + 1) / 3 = k / 3 by omega] at h2
      exact h2 h
    have hk : (k + 1) / 3 = k / 3 + 1 := by omega
    rw [hk] at h2
    refine eNext_over hc (holds_small hw (by norm_num) (by norm_num)) ?_ ?_ ?_
    · rw [e_state]; simp only; omega
    · rw [e_state]; exact hm
    · rw [e_state]
      simp only
      rw [show (2 : Int) + 2 * (((k / 3 : Nat) : Int) + 1) = 2 * (((k / 3 + 1 : Nat) : Int) + 1) by push_cast; ring]
      exact h2

/-! ### π -/

theorem pi_state (k : Nat) : stateAt PiCoeffs.next .new (k + 2) = ⟨k + 1, 2 * k + 3⟩ := by
  induction k with
  | zero => rfl
  | succ k ih =>
    rw [stateAt_succ, ih]
    unfold PiCoeffs.next
    rw [if_neg (by simp only; omega), if_neg (by simp only; omega)]
    simp only
    push_cast
    congr 1

theorem piNext_ref (hc : t.checks = true) (s : PiCoeffs) : Refines (t.piNext s) (.ok (PiCoeffs.next s)) := by
  unfold piNext PiCoeffs.next add mul
  refine ret_bind hc ?_
  dsimp only
  split
  · exact .rfl'
  · split
    · exact ret_bind hc (ret_bind hc .rfl')
    · exact ret_bind hc (ret_bind hc (ret_bind hc .rfl'))

theorem piNext_rel (hc : t.checks = true) (s : PiCoeffs) : Refines (t.piNext s) (t.rel.piNext s) := by
  unfold piNext add mul
  refine ret_bind_rel hc fun _ => ?_
  split
  · exact .rfl'
  · split
    · exact ret_bind_rel hc fun _ => ret_bind_rel hc fun _ => .rfl'
    · exact ret_bind_rel hc fun _ => ret_bind_rel hc fun _ => ret_bind_rel hc fun _ => .rfl'

/-- the sums of the call number `k + 2` are representable if the product is -/
theorem pi_sums (hw : 4 ≤ t.w) (k : Nat) (h : t.Holds (((k : Int) + 1) * (k + 1))) :
    t.Holds ((k : Int) + 1 + 1) ∧ t.Holds (2 * (k : Int) + 3 + 2) := by
  by_cases hk : k ≤ 1
  · exact ⟨holds_small hw (by omega) (by omega), holds_small hw (by omega) (by omega)⟩
  · have hk' : (2 : Int) ≤ k := by omega
    constructor
    · exact holds_mono h (Or.inl ⟨by omega, by nlinarith⟩)
    · exact holds_mono h (Or.inl ⟨by omega, by nlinarith⟩)

theorem pi_step (hw : 4 ≤ t.w) (k : Nat) (h : t.Holds (((k : Int) - 1) * (k - 1))) :
    t.piNext (stateAt PiCoeffs.next .new k) = .ok (PiCoeffs.next (stateAt PiCoeffs.next .new k)) := by
  have s2 : t.ret 2 = .ok 2 := ret_ok (holds_small hw (by norm_num) (by norm_num))
  have s3 : t.ret 3 = .ok 3 := ret_ok (holds_small hw (by norm_num) (by norm_num))
  have s4 : t.ret 4 = .ok 4 := ret_ok (holds_small hw (by norm_num) (by norm_num))
  rcases k with _ | _ | k
  · simp only [stateAt, PiCoeffs.new, piNext, add]
    norm_num [s2, Surd.ok_bind, PiCoeffs.next]
  · simp only [stateAt, PiCoeffs.new, piNext, add]
    norm_num [s2, s3, s4, Surd.ok_bind, PiCoeffs.next]
  · rw [pi_state]
    have e : (((k + 1 + 1 : Nat) : Int) - 1) = (k : Int) + 1 := by push_cast; ring
    rw [e] at h
    obtain ⟨h1, h2⟩ := pi_sums hw k h
    unfold piNext PiCoeffs.next add mul
    rw [show (1 : Int) + 1 = 2 by norm_num, s2, Surd.ok_bind, if_neg (by simp only; omega), if_neg (by simp only; omega), if_neg (by simp only; omega),
      if_neg (by simp only; omega)]
    simp only
    rw [ret_ok h, Surd.ok_bind, ret_ok h1, Surd.ok_bind, ret_ok h2]
    rfl

theorem pi_over (hc : t.checks = true) (hw : 4 ≤ t.w) (k : Nat) (h : ¬ t.Holds (((k : Int) - 1) * (k - 1))) :
    t.piNext (stateAt PiCoeffs.next .new k) = .error .overflow := by
  have s2 : t.ret 2 = .ok 2 := ret_ok (holds_small hw (by norm_num) (by norm_num))
  rcases k with _ | _ | k
  · exact absurd (holds_small hw (by norm_num) (by norm_num)) h
  · exact absurd (holds_small hw (by norm_num) (by norm_num)) h
  · rw [pi_state]
    have e : (((k + 1 + 1 : Nat) : Int) - 1) = (k : Int) + 1 := by push_cast; ring
    rw [e] at h
    unfold piNext add mul
    rw [show (1 : Int) + 1 = 2 by norm_num, s2, Surd.ok_bind, if_neg (by simp only; omega), if_neg (by simp only; omega)]
    simp only
    rw [ret_over hc h]
    rfl

theorem pi_mono (hw : 4 ≤ t.w) {j k : Nat} (hjk : j ≤ k) (h : t.Holds (((k : Int) - 1) * (k - 1))) :
    t.Holds (((j : Int) - 1) * (j - 1)) := by
  by_cases hj : j ≤ 1
  · have : (j : Int) = 0 ∨ (j : Int) = 1 := by omega
    rcases this with e | e <;> rw [e] <;> exact holds_small hw (by norm_num) (by norm_num)
  · have h1 : (1 : Int) ≤ j - 1 := by omega
    have h2 : (j : Int) - 1 ≤ k - 1 := by omega
    exact holds_mono h (Or.inl ⟨by nlinarith, by nlinarith⟩)

theorem pi_first (k : Nat) (h : ¬ t.Holds (((k : Int) - 1) * (k - 1))) :
    ∃ n : Nat, n ≤ k ∧ (∀ j : Nat, j < n → t.Holds (((j : Int) - 1) * (j - 1))) ∧ ¬ t.Holds (((n : Int) - 1) * (n - 1)) := by
  classical
  have hex : ∃ n : Nat, ¬ t.Holds (((n : Int) - 1) * (n - 1)) := ⟨k, h⟩
  exact ⟨Nat.find hex, Nat.find_min' hex h, fun j hj => not_not.1 (Nat.find_min hex hj), Nat.find_spec hex⟩

/-- without checks a call wraps the product around if the sums are representable -/
theorem pi_wrap (hc : t.checks = false) (hw : 4 ≤ t.w) (k : Nat) (h1 : t.Holds ((k : Int) + 1 + 1))
    (h2 : t.Holds (2 * (k : Int) + 3 + 2)) :
    t.piNext ⟨k + 1, 2 * k + 3⟩ = .ok (some (if t.Holds (((k : Int) + 1) * (k + 1)) then ((k : Int) + 1) * (k + 1)
      else t.ty.wrap (((k : Int) + 1) * (k + 1)), 2 * k + 3), ⟨k + 1 + 1, 2 * k + 3 + 2⟩) := by
  have s2 : t.ret 2 = .ok 2 := ret_ok (holds_small hw (by norm_num) (by norm_num))
  unfold piNext add mul
  rw [show (1 : Int) + 1 = 2 by norm_num, s2, Surd.ok_bind, if_neg (by simp only; omega), if_neg (by simp only; omega)]
  simp only
  split
  · rename_i h
    rw [ret_ok h, Surd.ok_bind, ret_ok h1, Surd.ok_bind, ret_ok h2]
    rfl
  · rename_i h
    rw [ret_wrap hc h, Surd.ok_bind, ret_ok h1, Surd.ok_bind, ret_ok h2]
    rfl

theorem pi_release_from (hc : t.checks = false) (hw : 4 ≤ t.w) (j i : Nat) (h : t.Holds (2 * ((j + i : Nat) : Int) + 3 + 2)) :
    streamR t.piNext ⟨(j : Int) + 1, 2 * (j : Int) + 3⟩ i = .ok (some (if t.Holds ((((j + i : Nat) : Int) + 1) * (((j + i : Nat) : Int) + 1))
      then (((j + i : Nat) : Int) + 1) * (((j + i : Nat) : Int) + 1)
      else t.ty.wrap ((((j + i : Nat) : Int) + 1) * (((j + i : Nat) : Int) + 1)), 2 * ((j + i : Nat) : Int) + 3)) := by
  induction i generalizing j with
  | zero =>
    unfold streamR
    rw [pi_wrap hc hw j (holds_mono h (Or.inl ⟨by omega, by omega⟩)) h]
    rfl
  | succ i ih =>
    unfold streamR
    rw [pi_wrap hc hw j (holds_mono h (Or.inl ⟨by omega, by omega⟩)) (holds_mono h (Or.inl ⟨by omega, by omega⟩)), Surd.ok_bind]
    have := ih (j + 1) (by rw [show j + 1 + i = j + (i + 1) by omega]; exact h)
    rw [show j + 1 + i = j + (i + 1) by omega] at this
    rw [← this]
    simp only
    congr 2

/-! ### the exponential function -/

theorem exp_state (x : Int) (k : Nat) : stateAt ExpCoeffs.next (.new x) k = ⟨x, k⟩ := by
  induction k with
  | zero => rfl
  | succ k ih =>
    rw [stateAt_succ, ih]
    unfold ExpCoeffs.next
    simp only
    push_cast
    rfl

theorem expItem_ref (hc : t.checks = true) (s : ExpCoeffs) : Refines (t.expItem s)
    (.ok (if s.i = 0 then (1, 1) else if s.i = 1 then (s.exponent, 1) else (-((s.i - 1) * s.exponent), s.i + s.exponent))) := by
  unfold expItem add mul sub neg
  split
  · exact .rfl'
  · split
    · exact .rfl'
    · exact ret_bind hc (ret_bind hc (ret_bind hc (ret_bind hc .rfl')))

theorem expNext_ref (hc : t.checks = true) (s : ExpCoeffs) : Refines (t.expNext s) (.ok (ExpCoeffs.next s)) := by
  unfold expNext ExpCoeffs.next
  refine (expItem_ref hc s).bindOk (ret_bind hc ?_)
  dsimp only
  split
  · exact .rfl'
  · split <;> exact .rfl'

theorem expNext_rel (hc : t.checks = true) (s : ExpCoeffs) : Refines (t.expNext s) (t.rel.expNext s) := by
  unfold expNext
  refine Refines.bind ?_ fun _ _ => ret_bind_rel hc fun _ => .rfl'
  unfold expItem add mul sub neg
  split
  · exact .rfl'
  · split
    · exact .rfl'
    · exact ret_bind_rel hc fun _ => ret_bind_rel hc fun _ => ret_bind_rel hc fun _ => ret_bind_rel hc fun _ => .rfl'

theorem exp_step (x : Int) (k : Nat) (h : t.ExpFits x k) :
    t.expNext (stateAt ExpCoeffs.next (.new x) k) = .ok (ExpCoeffs.next (stateAt ExpCoeffs.next (.new x) k)) := by
  rw [exp_state]
  obtain ⟨h1, h2⟩ := h
  have hi : t.expItem ⟨x, k⟩ = .ok (if (k : Int) = 0 then (1, 1) else if (k : Int) = 1 then (x, 1) else
      (-(((k : Int) - 1) * x), k + x)) := by
    unfold expItem add mul sub neg
    split
    · rfl
    · split
      · rfl
      · rename_i g0 g1
        simp only at g0 g1
        obtain ⟨a1, a2, a3⟩ := h2 (by omega)
        have a0 : t.Holds ((k : Int) - 1) := holds_mono h1 (Or.inl ⟨by omega, by omega⟩)
        rw [ret_ok a0, Surd.ok_bind, ret_ok a1, Surd.ok_bind, ret_ok a2, Surd.ok_bind, ret_ok a3]
        rfl
  unfold expNext ExpCoeffs.next add
  rw [hi, Surd.ok_bind]
  simp only
  rw [ret_ok h1]
  split
  · rfl
  · split <;> rfl

theorem exp_over (hc : t.checks = true) (x : Int) (k : Nat) (h : ¬ t.ExpFits x k) :
    t.expNext (stateAt ExpCoeffs.next (.new x) k) = .error .overflow := by
  rcases expNext_ref hc (stateAt ExpCoeffs.next (.new x) k) with e | e
  · exfalso
    apply h
    rw [exp_state] at e
    unfold expNext add at e
    obtain ⟨u, e1, e⟩ := Surd.bind_ok e
    obtain ⟨i, e2, -⟩ := Surd.bind_ok e
    refine ⟨(ret_inv hc e2).2, fun hk => ?_⟩
    unfold expItem add mul sub neg at e1
    rw [if_neg (by simp only; omega), if_neg (by simp only; omega)] at e1
    obtain ⟨u1, f1, e1⟩ := Surd.bind_ok e1
    obtain ⟨u2, f2, e1⟩ := Surd.bind_ok e1
    obtain ⟨u3, f3, e1⟩ := Surd.bind_ok e1
    obtain ⟨u4, f4, e1⟩ := Surd.bind_ok e1
    obtain ⟨rfl, g1⟩ := ret_inv hc f1
    obtain ⟨rfl, g2⟩ := ret_inv hc f2
    obtain ⟨rfl, g3⟩ := ret_inv hc f3
    obtain ⟨rfl, g4⟩ := ret_inv hc f4
    exact ⟨g2, g3, g4⟩
  · exact e

theorem exp_mono {x : Int} (hx : t.Holds x) {j k : Nat} (hjk : j ≤ k) (h : t.ExpFits x k) : t.ExpFits x j := by
  obtain ⟨h1, h2⟩ := h
  refine ⟨holds_mono h1 (Or.inl ⟨by omega, by omega⟩), fun hj => ?_⟩
  obtain ⟨a1, a2, a3⟩ := h2 (by omega)
  have b1 : (0 : Int) ≤ j - 1 := by omega
  have b2 : (j : Int) - 1 ≤ k - 1 := by omega
  refine ⟨?_, ?_, holds_conv hx a3 (by omega) (by omega)⟩
  · rcases le_total 0 x with h0 | h0
    · exact holds_mono a1 (Or.inl ⟨mul_nonneg b1 h0, mul_le_mul_of_nonneg_right b2 h0⟩)
    · exact holds_mono a1 (Or.inr ⟨mul_le_mul_of_nonpos_right b2 h0, mul_nonpos_of_nonneg_of_nonpos b1 h0⟩)
  · rcases le_total 0 x with h0 | h0
    · have c1 := mul_nonneg b1 h0
      have c2 := mul_le_mul_of_nonneg_right b2 h0
      exact holds_mono a2 (Or.inr ⟨by omega, by omega⟩)
    · have c1 := mul_nonpos_of_nonneg_of_nonpos b1 h0
      have c2 := mul_le_mul_of_nonpos_right b2 h0
      exact holds_mono a2 (Or.inl ⟨by omega, by omega⟩)

end Prim
end NumIrr
