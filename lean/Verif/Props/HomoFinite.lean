/-
C113: homographic functions of finite continued fractions, infinite.rs:74-85 and block.rs:74-101.

The iterator ends when its source ends, so the coefficients that only the end of the source decides are lost.
What it gives is exactly the common beginning of the expansions of two numbers: the function at the given fraction, and
the function at the fraction without its last coefficient.
-/
import Verif.Lemmas.HomoFinite

namespace NumIrr

open Block

/-- every non-negative fraction has an expansion, and only one (so the hypotheses below can always be met) -/
theorem expansion_exists_unique (n d : ℕ) (h : d ≠ 0) : ∃! e, IsExp e (some ((n : ℚ) / d)) := by
  have hv : pairVal ((n : ℤ), (d : ℤ)) = some ((n : ℚ) / d) := by simp [pairVal, h]
  refine ⟨euc n d, ?_, fun e he => ?_⟩
  · show IsExp _ _
    rw [← hv]; exact euc_isExp d n
  · exact isExp_euc d n e (by rw [hv]; exact he)

/-- all results on a finite source: the common beginning of the expansions of `f([a₀; …, aₙ])` and `f([a₀; …, aₙ₋₁])`,
and then `None`, for ever -/
theorem homo_finite {l : List ℤ} (hne : l ≠ []) (hl : ∀ v ∈ l, 0 ≤ v) {p q k d : ℤ} (hp : 0 ≤ p) (hq : 0 ≤ q) (hk : 0 ≤ k)
    (hd : 0 ≤ d) {e1 e2 : List ℤ} (h1 : IsExp e1 (mobQ p q k d (cfVal l)))
    (h2 : IsExp e2 (mobQ p q k d (cfVal l.dropLast))) :
    ∃ s s' N, Outs Homo.Call (Homo.new (fun i => l[i]?) p q k d) (commonPrefix e1 e2) s ∧
      (∀ fuel, N ≤ fuel → Homo.next fuel s = some (none, s')) ∧
      ∃ Ended : Homo → Prop, Ended s' ∧ ∀ t, Ended t → ∃ t', Ended t' ∧ ∀ fuel, 1 ≤ fuel → Homo.next fuel t = some (none, t') := by
  set s0 := Homo.new (fun i => l[i]?) p q k d with hs0
  have hn : Nonneg s0.block := ⟨hp, hq, hk, hd⟩
  have hr : Homo.Rest s0 l := fun j => by
    show l[0 + j]? = l[j]?
    rw [Nat.zero_add]
  obtain ⟨m, v, rfl⟩ : ∃ m v, l = m ++ [v] := ⟨l.dropLast, l.getLast hne, (List.dropLast_append_getLast hne).symm⟩
  rw [List.dropLast_concat] at h2
  have hfn := reads_nonneg hl hn
  have c1 := reads_col1 (m ++ [v]) s0.block
  have c2 := reads_col2 m v s0.block
  rw [cfVal_eq, mobQ_pair _ _ _ _ _ (cfP_ne _)] at h1 h2
  have g1 : e1 = euc (s0.block.reads (m ++ [v])).pm1.toNat (s0.block.reads (m ++ [v])).qm1.toNat := by
    refine isExp_euc _ _ _ ?_
    rw [Int.toNat_of_nonneg hfn.1, Int.toNat_of_nonneg hfn.2.2.1, c1.1, c1.2]
    exact h1
  have g2 : e2 = euc (s0.block.reads (m ++ [v])).pm2.toNat (s0.block.reads (m ++ [v])).qm2.toNat := by
    refine isExp_euc _ _ _ ?_
    rw [Int.toNat_of_nonneg hfn.2.1, Int.toNat_of_nonneg hfn.2.2.2, c2.1, c2.2]
    exact h2
  obtain ⟨s', s'', N, o1, o2, o3, o4⟩ := Homo.run_common (commonPrefix e1 e2) hr hl hn
    (by unfold Block.common; rw [← g1, ← g2])
  refine ⟨s', s'', N, o1, o2, fun t => Homo.Rest t [] ∧ t.block.checkInteger = none, ⟨o3, o4⟩, ?_⟩
  rintro t ⟨t1, t2⟩
  have h0 : t.src t.pos = none := by simpa using t1 0
  refine ⟨{ t with pos := t.pos + 1 }, ⟨fun j => ?_, t2⟩, fun fuel hf => ?_⟩
  · have := t1 (j + 1)
    simp only [List.getElem?_nil] at this ⊢
    rw [← this]
    show t.src (t.pos + 1 + j) = _
    congr 1; omega
  · obtain ⟨f, rfl⟩ : ∃ f, fuel = f + 1 := ⟨fuel - 1, by omega⟩
    rw [Homo.next, reduceRecip_of_none t2]
    simp only [h0]

-- twice 11/7 = [1; 1, 1, 3] is 22/7 = [3; 7], and twice [1; 1, 1] = 3/2 is 3: only the coefficient 3 is given
example : IsExp [3, 7] (mobQ 2 0 0 1 (cfVal [1, 1, 1, 3])) ∧ IsExp [3] (mobQ 2 0 0 1 (cfVal [1, 1, 1])) ∧
    commonPrefix [3, 7] [3] = [3] := by
  refine ⟨⟨?_, by simp, by simp⟩, ⟨?_, by simp, by simp⟩, rfl⟩ <;> norm_num [cfVal, mobQ]

/-! ### what this means -/

theorem commonPrefix_left : ∀ a b : List ℤ, commonPrefix a b <+: a
  | [], _ => by simp [commonPrefix]
  | _ :: _, [] => by simp [commonPrefix]
  | x :: a, y :: b => by
    rw [commonPrefix]
    split
    · exact List.cons_prefix_cons.mpr ⟨rfl, commonPrefix_left a b⟩
    · exact List.nil_prefix

theorem commonPrefix_eq_left : ∀ a b : List ℤ, commonPrefix a b = a ↔ a <+: b
  | [], _ => by simp [commonPrefix]
  | _ :: _, [] => by simp [commonPrefix]
  | x :: a, y :: b => by
    rw [commonPrefix, List.cons_prefix_cons]
    split
    · rename_i h
      rw [List.cons_inj_right, commonPrefix_eq_left a b]
      exact ⟨fun g => ⟨h, g⟩, fun g => g.2⟩
    · rename_i h
      exact ⟨fun e => (nomatch e), fun g => absurd g.1 h⟩

/-- what is given is always right as far as it goes -/
theorem homo_finite_prefix {l : List ℤ} (hne : l ≠ []) (hl : ∀ v ∈ l, 0 ≤ v) {p q k d : ℤ} (hp : 0 ≤ p) (hq : 0 ≤ q)
    (hk : 0 ≤ k) (hd : 0 ≤ d) {e1 e2 : List ℤ} (h1 : IsExp e1 (mobQ p q k d (cfVal l)))
    (h2 : IsExp e2 (mobQ p q k d (cfVal l.dropLast))) :
    ∃ r s s' N, Outs Homo.Call (Homo.new (fun i => l[i]?) p q k d) r s ∧
      (∀ fuel, N ≤ fuel → Homo.next fuel s = some (none, s')) ∧ r <+: e1 ∧ (r = e1 ↔ e1 <+: e2) := by
  obtain ⟨s, s', N, o1, o2, -⟩ := homo_finite hne hl hp hq hk hd h1 h2
  exact ⟨_, s, s', N, o1, o2, commonPrefix_left _ _, commonPrefix_eq_left _ _⟩

-- the reciprocal of [3; 2] loses its last coefficient, while 5/[1; 2] = 10/3 = [3; 3] and 5/1 = [5] have nothing in common
example : IsExp [0, 3, 2] (mobQ 0 1 1 0 (cfVal [3, 2])) ∧ IsExp [0, 3] (mobQ 0 1 1 0 (cfVal [3])) ∧
    IsExp [3, 3] (mobQ 0 5 1 0 (cfVal [1, 2])) ∧ IsExp [5] (mobQ 0 5 1 0 (cfVal [1])) := by
  refine ⟨⟨?_, by simp, by simp⟩, ⟨?_, by simp, by simp⟩, ⟨?_, by simp, by simp⟩, ⟨?_, by simp, by simp⟩⟩ <;>
    norm_num [cfVal, mobQ]

theorem mobQ_id (x : Option ℚ) : mobQ 1 0 0 1 x = x := by
  cases x <;> simp [mobQ]

theorem commonPrefix_append (a b : List ℤ) : commonPrefix (a ++ b) a = a := by
  induction a with
  | nil => cases b <;> rfl
  | cons x a ih => rw [List.cons_append, commonPrefix, if_pos rfl, ih]

theorem commonPrefix_ne (m : List ℤ) {x y : ℤ} (h : x ≠ y) (a b : List ℤ) :
    commonPrefix (m ++ x :: a) (m ++ y :: b) = m := by
  induction m with
  | nil => simp [commonPrefix, h]
  | cons z m ih => rw [List.cons_append, List.cons_append, commonPrefix, if_pos rfl, ih]

/-- the identity function loses exactly the last coefficient … -/
theorem homo_identity_finite {m : List ℤ} {v : ℤ} (h : IsExp (m ++ [v]) (cfVal (m ++ [v]))) (hm : IsExp m (cfVal m))
    (h0 : ∀ w ∈ m ++ [v], 0 ≤ w) :
    ∃ s s' N, Outs Homo.Call (Homo.new (fun i => (m ++ [v])[i]?) 1 0 0 1) m s ∧
      ∀ fuel, N ≤ fuel → Homo.next fuel s = some (none, s') := by
  obtain ⟨s, s', N, o1, o2, -⟩ := homo_finite (l := m ++ [v]) (by simp) h0 (by decide : (0 : ℤ) ≤ 1) le_rfl le_rfl
    (by decide : (0 : ℤ) ≤ 1) (by rw [mobQ_id]; exact h) (e2 := m) (by rw [mobQ_id, List.dropLast_concat]; exact hm)
  rw [commonPrefix_append] at o1
  exact ⟨s, s', N, o1, o2⟩

example : IsExp ([3] ++ [7]) (cfVal [3, 7]) ∧ IsExp [3] (cfVal [3]) :=
  ⟨⟨rfl, by simp, by simp⟩, ⟨rfl, by simp, by simp⟩⟩

theorem cfVal_merge (m : List ℤ) (x : ℤ) : cfVal (m ++ [x, 1]) = cfVal (m ++ [x + 1]) := by
  induction m with
  | nil => simp [cfVal]
  | cons a m ih => rw [List.cons_append, List.cons_append, cfVal, cfVal, ih]

/-- … and the last three coefficients if the last but one is `1` -/
theorem homo_identity_finite_one {m : List ℤ} {x v : ℤ} (h : IsExp (m ++ [x, 1, v]) (cfVal (m ++ [x, 1, v])))
    (h0 : ∀ w ∈ m ++ [x, 1, v], 0 ≤ w) :
    ∃ s s' N, Outs Homo.Call (Homo.new (fun i => (m ++ [x, 1, v])[i]?) 1 0 0 1) m s ∧
      ∀ fuel, N ≤ fuel → Homo.next fuel s = some (none, s') := by
  have hx : m ≠ [] → 1 ≤ x := fun hm => h.2.1 x (by
    cases m with
    | nil => exact absurd rfl hm
    | cons a m => simp)
  have e2 : IsExp (m ++ [x + 1]) (cfVal (m ++ [x, 1])) := by
    refine ⟨(cfVal_merge m x).symm, fun w hw => ?_, fun hm => ?_⟩
    · cases m with
      | nil => simp at hw
      | cons a m =>
        simp only [List.cons_append, List.tail_cons, List.mem_append, List.mem_singleton] at hw
        rcases hw with hw | rfl
        · exact h.2.1 w (by simp [hw])
        · have := hx (by simp); omega
    · have : m ≠ [] := by rintro rfl; simp at hm
      have := hx this
      simp only [List.getLastD_concat]
      omega
  obtain ⟨s, s', N, o1, o2, -⟩ := homo_finite (l := m ++ [x, 1, v]) (by simp) h0 (by decide : (0 : ℤ) ≤ 1) le_rfl le_rfl
    (by decide : (0 : ℤ) ≤ 1) (by rw [mobQ_id]; exact h) (e2 := m ++ [x + 1]) (by
      rw [mobQ_id, show m ++ [x, 1, v] = (m ++ [x, 1]) ++ [v] by simp, List.dropLast_concat]; exact e2)
  rw [commonPrefix_ne m (by omega)] at o1
  exact ⟨s, s', N, o1, o2⟩

example : IsExp ([2] ++ [5, 1, 3]) (cfVal [2, 5, 1, 3]) := ⟨rfl, by simp, by simp⟩

theorem Outs.first_or {σ β : Type} {step : σ → β → σ → Prop} {s t : σ} {l : List β} (h : Outs step s l t) :
    (l = [] ∧ s = t) ∨ ∃ a s', l.head? = some a ∧ step s a s' := by
  induction h with
  | nil => exact .inl ⟨rfl, rfl⟩
  | snoc h1 h2 ih =>
    rcases ih with ⟨rfl, rfl⟩ | ⟨a, s', e, hs⟩
    · exact .inr ⟨_, _, rfl, h2⟩
    · exact .inr ⟨a, s', by simp [e], hs⟩

theorem Outs.first {σ β : Type} {step : σ → β → σ → Prop} {s t : σ} {a : β} {l : List β} (h : Outs step s (a :: l) t) :
    ∃ s', step s a s' := by
  rcases h.first_or with ⟨e, -⟩ | ⟨b, s', e, hs⟩
  · cases e
  · cases e; exact ⟨s', hs⟩

/-- not: the iterator of a homographic function of a finite fraction gives the expansion of the result -/
theorem homo_finite_refuted : ¬ ∀ l e : List ℤ, IsExp l (cfVal l) → (∀ v ∈ l, 0 ≤ v) → IsExp e (mobQ 1 0 0 1 (cfVal l)) →
    ∃ s, Outs Homo.Call (Homo.new (fun i => l[i]?) 1 0 0 1) e s := by
  intro h
  obtain ⟨s, hs⟩ := h [2] [2] ⟨rfl, by simp, by simp⟩ (by simp) ⟨by simp [cfVal, mobQ], by simp, by simp⟩
  obtain ⟨s1, N, hN⟩ := Outs.first hs
  have := hN (N + 2) (by omega)
  simp [Homo.next, Homo.new, Block.new, Block.reduceRecip, Block.checkInteger, Block.rmove, Block.update] at this

end NumIrr
