/-
Observing iterators: the items they yield, one after another.
-/
namespace NumIrr

/-- the state after `n` calls of `next` -/
def runIter {σ β : Type} (next : σ → β × σ) : Nat → σ → σ
  | 0, s => s
  | n + 1, s => runIter next n (next s).2

/-- the result of the `n`-th call of `next`, counting from `0` -/
def itemAt {σ β : Type} (next : σ → β × σ) (n : Nat) (s : σ) : β := (next (runIter next n s)).1

end NumIrr
