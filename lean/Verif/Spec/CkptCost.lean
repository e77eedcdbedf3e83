import Verif.Spec.Checkpointing
import Mathlib.Algebra.BigOperators.Group.Finset.Basic
import Mathlib.Data.Finset.Card

/-!
# The cost of reversing a sequence with limited memory

`Play` is the game of reversing a sequence of states `x_0, x_1 = f(x_0), …` when at most `N` states can be kept:
the specification against which the number of calls of `forward` is compared.
-/

namespace Adv.Ckpt

/-- `Play N S r k`: if the states with indices in `S` are in memory, which holds at most `N` states, then the states
`r-1, …, 0` can be produced in this order using `k` applications of `f`. -/
inductive Play (N : Nat) : Finset Nat → Nat → Nat → Prop
  /-- Nothing is left. -/
  | done (S : Finset Nat) : Play N S 0 0
  /-- Compute a successor and keep the argument. -/
  | step {S : Finset Nat} {i r k : Nat} (hi : i ∈ S) (hN : (insert (i + 1) S).card ≤ N)
      (h : Play N (insert (i + 1) S) r k) : Play N S r (k + 1)
  /-- Compute a successor in place of the argument. -/
  | slide {S : Finset Nat} {i r k : Nat} (hi : i ∈ S) (h : Play N (insert (i + 1) (S.erase i)) r k) : Play N S r (k + 1)
  /-- Forget a state. -/
  | drop {S : Finset Nat} {i r k : Nat} (h : Play N (S.erase i) r k) : Play N S r k
  /-- Produce the last element that is left. -/
  | reverse {S : Finset Nat} {r k : Nat} (hr : r ∈ S) (h : Play N S r k) : Play N S (r + 1) k

/-- The cost of reversing `r` states if the first is stored and there is room for `c` more:
`∑ₖ max(0, r - binomial(c+k, c))`. -/
def revCost (r c : Nat) : Nat := ∑ k ∈ Finset.range r, (r - Nat.choose (c + k) c)

end Adv.Ckpt
