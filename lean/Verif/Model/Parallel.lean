import Verif.Model.Base

/-!
# Parallel map and reduce

`(0..n).into_par_iter().map(f).reduce(Vec::new, append)` of rayon: the items are computed in some order
and the partial results combined along some binary tree, with identities inserted anywhere. The tree
and the order of evaluation are chosen by the scheduler.
-/

namespace Adv

/-- A reduction tree. `node true l r` evaluates `r` before `l`; the results are combined as `l ++ r`. -/
inductive RTree
  | empty
  | leaf (k : Nat)
  | node (rightFirst : Bool) (l r : RTree)
deriving DecidableEq, Repr

namespace RTree

/-- The items in the order in which their results are combined. -/
def items : RTree → List Nat
  | empty => []
  | leaf k => [k]
  | node _ l r => l.items ++ r.items

/-- Run the computation `f` on every item and append the results. -/
def run {m : Type → Type} [Monad m] {β : Type} (f : Nat → m (List β)) : RTree → m (List β)
  | empty => pure []
  | leaf k => f k
  | node false l r => do let a ← l.run f; let b ← r.run f; return a ++ b
  | node true l r => do let b ← r.run f; let a ← l.run f; return a ++ b

/-- One item after the other. -/
def seqOf : List Nat → RTree
  | [] => empty
  | k :: ks => node false (leaf k) (seqOf ks)

end RTree

/-- The scheduler's decisions: for each parallel section of a run (identified by a path: call site and
loop counters) and each number of items, a reduction tree. -/
def Sched := List Nat → Nat → RTree

namespace Sched

/-- Every item is computed exactly once. Rayon also keeps the items in order; this is not assumed. -/
def Valid (σ : Sched) : Prop := ∀ p n, ((σ p n).items).Perm (List.range n)

/-- The sequential loop. -/
def seq : Sched := fun _ n => RTree.seqOf (List.range n)

/-- The decisions below a call site. -/
def at_ (σ : Sched) (k : Nat) : Sched := fun p => σ (k :: p)

end Sched
end Adv
