import Mathlib.Algebra.BigOperators.Group.List.Basic
import Mathlib.Order.Bounds.Basic
import Verif.Spec.Scalars
import Verif.Model.FloydWarshall

/-! # Specification for the Floyd-Warshall example -/

namespace Adv.Fw

/-- The numbers in the description of the network are in range, and no edge is a loop. -/
structure Net.Ok {S : Type} (N : Net S) : Prop where
  ends : ∀ e ∈ N.edges, e.u < N.n ∧ e.v < N.n ∧ e.u ≠ e.v
  lights : ∀ e ∈ N.edges, e.light < N.lights
  exits : ∀ u ∈ N.exits, u < N.n

variable {K : Type} [Field K] [LinearOrder K]

/-- The quota on which the time for an edge depends. -/
def Net.quota (N : Net K) (params : List K) (e : Edge) : K :=
  if e.topBottom then min (max (params.getD e.light 0) N.lo) N.hi else 1 - min (max (params.getD e.light 0) N.lo) N.hi

/-- The edge joins the two nodes. -/
def Edge.joins (e : Edge) (i j : Nat) : Prop := (e.u = i ∧ e.v = j) ∨ (e.u = j ∧ e.v = i)

instance (e : Edge) (i j : Nat) : Decidable (e.joins i j) := inferInstanceAs (Decidable (_ ∨ _))

/-- The time it takes to get directly from one node to another: that of the last edge given for the two nodes. -/
def Net.weight (N : Net K) (params : List K) (i j : Nat) : K :=
  match N.edges.reverse.find? fun e => decide (e.joins i j) with
  | some e => 1 + 1 / N.quota params e
  | none => if i = j then 0 else N.inf

/-- There is a walk from one node to another that takes the given time. -/
inductive Walk (n : Nat) (wt : Nat → Nat → K) : Nat → Nat → K → Prop
  | nil {i : Nat} : i < n → Walk n wt i i 0
  | cons {i j k : Nat} {c : K} : i < n → Walk n wt j k c → Walk n wt i k (wt i j + c)

/-- There is a walk along roads from one node to another that takes the given time. -/
inductive Route (N : Net K) (params : List K) : Nat → Nat → K → Prop
  | nil {i : Nat} : i < N.n → Route N params i i 0
  | cons {i j k : Nat} {c : K} {e : Edge} : e ∈ N.edges → e.joins i j → Route N params j k c →
      Route N params i k (N.weight params i j + c)

/-- `dist i j` is the time of the fastest walk from `i` to `j`. -/
def Shortest (n : Nat) (wt dist : Nat → Nat → K) : Prop :=
  ∀ i < n, ∀ j < n, IsLeast {c | Walk n wt i j c} (dist i j)

/-- The times after `k` steps of the algorithm of Floyd and Warshall. -/
def after (wt : Nat → Nat → K) : Nat → Nat → Nat → K
  | 0, i, j => wt i j
  | k + 1, i, j => min (after wt k i j) (after wt k i k + after wt k k j)

/-- No light is at the end of its range, and the algorithm never compares two different ways that take the same time. -/
structure Net.Generic (N : Net K) (params : List K) : Prop where
  kink : ∀ e ∈ N.edges, params.getD e.light 0 ≠ N.lo ∧ params.getD e.light 0 ≠ N.hi
  tie : ∀ k < N.n, ∀ i < N.n, ∀ j < N.n, i ≠ k → j ≠ k → i ≠ j →
    after (N.weight params) k i j ≠ after (N.weight params) k i k + after (N.weight params) k k j

end Adv.Fw
