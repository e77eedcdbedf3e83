import Verif.Model.Locks
import Verif.Spec.Concurrent

/-!
# Notions for the statements about locks
-/

namespace Adv

variable {S : Type}

namespace LTask

/-- The call is inside a critical section of the mutex of context `c`. -/
def holdsCtx (c : Nat) : LTask S → Bool
  | .inCtx _ d _ _ => d == c
  | _ => false

/-- The call is inside a critical section of the map. -/
def holdsMap : LTask S → Bool
  | .inMap _ _ => true
  | _ => false

/-- Number of critical sections the call may still have to go through. -/
def stepsLeft : LTask S → Nat
  | .run t | .inCtx t _ _ _ | .inMap t _ => t.stepsLeft

end LTask

/-- The calls in progress make `n` steps; no new calls. -/
inductive LRuns [Flt S] : Nat → LState S → LState S → Prop
  | refl (s) : LRuns 0 s s
  | tail {n s t u} (h : LRuns n s t) (hs : LRun t u) : LRuns (n + 1) s u

/-- The state of the model with locks when nobody is inside a critical section. -/
def LState.ofC (cs : CState S) : LState S :=
  ⟨⟨cs.world, false, fun _ => false⟩, cs.handles, cs.tasks.map .run, cs.vars, cs.tapes, cs.fault⟩

/-- The atomic model is in a state that looks the same to the threads: the same contents of all contexts that nobody is
changing right now, the same reference counts and registered ids, and everything the threads hold. -/
structure LState.Agrees (s : LState S) (cs : CState S) : Prop where
  nextId : s.mem.world.nextId = cs.world.nextId
  map : s.mem.world.map = cs.world.map
  counts : ∀ c, (s.mem.world.arcs c).map Cell.strong = (cs.world.arcs c).map Cell.strong
  contents : ∀ c, s.mem.ctxLocked c = false → s.mem.world.arcs c = cs.world.arcs c
  handles : ∀ c, s.handles.count c ≤ cs.handles.count c
  vars : ∀ a ∈ s.vars, a ∈ cs.vars
  tapes : ∀ a ∈ s.tapes, a ∈ cs.tapes
  fault : s.fault = cs.fault

end Adv
