import Verif.Model.Concurrent

/-!
# Notions for the statements about several threads
-/

set_option linter.unusedSectionVars false

namespace Adv

variable {S : Type} [Flt S]

/-- A call makes up to `n` steps, no other thread runs. -/
def Task.solo : Nat → Task S → CWorld S → Effect S × CWorld S
  | 0, t, w => ({ tasks := [t] }, w)
  | n + 1, t, w =>
      match t.step w with
      | (e, w') =>
          match e.tasks with
          | [] => (e, w')
          | t' :: _ =>
              let r := solo n t' w'
              ({ r.1 with
                  handles := e.handles ++ r.1.handles
                  vars := e.vars ++ r.1.vars
                  tapes := e.tapes ++ r.1.tapes
                  fault := e.fault || r.1.fault }, r.2)

/-- The concurrent view of a sequential state: registered contexts are those that are alive. -/
def CWorld.ofWorld (w : World S) : CWorld S := ⟨w.nextId, fun c => (w.cells c).isSome, w.cells⟩

/-- Reference counts of a sequential state are positive. -/
def World.Counted (w : World S) : Prop := ∀ c cell, w.cells c = some cell → 1 ≤ cell.strong

/-- Number of own steps a call needs at most. -/
def Task.stepsLeft : Task S → Nat
  | .newInsert _ | .fromCid _ | .finalize _ _ | .setIndep _ _ | .setDep _ _ | .tape3 _ _ _ _ => 1
  | .new | .drop _ _ | .tape2 _ _ _ => 2
  | .opRec _ _ _ | .tape1 _ _ => 3
  | .opArg2 _ _ | .tape _ => 4
  | .opArg1 _ => 5
  | .op _ _ _ => 6

end Adv
