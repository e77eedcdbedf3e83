import Verif.Spec.Locks
import Verif.Spec.DemoConcurrent

/-!
# A concrete execution with locks

Used by the non-vacuity examples: a thread is in the middle of `set_indep` while another one waits for the mutex.
-/

namespace Adv

variable {S : Type} [Flt S]

/-- The call at position `k` makes a step, unless it waits. -/
def LState.runAt (s : LState S) (k : Nat) : LState S :=
  match s.tasks[k]? with
  | none => s
  | some t =>
      match t.step s.mem with
      | none => s
      | some e => s.after (s.tasks.take k) (s.tasks.drop (k + 1)) e

theorem LState.Reachable.runAt {s : LState S} (h : s.Reachable) (k : Nat) (hid : s.mem.world.nextId < usizeMax) :
    (s.runAt k).Reachable := by
  unfold LState.runAt
  rcases hk : s.tasks[k]? with _ | t
  · exact h
  · obtain ⟨hlt, rfl⟩ := List.getElem?_eq_some_iff.mp hk
    simp only
    rcases he : (s.tasks[k]).step s.mem with _ | e
    · exact h
    · refine LSteps.tail h (.run (LRun.mk ?_ (fun _ => hid) he))
      simp

theorem LState.Reachable.step {s s' : LState S} (h : s.Reachable) (hs : LStep s s') : s'.Reachable := LSteps.tail h hs

namespace DemoL

/-- A call of `AContext::new`. -/
def s1 : LState ℚ := { (LState.init : LState ℚ) with tasks := [.run .new] }
/-- The context exists, a number as well. -/
def s2 : LState ℚ := let s := (((s1.runAt 0).runAt 0).runAt 0).runAt 0; { s with vars := AFloat.new 2 0 :: s.vars }
/-- Two threads call `set_indep`. -/
def s3 : LState ℚ := { s2 with tasks := .run (.setIndep 1 (AFloat.new 2 0)) :: s2.tasks }
def s4 : LState ℚ := { s3 with tasks := .run (.setIndep 1 (AFloat.new 2 0)) :: s3.tasks }
/-- The first one has pushed the value, but not yet the id. -/
def s5 : LState ℚ := ((s4.runAt 0).runAt 0).runAt 0
/-- Both have finished. -/
def s6 : LState ℚ :=
  ((((((((s5.runAt 0).runAt 0).runAt 0).runAt 0).runAt 0).runAt 0).runAt 0).runAt 0).runAt 0

theorem r1 : s1.Reachable := LState.Reachable.step (.refl _) .callNew
theorem r2 : s2.Reachable :=
  ((((r1.runAt 0 (by decide +kernel)).runAt 0 (by decide +kernel)).runAt 0 (by decide +kernel)).runAt 0
    (by decide +kernel)).step (.scalar 2 0)
theorem r3 : s3.Reachable := r2.step (.callSetIndep (by decide +kernel) (by decide +kernel))
theorem r4 : s4.Reachable := r3.step (.callSetIndep (by decide +kernel) (by decide +kernel))
theorem r5 : s5.Reachable :=
  ((r4.runAt 0 (by decide +kernel)).runAt 0 (by decide +kernel)).runAt 0 (by decide +kernel)
theorem r6 : s6.Reachable :=
  ((((((((r5.runAt 0 (by decide +kernel)).runAt 0 (by decide +kernel)).runAt 0 (by decide +kernel)).runAt 0
    (by decide +kernel)).runAt 0 (by decide +kernel)).runAt 0 (by decide +kernel)).runAt 0 (by decide +kernel)).runAt 0
    (by decide +kernel)).runAt 0 (by decide +kernel)

end DemoL
end Adv
