import Verif.Model.Concurrent
import Verif.Spec.Scalars

/-!
# A concrete multi-threaded execution

Used by the non-vacuity examples: one thread takes a snapshot of a context while another one records into it.
-/

namespace Adv

variable {S : Type} [Flt S]

/-- The call at position `k` makes a step. -/
def CState.runAt (s : CState S) (k : Nat) : CState S :=
  match s.tasks[k]? with
  | none => s
  | some t => s.after (s.tasks.take k) (s.tasks.drop (k + 1)) (t.step s.world).1 (t.step s.world).2

theorem CState.Reachable.runAt {s : CState S} (h : s.Reachable) (k : Nat) (hid : s.world.nextId < usizeMax) :
    (s.runAt k).Reachable := by
  unfold CState.runAt
  rcases hk : s.tasks[k]? with _ | t
  · exact h
  · obtain ⟨hlt, rfl⟩ := List.getElem?_eq_some_iff.mp hk
    refine CSteps.tail h (CStep.run ?_ (fun _ => hid) rfl)
    simp

theorem CState.Reachable.step {s s' : CState S} (h : s.Reachable) (hs : CStep s s') : s'.Reachable := CSteps.tail h hs

namespace DemoC

/-- A variable of context 1. -/
def var (v : ℚ) (vid : Nat) : AFloat ℚ := ⟨v, 0, some (1, vid)⟩

/-- A call of `AContext::new`. -/
def s1 : CState ℚ := { (CState.init : CState ℚ) with tasks := [.new] }
/-- The context exists, a number as well. -/
def s2 : CState ℚ := let s := (s1.runAt 0).runAt 0; { s with vars := AFloat.new 2 0 :: s.vars }
/-- The number becomes an independent. -/
def s3 : CState ℚ := { s2 with tasks := .setIndep 1 (AFloat.new 2 0) :: s2.tasks }
/-- A call of `tape`. -/
def s4 : CState ℚ := let s := s3.runAt 0; { s with tasks := .tape 1 :: s.tasks }
/-- It has read the independents; meanwhile another thread declares a second independent. -/
def s5 : CState ℚ := let s := s4.runAt 0; { s with tasks := .setIndep 1 (AFloat.new 2 0) :: s.tasks }
/-- And multiplies the independents. -/
def s6 : CState ℚ := let s := s5.runAt 0; { s with tasks := .op .Mul (var 2 0) (some (var 2 1)) :: s.tasks }
/-- The product has been recorded, the temporary handle is still alive. -/
def s7 : CState ℚ := (((s6.runAt 0).runAt 0).runAt 0).runAt 0
/-- The multiplication is complete. -/
def s8 : CState ℚ := s7.runAt 0
/-- The product becomes a dependent. -/
def s9 : CState ℚ := let s : CState ℚ := { s8 with tasks := .setDep 1 (var 4 2) :: s8.tasks }; s.runAt 0
/-- The snapshot is complete. -/
def s10 : CState ℚ := ((s9.runAt 0).runAt 0).runAt 0

theorem r1 : s1.Reachable := CState.Reachable.step (.refl _) .callNew
theorem r2 : s2.Reachable :=
  ((r1.runAt 0 (by decide +kernel)).runAt 0 (by decide +kernel)).step (.scalar 2 0)
theorem r3 : s3.Reachable := r2.step (.callSetIndep (by decide +kernel) (by decide +kernel))
theorem r4 : s4.Reachable := (r3.runAt 0 (by decide +kernel)).step (.callTape (by decide +kernel))
theorem r5 : s5.Reachable :=
  (r4.runAt 0 (by decide +kernel)).step (.callSetIndep (by decide +kernel) (by decide +kernel))
theorem r6 : s6.Reachable :=
  (r5.runAt 0 (by decide +kernel)).step
    (.callOp (by decide +kernel) (by intro b h; injection h with h; subst h; decide +kernel) rfl)
theorem r7 : s7.Reachable :=
  (((r6.runAt 0 (by decide +kernel)).runAt 0 (by decide +kernel)).runAt 0 (by decide +kernel)).runAt 0 (by decide +kernel)
theorem r8 : s8.Reachable := r7.runAt 0 (by decide +kernel)
theorem r9 : s9.Reachable :=
  (r8.step (.callSetDep (c := 1) (a := var 4 2) (by decide +kernel) (by decide +kernel))).runAt 0 (by decide +kernel)
theorem r10 : s10.Reachable :=
  ((r9.runAt 0 (by decide +kernel)).runAt 0 (by decide +kernel)).runAt 0 (by decide +kernel)

/-- The snapshot has one independent, although its operation uses two. -/
def snap : Tape ℚ := ⟨[0], [2], [⟨.Mul, 2, some 0, some 1⟩], [2, 2, 4], true⟩

end DemoC
end Adv
