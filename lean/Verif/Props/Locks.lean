import Verif.Proof.LockLive
import Verif.Spec.DemoLocks

/-!
# Mutexes: no deadlock, and critical sections are atomic (C63)

`LState.Reachable`: any number of threads, any interleaving of the statements inside and outside of critical sections.
-/

set_option linter.unusedSectionVars false

namespace Adv.Props
open Adv

variable {S : Type} [Flt S]

/-- C63 (mutual exclusion): at every moment at most one call is inside a critical section of a context, and at most one
inside a critical section of the map; the mutex is locked exactly then. -/
theorem C63_mutual_exclusion {s : LState S} (hr : s.Reachable) :
    (∀ c, s.tasks.countP (LTask.holdsCtx c) ≤ 1 ∧
      (s.mem.ctxLocked c = true ↔ ∃ x ∈ s.tasks, x.holdsCtx c = true)) ∧
    s.tasks.countP LTask.holdsMap ≤ 1 ∧ (s.mem.mapLocked = true ↔ ∃ x ∈ s.tasks, x.holdsMap = true) := by
  have h := hr.lockInv
  refine ⟨fun c => ⟨?_, ?_⟩, ?_, ?_⟩
  · rw [h.ctx c]; exact Bool.toNat_le _
  · rw [← List.countP_pos_iff, h.ctx c]
    cases s.mem.ctxLocked c <;> simp
  · rw [h.map]; exact Bool.toNat_le _
  · rw [← List.countP_pos_iff, h.map]
    cases s.mem.mapLocked <;> simp

/-- One call is inside, another one waits. -/
example : DemoL.s5.Reachable ∧ DemoL.s5.mem.ctxLocked 1 = true ∧ DemoL.s5.tasks.countP (LTask.holdsCtx 1) = 1 ∧
    DemoL.s5.tasks.map (fun x => (x.step DemoL.s5.mem).isSome) = [true, false] :=
  ⟨DemoL.r5, by decide +kernel, by decide +kernel, by decide +kernel⟩

/-- C63 (no deadlock): as long as there are calls in progress, one of them can make a step, and a call that has to wait
holds no mutex. -/
theorem C63_no_deadlock {s : LState S} (hr : s.Reachable) (hne : s.tasks ≠ [])
    (hid : s.mem.world.nextId < usizeMax) :
    (∃ t, LRun s t) ∧ ∀ x ∈ s.tasks, x.step s.mem = none → x.holdsMap = false ∧ ∀ c, x.holdsCtx c = false := by
  refine ⟨hr.lockInv.progress hne hid, ?_⟩
  intro x _ h
  rcases x with t | ⟨t, c, i0, σ⟩ | ⟨t, p⟩
  · exact ⟨rfl, fun _ => rfl⟩
  · cases h
  · cases h

example : DemoL.s5.Reachable ∧ DemoL.s5.tasks.length = 2 ∧ DemoL.s5.mem.world.nextId < usizeMax :=
  ⟨DemoL.r5, by decide +kernel, by decide +kernel⟩

/-- C63 (termination): whatever the scheduler does, the calls in progress make at most six steps per remaining critical
section (waiting is not a step). Together with `C63_no_deadlock` every schedule completes all calls. -/
theorem C63_calls_finish {s t : LState S} (hr : s.Reachable) {n : Nat} (h : LRuns n s t) :
    n ≤ 6 * (s.tasks.map LTask.stepsLeft).sum := (h.bounded hr.allWithin.bounded).1

example : DemoL.s5.Reachable ∧ 6 * (DemoL.s5.tasks.map LTask.stepsLeft).sum = 12 ∧ DemoL.s6.tasks.length = 0 :=
  ⟨DemoL.r5, by decide +kernel, by decide +kernel⟩

/-- C63 (critical sections are atomic): every execution in which threads interleave statement by statement is, for the
threads, an execution of the model in which every critical section is a single step. -/
theorem C63_critical_sections_atomic {s s' : LState S} (hr : s.Reachable) (hs : LSteps s s') :
    ∃ cs cs' : CState S, cs.Reachable ∧ s.Agrees cs ∧ CSteps cs cs' ∧ s'.Agrees cs' := by
  have agrees : ∀ {s : LState S} {cs : CState S}, LSim s cs → s.Agrees cs := by
    intro s cs h
    refine ⟨h.mem.nextId.symm, h.mem.map.symm, fun c => ?_, fun c hc => ?_, fun c => ?_, fun a ha => h.var ha,
      fun a ha => h.lists.tapes a (Or.inr ha), by rw [h.fault, h.reach.inv.fault]⟩
    · rcases h.mem.cells c with ⟨h1, h2⟩ | ⟨n, i, i0, h1, h2, -⟩ <;> simp [h1, h2]
    · rcases h.mem.cells c with ⟨h1, h2⟩ | ⟨n, i, i0, h1, h2, h3⟩
      · simp [h1, h2]
      · rw [h1, h2, h3 hc]
    · rw [h.lists.handles.count_eq, List.count_append]; omega
  obtain ⟨cs, -, h2⟩ := LSim.init.steps hr
  obtain ⟨cs', h3, h4⟩ := h2.steps hs
  exact ⟨cs, cs', h2.reach, agrees h2, h3, agrees h4⟩

example : LSteps DemoL.s5 DemoL.s5 ∧ DemoL.s6.Reachable ∧
    ∃ cell, DemoL.s6.mem.world.arcs 1 = some cell ∧ cell.inner.indeps = [0, 1] :=
  ⟨.refl _, DemoL.r6, _, rfl, by decide +kernel⟩

/-- C63 (nothing is lost): conversely every execution of the atomic model is an execution with explicit locks, the one
in which no critical section is interrupted. -/
theorem C63_atomic_executions {cs : CState S} (hr : cs.Reachable) : (LState.ofC cs).Reachable := hr.locks

example : DemoC.s10.Reachable ∧ (LState.ofC DemoC.s10).tapes.length = 1 := ⟨DemoC.r10, by decide +kernel⟩

/-- C63 (consequence): whenever nobody holds the mutex of a context its recording is well formed, although threads
interleave statement by statement. -/
theorem C63_recordings_well_formed {s : LState S} (hr : s.Reachable) {c : Nat} {cell : Cell S}
    (hl : s.mem.ctxLocked c = false) (hc : s.mem.world.arcs c = some cell) :
    cell.inner.cid = c ∧ cell.inner.tape.WF ∧ cell.inner.tape.Complete ∧ cell.inner.tape.Consistent := by
  obtain ⟨cs, -, h1, h2, -, -⟩ := C63_critical_sections_atomic hr (.refl s)
  rw [h2.contents c hl] at hc
  obtain ⟨h3, h4⟩ := h1.inv.good.good c cell hc
  exact ⟨h3, h4.wf, h4.complete, h4.consistent⟩

example : DemoL.s6.mem.ctxLocked 1 = false ∧ ∃ cell, DemoL.s6.mem.world.arcs 1 = some cell ∧
    cell.inner.vals = [2, 2] := ⟨by decide +kernel, _, rfl, by decide +kernel⟩

/-- The mutex is needed for this: inside a critical section the recording is not well formed. -/
theorem C63_lock_needed : ∃ (s : LState ℚ) (cell : Cell ℚ), s.Reachable ∧ s.mem.ctxLocked 1 = true ∧
    s.mem.world.arcs 1 = some cell ∧ ¬ cell.inner.tape.Complete := by
  refine ⟨DemoL.s5, ⟨1, ⟨1, [], [], [], [2], false⟩⟩, DemoL.r5, by decide +kernel, rfl, ?_⟩
  intro h
  have := h 0 (by decide)
  simp [Inner.tape, activeOps] at this

/-- C63 (consequence): no statement of any call reaches a context that has been freed. -/
theorem C63_no_access_after_free {s : LState S} (hr : s.Reachable) : s.fault = false := by
  obtain ⟨cs, -, h1, h2, -, -⟩ := C63_critical_sections_atomic hr (.refl s)
  rw [h2.fault]
  exact h1.inv.fault

example : DemoL.s6.Reachable ∧ DemoL.s6.fault = false := ⟨DemoL.r6, by decide +kernel⟩

/-- C63 (consequence): between two moments at which nobody holds the mutex of a context, its recording only grows. -/
theorem C63_recordings_append_only {s t : LState S} (hr : s.Reachable) (hs : LSteps s t) {c : Nat} {cell cell' : Cell S}
    (hl : s.mem.ctxLocked c = false) (hl' : t.mem.ctxLocked c = false) (hc : s.mem.world.arcs c = some cell)
    (hc' : t.mem.world.arcs c = some cell') :
    cell.inner.indeps <+: cell'.inner.indeps ∧ cell.inner.deps <+: cell'.inner.deps ∧
      cell.inner.ops <+: cell'.inner.ops ∧ cell.inner.vals <+: cell'.inner.vals := by
  obtain ⟨cs, ct, h1, h2, h3, h4⟩ := C63_critical_sections_atomic hr hs
  rw [h2.contents c hl] at hc
  rw [h4.contents c hl'] at hc'
  obtain ⟨hg, -⟩ := h1.inv.steps h3
  obtain ⟨cell0, h0, g⟩ := hg.cells c cell' (h1.inv.good.lt c cell hc) hc'
  rw [hc] at h0
  injection h0 with h0
  subst h0
  exact ⟨g.indeps, g.deps, g.ops, g.vals⟩

example : DemoL.s4.mem.ctxLocked 1 = false ∧ DemoL.s6.mem.ctxLocked 1 = false ∧
    (DemoL.s4.mem.world.arcs 1).isSome = true ∧ (DemoL.s6.mem.world.arcs 1).isSome = true :=
  ⟨by decide +kernel, by decide +kernel, by decide +kernel, by decide +kernel⟩

/-- C63 (consequence): every variable a thread obtained refers to an entry of the recording of its context that holds
its value, whenever nobody holds the mutex. -/
theorem C63_variables_in_bounds {s t : LState S} (hr : s.Reachable) (hs : LSteps s t) {a : AFloat S} (ha : a ∈ s.vars)
    {c vid : Nat} (hctx : a.ctx = some (c, vid)) (hl : t.mem.ctxLocked c = false) {cell : Cell S}
    (hc : t.mem.world.arcs c = some cell) : cell.inner.vals[vid]? = some a.v := by
  obtain ⟨cs, ct, h1, h2, h3, h4⟩ := C63_critical_sections_atomic hr hs
  rw [h4.contents c hl] at hc
  obtain ⟨hg, -⟩ := h1.inv.steps h3
  obtain ⟨-, h⟩ := (h1.inv.vars a (h2.vars a ha)).mono hg c vid hctx
  obtain ⟨g1, g2⟩ := h cell hc
  simp only [fn] at g2
  rw [List.getElem?_eq_getElem g1] at g2 ⊢
  simpa using g2

example : DemoC.var 2 0 ∈ DemoL.s6.vars ∧ DemoL.s6.mem.ctxLocked 1 = false := ⟨by decide +kernel, by decide +kernel⟩

end Adv.Props
