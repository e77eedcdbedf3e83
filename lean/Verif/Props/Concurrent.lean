import Verif.Proof.Solo
import Verif.Spec.DemoConcurrent
import Verif.Spec.Demo

/-!
# Multi-threaded use: C34, C37, C38, C39 (concurrent part)

`CState.Reachable`: any number of threads, any interleaving of their atomic steps.
-/

set_option linter.unusedSectionVars false

namespace Adv.Props
open Adv

variable {S : Type} [Flt S]

/-! ## C37 -/

/-- C37 (single assignment): at every moment of every interleaving the recording of every context that has not been
freed is well formed: arguments precede results, result ids are distinct and none of them is an independent, all ids
are in bounds, every id below the length is an independent or the result of an operation, and every recorded value is
the result of its operation on the recorded values of its arguments. -/
theorem C37_recordings_well_formed {s : CState S} (hr : s.Reachable) {c : Nat} {cell : Cell S}
    (hc : s.world.arcs c = some cell) :
    cell.inner.cid = c ∧ cell.inner.tape.WF ∧ cell.inner.tape.Complete ∧ cell.inner.tape.Consistent := by
  obtain ⟨h1, h2⟩ := hr.inv.good.good c cell hc
  exact ⟨h1, h2.wf, h2.complete, h2.consistent⟩

example : ∃ cell, DemoC.s7.world.arcs 1 = some cell ∧ cell.inner.vals = [2, 2, 4] ∧
    DemoC.s7.tasks.length = 2 := ⟨_, rfl, by decide +kernel, by decide +kernel⟩

/-- C37 (ids in bounds): every variable that some thread obtained at any time refers to an entry of the recording of
its context that holds the value of the variable, now and after any further steps of any threads, as long as the
context is alive. -/
theorem C37_variables_in_bounds {s t : CState S} (hr : s.Reachable) (hs : CSteps s t) {a : AFloat S} (ha : a ∈ s.vars)
    {c vid : Nat} (hctx : a.ctx = some (c, vid)) {cell : Cell S} (hc : t.world.arcs c = some cell) :
    cell.inner.vals[vid]? = some a.v := by
  obtain ⟨hg, -⟩ := hr.inv.steps hs
  obtain ⟨-, h⟩ := (hr.inv.vars a ha).mono hg c vid hctx
  obtain ⟨h1, h2⟩ := h cell hc
  simp only [fn] at h2
  rw [List.getElem?_eq_getElem h1] at h2 ⊢
  simpa using h2

example : DemoC.var 4 2 ∈ DemoC.s8.vars ∧ ∃ cell, DemoC.s10.world.arcs 1 = some cell ∧
    cell.inner.vals[2]? = some 4 := ⟨by decide +kernel, _, rfl, by decide +kernel⟩

/-- C37 (append only): between any two moments of an execution the recording of a context that is alive at both only
grows: nothing is removed, reordered or overwritten. -/
theorem C37_recordings_append_only {s t : CState S} (hr : s.Reachable) (hs : CSteps s t) {c : Nat} {cell cell' : Cell S}
    (hc : s.world.arcs c = some cell) (hc' : t.world.arcs c = some cell') :
    cell.inner.indeps <+: cell'.inner.indeps ∧ cell.inner.deps <+: cell'.inner.deps ∧
      cell.inner.ops <+: cell'.inner.ops ∧ cell.inner.vals <+: cell'.inner.vals := by
  obtain ⟨hg, -⟩ := hr.inv.steps hs
  obtain ⟨cell0, h0, g⟩ := hg.cells c cell' (hr.inv.good.lt c cell hc) hc'
  rw [hc] at h0
  injection h0 with h0
  subst h0
  exact ⟨g.indeps, g.deps, g.ops, g.vals⟩

example : ∃ cell cell', DemoC.s4.world.arcs 1 = some cell ∧ DemoC.s10.world.arcs 1 = some cell' ∧
    cell.inner.vals = [2] ∧ cell'.inner.vals = [2, 2, 4] := ⟨_, _, rfl, rfl, by decide +kernel, by decide +kernel⟩

/-- C37 (memory safety): no call ever reaches a context after it has been freed. -/
theorem C37_no_access_after_free {s : CState S} (hr : s.Reachable) : s.fault = false := hr.inv.fault

example : DemoC.s10.fault = false ∧ (DemoC.s10.tapes.length = 1) := ⟨by decide +kernel, by decide +kernel⟩

/-- C37 (termination): a call never waits for more than a lock: each of its steps brings it closer to its end, whatever
the other threads do, and it never turns into several calls. -/
theorem C37_calls_finish (t : Task S) (w : CWorld S) :
    (t.step w).1.tasks.length ≤ 1 ∧ ∀ t' ∈ (t.step w).1.tasks, t'.stepsLeft < t.stepsLeft := by
  cases t <;> simp only [Task.step]
  all_goals repeat' split
  all_goals simp [Task.panicked, Task.stepsLeft]

example : (Task.op (S := ℚ) .Mul (DemoC.var 2 0) none).stepsLeft = 6 := rfl

/-- C37 (link to the sequential model): a call of an operation that is not interrupted by other threads does exactly
what the sequential model of `from_op` says. `w` is any sequential state with positive reference counts. -/
theorem C37_uninterrupted_operation {o : OpCode} {a : AFloat S} {b : Option (AFloat S)} {w : World S} (hw : w.Counted)
    (har : arityOk o b = true) :
    (Task.op o a b).solo 6 (CWorld.ofWorld w) =
      (match (AFloat.fromOp o a b w).1 with
        | .ok r => { vars := [r] }
        | .error e => { fault := e == .dangling }, CWorld.ofWorld (AFloat.fromOp o a b w).2) := by
  rw [Task.solo_op hw har]
  rcases (AFloat.fromOp o a b w).1 with e | r <;> rfl

example : Demo.s7.world.Counted ∧ arityOk .Mul (some (AFloat.new (2 : ℚ) 0)) = true := by
  refine ⟨fun c cell h => ?_, rfl⟩
  exact (Demo.r7.inv.alive c cell h).2.2.2.2

/-- C37 (link to the sequential model): the same for the calls of a context. -/
theorem C37_uninterrupted_calls {w : World S} (hw : w.Counted) (c : Nat) (a : AFloat S) :
    ((Task.fromCid c : Task S).solo 1 (CWorld.ofWorld w) =
      ({ handles := match (AContext.fromCid c w).1 with
          | .ok (some h) => [h.cid]
          | _ => [] }, CWorld.ofWorld (AContext.fromCid c w).2)) ∧
    ((Task.drop c none : Task S).solo 2 (CWorld.ofWorld w) =
      ({ fault := match (AContext.drop ⟨c⟩ w).1 with
          | .ok _ => false
          | .error _ => true }, CWorld.ofWorld (AContext.drop ⟨c⟩ w).2)) ∧
    ((Task.setIndep c a).solo 1 (CWorld.ofWorld w) =
      (match (AContext.setIndep ⟨c⟩ a w).1 with
        | .ok r => { vars := [r] }
        | .error e => { fault := e == .dangling }, CWorld.ofWorld (AContext.setIndep ⟨c⟩ a w).2)) ∧
    ((Task.setDep c a).solo 1 (CWorld.ofWorld w) =
      ({ fault := match (AContext.setDep ⟨c⟩ a w).1 with
          | .ok _ => false
          | .error e => e == .dangling }, CWorld.ofWorld (AContext.setDep ⟨c⟩ a w).2)) ∧
    ((Task.tape c).solo 4 (CWorld.ofWorld w) =
      ({ tapes := match (AContext.tape ⟨c⟩ w).1 with
          | .ok t => [t]
          | .error _ => []
         fault := match (AContext.tape ⟨c⟩ w).1 with
          | .ok _ => false
          | .error e => e == .dangling }, CWorld.ofWorld (AContext.tape ⟨c⟩ w).2)) := by
  refine ⟨Task.solo_fromCid hw c, Task.solo_drop hw c, ?_, Task.solo_setDep c a, Task.solo_tape c⟩
  rw [Task.solo_setIndep]
  rcases (AContext.setIndep ⟨c⟩ a w).1 with e | r <;> rfl

example : Demo.s7.world.Counted := fun c cell h => (Demo.r7.inv.alive c cell h).2.2.2.2

/-- C37 (link to the sequential model): the same for `AContext::new`, whenever the next id is not in use. -/
theorem C37_uninterrupted_new {w : World S} (hd : w.cells w.nextId = none) :
    (Task.new : Task S).solo 2 (CWorld.ofWorld w) =
      ({ handles := match (AContext.new w).1 with
          | .ok h => [h.cid]
          | .error _ => [] }, CWorld.ofWorld (AContext.new w).2) := Task.solo_new hd

example : Demo.s7.world.cells Demo.s7.world.nextId = none := rfl

/-! ## C34, C39 for several threads -/

/-- C34 (several threads): the id a call of `AContext::new` receives is not the id of any existing context, of a context
under construction or of any handle, and no variable mentions it. -/
theorem C34_concurrent_new_id_fresh {s : CState S} (hr : s.Reachable) :
    s.world.arcs s.world.nextId = none ∧ s.world.map s.world.nextId = false ∧ s.world.nextId ∉ s.handles ∧
      (∀ t ∈ s.tasks, t ≠ .newInsert s.world.nextId) ∧
      ∀ a ∈ s.vars, ∀ c vid, a.ctx = some (c, vid) → c ≠ s.world.nextId := by
  have hi := hr.inv
  have hnone : s.world.arcs s.world.nextId = none := by
    rcases h : s.world.arcs s.world.nextId with _ | cell
    · rfl
    · have := hi.good.lt _ _ h; omega
  have href := hi.ref s.world.nextId
  rw [hnone] at href
  obtain ⟨h1, -⟩ := href
  refine ⟨hnone, ?_, ?_, ?_, ?_⟩
  · rcases h : s.world.map s.world.nextId
    · rfl
    · exact absurd hnone (hi.live _ h)
  · intro h
    have := List.count_pos_iff.mpr h
    omega
  · rintro t ht rfl
    obtain ⟨l, r, hlr⟩ := List.append_of_mem ht
    rw [hlr, tsum_append, tsum_cons] at h1
    simp [Task.owns] at h1
  · rintro a ha c vid hctx rfl
    exact absurd (hi.vars a ha _ vid hctx).1 (Nat.lt_irrefl _)

example : DemoC.s10.world.nextId = 2 := by decide +kernel

/-- C39 (several threads): as long as some thread holds a handle of a context, `from_cid` finds the context. -/
theorem C39_concurrent_from_cid_finds {s : CState S} (hr : s.Reachable) {c : Nat} (hc : c ∈ s.handles) :
    ∃ w', s.world.upgrade c = some w' ∧ ((Task.fromCid c).step s.world).1.handles = [c] := by
  obtain ⟨n, i, h, hn, -⟩ := (hr.inv.ref c).owned (by have := List.count_pos_iff.mpr hc; omega)
  have hpos := List.count_pos_iff.mpr hc
  have hu : s.world.upgrade c = some (s.world.setArc c (some ⟨n + 1, i⟩)) := by
    simp only [CWorld.upgrade, hr.inv.hmap c hc, h]
    rw [if_neg (by omega)]
  exact ⟨_, hu, by simp only [Task.step, hu]⟩

example : 1 ∈ DemoC.s7.handles := by decide +kernel

/-- C39 (several threads): when no call is in progress, a context is registered and allocated exactly if some thread
holds a handle: nothing is leaked and nothing is freed early, and the reference count is the number of handles. -/
theorem C39_concurrent_registry {s : CState S} (hr : s.Reachable) (hq : s.tasks = []) (c : Nat) :
    (s.world.map c = true ↔ c ∈ s.handles) ∧ ((∃ cell, s.world.arcs c = some cell) ↔ c ∈ s.handles) ∧
      ∀ cell, s.world.arcs c = some cell → cell.strong = s.handles.count c := by
  have hi := hr.inv
  have href := hi.ref c
  rw [hq] at href
  simp only [tsum_nil, Nat.add_zero] at href
  have harc : ∀ cell, s.world.arcs c = some cell → c ∈ s.handles ∧ cell.strong = s.handles.count c := by
    intro cell h
    rw [h] at href
    obtain ⟨h1, h2⟩ := href
    refine ⟨List.count_pos_iff.mp ?_, h1⟩
    by_contra hn
    rw [if_pos (by omega)] at h2; cases h2
  have hex : c ∈ s.handles → ∃ cell, s.world.arcs c = some cell := fun h => by
    rcases h' : s.world.arcs c with _ | cell
    · exact absurd h' (hi.live c (hi.hmap c h))
    · exact ⟨cell, rfl⟩
  refine ⟨⟨fun h => ?_, hi.hmap c⟩, ⟨fun ⟨cell, h⟩ => (harc cell h).1, hex⟩, fun cell h => (harc cell h).2⟩
  rcases h' : s.world.arcs c with _ | cell
  · exact absurd h' (hi.live c h)
  · exact (harc cell h').1

example : DemoC.s10.tasks = [] ∧ 1 ∈ DemoC.s10.handles :=
  ⟨List.length_eq_zero_iff.mp (by decide +kernel), by decide +kernel⟩

/-! ## C38 -/

/-- C38: a tape that was read component by component while other threads recorded refers only to entries of its value
array, its operations are in single-assignment form and its values are consistent with them. Hence `x`, `y`,
`zero_order` and `first_order_forward` never index out of bounds, and `first_order_reverse` fails at most because of
recorded absolute values. -/
theorem C38_snapshot_usable {s : CState S} (hr : s.Reachable) {t : Tape S} (ht : t ∈ s.tapes) :
    t.WF ∧ t.Consistent ∧ (∃ x, t.x = .ok x ∧ x.length = t.numIndeps) ∧ (∃ y, t.y = .ok y ∧ y.length = t.numDeps) ∧
    (∀ x, x.length = t.numIndeps → ∃ t', t.zeroOrder x = .ok t' ∧ t'.WF ∧ ∃ y, t'.y = .ok y ∧ y.length = t.numDeps) ∧
    (∀ dx, dx.length = t.numIndeps → ∃ dy, t.firstOrderForward dx = .ok dy ∧ dy.length = t.numDeps) ∧
    (t.AbsFree → ∀ ybar, ybar.length = t.numDeps → ∃ xbar, t.firstOrderReverse ybar = .ok xbar ∧
      xbar.length = t.numIndeps) := by
  obtain ⟨hw, hcons, -, hmut⟩ := hr.inv.tapes t ht
  refine ⟨hw, hcons, ⟨_, Tape.x_eq hw, by simp [Tape.numIndeps]⟩, ⟨_, Tape.y_eq hw, by simp [Tape.numDeps]⟩, ?_, ?_, ?_⟩
  · intro x hx
    obtain ⟨v', e, l, -⟩ := Tape.zeroOrder_eq hw hx hmut
    have hw' : ({ t with vals := v' } : Tape S).WF := by
      obtain ⟨w1, w2, w3, w4, w5, w6, w7, w8⟩ := hw
      exact ⟨by simpa [l] using w1, by simpa [l] using w2, w3, w4, by simpa [l] using w5, w6, w7, w8⟩
    exact ⟨_, e, hw', _, Tape.y_eq hw', by simp [Tape.numDeps]⟩
  · intro dx hdx
    exact ⟨_, Tape.firstOrderForward_eq hw (by rw [hdx]; exact Nat.le_refl _), by simp [Tape.numDeps]⟩
  · intro ha ybar hy
    exact ⟨_, Tape.firstOrderReverse_eq hw ha (by rw [hy]; exact Nat.le_refl _), by simp [Tape.numIndeps]⟩

example : DemoC.snap ∈ DemoC.s10.tapes := by decide +kernel

/-- What C38 does not promise: a snapshot can miss an independent that its operations use. The tape of this execution
has the single independent 0 and the operation `x0 * x1`; its derivative with respect to `x1` is lost. -/
theorem C38_snapshot_may_be_incomplete :
    ∃ s : CState ℚ, s.Reachable ∧ ∃ t ∈ s.tapes, t.numIndeps = 1 ∧ ¬ t.Complete ∧
      ∃ op ∈ t.ops, ∃ i ∈ op.args, i ∉ t.indeps ∧ ∀ op' ∈ t.ops, op'.vid ≠ i := by
  refine ⟨DemoC.s10, DemoC.r10, DemoC.snap, by decide +kernel, rfl, ?_, _, List.mem_singleton_self _, 1, by decide, by decide,
    by decide⟩
  intro h
  rcases h 1 (by decide) with h | ⟨op, hop, h⟩
  · revert h; decide
  · revert h
    simp only [activeOps, DemoC.snap, List.mem_filter, List.mem_singleton] at hop
    rw [hop.1]; decide

end Adv.Props
