import Verif.Proof.Locks

/-!
# Forward simulation: every execution with explicit locks is an execution with atomic sections
-/

set_option linter.unusedSectionVars false

namespace Adv

variable {S : Type} [Flt S]

/-! ## Sections, run without interruption -/

/-- Effect of the rest of a section on the contents of the context, including the poison flag. -/
def Sect.exec : Sect S → Inner S → Effect S × Inner S
  | .ret e, i => (e, i)
  | .panic e, i => (e, { i with poisoned := true })
  | .read k, i => (k i).exec i
  | .write f k, i => k.exec (f i)

theorem CWorld.setArc_self (w : CWorld S) (c : Nat) (x : Option (Cell S)) (h : w.arcs c = x) : w.setArc c x = w := by
  rcases w with ⟨n, m, a⟩
  simp only [CWorld.setArc, CWorld.mk.injEq, true_and]
  funext d
  by_cases hd : d = c
  · subst hd; simpa using h.symm
  · simp [hd]

/-- The statements of a critical section of a context, one after the other, do what the atomic section does. -/
theorem Task.step_ctx {t : Task S} {c n : Nat} {i : Inner S} {w : CWorld S} (hl : t.lock = .ctx c)
    (hw : w.arcs c = some ⟨n, i⟩) :
    t.step w = (((t.enter i).exec i).1, w.setArc c (some ⟨n, ((t.enter i).exec i).2⟩)) := by
  have hs : i.poisoned = true → w.setArc c (some ⟨n, i⟩) = w := fun _ => CWorld.setArc_self w c _ hw
  cases t with
  | new | newInsert | fromCid | drop | finalize => simp [Task.lock] at hl
  | op =>
    simp only [Task.lock] at hl
    split at hl <;> cases hl
  | setIndep d a =>
    injection hl with hl; subst hl
    by_cases hp : i.poisoned <;>
      simp [Task.step, CWorld.withLock, hw, hp, Task.enter, Sect.exec, Sect.ofTask, Sect.setIndep, hs, Task.unwind,
        Inner.setIndep, Sect.pushVal, Sect.pushIndep]
  | setDep d a =>
    injection hl with hl; subst hl
    by_cases hp : i.poisoned
    · simp [Task.step, CWorld.withLock, hw, hp, Task.enter, Sect.exec, hs, Task.unwind]
    · rcases hx : a.ctx with _ | ⟨cid, vid⟩
      · simp [Task.step, CWorld.withLock, hw, hp, Task.enter, Sect.exec, Sect.ofTask, Sect.setDep, hx, Inner.setDep,
          Sect.pushVal, Sect.pushOp, Sect.pushDep]
      · by_cases hc : cid = i.cid <;>
          simp [Task.step, CWorld.withLock, hw, hp, Task.enter, Sect.exec, Sect.ofTask, Sect.setDep, hx, Inner.setDep,
            Sect.pushDep, hc]
  | opArg1 call =>
    simp only [Task.lock] at hl
    split at hl
    · cases hl
    · rename_i hn
      injection hl with hl; subst hl
      have hn : call.arg1.ctx = none := by simpa using hn
      by_cases hp : i.poisoned <;>
        simp [Task.step, CWorld.withLock, hw, hp, hn, Task.enter, Sect.exec, Sect.ofTask, Sect.record, hs, Task.unwind,
          Inner.record, Sect.pushVal, Sect.pushOp]
  | opArg2 call vid1 =>
    rcases hb : call.arg2 with _ | b
    · simp [Task.lock, hb] at hl
    · simp only [Task.lock, hb] at hl
      split at hl
      · cases hl
      · rename_i hn
        injection hl with hl; subst hl
        have hn : b.ctx = none := by simpa using hn
        by_cases hp : i.poisoned <;>
          simp [Task.step, CWorld.withLock, hw, hp, hn, hb, Task.enter, Sect.exec, Sect.ofTask, Sect.record, hs,
            Task.unwind, Inner.record, Sect.pushVal, Sect.pushOp]
  | opRec call vid1 vid2 =>
    injection hl with hl; subst hl
    by_cases hp : i.poisoned <;>
      simp [Task.step, CWorld.withLock, hw, hp, Task.enter, Sect.exec, Sect.ofTask, Sect.record, hs, Task.unwind,
        Inner.record, Sect.pushVal, Sect.pushOp]
  | tape | tape1 | tape2 | tape3 =>
    injection hl with hl; subst hl
    by_cases hp : i.poisoned <;>
      simp [Task.step, CWorld.withLock, hw, hp, Task.enter, Sect.exec, Sect.ofTask, hs, Task.unwind]

/-- A call that locks a freed context accesses freed memory. -/
theorem Task.step_ctx_none {t : Task S} {c : Nat} {w : CWorld S} (hl : t.lock = .ctx c) (hw : w.arcs c = none) :
    (t.step w).1.fault = true := by
  cases t with
  | new | newInsert | fromCid | drop | finalize => simp [Task.lock] at hl
  | op =>
    simp only [Task.lock] at hl
    split at hl <;> cases hl
  | opArg1 call =>
    simp only [Task.lock] at hl
    split at hl
    · cases hl
    · rename_i hn
      injection hl with hl; subst hl
      have hn : call.arg1.ctx = none := by simpa using hn
      simp [Task.step, CWorld.withLock, hw, hn, Task.panicked]
  | opArg2 call vid1 =>
    rcases hb : call.arg2 with _ | b
    · simp [Task.lock, hb] at hl
    · simp only [Task.lock, hb] at hl
      split at hl
      · cases hl
      · rename_i hn
        injection hl with hl; subst hl
        have hn : b.ctx = none := by simpa using hn
        simp [Task.step, CWorld.withLock, hw, hn, hb, Task.panicked]
  | _ =>
    injection hl with hl; subst hl
    simp [Task.step, CWorld.withLock, hw, Task.panicked]

/-- A section of the map that looks up an id. -/
def Task.looksUp : Task S → Bool
  | .fromCid _ | .op _ _ _ => true
  | _ => false

theorem Task.step_map {t : Task S} {w : CWorld S} (hl : t.lock = .map) (hk : t.looksUp = true) :
    t.step w = match w.map (LTask.mapKey t), w.arcs (LTask.mapKey t) with
      | true, some cell =>
          if cell.strong = 0 then (LTask.missing t, w)
          else (LTask.found t, w.setArc (LTask.mapKey t) (some { cell with strong := cell.strong + 1 }))
      | _, _ => (LTask.missing t, w) := by
  cases t with
  | fromCid c =>
    simp only [Task.step, CWorld.upgrade, LTask.mapKey, LTask.missing, LTask.found]
    rcases w.map c with _ | _ <;> rcases w.arcs c with _ | cell <;> try rfl
    by_cases h0 : cell.strong = 0 <;> simp [h0]
  | op o a b =>
    simp only [Task.lock] at hl
    split at hl
    · rename_i v dv cid h1 h2 h3
      simp only [Task.step, CWorld.upgrade, LTask.mapKey, LTask.missing, LTask.found, h1, h2, h3]
      rcases w.map cid with _ | _ <;> rcases w.arcs cid with _ | cell <;> try rfl
      by_cases h0 : cell.strong = 0 <;> simp [h0]
    · cases hl
  | _ => simp [Task.looksUp] at hk

/-! ## The simulation relation -/

namespace LTask

/-- The call as the atomic model sees it: a section of a context takes effect when it is left, a section of the map
with its last access to shared data. -/
def abs : LTask S → List (Task S)
  | .run t | .inCtx t _ _ _ | .inMap t .entered | .inMap t (.looked _) => [t]
  | .inMap _ (.leave e) => e.tasks

/-- What a call will return when it unlocks the map. -/
def pend : LTask S → Effect S
  | .inMap _ (.leave e) => { e with tasks := [] }
  | _ => {}

end LTask

/-- Corresponding lists of calls and results. -/
structure SimL (s : LState S) (cs : CState S) : Prop where
  tasks : cs.tasks.Perm (s.tasks.flatMap LTask.abs)
  handles : cs.handles.Perm ((s.tasks.flatMap fun t => t.pend.handles) ++ s.handles)
  vars : ∀ a, (a ∈ (s.tasks.flatMap fun t => t.pend.vars) ∨ a ∈ s.vars) → a ∈ cs.vars
  tapes : ∀ a, (a ∈ (s.tasks.flatMap fun t => t.pend.tapes) ∨ a ∈ s.tapes) → a ∈ cs.tapes

/-- Corresponding memory. -/
structure SimW (m : LMem S) (w : CWorld S) : Prop where
  nextId : w.nextId = m.world.nextId
  map : w.map = m.world.map
  cells : ∀ c, (w.arcs c = none ∧ m.world.arcs c = none) ∨
    ∃ n i i0, m.world.arcs c = some ⟨n, i⟩ ∧ w.arcs c = some ⟨n, i0⟩ ∧ (m.ctxLocked c = false → i0 = i)

/-- What the simulation knows about a call in progress. -/
def SimT (m : LMem S) (w : CWorld S) : LTask S → Prop
  | .run _ => True
  | .inCtx t c i0 σ => t.lock = .ctx c ∧
      ∃ n i, m.world.arcs c = some ⟨n, i⟩ ∧ w.arcs c = some ⟨n, i0⟩ ∧ σ.exec i = (t.enter i0).exec i0
  | .inMap t .entered => t.lock = .map
  | .inMap t (.looked b) => t.lock = .map ∧ t.looksUp = true ∧ b = m.world.map (LTask.mapKey t)
  | .inMap _ (.leave e) => e.fault = false ∧ ∀ t ∈ e.tasks, ∀ c, t.borrows c = false

/-- Corresponding states. -/
structure LSim (s : LState S) (cs : CState S) : Prop where
  reach : cs.Reachable
  lists : SimL s cs
  mem : SimW s.mem cs.world
  calls : ∀ x ∈ s.tasks, SimT s.mem cs.world x
  fault : s.fault = false
  lock : LockInv s

theorem perm_replace {α : Type} {x : List α} {t : α} {L R E : List α} (h : x.Perm (L ++ t :: R)) :
    ∃ l r, x = l ++ t :: r ∧ (l ++ E ++ r).Perm (L ++ (E ++ R)) := by
  have ht : t ∈ x := h.mem_iff.mpr (by simp)
  obtain ⟨l, r, rfl⟩ := List.append_of_mem ht
  refine ⟨l, r, rfl, ?_⟩
  have h1 : (l ++ r).Perm (L ++ R) := by
    have := (List.perm_middle.symm.trans h).trans List.perm_middle
    exact (List.perm_cons t).mp this
  have h2 : (l ++ E ++ r).Perm (E ++ (l ++ r)) := by
    rw [List.append_assoc]
    rw [← List.append_assoc E l r, ← List.append_assoc l E r]
    exact List.Perm.append_right r List.perm_append_comm
  have h3 : (L ++ (E ++ R)).Perm (E ++ (L ++ R)) := by
    rw [← List.append_assoc, ← List.append_assoc]
    exact List.Perm.append_right R List.perm_append_comm
  exact (h2.trans (List.Perm.append_left E h1)).trans h3.symm

/-- A step that the atomic model does not see. -/
theorem SimL.stutter {s : LState S} {cs : CState S} (h : SimL s cs) {l r : List (LTask S)} {lt : LTask S}
    (ht : s.tasks = l ++ lt :: r) {e : LEffect S} (ha : e.next.flatMap LTask.abs = lt.abs)
    (hh : (e.next.flatMap fun t => t.pend.handles) ++ e.out.handles = lt.pend.handles)
    (hv : (e.next.flatMap fun t => t.pend.vars) ++ e.out.vars = lt.pend.vars)
    (hp : (e.next.flatMap fun t => t.pend.tapes) ++ e.out.tapes = lt.pend.tapes) : SimL (s.after l r e) cs := by
  obtain ⟨h1, h2, h3, h4⟩ := h
  rw [ht] at h1 h2 h3 h4
  simp only [List.flatMap_append, List.flatMap_cons] at h1 h2 h3 h4
  refine ⟨?_, ?_, ?_, ?_⟩
  · simpa [LState.after, ha] using h1
  · refine h2.trans ?_
    simp only [LState.after, List.flatMap_append, ← hh, List.append_assoc]
    refine List.Perm.append_left _ (List.Perm.append_left _ ?_)
    rw [← List.append_assoc, ← List.append_assoc]
    exact List.Perm.append_right _ List.perm_append_comm
  · intro a ha
    refine h3 a ?_
    simp only [LState.after, List.flatMap_append, ← hv, List.mem_append] at ha ⊢
    tauto
  · intro a ha
    refine h4 a ?_
    simp only [LState.after, List.flatMap_append, ← hp, List.mem_append] at ha ⊢
    tauto

/-- The step with which a section takes effect. -/
theorem SimL.lin {s : LState S} {cs : CState S} (h : SimL s cs) {l r : List (LTask S)} {lt : LTask S} {t : Task S}
    (ht : s.tasks = l ++ lt :: r) (habs : lt.abs = [t]) (hpend : lt.pend = {}) {e : LEffect S} {e' : Effect S}
    (w' : CWorld S) (ha : e.next.flatMap LTask.abs = e'.tasks)
    (hh : (e.next.flatMap fun t => t.pend.handles) ++ e.out.handles = e'.handles)
    (hv : (e.next.flatMap fun t => t.pend.vars) ++ e.out.vars = e'.vars)
    (hp : (e.next.flatMap fun t => t.pend.tapes) ++ e.out.tapes = e'.tapes) :
    ∃ l' r', cs.tasks = l' ++ t :: r' ∧ SimL (s.after l r e) (cs.after l' r' e' w') := by
  obtain ⟨h1, h2, h3, h4⟩ := h
  rw [ht] at h1 h2 h3 h4
  simp only [List.flatMap_append, List.flatMap_cons, habs, hpend, List.nil_append, List.singleton_append] at h1 h2 h3 h4
  obtain ⟨l', r', e1, e2⟩ := perm_replace (E := e'.tasks) h1
  refine ⟨l', r', e1, ?_, ?_, ?_, ?_⟩
  · refine e2.trans ?_
    simp [LState.after, ha]
  · refine (List.Perm.append_left _ h2).trans ?_
    simp only [LState.after, List.flatMap_append, ← hh]
    generalize (l.flatMap fun t => t.pend.handles) = A
    generalize (r.flatMap fun t => t.pend.handles) = B
    generalize (e.next.flatMap fun t => t.pend.handles) = C
    generalize e.out.handles = D
    rw [List.perm_iff_count]
    intro a
    simp only [List.count_append]
    omega
  · intro a ha
    simp only [CState.after, LState.after, List.flatMap_append, List.mem_append, ← hv] at ha h3 ⊢
    have := h3 a
    tauto
  · intro a ha
    simp only [CState.after, LState.after, List.flatMap_append, List.mem_append, ← hp] at ha h4 ⊢
    have := h4 a
    tauto

/-! ## Preservation -/

theorem LockInv.excl_ctx {s : LState S} (h : LockInv s) {l r : List (LTask S)} {lt x : LTask S} {c : Nat}
    (ht : s.tasks = l ++ lt :: r) (hc : lt.holdsCtx c = true) (hx : x ∈ l ++ r) : x.holdsCtx c = false := by
  have h1 := h.ctx c
  rw [ht] at h1
  simp only [List.countP_append, List.countP_cons, hc, if_true] at h1
  have h2 := Bool.toNat_le (s.mem.ctxLocked c)
  have h3 : (l ++ r).countP (LTask.holdsCtx c) = 0 := by rw [List.countP_append]; omega
  rw [List.countP_eq_zero] at h3
  simpa using h3 x hx

theorem LockInv.excl_map {s : LState S} (h : LockInv s) {l r : List (LTask S)} {lt x : LTask S}
    (ht : s.tasks = l ++ lt :: r) (hc : lt.holdsMap = true) (hx : x ∈ l ++ r) : x.holdsMap = false := by
  have h1 := h.map
  rw [ht] at h1
  simp only [List.countP_append, List.countP_cons, hc, if_true] at h1
  have h2 := Bool.toNat_le s.mem.mapLocked
  have h3 : (l ++ r).countP LTask.holdsMap = 0 := by rw [List.countP_append]; omega
  rw [List.countP_eq_zero] at h3
  simpa using h3 x hx

theorem LockInv.free_ctx {s : LState S} (h : LockInv s) {x : LTask S} {c : Nat} (hc : s.mem.ctxLocked c = false)
    (hx : x ∈ s.tasks) : x.holdsCtx c = false := by
  have h1 := h.ctx c
  rw [hc, Bool.toNat_false, List.countP_eq_zero] at h1
  simpa using h1 x hx

theorem LockInv.owner {s : LState S} (h : LockInv s) {c : Nat} (hc : s.mem.ctxLocked c = true) :
    ∃ x ∈ s.tasks, x.holdsCtx c = true := by
  have h1 := h.ctx c
  rw [hc, Bool.toNat_true] at h1
  exact List.countP_pos_iff.mp (by omega)

theorem SimT.mono {m m' : LMem S} {w w' : CWorld S} {x : LTask S} (h : SimT m w x)
    (hm : x.holdsMap = true → m'.world.map = m.world.map)
    (hc : ∀ c n i i0, x.holdsCtx c = true → m.world.arcs c = some ⟨n, i⟩ → w.arcs c = some ⟨n, i0⟩ →
      ∃ n', m'.world.arcs c = some ⟨n', i⟩ ∧ w'.arcs c = some ⟨n', i0⟩) : SimT m' w' x := by
  rcases x with t | ⟨t, c, i0, σ⟩ | ⟨t, p⟩
  · trivial
  · obtain ⟨h1, n, i, h2, h3, h4⟩ := h
    obtain ⟨n', h5, h6⟩ := hc c n i i0 (by simp [LTask.holdsCtx]) h2 h3
    exact ⟨h1, n', i, h5, h6, h4⟩
  · rcases p with _ | b | e
    · exact h
    · obtain ⟨h1, h2, h3⟩ := h
      exact ⟨h1, h2, by rw [hm rfl]; exact h3⟩
    · exact h

theorem finish_abs (e : Effect S) (m : LMem S) : (LTask.finish e m).next.flatMap LTask.abs = e.tasks := by
  simp only [LTask.finish]
  induction e.tasks with
  | nil => rfl
  | cons t l ih => simpa [LTask.abs] using ih

theorem finish_pend {α : Type} (e : Effect S) (m : LMem S) (f : Effect S → List α) (h0 : f {} = []) :
    ((LTask.finish e m).next.flatMap fun t => f t.pend) = [] := by
  simp only [LTask.finish]
  induction e.tasks with
  | nil => rfl
  | cons t l ih => simp [LTask.pend, h0]

/-- A step that the atomic model does not see. -/
theorem LSim.stutter {s : LState S} {cs : CState S} (h : LSim s cs) {l r : List (LTask S)} {lt : LTask S}
    (ht : s.tasks = l ++ lt :: r) {e : LEffect S} (he : lt.step s.mem = some e)
    (hid : lt = .run .new → s.mem.world.nextId < usizeMax) (ha : e.next.flatMap LTask.abs = lt.abs)
    (hh : (e.next.flatMap fun t => t.pend.handles) ++ e.out.handles = lt.pend.handles)
    (hv : (e.next.flatMap fun t => t.pend.vars) ++ e.out.vars = lt.pend.vars)
    (hp : (e.next.flatMap fun t => t.pend.tapes) ++ e.out.tapes = lt.pend.tapes)
    (hf : e.out.fault = false) (hm : SimW e.mem cs.world) (hn : ∀ x ∈ e.next, SimT e.mem cs.world x)
    (ho : ∀ x ∈ l ++ r, SimT e.mem cs.world x) :
    ∃ cs', CSteps cs cs' ∧ LSim (s.after l r e) cs' := by
  refine ⟨cs, .refl _, h.reach, h.lists.stutter ht ha hh hv hp, hm, ?_, by simp [LState.after, h.fault, hf],
    h.lock.run ⟨ht, hid, he⟩⟩
  intro x hx
  simp only [LState.after, List.mem_append] at hx
  rcases hx with (hx | hx) | hx
  · exact ho x (List.mem_append_left _ hx)
  · exact hn x hx
  · exact ho x (List.mem_append_right _ hx)

/-- The step with which a section takes effect. -/
theorem LSim.lin {s : LState S} {cs : CState S} (h : LSim s cs) {l r : List (LTask S)} {lt : LTask S} {t : Task S}
    (ht : s.tasks = l ++ lt :: r) {e : LEffect S} (he : lt.step s.mem = some e)
    (hid : lt = .run .new → s.mem.world.nextId < usizeMax) (hid' : t = .new → cs.world.nextId < usizeMax)
    (habs : lt.abs = [t]) (hpend : lt.pend = {}) {e' : Effect S} {w' : CWorld S} (hs : t.step cs.world = (e', w'))
    (ha : e.next.flatMap LTask.abs = e'.tasks)
    (hh : (e.next.flatMap fun t => t.pend.handles) ++ e.out.handles = e'.handles)
    (hv : (e.next.flatMap fun t => t.pend.vars) ++ e.out.vars = e'.vars)
    (hp : (e.next.flatMap fun t => t.pend.tapes) ++ e.out.tapes = e'.tapes)
    (hf : e'.fault = false → e.out.fault = false)
    (hm : ∀ cs', CState.Reachable cs' → cs'.world = w' → SimL (s.after l r e) cs' →
      SimW e.mem w' ∧ (∀ x ∈ e.next, SimT e.mem w' x) ∧ ∀ x ∈ l ++ r, SimT e.mem w' x) :
    ∃ cs', CSteps cs cs' ∧ LSim (s.after l r e) cs' := by
  obtain ⟨l', r', e1, e2⟩ := h.lists.lin ht habs hpend w' ha hh hv hp
  have hstep : CStep cs (cs.after l' r' e' w') := .run e1 hid' hs
  have hreach : (cs.after l' r' e' w').Reachable := .tail h.reach hstep
  have hfault : e'.fault = false := by
    have := hreach.inv.fault
    simp only [CState.after, Bool.or_eq_false_iff] at this
    exact this.2
  obtain ⟨hm, hn, ho⟩ := hm _ hreach rfl e2
  refine ⟨_, .tail (.refl _) hstep, hreach, e2, hm, ?_, by simp [LState.after, h.fault, hf hfault],
    h.lock.run ⟨ht, hid, he⟩⟩
  intro x hx
  simp only [LState.after, List.mem_append] at hx
  rcases hx with (hx | hx) | hx
  · exact ho x (List.mem_append_left _ hx)
  · exact hn x hx
  · exact ho x (List.mem_append_right _ hx)

/-- A step outside all critical sections. -/
theorem Task.step_none {t : Task S} {m : LMem S} {w : CWorld S} (hl : t.lock = .none) (h : SimW m w)
    (hfresh : w.arcs w.nextId = none) :
    (t.step w).1 = (t.step m.world).1 ∧ SimW { m with world := (t.step m.world).2 } (t.step w).2 ∧
      (t.step m.world).2.map = m.world.map ∧
      ∀ c n i i0, m.world.arcs c = some ⟨n, i⟩ → w.arcs c = some ⟨n, i0⟩ →
        ∃ n', (t.step m.world).2.arcs c = some ⟨n', i⟩ ∧ (t.step w).2.arcs c = some ⟨n', i0⟩ := by
  have same : (∀ w', (t.step w').2 = w') → (t.step w).1 = (t.step m.world).1 →
    (t.step w).1 = (t.step m.world).1 ∧ SimW { m with world := (t.step m.world).2 } (t.step w).2 ∧
      (t.step m.world).2.map = m.world.map ∧
      ∀ c n i i0, m.world.arcs c = some ⟨n, i⟩ → w.arcs c = some ⟨n, i0⟩ →
        ∃ n', (t.step m.world).2.arcs c = some ⟨n', i⟩ ∧ (t.step w).2.arcs c = some ⟨n', i0⟩ := by
    intro h1 h2
    refine ⟨h2, ?_, ?_, ?_⟩
    · rw [h1, h1]; exact h
    · rw [h1]
    · rw [h1, h1]; exact fun c n i i0 h3 h4 => ⟨n, h3, h4⟩
  cases t with
  | newInsert | fromCid | finalize | setIndep | setDep | tape | tape1 | tape2 | tape3 | opRec => cases hl
  | new =>
    have hn := h.nextId
    by_cases hlt : m.world.nextId < usizeMax
    · simp only [Task.step, hn, hlt, if_true]
      refine ⟨trivial, ⟨rfl, h.map, fun c => ?_⟩, rfl, fun c n i i0 h1 h2 => ?_⟩
      · by_cases hc : c = m.world.nextId
        · subst hc
          right
          exact ⟨1, Inner.construct _, Inner.construct _, by simp [CWorld.setArc]; rfl, by simp [CWorld.setArc], fun _ => rfl⟩
        · simpa [CWorld.setArc, hc] using h.cells c
      · have hc : c ≠ m.world.nextId := by
          rintro rfl
          rw [← hn, hfresh] at h2
          cases h2
        exact ⟨n, by simpa [CWorld.setArc, hc] using h1, by simpa [CWorld.setArc, hc] using h2⟩
    · simp only [Task.step, hn, hlt, if_false]
      exact ⟨trivial, ⟨rfl, h.map, h.cells⟩, trivial, fun c n i i0 h1 h2 => ⟨n, h1, h2⟩⟩
  | drop d r =>
    rcases h.cells d with ⟨h1, h2⟩ | ⟨n, i, i0, h1, h2, h3⟩
    · simp only [Task.step, h1, h2]
      exact ⟨trivial, h, trivial, fun c n i i0 h1 h2 => ⟨n, h1, h2⟩⟩
    · have upd : ∀ k : Nat, SimW { m with world := m.world.setArc d (some ⟨k, i⟩) } (w.setArc d (some ⟨k, i0⟩)) ∧
          (m.world.setArc d (some ⟨k, i⟩)).map = m.world.map ∧
          ∀ c n j j0, m.world.arcs c = some ⟨n, j⟩ → w.arcs c = some ⟨n, j0⟩ →
            ∃ n', (m.world.setArc d (some ⟨k, i⟩)).arcs c = some ⟨n', j⟩ ∧
              (w.setArc d (some ⟨k, i0⟩)).arcs c = some ⟨n', j0⟩ := by
        intro k
        refine ⟨⟨h.nextId, h.map, fun c => ?_⟩, rfl, fun c n' j j0 g1 g2 => ?_⟩
        · by_cases hc : c = d
          · subst hc
            right
            exact ⟨k, i, i0, by simp [CWorld.setArc], by simp [CWorld.setArc], h3⟩
          · simpa [CWorld.setArc, hc] using h.cells c
        · by_cases hc : c = d
          · subst hc
            rw [h1] at g1; injection g1 with g1; injection g1 with g1 g1'
            rw [h2] at g2; injection g2 with g2; injection g2 with g2 g2'
            subst g1' g2'
            exact ⟨k, by simp [CWorld.setArc], by simp [CWorld.setArc]⟩
          · exact ⟨n', by simpa [CWorld.setArc, hc] using g1, by simpa [CWorld.setArc, hc] using g2⟩
      by_cases h0 : n = 0
      · simp only [Task.step, h1, h2, h0, if_true]
        exact ⟨trivial, h, trivial, fun c n i i0 h1 h2 => ⟨n, h1, h2⟩⟩
      · by_cases h1' : n = 1
        · simp only [Task.step, h1, h2, h1', if_true, Nat.one_ne_zero, if_false]
          exact ⟨trivial, upd 0⟩
        · simp only [Task.step, h1, h2, h0, h1', if_false]
          exact ⟨trivial, upd (n - 1)⟩
  | op o a b =>
    rcases hz : zeroOrderValue o a.v (b.map AFloat.v) with ez | v
    · apply same <;> simp [Task.step, hz]
    rcases hf : firstOrderValue o a.v (b.map AFloat.v) a.dv (b.map AFloat.dv) with ef | dv
    · apply same <;> simp [Task.step, hz, hf]
    rcases hc : AFloat.opCid a b with ec | _ | cid
    · apply same <;> simp [Task.step, hz, hf, hc]
    · apply same <;> simp [Task.step, hz, hf, hc]
    · simp [Task.lock, hz, hf, hc] at hl
  | opArg1 call =>
    simp only [Task.lock] at hl
    split at hl
    · rename_i hs
      obtain ⟨⟨c, vid⟩, hx⟩ := Option.isSome_iff_exists.mp hs
      apply same <;> simp [Task.step, hx]
    · cases hl
  | opArg2 call vid1 =>
    rcases hb : call.arg2 with _ | b
    · apply same <;> simp [Task.step, hb]
    · simp only [Task.lock, hb] at hl
      split at hl
      · rename_i hs
        obtain ⟨⟨c, vid⟩, hx⟩ := Option.isSome_iff_exists.mp hs
        apply same <;> simp [Task.step, hb, hx]
      · cases hl

/-- No call is inside a section of a context that has been freed. -/
theorem not_freed {s : LState S} {cs : CState S} (hr : cs.Reachable) (hL : SimL s cs) {t : Task S} {c : Nat}
    {x : LTask S} (hx : x ∈ s.tasks) (hxt : t ∈ x.abs) (hl : t.lock = .ctx c) : cs.world.arcs c ≠ none := by
  intro hn
  have hmem : t ∈ cs.tasks := hL.tasks.mem_iff.mpr (List.mem_flatMap.mpr ⟨x, hx, hxt⟩)
  obtain ⟨l, r, hlr⟩ := List.append_of_mem hmem
  have hstep : CStep cs (cs.after l r (t.step cs.world).1 (t.step cs.world).2) :=
    .run hlr (by rintro rfl; simp [Task.lock] at hl) rfl
  have hr' : CState.Reachable (cs.after l r (t.step cs.world).1 (t.step cs.world).2) := .tail hr hstep
  have := hr'.inv.fault
  simp [CState.after, Task.step_ctx_none hl hn] at this

theorem CState.Reachable.fresh {cs : CState S} (hr : cs.Reachable) : cs.world.arcs cs.world.nextId = none := by
  by_contra hne
  obtain ⟨cell, hc⟩ := Option.ne_none_iff_exists'.mp hne
  exact Nat.lt_irrefl _ (hr.inv.good.lt _ _ hc)

theorem missing_fault (t : Task S) :
    (LTask.missing t).fault = false ∧ ∀ t' ∈ (LTask.missing t).tasks, ∀ c, t'.borrows c = false := by
  unfold LTask.missing
  split
  · split <;> simp
  · simp

theorem found_fault (t : Task S) :
    (LTask.found t).fault = false ∧ ∀ t' ∈ (LTask.found t).tasks, ∀ c, t'.borrows c = false := by
  unfold LTask.found
  split
  · simp
  · split <;> simp [Task.borrows]
  · simp

theorem LSim.run {s s' : LState S} {cs : CState S} (h : LSim s cs) (hs : LRun s s') :
    ∃ cs', CSteps cs cs' ∧ LSim s' cs' := by
  obtain ⟨ht, hid, he⟩ := hs
  rename_i l r lt e
  have hmem : lt ∈ s.tasks := by simp [ht]
  have hsub : ∀ x ∈ l ++ r, x ∈ s.tasks := by
    intro x hx
    rw [ht]
    rcases List.mem_append.mp hx with hx | hx <;> simp [hx]
  have hT := h.calls lt hmem
  have hO : ∀ x ∈ l ++ r, SimT s.mem cs.world x := fun x hx => h.calls x (hsub x hx)
  rcases lt with t | ⟨t, c, i0, σ⟩ | ⟨t, p⟩
  · -- outside
    have he0 := he
    simp only [LTask.step] at he
    split at he
    · rename_i hl
      injection he with he; subst he
      obtain ⟨h1, h2, h3, h4⟩ := Task.step_none hl h.mem h.reach.fresh
      refine h.lin ht he0 hid (fun hn => by rw [h.mem.nextId]; exact hid (by rw [hn])) rfl rfl
        (e' := (t.step cs.world).1) (w' := (t.step cs.world).2) rfl ?_ ?_ ?_ ?_ ?_ ?_
      · rw [finish_abs, h1]
      · rw [finish_pend _ _ Effect.handles rfl, h1]; rfl
      · rw [finish_pend _ _ Effect.vars rfl, h1]; rfl
      · rw [finish_pend _ _ Effect.tapes rfl, h1]; rfl
      · rw [h1]; exact id
      · intro cs' _ _ _
        refine ⟨h2, ?_, fun x hx => (hO x hx).mono (fun _ => h3) fun c n i i0 _ g1 g2 => h4 c n i i0 g1 g2⟩
        intro x hx
        obtain ⟨t', -, rfl⟩ := List.mem_map.mp hx
        trivial
    · rename_i hl
      split at he
      · cases he
      · injection he with he; subst he
        refine h.stutter ht he0 hid rfl rfl rfl rfl rfl ⟨h.mem.nextId, h.mem.map, h.mem.cells⟩ ?_ ?_
        · intro x hx
          rw [List.mem_singleton.mp hx]
          exact hl
        · exact fun x hx => (hO x hx).mono (fun _ => rfl) fun c n i i0 _ g1 g2 => ⟨n, g1, g2⟩
    · rename_i c hl
      have hnf := not_freed h.reach h.lists hmem (t := t) (by simp [LTask.abs]) hl
      split at he
      · rename_i hn
        rcases h.mem.cells c with ⟨h1, -⟩ | ⟨n, i, i0, h1, -⟩
        · exact absurd h1 hnf
        · rw [hn] at h1; cases h1
      · rename_i cell hcell
        split at he
        · cases he
        · rename_i hfree
          rw [Bool.not_eq_true] at hfree
          injection he with he; subst he
          rcases h.mem.cells c with ⟨h1, -⟩ | ⟨n, i, i0, h1, h2, h3⟩
          · exact absurd h1 hnf
          rw [hcell] at h1
          injection h1 with h1
          subst h1
          obtain rfl := h3 hfree
          refine h.stutter ht he0 hid rfl rfl rfl rfl rfl ⟨h.mem.nextId, h.mem.map, fun d => ?_⟩ ?_ ?_
          · by_cases hd : d = c
            · subst hd
              right
              exact ⟨n, i0, i0, hcell, h2, fun _ => rfl⟩
            · simpa [LMem.setCtx, hd] using h.mem.cells d
          · intro x hx
            rw [List.mem_singleton.mp hx]
            exact ⟨hl, n, i0, hcell, h2, rfl⟩
          · exact fun x hx => (hO x hx).mono (fun _ => rfl) fun c n i i0 _ g1 g2 => ⟨n, g1, g2⟩
  · -- in a section of a context
    have he0 := he
    obtain ⟨hl, n, i, h1, h2, h3⟩ := hT
    have hex : ∀ x ∈ l ++ r, x.holdsCtx c = false :=
      fun x hx => h.lock.excl_ctx ht (by simp [LTask.holdsCtx]) hx
    have hne : ∀ x ∈ l ++ r, ∀ d, x.holdsCtx d = true → d ≠ c := by
      rintro x hx d hd rfl
      rw [hex x hx] at hd
      cases hd
    injection he with he
    simp only [LTask.stepCtx, h1] at he
    cases σ with
    | read k =>
      subst he
      refine h.stutter ht he0 hid rfl rfl rfl rfl rfl h.mem ?_ hO
      intro x hx
      rw [List.mem_singleton.mp hx]
      exact ⟨hl, n, i, h1, h2, h3⟩
    | write f k =>
      subst he
      refine h.stutter ht he0 hid rfl rfl rfl rfl rfl ⟨h.mem.nextId, h.mem.map, fun d => ?_⟩ ?_ ?_
      · by_cases hd : d = c
        · subst hd
          right
          refine ⟨n, f i, i0, by simp [CWorld.setArc], h2, fun hf => ?_⟩
          have := h.lock.free_ctx hf hmem
          simp [LTask.holdsCtx] at this
        · simpa [CWorld.setArc, hd] using h.mem.cells d
      · intro x hx
        rw [List.mem_singleton.mp hx]
        exact ⟨hl, n, f i, by simp [CWorld.setArc], h2, h3⟩
      · refine fun x hx => (hO x hx).mono (fun _ => rfl) fun d n' j j0 hd g1 g2 => ⟨n', ?_, g2⟩
        simpa [CWorld.setArc, hne x hx d hd] using g1
    | ret e =>
      subst he
      have hst := Task.step_ctx hl h2
      rw [← h3] at hst
      refine h.lin ht he0 hid (by rintro rfl; simp [Task.lock] at hl) rfl rfl hst ?_ ?_ ?_ ?_ id ?_
      · rw [finish_abs]; rfl
      · rw [finish_pend _ _ Effect.handles rfl]; rfl
      · rw [finish_pend _ _ Effect.vars rfl]; rfl
      · rw [finish_pend _ _ Effect.tapes rfl]; rfl
      · intro cs' _ _ _
        refine ⟨⟨h.mem.nextId, h.mem.map, fun d => ?_⟩, ?_, ?_⟩
        · by_cases hd : d = c
          · subst hd
            right
            exact ⟨n, i, i, h1, by simp [CWorld.setArc, Sect.exec], fun _ => rfl⟩
          · simpa [CWorld.setArc, LTask.finish, LMem.setCtx, hd] using h.mem.cells d
        · intro x hx
          obtain ⟨t', -, rfl⟩ := List.mem_map.mp hx
          trivial
        · refine fun x hx => (hO x hx).mono (fun _ => rfl) fun d n' j j0 hd g1 g2 => ⟨n', g1, ?_⟩
          simpa [CWorld.setArc, hne x hx d hd] using g2
    | panic e =>
      subst he
      have hst := Task.step_ctx hl h2
      rw [← h3] at hst
      refine h.lin ht he0 hid (by rintro rfl; simp [Task.lock] at hl) rfl rfl hst ?_ ?_ ?_ ?_ id ?_
      · rw [finish_abs]; rfl
      · rw [finish_pend _ _ Effect.handles rfl]; rfl
      · rw [finish_pend _ _ Effect.vars rfl]; rfl
      · rw [finish_pend _ _ Effect.tapes rfl]; rfl
      · intro cs' _ _ _
        refine ⟨⟨h.mem.nextId, h.mem.map, fun d => ?_⟩, ?_, ?_⟩
        · by_cases hd : d = c
          · subst hd
            right
            exact ⟨n, _, _, by simp [CWorld.setArc, LTask.finish, LMem.setCtx]; rfl,
              by simp [CWorld.setArc, Sect.exec], fun _ => rfl⟩
          · simpa [CWorld.setArc, LTask.finish, LMem.setCtx, hd] using h.mem.cells d
        · intro x hx
          obtain ⟨t', -, rfl⟩ := List.mem_map.mp hx
          trivial
        · refine fun x hx => (hO x hx).mono (fun _ => rfl) fun d n' j j0 hd g1 g2 => ⟨n', ?_, ?_⟩
          · simpa [CWorld.setArc, LTask.finish, LMem.setCtx, hne x hx d hd] using g1
          · simpa [CWorld.setArc, hne x hx d hd] using g2
  · -- in a section of the map
    have he0 := he
    have hex : ∀ x ∈ l ++ r, x.holdsMap = false := fun x hx => h.lock.excl_map ht rfl hx
    have hno : ∀ x ∈ l ++ r, ∀ {P : Prop}, x.holdsMap = true → P := by
      intro x hx P hm
      rw [hex x hx] at hm
      cases hm
    injection he with he
    rcases p with _ | b | eff
    · have look : ∀ (hk : t.looksUp = true),
          e = ⟨[.inMap t (.looked (s.mem.world.map (LTask.mapKey t)))], {}, s.mem⟩ →
          ∃ cs', CSteps cs cs' ∧ LSim (s.after l r e) cs' := by
        rintro hk rfl
        refine h.stutter ht he0 hid rfl rfl rfl rfl rfl h.mem ?_ hO
        intro x hx
        rw [List.mem_singleton.mp hx]
        exact ⟨hT, hk, rfl⟩
      cases t with
      | new | drop | setIndep | setDep | tape | tape1 | tape2 | tape3 | opRec => cases hT
      | opArg1 => simp only [SimT, Task.lock] at hT; split at hT <;> cases hT
      | opArg2 =>
        simp only [SimT, Task.lock] at hT
        split at hT
        · cases hT
        · split at hT <;> cases hT
      | fromCid c => exact look rfl he.symm
      | op o a b => exact look rfl he.symm
      | newInsert id =>
        simp only [LTask.stepMap] at he
        subst he
        refine h.lin ht he0 hid (by rintro ⟨⟩) rfl rfl rfl rfl rfl rfl rfl (fun _ => rfl) ?_
        intro cs' _ _ _
        refine ⟨⟨h.mem.nextId, ?_, h.mem.cells⟩, ?_, ?_⟩
        · simp only [CWorld.setMap, h.mem.map]
        · intro x hx
          rw [List.mem_singleton.mp hx]
          exact ⟨rfl, by simp⟩
        · exact fun x hx => (hO x hx).mono (hno x hx) fun d n' j j0 hd g1 g2 => ⟨n', g1, g2⟩
      | finalize c v =>
        simp only [LTask.stepMap] at he
        subst he
        refine h.lin ht he0 hid (by rintro ⟨⟩) rfl rfl rfl rfl rfl (by simp [LTask.pend]) rfl (fun _ => rfl) ?_
        intro cs' hr' hw' hL'
        refine ⟨⟨h.mem.nextId, ?_, fun d => ?_⟩, ?_, ?_⟩
        · simp only [CWorld.setMap, CWorld.setArc, h.mem.map]
        · by_cases hd : d = c
          · subst hd
            left
            simp [CWorld.setArc]
          · simpa [CWorld.setArc, CWorld.setMap, hd] using h.mem.cells d
        · intro x hx
          rw [List.mem_singleton.mp hx]
          exact ⟨rfl, by simp⟩
        · intro x hx
          refine (hO x hx).mono (hno x hx) fun d n' j j0 hd g1 g2 => ⟨n', ?_⟩
          have hdc : d ≠ c := by
            rintro rfl
            rcases x with t' | ⟨t', d', i0, σ⟩ | ⟨t', p⟩
            · cases hd
            · simp only [LTask.holdsCtx, beq_iff_eq] at hd
              subst hd
              refine not_freed hr' hL' (x := .inCtx t' d' i0 σ) (t := t') ?_ (by simp [LTask.abs]) (hO _ hx).1 ?_
              · simp only [LState.after, List.mem_append] at hx ⊢
                rcases hx with hx | hx
                · exact Or.inl (Or.inl hx)
                · exact Or.inr hx
              rw [hw']
              simp [CWorld.setArc]
            · cases hd
          exact ⟨by simpa [CWorld.setArc, CWorld.setMap, hdc] using g1, by simpa [CWorld.setArc, CWorld.setMap, hdc] using g2⟩
    · obtain ⟨hl, hk, hb⟩ := hT
      have hst := Task.step_map (w := cs.world) hl hk
      rw [h.mem.map, ← hb] at hst
      have hnew : t ≠ .new := by rintro rfl; cases hk
      have hsame : ∀ x ∈ l ++ r, SimT s.mem cs.world x := hO
      rcases b with _ | _
      · simp only [LTask.stepMap] at he
        subst he
        simp only at hst
        refine h.lin ht he0 hid (fun h => absurd h hnew) rfl rfl hst (by simp [LTask.abs])
          (by simp [LTask.pend]) (by simp [LTask.pend]) (by simp [LTask.pend]) (fun _ => rfl) ?_
        intro cs' _ _ _
        refine ⟨h.mem, ?_, hO⟩
        intro x hx
        rw [List.mem_singleton.mp hx]
        exact missing_fault t
      · have hlive : cs.world.arcs (LTask.mapKey t) ≠ none :=
          h.reach.inv.live _ (by rw [h.mem.map]; exact hb.symm)
        rcases h.mem.cells (LTask.mapKey t) with ⟨h1, -⟩ | ⟨n, i, i0, h1, h2, h3⟩
        · exact absurd h1 hlive
        · simp only [LTask.stepMap, h1] at he
          simp only [h2] at hst
          by_cases h0 : n = 0
          · simp only [h0, if_true] at he hst
            subst he
            refine h.lin ht he0 hid (fun h => absurd h hnew) rfl rfl hst (by simp [LTask.abs])
              (by simp [LTask.pend]) (by simp [LTask.pend]) (by simp [LTask.pend]) (fun _ => rfl) ?_
            intro cs' _ _ _
            refine ⟨h.mem, ?_, hO⟩
            intro x hx
            rw [List.mem_singleton.mp hx]
            exact missing_fault t
          · simp only [h0, if_false] at he hst
            subst he
            refine h.lin ht he0 hid (fun h => absurd h hnew) rfl rfl hst (by simp [LTask.abs])
              (by simp [LTask.pend]) (by simp [LTask.pend]) (by simp [LTask.pend]) (fun _ => rfl) ?_
            intro cs' _ _ _
            refine ⟨⟨h.mem.nextId, h.mem.map, fun d => ?_⟩, ?_, ?_⟩
            · by_cases hd : d = LTask.mapKey t
              · subst hd
                right
                exact ⟨n + 1, i, i0, by simp [CWorld.setArc], by simp [CWorld.setArc], h3⟩
              · simpa [CWorld.setArc, hd] using h.mem.cells d
            · intro x hx
              rw [List.mem_singleton.mp hx]
              exact found_fault t
            · refine fun x hx => (hO x hx).mono (fun _ => rfl) fun d n' j j0 hd g1 g2 => ?_
              by_cases hd : d = LTask.mapKey t
              · subst hd
                rw [h1] at g1; injection g1 with g1; injection g1 with g1 g1'
                rw [h2] at g2; injection g2 with g2; injection g2 with g2 g2'
                subst g1' g2'
                exact ⟨n + 1, by simp [CWorld.setArc], by simp [CWorld.setArc]⟩
              · exact ⟨n', by simpa [CWorld.setArc, hd] using g1, by simpa [CWorld.setArc, hd] using g2⟩
    · simp only [LTask.stepMap] at he
      subst he
      refine h.stutter ht he0 hid (finish_abs _ _) ?_ ?_ ?_ hT.1 ⟨h.mem.nextId, h.mem.map, h.mem.cells⟩ ?_ ?_
      · rw [finish_pend _ _ Effect.handles rfl]; rfl
      · rw [finish_pend _ _ Effect.vars rfl]; rfl
      · rw [finish_pend _ _ Effect.tapes rfl]; rfl
      · intro x hx
        obtain ⟨t', -, rfl⟩ := List.mem_map.mp hx
        trivial
      · exact fun x hx => (hO x hx).mono (fun _ => rfl) fun c n i i0 _ g1 g2 => ⟨n, g1, g2⟩

theorem SimL.call {s : LState S} {cs : CState S} (h : SimL s cs) (t : Task S) :
    SimL { s with tasks := .run t :: s.tasks } { cs with tasks := t :: cs.tasks } :=
  ⟨by simpa [LTask.abs] using h.tasks, by simpa [LTask.pend] using h.handles, by simpa [LTask.pend] using h.vars,
    by simpa [LTask.pend] using h.tapes⟩

theorem LSim.handle {s : LState S} {cs : CState S} (h : LSim s cs) {c : Nat} (hc : c ∈ s.handles) : c ∈ cs.handles :=
  h.lists.handles.mem_iff.mpr (List.mem_append_right _ hc)

theorem LSim.var {s : LState S} {cs : CState S} (h : LSim s cs) {a : AFloat S} (ha : a ∈ s.vars) : a ∈ cs.vars :=
  h.lists.vars a (Or.inr ha)

/-- A new call. -/
theorem LSim.call {s : LState S} {cs : CState S} (h : LSim s cs) (t : Task S)
    (hs : CStep cs { cs with tasks := t :: cs.tasks }) :
    ∃ cs', CSteps cs cs' ∧ LSim { s with tasks := .run t :: s.tasks } cs' := by
  refine ⟨_, .tail (.refl _) hs, .tail h.reach hs, h.lists.call t, h.mem, ?_, h.fault,
    ⟨by simpa [LTask.holdsMap] using h.lock.map, fun c => by simpa [LTask.holdsCtx] using h.lock.ctx c⟩⟩
  intro x hx
  rcases List.mem_cons.mp hx with rfl | hx
  · trivial
  · exact h.calls x hx

/-- A borrowed handle is borrowed in both models. -/
theorem LSim.borrows {s : LState S} {cs : CState S} (h : LSim s cs) {c : Nat} {t : Task S} (ht : t ∈ cs.tasks)
    (hb : t.borrows c = true) : ∃ x ∈ s.tasks, LTask.borrows c x = true := by
  obtain ⟨x, hx, hxt⟩ := List.mem_flatMap.mp (h.lists.tasks.mem_iff.mp ht)
  refine ⟨x, hx, ?_⟩
  have hT := h.calls x hx
  have hm : t.lock = .map → t.borrows c = false := by
    intro hl
    cases t <;> simp_all [Task.lock, Task.borrows]
  rcases x with t' | ⟨t', c', i0, σ⟩ | ⟨t', p⟩
  · rw [List.mem_singleton.mp hxt] at hb; exact hb
  · rw [List.mem_singleton.mp hxt] at hb; exact hb
  · rcases p with _ | b | e
    · have ht' := List.mem_singleton.mp hxt
      subst ht'
      rw [hm hT] at hb; cases hb
    · have ht' := List.mem_singleton.mp hxt
      subst ht'
      rw [hm hT.1] at hb; cases hb
    · rw [hT.2 t hxt c] at hb; cases hb

theorem LSim.step {s s' : LState S} {cs : CState S} (h : LSim s cs) (hs : LStep s s') :
    ∃ cs', CSteps cs cs' ∧ LSim s' cs' := by
  cases hs with
  | run hs => exact h.run hs
  | callNew => exact h.call _ .callNew
  | callFromCid c => exact h.call _ (.callFromCid c)
  | callSetIndep hc ha => exact h.call _ (.callSetIndep (h.handle hc) (h.var ha))
  | callSetDep hc ha => exact h.call _ (.callSetDep (h.handle hc) (h.var ha))
  | callTape hc => exact h.call _ (.callTape (h.handle hc))
  | callOp ha hb har => exact h.call _ (.callOp (h.var ha) (fun b' hb' => h.var (hb b' hb')) har)
  | scalar v dv =>
    have hst : CStep cs { cs with vars := AFloat.new v dv :: cs.vars } := .scalar v dv
    refine ⟨_, .tail (.refl _) hst, .tail h.reach hst, ⟨h.lists.tasks, h.lists.handles, ?_, h.lists.tapes⟩, h.mem,
      h.calls, h.fault, ⟨h.lock.map, h.lock.ctx⟩⟩
    intro a ha
    simp only [List.mem_cons] at ha ⊢
    have := h.lists.vars a
    tauto
  | @seed a d ha =>
    have hst : CStep cs { cs with vars := { a with dv := d } :: cs.vars } := .seed d (h.var ha)
    refine ⟨_, .tail (.refl _) hst, .tail h.reach hst, ⟨h.lists.tasks, h.lists.handles, ?_, h.lists.tapes⟩, h.mem,
      h.calls, h.fault, ⟨h.lock.map, h.lock.ctx⟩⟩
    intro a ha
    simp only [List.mem_cons] at ha ⊢
    have := h.lists.vars a
    tauto
  | @callDrop c hc hb =>
    have hst : CStep cs { cs with handles := cs.handles.erase c, tasks := .drop c none :: cs.tasks } := by
      refine .callDrop (h.handle hc) ?_
      rintro ⟨t, ht, hbt⟩
      have h1 := hb (h.borrows ht hbt)
      rw [h.lists.handles.count_eq, List.count_append]
      omega
    refine ⟨_, .tail (.refl _) hst, .tail h.reach hst, ⟨?_, ?_, ?_, ?_⟩, h.mem, ?_, h.fault,
      ⟨by simpa [LTask.holdsMap] using h.lock.map, fun c => by simpa [LTask.holdsCtx] using h.lock.ctx c⟩⟩
    · simpa [LTask.abs] using h.lists.tasks
    · rw [List.perm_iff_count]
      intro d
      have h1 := h.lists.handles.count_eq d
      have h2 : 1 ≤ s.handles.count c := List.count_pos_iff.mpr hc
      simp only [List.flatMap_cons, LTask.pend, List.nil_append, List.count_append, List.count_erase] at h1 ⊢
      by_cases hd : c = d
      · subst hd
        simp only [beq_self_eq_true, if_true]
        omega
      · simp only [beq_iff_eq, hd, if_false]
        omega
    · simpa [LTask.pend] using h.lists.vars
    · simpa [LTask.pend] using h.lists.tapes
    · intro x hx
      rcases List.mem_cons.mp hx with rfl | hx
      · trivial
      · exact h.calls x hx

theorem CSteps.trans {s t u : CState S} (h : CSteps s t) (h' : CSteps t u) : CSteps s u := by
  induction h' with
  | refl => exact h
  | tail _ hs ih => exact .tail ih hs

theorem LSim.steps {s s' : LState S} {cs : CState S} (h : LSim s cs) (hs : LSteps s s') :
    ∃ cs', CSteps cs cs' ∧ LSim s' cs' := by
  induction hs with
  | refl => exact ⟨cs, .refl _, h⟩
  | tail _ hs ih =>
    obtain ⟨c1, h1, h2⟩ := ih
    obtain ⟨c2, h3, h4⟩ := h2.step hs
    exact ⟨c2, h1.trans h3, h4⟩

theorem LSim.init : LSim (LState.init : LState S) CState.init :=
  ⟨.refl _, ⟨.refl _, .refl _, by simp [LState.init], by simp [LState.init]⟩,
    ⟨rfl, rfl, fun _ => Or.inl ⟨rfl, rfl⟩⟩, by simp [LState.init], rfl, LockInv.init⟩

end Adv
