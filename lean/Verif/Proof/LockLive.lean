import Verif.Proof.LockSim

/-!
# No deadlock, termination; executions of the atomic model are executions with locks
-/

set_option linter.unusedSectionVars false

namespace Adv

variable {S : Type} [Flt S]

/-! ## No deadlock -/

theorem LockInv.progress {s : LState S} (h : LockInv s) (hne : s.tasks ≠ []) (hid : s.mem.world.nextId < usizeMax) :
    ∃ t, LRun s t := by
  have go : ∀ x ∈ s.tasks, x.step s.mem ≠ none → ∃ t, LRun s t := by
    intro x hx hs
    obtain ⟨l, r, hlr⟩ := List.append_of_mem hx
    obtain ⟨e, he⟩ := Option.ne_none_iff_exists'.mp hs
    exact ⟨_, .mk hlr (fun _ => hid) he⟩
  by_cases hin : ∃ x ∈ s.tasks, ∀ t, x ≠ .run t
  · obtain ⟨x, hx, hxt⟩ := hin
    refine go x hx ?_
    rcases x with t | ⟨t, c, i0, σ⟩ | ⟨t, p⟩
    · exact absurd rfl (hxt t)
    · exact Option.some_ne_none _
    · exact Option.some_ne_none _
  · have hrun : ∀ x ∈ s.tasks, ∃ t, x = .run t := by
      intro x hx
      by_contra hn
      exact hin ⟨x, hx, fun t ht => hn ⟨t, ht⟩⟩
    have hmap : s.mem.mapLocked = false := by
      have h0 : s.tasks.countP LTask.holdsMap = 0 := by
        rw [List.countP_eq_zero]
        intro x hx
        obtain ⟨t, rfl⟩ := hrun x hx
        simp [LTask.holdsMap]
      have h1 := h.map
      rw [h0] at h1
      rcases hb : s.mem.mapLocked with _ | _
      · rfl
      · rw [hb] at h1; cases h1
    have hctx : ∀ c, s.mem.ctxLocked c = false := by
      intro c
      rcases hb : s.mem.ctxLocked c with _ | _
      · rfl
      · obtain ⟨x, hx, hxc⟩ := h.owner hb
        obtain ⟨t, rfl⟩ := hrun x hx
        cases hxc
    obtain ⟨x, hx⟩ := List.exists_mem_of_ne_nil _ hne
    refine go x hx ?_
    obtain ⟨t, rfl⟩ := hrun x hx
    simp only [LTask.step, hmap]
    split
    · exact Option.some_ne_none _
    · exact Option.some_ne_none _
    · split
      · exact Option.some_ne_none _
      · rw [hctx]; exact Option.some_ne_none _

/-! ## Termination -/

/-- Steps left after a step of the atomic model. -/
def Effect.left (e : Effect S) : Nat := (e.tasks.map Task.stepsLeft).sum

theorem Task.left_lt (t : Task S) (w : CWorld S) : (t.step w).1.left + 1 ≤ t.stepsLeft := by
  cases t <;> simp only [Task.step]
  all_goals repeat' split
  all_goals simp [Task.panicked, Task.stepsLeft, Effect.left]

theorem Task.stepsLeft_pos (t : Task S) : 1 ≤ t.stepsLeft := by cases t <;> simp [Task.stepsLeft]

/-- The section ends, and the call after it, within `n` steps. -/
def Sect.Within : Nat → Sect S → Prop
  | n, .ret e => 1 + 6 * e.left ≤ n
  | n, .panic e => 1 + 6 * e.left ≤ n
  | 0, .read _ => False
  | 0, .write _ _ => False
  | n + 1, .read k => ∀ i, (k i).Within n
  | n + 1, .write _ k => k.Within n

theorem Sect.Within.mono {s : Sect S} {n m : Nat} (h : s.Within n) (hm : n ≤ m) : s.Within m := by
  induction s generalizing n m with
  | ret e => simp only [Sect.Within] at h ⊢; omega
  | panic e => simp only [Sect.Within] at h ⊢; omega
  | read k ih =>
    rcases n with _ | n
    · exact h.elim
    · rcases m with _ | m
      · omega
      · exact fun i => ih i (h i) (by omega)
  | write f k ih =>
    rcases n with _ | n
    · exact h.elim
    · rcases m with _ | m
      · omega
      · exact ih (n := n) (m := m) h (by omega)

theorem Task.enter_within {t : Task S} {c : Nat} (hl : t.lock = .ctx c) (i : Inner S) :
    (t.enter i).Within (6 * t.stepsLeft - 1) := by
  unfold Task.enter
  split
  · cases t <;> simp_all [Task.lock, Sect.Within, Task.panicked, Task.unwind, Effect.left, Task.stepsLeft]
  · cases t with
    | new | newInsert | fromCid | drop | finalize => simp [Task.lock] at hl
    | op =>
      simp only [Task.lock] at hl
      split at hl <;> cases hl
    | setIndep | opArg1 | opRec | tape | tape1 | tape2 | tape3 =>
      simp [Sect.ofTask, Sect.setIndep, Sect.record, Sect.Within, Task.stepsLeft, Effect.left]
    | setDep d a =>
      simp only [Sect.ofTask, Sect.setDep, Task.stepsLeft]
      split
      · intro i
        dsimp only
        split <;> simp [Sect.Within, Effect.left, Task.panicked]
      · simp [Sect.Within, Effect.left]
    | opArg2 call vid =>
      simp only [Sect.ofTask, Task.stepsLeft]
      split <;> simp [Sect.record, Sect.Within, Effect.left, Task.stepsLeft]

namespace LTask

/-- The call ends within `n` steps. -/
def Within (n : Nat) : LTask S → Prop
  | .run t => 6 * t.stepsLeft ≤ n
  | .inCtx _ _ _ σ => σ.Within n
  | .inMap t .entered => t.lock = .map ∧ 6 * t.stepsLeft - 1 ≤ n
  | .inMap t (.looked _) => 6 * t.stepsLeft - 2 ≤ n
  | .inMap _ (.leave e) => 1 + 6 * e.left ≤ n

theorem Within.mono {x : LTask S} {n m : Nat} (h : x.Within n) (hm : n ≤ m) : x.Within m := by
  rcases x with t | ⟨t, c, i0, σ⟩ | ⟨t, p⟩
  · simp only [Within] at h ⊢; omega
  · exact Sect.Within.mono h hm
  · rcases p with _ | b | e
    · exact ⟨h.1, Nat.le_trans h.2 hm⟩
    · simp only [Within] at h ⊢; omega
    · simp only [Within] at h ⊢; omega

theorem missing_left (t : Task S) : (missing t).left = 0 := by
  unfold missing
  split
  · split <;> rfl
  · rfl

theorem found_left (t : Task S) : (found t).left + 1 ≤ t.stepsLeft := by
  unfold found
  split
  · simp [Effect.left, Task.stepsLeft]
  · split <;> simp [Effect.left, Task.stepsLeft]
  · simpa [Effect.left] using t.stepsLeft_pos

/-- Bounds for the calls a step leaves behind. -/
def Bounded (l : List (LTask S)) (n : Nat) : Prop := ∃ ns : List Nat, List.Forall₂ (fun x n => LTask.Within n x) l ns ∧ ns.sum ≤ n

theorem Bounded.one {x : LTask S} {n : Nat} (h : x.Within n) : Bounded [x] n := ⟨[n], by simpa using h, by simp⟩

theorem Bounded.finish (e : Effect S) (m : LMem S) : Bounded (finish e m).next (6 * e.left) := by
  unfold LTask.finish Effect.left
  simp only
  induction e.tasks with
  | nil => exact ⟨[], by simp, by simp⟩
  | cons t l ih =>
    obtain ⟨ns, h1, h2⟩ := ih
    refine ⟨6 * t.stepsLeft :: ns, ?_, ?_⟩
    · simpa [Within] using h1
    · simp only [List.map_cons, List.sum_cons]; omega

theorem Bounded.mono {l : List (LTask S)} {n m : Nat} (h : Bounded l n) (hm : n ≤ m) : Bounded l m := by
  obtain ⟨ns, h1, h2⟩ := h
  exact ⟨ns, h1, Nat.le_trans h2 hm⟩

/-- Every step of a call uses up one of its steps. -/
theorem step_bounded {lt : LTask S} {m : LMem S} {e : LEffect S} {n : Nat} (h : lt.step m = some e) (hw : lt.Within n) :
    1 ≤ n ∧ Bounded e.next (n - 1) := by
  rcases lt with t | ⟨t, c, i0, σ⟩ | ⟨t, p⟩
  · have hp := t.stepsLeft_pos
    simp only [Within] at hw
    refine ⟨by omega, ?_⟩
    simp only [step] at h
    split at h
    · injection h with h; subst h
      have := t.left_lt m.world
      exact (Bounded.finish _ _).mono (by omega)
    · rename_i hl
      split at h
      · cases h
      · injection h with h; subst h
        exact Bounded.one ⟨hl, by omega⟩
    · rename_i c hl
      split at h
      · injection h with h; subst h
        exact ⟨[], by simp, by simp⟩
      · split at h
        · cases h
        · injection h with h; subst h
          exact Bounded.one ((Task.enter_within hl _).mono (by omega))
  · injection h with h
    simp only [stepCtx] at h
    have h1 : 1 ≤ n := by
      simp only [Within] at hw
      cases σ with
      | ret e => simp only [Sect.Within] at hw; omega
      | panic e => simp only [Sect.Within] at hw; omega
      | read k => rcases n with _ | n; exact hw.elim; omega
      | write f k => rcases n with _ | n; exact hw.elim; omega
    refine ⟨h1, ?_⟩
    obtain ⟨n, rfl⟩ : ∃ k, n = k + 1 := ⟨n - 1, by omega⟩
    split at h
    · subst h; exact ⟨[], by simp, by simp⟩
    · simp only [Within] at hw
      split at h
      · subst h
        simp only [Sect.Within] at hw
        exact (Bounded.finish _ _).mono (by omega)
      · subst h
        simp only [Sect.Within] at hw
        exact (Bounded.finish _ _).mono (by omega)
      · subst h
        exact Bounded.one (hw _)
      · subst h
        exact Bounded.one hw
  · injection h with h
    have hp := t.stepsLeft_pos
    rcases p with _ | b | eff
    · obtain ⟨hl, hw⟩ := hw
      refine ⟨by omega, ?_⟩
      cases t with
      | newInsert id =>
        simp only [stepMap] at h; subst h
        simp only [Task.stepsLeft] at hw
        exact Bounded.one (by simp only [Within, Effect.left]; simp; omega)
      | finalize c r =>
        simp only [stepMap] at h; subst h
        simp only [Task.stepsLeft] at hw
        exact Bounded.one (by simp only [Within, Effect.left]; simp; omega)
      | _ =>
        simp only [stepMap] at h; subst h
        exact Bounded.one (by simp only [Within]; omega)
    · simp only [Within] at hw
      refine ⟨by omega, ?_⟩
      rcases b with _ | _
      · simp only [stepMap] at h; subst h
        exact Bounded.one (by simp only [Within, missing_left]; omega)
      · have := found_left t
        simp only [stepMap] at h
        split at h
        · subst h
          exact Bounded.one (by simp only [Within, missing_left]; omega)
        · split at h
          · subst h
            exact Bounded.one (by simp only [Within, missing_left]; omega)
          · subst h
            exact Bounded.one (by simp only [Within]; omega)
    · simp only [Within] at hw
      refine ⟨by omega, ?_⟩
      simp only [stepMap] at h; subst h
      exact (Bounded.finish _ _).mono (by omega)

/-- A call inside a section keeps its bound. -/
theorem step_within {lt : LTask S} {m : LMem S} {e : LEffect S} (h : lt.step m = some e)
    (hw : lt.Within (6 * lt.stepsLeft)) : ∀ x ∈ e.next, x.Within (6 * x.stepsLeft) := by
  have hrun : ∀ (t : Task S), (LTask.run t).Within (6 * (LTask.run t).stepsLeft) := fun t => Nat.le_refl _
  have hfin : ∀ (eff : Effect S) (m : LMem S), ∀ x ∈ (finish eff m).next, x.Within (6 * x.stepsLeft) := by
    intro eff m x hx
    obtain ⟨t, -, rfl⟩ := List.mem_map.mp hx
    exact hrun t
  have hsame : ∀ x, e.next = [x] → x.stepsLeft = lt.stepsLeft → ∀ x ∈ e.next, x.Within (6 * x.stepsLeft) := by
    intro x hx hl y hy
    obtain ⟨-, ns, h1, h2⟩ := step_bounded h hw
    rw [hx] at h1 hy
    rw [List.mem_singleton.mp hy, hl]
    cases h1 with
    | cons g1 g2 =>
      cases g2
      exact g1.mono (by simp at h2; omega)
  have hnil : e.next = [] → ∀ x ∈ e.next, x.Within (6 * x.stepsLeft) := by
    intro hn; rw [hn]; simp
  rcases lt with t | ⟨t, c, i0, σ⟩ | ⟨t, p⟩
  · simp only [step] at h
    split at h
    · injection h with h; subst h; exact hfin _ _
    · split at h
      · cases h
      · injection h with h; subst h; exact hsame _ rfl rfl
    · split at h
      · injection h with h; subst h; exact hnil rfl
      · split at h
        · cases h
        · injection h with h; subst h; exact hsame _ rfl rfl
  · injection h with h
    simp only [stepCtx] at h
    split at h
    · subst h; exact hnil rfl
    · split at h
      · subst h; exact hfin _ _
      · subst h; exact hfin _ _
      · subst h; exact hsame _ rfl rfl
      · subst h; exact hsame _ rfl rfl
  · injection h with h
    rcases p with _ | b | eff
    · cases t <;> (simp only [stepMap] at h; subst h; exact hsame _ rfl rfl)
    · rcases b with _ | _
      · simp only [stepMap] at h; subst h; exact hsame _ rfl rfl
      · simp only [stepMap] at h
        split at h
        · subst h; exact hsame _ rfl rfl
        · split at h
          · subst h; exact hsame _ rfl rfl
          · subst h; exact hsame _ rfl rfl
    · simp only [stepMap] at h; subst h; exact hfin _ _

end LTask

/-- Every call in progress ends within the announced number of steps. -/
def LState.AllWithin (s : LState S) : Prop := ∀ x ∈ s.tasks, x.Within (6 * x.stepsLeft)

theorem LState.AllWithin.step {s t : LState S} (h : s.AllWithin) (hs : LStep s t) : t.AllWithin := by
  have hcall : ∀ (k : Task S), LState.AllWithin { s with tasks := .run k :: s.tasks } := by
    intro k x hx
    rcases List.mem_cons.mp hx with rfl | hx
    · exact Nat.le_refl _
    · exact h x hx
  cases hs with
  | run hs =>
    obtain ⟨ht, hid, he⟩ := hs
    intro x hx
    simp only [LState.after, List.mem_append] at hx
    rcases hx with (hx | hx) | hx
    · exact h x (by simp [ht, hx])
    · exact LTask.step_within he (h _ (by simp [ht])) x hx
    · exact h x (by simp [ht, hx])
  | scalar | seed => exact h
  | callDrop hc hb => exact hcall _
  | _ => exact hcall _

theorem LState.AllWithin.steps {s t : LState S} (h : s.AllWithin) (hs : LSteps s t) : t.AllWithin := by
  induction hs with
  | refl => exact h
  | tail _ hs ih => exact ih.step hs

theorem LState.Reachable.allWithin {s : LState S} (h : s.Reachable) : s.AllWithin :=
  LState.AllWithin.steps (s := LState.init) (fun x hx => by cases hx) h

theorem LState.AllWithin.bounded {s : LState S} (h : s.AllWithin) :
    LTask.Bounded s.tasks (6 * (s.tasks.map LTask.stepsLeft).sum) := by
  unfold LState.AllWithin at h
  revert h
  induction s.tasks with
  | nil => exact fun _ => ⟨[], by simp, by simp⟩
  | cons x l ih =>
    intro h
    obtain ⟨ns, h1, h2⟩ := ih fun y hy => h y (List.mem_cons_of_mem _ hy)
    refine ⟨6 * x.stepsLeft :: ns, List.Forall₂.cons (h x (by simp)) h1, ?_⟩
    simp only [List.map_cons, List.sum_cons]
    omega

theorem forall₂_split {α β : Type} {R : α → β → Prop} {l r : List α} {x : α} {ns : List β}
    (h : List.Forall₂ R (l ++ x :: r) ns) :
    ∃ n1 k n2, ns = n1 ++ k :: n2 ∧ List.Forall₂ R l n1 ∧ R x k ∧ List.Forall₂ R r n2 := by
  induction l generalizing ns with
  | nil =>
    cases h with
    | cons h1 h2 => exact ⟨[], _, _, rfl, .nil, h1, h2⟩
  | cons y l ih =>
    cases h with
    | cons h1 h2 =>
      obtain ⟨n1, k, n2, rfl, h3, h4, h5⟩ := ih h2
      exact ⟨_ :: n1, k, n2, rfl, .cons h1 h3, h4, h5⟩

theorem LRun.bounded {s t : LState S} (hs : LRun s t) {n : Nat} (h : LTask.Bounded s.tasks n) :
    1 ≤ n ∧ LTask.Bounded t.tasks (n - 1) := by
  obtain ⟨ht, hid, he⟩ := hs
  obtain ⟨ns, h1, h2⟩ := h
  rw [ht] at h1
  obtain ⟨n1, k, n2, rfl, g1, k1, k2⟩ := forall₂_split h1
  obtain ⟨h3, ms, h4, h5⟩ := LTask.step_bounded he k1
  simp only [List.sum_append, List.sum_cons] at h2
  refine ⟨by omega, n1 ++ ms ++ n2, ?_, ?_⟩
  · simp only [LState.after]
    exact List.rel_append (List.rel_append g1 h4) k2
  · simp only [List.sum_append]
    omega

theorem LRuns.bounded {n : Nat} {s t : LState S} (hs : LRuns n s t) {k : Nat} (h : LTask.Bounded s.tasks k) :
    n ≤ k ∧ LTask.Bounded t.tasks (k - n) := by
  induction hs with
  | refl => exact ⟨Nat.zero_le _, by simpa using h⟩
  | tail _ hs ih =>
    obtain ⟨h1, h2⟩ := ih h
    obtain ⟨h3, h4⟩ := hs.bounded h2
    exact ⟨by omega, h4.mono (by omega)⟩

/-! ## Executions of the atomic model -/

theorem LSteps.trans {s t u : LState S} (h : LSteps s t) (h' : LSteps t u) : LSteps s u := by
  induction h' with
  | refl => exact h
  | tail _ hs ih => exact .tail ih hs

theorem CWorld.setArc_setArc (w : CWorld S) (c : Nat) (x y : Option (Cell S)) :
    (w.setArc c x).setArc c y = w.setArc c y := by
  simp only [CWorld.setArc, CWorld.mk.injEq, true_and]
  funext d
  by_cases hd : d = c <;> simp [hd]

theorem LMem.setCtx_setCtx (w : CWorld S) (b : Bool) (c : Nat) :
    (LMem.setCtx ⟨w, b, fun d => if d = c then true else false⟩ c false) = ⟨w, b, fun _ => false⟩ := by
  simp only [LMem.setCtx, LMem.mk.injEq, true_and]
  funext d
  by_cases hd : d = c <;> simp [hd]

/-- A section that nobody interrupts. -/
theorem Sect.uninterrupted (σ : Sect S) {t : Task S} {c n : Nat} {i0 i : Inner S} {l r : List (LTask S)} {s : LState S}
    (ht : s.tasks = l ++ .inCtx t c i0 σ :: r) (hl : s.mem.mapLocked = false)
    (hc : s.mem.ctxLocked = fun d => if d = c then true else false)
    (hw : s.mem.world.arcs c = some ⟨n, i⟩) :
    LSteps s ⟨⟨s.mem.world.setArc c (some ⟨n, (σ.exec i).2⟩), false, fun _ => false⟩,
      (σ.exec i).1.handles ++ s.handles, l ++ (σ.exec i).1.tasks.map .run ++ r, (σ.exec i).1.vars ++ s.vars,
      (σ.exec i).1.tapes ++ s.tapes, s.fault || (σ.exec i).1.fault⟩ := by
  induction σ generalizing s i with
  | ret e =>
    have h := LStep.run (LRun.mk (s := s) ht (by rintro ⟨⟩) (e := LTask.finish e (s.mem.setCtx c false))
      (by simp [LTask.step, LTask.stepCtx, hw]))
    refine .tail (.refl _) ?_
    convert h using 1
    rcases s with ⟨⟨w, ml, cl⟩, hs, ts, vs, tps, f⟩
    simp only at hl hc
    subst hl hc
    simp only [Sect.exec, LState.after, LTask.finish, LMem.setCtx_setCtx]
    rw [CWorld.setArc_self _ _ _ hw]
  | panic e =>
    have h := LStep.run (LRun.mk (s := s) ht (by rintro ⟨⟩) (e := LTask.finish e
      ({ s.mem with world := s.mem.world.setArc c (some { strong := n, inner := { i with poisoned := true } }) }.setCtx c
            false))
      (by simp [LTask.step, LTask.stepCtx, hw]))
    refine .tail (.refl _) ?_
    convert h using 1
    rcases s with ⟨⟨w, ml, cl⟩, hs, ts, vs, tps, f⟩
    simp only at hl hc
    subst hl hc
    simp only [Sect.exec, LState.after, LTask.finish, LMem.setCtx_setCtx]
  | read k ih =>
    have h := LStep.run (LRun.mk (s := s) ht (by rintro ⟨⟩) (e := ⟨[.inCtx t c i0 (k i)], {}, s.mem⟩)
      (by simp [LTask.step, LTask.stepCtx, hw]))
    refine (LSteps.tail (.refl _) h).trans ?_
    have := ih i (s := s.after l r ⟨[.inCtx t c i0 (k i)], {}, s.mem⟩) (i := i) (by simp [LState.after]) hl hc hw
    simpa [LState.after, Sect.exec] using this
  | write f k ih =>
    have h := LStep.run (LRun.mk (s := s) ht (by rintro ⟨⟩) (e := ⟨[.inCtx t c i0 k], {},
          { s.mem with world := s.mem.world.setArc c (some ⟨n, f i⟩) }⟩)
      (by simp [LTask.step, LTask.stepCtx, hw]))
    refine (LSteps.tail (.refl _) h).trans ?_
    have := ih (s := s.after l r ⟨[.inCtx t c i0 k], {}, { s.mem with world := s.mem.world.setArc c (some ⟨n, f i⟩) }⟩)
      (i := f i) (by simp [LState.after]) hl hc (by simp [LState.after, CWorld.setArc])
    simpa [LState.after, Sect.exec, CWorld.setArc_setArc] using this

/-- A call makes a step inside a section. -/
theorem LStep.micro {m m' : LMem S} {hs : List Nat} {l r : List (LTask S)} {vs : List (AFloat S)} {tps : List (Tape S)}
    {f : Bool} {x y : LTask S} (hx : x ≠ .run .new) (h : x.step m = some ⟨[y], {}, m'⟩) :
    LStep ⟨m, hs, l ++ x :: r, vs, tps, f⟩ ⟨m', hs, l ++ y :: r, vs, tps, f⟩ := by
  have := LStep.run (LRun.mk (s := ⟨m, hs, l ++ x :: r, vs, tps, f⟩) rfl (fun h => absurd h hx) h)
  simpa [LState.after] using this

/-- A call leaves a section of the map. -/
theorem LStep.leave {w : CWorld S} {hs : List Nat} {l r : List (LTask S)} {vs : List (AFloat S)} {tps : List (Tape S)}
    {f : Bool} {t : Task S} {e : Effect S} :
    LStep ⟨⟨w, true, fun _ => false⟩, hs, l ++ .inMap t (.leave e) :: r, vs, tps, f⟩
      ⟨⟨w, false, fun _ => false⟩, e.handles ++ hs, l ++ e.tasks.map .run ++ r, e.vars ++ vs, e.tapes ++ tps,
        f || e.fault⟩ := by
  have := LStep.run (LRun.mk (s := ⟨⟨w, true, fun _ => false⟩, hs, l ++ .inMap t (.leave e) :: r, vs, tps, f⟩) rfl
    (by rintro ⟨⟩) (e := LTask.finish e ⟨w, false, fun _ => false⟩) (by simp [LTask.step, LTask.stepMap]))
  simpa [LState.after, LTask.finish] using this

/-- A section of the map that nobody interrupts. -/
theorem Task.uninterrupted_map {t : Task S} (hl : t.lock = .map) {w : CWorld S}
    (hlive : ∀ c, w.map c = true → w.arcs c ≠ none) {hs : List Nat} {l r : List (LTask S)} {vs : List (AFloat S)}
    {tps : List (Tape S)} {f : Bool} :
    LSteps ⟨⟨w, false, fun _ => false⟩, hs, l ++ .run t :: r, vs, tps, f⟩
      ⟨⟨(t.step w).2, false, fun _ => false⟩, (t.step w).1.handles ++ hs, l ++ (t.step w).1.tasks.map .run ++ r,
        (t.step w).1.vars ++ vs, (t.step w).1.tapes ++ tps, f || (t.step w).1.fault⟩ := by
  have h0 : LStep ⟨⟨w, false, fun _ => false⟩, hs, l ++ .run t :: r, vs, tps, f⟩
      ⟨⟨w, true, fun _ => false⟩, hs, l ++ .inMap t .entered :: r, vs, tps, f⟩ :=
    .micro (by rintro ⟨⟩; cases hl) (by simp [LTask.step, hl])
  have look : t.looksUp = true → (LTask.inMap t .entered).step ⟨w, true, fun _ => false⟩ =
      some ⟨[.inMap t (.looked (w.map (LTask.mapKey t)))], {}, ⟨w, true, fun _ => false⟩⟩ →
      LSteps ⟨⟨w, false, fun _ => false⟩, hs, l ++ .run t :: r, vs, tps, f⟩
      ⟨⟨(t.step w).2, false, fun _ => false⟩, (t.step w).1.handles ++ hs, l ++ (t.step w).1.tasks.map .run ++ r,
        (t.step w).1.vars ++ vs, (t.step w).1.tapes ++ tps, f || (t.step w).1.fault⟩ := by
    intro hk h1
    have hst := Task.step_map (w := w) hl hk
    have s2 := LSteps.tail (.tail (.refl _) h0) (.micro (by rintro ⟨⟩) h1)
    rcases hm : w.map (LTask.mapKey t) with _ | _
    · rw [hm] at s2 hst
      rw [show t.step w = (LTask.missing t, w) from hst]
      have h2 : (LTask.inMap t (.looked false)).step ⟨w, true, fun _ => false⟩ =
        some ⟨[.inMap t (.leave (LTask.missing t))], {}, ⟨w, true, fun _ => false⟩⟩ := rfl
      exact .tail (.tail s2 (.micro (by rintro ⟨⟩) h2)) .leave
    · rw [hm] at s2 hst
      obtain ⟨⟨n, i⟩, hc⟩ := Option.ne_none_iff_exists'.mp (hlive _ hm)
      simp only [hc] at hst
      by_cases hn : n = 0
      · simp only [hn, if_true] at hst
        rw [hst]
        have h2 : (LTask.inMap t (.looked true)).step ⟨w, true, fun _ => false⟩ =
            some ⟨[.inMap t (.leave (LTask.missing t))], {}, ⟨w, true, fun _ => false⟩⟩ := by
          simp [LTask.step, LTask.stepMap, hc, hn]
        exact .tail (.tail s2 (.micro (by rintro ⟨⟩) h2)) .leave
      · simp only [hn, if_false] at hst
        rw [hst]
        have h2 : (LTask.inMap t (.looked true)).step ⟨w, true, fun _ => false⟩ =
            some ⟨[.inMap t (.leave (LTask.found t))], {},
              ⟨w.setArc (LTask.mapKey t) (some ⟨n + 1, i⟩), true, fun _ => false⟩⟩ := by
          simp [LTask.step, LTask.stepMap, hc, hn]
        exact .tail (.tail s2 (.micro (by rintro ⟨⟩) h2)) .leave
  cases t with
  | new | drop | setIndep | setDep | tape | tape1 | tape2 | tape3 | opRec => cases hl
  | opArg1 => simp only [Task.lock] at hl; split at hl <;> cases hl
  | opArg2 =>
    simp only [Task.lock] at hl
    split at hl
    · cases hl
    · split at hl <;> cases hl
  | fromCid c => exact look rfl rfl
  | op o a b => exact look rfl rfl
  | newInsert id =>
    have h1 : (LTask.inMap (.newInsert id) .entered).step ⟨w, true, fun _ => false⟩ =
      some ⟨[.inMap (.newInsert id) (.leave { handles := [id] })], {}, ⟨w.setMap id true, true, fun _ => false⟩⟩ := rfl
    exact .tail (.tail (.tail (.refl _) h0) (.micro (by rintro ⟨⟩) h1)) .leave
  | finalize c v =>
    have h1 : (LTask.inMap (.finalize c v) .entered).step ⟨w, true, fun _ => false⟩ =
      some ⟨[.inMap (.finalize c v) (.leave { vars := v.toList })], {},
        ⟨(w.setMap c false).setArc c none, true, fun _ => false⟩⟩ := rfl
    exact .tail (.tail (.tail (.refl _) h0) (.micro (by rintro ⟨⟩) h1)) .leave

/-- One step of the atomic model, with locks. -/
theorem CStep.locks {cs cs' : CState S} (hr : cs.Reachable) (hs : CStep cs cs') :
    LSteps (LState.ofC cs) (LState.ofC cs') := by
  have one : ∀ {s t : LState S}, LStep s t → LSteps s t := fun h => .tail (.refl _) h
  cases hs with
  | callNew => exact one .callNew
  | callFromCid c => exact one (.callFromCid c)
  | callSetIndep hc ha => exact one (.callSetIndep (s := LState.ofC cs) hc ha)
  | callSetDep hc ha => exact one (.callSetDep (s := LState.ofC cs) hc ha)
  | callTape hc => exact one (.callTape (s := LState.ofC cs) hc)
  | callOp ha hb har => exact one (.callOp (s := LState.ofC cs) ha hb har)
  | scalar v dv => exact one (.scalar (s := LState.ofC cs) v dv)
  | seed d ha => exact one (.seed (s := LState.ofC cs) d ha)
  | callDrop hc hb =>
    refine one (.callDrop (s := LState.ofC cs) hc ?_)
    rintro ⟨x, hx, hxb⟩
    obtain ⟨t, ht, rfl⟩ := List.mem_map.mp hx
    exact hb ⟨t, ht, hxb⟩
  | @run l r t e w' ht hid he =>
    have htl : (LState.ofC cs).tasks = l.map LTask.run ++ .run t :: r.map LTask.run := by
      simp [LState.ofC, ht]
    have hid' : LTask.run t = .run .new → (LState.ofC cs).mem.world.nextId < usizeMax := by
      intro h; injection h with h; exact hid h
    rcases hl : t.lock with _ | _ | c
    · have h := LStep.run (LRun.mk (s := LState.ofC cs) htl hid'
        (e := LTask.finish e ⟨w', false, fun _ => false⟩) (by simp [LTask.step, hl, LState.ofC, he]))
      refine one ?_
      convert h using 1
      simp [LState.ofC, CState.after, LState.after, LTask.finish]
    · have h := Task.uninterrupted_map hl hr.inv.live (hs := cs.handles) (l := l.map .run) (r := r.map .run)
        (vs := cs.vars) (tps := cs.tapes) (f := cs.fault)
      rw [he] at h
      unfold LState.ofC
      rw [ht]
      simpa [CState.after] using h
    · have hnf : cs.world.arcs c ≠ none := by
        intro hn
        have hstep : CStep cs (cs.after l r e w') := .run ht hid he
        have hr' : CState.Reachable (cs.after l r e w') := .tail hr hstep
        have h1 := hr'.inv.fault
        have h2 := Task.step_ctx_none hl hn
        rw [he] at h2
        simp only at h2
        simp [CState.after, h2] at h1
      obtain ⟨⟨n, i⟩, hc⟩ := Option.ne_none_iff_exists'.mp hnf
      have h := LStep.run (LRun.mk (s := LState.ofC cs) htl hid'
        (e := ⟨[.inCtx t c i (t.enter i)], {}, (LState.ofC cs).mem.setCtx c true⟩)
        (by simp [LTask.step, hl, LState.ofC, hc]))
      refine (one h).trans ?_
      have h2 := Sect.uninterrupted (t.enter i) (s := (LState.ofC cs).after (l.map .run) (r.map .run)
        ⟨[.inCtx t c i (t.enter i)], {}, (LState.ofC cs).mem.setCtx c true⟩) (t := t) (c := c) (n := n) (i0 := i) (i := i)
        (l := l.map .run) (r := r.map .run) (by simp [LState.after]) rfl rfl hc
      have hst := Task.step_ctx hl hc
      rw [he] at hst
      injection hst with hs1 hs2
      rw [← hs1] at h2
      convert h2 using 1
      rw [hs2]
      simp [LState.ofC, CState.after, LState.after, LMem.setCtx]

theorem CState.Reachable.locks {cs : CState S} (h : cs.Reachable) : (LState.ofC cs).Reachable := by
  have : ∀ {s t : CState S}, CSteps s t → s.Reachable → LSteps (LState.ofC s) (LState.ofC t) := by
    intro s t hs hr
    induction hs with
    | refl => exact .refl _
    | tail h hs ih => exact ih.trans (hs.locks (CSteps.trans hr h))
  exact this h (.refl _)

end Adv
