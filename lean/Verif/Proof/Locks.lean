import Verif.Spec.Locks
import Verif.Proof.Concurrent

/-!
# The model with explicit locks refines the model with atomic sections
-/

set_option linter.unusedSectionVars false

namespace Adv

variable {S : Type} [Flt S]

/-! ## Lock ownership -/

/-- Every locked mutex has exactly one owner, every free one none. -/
structure LockInv (s : LState S) : Prop where
  map : s.tasks.countP LTask.holdsMap = (s.mem.mapLocked).toNat
  ctx : ∀ c, s.tasks.countP (LTask.holdsCtx c) = (s.mem.ctxLocked c).toNat

theorem LockInv.init : LockInv (LState.init : LState S) := ⟨rfl, fun _ => rfl⟩

theorem ite_toNat (b : Bool) : (if b = true then 1 else 0) = b.toNat := by cases b <;> rfl

theorem countP_run (l : List (Task S)) (p : LTask S → Bool) (hp : ∀ t, p (.run t) = false) :
    (l.map LTask.run).countP p = 0 := by
  rw [List.countP_eq_zero]
  intro x hx
  obtain ⟨t, -, rfl⟩ := List.mem_map.mp hx
  simp [hp]

theorem LTask.stepMap_locks (t : Task S) (p : MapSect S) (m : LMem S) (hm : m.mapLocked = true) :
    (1 + (LTask.stepMap t p m).next.countP LTask.holdsMap = 1 + ((LTask.stepMap t p m).mem.mapLocked).toNat) ∧
    (LTask.stepMap t p m).mem.ctxLocked = m.ctxLocked ∧
    ∀ c, (LTask.stepMap t p m).next.countP (LTask.holdsCtx c) = 0 := by
  rcases p with _ | b | e
  · cases t <;> simp [LTask.stepMap, LTask.holdsMap, LTask.holdsCtx, hm]
  · cases b
    · simp [LTask.stepMap, LTask.holdsMap, LTask.holdsCtx, hm]
    · rcases hx : m.world.arcs (LTask.mapKey t) with _ | cell
      · simp [LTask.stepMap, hx, LTask.holdsMap, LTask.holdsCtx, hm]
      · by_cases h0 : cell.strong = 0 <;> simp [LTask.stepMap, hx, h0, LTask.holdsMap, LTask.holdsCtx, hm]
  · refine ⟨?_, rfl, fun c => ?_⟩
    · simp [LTask.stepMap, LTask.finish, LTask.holdsMap]
    · simpa only [LTask.stepMap, LTask.finish] using countP_run _ _ fun _ => rfl

theorem LTask.stepCtx_locks (t : Task S) (d : Nat) (i0 : Inner S) (s : Sect S) (m : LMem S) (hm : m.ctxLocked d = true) :
    ((LTask.stepCtx t d i0 s m).next.countP LTask.holdsMap = 0 ∧ (LTask.stepCtx t d i0 s m).mem.mapLocked = m.mapLocked) ∧
    ∀ c, (m.ctxLocked c).toNat + (LTask.stepCtx t d i0 s m).next.countP (LTask.holdsCtx c) =
      (if d = c then 1 else 0) + ((LTask.stepCtx t d i0 s m).mem.ctxLocked c).toNat := by
  unfold LTask.stepCtx
  split
  · refine ⟨⟨rfl, rfl⟩, fun c => ?_⟩
    by_cases hc : d = c
    · subst hc; simp [LMem.setCtx, hm]
    · simp [LMem.setCtx, hc, Ne.symm hc]
  · cases s with
    | ret e =>
      refine ⟨⟨countP_run _ _ fun _ => rfl, rfl⟩, fun c => ?_⟩
      simp only [LTask.finish]
      rw [countP_run _ _ fun _ => rfl]
      by_cases hc : d = c
      · subst hc; simp [LMem.setCtx, hm]
      · simp [LMem.setCtx, hc, Ne.symm hc]
    | panic e =>
      refine ⟨⟨countP_run _ _ fun _ => rfl, rfl⟩, fun c => ?_⟩
      simp only [LTask.finish]
      rw [countP_run _ _ fun _ => rfl]
      by_cases hc : d = c
      · subst hc; simp [LMem.setCtx, hm]
      · simp [LMem.setCtx, hc, Ne.symm hc]
    | read k =>
      refine ⟨⟨rfl, rfl⟩, fun c => ?_⟩
      by_cases hc : d = c <;> simp [LTask.holdsCtx, hc, Nat.add_comm]
    | write f k =>
      refine ⟨⟨rfl, rfl⟩, fun c => ?_⟩
      by_cases hc : d = c <;> simp [LTask.holdsCtx, hc, Nat.add_comm]

theorem LTask.step_locks {lt : LTask S} {m : LMem S} {e : LEffect S} (h : lt.step m = some e)
    (hm : lt.holdsMap = true → m.mapLocked = true) (hc : ∀ c, lt.holdsCtx c = true → m.ctxLocked c = true) :
    ((m.mapLocked).toNat + e.next.countP LTask.holdsMap =
        (lt.holdsMap).toNat + (e.mem.mapLocked).toNat) ∧
    ∀ c, (m.ctxLocked c).toNat + e.next.countP (LTask.holdsCtx c) =
        (lt.holdsCtx c).toNat + (e.mem.ctxLocked c).toNat := by
  cases lt with
  | inMap t p =>
    injection h with h; subst h
    obtain ⟨h1, h2, h3⟩ := LTask.stepMap_locks t p m (hm rfl)
    refine ⟨by simpa [hm rfl, LTask.holdsMap] using h1, fun c => ?_⟩
    rw [h3, h2]; simp [LTask.holdsCtx]
  | inCtx t c i0 s =>
    injection h with h; subst h
    obtain ⟨⟨h1, h2⟩, h3⟩ := LTask.stepCtx_locks t c i0 s m (hc c (by simp [LTask.holdsCtx]))
    refine ⟨by rw [h1, h2]; simp [LTask.holdsMap], fun d => ?_⟩
    have h := h3 d
    rw [show (LTask.holdsCtx d (.inCtx t c i0 s)).toNat = if c = d then 1 else 0 by
      by_cases hcd : c = d <;> simp [LTask.holdsCtx, hcd]]
    exact h
  | run t =>
    simp only [LTask.step] at h
    split at h
    · injection h with h; subst h
      simp only [LTask.finish]
      refine ⟨?_, fun c => ?_⟩
      · rw [countP_run _ _ fun _ => rfl, Nat.add_comm]; rfl
      · rw [countP_run _ _ fun _ => rfl, Nat.add_comm]; rfl
    · split at h
      · cases h
      · injection h with h; subst h
        rename_i hf
        simp [LTask.holdsMap, LTask.holdsCtx, hf]
    · split at h
      · injection h with h; subst h
        simp [LTask.holdsMap, LTask.holdsCtx]
      · split at h
        · cases h
        · injection h with h; subst h
          rename_i _ d _ _ _ _ hf
          refine ⟨by simp [LTask.holdsMap, LMem.setCtx], fun c => ?_⟩
          by_cases hdc : d = c
          · subst hdc; simp [LTask.holdsCtx, LMem.setCtx, hf]
          · simp [LTask.holdsCtx, LMem.setCtx, hdc, Ne.symm hdc]

theorem LockInv.run {s t : LState S} (h : LockInv s) (hs : LRun s t) : LockInv t := by
  obtain ⟨ht, hid, he⟩ := hs
  rename_i l r lt e
  have hM := h.map
  have hC := h.ctx
  rw [ht] at hM
  simp only [ht] at hC
  simp only [List.countP_append, List.countP_cons, ite_toNat] at hM hC
  have hm : lt.holdsMap = true → s.mem.mapLocked = true := by
    intro h'
    by_contra hn
    rw [Bool.not_eq_true] at hn
    simp [h', hn] at hM
  have hc : ∀ c, lt.holdsCtx c = true → s.mem.ctxLocked c = true := by
    intro c h'
    by_contra hn
    have := hC c
    rw [Bool.not_eq_true] at hn
    simp [h', hn] at this
  obtain ⟨h1, h2⟩ := LTask.step_locks he hm hc
  refine ⟨?_, fun c => ?_⟩
  · simp only [LState.after, List.countP_append]; omega
  · have := h2 c
    have := hC c
    simp only [LState.after, List.countP_append]; omega

theorem LockInv.step {s t : LState S} (h : LockInv s) (hs : LStep s t) : LockInv t := by
  cases hs with
  | run hs => exact h.run hs
  | scalar | seed => exact ⟨h.map, h.ctx⟩
  | _ => exact ⟨by simpa [LTask.holdsMap] using h.map, fun c => by simpa [LTask.holdsCtx] using h.ctx c⟩

theorem LockInv.steps {s t : LState S} (h : LockInv s) (hs : LSteps s t) : LockInv t := by
  induction hs with
  | refl => exact h
  | tail _ hs ih => exact ih.step hs

theorem LState.Reachable.lockInv {s : LState S} (h : s.Reachable) : LockInv s := LockInv.init.steps h

end Adv
