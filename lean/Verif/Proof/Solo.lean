import Verif.Proof.Concurrent
import Verif.Spec.Concurrent

/-!
# A call that runs without interference behaves as in the sequential model
-/

set_option linter.unusedSectionVars false

namespace Adv

variable {S : Type} [Flt S]

theorem Task.solo_done {n : Nat} {t : Task S} {w w' : CWorld S} {e : Effect S} (h : t.step w = (e, w'))
    (he : e.tasks = []) : t.solo (n + 1) w = (e, w') := by
  simp only [Task.solo, h, he]

theorem Task.solo_step {n : Nat} {t t' : Task S} {w w' : CWorld S} (h : t.step w = ({ tasks := [t'] }, w')) :
    t.solo (n + 1) w = t'.solo n w' := by
  simp only [Task.solo, h]
  simp

theorem CWorld.setArc_setArc (w : CWorld S) (c : Nat) (x y : Option (Cell S)) :
    (w.setArc c x).setArc c y = w.setArc c y := by
  simp only [CWorld.setArc, CWorld.mk.injEq, true_and]
  funext d; split <;> rfl

theorem CWorld.ofWorld_setArc {w : World S} {c : Nat} {cell cell' : Cell S} (h : w.cells c = some cell) :
    (CWorld.ofWorld w).setArc c (some cell') = CWorld.ofWorld (w.setCell c (some cell')) := by
  simp only [CWorld.setArc, CWorld.ofWorld, World.setCell, CWorld.mk.injEq, true_and, and_true]
  funext d
  split
  · rename_i hd; subst hd; simp [h]
  · rfl

theorem CWorld.setArc_self {w : CWorld S} {c : Nat} {x : Option (Cell S)} (h : w.arcs c = x) : w.setArc c x = w := by
  cases w
  simp only [CWorld.setArc, CWorld.mk.injEq, true_and]
  funext d
  split
  · rename_i hd; subst hd; exact h.symm
  · rfl

theorem CWorld.withLock_ok {α : Type} {w : CWorld S} {c n : Nat} {i j : Inner S} {f : Inner S → Res α × Inner S} {x : α}
    (hc : w.arcs c = some ⟨n, i⟩) (hp : i.poisoned = false) (hf : f i = (.ok x, j)) :
    w.withLock c f = (.ok x, w.setArc c (some ⟨n, j⟩)) := by
  simp [CWorld.withLock, hc, hp, hf]

theorem CWorld.withLock_poisoned {α : Type} {w : CWorld S} {c n : Nat} {i : Inner S} {f : Inner S → Res α × Inner S}
    (hc : w.arcs c = some ⟨n, i⟩) (hp : i.poisoned = true) : w.withLock c f = (.error .poisoned, w) := by
  simp [CWorld.withLock, hc, hp]

theorem CWorld.withLock_record {w : CWorld S} {c n : Nat} {i : Inner S} (hc : w.arcs c = some ⟨n, i⟩)
    (hp : i.poisoned = false) (o : OpCode) (v : S) (x y : Option Nat) :
    w.withLock c (fun i => (.ok (i.record o v x y).1, (i.record o v x y).2)) =
      (.ok (i.record o v x y).1, w.setArc c (some ⟨n, (i.record o v x y).2⟩)) := by
  simp [CWorld.withLock, hc, hp]

/-- What a sequential call of an operation leaves behind. -/
def Effect.ofVar : Res (AFloat S) → Effect S
  | .ok a => { vars := [a] }
  | .error e => { fault := e == .dangling }

theorem Task.solo_op {o : OpCode} {a : AFloat S} {b : Option (AFloat S)} {w : World S} (hw : w.Counted)
    (har : arityOk o b = true) :
    (Task.op o a b).solo 6 (CWorld.ofWorld w) =
      (Effect.ofVar (AFloat.fromOp o a b w).1, CWorld.ofWorld (AFloat.fromOp o a b w).2) := by
  rcases opCase a b with ⟨h1, h2⟩ | ⟨c, h1, h2, h3⟩ | ⟨b', c1, v1, c2, v2, rfl, h1, h2, h3⟩
  · rw [fromOp_free w har h1 h2]
    have hcid : AFloat.opCid a b = .ok none := by
      cases b with
      | none => simp [AFloat.opCid, h1]
      | some b => simp [AFloat.opCid, h1, h2 b rfl]
    refine Task.solo_done (e := { vars := [⟨opVal o a b, opDval o a b, none⟩] }) ?_ rfl
    simp only [Task.step, zov_ok har, fov_ok har, hcid, getD_v, getD_dv]
    rfl
  · have hcid := opCid_some h1 h2 h3
    rcases hc : w.cells c with _ | ⟨n, i⟩
    · rw [fromOp_dead har h1 h2 h3 hc]
      refine Task.solo_done (e := { vars := [⟨opVal o a b, opDval o a b, none⟩] }) ?_ rfl
      have hu : (CWorld.ofWorld w).upgrade c = none := by
        simp [CWorld.upgrade, CWorld.ofWorld, hc]
      simp only [Task.step, zov_ok har, fov_ok har, hcid, hu, getD_v, getD_dv]
      rfl
    · have hn : 1 ≤ n := hw c _ hc
      have hu : (CWorld.ofWorld w).upgrade c = some ((CWorld.ofWorld w).setArc c (some ⟨n + 1, i⟩)) := by
        simp only [CWorld.upgrade, CWorld.ofWorld, hc, Option.isSome_some]
        rw [if_neg (by omega)]
      have hst : (Task.op o a b).step (CWorld.ofWorld w) =
          ({ tasks := [.opArg1 ⟨o, a, b, opVal o a b, opDval o a b, c⟩] }, (CWorld.ofWorld w).setArc c (some ⟨n + 1, i⟩)) := by
        simp only [Task.step, zov_ok har, fov_ok har, hcid, hu, getD_v, getD_dv]
        rfl
      rw [Task.solo_step hst]
      set W := CWorld.ofWorld w with hW
      have hdrop : ∀ (j : Inner S) (r : Option (AFloat S)) (k : Nat),
          (Task.drop c r).solo (k + 1) (W.setArc c (some ⟨n + 1, j⟩)) =
            ({ vars := r.toList }, W.setArc c (some ⟨n, j⟩)) := by
        intro j r k
        refine Task.solo_done ?_ rfl
        simp only [Task.step, CWorld.setArc_same, CWorld.setArc_setArc, Nat.add_sub_cancel]
        rw [if_neg (by omega), if_neg (by omega)]
      have hself : W.setArc c (some ⟨n, i⟩) = W := CWorld.setArc_self hc
      rcases hp : i.poisoned
      · rw [fromOp_live har h1 h2 h3 hc hn hp]
        -- first operand
        have s1 : (Task.opArg1 ⟨o, a, b, opVal o a b, opDval o a b, c⟩).step (W.setArc c (some ⟨n + 1, i⟩)) =
            ({ tasks := [.opArg2 ⟨o, a, b, opVal o a b, opDval o a b, c⟩ (ensureI i a).1] },
              W.setArc c (some ⟨n + 1, (ensureI i a).2⟩)) := by
          rcases ha : a.ctx with _ | ⟨d, vid⟩
          · simp only [Task.step, ha, ensureI]
            rw [CWorld.withLock_record (CWorld.setArc_same _ _ _) hp]
            simp [CWorld.setArc_setArc]
          · simp only [Task.step, ha, ensureI]
        have hp1 : (ensureI i a).2.poisoned = false := ensureI_poisoned.trans hp
        -- second operand
        have s2 : (Task.opArg2 ⟨o, a, b, opVal o a b, opDval o a b, c⟩ (ensureI i a).1).step
            (W.setArc c (some ⟨n + 1, (ensureI i a).2⟩)) =
            ({ tasks := [.opRec ⟨o, a, b, opVal o a b, opDval o a b, c⟩ (ensureI i a).1 (ensureOptI (ensureI i a).2 b).1] },
              W.setArc c (some ⟨n + 1, (ensureOptI (ensureI i a).2 b).2⟩)) := by
          generalize ensureI i a = r1 at hp1 ⊢
          rcases b with _ | b
          · rfl
          rcases hb : b.ctx with _ | ⟨d, vid⟩
          · simp only [Task.step, hb, ensureOptI, ensureI]
            rw [CWorld.withLock_record (CWorld.setArc_same _ _ _) hp1]
            simp [CWorld.setArc_setArc]
          · simp only [Task.step, hb, ensureOptI, ensureI]
        have hp2 : (ensureOptI (ensureI i a).2 b).2.poisoned = false := ensureOptI_poisoned.trans hp1
        have s3 : (Task.opRec ⟨o, a, b, opVal o a b, opDval o a b, c⟩ (ensureI i a).1 (ensureOptI (ensureI i a).2 b).1).step
            (W.setArc c (some ⟨n + 1, (ensureOptI (ensureI i a).2 b).2⟩)) =
            ({ tasks := [.drop c (some ⟨opVal o a b, opDval o a b, some (c, (recOp i o (opVal o a b) a b).1)⟩)] },
              W.setArc c (some ⟨n + 1, (recOp i o (opVal o a b) a b).2⟩)) := by
          simp only [Task.step, recOp]
          rw [CWorld.withLock_record (CWorld.setArc_same _ _ _) hp2]
          simp [CWorld.setArc_setArc]
        rw [Task.solo_step s1, Task.solo_step s2, Task.solo_step s3, hdrop, hW, CWorld.ofWorld_setArc hc]
        rfl
      · rw [fromOp_poisoned har h1 h2 h3 hc hn hp]
        have hpan : (Task.panicked .poisoned [.drop c none] : Effect S) = { tasks := [.drop c none] } := rfl
        have hl : ∀ {α : Type} (f : Inner S → Res α × Inner S), (W.setArc c (some ⟨n + 1, i⟩)).withLock c f =
            (.error .poisoned, W.setArc c (some ⟨n + 1, i⟩)) := fun f =>
          CWorld.withLock_poisoned (CWorld.setArc_same _ _ _) hp
        have hd := fun k => hdrop i none k
        rw [hself] at hd
        rcases ha : a.ctx with _ | ⟨d, vid⟩
        · have s1 : (Task.opArg1 ⟨o, a, b, opVal o a b, opDval o a b, c⟩).step (W.setArc c (some ⟨n + 1, i⟩)) =
              ({ tasks := [.drop c none] }, W.setArc c (some ⟨n + 1, i⟩)) := by
            simp only [Task.step, ha, hl, hpan]
          rw [Task.solo_step s1, hd]
          rfl
        have s1 : (Task.opArg1 ⟨o, a, b, opVal o a b, opDval o a b, c⟩).step (W.setArc c (some ⟨n + 1, i⟩)) =
            ({ tasks := [.opArg2 ⟨o, a, b, opVal o a b, opDval o a b, c⟩ vid] }, W.setArc c (some ⟨n + 1, i⟩)) := by
          simp only [Task.step, ha]
        have s3 : ∀ v2, (Task.opRec ⟨o, a, b, opVal o a b, opDval o a b, c⟩ vid v2).step (W.setArc c (some ⟨n + 1, i⟩)) =
            ({ tasks := [.drop c none] }, W.setArc c (some ⟨n + 1, i⟩)) := by
          intro v2
          simp only [Task.step, hl, hpan]
        rw [Task.solo_step s1]
        have s2 : (∃ v2, (Task.opArg2 ⟨o, a, b, opVal o a b, opDval o a b, c⟩ vid).step (W.setArc c (some ⟨n + 1, i⟩)) =
              ({ tasks := [.opRec ⟨o, a, b, opVal o a b, opDval o a b, c⟩ vid v2] }, W.setArc c (some ⟨n + 1, i⟩))) ∨
            (Task.opArg2 ⟨o, a, b, opVal o a b, opDval o a b, c⟩ vid).step (W.setArc c (some ⟨n + 1, i⟩)) =
              ({ tasks := [.drop c none] }, W.setArc c (some ⟨n + 1, i⟩)) := by
          rcases b with _ | b
          · exact Or.inl ⟨none, rfl⟩
          rcases hb : b.ctx with _ | ⟨d, vid2⟩
          · right
            simp only [Task.step, hb, hl, hpan]
          · left
            refine ⟨some vid2, ?_⟩
            simp only [Task.step, hb]
        rcases s2 with ⟨v2, s2⟩ | s2
        · rw [Task.solo_step s2, Task.solo_step (s3 v2), hd]; rfl
        · rw [Task.solo_step s2, hd]; rfl
  · rw [fromOp_mixed w h1 h2 h3 har]
    have hcid : AFloat.opCid a (some b') = .error .assertFailed := by
      simp [AFloat.opCid, h1, h2, Ne.symm h3]
    refine Task.solo_done (e := {}) ?_ rfl
    simp only [Task.step, zov_ok har, fov_ok har, hcid]

theorem Task.solo_new {w : World S} (hd : w.cells w.nextId = none) :
    (Task.new : Task S).solo 2 (CWorld.ofWorld w) =
      ({ handles := match (AContext.new w).1 with
          | .ok h => [h.cid]
          | .error _ => [] }, CWorld.ofWorld (AContext.new w).2) := by
  simp only [AContext.new]
  by_cases h : w.nextId < usizeMax
  · rw [if_pos h]
    rw [Task.solo_step (t := .new) (w := CWorld.ofWorld w) (t' := .newInsert w.nextId)
      (w' := CWorld.setArc { CWorld.ofWorld w with nextId := (w.nextId + 1) % 2 ^ 64 } w.nextId
        (some ⟨1, Inner.construct w.nextId⟩)) (if_pos h)]
    rw [Task.solo_done (e := { handles := [w.nextId] }) rfl rfl]
    simp only [CWorld.setMap, CWorld.setArc, CWorld.ofWorld, World.setCell, Prod.mk.injEq, true_and, CWorld.mk.injEq, and_true]
    funext d
    split
    · rfl
    · rfl
  · rw [if_neg h]
    exact Task.solo_done (e := {}) (if_neg h) rfl

theorem Task.solo_fromCid {w : World S} (hw : w.Counted) (c : Nat) :
    (Task.fromCid c : Task S).solo 1 (CWorld.ofWorld w) =
      ({ handles := match (AContext.fromCid c w).1 with
          | .ok (some h) => [h.cid]
          | _ => [] }, CWorld.ofWorld (AContext.fromCid c w).2) := by
  simp only [AContext.fromCid]
  rcases hc : w.cells c with _ | ⟨n, i⟩
  · have hu : (CWorld.ofWorld w).upgrade c = none := by simp [CWorld.upgrade, CWorld.ofWorld, hc]
    exact Task.solo_done (e := {}) (by simp only [Task.step, hu]) rfl
  · have hu : (CWorld.ofWorld w).upgrade c = some ((CWorld.ofWorld w).setArc c (some ⟨n + 1, i⟩)) := by
      have := hw c _ hc
      simp only at this
      simp only [CWorld.upgrade, CWorld.ofWorld, hc, Option.isSome_some]
      rw [if_neg (by omega)]
    refine Task.solo_done (e := { handles := [c] }) ?_ rfl
    simp only [Task.step, hu]
    rw [CWorld.ofWorld_setArc hc]

theorem Task.solo_drop {w : World S} (hw : w.Counted) (c : Nat) :
    (Task.drop c none : Task S).solo 2 (CWorld.ofWorld w) =
      ({ fault := match (AContext.drop ⟨c⟩ w).1 with
          | .ok _ => false
          | .error _ => true }, CWorld.ofWorld (AContext.drop ⟨c⟩ w).2) := by
  simp only [AContext.drop]
  rcases hc : w.cells c with _ | ⟨n, i⟩
  · exact Task.solo_done (e := { fault := true }) (by simp only [Task.step, CWorld.ofWorld, hc]) rfl
  have hn := hw c _ hc
  simp only at hn ⊢
  by_cases h1 : n = 1
  · subst h1
    rw [if_pos (Nat.le_refl 1)]
    rw [Task.solo_step (t' := .finalize c none) (w' := (CWorld.ofWorld w).setArc c (some ⟨0, i⟩))
      (by simp only [Task.step, CWorld.ofWorld, hc]; rfl)]
    rw [Task.solo_done (e := {}) rfl rfl]
    simp only [CWorld.setMap, CWorld.setArc, CWorld.ofWorld, World.setCell, Prod.mk.injEq, true_and, CWorld.mk.injEq]
    constructor <;> funext d
    · split <;> rfl
    · split <;> rfl
  · rw [if_neg (by omega)]
    refine Task.solo_done (e := {}) ?_ rfl
    simp only [Task.step, CWorld.ofWorld, hc]
    rw [if_neg (by omega), if_neg h1]
    have := CWorld.ofWorld_setArc (cell' := ⟨n - 1, i⟩) hc
    simp only [CWorld.ofWorld] at this
    rw [this]; rfl

/-- A critical section is the same in both models. -/
theorem CWorld.withLock_ofWorld {α : Type} {w : World S} (c : Nat) (f : Inner S → Res α × Inner S) :
    (CWorld.ofWorld w).withLock c f = ((AContext.withLock ⟨c⟩ f w).1, CWorld.ofWorld (AContext.withLock ⟨c⟩ f w).2) := by
  simp only [CWorld.withLock, AContext.withLock]
  rcases hc : w.cells c with _ | ⟨n, i⟩
  · simp only [CWorld.ofWorld, hc]
  have hc' : (CWorld.ofWorld w).arcs c = some ⟨n, i⟩ := hc
  simp only [hc']
  rcases hp : i.poisoned
  · simp only [Bool.false_eq_true, if_false]
    rcases f i with ⟨e | a, j⟩ <;> simp only [CWorld.ofWorld_setArc hc]
  · simp only [if_true]

theorem Task.solo_setIndep {w : World S} (c : Nat) (a : AFloat S) :
    (Task.setIndep c a).solo 1 (CWorld.ofWorld w) =
      (Effect.ofVar (AContext.setIndep ⟨c⟩ a w).1, CWorld.ofWorld (AContext.setIndep ⟨c⟩ a w).2) := by
  have key : AContext.withLock ⟨c⟩ (fun i : Inner S => (.ok (i.cid, (i.setIndep a.v).1), (i.setIndep a.v).2)) w =
      ((AContext.setIndep ⟨c⟩ a w).1.map (fun r => r.ctx.getD (0, 0)), (AContext.setIndep ⟨c⟩ a w).2) ∧
      ∀ r, (AContext.setIndep ⟨c⟩ a w).1 = .ok r → ∃ x, r = { a with ctx := some x } := by
    simp only [AContext.setIndep, AContext.withLock]
    rcases w.cells c with _ | ⟨n, i⟩
    · exact ⟨rfl, by rintro r ⟨⟩⟩
    · simp only
      rcases i.poisoned
      · exact ⟨rfl, by rintro r ⟨⟩; exact ⟨_, rfl⟩⟩
      · exact ⟨rfl, by rintro r ⟨⟩⟩
  obtain ⟨k1, k2⟩ := key
  rcases hr : AContext.setIndep ⟨c⟩ a w with ⟨e | r, w'⟩
  · rw [hr] at k1
    refine Task.solo_done ?_ rfl
    simp only [Task.step]
    rw [CWorld.withLock_ofWorld, k1]
    rfl
  · rw [hr] at k1 k2
    obtain ⟨x, rfl⟩ := k2 r rfl
    refine Task.solo_done ?_ rfl
    simp only [Task.step]
    rw [CWorld.withLock_ofWorld, k1]
    rfl

theorem Task.solo_setDep {w : World S} (c : Nat) (a : AFloat S) :
    (Task.setDep c a).solo 1 (CWorld.ofWorld w) =
      ({ fault := match (AContext.setDep ⟨c⟩ a w).1 with
          | .ok _ => false
          | .error e => e == .dangling }, CWorld.ofWorld (AContext.setDep ⟨c⟩ a w).2) := by
  refine Task.solo_done ?_ rfl
  simp only [Task.step, CWorld.withLock, AContext.setDep, AContext.withLock]
  rcases hc : w.cells c with _ | ⟨n, i⟩
  · simp only [CWorld.ofWorld, hc]; rfl
  have hc' : (CWorld.ofWorld w).arcs c = some ⟨n, i⟩ := hc
  simp only [hc']
  rcases hp : i.poisoned
  · simp only [Bool.false_eq_true, if_false]
    rcases i.setDep a.v a.ctx with e | j
    · simp only [CWorld.ofWorld_setArc hc]; rfl
    · simp only [CWorld.ofWorld_setArc hc]
  · simp only [if_true]; rfl

theorem Task.solo_tape {w : World S} (c : Nat) :
    (Task.tape c).solo 4 (CWorld.ofWorld w) =
      ({ tapes := match (AContext.tape ⟨c⟩ w).1 with
          | .ok t => [t]
          | .error _ => []
         fault := match (AContext.tape ⟨c⟩ w).1 with
          | .ok _ => false
          | .error e => e == .dangling }, CWorld.ofWorld (AContext.tape ⟨c⟩ w).2) := by
  rcases hc : w.cells c with _ | ⟨n, i⟩
  · have h1 : AContext.tape ⟨c⟩ w = (.error .dangling, w) := by
      unfold AContext.tape
      refine M.bind_error ?_
      simp only [AContext.indeps, AContext.withLock, hc]
    rw [h1]
    refine Task.solo_done ?_ rfl
    simp only [Task.step, CWorld.withLock, CWorld.ofWorld, hc]; rfl
  have hc' : (CWorld.ofWorld w).arcs c = some ⟨n, i⟩ := hc
  rcases hp : i.poisoned
  · have hset : w.setCell c (some ⟨n, i⟩) = w := World.setCell_self hc
    have hl : ∀ {α : Type} (x : Inner S → α), AContext.withLock ⟨c⟩ (fun i => (.ok (x i), i)) w = (.ok (x i), w) := by
      intro α x
      refine (Adv.withLock_ok (f := fun i => (.ok (x i), i)) hc hp rfl).trans ?_
      rw [hset]
    have hl' : ∀ {α : Type} (x : Inner S → α), (CWorld.ofWorld w).withLock c (fun i => (.ok (x i), i)) =
        (.ok (x i), CWorld.ofWorld w) := by
      intro α x
      refine (CWorld.withLock_ok (f := fun i => (.ok (x i), i)) hc' hp rfl).trans ?_
      rw [CWorld.setArc_self hc']
    have h1 : AContext.tape ⟨c⟩ w = (.ok i.tape, w) := by
      unfold AContext.tape AContext.indeps AContext.deps AContext.operations AContext.values
      rw [M.bind_ok (hl Inner.indeps), M.bind_ok (hl Inner.deps), M.bind_ok (hl Inner.ops), M.bind_ok (hl Inner.vals)]
      rfl
    rw [h1]
    rw [Task.solo_step (t := .tape c) (t' := .tape1 c i.indeps) (w' := CWorld.ofWorld w) (by
        simp only [Task.step]; rw [hl' Inner.indeps]),
      Task.solo_step (t' := .tape2 c i.indeps i.deps) (w' := CWorld.ofWorld w) (by
        simp only [Task.step]; rw [hl' Inner.deps]),
      Task.solo_step (t' := .tape3 c i.indeps i.deps i.ops) (w' := CWorld.ofWorld w) (by
        simp only [Task.step]; rw [hl' Inner.ops])]
    refine Task.solo_done ?_ rfl
    simp only [Task.step]; rw [hl' Inner.vals]; rfl
  · have h1 : AContext.tape ⟨c⟩ w = (.error .poisoned, w) := by
      unfold AContext.tape
      exact M.bind_error (Adv.withLock_poisoned hc hp)
    rw [h1]
    refine Task.solo_done ?_ rfl
    simp only [Task.step]; rw [CWorld.withLock_poisoned hc' hp]; rfl

end Adv
