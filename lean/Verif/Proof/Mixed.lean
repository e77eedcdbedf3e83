import Verif.Proof.Natural

/-!
# Histories with several precisions
-/

set_option linter.unusedSectionVars false

namespace Adv
open scoped Adv

variable {S F : Type} [Flt S] {up : S → F}

/-! ## `from_op` with a conversion: as in `Proof/Run.lean` and `Proof/History.lean` -/

theorem withLockF_ok {α : Type} {w : World F} {c n : Nat} {i i' : Inner F} {f : Inner F → Res α × Inner F}
    {x : α} (hc : w.cells c = some ⟨n, i⟩) (hp : i.poisoned = false) (hf : f i = (.ok x, i')) :
    AContext.withLock ⟨c⟩ f w = (.ok x, w.setCell c (some ⟨n, i'⟩)) := by
  simp only [AContext.withLock, hc, hp, hf]; rfl

theorem withLockF_poisoned {α : Type} {w : World F} {c n : Nat} {i : Inner F}
    {f : Inner F → Res α × Inner F} (hc : w.cells c = some ⟨n, i⟩) (hp : i.poisoned = true) :
    AContext.withLock ⟨c⟩ f w = (.error .poisoned, w) := by
  simp only [AContext.withLock, hc, hp, if_true]

/-- `ensure_vid` on a recording. -/
def ensureW (up : S → F) (i : Inner F) (a : AFloat S) : Nat × Inner F :=
  match a.ctx with
  | some (_, vid) => (vid, i)
  | none => i.record .Const (up a.v) none none

/-- The optional version. -/
def ensureOptW (up : S → F) (i : Inner F) : Option (AFloat S) → Option Nat × Inner F
  | none => (none, i)
  | some b => (some (ensureW up i b).1, (ensureW up i b).2)

/-- The recording part of `from_op`. -/
def recW (up : S → F) (i : Inner F) (o : OpCode) (v : S) (a : AFloat S) (b : Option (AFloat S)) : Nat × Inner F :=
  let r1 := ensureW up i a
  let r2 := ensureOptW up r1.2 b
  r2.2.record o (up v) (some r1.1) r2.1

/-- Operands without context: pure computation. -/
theorem fromOpVia_free {o : OpCode} {a : AFloat S} {b : Option (AFloat S)} (w : World F)
    (hok : arityOk o b = true) (ha : a.ctx = none) (hb : ∀ b', b = some b' → b'.ctx = none) :
    AFloat.fromOpVia up o a b w = (.ok ⟨opVal o a b, opDval o a b, none⟩, w) := by
  have hcid : AFloat.opCid a b = .ok none := by
    cases b with
    | none => simp [AFloat.opCid, ha]
    | some b => simp [AFloat.opCid, ha, hb b rfl]
  unfold AFloat.fromOpVia
  rw [zov_ok hok, fov_ok hok, hcid, getD_v, getD_dv]
  rfl

/-- The context is gone: pure computation, result without context. -/
theorem fromOpVia_dead {o : OpCode} {a : AFloat S} {b : Option (AFloat S)} {w : World F} {c : Nat}
    (hok : arityOk o b = true) (ha : InCtx c a) (hb : ∀ b', b = some b' → InCtx c b')
    (hs : a.ctx.isSome ∨ ∃ b', b = some b' ∧ b'.ctx.isSome) (hd : w.cells c = none) :
    AFloat.fromOpVia up o a b w = (.ok ⟨opVal o a b, opDval o a b, none⟩, w) := by
  unfold AFloat.fromOpVia
  rw [zov_ok hok, fov_ok hok, opCid_some ha hb hs, getD_v, getD_dv]
  simp only [M.bind_apply, M.lift_apply, AContext.fromCid, hd]
  rfl

theorem ensureVidVia_live {w : World F} {c n : Nat} {i : Inner F} (a : AFloat S)
    (hc : w.cells c = some ⟨n, i⟩) (hp : i.poisoned = false) :
    AFloat.ensureVidVia up ⟨c⟩ a w = (.ok (ensureW up i a).1, w.setCell c (some ⟨n, (ensureW up i a).2⟩)) := by
  unfold AFloat.ensureVidVia ensureW
  rcases a.ctx with _ | ⟨c', vid⟩
  · exact withLockF_ok hc hp rfl
  · simp only [M.pure_apply]; rw [World.setCell_self hc]

theorem ensureW_poisoned {i : Inner F} {a : AFloat S} : (ensureW up i a).2.poisoned = i.poisoned := by
  unfold ensureW; rcases a.ctx with _ | ⟨c', vid⟩ <;> rfl

theorem ensureVidOptVia_live {w : World F} {c n : Nat} {i : Inner F} (b : Option (AFloat S))
    (hc : w.cells c = some ⟨n, i⟩) (hp : i.poisoned = false) :
    AFloat.ensureVidOptVia up ⟨c⟩ b w = (.ok (ensureOptW up i b).1, w.setCell c (some ⟨n, (ensureOptW up i b).2⟩)) := by
  cases b with
  | none => simp only [AFloat.ensureVidOptVia, ensureOptW, M.pure_apply]; rw [World.setCell_self hc]
  | some b => simp only [AFloat.ensureVidOptVia, ensureOptW]; rw [M.bind_ok (ensureVidVia_live b hc hp)]; rfl

theorem ensureOptW_poisoned {i : Inner F} {b : Option (AFloat S)} :
    (ensureOptW up i b).2.poisoned = i.poisoned := by
  cases b with
  | none => rfl
  | some b => exact ensureW_poisoned

/-- The context is alive: compute and record. -/
theorem fromOpVia_live {o : OpCode} {a : AFloat S} {b : Option (AFloat S)} {w : World F} {c n : Nat}
    {i : Inner F} (hok : arityOk o b = true) (ha : InCtx c a) (hb : ∀ b', b = some b' → InCtx c b')
    (hs : a.ctx.isSome ∨ ∃ b', b = some b' ∧ b'.ctx.isSome)
    (hc : w.cells c = some ⟨n, i⟩) (hn : 1 ≤ n) (hp : i.poisoned = false) :
    AFloat.fromOpVia up o a b w =
      (.ok ⟨opVal o a b, opDval o a b, some (c, (recW up i o (opVal o a b) a b).1)⟩,
        w.setCell c (some ⟨n, (recW up i o (opVal o a b) a b).2⟩)) := by
  unfold AFloat.fromOpVia
  rw [zov_ok hok, fov_ok hok, opCid_some ha hb hs, getD_v, getD_dv]
  simp only [M.bind_apply, M.lift_apply, AContext.fromCid, hc]
  unfold AContext.inScope
  have h1 := ensureVidVia_live (up := up) (w := w.setCell c (some ⟨n + 1, i⟩)) (n := n + 1) (i := i) a
    (World.setCell_same _ _ _) hp
  have h2 := ensureVidOptVia_live (up := up) (w := w.setCell c (some ⟨n + 1, (ensureW up i a).2⟩)) (n := n + 1)
    (i := (ensureW up i a).2) b (World.setCell_same _ _ _)
    (by rw [ensureW_poisoned]; exact hp)
  rw [World.setCell_setCell] at h1 h2
  rw [M.bind_ok h1, M.bind_ok h2]
  have h3 : AContext.recordVia up (⟨c⟩ : AContext) o (opVal o a b) (some (ensureW up i a).1)
      (ensureOptW up (ensureW up i a).2 b).1
      (w.setCell c (some ⟨n + 1, (ensureOptW up (ensureW up i a).2 b).2⟩)) =
      (.ok (recW up i o (opVal o a b) a b).1,
        w.setCell c (some ⟨n + 1, (recW up i o (opVal o a b) a b).2⟩)) := by
    have := withLockF_ok (w := w.setCell c (some ⟨n + 1, (ensureOptW up (ensureW up i a).2 b).2⟩)) (c := c)
      (n := n + 1) (i := (ensureOptW up (ensureW up i a).2 b).2)
      (f := fun k => (.ok (k.record o (up (opVal o a b)) (some (ensureW up i a).1)
        (ensureOptW up (ensureW up i a).2 b).1).1, (k.record o (up (opVal o a b)) (some (ensureW up i a).1)
        (ensureOptW up (ensureW up i a).2 b).1).2)) (World.setCell_same _ _ _)
      (by rw [ensureOptW_poisoned, ensureW_poisoned]; exact hp) rfl
    rw [World.setCell_setCell] at this
    exact this
  change (match ((AContext.recordVia up (⟨c⟩ : AContext) o (opVal o a b) (some (ensureW up i a).1)
      (ensureOptW up (ensureW up i a).2 b).1 >>= fun vid => pure _) : M (World F) (AFloat S)) _ with
    | (r, w') => (r, (AContext.drop ⟨c⟩ w').2)) = _
  rw [M.bind_ok h3]
  simp only [M.pure_apply, AContext.drop, World.setCell_same, opVal, opDval]
  rw [if_neg (by omega)]
  simp

theorem fromOpVia_mixed {o : OpCode} {a b : AFloat S} {c1 v1 c2 v2 : Nat} (w : World F)
    (ha : a.ctx = some (c1, v1)) (hb : b.ctx = some (c2, v2)) (hne : c1 ≠ c2) (har : o.isBinary = true) :
    AFloat.fromOpVia up o a (some b) w = (.error .assertFailed, w) := by
  have har' : arityOk o (some b) = true := har
  have hcid : AFloat.opCid a (some b) = .error .assertFailed := by
    simp [AFloat.opCid, ha, hb, Ne.symm hne]
  unfold AFloat.fromOpVia
  rw [zov_ok har', fov_ok har', hcid]
  rfl

/-- The context of the operands is poisoned: panic. -/
theorem fromOpVia_poisoned {o : OpCode} {a : AFloat S} {b : Option (AFloat S)} {w : World F} {c n : Nat}
    {i : Inner F} (hok : arityOk o b = true) (ha : InCtx c a) (hb : ∀ b', b = some b' → InCtx c b')
    (hs : a.ctx.isSome ∨ ∃ b', b = some b' ∧ b'.ctx.isSome)
    (hc : w.cells c = some ⟨n, i⟩) (hn : 1 ≤ n) (hp : i.poisoned = true) :
    AFloat.fromOpVia up o a b w = (.error .poisoned, w) := by
  unfold AFloat.fromOpVia
  rw [zov_ok hok, fov_ok hok, opCid_some ha hb hs]
  simp only [M.bind_apply, M.lift_apply, AContext.fromCid, hc, AContext.inScope]
  have hc1 : (w.setCell c (some ⟨n + 1, i⟩)).cells c = some ⟨n + 1, i⟩ := World.setCell_same _ _ _
  have hdrop : (AContext.drop ⟨c⟩ (w.setCell c (some ⟨n + 1, i⟩))).2 = w := by
    simp only [AContext.drop, hc1]
    rw [if_neg (by omega)]
    simp only [World.setCell_setCell, Nat.add_sub_cancel]
    exact World.setCell_self hc
  have hrec : ∀ (o : OpCode) (v : S) (x y : Option Nat),
      AContext.recordVia up ⟨c⟩ o v x y (w.setCell c (some ⟨n + 1, i⟩)) =
        (.error .poisoned, w.setCell c (some ⟨n + 1, i⟩)) := fun _ _ _ _ => withLockF_poisoned hc1 hp
  have hens : ∀ a : AFloat S, (∃ k, AFloat.ensureVidVia up ⟨c⟩ a (w.setCell c (some ⟨n + 1, i⟩)) =
        (.ok k, w.setCell c (some ⟨n + 1, i⟩))) ∨ AFloat.ensureVidVia up ⟨c⟩ a (w.setCell c (some ⟨n + 1, i⟩)) =
        (.error .poisoned, w.setCell c (some ⟨n + 1, i⟩)) := by
    intro a
    unfold AFloat.ensureVidVia
    rcases a.ctx with _ | ⟨_, vid⟩
    · exact Or.inr (hrec _ _ _ _)
    · exact Or.inl ⟨vid, rfl⟩
  rcases hens a with ⟨k, hk⟩ | hk
  · rw [hk]
    simp only
    cases b with
    | none => simp only [AFloat.ensureVidOptVia, M.pure_apply, hrec, hdrop]
    | some b =>
      simp only [AFloat.ensureVidOptVia, M.bind_apply]
      rcases hens b with ⟨k', hk'⟩ | hk'
      · rw [hk']; simp only [M.pure_apply, hrec, hdrop]
      · rw [hk']; simp only [hdrop]
  · rw [hk]; simp only [hdrop]


end Adv
