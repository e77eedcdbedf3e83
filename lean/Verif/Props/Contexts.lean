import Verif.Proof.History
import Verif.Spec.Demo

/-!
# Contexts: C34, C35, C36, C39, C49, C50, C54
-/

set_option linter.unusedSectionVars false

namespace Adv.Props
open Adv

variable {S : Type} [Flt S]

/-! ## C34 -/

/-- C34 (fresh ids): a newly created context has an id that no existing handle, context or variable
mentions. -/
theorem C34_new_id_fresh {s : HState S} (hr : s.Reachable) {h : AContext} {w' : World S}
    (e : AContext.new s.world = (.ok h, w')) :
    s.world.cells h.cid = none ∧ h.cid ∉ s.handles ∧
      ∀ a ∈ s.vars, ∀ c vid, a.ctx = some (c, vid) → c ≠ h.cid := by
  have hid : s.world.nextId < usizeMax := by
    by_contra hn
    simp only [AContext.new] at e
    rw [if_neg hn] at e; cases e
  obtain ⟨h1, -⟩ := new_ok hid e
  have hi := hr.inv
  have hnone : s.world.cells h.cid = none := by
    rcases hc : s.world.cells h.cid with _ | cell
    · rfl
    · have := (hi.alive _ _ hc).2.2.1; omega
  refine ⟨hnone, hi.dead _ hnone, ?_⟩
  intro a ha c vid hctx
  have := (hi.vars a ha c vid hctx).1
  omega

example : ∃ h w', AContext.new Demo.s7.world = (.ok h, w') ∧ h.cid = 3 := ⟨⟨3⟩, _, rfl, rfl⟩

/-- C34 (ids are never reused): two contexts created at different times have different ids, even if the
first one has been dropped meanwhile. -/
theorem C34_ids_never_reused {s t : HState S} (hr : s.Reachable) {h h' : AContext} {w' w'' : World S}
    (e : AContext.new s.world = (.ok h, w'))
    (hs : HSteps ⟨w', h.cid :: s.handles, s.vars⟩ t)
    (e' : AContext.new t.world = (.ok h', w'')) : h'.cid ≠ h.cid := by
  have hid : ∀ (w w' : World S) (h : AContext), AContext.new w = (.ok h, w') → w.nextId < usizeMax := by
    intro w w' h e
    by_contra hn
    simp only [AContext.new] at e
    rw [if_neg hn] at e; cases e
  obtain ⟨h1, h2⟩ := new_ok (hid _ _ _ e) e
  obtain ⟨h1', -⟩ := new_ok (hid _ _ _ e') e'
  have hi := hr.inv.step (HStep.new (hid _ _ _ e) e)
  have := (hs.evolve hi).1
  have h3 : w'.nextId = s.world.nextId + 1 := by rw [h2]; rfl
  simp only at this
  omega

example : ∃ h w', AContext.new (HState.init : HState ℚ).world = (.ok h, w') ∧
    ∃ t, HSteps ⟨w', h.cid :: [], []⟩ t ∧ ∃ h' w'', AContext.new t.world = (.ok h', w'') :=
  ⟨⟨1⟩, _, rfl, _, .refl _, ⟨2⟩, _, rfl⟩

/-- C34 (isolation): an operation on variables of context `c` changes no other context, and neither its
result nor its effect on `c` depends on anything but the state of context `c`. -/
theorem C34_operation_isolated {s s' : HState S} (hr : s.Reachable)
    {a : AFloat S} {b : Option (AFloat S)} {o : OpCode} {c : Nat} (har : arityOk o b = true)
    (hac : ∀ d vid, a.ctx = some (d, vid) → d = c)
    (hbc : ∀ b', b = some b' → ∀ d vid, b'.ctx = some (d, vid) → d = c)
    (hcell : s'.world.cells c = s.world.cells c) :
    (∀ d, d ≠ c → (AFloat.fromOp o a b s.world).2.cells d = s.world.cells d) ∧
    (AFloat.fromOp o a b s.world).2.nextId = s.world.nextId ∧
    (AFloat.fromOp o a b s'.world).1 = (AFloat.fromOp o a b s.world).1 ∧
    (AFloat.fromOp o a b s'.world).2.cells c = (AFloat.fromOp o a b s.world).2.cells c := by
  have hi := hr.inv
  by_cases hsome : a.ctx.isSome ∨ ∃ b', b = some b' ∧ b'.ctx.isSome
  · rcases hc : s.world.cells c with _ | ⟨n, i⟩
    · rw [fromOp_dead har hac hbc hsome hc, fromOp_dead har hac hbc hsome (hcell.trans hc)]
      exact ⟨fun _ _ => rfl, rfl, rfl, hcell⟩
    · have hn := (hi.alive c _ hc).2.2.2.2
      by_cases hp : i.poisoned = true
      · rw [fromOp_poisoned har hac hbc hsome hc hn hp,
          fromOp_poisoned har hac hbc hsome (hcell.trans hc) hn hp]
        exact ⟨fun _ _ => rfl, rfl, rfl, hcell⟩
      · have hp' : i.poisoned = false := by simpa using hp
        rw [fromOp_live har hac hbc hsome hc hn hp', fromOp_live har hac hbc hsome (hcell.trans hc) hn hp']
        refine ⟨?_, rfl, rfl, ?_⟩
        · intro d hd; exact World.setCell_ne _ _ hd
        · simp only [World.setCell_same]
  · have ha0 : a.ctx = none := by
      by_contra h; exact hsome (Or.inl (by cases hx : a.ctx <;> simp_all))
    have hb0 : ∀ b', b = some b' → b'.ctx = none := by
      intro b' hb'
      by_contra h; exact hsome (Or.inr ⟨b', hb', by cases hx : b'.ctx <;> simp_all⟩)
    rw [fromOp_free _ har ha0 hb0, fromOp_free _ har ha0 hb0]
    exact ⟨fun _ _ => rfl, rfl, rfl, hcell⟩

/-- Two reachable states that agree on context 1 (alive, with a recorded variable) but not on
context 2. -/
example : ∃ a ∈ Demo.s5.vars, a.ctx = some (1, 2) ∧ arityOk (α := AFloat ℚ) .Abs none = true ∧
    Demo.s7.world.cells 1 = Demo.s5.world.cells 1 ∧ (Demo.s7.world.cells 2).isSome ∧
    Demo.s5.world.cells 2 = none ∧ Demo.s5.Reachable ∧ Demo.s7.Reachable :=
  ⟨⟨4, 0, some (1, 2)⟩, by simp [Demo.s5, Demo.s4], rfl, rfl, rfl, rfl, rfl, Demo.r5, Demo.r7⟩

/-- C34 (isolation): calls on a handle of context `c` change no other context. -/
theorem C34_handle_isolated {s : HState S} {c : Nat} (a : AFloat S) :
    (∀ d, d ≠ c → (AContext.setIndep ⟨c⟩ a s.world).2.cells d = s.world.cells d) ∧
    (∀ d, d ≠ c → (AContext.setDep ⟨c⟩ a s.world).2.cells d = s.world.cells d) ∧
    (∀ d, d ≠ c → (AContext.tape ⟨c⟩ s.world).2.cells d = s.world.cells d) ∧
    (∀ d, d ≠ c → (AContext.drop ⟨c⟩ s.world).2.cells d = s.world.cells d) := by
  have hlock : ∀ {α : Type} (f : Inner S → Res α × Inner S) (w : World S) (d : Nat), d ≠ c →
      (AContext.withLock ⟨c⟩ f w).2.cells d = w.cells d := by
    intro α f w d hd
    unfold AContext.withLock
    rcases w.cells c with _ | cell
    · rfl
    · simp only
      split
      · rfl
      · split <;> exact World.setCell_ne _ _ hd
  refine ⟨fun d hd => hlock _ _ d hd, fun d hd => hlock _ _ d hd, ?_, ?_⟩
  · intro d hd
    have hbind : ∀ {α β : Type} (m : M (World S) α) (k : α → M (World S) β) (w : World S),
        (∀ w, (m w).2.cells d = w.cells d) → (∀ x w, (k x w).2.cells d = w.cells d) →
        ((m >>= k) w).2.cells d = w.cells d := by
      intro α β m k w h1 h2
      rw [M.bind_apply]
      have := h1 w
      rcases hm : m w with ⟨e | x, w'⟩
      · rw [hm] at this; exact this
      · rw [hm] at this; simp only at this ⊢; rw [h2 x w']; exact this
    unfold AContext.tape
    refine hbind _ _ _ (fun w => hlock _ w d hd) (fun _ w => ?_)
    refine hbind _ _ _ (fun w => hlock _ w d hd) (fun _ w => ?_)
    refine hbind _ _ _ (fun w => hlock _ w d hd) (fun _ w => ?_)
    refine hbind _ _ _ (fun w => hlock _ w d hd) (fun _ w => ?_)
    rfl
  · intro d hd
    unfold AContext.drop
    simp only
    rcases s.world.cells c with _ | cell
    · rfl
    · simp only
      split <;> exact World.setCell_ne _ _ hd

example : (2 : Nat) ≠ 1 ∧ (Demo.s7.world.cells 2).isSome ∧ (Demo.s7.world.cells 1).isSome := by
  exact ⟨by decide, rfl, rfl⟩

/-! ## C35 -/

/-- C35: combining variables of two different contexts panics and changes nothing at all. -/
theorem C35_mixed_operation_panics {o : OpCode} {a b : AFloat S} {c1 v1 c2 v2 : Nat} (w : World S)
    (ha : a.ctx = some (c1, v1)) (hb : b.ctx = some (c2, v2)) (hne : c1 ≠ c2) (ho : o.isBinary = true) :
    AFloat.fromOp o a (some b) w = (.error .assertFailed, w) := fromOp_mixed w ha hb hne ho

example : ∃ a ∈ Demo.s7.vars, ∃ b ∈ Demo.s7.vars, a.ctx = some (1, 2) ∧ b.ctx = some (2, 0) ∧
    OpCode.Add.isBinary = true :=
  ⟨⟨4, 0, some (1, 2)⟩, by simp [Demo.s7, Demo.s6, Demo.s5, Demo.s4], ⟨2, 0, some (2, 0)⟩,
    by simp [Demo.s7], rfl, rfl, rfl⟩

/-- C35: declaring a variable of another context as dependent panics; no recording changes (the context
is marked as poisoned, see C49). -/
theorem C35_foreign_set_dep_panics {s : HState S} (hr : s.Reachable) {c d vid : Nat} {a : AFloat S}
    (hc : c ∈ s.handles) (ha : a ∈ s.vars) (hctx : a.ctx = some (d, vid)) (hne : d ≠ c) :
    ∃ e w', AContext.setDep ⟨c⟩ a s.world = (.error e, w') ∧ w'.nextId = s.world.nextId ∧
      ∀ k, (w'.cells k).map (fun cell => (cell.strong, cell.inner.tape)) =
        (s.world.cells k).map (fun cell => (cell.strong, cell.inner.tape)) := by
  have hnin : ¬ InCtx c a := fun h => hne (h d vid hctx)
  obtain ⟨n, i, hcell, ⟨hp, e'⟩ | ⟨hp, j, k1, k2, k3, e'⟩ | ⟨hp, hin, e'⟩⟩ := setDep_effect hr.inv hc ha
  · exact ⟨_, _, e', rfl, fun _ => rfl⟩
  · exact absurd k3 hnin
  · refine ⟨_, _, e', rfl, ?_⟩
    intro k
    by_cases hk : k = c
    · subst hk; simp only [World.setCell_same, hcell, Option.map_some]; rfl
    · rw [World.setCell_ne _ _ hk]

example : 2 ∈ Demo.s7.handles ∧ ∃ a ∈ Demo.s7.vars, a.ctx = some (1, 2) ∧ Demo.s7.Reachable :=
  ⟨by simp [Demo.s7], ⟨4, 0, some (1, 2)⟩, by simp [Demo.s7, Demo.s6, Demo.s5, Demo.s4], rfl, Demo.r7⟩

/-! ## C36 -/

/-- C36: operations on variables of a dropped context give exactly what they give on the same numbers
without any context, and record nothing. -/
theorem C36_dead_variables_are_constants {s : HState S} {a : AFloat S}
    {b : Option (AFloat S)} {o : OpCode} {c : Nat} (har : arityOk o b = true)
    (hac : ∀ d vid, a.ctx = some (d, vid) → d = c)
    (hbc : ∀ b', b = some b' → ∀ d vid, b'.ctx = some (d, vid) → d = c)
    (hdead : s.world.cells c = none) :
    ∃ v dv, AFloat.fromOp o a b s.world = (.ok (AFloat.new v dv), s.world) ∧
      AFloat.fromOp o (AFloat.new a.v a.dv) (b.map fun b => AFloat.new b.v b.dv) s.world =
        (.ok (AFloat.new v dv), s.world) := by
  refine ⟨opVal o a b, opDval o a b, ?_, ?_⟩
  · by_cases hsome : a.ctx.isSome ∨ ∃ b', b = some b' ∧ b'.ctx.isSome
    · exact fromOp_dead har hac hbc hsome hdead
    · have ha0 : a.ctx = none := by
        by_contra h; exact hsome (Or.inl (by cases hx : a.ctx <;> simp_all))
      have hb0 : ∀ b', b = some b' → b'.ctx = none := by
        intro b' hb'
        by_contra h; exact hsome (Or.inr ⟨b', hb', by cases hx : b'.ctx <;> simp_all⟩)
      exact fromOp_free _ har ha0 hb0
  · rw [fromOp_free _ (by cases b <;> exact har) rfl (by
      intro b' hb'
      obtain ⟨b0, -, rfl⟩ := Option.map_eq_some_iff.mp hb'
      rfl)]
    cases b <;> rfl

example : Demo.s8.world.cells 1 = none ∧ ∃ a ∈ Demo.s8.vars, a.ctx = some (1, 2) :=
  ⟨rfl, ⟨4, 0, some (1, 2)⟩, by simp [Demo.s8, Demo.s7, Demo.s6, Demo.s5, Demo.s4], rfl⟩

/-- C36: a dropped context stays dropped, so the previous theorem applies for the rest of the history. -/
theorem C36_dropped_stays_dropped {s t : HState S} (hr : s.Reachable) {a : AFloat S} {c vid : Nat}
    (ha : a ∈ s.vars) (hctx : a.ctx = some (c, vid)) (hdead : s.world.cells c = none) (hs : HSteps s t) :
    t.world.cells c = none :=
  (hs.evolve hr.inv).2.1 c (hr.inv.vars a ha c vid hctx).1 hdead

example : ∃ a ∈ Demo.s8.vars, a.ctx = some (1, 2) ∧ Demo.s8.world.cells 1 = none ∧ Demo.s8.Reachable :=
  ⟨⟨4, 0, some (1, 2)⟩, by simp [Demo.s8, Demo.s7, Demo.s6, Demo.s5, Demo.s4], rfl, rfl, Demo.r8⟩

/-! ## C39 -/

/-- C39: looking up a context by id succeeds exactly while a handle of it is alive. -/
theorem C39_from_cid_iff_alive {s : HState S} (hr : s.Reachable) (c : Nat) :
    (∃ w', AContext.fromCid c s.world = (.ok (some ⟨c⟩), w')) ↔ c ∈ s.handles := by
  have hi := hr.inv
  rcases hc : s.world.cells c with _ | cell
  · simp only [AContext.fromCid, hc]
    constructor
    · rintro ⟨w', h⟩; cases h
    · intro h; exact absurd h (hi.dead c hc)
  · simp only [AContext.fromCid, hc]
    obtain ⟨-, -, -, h4, h5⟩ := hi.alive c _ hc
    constructor
    · intro _
      exact List.count_pos_iff.mp (by omega)
    · intro _; exact ⟨_, rfl⟩

example : (1 ∈ Demo.s7.handles) ∧ (1 ∉ Demo.s8.handles) ∧ Demo.s7.Reachable ∧ Demo.s8.Reachable :=
  ⟨by simp [Demo.s7], by simp [Demo.s8], Demo.r7, Demo.r8⟩

/-- C39 (no leak): the registry contains exactly the contexts with a live handle; the reference count is
the number of live handles. -/
theorem C39_registry_is_live_handles {s : HState S} (hr : s.Reachable) (c : Nat) :
    ((s.world.cells c).isSome ↔ c ∈ s.handles) ∧
    ∀ cell, s.world.cells c = some cell → cell.strong = s.handles.count c := by
  have hi := hr.inv
  rcases hc : s.world.cells c with _ | cell
  · exact ⟨by simp [hi.dead c hc], by simp⟩
  · obtain ⟨-, -, -, h4, h5⟩ := hi.alive c _ hc
    refine ⟨?_, ?_⟩
    · simp only [Option.isSome_some, true_iff]
      exact List.count_pos_iff.mp (by omega)
    · rintro cell' ⟨⟩; exact h4

example : (Demo.s7.world.cells 1).isSome ∧ Demo.s8.world.cells 1 = none ∧ (Demo.s8.world.cells 2).isSome :=
  ⟨rfl, rfl, rfl⟩

/-- C39: dropping the last handle removes the registry entry. -/
theorem C39_last_drop_removes {s : HState S} (hr : s.Reachable) {c : Nat} (h : s.handles.count c = 1) :
    (AContext.drop ⟨c⟩ s.world).2.cells c = none := by
  have hi := hr.inv
  rcases hc : s.world.cells c with _ | cell
  · simp only [AContext.drop, hc]
  · obtain ⟨-, -, -, h4, h5⟩ := hi.alive c _ hc
    simp only [AContext.drop, hc]
    rw [if_pos (by omega)]
    exact World.setCell_same _ _ _

example : Demo.s7.handles.count 1 = 1 ∧ Demo.s7.Reachable := ⟨rfl, Demo.r7⟩

/-! ## C49 -/

/-- C49: after `set_dep` failed on a foreign variable, the recording stays as it is for ever, and every
later use of the context panics. -/
theorem C49_failed_set_dep_poisons {s t : HState S} (hr : s.Reachable) {c d vid : Nat} {a : AFloat S}
    (hc : c ∈ s.handles) (ha : a ∈ s.vars) (hctx : a.ctx = some (d, vid)) (hne : d ≠ c)
    (hs : HSteps ⟨(AContext.setDep ⟨c⟩ a s.world).2, s.handles, s.vars⟩ t)
    {cell0 cell : Cell S} (h0 : s.world.cells c = some cell0) (h1 : t.world.cells c = some cell) :
    cell.inner.tape = cell0.inner.tape ∧
    (∀ x, (AContext.setIndep ⟨c⟩ x t.world).1 = .error .poisoned) ∧
    (∀ x, (AContext.setDep ⟨c⟩ x t.world).1 = .error .poisoned) ∧
    (AContext.tape ⟨c⟩ t.world).1 = .error .poisoned ∧
    (∀ (o : OpCode) (x : AFloat S) (y : Option (AFloat S)), arityOk o y = true →
      (∀ d vid, x.ctx = some (d, vid) → d = c) →
      (∀ y', y = some y' → ∀ d vid, y'.ctx = some (d, vid) → d = c) →
      (x.ctx.isSome ∨ ∃ y', y = some y' ∧ y'.ctx.isSome) →
      AFloat.fromOp o x y t.world = (.error .poisoned, t.world)) := by
  have hi := hr.inv
  have hnin : ¬ InCtx c a := fun h => hne (h d vid hctx)
  have hstep : HStep s ⟨(AContext.setDep ⟨c⟩ a s.world).2, s.handles, s.vars⟩ := HStep.setDep hc ha rfl
  have hi1 := hi.step hstep
  have key : ∃ m i, (AContext.setDep ⟨c⟩ a s.world).2.cells c = some ⟨m, i⟩ ∧ i.poisoned = true ∧
      i.tape = cell0.inner.tape := by
    obtain ⟨n, i, hcell, ⟨hp, e'⟩ | ⟨hp, j, k1, k2, k3, e'⟩ | ⟨hp, hin, e'⟩⟩ := setDep_effect hi hc ha
    · rw [h0] at hcell; injection hcell with hcell
      exact ⟨n, i, by rw [e', h0, hcell], hp, by rw [hcell]⟩
    · exact absurd k3 hnin
    · rw [h0] at hcell; injection hcell with hcell
      refine ⟨n, { i with poisoned := true }, ?_, rfl, by rw [hcell]; rfl⟩
      rw [e']; exact World.setCell_same _ _ _
  obtain ⟨m, i, k1, k2, k3⟩ := key
  have hg := (hs.evolve hi1).2.2 c _ _ k1 h1
  have heq : cell.inner = i := hg.poisoned k2
  have hcell : t.world.cells c = some ⟨cell.strong, i⟩ := by rw [h1, ← heq]
  have hn := ((hi1.steps hs).alive c _ h1).2.2.2.2
  refine ⟨by rw [heq, k3], fun x => ?_, fun x => ?_, ?_, ?_⟩
  · exact congrArg Prod.fst (withLock_poisoned hcell k2)
  · exact congrArg Prod.fst (withLock_poisoned hcell k2)
  · have : (AContext.indeps ⟨c⟩ : M (World S) _) t.world = (.error .poisoned, t.world) :=
      withLock_poisoned hcell k2
    unfold AContext.tape
    rw [M.bind_error this]
  · intro o x y har hx hy hsome
    exact fromOp_poisoned har hx hy hsome hcell hn k2

example : 2 ∈ Demo.s7.handles ∧ (∃ a ∈ Demo.s7.vars, a.ctx = some (1, 2) ∧
    (AContext.setDep ⟨2⟩ a Demo.s7.world).1 = .error .assertFailed ∧
    ((AContext.setDep ⟨2⟩ a Demo.s7.world).2.cells 2).isSome) ∧
    (Demo.s7.world.cells 2).isSome ∧ Demo.s7.Reachable :=
  ⟨by simp [Demo.s7], ⟨⟨4, 0, some (1, 2)⟩, by simp [Demo.s7, Demo.s6, Demo.s5, Demo.s4], rfl, rfl, rfl⟩,
    rfl, Demo.r7⟩

/-! ## C50 -/

theorem maxOr0_lt {l : List Nat} {n : Nat} (hn : 0 < n) (h : ∀ x ∈ l, x < n) : Tape.maxOr0 l < n := by
  unfold Tape.maxOr0
  have : ∀ (l : List Nat) (a : Nat), a < n → (∀ x ∈ l, x < n) → l.foldl Nat.max a < n := by
    intro l
    induction l with
    | nil => intro a ha _; exact ha
    | cons x l ih =>
      intro a ha hl
      exact ih _ (Nat.max_lt.mpr ⟨ha, hl x (by simp)⟩) (fun y hy => hl y (by simp [hy]))
  exact this l 0 hn h

/-- The index of every part of a proper tape is covered by `max_id`. -/
theorem maxId_lt {t : Tape S} (h : t.Proper) (hne : t.vals ≠ []) : t.maxId < t.vals.length := by
  have hpos : 0 < t.vals.length := List.length_pos_iff.mpr hne
  refine Nat.max_lt.mpr ⟨Nat.max_lt.mpr ⟨maxOr0_lt hpos h.wf.indeps_lt, maxOr0_lt hpos h.wf.deps_lt⟩,
    maxOr0_lt hpos ?_⟩
  intro x hx
  obtain ⟨op, hop, rfl⟩ := List.mem_map.mp hx
  exact h.wf.vid_lt op (by simp [mem_activeOps, hop, h.noNop op hop])

/-- C50: every tape taken from a context is in single-assignment form (`Tape.WF`), defines every value,
is consistent with its stored values, and `max_id` is in bounds. -/
theorem C50_recorded_tapes_single_assignment {s : HState S} (hr : s.Reachable) {c : Nat} {t : Tape S}
    {w' : World S} (hc : c ∈ s.handles) (e : AContext.tape ⟨c⟩ s.world = (.ok t, w')) :
    t.WF ∧ t.Complete ∧ t.Consistent ∧ (t.vals ≠ [] → t.maxId < t.vals.length) ∧ w' = s.world := by
  rcases hcell : s.world.cells c with _ | ⟨n, i⟩
  · exact absurd hc (hr.inv.dead c hcell)
  have hg := (hr.inv.alive c _ hcell).2.1
  by_cases hp : i.poisoned = true
  · have : (AContext.indeps ⟨c⟩ : M (World S) _) s.world = (.error .poisoned, s.world) :=
      withLock_poisoned hcell hp
    unfold AContext.tape at e
    rw [M.bind_error this] at e; cases e
  · rw [tape_live hcell (by simpa using hp)] at e
    injection e with e1 e2
    injection e1 with e1
    subst e1
    have hpr := hg.proper
    exact ⟨hpr.wf, hpr.complete, hpr.consistent, maxId_lt hpr, e2.symm⟩

example : 1 ∈ Demo.s5.handles ∧ Demo.s5.Reachable ∧ (AContext.tape ⟨1⟩ Demo.s5.world).1 =
    .ok ⟨[0], [2], [⟨.Const, 1, none, none⟩, ⟨.Mul, 2, some 0, some 1⟩], [2, 2, 4], true⟩ :=
  ⟨by simp [Demo.s5], Demo.r5, by decide +kernel⟩

/-- C50 for `Function::tape`, in any world. -/
theorem C50_function_tapes_single_assignment (f : Func S) (x : List S) {w w' : World S} {t : Tape S}
    (hw : w.nextId < usizeMax) (e : f.tape x w = (.ok t, w')) :
    t.WF ∧ t.Complete ∧ t.Consistent ∧ (t.vals ≠ [] → t.maxId < t.vals.length) := by
  have h := (Func.tape_spec f x w hw).2
  rw [e] at h
  obtain ⟨_, -, h⟩ := h.ok_left
  exact ⟨h.wf, h.complete, h.consistent, maxId_lt h.proper⟩

example : (Demo.absF.tape [2, -3] Demo.w0).1 = .ok ⟨[0, 1], [3, 4],
    [⟨.Mul, 2, some 0, some 1⟩, ⟨.Abs, 3, some 2, none⟩, ⟨.Add, 4, some 0, some 3⟩],
    [2, -3, -6, 6, 8], true⟩ := by decide +kernel

/-- Non-vacuity: histories may call `AContext::record`, here with the ids of recorded values and the right result. -/
example : ∃ (s : HState ℚ) (t : Tape ℚ), s.Reachable ∧ 1 ∈ s.handles ∧ (AContext.tape ⟨1⟩ s.world).1 = .ok t ∧
    t.ops.getLast? = some ⟨.Add, 3, some 2, some 0⟩ ∧ t.vals = [2, 2, 4, 6] := by
  rcases hc : Demo.s4.world.cells 1 with _ | cell
  · have : (Demo.s4.world.cells 1).isSome = true := by decide +kernel
    rw [hc] at this; cases this
  have hvals : (Demo.s4.world.cells 1).map (fun cell => cell.inner.vals) = some [2, 2, 4] := by decide +kernel
  rw [hc] at hvals
  have hvals : cell.inner.vals = [2, 2, 4] := by injection hvals
  refine ⟨_, ⟨[0], [], [⟨.Const, 1, none, none⟩, ⟨.Mul, 2, some 0, some 1⟩, ⟨.Add, 3, some 2, some 0⟩], [2, 2, 4, 6], true⟩,
    .tail Demo.r4 (.record (c := 1) (o := .Add) (v := 6) (x := some 2) (y := some 0) (by decide +kernel) hc
      (.binary (a := 4) (b := 2) (by rw [hvals]; rfl) (by rw [hvals]; rfl) (by decide +kernel)) rfl),
    by decide +kernel, by decide +kernel, rfl, rfl⟩

/-- The restriction of the histories is necessary: the public low-level method `AContext::record`
accepts arbitrary argument ids, so a tape recorded with it need not be well formed. -/
theorem C50_raw_record_not_single_assignment : ∃ (w' : World ℚ) (t : Tape ℚ),
    ((AContext.record ⟨1⟩ .Sin 0 (some 7) none) Demo.s1.world).2 = w' ∧
    (AContext.tape ⟨1⟩ w').1 = .ok t ∧ ¬ t.WF := by
  refine ⟨_, ⟨[], [], [⟨.Sin, 0, some 7, none⟩], [0], true⟩, rfl, by decide +kernel, ?_⟩
  intro h
  have := h.args_lt ⟨.Sin, 0, some 7, none⟩ (by simp [activeOps]) 7 (by simp [Operation.args])
  simp at this

/-! ## C54 -/

/-- C54: along any history, as long as a context stays alive its recording only grows: earlier
independents, dependents, operations and values keep their position and contents. -/
theorem C54_recording_append_only {s t : HState S} (hr : s.Reachable) (hs : HSteps s t) {c : Nat}
    {cell cell' : Cell S} (h : s.world.cells c = some cell) (h' : t.world.cells c = some cell') :
    cell.inner.indeps <+: cell'.inner.indeps ∧ cell.inner.deps <+: cell'.inner.deps ∧
    cell.inner.ops <+: cell'.inner.ops ∧ cell.inner.vals <+: cell'.inner.vals := by
  have := (hs.evolve hr.inv).2.2 c _ _ h h'
  exact ⟨this.indeps, this.deps, this.ops, this.vals⟩

example : (∃ cell, Demo.s3.world.cells 1 = some cell ∧ cell.inner.vals.length = 1) ∧
    (∃ cell', Demo.s4.world.cells 1 = some cell' ∧ cell'.inner.vals.length = 3) ∧
    Demo.s3.Reachable ∧ Demo.s4.Reachable :=
  ⟨⟨_, rfl, rfl⟩, ⟨_, rfl, rfl⟩, Demo.r3, Demo.r4⟩

/-- C54: every variable keeps denoting the recorded value it had when it was created. -/
theorem C54_variables_keep_values {s t : HState S} (hr : s.Reachable) (hs : HSteps s t) {a : AFloat S}
    {c vid : Nat} (ha : a ∈ s.vars) (hctx : a.ctx = some (c, vid)) {cell : Cell S}
    (h' : t.world.cells c = some cell) : cell.inner.vals[vid]? = some a.v := by
  have hmono : ∀ {s t : HState S}, HSteps s t → ∀ a ∈ s.vars, a ∈ t.vars := by
    intro s t hs
    induction hs with
    | refl => exact fun _ h => h
    | tail _ hs ih =>
      intro a ha
      have := ih a ha
      cases hs <;> simp_all
  have hi := hr.inv.steps hs
  obtain ⟨h1, h2⟩ := (hi.vars a (hmono hs a ha) c vid hctx).2 cell h'
  have := getR_fn h1
  rw [h2] at this
  unfold getR at this
  rcases hv : cell.inner.vals[vid]? with _ | x
  · rw [hv] at this; cases this
  · rw [hv] at this; injection this with this; rw [this]

example : ∃ a ∈ Demo.s4.vars, a.ctx = some (1, 2) ∧ (Demo.s7.world.cells 1).isSome ∧
    Demo.s4.Reachable ∧ HSteps Demo.s4 Demo.s5 :=
  ⟨⟨4, 0, some (1, 2)⟩, by simp [Demo.s4], rfl, rfl, Demo.r4, .tail (.refl _)
    (HStep.setDep (s := Demo.s4) (c := 1) (a := ⟨4, 0, some (1, 2)⟩) (r := .ok ()) (w' := Demo.s5.world)
      (by simp [Demo.s4]) (by simp [Demo.s4]) rfl)⟩

end Adv.Props
