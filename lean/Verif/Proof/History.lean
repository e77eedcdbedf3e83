import Verif.Spec.History
import Verif.Proof.Sweeps

/-! # Invariant of API histories -/

set_option linter.unusedSectionVars false

namespace Adv
open scoped Adv

variable {S : Type} [Flt S]

/-- Operands of different contexts: panic before anything is recorded. -/
theorem fromOp_mixed {o : OpCode} {a b : AFloat S} {c1 v1 c2 v2 : Nat} (w : World S)
    (ha : a.ctx = some (c1, v1)) (hb : b.ctx = some (c2, v2)) (hne : c1 ≠ c2) (har : o.isBinary = true) :
    AFloat.fromOp o a (some b) w = (.error .assertFailed, w) := by
  have har' : arityOk o (some b) = true := har
  have hcid : AFloat.opCid a (some b) = .error .assertFailed := by
    simp [AFloat.opCid, ha, hb, Ne.symm hne]
  unfold AFloat.fromOp
  rw [zov_ok har', fov_ok har', hcid]
  rfl

theorem withLock_poisoned {α : Type} {w : World S} {c n : Nat} {i : Inner S}
    {f : Inner S → Res α × Inner S} (hc : w.cells c = some ⟨n, i⟩) (hp : i.poisoned = true) :
    AContext.withLock ⟨c⟩ f w = (.error .poisoned, w) := by
  simp only [AContext.withLock, hc, hp, if_true]

/-- The context of the operands is poisoned: panic. -/
theorem fromOp_poisoned {o : OpCode} {a : AFloat S} {b : Option (AFloat S)} {w : World S} {c n : Nat}
    {i : Inner S} (hok : arityOk o b = true) (ha : InCtx c a) (hb : ∀ b', b = some b' → InCtx c b')
    (hs : a.ctx.isSome ∨ ∃ b', b = some b' ∧ b'.ctx.isSome)
    (hc : w.cells c = some ⟨n, i⟩) (hn : 1 ≤ n) (hp : i.poisoned = true) :
    AFloat.fromOp o a b w = (.error .poisoned, w) := by
  unfold AFloat.fromOp
  rw [zov_ok hok, fov_ok hok, opCid_some ha hb hs]
  simp only [M.bind_apply, M.lift_apply, AContext.fromCid, hc, AContext.inScope]
  have hc1 : (w.setCell c (some ⟨n + 1, i⟩)).cells c = some ⟨n + 1, i⟩ := World.setCell_same _ _ _
  have hdrop : (AContext.drop ⟨c⟩ (w.setCell c (some ⟨n + 1, i⟩))).2 = w := by
    simp only [AContext.drop, hc1]
    rw [if_neg (by omega)]
    simp only [World.setCell_setCell, Nat.add_sub_cancel]
    exact World.setCell_self hc
  have hrec : ∀ (o : OpCode) (v : S) (x y : Option Nat),
      AContext.record ⟨c⟩ o v x y (w.setCell c (some ⟨n + 1, i⟩)) =
        (.error .poisoned, w.setCell c (some ⟨n + 1, i⟩)) := fun _ _ _ _ => withLock_poisoned hc1 hp
  have hens : ∀ a : AFloat S, (∃ k, AFloat.ensureVid ⟨c⟩ a (w.setCell c (some ⟨n + 1, i⟩)) =
        (.ok k, w.setCell c (some ⟨n + 1, i⟩))) ∨ AFloat.ensureVid ⟨c⟩ a (w.setCell c (some ⟨n + 1, i⟩)) =
        (.error .poisoned, w.setCell c (some ⟨n + 1, i⟩)) := by
    intro a
    unfold AFloat.ensureVid
    rcases a.ctx with _ | ⟨_, vid⟩
    · exact Or.inr (hrec _ _ _ _)
    · exact Or.inl ⟨vid, rfl⟩
  rcases hens a with ⟨k, hk⟩ | hk
  · rw [hk]
    simp only
    cases b with
    | none => simp only [AFloat.ensureVidOpt, M.pure_apply, hrec, hdrop]
    | some b =>
      simp only [AFloat.ensureVidOpt, M.bind_apply]
      rcases hens b with ⟨k', hk'⟩ | hk'
      · rw [hk']; simp only [M.pure_apply, hrec, hdrop]
      · rw [hk']; simp only [hdrop]
  · rw [hk]; simp only [hdrop]

/-- Which case of `from_op` applies. -/
inductive OpCase (a : AFloat S) (b : Option (AFloat S)) : Prop
  | free (ha : a.ctx = none) (hb : ∀ b', b = some b' → b'.ctx = none)
  | one (c : Nat) (ha : InCtx c a) (hb : ∀ b', b = some b' → InCtx c b')
      (hs : a.ctx.isSome ∨ ∃ b', b = some b' ∧ b'.ctx.isSome)
  | mixed (b' : AFloat S) (c1 v1 c2 v2 : Nat) (hb' : b = some b') (ha : a.ctx = some (c1, v1))
      (hb : b'.ctx = some (c2, v2)) (hne : c1 ≠ c2)

theorem opCase (a : AFloat S) (b : Option (AFloat S)) : OpCase a b := by
  rcases ha : a.ctx with _ | ⟨c1, v1⟩
  · cases b with
    | none => exact .free ha (by simp)
    | some b =>
      rcases hb : b.ctx with _ | ⟨c2, v2⟩
      · exact .free ha (by rintro b' ⟨⟩; exact hb)
      · refine .one c2 ?_ ?_ (Or.inr ⟨b, rfl, by simp [hb]⟩)
        · intro c v h; rw [ha] at h; cases h
        · rintro b' ⟨⟩ c v h; rw [hb] at h; cases h; rfl
  · cases b with
    | none =>
      refine .one c1 ?_ (by simp) (Or.inl (by simp [ha]))
      intro c v h; rw [ha] at h; cases h; rfl
    | some b =>
      rcases hb : b.ctx with _ | ⟨c2, v2⟩
      · refine .one c1 ?_ ?_ (Or.inl (by simp [ha]))
        · intro c v h; rw [ha] at h; cases h; rfl
        · rintro b' ⟨⟩ c v h; rw [hb] at h; cases h
      · by_cases hne : c1 = c2
        · subst hne
          refine .one c1 ?_ ?_ (Or.inl (by simp [ha]))
          · intro c v h; rw [ha] at h; cases h; rfl
          · rintro b' ⟨⟩ c v h; rw [hb] at h; cases h; rfl
        · exact .mixed b c1 v1 c2 v2 rfl ha hb hne

theorem arityOk_some {o : OpCode} {b : AFloat S} (h : arityOk o (some b) = true) : o.isBinary = true := h

/-- Append-only evolution; the poison flag may go up. -/
structure Inner.Grow (i j : Inner S) : Prop where
  cid : j.cid = i.cid
  poisoned : i.poisoned = true → j = i
  indeps : i.indeps <+: j.indeps
  deps : i.deps <+: j.deps
  vals : i.vals <+: j.vals
  ops : i.ops <+: j.ops

theorem Inner.Grow.refl (i : Inner S) : i.Grow i :=
  ⟨rfl, fun _ => rfl, List.prefix_rfl, List.prefix_rfl, List.prefix_rfl, List.prefix_rfl⟩

theorem Inner.Grow.trans {i j k : Inner S} (h : i.Grow j) (h' : j.Grow k) : i.Grow k :=
  ⟨h'.cid.trans h.cid, fun hp => by
    have e := h.poisoned hp
    subst e; exact h'.poisoned hp,
   h.indeps.trans h'.indeps, h.deps.trans h'.deps, h.vals.trans h'.vals, h.ops.trans h'.ops⟩

theorem Inner.Ext.grow {i j : Inner S} (h : i.Ext j) (hp : i.poisoned = false) : i.Grow j :=
  ⟨h.cid, by simp [hp], h.indeps, h.deps, h.vals, h.ops⟩

/-- Invariant of a client state. -/
structure HInv (s : HState S) : Prop where
  alive : ∀ c cell, s.world.cells c = some cell → cell.inner.cid = c ∧ cell.inner.Good ∧
    c < s.world.nextId ∧ cell.strong = s.handles.count c ∧ 1 ≤ cell.strong
  dead : ∀ c, s.world.cells c = none → c ∉ s.handles
  vars : ∀ a ∈ s.vars, ∀ c vid, a.ctx = some (c, vid) → c < s.world.nextId ∧
    ∀ cell, s.world.cells c = some cell → vid < cell.inner.vals.length ∧ fn cell.inner.vals vid = a.v
  next : s.world.nextId ≤ usizeMax

/-- Only cell `c` may change, and only by growing. -/
def CellStep (c : Nat) (w w' : World S) : Prop :=
  w' = w ∨ ∃ n i j, w.cells c = some ⟨n, i⟩ ∧ w' = w.setCell c (some ⟨n, j⟩) ∧ i.Grow j

theorem fromOp_effect {s : HState S} (h : HInv s) {a : AFloat S} {b : Option (AFloat S)} {o : OpCode}
    (ha : a ∈ s.vars) (hb : ∀ b', b = some b' → b' ∈ s.vars) (har : arityOk o b = true) :
    ((AFloat.fromOp o a b s.world).2 = s.world ∧
      ∀ r, (AFloat.fromOp o a b s.world).1 = .ok r → r.ctx = none) ∨
    (∃ c n i j vid, s.world.cells c = some ⟨n, i⟩ ∧ i.poisoned = false ∧ i.Ext j ∧ j.Good ∧
      AFloat.fromOp o a b s.world =
        (.ok ⟨opVal o a b, opDval o a b, some (c, vid)⟩, s.world.setCell c (some ⟨n, j⟩)) ∧
      vid < j.vals.length ∧ fn j.vals vid = opVal o a b) := by
  rcases opCase a b with ⟨h1, h2⟩ | ⟨c, h1, h2, h3⟩ | ⟨b', c1, v1, c2, v2, rfl, h1, h2, h3⟩
  · left
    rw [fromOp_free s.world har h1 h2]
    exact ⟨rfl, by rintro r ⟨⟩; rfl⟩
  · rcases hc : s.world.cells c with _ | ⟨n, i⟩
    · left
      rw [fromOp_dead har h1 h2 h3 hc]
      exact ⟨rfl, by rintro r ⟨⟩; rfl⟩
    · obtain ⟨g1, g2, g3, g4, g5⟩ := h.alive c _ hc
      by_cases hp : i.poisoned = true
      · left
        rw [fromOp_poisoned har h1 h2 h3 hc g5 hp]
        exact ⟨rfl, by rintro r ⟨⟩⟩
      · right
        have hp' : i.poisoned = false := by simpa using hp
        have hrep : ∀ a ∈ s.vars, InCtx c a → Rep c i a := by
          intro a ha hin c' vid hctx
          have := hin c' vid hctx; subst this
          obtain ⟨-, hv⟩ := h.vars a ha c' vid hctx
          exact ⟨rfl, hv _ hc⟩
        have hspec := recOp_spec (o := o) g2 (hrep a ha h1) (fun b' hb' => hrep b' (hb b' hb') (h2 b' hb')) har
        exact ⟨c, n, i, _, _, hc, hp', hspec.ext, hspec.good, fromOp_live har h1 h2 h3 hc g5 hp',
          hspec.lt, hspec.val⟩
  · left
    rw [fromOp_mixed s.world h1 h2 h3 (arityOk_some har)]
    exact ⟨rfl, by rintro r ⟨⟩⟩

theorem setIndep_effect {s : HState S} (h : HInv s) {a : AFloat S} {c : Nat} (hc : c ∈ s.handles) :
    ∃ n i, s.world.cells c = some ⟨n, i⟩ ∧
      ((i.poisoned = true ∧ AContext.setIndep ⟨c⟩ a s.world = (.error .poisoned, s.world)) ∨
       (i.poisoned = false ∧ AContext.setIndep ⟨c⟩ a s.world =
        (.ok { a with ctx := some (c, i.vals.length) }, s.world.setCell c (some ⟨n, (i.setIndep a.v).2⟩)))) := by
  rcases hcell : s.world.cells c with _ | ⟨n, i⟩
  · exact absurd hc (h.dead c hcell)
  · refine ⟨n, i, rfl, ?_⟩
    by_cases hp : i.poisoned = true
    · exact Or.inl ⟨hp, withLock_poisoned hcell hp⟩
    · have hp' : i.poisoned = false := by simpa using hp
      refine Or.inr ⟨hp', ?_⟩
      have := (h.alive c _ hcell).1
      simp only at this
      exact withLock_ok (f := fun i : Inner S => (.ok { a with ctx := some (i.cid, (i.setIndep a.v).1) }, (i.setIndep a.v).2))
        hcell hp' (by rw [this])

theorem setDep_effect {s : HState S} (h : HInv s) {a : AFloat S} {c : Nat} (hc : c ∈ s.handles)
    (ha : a ∈ s.vars) :
    ∃ n i, s.world.cells c = some ⟨n, i⟩ ∧
      ((i.poisoned = true ∧ AContext.setDep ⟨c⟩ a s.world = (.error .poisoned, s.world)) ∨
       (i.poisoned = false ∧ ∃ j, i.Ext j ∧ j.Good ∧ InCtx c a ∧ AContext.setDep ⟨c⟩ a s.world =
        (.ok (), s.world.setCell c (some ⟨n, j⟩))) ∨
       (i.poisoned = false ∧ ¬ InCtx c a ∧ AContext.setDep ⟨c⟩ a s.world =
        (.error .assertFailed, s.world.setCell c (some ⟨n, { i with poisoned := true }⟩)))) := by
  rcases hcell : s.world.cells c with _ | ⟨n, i⟩
  · exact absurd hc (h.dead c hcell)
  · refine ⟨n, i, rfl, ?_⟩
    obtain ⟨g1, g2, g3, g4, g5⟩ := h.alive c _ hcell
    simp only at g1 g2
    by_cases hp : i.poisoned = true
    · exact Or.inl ⟨hp, withLock_poisoned hcell hp⟩
    · have hp' : i.poisoned = false := by simpa using hp
      by_cases hin : InCtx c a
      · have hrep : Rep c i a := by
          intro c' vid hctx
          have := hin c' vid hctx; subst this
          obtain ⟨-, hv⟩ := h.vars a ha c' vid hctx
          exact ⟨rfl, hv _ hcell⟩
        obtain ⟨k1, k2, k3, k4, k5, k6⟩ := ensureI_spec g2 hrep
        refine Or.inr (Or.inl ⟨hp', _, k2.trans (Inner.ext_addDep _ (ensureI i a).1), k1.addDep k4, hin, ?_⟩)
        apply withLock_ok hcell hp'
        rw [setDep_rep g1 hrep]
      · refine Or.inr (Or.inr ⟨hp', hin, ?_⟩)
        have hctx : ∃ c' vid, a.ctx = some (c', vid) ∧ c' ≠ c := by
          by_contra hcon
          exact hin (fun c' vid hctx => by
            by_contra hne; exact hcon ⟨c', vid, hctx, hne⟩)
        obtain ⟨c', vid, hctx, hne⟩ := hctx
        have hsd : i.setDep a.v a.ctx = .error .assertFailed := by
          simp [Inner.setDep, hctx, g1, hne]
        simp only [AContext.setDep, AContext.withLock, hcell, hp', hsd]
        rfl

/-- Changing one live cell keeps the invariant. -/
theorem HInv.setCell {s : HState S} (h : HInv s) {c n : Nat} {i j : Inner S}
    (hc : s.world.cells c = some ⟨n, i⟩) (hcid : j.cid = i.cid) (hv : i.vals <+: j.vals) (hg : j.Good)
    {xs : List (AFloat S)} (hxs : ∀ a ∈ xs, ∀ c' vid, a.ctx = some (c', vid) →
      c' = c ∧ vid < j.vals.length ∧ fn j.vals vid = a.v) :
    HInv ⟨s.world.setCell c (some ⟨n, j⟩), s.handles, xs ++ s.vars⟩ := by
  obtain ⟨g1, g2, g3, g4, g5⟩ := h.alive c _ hc
  refine ⟨?_, ?_, ?_, h.next⟩
  · intro d cell hd
    by_cases hdc : d = c
    · subst hdc
      simp only [World.setCell_same, Option.some.injEq] at hd
      subst hd
      exact ⟨hcid.trans g1, hg, g3, g4, g5⟩
    · simp only [World.setCell_ne _ _ hdc] at hd
      exact h.alive d cell hd
  · intro d hd
    by_cases hdc : d = c
    · subst hdc; simp at hd
    · simp only [World.setCell_ne _ _ hdc] at hd
      exact h.dead d hd
  · intro a ha d vid hctx
    rcases List.mem_append.mp ha with ha | ha
    · obtain ⟨rfl, h2, h3⟩ := hxs a ha d vid hctx
      refine ⟨g3, ?_⟩
      intro cell hcell
      simp only [World.setCell_same, Option.some.injEq] at hcell
      subst hcell
      exact ⟨h2, h3⟩
    · obtain ⟨h1, h2⟩ := h.vars a ha d vid hctx
      refine ⟨h1, ?_⟩
      intro cell hcell
      by_cases hdc : d = c
      · subst hdc
        simp only [World.setCell_same, Option.some.injEq] at hcell
        subst hcell
        obtain ⟨h3, h4⟩ := h2 _ hc
        exact ⟨Nat.lt_of_lt_of_le h3 hv.length_le, by rw [fn_prefix hv h3]; exact h4⟩
      · simp only [World.setCell_ne _ _ hdc] at hcell
        exact h2 cell hcell

theorem HInv.addVars {s : HState S} (h : HInv s) {xs : List (AFloat S)} (hxs : ∀ a ∈ xs, a.ctx = none) :
    HInv ⟨s.world, s.handles, xs ++ s.vars⟩ := by
  refine ⟨h.alive, h.dead, ?_, h.next⟩
  intro a ha c vid hctx
  rcases List.mem_append.mp ha with ha | ha
  · rw [hxs a ha] at hctx; cases hctx
  · exact h.vars a ha c vid hctx

theorem HInv.init : HInv (HState.init : HState S) := by
  refine ⟨?_, ?_, ?_, ?_⟩ <;> simp [HState.init, usizeMax]

theorem new_ok {w w' : World S} {h : AContext} (hid : w.nextId < usizeMax)
    (e : AContext.new w = (.ok h, w')) :
    h.cid = w.nextId ∧ w' = ({ w with nextId := w.nextId + 1 } : World S).setCell w.nextId
      (some ⟨1, Inner.construct w.nextId⟩) := by
  simp only [AContext.new] at e
  rw [if_pos hid] at e
  have hmod : (w.nextId + 1) % 2 ^ 64 = w.nextId + 1 := Nat.mod_eq_of_lt (by unfold usizeMax at hid; omega)
  rw [hmod] at e
  injection e with e1 e2
  injection e1 with e1
  exact ⟨by rw [← e1], e2.symm⟩

/-- Calling `record` with sensible arguments keeps the invariant of recordings. -/
theorem Inner.Good.recordArgs {i : Inner S} (h : i.Good) {o : OpCode} {v : S} {x y : Option Nat}
    (ha : RecordArgs id i.vals o v x y) : (i.record o v x y).2.Good := by
  have hfn : ∀ {k : Nat} {a : S}, i.vals[k]? = some a → fn i.vals k = a := by
    intro k a hk
    simp [fn, hk]
  cases ha with
  | const v => exact h.recordConst v
  | @unary o v a x ha e =>
    have hx := (List.getElem?_eq_some_iff.mp ha).1
    refine h.record ?_ ?_ ?_ ?_
    · rintro rfl; cases e
    · cases o <;> first | (cases e; done) | simp [Operation.ArityOK, OpCode.isBinary, OpCode.isUnary]
    · simpa [Operation.args] using hx
    · intro _
      have h1 : (⟨o, i.vals.length, some x, none⟩ : Operation).a1 = x := rfl
      rw [h1, hfn ha]
      cases o <;> first | (cases e; done) | (injection e with e; exact e.symm)
  | @binary o v a b x y ha hb e =>
    have hx := (List.getElem?_eq_some_iff.mp ha).1
    have hy := (List.getElem?_eq_some_iff.mp hb).1
    refine h.record ?_ ?_ ?_ ?_
    · rintro rfl; cases e
    · cases o <;> first | (cases e; done) | simp [Operation.ArityOK, OpCode.isBinary, OpCode.isUnary]
    · simpa [Operation.args] using ⟨hx, hy⟩
    · intro _
      have h1 : (⟨o, i.vals.length, some x, some y⟩ : Operation).a1 = x := rfl
      have h2 : (⟨o, i.vals.length, some x, some y⟩ : Operation).a2 = y := rfl
      rw [h1, h2, hfn ha, hfn hb]
      cases o <;> first | (cases e; done) | (injection e with e; exact e.symm)

theorem record_effect {s : HState S} (h : HInv s) {c : Nat} (hc : c ∈ s.handles) (o : OpCode) (v : S)
    (x y : Option Nat) :
    ∃ n i, s.world.cells c = some ⟨n, i⟩ ∧
      ((i.poisoned = true ∧ AContext.record ⟨c⟩ o v x y s.world = (.error .poisoned, s.world)) ∨
       (i.poisoned = false ∧ AContext.record ⟨c⟩ o v x y s.world =
        (.ok i.vals.length, s.world.setCell c (some ⟨n, (i.record o v x y).2⟩)))) := by
  rcases hcell : s.world.cells c with _ | ⟨n, i⟩
  · exact absurd hc (h.dead c hcell)
  · refine ⟨n, i, rfl, ?_⟩
    by_cases hp : i.poisoned = true
    · exact Or.inl ⟨hp, withLock_poisoned hcell hp⟩
    · have hp' : i.poisoned = false := by simpa using hp
      exact Or.inr ⟨hp', withLock_ok (f := fun i : Inner S => (.ok (i.record o v x y).1, (i.record o v x y).2))
        hcell hp' rfl⟩

theorem HInv.step {s t : HState S} (h : HInv s) (hs : HStep s t) : HInv t := by
  cases hs with
  | @new hd w' hid e =>
    obtain ⟨h1, rfl⟩ := new_ok hid e
    have hnone : s.world.cells s.world.nextId = none := by
      rcases hc : s.world.cells s.world.nextId with _ | cell
      · rfl
      · have := (h.alive _ _ hc).2.2.1; omega
    have hnot := h.dead _ hnone
    refine ⟨?_, ?_, ?_, ?_⟩
    · intro d cell hd'
      by_cases hdc : d = s.world.nextId
      · subst hdc
        simp only [World.setCell_same, Option.some.injEq] at hd'
        subst hd'
        refine ⟨rfl, Inner.good_construct _, by simp, ?_, Nat.le_refl _⟩
        rw [h1]; simp [List.count_eq_zero.mpr hnot]
      · simp only [World.setCell_ne _ _ hdc] at hd'
        obtain ⟨k1, k2, k3, k4, k5⟩ := h.alive d cell hd'
        refine ⟨k1, k2, ?_, ?_, k5⟩
        · show d < s.world.nextId + 1; omega
        · rw [k4, h1]; simp [Ne.symm hdc]
    · intro d hd'
      by_cases hdc : d = s.world.nextId
      · subst hdc; simp at hd'
      · simp only [World.setCell_ne _ _ hdc] at hd'
        simp only [List.mem_cons, h1, not_or]
        exact ⟨hdc, h.dead d hd'⟩
    · intro a ha d vid hctx
      obtain ⟨k1, k2⟩ := h.vars a ha d vid hctx
      refine ⟨?_, ?_⟩
      · show d < s.world.nextId + 1; omega
      · intro cell hcell
        have hdc : d ≠ s.world.nextId := by omega
        simp only [World.setCell_ne _ _ hdc] at hcell
        exact k2 cell hcell
    · show s.world.nextId + 1 ≤ usizeMax; omega
  | @fromCid c o w' e =>
    simp only [AContext.fromCid] at e
    rcases hc : s.world.cells c with _ | cell
    · rw [hc] at e
      injection e with e1 e2
      injection e1 with e1
      subst e1; subst e2
      exact h
    · rw [hc] at e
      injection e with e1 e2
      injection e1 with e1
      subst e1; subst e2
      obtain ⟨g1, g2, g3, g4, g5⟩ := h.alive c _ hc
      refine ⟨?_, ?_, ?_, h.next⟩
      · intro d cell' hd
        by_cases hdc : d = c
        · subst hdc
          simp only [World.setCell_same, Option.some.injEq] at hd
          subst hd
          exact ⟨g1, g2, g3, by simp [g4], by simp⟩
        · simp only [World.setCell_ne _ _ hdc] at hd
          obtain ⟨k1, k2, k3, k4, k5⟩ := h.alive d cell' hd
          refine ⟨k1, k2, k3, ?_, k5⟩
          rw [k4]; simp [Ne.symm hdc]
      · intro d hd
        by_cases hdc : d = c
        · subst hdc; simp at hd
        · simp only [World.setCell_ne _ _ hdc] at hd
          simp [hdc, h.dead d hd]
      · intro a ha d vid hctx
        obtain ⟨k1, k2⟩ := h.vars a ha d vid hctx
        refine ⟨k1, ?_⟩
        intro cell' hcell
        by_cases hdc : d = c
        · subst hdc
          simp only [World.setCell_same, Option.some.injEq] at hcell
          subst hcell
          exact k2 cell hc
        · simp only [World.setCell_ne _ _ hdc] at hcell
          exact k2 cell' hcell
  | @drop c r w' hmem e =>
    rcases hc : s.world.cells c with _ | cell
    · exact absurd hmem (h.dead c hc)
    obtain ⟨g1, g2, g3, g4, g5⟩ := h.alive c _ hc
    simp only [AContext.drop, hc] at e
    by_cases h1 : cell.strong ≤ 1
    · rw [if_pos h1] at e
      injection e with e1 e2
      subst e2
      have hcount : s.handles.count c = 1 := by omega
      refine ⟨?_, ?_, ?_, h.next⟩
      · intro d cell' hd
        by_cases hdc : d = c
        · subst hdc; simp at hd
        · simp only [World.setCell_ne _ _ hdc] at hd
          obtain ⟨k1, k2, k3, k4, k5⟩ := h.alive d cell' hd
          exact ⟨k1, k2, k3, by rw [k4, List.count_erase_of_ne hdc], k5⟩
      · intro d hd
        by_cases hdc : d = c
        · subst hdc
          rw [← List.count_eq_zero, List.count_erase_self, hcount]
        · simp only [World.setCell_ne _ _ hdc] at hd
          intro hin; exact h.dead d hd (List.mem_of_mem_erase hin)
      · intro a ha d vid hctx
        obtain ⟨k1, k2⟩ := h.vars a ha d vid hctx
        refine ⟨k1, ?_⟩
        intro cell' hcell
        by_cases hdc : d = c
        · subst hdc; simp at hcell
        · simp only [World.setCell_ne _ _ hdc] at hcell
          exact k2 cell' hcell
    · rw [if_neg h1] at e
      injection e with e1 e2
      subst e2
      refine ⟨?_, ?_, ?_, h.next⟩
      · intro d cell' hd
        by_cases hdc : d = c
        · subst hdc
          simp only [World.setCell_same, Option.some.injEq] at hd
          subst hd
          exact ⟨g1, g2, g3, by simp [g4, List.count_erase_self], by simp only; omega⟩
        · simp only [World.setCell_ne _ _ hdc] at hd
          obtain ⟨k1, k2, k3, k4, k5⟩ := h.alive d cell' hd
          exact ⟨k1, k2, k3, by rw [k4, List.count_erase_of_ne hdc], k5⟩
      · intro d hd
        by_cases hdc : d = c
        · subst hdc; simp at hd
        · simp only [World.setCell_ne _ _ hdc] at hd
          intro hin; exact h.dead d hd (List.mem_of_mem_erase hin)
      · intro a ha d vid hctx
        obtain ⟨k1, k2⟩ := h.vars a ha d vid hctx
        refine ⟨k1, ?_⟩
        intro cell' hcell
        by_cases hdc : d = c
        · subst hdc
          simp only [World.setCell_same, Option.some.injEq] at hcell
          subst hcell
          exact k2 cell hc
        · simp only [World.setCell_ne _ _ hdc] at hcell
          exact k2 cell' hcell
  | scalar v dv => exact h.addVars (xs := [AFloat.new v dv]) (by simp [AFloat.new])
  | @seed a d ha =>
    refine ⟨h.alive, h.dead, ?_, h.next⟩
    intro b hb c vid hctx
    rcases List.mem_cons.mp hb with rfl | hb
    · exact h.vars a ha c vid hctx
    · exact h.vars b hb c vid hctx
  | @setIndep c a r w' hmem ha e =>
    obtain ⟨n, i, hc, ⟨hp, e'⟩ | ⟨hp, e'⟩⟩ := setIndep_effect h (a := a) hmem
    · rw [e] at e'; injection e' with e1 e2; subst e1; subst e2; exact h
    · rw [e] at e'; injection e' with e1 e2; subst e1; subst e2
      have hg := (h.alive c _ hc).2.1
      refine h.setCell hc (by rfl) (by simp [Inner.setIndep]) (hg.setIndep a.v) ?_
      intro b hb c' vid hctx
      simp only [Except.toOption, Option.toList_some, List.mem_singleton] at hb
      subst hb
      simp only [Option.some.injEq, Prod.mk.injEq] at hctx
      obtain ⟨rfl, rfl⟩ := hctx
      exact ⟨rfl, by simp [Inner.setIndep], by simp only [Inner.setIndep]; exact fn_append_len _ _⟩
  | @setDep c a r w' hmem ha e =>
    obtain ⟨n, i, hc, ⟨hp, e'⟩ | ⟨hp, j, k1, k2, k3, e'⟩ | ⟨hp, hin, e'⟩⟩ := setDep_effect h hmem ha
    · rw [e] at e'; injection e' with e1 e2; subst e2; exact h
    · rw [e] at e'; injection e' with e1 e2; subst e2
      exact h.setCell hc k1.cid k1.vals k2 (xs := []) (by simp)
    · rw [e] at e'; injection e' with e1 e2; subst e2
      have hg := (h.alive c _ hc).2.1
      refine h.setCell hc (j := { i with poisoned := true }) rfl List.prefix_rfl ?_ (xs := []) (by simp)
      exact ⟨hg.wf, hg.complete, hg.cons, hg.noNop⟩
  | @op a b o r w' ha hb har e =>
    rcases fromOp_effect h ha hb har with ⟨h1, h2⟩ | ⟨c, n, i, j, vid, h1, h2, h3, h4, h5, h6, h7⟩
    · rw [e] at h1 h2
      simp only at h1 h2
      subst h1
      refine h.addVars ?_
      intro x hx
      cases r with
      | error _ => simp [Except.toOption] at hx
      | ok r =>
        simp only [Except.toOption, Option.toList_some, List.mem_singleton] at hx
        subst hx; exact h2 _ rfl
    · rw [e] at h5
      injection h5 with e1 e2; subst e1; subst e2
      refine h.setCell h1 h3.cid h3.vals h4 ?_
      intro x hx c' vid' hctx
      simp only [Except.toOption, Option.toList_some, List.mem_singleton] at hx
      subst hx
      simp only [Option.some.injEq, Prod.mk.injEq] at hctx
      obtain ⟨rfl, rfl⟩ := hctx
      exact ⟨rfl, h6, h7⟩
  | @record c cell o v x y r w' hmem hcell ha e =>
    obtain ⟨n, i, hc, ⟨hp, e'⟩ | ⟨hp, e'⟩⟩ := record_effect h hmem o v x y
    · rw [e] at e'; injection e' with e1 e2; subst e2; exact h
    · rw [e] at e'; injection e' with e1 e2; subst e2
      rw [hc] at hcell; injection hcell with hcell; subst hcell
      have hext := Inner.ext_record i o v x y
      exact h.setCell hc hext.cid hext.vals ((h.alive c _ hc).2.1.recordArgs ha) (xs := []) (by simp)

theorem HInv.steps {s t : HState S} (h : HInv s) (hs : HSteps s t) : HInv t := by
  induction hs with
  | refl => exact h
  | tail _ hs ih => exact ih.step hs

theorem HState.Reachable.inv {s : HState S} (h : s.Reachable) : HInv s := HInv.init.steps h

/-- What one step may do to the cells: the id counter grows; an unused or dropped cell stays empty unless
created; a live cell grows or disappears. -/
theorem HStep.evolve {s t : HState S} (h : HInv s) (hs : HStep s t) :
    s.world.nextId ≤ t.world.nextId ∧
    (∀ c, c < s.world.nextId → s.world.cells c = none → t.world.cells c = none) ∧
    (∀ c cell cell', s.world.cells c = some cell → t.world.cells c = some cell' →
      cell.inner.Grow cell'.inner) := by
  have hgrow : ∀ (c n : Nat) (i j : Inner S), s.world.cells c = some ⟨n, i⟩ → i.Grow j → ∀ m,
      s.world.nextId ≤ (s.world.setCell c (some ⟨m, j⟩)).nextId ∧
      (∀ d, d < s.world.nextId → s.world.cells d = none → (s.world.setCell c (some ⟨m, j⟩)).cells d = none) ∧
      (∀ d cell cell', s.world.cells d = some cell → (s.world.setCell c (some ⟨m, j⟩)).cells d = some cell' →
        cell.inner.Grow cell'.inner) := by
    intro c n i j hc hg m
    refine ⟨Nat.le_refl _, ?_, ?_⟩
    · intro d _ hd
      have hdc : d ≠ c := by rintro rfl; rw [hc] at hd; cases hd
      rw [World.setCell_ne _ _ hdc, hd]
    · intro d cell cell' hd hd'
      by_cases hdc : d = c
      · subst hdc
        rw [hc] at hd
        simp only [World.setCell_same, Option.some.injEq] at hd hd'
        subst hd; subst hd'; exact hg
      · rw [World.setCell_ne _ _ hdc, hd] at hd'
        injection hd' with hd'; subst hd'
        exact Inner.Grow.refl _
  have hsame : s.world.nextId ≤ s.world.nextId ∧
      (∀ c, c < s.world.nextId → s.world.cells c = none → s.world.cells c = none) ∧
      (∀ c cell cell', s.world.cells c = some cell → s.world.cells c = some cell' →
        cell.inner.Grow cell'.inner) := by
    refine ⟨Nat.le_refl _, fun _ _ h => h, ?_⟩
    intro c cell cell' h1 h2
    rw [h1] at h2; injection h2 with h2; subst h2; exact Inner.Grow.refl _
  cases hs with
  | @new hd w' hid e =>
    obtain ⟨h1, rfl⟩ := new_ok hid e
    refine ⟨by show _ ≤ s.world.nextId + 1; omega, ?_, ?_⟩
    · intro c hc hn
      rw [World.setCell_ne _ _ (by omega)]; exact hn
    · intro c cell cell' h1 h2
      have := (h.alive c cell h1).2.2.1
      rw [World.setCell_ne _ _ (by omega)] at h2
      rw [show ({ s.world with nextId := s.world.nextId + 1 } : World S).cells c = s.world.cells c from rfl,
        h1] at h2
      injection h2 with h2; subst h2; exact Inner.Grow.refl _
  | @fromCid c o w' e =>
    simp only [AContext.fromCid] at e
    rcases hc : s.world.cells c with _ | cell
    · rw [hc] at e; injection e with e1 e2; subst e2; exact hsame
    · rw [hc] at e; injection e with e1 e2; subst e2
      exact hgrow c _ _ _ hc (Inner.Grow.refl _) _
  | @drop c r w' hmem e =>
    rcases hc : s.world.cells c with _ | cell
    · exact absurd hmem (h.dead c hc)
    simp only [AContext.drop, hc] at e
    by_cases h1 : cell.strong ≤ 1
    · rw [if_pos h1] at e; injection e with e1 e2; subst e2
      refine ⟨Nat.le_refl _, ?_, ?_⟩
      · intro d _ hd
        by_cases hdc : d = c
        · subst hdc; simp
        · rw [World.setCell_ne _ _ hdc, hd]
      · intro d cell cell' hd hd'
        by_cases hdc : d = c
        · subst hdc; simp at hd'
        · rw [World.setCell_ne _ _ hdc, hd] at hd'
          injection hd' with hd'; subst hd'; exact Inner.Grow.refl _
    · rw [if_neg h1] at e; injection e with e1 e2; subst e2
      exact hgrow c _ _ _ hc (Inner.Grow.refl _) _
  | scalar v dv => exact hsame
  | seed d ha => exact hsame
  | @setIndep c a r w' hmem ha e =>
    obtain ⟨n, i, hc, ⟨hp, e'⟩ | ⟨hp, e'⟩⟩ := setIndep_effect h (a := a) hmem
    · rw [e] at e'; injection e' with e1 e2; subst e1; subst e2; exact hsame
    · rw [e] at e'; injection e' with e1 e2; subst e1; subst e2
      refine hgrow c _ _ (i.setIndep a.v).2 hc ⟨rfl, by simp [hp], ?_, List.prefix_rfl, ?_, List.prefix_rfl⟩ _
      · exact List.prefix_append _ _
      · exact List.prefix_append _ _
  | @setDep c a r w' hmem ha e =>
    obtain ⟨n, i, hc, ⟨hp, e'⟩ | ⟨hp, j, k1, k2, k3, e'⟩ | ⟨hp, hin, e'⟩⟩ := setDep_effect h hmem ha
    · rw [e] at e'; injection e' with e1 e2; subst e2; exact hsame
    · rw [e] at e'; injection e' with e1 e2; subst e2
      exact hgrow c _ _ _ hc (k1.grow hp) _
    · rw [e] at e'; injection e' with e1 e2; subst e2
      exact hgrow c _ _ { i with poisoned := true } hc
        ⟨rfl, by simp [hp], List.prefix_rfl, List.prefix_rfl, List.prefix_rfl, List.prefix_rfl⟩ _
  | @op a b o r w' ha hb har e =>
    rcases fromOp_effect h ha hb har with ⟨h1, h2⟩ | ⟨c, n, i, j, vid, h1, h2, h3, h4, h5, h6, h7⟩
    · rw [e] at h1; simp only at h1; subst h1; exact hsame
    · rw [e] at h5; injection h5 with e1 e2; subst e2
      exact hgrow c _ _ _ h1 (h3.grow h2) _
  | @record c cell o v x y r w' hmem hcell ha e =>
    obtain ⟨n, i, hc, ⟨hp, e'⟩ | ⟨hp, e'⟩⟩ := record_effect h hmem o v x y
    · rw [e] at e'; injection e' with e1 e2; subst e2; exact hsame
    · rw [e] at e'; injection e' with e1 e2; subst e2
      exact hgrow c _ _ _ hc ((Inner.ext_record i o v x y).grow hp) _

theorem HSteps.evolve {s t : HState S} (h : HInv s) (hs : HSteps s t) :
    s.world.nextId ≤ t.world.nextId ∧
    (∀ c, c < s.world.nextId → s.world.cells c = none → t.world.cells c = none) ∧
    (∀ c cell cell', s.world.cells c = some cell → t.world.cells c = some cell' →
      cell.inner.Grow cell'.inner) := by
  induction hs with
  | refl =>
    refine ⟨Nat.le_refl _, fun _ _ h => h, ?_⟩
    intro c cell cell' h1 h2
    rw [h1] at h2; injection h2 with h2; subst h2; exact Inner.Grow.refl _
  | @tail t u hst hs ih =>
    obtain ⟨k1, k2, k3⟩ := hs.evolve (h.steps hst)
    obtain ⟨i1, i2, i3⟩ := ih
    refine ⟨Nat.le_trans i1 k1, ?_, ?_⟩
    · intro c hc hn; exact k2 c (Nat.lt_of_lt_of_le hc i1) (i2 c hc hn)
    · intro c cell cell' h1 h2
      rcases hm : t.world.cells c with _ | m
      · have hlt := (h.alive c _ h1).2.2.1
        have := k2 c (Nat.lt_of_lt_of_le hlt i1) hm
        rw [this] at h2; cases h2
      · exact (i3 c cell m h1 hm).trans (k3 c m cell' hm h2)

end Adv
