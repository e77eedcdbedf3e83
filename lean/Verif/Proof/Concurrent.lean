import Verif.Model.Concurrent
import Verif.Proof.History

/-! # Invariant of concurrent executions -/

set_option linter.unusedSectionVars false

namespace Adv
open scoped Adv

variable {S : Type} [Flt S]

namespace CWorld

@[simp] theorem setArc_same (w : CWorld S) (c : Nat) (x : Option (Cell S)) : (w.setArc c x).arcs c = x := by
  simp [setArc]
theorem setArc_ne (w : CWorld S) {c d : Nat} (x : Option (Cell S)) (h : d ≠ c) :
    (w.setArc c x).arcs d = w.arcs d := by simp [setArc, h]
@[simp] theorem setArc_map (w : CWorld S) (c : Nat) (x : Option (Cell S)) : (w.setArc c x).map = w.map := rfl
@[simp] theorem setArc_next (w : CWorld S) (c : Nat) (x : Option (Cell S)) : (w.setArc c x).nextId = w.nextId := rfl
@[simp] theorem setMap_arcs (w : CWorld S) (c : Nat) (b : Bool) : (w.setMap c b).arcs = w.arcs := rfl
@[simp] theorem setMap_next (w : CWorld S) (c : Nat) (b : Bool) : (w.setMap c b).nextId = w.nextId := rfl
@[simp] theorem setMap_same (w : CWorld S) (c : Nat) (b : Bool) : (w.setMap c b).map c = b := by simp [setMap]
theorem setMap_ne (w : CWorld S) {c d : Nat} (b : Bool) (h : d ≠ c) : (w.setMap c b).map d = w.map d := by
  simp [setMap, h]

/-- Evolution: contexts are only added, recordings only grow, dead contexts stay dead. -/
structure Grow (w w' : CWorld S) : Prop where
  next : w.nextId ≤ w'.nextId
  cells : ∀ c cell', c < w.nextId → w'.arcs c = some cell' → ∃ cell, w.arcs c = some cell ∧ cell.inner.Grow cell'.inner

theorem Grow.refl (w : CWorld S) : w.Grow w := ⟨Nat.le_refl _, fun _ cell _ h => ⟨cell, h, Inner.Grow.refl _⟩⟩

theorem Grow.trans {w w' w'' : CWorld S} (h : w.Grow w') (h' : w'.Grow w'') : w.Grow w'' :=
  ⟨Nat.le_trans h.next h'.next, fun c cell hc e => by
    obtain ⟨cell', e', g'⟩ := h'.cells c cell (Nat.lt_of_lt_of_le hc h.next) e
    obtain ⟨cell'', e'', g''⟩ := h.cells c cell' hc e'
    exact ⟨cell'', e'', g''.trans g'⟩⟩

theorem Grow.setArc {w : CWorld S} {c : Nat} {n m : Nat} {i j : Inner S} (hc : w.arcs c = some ⟨n, i⟩) (h : i.Grow j) :
    w.Grow (w.setArc c (some ⟨m, j⟩)) := by
  refine ⟨Nat.le_refl _, fun d cell _ hd => ?_⟩
  by_cases hdc : d = c
  · subst hdc
    rw [setArc_same] at hd
    injection hd with hd
    subst hd
    exact ⟨_, hc, h⟩
  · rw [setArc_ne _ _ hdc] at hd
    exact ⟨cell, hd, Inner.Grow.refl _⟩

/-- Every allocation holds a well formed recording. -/
structure GoodW (w : CWorld S) : Prop where
  good : ∀ c cell, w.arcs c = some cell → cell.inner.cid = c ∧ cell.inner.Good
  lt : ∀ c cell, w.arcs c = some cell → c < w.nextId
  next : w.nextId ≤ usizeMax

theorem GoodW.setArc {w : CWorld S} (h : w.GoodW) {c : Nat} {n m : Nat} {i j : Inner S} (hc : w.arcs c = some ⟨n, i⟩)
    (hcid : j.cid = i.cid) (hg : j.Good) : (w.setArc c (some ⟨m, j⟩)).GoodW := by
  refine ⟨fun d cell hd => ?_, fun d cell hd => ?_, h.next⟩
  · by_cases hdc : d = c
    · subst hdc
      rw [setArc_same] at hd
      injection hd with hd
      subst hd
      exact ⟨hcid.trans (h.good d _ hc).1, hg⟩
    · rw [setArc_ne _ _ hdc] at hd
      exact h.good d cell hd
  · by_cases hdc : d = c
    · subst hdc; exact h.lt d _ hc
    · rw [setArc_ne _ _ hdc] at hd
      exact h.lt d cell hd

/-- `vid` is a value id of context `c` (if that is alive) with value `v`. -/
def VidOK (w : CWorld S) (c vid : Nat) (v : S) : Prop :=
  c < w.nextId ∧ ∀ cell, w.arcs c = some cell → vid < cell.inner.vals.length ∧ fn cell.inner.vals vid = v

theorem VidOK.mono {w w' : CWorld S} (hg : w.Grow w') {c vid : Nat} {v : S} (h : w.VidOK c vid v) : w'.VidOK c vid v := by
  refine ⟨Nat.lt_of_lt_of_le h.1 hg.next, fun cell' hc' => ?_⟩
  obtain ⟨cell, hc, g⟩ := hg.cells c cell' h.1 hc'
  obtain ⟨h1, h2⟩ := h.2 cell hc
  exact ⟨Nat.lt_of_lt_of_le h1 g.vals.length_le, by rw [fn_prefix g.vals h1]; exact h2⟩

/-- The variable refers to a recorded value. -/
def VarOK (w : CWorld S) (a : AFloat S) : Prop := ∀ c vid, a.ctx = some (c, vid) → w.VidOK c vid a.v

theorem VarOK.mono {w w' : CWorld S} (hg : w.Grow w') {a : AFloat S} (h : w.VarOK a) : w'.VarOK a :=
  fun c vid e => (h c vid e).mono hg

end CWorld

/-- Tapes obtained by snapshots. -/
structure SnapOK (t : Tape S) : Prop where
  wf : t.WF
  cons : t.Consistent
  noNop : ∀ op ∈ t.ops, op.opcode ≠ .Nop
  mutable : t.mutable = true

namespace Task

/-- References to context `c` owned by the call. -/
def owns (c : Nat) : Task S → Nat
  | .newInsert d | .drop d _ => if d = c then 1 else 0
  | .opArg1 call | .opArg2 call _ | .opRec call _ _ => if call.cid = c then 1 else 0
  | _ => 0

/-- The call is the destructor of context `c`. -/
def fin (c : Nat) : Task S → Nat
  | .finalize d _ => if d = c then 1 else 0
  | _ => 0

/-- The operands of an operation in progress. -/
structure CallOK (w : CWorld S) (call : OpCall S) : Prop where
  arity : arityOk call.opcode call.arg2 = true
  a : w.VarOK call.arg1
  b : ∀ b, call.arg2 = some b → w.VarOK b
  ac : InCtx call.cid call.arg1
  bc : ∀ b, call.arg2 = some b → InCtx call.cid b
  lt : call.cid < w.nextId
  val : call.v = opVal call.opcode call.arg1 call.arg2

theorem CallOK.mono {w w' : CWorld S} (hg : w.Grow w') {call : OpCall S} (h : CallOK w call) : CallOK w' call :=
  ⟨h.arity, h.a.mono hg, fun b e => (h.b b e).mono hg, h.ac, h.bc, Nat.lt_of_lt_of_le h.lt hg.next, h.val⟩

/-- The data of a call in progress agree with the state. -/
def OK (w : CWorld S) : Task S → Prop
  | .new | .newInsert _ | .fromCid _ => True
  | .drop _ r | .finalize _ r => ∀ a, r = some a → w.VarOK a
  | .setIndep _ a | .setDep _ a => w.VarOK a
  | .op o a b => arityOk o b = true ∧ w.VarOK a ∧ ∀ b', b = some b' → w.VarOK b'
  | .opArg1 call => CallOK w call
  | .opArg2 call vid1 => CallOK w call ∧ w.VidOK call.cid vid1 call.arg1.v
  | .opRec call vid1 vid2 => CallOK w call ∧ w.VidOK call.cid vid1 call.arg1.v ∧
      match call.arg2, vid2 with
      | none, none => True
      | some b, some vid2 => w.VidOK call.cid vid2 b.v
      | _, _ => False
  | .tape c => c < w.nextId
  | .tape1 c ind => c < w.nextId ∧ ∀ cell, w.arcs c = some cell → ind <+: cell.inner.indeps
  | .tape2 c ind dep => c < w.nextId ∧ ∀ cell, w.arcs c = some cell →
      ind <+: cell.inner.indeps ∧ dep <+: cell.inner.deps
  | .tape3 c ind dep ops => c < w.nextId ∧ ∀ cell, w.arcs c = some cell →
      ind <+: cell.inner.indeps ∧ dep <+: cell.inner.deps ∧ ops <+: cell.inner.ops

theorem OK.mono {w w' : CWorld S} (hg : w.Grow w') {t : Task S} (h : t.OK w) : t.OK w' := by
  cases t with
  | new => trivial
  | newInsert _ => trivial
  | fromCid _ => trivial
  | drop _ r => exact fun a e => (h a e).mono hg
  | finalize _ r => exact fun a e => (h a e).mono hg
  | setIndep _ a => exact CWorld.VarOK.mono hg h
  | setDep _ a => exact CWorld.VarOK.mono hg h
  | op o a b => exact ⟨h.1, h.2.1.mono hg, fun b' e => (h.2.2 b' e).mono hg⟩
  | opArg1 call => exact CallOK.mono hg h
  | opArg2 call vid1 => exact ⟨h.1.mono hg, h.2.mono hg⟩
  | opRec call vid1 vid2 =>
    obtain ⟨h1, h2, h3⟩ := h
    refine ⟨h1.mono hg, h2.mono hg, ?_⟩
    rcases hb : call.arg2 with _ | b <;> rcases vid2 with _ | v <;> rw [hb] at h3
    · trivial
    · exact h3
    · exact h3
    · exact CWorld.VidOK.mono hg h3
  | tape c => exact Nat.lt_of_lt_of_le h hg.next
  | tape1 c ind =>
    refine ⟨Nat.lt_of_lt_of_le h.1 hg.next, fun cell' hc' => ?_⟩
    obtain ⟨cell, hc, g⟩ := hg.cells c cell' h.1 hc'
    exact (h.2 cell hc).trans g.indeps
  | tape2 c ind dep =>
    refine ⟨Nat.lt_of_lt_of_le h.1 hg.next, fun cell' hc' => ?_⟩
    obtain ⟨cell, hc, g⟩ := hg.cells c cell' h.1 hc'
    obtain ⟨h1, h2⟩ := h.2 cell hc
    exact ⟨h1.trans g.indeps, h2.trans g.deps⟩
  | tape3 c ind dep ops =>
    refine ⟨Nat.lt_of_lt_of_le h.1 hg.next, fun cell' hc' => ?_⟩
    obtain ⟨cell, hc, g⟩ := hg.cells c cell' h.1 hc'
    obtain ⟨h1, h2, h3⟩ := h.2 cell hc
    exact ⟨h1.trans g.indeps, h2.trans g.deps, h3.trans g.ops⟩

end Task

/-- The reference count agrees with the owners; the destructor runs exactly when it is zero. -/
def RefOK (x : Option (Cell S)) (own fin : Nat) : Prop :=
  match x with
  | some cell => cell.strong = own ∧ fin = if cell.strong = 0 then 1 else 0
  | none => own = 0 ∧ fin = 0

/-- Sum over calls. -/
def tsum (f : Task S → Nat) (l : List (Task S)) : Nat := (l.map f).sum

theorem tsum_append (f : Task S → Nat) (l r : List (Task S)) : tsum f (l ++ r) = tsum f l + tsum f r := by
  simp [tsum]
theorem tsum_cons (f : Task S → Nat) (t : Task S) (r : List (Task S)) : tsum f (t :: r) = f t + tsum f r := by
  simp [tsum]
@[simp] theorem tsum_nil (f : Task S → Nat) : tsum f [] = 0 := rfl

/-- What a step guarantees; `o d` and `f d` count the references to `d` and destructors of `d` elsewhere. -/
structure StepOK (t : Task S) (w : CWorld S) (o : Nat → Nat) (e : Effect S) (w' : CWorld S) : Prop where
  grow : w.Grow w'
  good : w'.GoodW
  vars : ∀ a ∈ e.vars, w'.VarOK a
  tasks : ∀ t' ∈ e.tasks, t'.OK w'
  tapes : ∀ t' ∈ e.tapes, SnapOK t'
  ref : ∀ d f, RefOK (w.arcs d) (o d + t.owns d) (f + t.fin d) →
    RefOK (w'.arcs d) (o d + (e.handles.count d + tsum (Task.owns d) e.tasks)) (f + tsum (Task.fin d) e.tasks)
  fault : e.fault = false
  bor : ∀ t' ∈ e.tasks, ∀ d, Task.borrows d t' = true → Task.borrows d t = true
  hmap : ∀ d ∈ e.handles, w'.map d = true
  omap : ∀ d, 1 ≤ o d → w.map d = true → w'.map d = true
  live : (∀ d, w.map d = true → w.arcs d ≠ none) → ∀ d, w'.map d = true → w'.arcs d ≠ none

theorem CWorld.withLock_cases {α : Type} {w : CWorld S} {c n : Nat} {i : Inner S} (f : Inner S → Res α × Inner S)
    (hc : w.arcs c = some ⟨n, i⟩) :
    (i.poisoned = true ∧ w.withLock c f = (.error .poisoned, w)) ∨
    (i.poisoned = false ∧ ∃ a j, f i = (.ok a, j) ∧ w.withLock c f = (.ok a, w.setArc c (some ⟨n, j⟩))) ∨
    (i.poisoned = false ∧ ∃ e j, f i = (.error e, j) ∧
      w.withLock c f = (.error e, w.setArc c (some ⟨n, { j with poisoned := true }⟩))) := by
  rcases hp : i.poisoned
  · right
    rcases h : f i with ⟨e | a, j⟩
    · right
      refine ⟨rfl, e, j, rfl, ?_⟩
      simp [CWorld.withLock, hc, hp, h]
    · left
      refine ⟨rfl, a, j, rfl, ?_⟩
      simp [CWorld.withLock, hc, hp, h]
  · left
    refine ⟨rfl, ?_⟩
    simp [CWorld.withLock, hc, hp]

/-- A step that changes at most the contents of one context. -/
theorem StepOK.same {t : Task S} {w : CWorld S} {o : Nat → Nat} {e : Effect S} {w' : CWorld S}
    (hw : w' = w ∨ ∃ c n i j, w.arcs c = some ⟨n, i⟩ ∧ w' = w.setArc c (some ⟨n, j⟩) ∧ i.Grow j ∧ j.Good)
    (hgw : w.GoodW) (hv : ∀ a ∈ e.vars, w'.VarOK a) (ht : ∀ t' ∈ e.tasks, t'.OK w') (htp : ∀ t' ∈ e.tapes, SnapOK t')
    (ho : ∀ d, tsum (Task.owns d) e.tasks = t.owns d) (hf : ∀ d, tsum (Task.fin d) e.tasks = t.fin d)
    (hh : e.handles = []) (hfault : e.fault = false)
    (hb : ∀ t' ∈ e.tasks, ∀ d, Task.borrows d t' = true → Task.borrows d t = true) : StepOK t w o e w' := by
  rcases hw with rfl | ⟨c, n, i, j, hc, rfl, hg, hgood⟩
  · refine ⟨CWorld.Grow.refl _, hgw, hv, ht, htp, ?_, hfault, hb, by simp [hh], fun _ _ h => h, fun h => h⟩
    intro d f h
    simpa [hh, ho, hf] using h
  · refine ⟨CWorld.Grow.setArc hc hg, hgw.setArc hc hg.cid hgood, hv, ht, htp, ?_, hfault, hb, by simp [hh],
      fun _ _ h => h, fun h d hd => ?_⟩
    · intro d f h
      simp only [hh, ho, hf, List.count_nil, Nat.zero_add]
      by_cases hdc : d = c
      · subst hdc
        rw [hc] at h
        rw [CWorld.setArc_same]
        exact h
      · rw [CWorld.setArc_ne _ _ hdc]; exact h
    · by_cases hdc : d = c
      · subst hdc; simp
      · rw [CWorld.setArc_ne _ _ hdc]; exact h d hd

/-- Recording an operation whose operands are recorded. -/
theorem Inner.Good.recordCall {w : CWorld S} {call : OpCall S} {vid1 : Nat} {vid2 : Option Nat} {n : Nat} {i : Inner S}
    (hg : i.Good) (hc : w.arcs call.cid = some ⟨n, i⟩) (h : (Task.opRec call vid1 vid2).OK w) :
    (i.record call.opcode call.v (some vid1) vid2).2.Good := by
  obtain ⟨h1, h2, h3⟩ := h
  obtain ⟨l1, v1⟩ := h2.2 _ hc
  have hok := h1.arity
  simp only at l1 v1
  rcases hb : call.arg2 with _ | b <;> rcases vid2 with _ | vid2 <;> rw [hb] at h3 hok
  · simp only [arityOk] at hok
    refine hg.record ?_ ?_ ?_ ?_
    · intro h; rw [h] at hok; simp [OpCode.isUnary] at hok
    · refine ⟨fun h => ?_, fun _ => ⟨rfl, rfl⟩, fun h => ?_⟩
      · rw [OpCode.isUnary_not_binary hok] at h; cases h
      · simp only at h; rw [h] at hok; simp [OpCode.isUnary] at hok
    · simp only [Operation.args, Option.toList, List.append_nil, List.mem_singleton]
      rintro _ rfl; exact l1
    · intro _
      rw [h1.val, hb]
      show opVal _ _ _ = zfun call.opcode (fn i.vals vid1) (fn i.vals vid1)
      rw [v1]; rfl
  · exact h3.elim
  · exact h3.elim
  · simp only [arityOk] at hok
    obtain ⟨l2, v2⟩ := h3.2 _ hc
    simp only at l2 v2
    have hnu : call.opcode.isUnary = false := by
      cases hu : call.opcode.isUnary
      · rfl
      · rw [OpCode.isUnary_not_binary hu] at hok; cases hok
    refine hg.record ?_ ?_ ?_ ?_
    · intro h; rw [h] at hok; simp [OpCode.isBinary] at hok
    · refine ⟨fun _ => ⟨rfl, rfl⟩, fun h => ?_, fun h => ?_⟩
      · rw [hnu] at h; cases h
      · simp only at h; rw [h] at hok; simp [OpCode.isBinary] at hok
    · simp only [Operation.args, Option.toList, List.cons_append, List.nil_append, List.mem_cons,
        List.not_mem_nil, or_false]
      rintro _ (rfl | rfl)
      · exact l1
      · exact l2
    · intro _
      rw [h1.val, hb]
      show opVal _ _ _ = zfun call.opcode (fn i.vals vid1) (fn i.vals vid2)
      rw [v1, v2]; rfl

theorem Inner.Good.poison {i : Inner S} (h : i.Good) : ({ i with poisoned := true } : Inner S).Good :=
  ⟨h.wf, h.complete, h.cons, h.noNop⟩

theorem Inner.grow_poison (i : Inner S) (hp : i.poisoned = false) : i.Grow { i with poisoned := true } :=
  ⟨rfl, by simp [hp], List.prefix_rfl, List.prefix_rfl, List.prefix_rfl, List.prefix_rfl⟩

/-- A consistent snapshot. -/
theorem snapOK {i : Inner S} (hg : i.Good) {ind dep : List Nat} {ops : List Operation} (h1 : ind <+: i.indeps)
    (h2 : dep <+: i.deps) (h3 : ops <+: i.ops) : SnapOK (⟨ind, dep, ops, i.vals, true⟩ : Tape S) := by
  obtain ⟨⟨w1, w2, w3, w4, w5, w6, w7, w8⟩, -, hcons, hnn⟩ := hg
  simp only [Inner.tape] at w1 w2 w3 w4 w5 w6 w7 w8
  have hnn' : ∀ op ∈ ops, op.opcode ≠ .Nop := fun op h => hnn op (h3.subset h)
  rw [activeOps_eq hnn] at w4 w5 w6 w7 w8
  have hact := activeOps_eq hnn'
  have hwf : (⟨ind, dep, ops, i.vals, true⟩ : Tape S).WF := by
    refine ⟨fun k hk => w1 k (h1.subset hk), fun k hk => w2 k (h2.subset hk), w3.sublist h1.sublist, ?_, ?_, ?_, ?_, ?_⟩
    all_goals simp only; rw [hact]
    · exact fun op h => w4 op (h3.subset h)
    · exact fun op h => w5 op (h3.subset h)
    · exact fun op h => w6 op (h3.subset h)
    · exact fun op h hm => w7 op (h3.subset h) (h1.subset hm)
    · exact w8.sublist (h3.sublist.map _)
  refine ⟨hwf, fun op hop => ?_, hnn', rfl⟩
  exact (zeroOrder_fix_iff (hwf.inB op hop)).mpr (hcons op (h3.subset hop))

/-- A step inside of a critical section of context `c`, given the alternatives of the lock. -/
theorem StepOK.locked {α : Type} {t : Task S} {w : CWorld S} {o : Nat → Nat} {c n : Nat} {i : Inner S}
    {f : Inner S → Res α × Inner S} {K : Res α → Effect S} (hgw : w.GoodW) (hc : w.arcs c = some ⟨n, i⟩)
    (hstep : t.step w = (K (w.withLock c f).1, (w.withLock c f).2))
    (hf : i.poisoned = false → i.Grow (f i).2 ∧ (f i).2.Good)
    (hok : ∀ a j, i.poisoned = false → f i = (.ok a, j) →
      (∀ a' ∈ (K (.ok a)).vars, (w.setArc c (some ⟨n, j⟩)).VarOK a') ∧
      (∀ t' ∈ (K (.ok a)).tasks, t'.OK (w.setArc c (some ⟨n, j⟩))) ∧ (∀ t' ∈ (K (.ok a)).tapes, SnapOK t'))
    (hpan : ∀ e, (K (.error e)).vars = [] ∧ (∀ t' ∈ (K (.error e)).tasks, ∀ w, t'.OK w) ∧ (K (.error e)).tapes = [] ∧
      (K (.error e)).fault = (e == .dangling))
    (hnd : ∀ e j, f i = (.error e, j) → e ≠ .dangling)
    (ho : ∀ r d, tsum (Task.owns d) (K r).tasks = t.owns d) (hfi : ∀ r d, tsum (Task.fin d) (K r).tasks = t.fin d)
    (hh : ∀ r, (K r).handles = []) (hfault : ∀ a, (K (.ok a)).fault = false)
    (hb : ∀ r, ∀ t' ∈ (K r).tasks, ∀ d, Task.borrows d t' = true → Task.borrows d t = true) :
    StepOK t w o (t.step w).1 (t.step w).2 := by
  rw [hstep]
  rcases CWorld.withLock_cases f hc with ⟨-, h⟩ | ⟨hp, a, j, hfi', h⟩ | ⟨hp, e, j, hfi', h⟩
  · rw [h]
    obtain ⟨p1, p2, p3, p4⟩ := hpan .poisoned
    exact StepOK.same (Or.inl rfl) hgw (by simp [p1]) (fun t' ht' => p2 t' ht' w) (by simp [p3]) (ho _) (hfi _) (hh _)
      (by rw [p4]; rfl) (hb _)
  · rw [h]
    obtain ⟨g1, g2⟩ := hf hp
    rw [hfi'] at g1 g2
    obtain ⟨q1, q2, q3⟩ := hok a j hp hfi'
    exact StepOK.same (Or.inr ⟨c, n, i, j, hc, rfl, g1, g2⟩) hgw q1 q2 q3 (ho _) (hfi _) (hh _) (hfault a) (hb _)
  · rw [h]
    obtain ⟨g1, g2⟩ := hf hp
    rw [hfi'] at g1 g2
    obtain ⟨p1, p2, p3, p4⟩ := hpan e
    refine StepOK.same (Or.inr ⟨c, n, i, { j with poisoned := true }, hc, rfl, ?_, g2.poison⟩) hgw (by simp [p1])
      (fun t' ht' => p2 t' ht' _) (by simp [p3]) (ho _) (hfi _) (hh _) ?_ (hb _)
    · exact ⟨g1.cid, by simp [hp], g1.indeps, g1.deps, g1.vals, g1.ops⟩
    · rw [p4]
      have := hnd e j hfi'
      cases e <;> simp_all

theorem Task.OK.dropNone (c : Nat) (w : CWorld S) : (Task.drop c none).OK w := by intro a h; cases h

theorem CWorld.VarOK.free {w : CWorld S} {a : AFloat S} (h : a.ctx = none) : w.VarOK a := by
  intro c vid e; rw [h] at e; cases e

theorem CWorld.upgrade_some {w w' : CWorld S} {c : Nat} (h : w.upgrade c = some w') :
    ∃ n i, w.map c = true ∧ w.arcs c = some ⟨n, i⟩ ∧ n ≠ 0 ∧ w' = w.setArc c (some ⟨n + 1, i⟩) := by
  unfold CWorld.upgrade at h
  rcases hm : w.map c with _ | _ <;> rcases hc : w.arcs c with _ | ⟨n, i⟩ <;> rw [hm, hc] at h
  · cases h
  · cases h
  · cases h
  · simp only at h
    split at h
    · cases h
    · rename_i hn
      injection h with h
      exact ⟨n, i, rfl, rfl, hn, h.symm⟩

/-- `StepOK` for a step that adds a reference. -/
theorem StepOK.upgraded {t : Task S} {w w' : CWorld S} {o : Nat → Nat} {c : Nat} {e : Effect S} (hgw : w.GoodW)
    (hu : w.upgrade c = some w') (ho : ∀ d, t.owns d = 0) (hfi : ∀ d, t.fin d = 0)
    (hcnt : ∀ d, e.handles.count d + tsum (Task.owns d) e.tasks = if c = d then 1 else 0)
    (hfin : ∀ d, tsum (Task.fin d) e.tasks = 0) (hv : e.vars = []) (htp : e.tapes = [])
    (ht : ∀ w', w.Grow w' → ∀ t' ∈ e.tasks, t'.OK w') (hh : ∀ d ∈ e.handles, d = c) (hfault : e.fault = false)
    (hb : ∀ t' ∈ e.tasks, ∀ d, Task.borrows d t' = false) : StepOK t w o e w' := by
  obtain ⟨n, i, hm, hc, hn, rfl⟩ := CWorld.upgrade_some hu
  have hg : w.Grow (w.setArc c (some ⟨n + 1, i⟩)) := CWorld.Grow.setArc hc (Inner.Grow.refl _)
  refine ⟨hg, hgw.setArc hc rfl (hgw.good c _ hc).2, by simp [hv], ht _ hg, by simp [htp], ?_, hfault, ?_, ?_,
    fun _ _ h => h, fun h d hd => ?_⟩
  · intro d f h
    rw [ho, hfi] at h
    rw [hcnt, hfin]
    by_cases hdc : d = c
    · subst hdc
      rw [hc] at h
      obtain ⟨h1, h2⟩ := h
      simp only at h1 h2
      rw [if_neg hn] at h2
      rw [CWorld.setArc_same]
      refine ⟨?_, ?_⟩
      · simp; omega
      · simp; omega
    · rw [CWorld.setArc_ne _ _ hdc]
      simpa [Ne.symm hdc] using h
  · intro t' ht' d hd
    rw [hb t' ht' d] at hd; cases hd
  · intro d hd
    rw [hh d hd]; exact hm
  · by_cases hdc : d = c
    · subst hdc; simp
    · rw [CWorld.setArc_ne _ _ hdc]; exact h d hd

theorem RefOK.owned {x : Option (Cell S)} {o f : Nat} (h : RefOK x o f) (ho : 1 ≤ o) :
    ∃ n i, x = some ⟨n, i⟩ ∧ n = o ∧ f = 0 := by
  rcases x with _ | ⟨n, i⟩
  · have := h.1; omega
  · obtain ⟨h1, h2⟩ := h
    simp only at h1 h2
    rw [if_neg (by omega)] at h2
    exact ⟨n, i, rfl, h1, h2⟩

theorem Inner.Good.setDepOK {w : CWorld S} {c n : Nat} {i j : Inner S} {a : AFloat S} (hgw : w.GoodW)
    (hc : w.arcs c = some ⟨n, i⟩) (ha : w.VarOK a) (h : i.setDep a.v a.ctx = .ok j) : i.Ext j ∧ j.Good := by
  obtain ⟨g1, g2⟩ := hgw.good c _ hc
  simp only at g1 g2
  unfold Inner.setDep at h
  rcases hctx : a.ctx with _ | ⟨d, vid⟩ <;> rw [hctx] at h
  · simp only at h
    injection h with h
    subst h
    have e1 := Inner.ext_record i .Const a.v none none
    have g3 := g2.recordConst a.v
    refine ⟨e1.trans (Inner.ext_addDep _ i.vals.length), g3.addDep (by simp [Inner.record])⟩
  · simp only at h
    split at h
    · rename_i hd
      injection h with h
      subst h
      rw [g1] at hd
      subst hd
      exact ⟨Inner.ext_addDep _ vid, g2.addDep ((ha d vid hctx).2 _ hc).1⟩
    · cases h

theorem Task.step_ok {t : Task S} {w : CWorld S} {o f : Nat → Nat} (hgw : w.GoodW) (ht : t.OK w)
    (hid : t = .new → w.nextId < usizeMax)
    (href : ∀ d, RefOK (w.arcs d) (o d + t.owns d) (f d + t.fin d))
    (hb : ∀ d, Task.borrows d t = true → 1 ≤ o d) : StepOK t w o (t.step w).1 (t.step w).2 := by
  have hlive : ∀ d, 1 ≤ o d + t.owns d → ∃ n i, w.arcs d = some ⟨n, i⟩ := fun d hd => by
    obtain ⟨n, i, h, -, -⟩ := (href d).owned hd
    exact ⟨n, i, h⟩
  cases t with
  | new =>
    have hid := hid rfl
    have hmod : (w.nextId + 1) % 2 ^ 64 = w.nextId + 1 := Nat.mod_eq_of_lt (by unfold usizeMax at hid; omega)
    have hnone : w.arcs w.nextId = none := by
      rcases h : w.arcs w.nextId with _ | cell
      · rfl
      · have := hgw.lt _ _ h; omega
    simp only [Task.step, if_pos hid, hmod]
    refine ⟨⟨Nat.le_succ _, ?_⟩, ⟨?_, ?_, hid⟩, by simp, ?_, by simp, ?_, rfl, ?_, by simp, fun _ _ h => h, ?_⟩
    · intro c cell hc h
      rw [CWorld.setArc_ne _ _ (by omega)] at h
      exact ⟨cell, h, Inner.Grow.refl _⟩
    · intro c cell h
      by_cases hcn : c = w.nextId
      · subst hcn
        rw [CWorld.setArc_same] at h
        injection h with h
        subst h
        exact ⟨rfl, Inner.good_construct _⟩
      · rw [CWorld.setArc_ne _ _ hcn] at h
        exact hgw.good c cell h
    · intro c cell h
      show c < w.nextId + 1
      by_cases hcn : c = w.nextId
      · omega
      · rw [CWorld.setArc_ne _ _ hcn] at h
        have := hgw.lt c cell h; omega
    · intro t' h
      rw [List.mem_singleton.mp h]; trivial
    · intro d f h
      simp only [tsum_cons, tsum_nil, Task.owns, Task.fin, List.count_nil, Nat.zero_add, Nat.add_zero] at h ⊢
      by_cases hdn : d = w.nextId
      · subst hdn
        rw [hnone] at h
        rw [CWorld.setArc_same]
        obtain ⟨h1, h2⟩ := h
        exact ⟨by simp [h1], by simp [h2]⟩
      · rw [CWorld.setArc_ne _ _ hdn]
        rw [if_neg (Ne.symm hdn)]
        exact h
    · intro t' h d hd
      rw [List.mem_singleton.mp h] at hd; cases hd
    · intro h d hd
      by_cases hdn : d = w.nextId
      · subst hdn; simp
      · rw [CWorld.setArc_ne _ _ hdn]; exact h d hd
  | newInsert id =>
    obtain ⟨n, i, hc⟩ := hlive id (by simp [Task.owns])
    simp only [Task.step]
    refine ⟨⟨Nat.le_refl _, fun c cell _ h => ⟨cell, h, Inner.Grow.refl _⟩⟩, ⟨hgw.good, hgw.lt, hgw.next⟩, by simp, by simp,
      by simp, ?_, rfl, by simp, ?_, ?_, ?_⟩
    · intro d f h
      simp only [Task.owns, Task.fin, tsum_nil, CWorld.setMap_arcs, Nat.add_zero] at h ⊢
      rw [List.count_singleton]
      simpa using h
    · intro d hd
      rw [List.mem_singleton.mp hd]; simp
    · intro d _ h
      by_cases hd : d = id
      · subst hd; simp
      · rw [CWorld.setMap_ne _ _ hd]; exact h
    · intro h d hd
      by_cases hdi : d = id
      · subst hdi; simp [hc]
      · rw [CWorld.setMap_ne _ _ hdi] at hd; exact h d hd
  | fromCid c =>
    simp only [Task.step]
    rcases hu : w.upgrade c with _ | w'
    · exact StepOK.same (Or.inl rfl) hgw (by simp) (by simp) (by simp) (by simp [Task.owns]) (by simp [Task.fin]) rfl rfl
        (by simp)
    · refine StepOK.upgraded hgw hu (fun _ => rfl) (fun _ => rfl) ?_ (fun _ => rfl) rfl rfl (by simp) (by simp) rfl (by simp)
      intro d
      simp [List.count_singleton]
  | drop c r =>
    obtain ⟨n, i, hc, hn, -⟩ := (href c).owned (by simp [Task.owns])
    have hn0 : n ≠ 0 := by simp [Task.owns] at hn; omega
    simp only [Task.step, hc, if_neg hn0]
    by_cases h1 : n = 1
    · subst h1
      simp only [if_true]
      have hg : w.Grow (w.setArc c (some ⟨0, i⟩)) := CWorld.Grow.setArc hc (Inner.Grow.refl _)
      refine ⟨hg, hgw.setArc hc rfl (hgw.good c _ hc).2, by simp, ?_, by simp, ?_, rfl, ?_, by simp, fun _ _ h => h, ?_⟩
      · intro t' h
        rw [List.mem_singleton.mp h]
        exact fun a ha => (ht a ha).mono hg
      · intro d f h
        simp only [tsum_cons, tsum_nil, Task.owns, Task.fin, List.count_nil, Nat.zero_add, Nat.add_zero] at h ⊢
        by_cases hdc : d = c
        · subst hdc
          rw [hc] at h
          rw [CWorld.setArc_same]
          obtain ⟨h2, h3⟩ := h
          simp at h2 h3
          exact ⟨by simp [h2], by simp [h3]⟩
        · rw [CWorld.setArc_ne _ _ hdc]
          rw [if_neg (Ne.symm hdc)] at h ⊢
          exact h
      · intro t' h d hd
        rw [List.mem_singleton.mp h] at hd; cases hd
      · intro h d hd
        by_cases hdc : d = c
        · subst hdc; simp
        · rw [CWorld.setArc_ne _ _ hdc]; exact h d hd
    · simp only [if_neg h1]
      have hg : w.Grow (w.setArc c (some ⟨n - 1, i⟩)) := CWorld.Grow.setArc hc (Inner.Grow.refl _)
      refine ⟨hg, hgw.setArc hc rfl (hgw.good c _ hc).2, ?_, by simp, by simp, ?_, rfl, by simp, by simp, fun _ _ h => h, ?_⟩
      · intro a ha
        exact (ht a (by simpa using ha)).mono hg
      · intro d f h
        simp only [tsum_nil, Task.owns, Task.fin, List.count_nil, Nat.add_zero] at h ⊢
        by_cases hdc : d = c
        · subst hdc
          rw [hc] at h
          rw [CWorld.setArc_same]
          obtain ⟨h2, h3⟩ := h
          simp only [if_true] at h2
          simp only [if_neg hn0] at h3
          refine ⟨by simp; omega, ?_⟩
          rw [h3, if_neg (by simp; omega)]
        · rw [CWorld.setArc_ne _ _ hdc]
          rw [if_neg (Ne.symm hdc)] at h
          exact h
      · intro h d hd
        by_cases hdc : d = c
        · subst hdc; simp
        · rw [CWorld.setArc_ne _ _ hdc]; exact h d hd
  | finalize c r =>
    have hfin := href c
    simp only [Task.step]
    rcases hc : w.arcs c with _ | ⟨n, i⟩
    · rw [hc] at hfin
      have := hfin.2; simp [Task.fin] at this
    rw [hc] at hfin
    obtain ⟨h1, h2⟩ := hfin
    have hn : n = 0 := by
      by_contra hne
      simp [Task.fin, hne] at h2
    subst hn
    simp only [Task.owns, Task.fin, Nat.add_zero, if_true] at h1 h2
    have hg : w.Grow ((w.setMap c false).setArc c none) := by
      refine ⟨Nat.le_refl _, fun d cell _ hd => ?_⟩
      by_cases hdc : d = c
      · subst hdc; simp at hd
      · rw [CWorld.setArc_ne _ _ hdc] at hd
        exact ⟨cell, hd, Inner.Grow.refl _⟩
    refine ⟨hg, ⟨fun d cell hd => ?_, fun d cell hd => ?_, hgw.next⟩, ?_, by simp, by simp, ?_, rfl, by simp, by simp, ?_, ?_⟩
    · by_cases hdc : d = c
      · subst hdc; simp at hd
      · rw [CWorld.setArc_ne _ _ hdc] at hd
        exact hgw.good d cell hd
    · by_cases hdc : d = c
      · subst hdc; simp at hd
      · rw [CWorld.setArc_ne _ _ hdc] at hd
        exact hgw.lt d cell hd
    · intro a ha
      exact (ht a (by simpa using ha)).mono hg
    · intro d f h
      simp only [tsum_nil, Task.owns, Task.fin, List.count_nil, Nat.add_zero] at h ⊢
      by_cases hdc : d = c
      · subst hdc
        rw [hc] at h
        rw [CWorld.setArc_same]
        obtain ⟨h3, h4⟩ := h
        simp at h3 h4
        exact ⟨by omega, h4⟩
      · rw [CWorld.setArc_ne _ _ hdc]
        rw [if_neg (Ne.symm hdc)] at h
        exact h
    · intro d hd h
      have hdc : d ≠ c := by rintro rfl; omega
      rw [CWorld.setArc_map, CWorld.setMap_ne _ _ hdc]; exact h
    · intro h d hd
      by_cases hdc : d = c
      · subst hdc; simp at hd
      · rw [CWorld.setArc_map, CWorld.setMap_ne _ _ hdc] at hd
        rw [CWorld.setArc_ne _ _ hdc]; exact h d hd
  | setIndep c a =>
    obtain ⟨n, i, hc⟩ := hlive c (by have := hb c (by simp [Task.borrows]); omega)
    obtain ⟨g1, g2⟩ := hgw.good c _ hc
    refine StepOK.locked (c := c) (K := fun r => match r with
        | .ok ctx => { vars := [{ a with ctx := some ctx }] }
        | .error e => Task.panicked e []) hgw hc ?_ ?_ ?_ ?_ ?_ ?_ ?_ ?_ ?_ ?_
      (f := fun i => let (vid, i') := i.setIndep a.v; (.ok (i.cid, vid), i'))
    · simp only [Task.step]
      rcases w.withLock c _ with ⟨e | x, w'⟩ <;> rfl
    · intro hp
      refine ⟨⟨rfl, by simp [hp], ?_, List.prefix_rfl, ?_, List.prefix_rfl⟩, g2.setIndep a.v⟩ <;>
        exact List.prefix_append _ _
    · intro x j hp hx
      simp only at hx
      injection hx with hx hj
      injection hx with hx
      subst hx; subst hj
      refine ⟨?_, by simp, by simp⟩
      intro a' ha'
      rw [List.mem_singleton.mp ha']
      rintro d vid hctx
      simp only [Option.some.injEq, Prod.mk.injEq] at hctx
      obtain ⟨rfl, rfl⟩ := hctx
      simp only at g1
      rw [g1]
      refine ⟨hgw.lt c _ hc, fun cell hcell => ?_⟩
      rw [CWorld.setArc_same] at hcell
      injection hcell with hcell
      subst hcell
      refine ⟨by simp [Inner.setIndep], ?_⟩
      simp only [Inner.setIndep]; exact fn_append_len _ _
    · intro e; exact ⟨rfl, by simp [Task.panicked], rfl, rfl⟩
    · intro e j h; cases h
    · intro r d; rcases r with e | x <;> rfl
    · intro r d; rcases r with e | x <;> rfl
    · intro r; rcases r with e | x <;> rfl
    · intro x; rfl
    · intro r; rcases r with e | x <;> simp [Task.panicked]
  | setDep c a =>
    obtain ⟨n, i, hc⟩ := hlive c (by have := hb c (by simp [Task.borrows]); omega)
    obtain ⟨g1, g2⟩ := hgw.good c _ hc
    refine StepOK.locked (c := c) (K := fun r => match r with
        | .ok _ => {}
        | .error e => Task.panicked e []) hgw hc ?_ ?_ ?_ ?_ ?_ ?_ ?_ ?_ ?_ ?_
      (f := fun i => match i.setDep a.v a.ctx with
          | .ok i' => ((.ok () : Res Unit), i')
          | .error e => (.error e, i))
    · simp only [Task.step]
      rcases w.withLock c _ with ⟨e | x, w'⟩ <;> rfl
    · intro hp
      rcases h : i.setDep a.v a.ctx with e | j
      · exact ⟨Inner.Grow.refl _, g2⟩
      · obtain ⟨h1, h2⟩ := Inner.Good.setDepOK hgw hc ht h
        exact ⟨h1.grow hp, h2⟩
    · intro x j hp hx
      exact ⟨by simp, by simp, by simp⟩
    · intro e; exact ⟨rfl, by simp [Task.panicked], rfl, rfl⟩
    · intro e j h
      rcases h' : i.setDep a.v a.ctx with e' | j' <;> rw [h'] at h
      · injection h with h
        injection h with h
        subst h
        unfold Inner.setDep at h'
        split at h'
        · split at h'
          · cases h'
          · injection h' with h'; rw [← h']; simp
        · cases h'
      · cases h
    · intro r d; rcases r with e | x <;> rfl
    · intro r d; rcases r with e | x <;> rfl
    · intro r; rcases r with e | x <;> rfl
    · intro x; rfl
    · intro r; rcases r with e | x <;> simp [Task.panicked]
  | op oc a b =>
    obtain ⟨har, ha, hbv⟩ := ht
    simp only [Task.step, zov_ok har, fov_ok har]
    rcases hcid : AFloat.opCid a b with e | cid
    · exact StepOK.same (Or.inl rfl) hgw (by simp) (by simp) (by simp) (by simp [Task.owns]) (by simp [Task.fin]) rfl rfl
        (by simp)
    rcases cid with _ | cid
    · refine StepOK.same (Or.inl rfl) hgw ?_ (by simp) (by simp) (by simp [Task.owns]) (by simp [Task.fin]) rfl rfl
        (by simp)
      intro a' ha'
      rw [List.mem_singleton.mp ha']
      exact CWorld.VarOK.free rfl
    simp only
    rcases hu : w.upgrade cid with _ | w'
    · refine StepOK.same (Or.inl rfl) hgw ?_ (by simp) (by simp) (by simp [Task.owns]) (by simp [Task.fin]) rfl rfl
        (by simp)
      intro a' ha'
      rw [List.mem_singleton.mp ha']
      exact CWorld.VarOK.free rfl
    · refine StepOK.upgraded hgw hu (fun _ => rfl) (fun _ => rfl) ?_ (fun _ => rfl) rfl rfl ?_ (by simp) rfl ?_
      · intro d
        simp [tsum, Task.owns]
      · intro w1 hg t' ht'
        rw [List.mem_singleton.mp ht']
        obtain ⟨n, i, -, hc, -, -⟩ := CWorld.upgrade_some hu
        have hctx : InCtx cid a ∧ ∀ b', b = some b' → InCtx cid b' := by
          unfold AFloat.opCid at hcid
          rcases h1 : a.ctx with _ | ⟨c1, v1⟩ <;> rcases h2 : b.bind (fun a => a.ctx) with _ | ⟨c2, v2⟩ <;>
            rw [h1, h2] at hcid
          · cases hcid
          · simp only [Except.ok.injEq, Option.some.injEq] at hcid
            subst hcid
            refine ⟨fun c v h => (by rw [h1] at h; cases h), fun b' hb' c v h => ?_⟩
            subst hb'
            simp only [Option.bind_some] at h2
            rw [h2] at h; cases h; rfl
          · simp only [Except.ok.injEq, Option.some.injEq] at hcid
            subst hcid
            refine ⟨fun c v h => (by rw [h1] at h; cases h; rfl), fun b' hb' c v h => ?_⟩
            subst hb'
            simp only [Option.bind_some] at h2
            rw [h2] at h; cases h
          · simp only at hcid
            split at hcid
            · rename_i heq
              simp only [Except.ok.injEq, Option.some.injEq] at hcid
              subst hcid
              refine ⟨fun c v h => (by rw [h1] at h; cases h; rfl), fun b' hb' c v h => ?_⟩
              subst hb'
              simp only [Option.bind_some] at h2
              rw [h2] at h; cases h; exact heq
            · cases hcid
        exact ⟨har, ha.mono hg, fun b' hb' => (hbv b' hb').mono hg, hctx.1, hctx.2,
          Nat.lt_of_lt_of_le (hgw.lt cid _ hc) hg.next, by simp [opVal]⟩
      · intro t' ht' d
        rw [List.mem_singleton.mp ht']; rfl
  | opArg1 call =>
    obtain ⟨n, i, hc⟩ := hlive call.cid (by simp [Task.owns])
    obtain ⟨g1, g2⟩ := hgw.good call.cid _ hc
    rcases hctx : call.arg1.ctx with _ | ⟨d, vid⟩
    · refine StepOK.locked (c := call.cid) (K := fun r => match r with
        | .ok vid => { tasks := [.opArg2 call vid] }
        | .error e => Task.panicked e [.drop call.cid none]) hgw hc ?_ ?_ ?_ ?_ ?_ ?_ ?_ ?_ ?_ ?_
        (f := fun i => let (vid, i') := i.record .Const call.arg1.v none none; (.ok vid, i'))
      · simp only [Task.step, hctx]
        rcases w.withLock call.cid _ with ⟨e | x, w'⟩ <;> rfl
      · intro hp
        exact ⟨(Inner.ext_record i _ _ _ _).grow hp, g2.recordConst _⟩
      · intro x j hp hx
        simp only at hx
        injection hx with hx hj
        injection hx with hx
        subst hx; subst hj
        refine ⟨by simp, ?_, by simp⟩
        intro t' ht'
        rw [List.mem_singleton.mp ht']
        have hg := CWorld.Grow.setArc (m := n) hc ((Inner.ext_record i .Const call.arg1.v none none).grow hp)
        refine ⟨Task.CallOK.mono hg ht, ht.lt, fun cell hcell => ?_⟩
        rw [CWorld.setArc_same] at hcell
        injection hcell with hcell
        subst hcell
        refine ⟨by simp [Inner.record], ?_⟩
        simp only [Inner.record]; exact fn_append_len _ _
      · intro e; exact ⟨rfl, by simp only [Task.panicked, List.mem_singleton]; rintro _ rfl w; exact Task.OK.dropNone _ _, rfl, rfl⟩
      · intro e j h; cases h
      · intro r d; rcases r with e | x <;> rfl
      · intro r d; rcases r with e | x <;> rfl
      · intro r; rcases r with e | x <;> rfl
      · intro x; rfl
      · intro r; rcases r with e | x <;> simp [Task.panicked, Task.borrows]
    · simp only [Task.step, hctx]
      refine StepOK.same (Or.inl rfl) hgw (by simp) ?_ (by simp) (fun _ => rfl) (fun _ => rfl) rfl rfl
        (by simp [Task.borrows])
      intro t' ht'
      rw [List.mem_singleton.mp ht']
      have := ht.ac d vid hctx
      subst this
      exact ⟨ht, ht.a _ _ hctx⟩
  | opArg2 call vid1 =>
    obtain ⟨ht, hv1⟩ := ht
    obtain ⟨n, i, hc⟩ := hlive call.cid (by simp [Task.owns])
    obtain ⟨g1, g2⟩ := hgw.good call.cid _ hc
    rcases hb2 : call.arg2 with _ | b
    · simp only [Task.step, hb2]
      refine StepOK.same (Or.inl rfl) hgw (by simp) ?_ (by simp) (fun _ => rfl) (fun _ => rfl) rfl rfl
        (by simp [Task.borrows])
      intro t' ht'
      rw [List.mem_singleton.mp ht']
      exact ⟨ht, hv1, by rw [hb2]; trivial⟩
    rcases hctx : b.ctx with _ | ⟨d, vid⟩
    · refine StepOK.locked (c := call.cid) (K := fun r => match r with
        | .ok vid => { tasks := [.opRec call vid1 (some vid)] }
        | .error e => Task.panicked e [.drop call.cid none]) hgw hc ?_ ?_ ?_ ?_ ?_ ?_ ?_ ?_ ?_ ?_
        (f := fun i => let (vid, i') := i.record .Const b.v none none; (.ok vid, i'))
      · simp only [Task.step, hb2, hctx]
        rcases w.withLock call.cid _ with ⟨e | x, w'⟩ <;> rfl
      · intro hp
        exact ⟨(Inner.ext_record i _ _ _ _).grow hp, g2.recordConst _⟩
      · intro x j hp hx
        simp only at hx
        injection hx with hx hj
        injection hx with hx
        subst hx; subst hj
        refine ⟨by simp, ?_, by simp⟩
        intro t' ht'
        rw [List.mem_singleton.mp ht']
        have hg := CWorld.Grow.setArc (m := n) hc ((Inner.ext_record i .Const b.v none none).grow hp)
        refine ⟨Task.CallOK.mono hg ht, hv1.mono hg, ?_⟩
        rw [hb2]
        refine ⟨ht.lt, fun cell hcell => ?_⟩
        rw [CWorld.setArc_same] at hcell
        injection hcell with hcell
        subst hcell
        refine ⟨by simp [Inner.record], ?_⟩
        simp only [Inner.record]; exact fn_append_len _ _
      · intro e; exact ⟨rfl, by simp only [Task.panicked, List.mem_singleton]; rintro _ rfl w; exact Task.OK.dropNone _ _, rfl, rfl⟩
      · intro e j h; cases h
      · intro r d; rcases r with e | x <;> rfl
      · intro r d; rcases r with e | x <;> rfl
      · intro r; rcases r with e | x <;> rfl
      · intro x; rfl
      · intro r; rcases r with e | x <;> simp [Task.panicked, Task.borrows]
    · simp only [Task.step, hb2, hctx]
      refine StepOK.same (Or.inl rfl) hgw (by simp) ?_ (by simp) (fun _ => rfl) (fun _ => rfl) rfl rfl
        (by simp [Task.borrows])
      intro t' ht'
      rw [List.mem_singleton.mp ht']
      have := ht.bc b hb2 d vid hctx
      subst this
      exact ⟨ht, hv1, by rw [hb2]; exact ht.b b hb2 _ _ hctx⟩
  | opRec call vid1 vid2 =>
    obtain ⟨n, i, hc⟩ := hlive call.cid (by simp [Task.owns])
    obtain ⟨g1, g2⟩ := hgw.good call.cid _ hc
    refine StepOK.locked (c := call.cid) (K := fun r => match r with
        | .ok vid => { tasks := [.drop call.cid (some ⟨call.v, call.dv, some (call.cid, vid)⟩)] }
        | .error e => Task.panicked e [.drop call.cid none]) hgw hc ?_ ?_ ?_ ?_ ?_ ?_ ?_ ?_ ?_ ?_
      (f := fun i => let (vid, i') := i.record call.opcode call.v (some vid1) vid2; (.ok vid, i'))
    · simp only [Task.step]
      rcases w.withLock call.cid _ with ⟨e | x, w'⟩ <;> rfl
    · intro hp
      exact ⟨(Inner.ext_record i _ _ _ _).grow hp, Inner.Good.recordCall g2 hc ht⟩
    · intro x j hp hx
      simp only at hx
      injection hx with hx hj
      injection hx with hx
      subst hx; subst hj
      refine ⟨by simp, ?_, by simp⟩
      intro t' ht'
      rw [List.mem_singleton.mp ht']
      intro a ha d vid hctx
      injection ha with ha
      subst ha
      simp only [Option.some.injEq, Prod.mk.injEq] at hctx
      obtain ⟨rfl, rfl⟩ := hctx
      refine ⟨ht.1.lt, fun cell hcell => ?_⟩
      rw [CWorld.setArc_same] at hcell
      injection hcell with hcell
      subst hcell
      refine ⟨by simp [Inner.record], ?_⟩
      simp only [Inner.record]; exact fn_append_len _ _
    · intro e; exact ⟨rfl, by simp only [Task.panicked, List.mem_singleton]; rintro _ rfl w; exact Task.OK.dropNone _ _, rfl, rfl⟩
    · intro e j h; cases h
    · intro r d; rcases r with e | x <;> rfl
    · intro r d; rcases r with e | x <;> rfl
    · intro r; rcases r with e | x <;> rfl
    · intro x; rfl
    · intro r; rcases r with e | x <;> simp [Task.panicked, Task.borrows]
  | tape c =>
    obtain ⟨n, i, hc⟩ := hlive c (by have := hb c (by simp [Task.borrows]); omega)
    refine StepOK.locked (c := c) (K := fun r => match r with
        | .ok x => { tasks := [.tape1 c x] }
        | .error e => Task.panicked e []) hgw hc ?_ ?_ ?_ ?_ ?_ ?_ ?_ ?_ ?_ ?_
      (f := fun i => (.ok i.indeps, i))
    · simp only [Task.step]
      rcases w.withLock c _ with ⟨e | x, w'⟩ <;> rfl
    · exact fun _ => ⟨Inner.Grow.refl _, (hgw.good c _ hc).2⟩
    · intro x j hp hx
      injection hx with hx hj
      injection hx with hx
      subst hx; subst hj
      refine ⟨by simp, ?_, by simp⟩
      intro t' ht'
      rw [List.mem_singleton.mp ht']
      refine ⟨ht, fun cell hcell => ?_⟩
      rw [CWorld.setArc_same] at hcell
      injection hcell with hcell
      subst hcell
      exact List.prefix_rfl
    · intro e; exact ⟨rfl, by simp [Task.panicked], rfl, rfl⟩
    · intro e j h; cases h
    · intro r d; rcases r with e | x <;> rfl
    · intro r d; rcases r with e | x <;> rfl
    · intro r; rcases r with e | x <;> rfl
    · intro x; rfl
    · intro r; rcases r with e | x <;> simp [Task.panicked, Task.borrows]
  | tape1 c ind =>
    obtain ⟨n, i, hc⟩ := hlive c (by have := hb c (by simp [Task.borrows]); omega)
    refine StepOK.locked (c := c) (K := fun r => match r with
        | .ok x => { tasks := [.tape2 c ind x] }
        | .error e => Task.panicked e []) hgw hc ?_ ?_ ?_ ?_ ?_ ?_ ?_ ?_ ?_ ?_
      (f := fun i => (.ok i.deps, i))
    · simp only [Task.step]
      rcases w.withLock c _ with ⟨e | x, w'⟩ <;> rfl
    · exact fun _ => ⟨Inner.Grow.refl _, (hgw.good c _ hc).2⟩
    · intro x j hp hx
      injection hx with hx hj
      injection hx with hx
      subst hx; subst hj
      refine ⟨by simp, ?_, by simp⟩
      intro t' ht'
      rw [List.mem_singleton.mp ht']
      refine ⟨ht.1, fun cell hcell => ?_⟩
      rw [CWorld.setArc_same] at hcell
      injection hcell with hcell
      subst hcell
      exact ⟨ht.2 _ hc, List.prefix_rfl⟩
    · intro e; exact ⟨rfl, by simp [Task.panicked], rfl, rfl⟩
    · intro e j h; cases h
    · intro r d; rcases r with e | x <;> rfl
    · intro r d; rcases r with e | x <;> rfl
    · intro r; rcases r with e | x <;> rfl
    · intro x; rfl
    · intro r; rcases r with e | x <;> simp [Task.panicked, Task.borrows]
  | tape2 c ind dep =>
    obtain ⟨n, i, hc⟩ := hlive c (by have := hb c (by simp [Task.borrows]); omega)
    refine StepOK.locked (c := c) (K := fun r => match r with
        | .ok x => { tasks := [.tape3 c ind dep x] }
        | .error e => Task.panicked e []) hgw hc ?_ ?_ ?_ ?_ ?_ ?_ ?_ ?_ ?_ ?_
      (f := fun i => (.ok i.ops, i))
    · simp only [Task.step]
      rcases w.withLock c _ with ⟨e | x, w'⟩ <;> rfl
    · exact fun _ => ⟨Inner.Grow.refl _, (hgw.good c _ hc).2⟩
    · intro x j hp hx
      injection hx with hx hj
      injection hx with hx
      subst hx; subst hj
      refine ⟨by simp, ?_, by simp⟩
      intro t' ht'
      rw [List.mem_singleton.mp ht']
      refine ⟨ht.1, fun cell hcell => ?_⟩
      rw [CWorld.setArc_same] at hcell
      injection hcell with hcell
      subst hcell
      obtain ⟨k1, k2⟩ := ht.2 _ hc
      exact ⟨k1, k2, List.prefix_rfl⟩
    · intro e; exact ⟨rfl, by simp [Task.panicked], rfl, rfl⟩
    · intro e j h; cases h
    · intro r d; rcases r with e | x <;> rfl
    · intro r d; rcases r with e | x <;> rfl
    · intro r; rcases r with e | x <;> rfl
    · intro x; rfl
    · intro r; rcases r with e | x <;> simp [Task.panicked, Task.borrows]
  | tape3 c ind dep ops =>
    obtain ⟨n, i, hc⟩ := hlive c (by have := hb c (by simp [Task.borrows]); omega)
    refine StepOK.locked (c := c) (K := fun r => match r with
        | .ok x => { tapes := [⟨ind, dep, ops, x, true⟩] }
        | .error e => Task.panicked e []) hgw hc ?_ ?_ ?_ ?_ ?_ ?_ ?_ ?_ ?_ ?_
      (f := fun i => (.ok i.vals, i))
    · simp only [Task.step]
      rcases w.withLock c _ with ⟨e | x, w'⟩ <;> rfl
    · exact fun _ => ⟨Inner.Grow.refl _, (hgw.good c _ hc).2⟩
    · intro x j hp hx
      injection hx with hx hj
      injection hx with hx
      subst hx; subst hj
      refine ⟨by simp, by simp, ?_⟩
      intro t' ht'
      rw [List.mem_singleton.mp ht']
      obtain ⟨k1, k2, k3⟩ := ht.2 _ hc
      exact snapOK (hgw.good c _ hc).2 k1 k2 k3
    · intro e; exact ⟨rfl, by simp [Task.panicked], rfl, rfl⟩
    · intro e j h; cases h
    · intro r d; rcases r with e | x <;> rfl
    · intro r d; rcases r with e | x <;> rfl
    · intro r; rcases r with e | x <;> rfl
    · intro x; rfl
    · intro r; rcases r with e | x <;> simp [Task.panicked]

/-- Invariant of multi-threaded executions. -/
structure CInv (s : CState S) : Prop where
  ref : ∀ c, RefOK (s.world.arcs c) (s.handles.count c + tsum (Task.owns c) s.tasks) (tsum (Task.fin c) s.tasks)
  bor : ∀ t ∈ s.tasks, ∀ c, Task.borrows c t = true → c ∈ s.handles
  good : s.world.GoodW
  vars : ∀ a ∈ s.vars, s.world.VarOK a
  tasks : ∀ t ∈ s.tasks, t.OK s.world
  tapes : ∀ t ∈ s.tapes, SnapOK t
  fault : s.fault = false
  hmap : ∀ c ∈ s.handles, s.world.map c = true
  live : ∀ c, s.world.map c = true → s.world.arcs c ≠ none

theorem CInv.init : CInv (CState.init : CState S) := by
  refine ⟨fun c => ⟨rfl, rfl⟩, by simp [CState.init], ⟨?_, ?_, by simp [CState.init, usizeMax]⟩, by simp [CState.init],
    by simp [CState.init], by simp [CState.init], rfl, by simp [CState.init], by simp [CState.init]⟩ <;>
    · intro c cell h; cases h

/-- A new call that owns nothing and borrows from a live handle. -/
theorem CInv.call {s : CState S} (h : CInv s) {t : Task S} (ho : ∀ d, t.owns d = 0) (hf : ∀ d, t.fin d = 0)
    (hb : ∀ d, Task.borrows d t = true → d ∈ s.handles) (ht : t.OK s.world) : CInv { s with tasks := t :: s.tasks } := by
  refine ⟨fun c => ?_, ?_, h.good, h.vars, ?_, h.tapes, h.fault, h.hmap, h.live⟩
  · simpa [tsum_cons, ho, hf] using h.ref c
  · intro t' ht'
    rcases List.mem_cons.mp ht' with rfl | ht'
    · exact hb
    · exact h.bor t' ht'
  · intro t' ht'
    rcases List.mem_cons.mp ht' with rfl | ht'
    · exact ht
    · exact h.tasks t' ht'

theorem CInv.addVar {s : CState S} (h : CInv s) {a : AFloat S} (ha : s.world.VarOK a) :
    CInv { s with vars := a :: s.vars } := by
  refine ⟨h.ref, h.bor, h.good, ?_, h.tasks, h.tapes, h.fault, h.hmap, h.live⟩
  intro a' ha'
  rcases List.mem_cons.mp ha' with rfl | ha'
  · exact ha
  · exact h.vars a' ha'

theorem CInv.run {s : CState S} (h : CInv s) {l r : List (Task S)} {t : Task S} (ht : s.tasks = l ++ t :: r)
    (hid : t = .new → s.world.nextId < usizeMax) :
    s.world.Grow (t.step s.world).2 ∧ CInv (s.after l r (t.step s.world).1 (t.step s.world).2) := by
  have hmem : t ∈ s.tasks := by simp [ht]
  have hsub : ∀ t' ∈ l ++ r, t' ∈ s.tasks := by
    intro t' h'
    rw [ht]
    rcases List.mem_append.mp h' with h' | h' <;> simp [h']
  have hown : ∀ d, s.handles.count d + tsum (Task.owns d) s.tasks =
      (s.handles.count d + tsum (Task.owns d) (l ++ r)) + t.owns d := by
    intro d; rw [ht, tsum_append, tsum_cons, tsum_append]; omega
  have hfin : ∀ d, tsum (Task.fin d) s.tasks = tsum (Task.fin d) (l ++ r) + t.fin d := by
    intro d; rw [ht, tsum_append, tsum_cons, tsum_append]; omega
  have href : ∀ d, RefOK (s.world.arcs d) ((s.handles.count d + tsum (Task.owns d) (l ++ r)) + t.owns d)
      (tsum (Task.fin d) (l ++ r) + t.fin d) := by
    intro d; rw [← hown, ← hfin]; exact h.ref d
  have hst := Task.step_ok (o := fun d => s.handles.count d + tsum (Task.owns d) (l ++ r))
    (f := fun d => tsum (Task.fin d) (l ++ r)) h.good (h.tasks t hmem) hid href (by
      intro d hd
      have := List.count_pos_iff.mpr (h.bor t hmem d hd)
      show 1 ≤ _; omega)
  refine ⟨hst.grow, ?_, ?_, hst.good, ?_, ?_, ?_, ?_, ?_, hst.live h.live⟩
  · intro d
    have := hst.ref d _ (href d)
    simp only [CState.after, List.count_append, tsum_append] at this ⊢
    convert this using 1 <;> omega
  · intro t' ht' d hd
    simp only [CState.after, List.mem_append] at ht' ⊢
    rcases ht' with (ht' | ht') | ht'
    · exact Or.inr (h.bor t' (hsub t' (by simp [ht'])) d hd)
    · exact Or.inr (h.bor t hmem d (hst.bor t' ht' d hd))
    · exact Or.inr (h.bor t' (hsub t' (by simp [ht'])) d hd)
  · intro a ha
    simp only [CState.after, List.mem_append] at ha
    rcases ha with ha | ha
    · exact hst.vars a ha
    · exact (h.vars a ha).mono hst.grow
  · intro t' ht'
    simp only [CState.after, List.mem_append] at ht'
    rcases ht' with (ht' | ht') | ht'
    · exact (h.tasks t' (hsub t' (by simp [ht']))).mono hst.grow
    · exact hst.tasks t' ht'
    · exact (h.tasks t' (hsub t' (by simp [ht']))).mono hst.grow
  · intro t' ht'
    simp only [CState.after, List.mem_append] at ht'
    rcases ht' with ht' | ht'
    · exact hst.tapes t' ht'
    · exact h.tapes t' ht'
  · simp [CState.after, h.fault, hst.fault]
  · intro d hd
    simp only [CState.after, List.mem_append] at hd
    rcases hd with hd | hd
    · exact hst.hmap d hd
    · refine hst.omap d ?_ (h.hmap d hd)
      have := List.count_pos_iff.mpr hd
      show 1 ≤ _; omega

theorem CInv.step {s s' : CState S} (h : CInv s) (hs : CStep s s') : s.world.Grow s'.world ∧ CInv s' := by
  cases hs with
  | callNew => exact ⟨CWorld.Grow.refl _, h.call (fun _ => rfl) (fun _ => rfl) (by simp [Task.borrows]) trivial⟩
  | callFromCid c =>
    exact ⟨CWorld.Grow.refl _, h.call (fun _ => rfl) (fun _ => rfl) (by simp [Task.borrows]) trivial⟩
  | @callDrop c hc hb =>
    refine ⟨CWorld.Grow.refl _, fun d => ?_, ?_, h.good, h.vars, ?_, h.tapes, h.fault, ?_, h.live⟩
    · have := h.ref d
      have hpos := List.count_pos_iff.mpr hc
      simp only [tsum_cons, Task.owns, Task.fin, Nat.zero_add]
      convert this using 1
      by_cases hdc : c = d
      · subst hdc
        rw [List.count_erase_self]; simp; omega
      · rw [List.count_erase_of_ne (Ne.symm hdc)]; simp [hdc]
    · intro t' ht' d hd
      rcases List.mem_cons.mp ht' with rfl | ht2
      · cases hd
      · have hm := h.bor t' ht2 d hd
        by_cases hdc : d = c
        · subst hdc
          have := hb ⟨t', ht2, hd⟩
          refine List.count_pos_iff.mp ?_
          rw [List.count_erase_self]; omega
        · exact (List.mem_erase_of_ne hdc).mpr hm
    · intro t' ht'
      rcases List.mem_cons.mp ht' with rfl | ht'
      · exact Task.OK.dropNone _ _
      · exact h.tasks t' ht'
    · exact fun d hd => h.hmap d (List.mem_of_mem_erase hd)
  | callSetIndep hc ha =>
    refine ⟨CWorld.Grow.refl _, h.call (fun _ => rfl) (fun _ => rfl) ?_ (h.vars _ ha)⟩
    intro d hd
    simp only [Task.borrows, beq_iff_eq] at hd
    exact hd ▸ hc
  | callSetDep hc ha =>
    refine ⟨CWorld.Grow.refl _, h.call (fun _ => rfl) (fun _ => rfl) ?_ (h.vars _ ha)⟩
    intro d hd
    simp only [Task.borrows, beq_iff_eq] at hd
    exact hd ▸ hc
  | @callTape c hc =>
    refine ⟨CWorld.Grow.refl _, h.call (fun _ => rfl) (fun _ => rfl) ?_ ?_⟩
    · intro d hd
      simp only [Task.borrows, beq_iff_eq] at hd
      exact hd ▸ hc
    · rcases hx : s.world.arcs c with _ | cell
      · exact absurd hx (h.live c (h.hmap c hc))
      · exact h.good.lt c cell hx
  | callOp ha hb har =>
    exact ⟨CWorld.Grow.refl _, h.call (fun _ => rfl) (fun _ => rfl) (by simp [Task.borrows])
      ⟨har, h.vars _ ha, fun b' hb' => h.vars b' (hb b' hb')⟩⟩
  | scalar v dv => exact ⟨CWorld.Grow.refl _, h.addVar (CWorld.VarOK.free rfl)⟩
  | seed d ha => exact ⟨CWorld.Grow.refl _, h.addVar (show s.world.VarOK _ from fun c vid e => h.vars _ ha c vid e)⟩
  | @run l r t e w' ht hid he =>
    have := h.run ht hid
    rw [he] at this
    exact this

theorem CInv.steps {s s' : CState S} (h : CInv s) (hs : CSteps s s') : s.world.Grow s'.world ∧ CInv s' := by
  induction hs with
  | refl => exact ⟨CWorld.Grow.refl _, h⟩
  | tail _ hs ih =>
    obtain ⟨h1, h2⟩ := ih.2.step hs
    exact ⟨ih.1.trans h1, h2⟩

theorem CState.Reachable.inv {s : CState S} (h : s.Reachable) : CInv s := (CInv.init.steps h).2

end Adv
