import Verif.Model.Tape

/-!
# Model of `src/acontext.rs` (sequential view)

The interleaving of several threads is modelled in `Verif.Model.Concurrent`, which reuses the
per-recording operations of this file.
-/

namespace Adv

variable {S : Type} [Flt S]

/-- `usize::max_value()` on a 64 bit platform. -/
def usizeMax : Nat := 2 ^ 64 - 1

/-- acontext.rs:14-21 `struct AContextInner`, together with the poison flag of its `Mutex`. -/
structure Inner (S : Type) where
  cid : Nat
  indeps : List Nat
  deps : List Nat
  ops : List Operation
  vals : List S
  poisoned : Bool
deriving DecidableEq

namespace Inner

/-- acontext.rs:25-33 `AContextInner::construct`. -/
def construct (cid : Nat) : Inner S := ⟨cid, [], [], [], [], false⟩

/-- The locked section of acontext.rs:92-96 (`set_indep`), returning the new value id.
`NumCast::from(x.value()).unwrap()` is the identity for `f64`. -/
def setIndep (i : Inner S) (value : S) : Nat × Inner S :=
  let vid := i.vals.length
  (vid, { i with vals := i.vals ++ [value], indeps := i.indeps ++ [vid] })

/-- The locked section of acontext.rs:154-163 (`record`). -/
def record (i : Inner S) (opcode : OpCode) (val : S) (arg1 arg2 : Option Nat) : Nat × Inner S :=
  let vid := i.vals.length
  (vid, { i with vals := i.vals ++ [val], ops := i.ops ++ [⟨opcode, vid, arg1, arg2⟩] })

/-- The locked section of acontext.rs:101-120 (`set_dep`). -/
def setDep (i : Inner S) (value : S) (ctx : Option (Nat × Nat)) : Res (Inner S) :=
  match ctx with
  | some (cid, vid) =>
      if cid = i.cid then .ok { i with deps := i.deps ++ [vid] } else .error .assertFailed
  | none =>
      let vid := i.vals.length
      .ok { i with
        vals := i.vals ++ [value]
        ops := i.ops ++ [⟨.Const, vid, none, none⟩]
        deps := i.deps ++ [vid] }

/-- acontext.rs:191-198 `AContext::tape` on an unshared context (the four reads see the same state). -/
def tape (i : Inner S) : Tape S := ⟨i.indeps, i.deps, i.ops, i.vals, true⟩

end Inner

/-- A context that is alive: its reference count (`Arc::strong_count`) and contents. -/
structure Cell (S : Type) where
  strong : Nat
  inner : Inner S

/-- acontext.rs:7-12: the process-wide state. `cells c = some _` means that the `Arc` of context `c` is
alive and that `CONTEXT_MAP` has a (valid) entry for `c`; sequentially the two coincide because the
destructor (acontext.rs:54-59) removes the entry. -/
structure World (S : Type) where
  nextId : Nat
  cells : Nat → Option (Cell S)

/-- acontext.rs:62-64 `struct AContext`: a handle, identified by the id of the context it points to. -/
structure AContext where
  cid : Nat
deriving DecidableEq, Repr

namespace World
/-- Replace the entry of context `c`. -/
def setCell (w : World S) (c : Nat) (x : Option (Cell S)) : World S :=
  { w with cells := fun d => if d = c then x else w.cells d }
end World

namespace AContext

/-- acontext.rs:36-46, 68-72 `AContext::new`. `fetch_add` wraps around; the assertion rejects the last
id. Simplification: should an id ever be re-issued after 2^64 creations, the old context is replaced. -/
def new : M (World S) AContext := fun w =>
  let id := w.nextId
  let w := { w with nextId := (id + 1) % 2 ^ 64 }
  if id < usizeMax then (.ok ⟨id⟩, w.setCell id (some ⟨1, Inner.construct id⟩))
  else (.error .assertFailed, w)

/-- acontext.rs:75-82 `AContext::from_cid`: `Weak::upgrade` increments the strong count. -/
def fromCid (cid : Nat) : M (World S) (Option AContext) := fun w =>
  match w.cells cid with
  | some cell => (.ok (some ⟨cid⟩), w.setCell cid (some { cell with strong := cell.strong + 1 }))
  | none => (.ok none, w)

/-- Dropping a handle: decrement the strong count; at zero `Drop for AContextInner`
(acontext.rs:54-59) removes the registry entry. -/
def drop (h : AContext) : M (World S) Unit := fun w =>
  match w.cells h.cid with
  | some cell =>
      if cell.strong ≤ 1 then (.ok (), w.setCell h.cid none)
      else (.ok (), w.setCell h.cid (some { cell with strong := cell.strong - 1 }))
  | none => (.error .dangling, w)

/-- Run `body` and drop the handle at the end of the scope, also when unwinding from a panic. -/
def inScope {α : Type} (h : AContext) (body : M (World S) α) : M (World S) α := fun w =>
  match body w with
  | (r, w') => (r, (h.drop w').2)

/-- `self.inner.lock().unwrap()` followed by a critical section. A panic inside the critical section
poisons the mutex; later `lock().unwrap()` calls panic. -/
def withLock {α : Type} (h : AContext) (f : Inner S → Res α × Inner S) : M (World S) α := fun w =>
  match w.cells h.cid with
  | none => (.error .dangling, w)
  | some cell =>
      if cell.inner.poisoned then (.error .poisoned, w)
      else match f cell.inner with
        | (.ok a, i) => (.ok a, w.setCell h.cid (some { cell with inner := i }))
        | (.error e, i) =>
            (.error e, w.setCell h.cid (some { cell with inner := { i with poisoned := true } }))

/-- acontext.rs:85-88 `AContext::cid`. -/
def getCid (h : AContext) : M (World S) Nat := h.withLock fun i => (.ok i.cid, i)

/-- acontext.rs:147-164 `AContext::record`. -/
def record (h : AContext) (opcode : OpCode) (val : S) (arg1 arg2 : Option Nat) : M (World S) Nat :=
  h.withLock fun i => let (vid, i') := i.record opcode val arg1 arg2; (.ok vid, i')

/-- acontext.rs:167-170 `AContext::indeps`. -/
def indeps (h : AContext) : M (World S) (List Nat) := h.withLock fun i => (.ok i.indeps, i)
/-- acontext.rs:173-176 `AContext::deps`. -/
def deps (h : AContext) : M (World S) (List Nat) := h.withLock fun i => (.ok i.deps, i)
/-- acontext.rs:179-182 `AContext::operations`. -/
def operations (h : AContext) : M (World S) (List Operation) := h.withLock fun i => (.ok i.ops, i)
/-- acontext.rs:185-188 `AContext::values`. -/
def values (h : AContext) : M (World S) (List S) := h.withLock fun i => (.ok i.vals, i)

/-- acontext.rs:191-198 `AContext::tape`. -/
def tape (h : AContext) : M (World S) (Tape S) := do
  let indeps ← h.indeps
  let deps ← h.deps
  let ops ← h.operations
  let vals ← h.values
  return { indeps, deps, ops, vals, mutable := true }

end AContext
end Adv
