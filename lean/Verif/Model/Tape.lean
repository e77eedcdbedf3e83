import Verif.Model.Operation

/-! # Model of `src/tape.rs` -/

namespace Adv

variable {S : Type} [Flt S]

/-- tape.rs:5-16 `trait Tape`. A tape object is modelled by what its five required accessors return:
`indeps`, `deps`, `values`, `ops_iter` (the reversed iterator is the reversed list), and whether
`values_mut` is supported (`anf_matrix!` tapes panic there, abs_normal.rs:246-248).
`AContextTape` (acontext.rs:207-235) is such a record with `mutable = true`. -/
structure Tape (S : Type) where
  indeps : List Nat
  deps : List Nat
  ops : List Operation
  vals : List S
  mutable : Bool := true
deriving DecidableEq

namespace Tape

/-- tape.rs:19-21 -/
def numIndeps (t : Tape S) : Nat := t.indeps.length

/-- tape.rs:24-26 -/
def numDeps (t : Tape S) : Nat := t.deps.length

/-- tape.rs:29-33 -/
def numAbs (t : Tape S) : Nat := (t.ops.filter (fun op => op.opcode = .Abs)).length

/-- `iter().max().unwrap_or(0)` -/
def maxOr0 (l : List Nat) : Nat := l.foldl Nat.max 0

/-- tape.rs:36-41 -/
def maxId (t : Tape S) : Nat :=
  Nat.max (Nat.max (maxOr0 t.indeps) (maxOr0 t.deps)) (maxOr0 (t.ops.map Operation.vid))

/-- tape.rs:44-50: a vector of the values at the independents. The zero-initialised result is filled
completely, so it is modelled as a `mapM`. -/
def x (t : Tape S) : Res (List S) := t.indeps.mapM (getR t.vals)

/-- tape.rs:53-59 -/
def y (t : Tape S) : Res (List S) := t.deps.mapM (getR t.vals)

/-- `for (idx, vid) in ids.iter().enumerate() { buf[*vid] = xs[idx] }`
(tape.rs:65-67, 78-80, 95-97), starting at `idx`. -/
def scatterFrom (xs : List S) : Nat → List Nat → List S → Res (List S)
  | _, [], buf => .ok buf
  | idx, vid :: ids, buf => do
      let buf ← setR buf vid (← getR xs idx)
      scatterFrom xs (idx + 1) ids buf

/-- The scatter loop from index 0. -/
def scatter (ids : List Nat) (xs : List S) (buf : List S) : Res (List S) := scatterFrom xs 0 ids buf

/-- tape.rs:62-72 `zero_order`; returns the updated tape. -/
def zeroOrder (t : Tape S) (x : List S) : Res (Tape S) := do
  assertR (x.length = t.numIndeps)
  let values ← scatter t.indeps x t.vals
  let values ← t.ops.foldlM (fun values op => op.zeroOrder values) values
  if t.mutable then return { t with vals := values } else .error .noValuesMut

/-- tape.rs:75-89 `first_order_forward`. -/
def firstOrderForward (t : Tape S) (dx : List S) : Res (List S) := do
  let v := t.vals
  let dv ← scatter t.indeps dx (List.replicate v.length Flt.zero)
  let dv ← t.ops.foldlM (fun dv op => op.firstOrder v dv) dv
  t.deps.mapM (getR dv)

/-- tape.rs:92-106 `first_order_reverse`. -/
def firstOrderReverse (t : Tape S) (ybar : List S) : Res (List S) := do
  let v := t.vals
  let vbar ← scatter t.deps ybar (List.replicate v.length Flt.zero)
  let vbar ← t.ops.reverse.foldlM (fun vbar op => op.firstOrderReverse v vbar) vbar
  t.indeps.mapM (getR vbar)

end Tape
end Adv
