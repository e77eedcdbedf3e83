import Verif.Model.Tape

/-!
# Specification vocabulary for tapes

What it means for a tape to be a well formed single-assignment program, stated on the public fields
of a tape only.
-/

namespace Adv

/-- The value ids an operation reads. -/
def Operation.args (op : Operation) : List Nat := op.arg1.toList ++ op.arg2.toList

/-- The operation carries exactly the operands its opcode needs. -/
def Operation.ArityOK (op : Operation) : Prop :=
  (op.opcode.isBinary = true → op.arg1.isSome ∧ op.arg2.isSome) ∧
  (op.opcode.isUnary = true → op.arg1.isSome ∧ op.arg2 = none) ∧
  (op.opcode = .Const → op.arg1 = none ∧ op.arg2 = none)

/-- Operations that are not `Nop`. -/
def activeOps (ops : List Operation) : List Operation := ops.filter (fun op => op.opcode ≠ .Nop)

/-- Single-assignment form: all ids in bounds, distinct independents, results defined in increasing
order after everything they use, never overwriting an independent. -/
structure Tape.WF {S : Type} (t : Tape S) : Prop where
  indeps_lt : ∀ i ∈ t.indeps, i < t.vals.length
  deps_lt : ∀ i ∈ t.deps, i < t.vals.length
  indeps_nodup : t.indeps.Nodup
  arity : ∀ op ∈ activeOps t.ops, op.ArityOK
  vid_lt : ∀ op ∈ activeOps t.ops, op.vid < t.vals.length
  args_lt : ∀ op ∈ activeOps t.ops, ∀ a ∈ op.args, a < op.vid
  vid_fresh : ∀ op ∈ activeOps t.ops, op.vid ∉ t.indeps
  sorted : ((activeOps t.ops).map Operation.vid).Pairwise (· < ·)

/-- Every value id is an independent or the result of an operation. -/
def Tape.Complete {S : Type} (t : Tape S) : Prop :=
  ∀ i < t.vals.length, i ∈ t.indeps ∨ ∃ op ∈ activeOps t.ops, op.vid = i

/-- The stored values are those of one evaluation: re-executing any operation changes nothing. -/
def Tape.Consistent {S : Type} [Flt S] (t : Tape S) : Prop :=
  ∀ op ∈ t.ops, op.zeroOrder t.vals = .ok t.vals

/-- Everything that holds of a tape produced by recording (and of its replays). -/
structure Tape.Proper {S : Type} [Flt S] (t : Tape S) : Prop where
  wf : t.WF
  complete : t.Complete
  consistent : t.Consistent
  noNop : ∀ op ∈ t.ops, op.opcode ≠ .Nop
  mutable : t.mutable = true

/-- No `abs` operation. -/
def Tape.AbsFree {S : Type} (t : Tape S) : Prop := ∀ op ∈ t.ops, op.opcode ≠ .Abs

end Adv
