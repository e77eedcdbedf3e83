import Verif.Spec.Tape

/-! # Reverse sweeps with disturbed adjoints -/

namespace Adv

variable {S : Type} [Flt S]

/-- The value ids of constants. -/
def Tape.constIds (t : Tape S) : List Nat := (t.ops.filter (fun op => op.opcode = .Const)).map Operation.vid

/-- Something that may overwrite the adjoints of the constants of a tape (and nothing else), at any
moment `k` of a reverse sweep. -/
structure ConstNoise (t : Tape S) (noise : Nat → List S → List S) : Prop where
  length : ∀ k l, (noise k l).length = l.length
  only : ∀ k l i, i ∉ t.constIds → (noise k l)[i]? = l[i]?

/-- The loop of `first_order_reverse` (tape.rs:98-100) with the adjoints disturbed before each operation. -/
def Tape.noisyLoop (noise : Nat → List S → List S) (v : List S) : Nat → List Operation → List S → Res (List S)
  | k, [], vbar => .ok (noise k vbar)
  | k, op :: ops, vbar => do
      let vbar ← op.firstOrderReverse v (noise k vbar)
      noisyLoop noise v (k + 1) ops vbar

/-- `first_order_reverse` with the adjoints disturbed before each operation and at the end. -/
def Tape.noisyReverse (t : Tape S) (noise : Nat → List S → List S) (ybar : List S) : Res (List S) := do
  let vbar ← Tape.scatter t.deps ybar (List.replicate t.vals.length Flt.zero)
  let vbar ← Tape.noisyLoop noise t.vals 0 t.ops.reverse vbar
  t.indeps.mapM (getR vbar)

end Adv
