import Verif.Model.Matrix
import Verif.Model.Parallel
import Verif.Model.Function

/-! # Model of `src/drivers/jacobian.rs` -/

namespace Adv

variable {S : Type} [Flt S]

/-- jacobian.rs:15-16, 57-58: a zero vector with a one at position `j`. -/
def unitVec (n j : Nat) : Res (List S) := setR (List.replicate n Flt.zero) j Flt.one

/-- jacobian.rs:14-31: one column. -/
def jacColumn (f : Func S) (n : Nat) (x : List S) (j : Nat) : M (World S) (List (Nat × List S)) := do
  let dx ← M.lift (unitVec n j)
  let output ← f.eval ((x.zip dx).map fun p => AFloat.new p.1 p.2)
  return [(j, output.map AFloat.dv)]

/-- jacobian.rs:38-40: `for i in 0..m { jacobian[(i, j)] = dy[i] }`. -/
def fillColumn (m : Nat) (jac : DMat S) (c : Nat × List S) : Res (DMat S) :=
  (List.range m).foldlM (fun jac i => do jac.set i c.1 (← getR c.2 i)) jac

/-- jacobian.rs:6-44 `jacobian_forward`. -/
def jacobianForward (σ : Sched) (f : Func S) (x : List S) : M (World S) (DMat S) := do
  let n ← M.lift f.n
  let m ← M.lift f.m
  M.lift (assertR (x.length = n))
  let columns ← (σ [] n).run (jacColumn f n x)
  M.lift (columns.foldlM (fillColumn m) (DMat.zeros m n))

/-- jacobian.rs:56-62: one row. -/
def jacRow (t : Tape S) (m i : Nat) : Res (List (Nat × List S)) := do
  let ybar ← unitVec m i
  let xbar ← t.firstOrderReverse ybar
  return [(i, xbar)]

/-- jacobian.rs:70-72: `for j in 0..n { jacobian[(i, j)] = xbar[j] }`. -/
def fillRow (n : Nat) (jac : DMat S) (r : Nat × List S) : Res (DMat S) :=
  (List.range n).foldlM (fun jac j => do jac.set r.1 j (← getR r.2 j)) jac

/-- jacobian.rs:48-76 `jacobian_reverse`. -/
def jacobianReverse (σ : Sched) (t : Tape S) : Res (DMat S) := do
  let n := t.numIndeps
  let m := t.numDeps
  let rows ← (σ [] m).run (jacRow t m)
  rows.foldlM (fillRow n) (DMat.zeros m n)

end Adv
