import Verif.Model.Jacobian

/-! # Model of `src/drivers/abs_normal.rs` -/

namespace Adv

variable {S : Type} [Flt S]

/-- abs_normal.rs:7-14 `struct AbsNormalTape`. -/
structure AbsNormalTape (S : Type) where
  inner : Tape S
  indeps : List Nat
  deps : List Nat
  n : Nat
  m : Nat
  s : Nat
deriving DecidableEq

/-- abs_normal.rs:27-28, 37-38: the abs operations of a tape, in order. -/
def Tape.absOps (t : Tape S) : List Operation := t.ops.filter (fun op => op.opcode = .Abs)

namespace AbsNormalTape

/-- abs_normal.rs:17-50 `AbsNormalTape::new`. -/
def new (inner : Tape S) : Res (AbsNormalTape S) := do
  let zArgs ← inner.absOps.mapM (fun op => unwrap op.arg1)
  return { inner
           indeps := inner.indeps ++ inner.absOps.map Operation.vid
           deps := zArgs ++ inner.deps
           n := inner.numIndeps
           m := inner.numDeps
           s := inner.numAbs }

/-- abs_normal.rs:64-73 `x`. -/
def x (t : AbsNormalTape S) : Res (List S) := t.inner.indeps.mapM (getR t.inner.vals)
/-- abs_normal.rs:75-84 `y`. -/
def y (t : AbsNormalTape S) : Res (List S) := t.inner.deps.mapM (getR t.inner.vals)
/-- abs_normal.rs:86-95 `z`. -/
def z (t : AbsNormalTape S) : Res (List S) :=
  t.inner.absOps.mapM (fun op => do getR t.inner.vals (← unwrap op.arg1))

/-- abs_normal.rs:108-114: abs operations become no-ops. -/
def hideAbs (op : Operation) : Operation := if op.opcode = .Abs then Operation.nop else op

/-- abs_normal.rs:98-124 `impl Tape for AbsNormalTape`. -/
def toTape (t : AbsNormalTape S) : Tape S :=
  { indeps := t.indeps, deps := t.deps, ops := t.inner.ops.map hideAbs, vals := t.inner.vals,
    mutable := t.inner.mutable }

end AbsNormalTape

/-- abs_normal.rs:138-146 and 229-249 `anf_matrix!`: a view of an abs-normal tape. `f` and `g` select the
independents and dependents (`take` or `skip`); the view does not support `values_mut`. -/
def anfMatrix (f g : List Nat → Nat → List Nat) (t : AbsNormalTape S) : Tape S :=
  { indeps := f t.indeps t.n, deps := g t.deps t.s, ops := t.toTape.ops, vals := t.toTape.vals,
    mutable := false }

/-- `iter().take(n)` -/
def takeL (l : List Nat) (n : Nat) : List Nat := l.take n
/-- `iter().skip(n)` -/
def skipL (l : List Nat) (n : Nat) : List Nat := l.drop n

/-- abs_normal.rs:253-258 -/
def anfZ (t : AbsNormalTape S) : Tape S := anfMatrix takeL takeL t
/-- abs_normal.rs:259-264 -/
def anfL (t : AbsNormalTape S) : Tape S := anfMatrix skipL takeL t
/-- abs_normal.rs:265-270 -/
def anfJ (t : AbsNormalTape S) : Tape S := anfMatrix takeL skipL t
/-- abs_normal.rs:271-276 -/
def anfY (t : AbsNormalTape S) : Tape S := anfMatrix skipL skipL t

namespace Anf

/-- abs_normal.rs:148-150 -/
def nrows (t : Tape S) : Nat := t.numDeps
/-- abs_normal.rs:152-154 -/
def ncols (t : Tape S) : Nat := t.numIndeps

/-- `column_mut(j).copy_from(col)`. -/
def copyColumn (res : DMat S) (j : Nat) (col : DMat S) : Res (DMat S) :=
  if j < res.ncols then
    if col.nrows = res.nrows ∧ col.ncols = 1 then
      .ok { res with get := fun i' j' => if j' = j ∧ i' < res.nrows then col.get i' 0 else res.get i' j' }
    else .error .shapeMismatch
  else .error .indexOutOfBounds

/-- `row_mut(i).copy_from(row)`. -/
def copyRow (res : DMat S) (i : Nat) (row : DMat S) : Res (DMat S) :=
  if i < res.nrows then
    if row.nrows = 1 ∧ row.ncols = res.ncols then
      .ok { res with get := fun i' j' => if i' = i ∧ j' < res.ncols then row.get 0 j' else res.get i' j' }
    else .error .shapeMismatch
  else .error .indexOutOfBounds

/-- abs_normal.rs:163-174: one column of a product. -/
def mulRightCol (t : Tape S) (rhs : DMat S) (j : Nat) : Res (List (Nat × DMat S)) := do
  let dx ← (List.range rhs.nrows).foldlM (fun dx i => do setR dx i (← rhs.idx i j))
    (List.replicate rhs.nrows Flt.zero)
  let dy ← t.firstOrderForward dx
  let result ← (List.range dy.length).foldlM (fun (r : DMat S) i => do r.set i 0 (← getR dy i))
    (DMat.zeros (nrows t) 1)
  return [(j, result)]

/-- abs_normal.rs:156-184 `mul_right`. -/
def mulRight (σ : Sched) (t : Tape S) (rhs : DMat S) : Res (DMat S) := do
  assertR (ncols t = rhs.nrows)
  let cols ← (σ [] rhs.ncols).run (mulRightCol t rhs)
  cols.foldlM (fun res c => copyColumn res c.1 c.2) (DMat.zeros (nrows t) rhs.ncols)

/-- abs_normal.rs:193-204: one row of a product. -/
def mulLeftRow (t : Tape S) (lhs : DMat S) (i : Nat) : Res (List (Nat × DMat S)) := do
  let ybar ← (List.range lhs.ncols).foldlM (fun ybar j => do setR ybar j (← lhs.idx i j))
    (List.replicate lhs.ncols Flt.zero)
  let xbar ← t.firstOrderReverse ybar
  let result ← (List.range xbar.length).foldlM (fun (r : DMat S) j => do r.set 0 j (← getR xbar j))
    (DMat.zeros 1 (ncols t))
  return [(i, result)]

/-- abs_normal.rs:186-214 `mul_left`. -/
def mulLeft (σ : Sched) (t : Tape S) (lhs : DMat S) : Res (DMat S) := do
  assertR (lhs.ncols = nrows t)
  let rows ← (σ [] lhs.nrows).run (mulLeftRow t lhs)
  rows.foldlM (fun res c => copyRow res c.1 c.2) (DMat.zeros lhs.nrows (ncols t))

/-- abs_normal.rs:216-220 `row`. -/
def row (σ : Sched) (t : Tape S) (i : Nat) : Res (DMat S) := do
  let ind ← (DMat.zeros 1 t.numDeps).set 0 i Flt.one
  mulLeft σ t ind

/-- abs_normal.rs:222-226 `column`. The indicator is a *row* vector, as in the code; `ind[i]` is a linear
index into it. -/
def column (σ : Sched) (t : Tape S) (i : Nat) : Res (DMat S) := do
  let ind ← (DMat.zeros 1 t.numIndeps).set 0 i Flt.one
  mulRight σ t ind

end Anf

/-- abs_normal.rs:280-287 `struct AbsNormalForm`. -/
structure AbsNormalForm (S : Type) where
  a : List S
  zmat : DMat S
  lmat : DMat S
  b : List S
  jmat : DMat S
  ymat : DMat S

/-- abs_normal.rs:303-307, 311-315, 317-321: a view as a dense matrix with `r` rows and `c` columns,
computed from columns or rows, whichever is less work. -/
def Anf.dense (σ : Sched) (t : Tape S) (c r : Nat) : Res (DMat S) :=
  if c < r then Anf.mulRight σ t (DMat.identity c) else Anf.mulLeft σ t (DMat.identity r)

/-- abs_normal.rs:292-337: the dense form of an abs-normal tape. -/
def absNormalTape (σ : Sched) (absTape : AbsNormalTape S) : Res (AbsNormalForm S) := do
  let n := absTape.n
  let m := absTape.m
  let s := absTape.s
  let zTape := anfZ absTape
  let lTape := anfL absTape
  let jTape := anfJ absTape
  let yTape := anfY absTape
  let zmat ← Anf.dense (σ.at_ 0) zTape n s
  let lmat ← Anf.mulLeft (σ.at_ 1) lTape (DMat.identity s)
  let jmat ← Anf.dense (σ.at_ 2) jTape n m
  let ymat ← Anf.dense (σ.at_ 3) yTape s m
  let z ← absTape.z
  let zAbs := vabs z
  let a ← vsub z (← lmat.mulVec zAbs)
  let b ← ymat.neg.mulVec zAbs
  return { a, zmat, lmat, b, jmat, ymat }

/-- abs_normal.rs:291-337 `abs_normal`. -/
def absNormal (σ : Sched) (f : Func S) (x : List S) : M (World S) (AbsNormalForm S) := do
  let tape ← f.tape x
  M.lift (do absNormalTape σ (← AbsNormalTape.new tape))

end Adv
