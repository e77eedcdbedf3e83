import Verif.Model.GeneralizedJacobian
import Verif.Spec.Scalars
import Mathlib.Algebra.BigOperators.Group.Finset.Basic

/-!
# Specification vocabulary for abs-normal forms

Written with sums over index ranges, independently of the model's matrix operations.
-/

namespace Adv
open Finset

variable {K : Type} [Field K]

/-- Entry `i` of `A v`. -/
def mv (A : DMat K) (v : List K) (i : Nat) : K := ∑ j ∈ range A.ncols, A.get i j * v.getD j 0

/-- `C = A B`. -/
structure IsMul (C A B : DMat K) : Prop where
  inner : A.ncols = B.nrows
  nrows : C.nrows = A.nrows
  ncols : C.ncols = B.ncols
  get : ∀ i < A.nrows, ∀ j < B.ncols, C.get i j = ∑ k ∈ range A.ncols, A.get i k * B.get k j

/-- Equal shape and equal entries. -/
structure MatEq (A B : DMat K) : Prop where
  nrows : A.nrows = B.nrows
  ncols : A.ncols = B.ncols
  get : ∀ i < A.nrows, ∀ j < A.ncols, A.get i j = B.get i j

/-- Strictly lower triangular. -/
def StrictLower (A : DMat K) : Prop := ∀ i < A.nrows, ∀ j < A.ncols, i ≤ j → A.get i j = 0

variable [LinearOrder K]

/-- Entry-wise absolute value. -/
def absV (v : List K) : List K := v.map fun x => |x|

/-- `zhat` solves the switching equation `zhat = a + Z dx + L |zhat|`. -/
structure SwitchEq (F : AbsNormalForm K) (dx zhat : List K) : Prop where
  length : zhat.length = F.a.length
  eq : ∀ i < F.a.length, zhat.getD i 0 = F.a.getD i 0 + mv F.zmat dx i + mv F.lmat (absV zhat) i

/-- The increment predicted by the form: `b + J dx + Y |zhat|`. -/
def AbsNormalForm.increment (F : AbsNormalForm K) (dx zhat : List K) : List K :=
  (List.range F.b.length).map fun i => F.b.getD i 0 + mv F.jmat dx i + mv F.ymat (absV zhat) i

/-- The shapes of the parts of a form with `n` inputs, `m` outputs and `s` switching variables. -/
structure AbsNormalForm.Shape (F : AbsNormalForm K) (n m s : Nat) : Prop where
  a : F.a.length = s
  b : F.b.length = m
  zmat : F.zmat.nrows = s ∧ F.zmat.ncols = n
  lmat : F.lmat.nrows = s ∧ F.lmat.ncols = s
  jmat : F.jmat.nrows = m ∧ F.jmat.ncols = n
  ymat : F.ymat.nrows = m ∧ F.ymat.ncols = s

/-- The tape whose outputs are the arguments of the abs operations. -/
def Tape.switching (t : Tape K) : Tape K :=
  { t with deps := (t.ops.filter fun op => op.opcode = .Abs).filterMap Operation.arg1 }

end Adv
