import Verif.Model.Base

/-!
# The part of nalgebra used by the drivers

Dynamically sized matrices and vectors with the run-time checks of nalgebra. `DVector` is a list.
Simplification: nalgebra's order of summation in products is not specified; here products are summed from
left to right starting at zero.
-/

namespace Adv
open scoped Adv

variable {S : Type}

/-- `DMatrix<f64>`: dimensions and entries. Entries outside the dimensions are irrelevant: every
construction below fixes them to zero, and no operation reads them. -/
structure DMat (S : Type) where
  nrows : Nat
  ncols : Nat
  get : Nat → Nat → S

namespace DMat

/-- The entries as a list of rows (for display and concrete examples). -/
def toRows (m : DMat S) : List (List S) :=
  (List.range m.nrows).map fun i => (List.range m.ncols).map fun j => m.get i j

/-- `m[(i, j)]`. -/
def idx (m : DMat S) (i j : Nat) : Res S :=
  if i < m.nrows ∧ j < m.ncols then .ok (m.get i j) else .error .indexOutOfBounds

/-- `m[(i, j)] = x`. -/
def set (m : DMat S) (i j : Nat) (x : S) : Res (DMat S) :=
  if i < m.nrows ∧ j < m.ncols then
    .ok { m with get := fun i' j' => if i' = i ∧ j' = j then x else m.get i' j' }
  else .error .indexOutOfBounds

variable [Flt S]

/-- A matrix from its entries. -/
def ofFn (r c : Nat) (f : Nat → Nat → S) : DMat S :=
  ⟨r, c, fun i j => if i < r ∧ j < c then f i j else Flt.zero⟩

/-- `DMatrix::zeros(r, c)`, `DMatrix::from_element(r, c, 0.0)`. -/
def zeros (r c : Nat) : DMat S := ofFn r c fun _ _ => Flt.zero

/-- `DMatrix::identity(n, n)`. -/
def identity (n : Nat) : DMat S := ofFn n n fun i j => if i = j then Flt.one else Flt.zero

/-- A vector as a matrix with one column. -/
def ofVec (v : List S) : DMat S := ofFn v.length 1 fun i _ => v.getD i Flt.zero

/-- The first column of a matrix with one column, as a vector (adding a `DMatrix` of run-time shape
`n x 1` to a `DVector` gives a `DVector`). -/
def toVec (m : DMat S) : Res (List S) :=
  if m.ncols = 1 then .ok ((List.range m.nrows).map fun i => m.get i 0) else .error .shapeMismatch

/-- Sum of `n` products. -/
def sumProd (n : Nat) (f g : Nat → S) : S := (List.range n).foldl (fun acc k => acc +ᶠ f k *ᶠ g k) Flt.zero

/-- `a * b`. -/
def mul (a b : DMat S) : Res (DMat S) :=
  if a.ncols = b.nrows then
    .ok (ofFn a.nrows b.ncols fun i j => sumProd a.ncols (fun k => a.get i k) (fun k => b.get k j))
  else .error .shapeMismatch

/-- `a + b`. -/
def add (a b : DMat S) : Res (DMat S) :=
  if a.nrows = b.nrows ∧ a.ncols = b.ncols then
    .ok (ofFn a.nrows a.ncols fun i j => a.get i j +ᶠ b.get i j)
  else .error .shapeMismatch

/-- `-a`. -/
def neg (a : DMat S) : DMat S := ofFn a.nrows a.ncols fun i j => Flt.neg (a.get i j)

/-- `a == b`: equal shapes and entrywise `==`. -/
def beq (a b : DMat S) : Bool :=
  a.nrows == b.nrows && a.ncols == b.ncols &&
    (List.range a.nrows).all fun i => (List.range a.ncols).all fun j => Flt.eq (a.get i j) (b.get i j)

/-- `a * v`. -/
def mulVec (a : DMat S) (v : List S) : Res (List S) :=
  if a.ncols = v.length then
    .ok ((List.range a.nrows).map fun i => sumProd a.ncols (fun k => a.get i k) (fun k => v.getD k Flt.zero))
  else .error .shapeMismatch

end DMat

variable [Flt S]

/-- `u + v`. -/
def vadd (u v : List S) : Res (List S) :=
  if u.length = v.length then .ok (List.zipWith Flt.add u v) else .error .shapeMismatch
/-- `u - v`. -/
def vsub (u v : List S) : Res (List S) :=
  if u.length = v.length then .ok (List.zipWith Flt.sub u v) else .error .shapeMismatch
/-- `-v`. -/
def vneg (v : List S) : List S := v.map Flt.neg
/-- `v.abs()`. -/
def vabs (v : List S) : List S := v.map Flt.abs
/-- `u == v`. -/
def vbeq (u v : List S) : Bool := u.length == v.length && (List.zipWith Flt.eq u v).all id

end Adv
