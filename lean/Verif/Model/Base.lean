/-!
# Base vocabulary of the model

Panics, the effect monad and the scalar signature.
-/

namespace Adv

/-- Panic kinds. Every `panic!`, failed `assert!`/`assert_eq!`, `unwrap()` on `None`, out-of-bounds index,
shape mismatch in nalgebra and checked arithmetic failure of the modelled code is one of these values. -/
inductive Err
  | indexOutOfBounds   -- slice / Vec / DVector / DMatrix indexing
  | unwrapNone         -- `Option::unwrap` on `None`
  | assertFailed       -- `assert!` / `assert_eq!`
  | invalidOpcode      -- operation.rs:40, operation.rs:83
  | absInReverse       -- operation.rs:325
  | unsupported        -- afloat.rs:196, afloat.rs:266
  | poisoned           -- `Mutex::lock().unwrap()` on a poisoned mutex
  | shapeMismatch      -- nalgebra dimension check in `+`, `-`, `*`
  | overflow           -- checked integer arithmetic / `to_usize().unwrap()` on a too large value
  | diverges           -- a loop that does not terminate
  | noValuesMut        -- abs_normal.rs:247
  | dangling           -- use of a handle that does not exist (cannot be written in safe Rust)
  | unbound            -- a program mentions a variable that does not exist (cannot be written in Rust)
  | user               -- panic raised by user code
deriving DecidableEq, Repr

/-- Result of a computation that may panic. -/
abbrev Res (α : Type) := Except Err α

deriving instance DecidableEq for Except

/-- `Option::unwrap`. -/
def unwrap {α : Type} : Option α → Res α
  | some a => .ok a
  | none => .error .unwrapNone

/-- Computations with an effect on a global state `W` that may panic. The state survives a panic
(`catch_unwind`, or another thread looking at it). -/
def M (W α : Type) := W → Res α × W

namespace M
variable {W α β : Type}

instance : Monad (M W) where
  pure a := fun w => (.ok a, w)
  bind m f := fun w => match m w with
    | (.ok a, w') => f a w'
    | (.error e, w') => (.error e, w')

/-- Lift a stateless computation. -/
def lift (r : Res α) : M W α := fun w => (r, w)

/-- Panic. -/
def throw (e : Err) : M W α := fun w => (.error e, w)

@[simp] theorem pure_apply (a : α) (w : W) : (pure a : M W α) w = (.ok a, w) := rfl
theorem bind_apply (m : M W α) (f : α → M W β) (w : W) :
    (m >>= f) w = match m w with
      | (.ok a, w') => f a w'
      | (.error e, w') => (.error e, w') := rfl
@[simp] theorem lift_apply (r : Res α) (w : W) : (lift r : M W α) w = (r, w) := rfl
@[simp] theorem throw_apply (e : Err) (w : W) : (throw e : M W α) w = (.error e, w) := rfl

theorem bind_ok {m : M W α} {f : α → M W β} {w w' : W} {a : α} (h : m w = (.ok a, w')) :
    (m >>= f) w = f a w' := by rw [bind_apply, h]
theorem bind_error {m : M W α} {f : α → M W β} {w w' : W} {e : Err} (h : m w = (.error e, w')) :
    (m >>= f) w = (.error e, w') := by rw [bind_apply, h]

instance : LawfulMonad (M W) := LawfulMonad.mk'
  (id_map := by
    intro α x; funext w
    show (match x w with | (.ok a, w') => _ | (.error e, w') => _) = _
    rcases h : x w with ⟨_ | _, _⟩ <;> rfl)
  (pure_bind := by intros; rfl)
  (bind_assoc := by
    intro α β γ x f g; funext w
    simp only [bind_apply]
    rcases h : x w with ⟨_ | _, _⟩ <;> rfl)
end M

/-- Scalar signature: what the code uses from `num::traits::Float` (and, for tapes, from `f64`).
No law is assumed, so a theorem about every `Flt S` holds for IEEE floating point numbers. -/
class Flt (S : Type) where
  zero : S
  one : S
  /-- `NumCast::from(0.5)` -/
  half : S
  /-- `NumCast::from(n)` for an integer literal or `i32` (`2.0`, `3.0`, `10.0`, `n as i32`) -/
  ofInt : Int → S
  add : S → S → S
  sub : S → S → S
  mul : S → S → S
  div : S → S → S
  neg : S → S
  abs : S → S
  sqrt : S → S
  sin : S → S
  cos : S → S
  tan : S → S
  exp : S → S
  ln : S → S
  asin : S → S
  acos : S → S
  atan : S → S
  powf : S → S → S
  powi : S → Int → S
  /-- `<` -/
  lt : S → S → Bool
  /-- `==` (not Lean equality: `NaN != NaN`, `0.0 == -0.0`) -/
  eq : S → S → Bool
  /-- `ToPrimitive::to_i64`: truncation towards zero, `None` if not representable -/
  toI64 : S → Option Int

scoped infixl:65 " +ᶠ " => Flt.add
scoped infixl:65 " -ᶠ " => Flt.sub
scoped infixl:70 " *ᶠ " => Flt.mul
scoped infixl:70 " /ᶠ " => Flt.div

/-- Slice indexing `v[i]`. -/
def getR {α : Type} (v : List α) (i : Nat) : Res α :=
  match v[i]? with
  | some x => .ok x
  | none => .error .indexOutOfBounds

/-- Slice assignment `v[i] = x`. -/
def setR {α : Type} (v : List α) (i : Nat) (x : α) : Res (List α) :=
  if i < v.length then .ok (v.set i x) else .error .indexOutOfBounds

/-- `o.map(|i| v[i])`. -/
def optGetR {α : Type} (v : List α) : Option Nat → Res (Option α)
  | none => .ok none
  | some i => (getR v i).map some

/-- `assert!` / `assert_eq!`. -/
def assertR (b : Bool) : Res Unit := if b then .ok () else .error .assertFailed

/-- `usize` subtraction (debug build: panics on underflow). -/
def subU (a b : Nat) : Res Nat := if b ≤ a then .ok (a - b) else .error .overflow

end Adv
