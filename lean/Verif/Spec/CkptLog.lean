import Verif.Spec.Checkpointing

/-! # Calls of the closures of `reverse_sequence` -/

namespace Adv.Ckpt
open Adv

/-- A call of one of the closures. -/
inductive Call (T R : Type)
  | fwd (x : T)
  | rev (x : T) (right : R)
  | idn (x : T)
deriving DecidableEq

variable {T R : Type}

/-- A closure that records the call and computes `y`. -/
def logged {α : Type} (c : Call T R) (y : α) : M (List (Call T R)) α := fun log => (.ok y, log ++ [c])

/-- Is it a call of `forward`? -/
def Call.isFwd : Call T R → Bool
  | .fwd _ => true
  | _ => false

/-- The result of folding the last `n - r` elements. -/
def foldFrom (f : T → T) (rev : T → R → R) (idn : T → R) (x0 : T) (n : Nat) : Nat → R
  | 0 => idn (f^[n] x0)
  | k + 1 => rev (f^[n - (k + 1)] x0) (foldFrom f rev idn x0 n k)

/-- The calls of `reverse` for the elements `r-1, …, 0` in this order, if `n` elements are reversed. -/
def revCalls (f : T → T) (rev : T → R → R) (idn : T → R) (x0 : T) (n : Nat) : Nat → List (Call T R)
  | 0 => []
  | r + 1 => .rev (f^[r] x0) (foldFrom f rev idn x0 n (n - (r + 1))) :: revCalls f rev idn x0 n r

end Adv.Ckpt
