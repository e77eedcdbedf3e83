import Verif.Model.Chain

/-!
# Functions of the crate's unit tests

Transcriptions of the test functions of `src/drivers/testfunc.rs` and of the `tests` modules.
-/

namespace Adv.Conformance
open Adv

variable {S : Type} [Flt S]

/-- An operation with two operands. -/
def bin (o : OpCode) (a b : Arg S) (k : Arg S → Prog S) : Prog S := .op o a (some b) fun i _ => k (.var i)
/-- An operation with one operand. -/
def un (o : OpCode) (a : Arg S) (k : Arg S → Prog S) : Prog S := .op o a none fun i _ => k (.var i)
/-- The number `n`. -/
def num (n : Int) : Arg S := .lit (Flt.ofInt n)

/-- afloat.rs:367-369 `max`. -/
def max (a b : Arg S) (k : Arg S → Prog S) : Prog S :=
  bin .Add a b fun s => bin .Sub a b fun d => un .Abs d fun d => bin .Add s d fun s => bin .Mul (.lit Flt.half) s k
/-- afloat.rs:340-342 `powi`. -/
def powi (a : Arg S) (n : Int) (k : Arg S → Prog S) : Prog S := bin .Powf a (num n) k
/-- afloat.rs:133-138 `Neg`. -/
def neg (a : Arg S) (k : Arg S → Prog S) : Prog S :=
  bin .Sub (.lit Flt.zero) (.lit Flt.one) fun m => bin .Mul m a k

/-- testfunc.rs:3-7 `halfpipe`. -/
def halfpipe : Func S := Func.advFn 2 1 fun _ =>
  powi (.var 1) 2 fun q => max (.var 0) (num 0) fun m => bin .Sub q m fun d => max d (num 0) fun r => .ret [r]

/-- testfunc.rs:9-13 `halfpipe_1`. -/
def halfpipe1 : Func S := Func.advFn 2 2 fun _ =>
  max (.var 0) (num 0) fun m => powi (.var 1) 2 fun q => .ret [m, q]

/-- testfunc.rs:15-19 `halfpipe_2`. -/
def halfpipe2 : Func S := Func.advFn 2 1 fun _ =>
  bin .Sub (.var 1) (.var 0) fun d => max d (num 0) fun r => .ret [r]

/-- tape.rs:113-124 `all_arithmetic_test_func`, the same computation as afloat.rs:397-406 `test_function`. -/
def allArithmetic : Func S := Func.advFn 1 1 fun _ =>
  bin .Add (.var 0) (.var 0) fun a => bin .Mul (.var 0) (.var 0) fun b => bin .Div b (.var 0) fun b =>
  bin .Sub a b fun v1 =>
  bin .Add v1 (num 2) fun c => bin .Sub c (num 2) fun c => bin .Mul c (num 2) fun c => bin .Div c (num 2) fun v2 =>
  bin .Add (num 2) v2 fun d => bin .Sub (num 2) d fun d => neg d fun v3 =>
  bin .Mul (num 2) v3 fun e => bin .Div (num 2) e fun v4 =>
  bin .Div (num 1) v4 fun v5 => .ret [v5]

/-- The loop of function.rs:150-152. -/
def maxFrom (r : Arg S) : List Nat → (Arg S → Prog S) → Prog S
  | [], k => k r
  | i :: is, k => max r (.var i) fun r => maxFrom r is k

/-- function.rs:147-155 `vector_10_max`. -/
def vector10Max : Func S := Func.advFn 10 1 fun _ =>
  maxFrom (.var 0) ((List.range 9).map (· + 1)) fun r => .ret [r]

/-- function.rs:173-181 `ten_to_five`. -/
def tenToFive : Func S := Func.advFn 10 5 fun _ =>
  bin .Add (.var 0) (.var 1) fun a => bin .Add (.var 2) (.var 3) fun b => bin .Add (.var 4) (.var 5) fun c =>
  bin .Add (.var 6) (.var 7) fun d => bin .Add (.var 8) (.var 9) fun e => .ret [a, b, c, d, e]

/-- function.rs:183-190 `five_to_two`. -/
def fiveToTwo : Func S := Func.advFn 5 2 fun _ =>
  bin .Add (.var 0) (.var 1) fun a => bin .Add a (.var 2) fun a => bin .Add (.var 3) (.var 4) fun b => .ret [a, b]

/-- function.rs:192-198 `two_to_one`. -/
def twoToOne : Func S := Func.advFn 2 1 fun _ => bin .Add (.var 0) (.var 1) fun a => .ret [a]

/-- The loop of function.rs:232-234. -/
def mulFrom (c : S) : List Nat → List (Arg S) → Prog S
  | [], out => .ret out
  | i :: is, out => bin .Mul (.var i) (.lit c) fun a => mulFrom c is (out ++ [a])

/-- function.rs:229-237 `multiplicate`. -/
def multiplicate (c : S) : Func S := Func.advFn 10 10 fun _ => mulFrom c (List.range 10) []

/-- function.rs:246-250 `duplicate`; function.rs:260-264 `duplicate2` is the same with `times1 * times2`. -/
def duplicate (times : Nat) : Func S := Func.advFn 1 times fun _ => .ret (List.replicate times (.var 0))

/-- jacobian.rs:82-90 `test_function`: polar coordinates. -/
def polar : Func S := Func.advFn 2 2 fun _ =>
  un .Cos (.var 1) fun c => bin .Mul (.var 0) c fun x => un .Sin (.var 1) fun s => bin .Mul (.var 0) s fun y =>
  .ret [x, y]

/-- abs_normal.rs:387-394 `consistency_test_func`. -/
def consistency : Func S := Func.advFn 2 1 fun _ =>
  un .Abs (.var 0) fun a => bin .Add a (.var 1) fun y => .ret [y]

/-- abs_normal.rs:437-438: `||sin(a)| + cos(b)|`. -/
def nested : Func S := Func.advFn 2 1 fun _ =>
  un .Sin (.var 0) fun a => un .Abs a fun a => un .Cos (.var 1) fun b => bin .Add a b fun c => un .Abs c fun c =>
  .ret [c]

end Adv.Conformance
