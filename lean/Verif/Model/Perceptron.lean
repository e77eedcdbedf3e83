import Verif.Model.Jacobian

/-!
# Model of `examples/perceptron.rs`

The example trains a perceptron with two hidden neurons to compute the exclusive or. It records the error as a function
of the nine parameters and minimises it by gradient descent on the replayed tape.

Simplifications: `println!` of the parameters is not modelled; the norm in the loop condition and the step size are
parameters of the loop (`stop` and `nextStep`), because the order in which nalgebra adds up scalar products is not
modelled (`barzilai` is the step size with one order); `while` is `loop` with a bound on the number of iterations.
-/

namespace Adv.Nn
open scoped Adv

variable {S : Type} [Flt S]

/-- perceptron.rs:7-10 `sigmoid`. -/
def sigmoid (x : Arg S) (c : Arg S → Prog S) : Prog S :=
  .op .Exp x none fun e _ => .op .Add (.var e) (some (.lit Flt.one)) fun s _ =>
  .op .Div (.var e) (some (.var s)) fun r _ => c (.var r)

/-- perceptron.rs:28-30: the argument of each sigmoid, `x * u + y * v + b`. -/
def weigh (x u y v b : Arg S) (c : Arg S → Prog S) : Prog S :=
  .op .Mul x (some u) fun p _ => .op .Mul y (some v) fun q _ => .op .Add (.var p) (some (.var q)) fun s _ =>
  .op .Add (.var s) (some b) fun r _ => c (.var r)

/-- perceptron.rs:13-31 `multilayer_perceptron`. The parameters are the operands `P 0`, …, `P 8`: `weights1`, `biases1`,
`weights2`, `biases2` one after the other (lines 85-88). -/
def mlp (P : Nat → Arg S) (x y : S) (c : Arg S → Prog S) : Prog S :=
  weigh (.lit x) (P 0) (.lit y) (P 1) (P 4) fun a => sigmoid a fun h1 =>
  weigh (.lit x) (P 2) (.lit y) (P 3) (P 5) fun b => sigmoid b fun h2 =>
  weigh h1 (P 6) h2 (P 7) (P 8) fun o => sigmoid o c

/-- perceptron.rs:40-45 and so on: `(actual - expected) * (actual - expected)` for one input. -/
def term (P : Nat → Arg S) (x y expected : S) (c : Arg S → Prog S) : Prog S :=
  mlp P x y fun actual => .op .Sub actual (some (.lit expected)) fun d _ => .op .Sub actual (some (.lit expected)) fun d' _ =>
  .op .Mul (.var d) (some (.var d')) fun r _ => c (.var r)

/-- perceptron.rs:34-69 `xor_error`. -/
def xorError (P : Nat → Arg S) (c : Arg S → Prog S) : Prog S :=
  term P Flt.zero Flt.zero Flt.zero fun e1 => term P Flt.zero Flt.one Flt.one fun e2 =>
  term P Flt.one Flt.zero Flt.one fun e3 => term P Flt.one Flt.one Flt.zero fun e4 =>
  .op .Add e1 (some e2) fun s _ => .op .Add (.var s) (some e3) fun s' _ => .op .Add (.var s') (some e4) fun r _ => c (.var r)

/-- perceptron.rs:81-92: the recorded function. -/
def func : Func S := .simple 9 1 fun _ => xorError .var fun r => .ret [r]

/-- perceptron.rs:163: the trained network, evaluated on plain numbers. -/
def network (x y : S) : Func S := .simple 9 1 fun _ => mlp .var x y fun r => .ret [r]

/-- perceptron.rs:78-94: the tape, recorded with all parameters zero. -/
def record : M (World S) (Tape S) := func.tape (List.replicate 9 Flt.zero)

/-- perceptron.rs:71-74 `gradient`. A matrix with one column; the tape is mutated. -/
def gradient (σ : Sched) (t : Tape S) (params : List S) : Res (Tape S × DMat S) := do
  let t ← t.zeroOrder params
  let J ← jacobianReverse σ t
  return (t, { nrows := J.ncols, ncols := J.nrows, get := fun i j => J.get j i })

/-- perceptron.rs:97-115: the initial parameters. -/
def start : List S :=
  [Flt.neg Flt.one, Flt.neg Flt.one, Flt.one, Flt.one, Flt.zero, Flt.zero, Flt.one, Flt.one, Flt.zero]

/-- The variables of `main` that change in the loop: `tape`, `params`, `g`, `step`, `iterations` and the last printed
error. -/
structure State (S : Type) where
  tape : Tape S
  params : List S
  g : DMat S
  step : S
  iterations : Nat
  error : Option S

/-- perceptron.rs:127: `params - step * g`; nalgebra panics if the dimensions differ. -/
def colSub (p : List S) (s : S) (g : DMat S) : Res (List S) := do
  assertR (g.nrows = p.length ∧ g.ncols = 1)
  return (List.range p.length).map fun i => p.getD i Flt.zero -ᶠ s *ᶠ g.get i 0

/-- perceptron.rs:131-133: the step size of Barzilai and Borwein, with sums from left to right. -/
def barzilai (p p' : List S) (g g' : DMat S) : S :=
  let dot (u v : Nat → S) : S := (List.range p.length).foldl (fun s i => s +ᶠ u i *ᶠ v i) Flt.zero
  let dp := fun i => p'.getD i Flt.zero -ᶠ p.getD i Flt.zero
  let dg := fun i => g'.get i 0 -ᶠ g.get i 0
  Flt.abs (dot dp dg) /ᶠ dot dg dg

/-- perceptron.rs:124-142: the body of the loop. `nextStep` computes line 133 from `params`, `params_new`, `g`, `g_new`. -/
def body (σ : Sched) (nextStep : List S → List S → DMat S → DMat S → S) (s : State S) : Res (State S) := do
  let new ← colSub s.params s.step s.g
  let (t, g) ← gradient σ s.tape new
  let step := nextStep s.params new s.g g
  let t ← t.zeroOrder new
  let y ← t.y
  let error ← getR y 0
  return ⟨t, new, g, step, s.iterations + 1, some error⟩

/-- perceptron.rs:119-122: the state before the loop. -/
def enter (σ : Sched) (t : Tape S) (params : List S) : Res (State S) := do
  let (t, g) ← gradient σ t params
  return ⟨t, params, g, Flt.one, 0, none⟩

/-- perceptron.rs:123-143: at most `n` iterations of the loop; `stop` is the negation of the loop condition. -/
def loop (σ : Nat → Sched) (nextStep : List S → List S → DMat S → DMat S → S) (stop : DMat S → Bool) :
    Nat → State S → Res (State S)
  | 0, s => .ok s
  | n + 1, s => if stop s.g then .ok s else body (σ n) nextStep s >>= loop σ nextStep stop n

/-- perceptron.rs:78-143: recording and at most `n` iterations, starting from `params`. -/
def train (σ : Sched) (σs : Nat → Sched) (nextStep : List S → List S → DMat S → DMat S → S) (stop : DMat S → Bool)
    (params : List S) (n : Nat) : M (World S) (State S) := do
  let t ← record
  M.lift (do
    let s ← enter σ t params
    loop σs nextStep stop n s)

end Adv.Nn
