import Verif.Model.FloydWarshall
import Verif.Model.Perceptron

/-!
# Model of the optimisation in `examples/floyd_warshall.rs` (lines 229-254)

Gradient descent with the step size of Barzilai and Borwein, on top of `zeroOrder` and `calculateGradient`. The
expressions of lines 239 and 245-247 are those of `perceptron.rs:127, 131-133`, whose model is used.

Simplifications: of the output only the errors are modelled (lines 231, 240); the initial step `0.00001` is a parameter; as in the model of the other example, the norm
in the loop condition and the step size are parameters of the loop (`stop` and `nextStep`), and `while` is `loop` with a
bound on the number of iterations.
-/

namespace Adv.Fw
open scoped Adv

variable {S : Type} [Flt S]

/-- The variables of `main` that change in the loop: `params`, `g`, `step`; the number of iterations and the errors
printed so far. -/
structure Opt (S : Type) where
  params : List S
  g : DMat S
  step : S
  iterations : Nat
  printed : List S

/-- floyd_warshall.rs:230-235: before the loop. -/
def enter (σ : Sched) (est : Int → Int → Int) (capMax : Nat) (N : Net S) (tapes : Tape S × Tape S) (params : List S)
    (step : S) : M (Ckpt.World (World S)) (Opt S) := do
  let e ← Ckpt.call (zeroOrder N tapes params)
  let g ← calculateGradient σ est capMax N tapes params
  return ⟨params, g, step, 0, [Flt.sqrt e]⟩

/-- floyd_warshall.rs:238-251: the body of the loop. Line 240 prints the error of `params`, not of `params_new`. -/
def body (σ : Sched) (est : Int → Int → Int) (capMax : Nat) (N : Net S) (tapes : Tape S × Tape S)
    (nextStep : List S → List S → DMat S → DMat S → S) (s : Opt S) : M (Ckpt.World (World S)) (Opt S) := do
  let new ← M.lift (Nn.colSub s.params s.step s.g)
  let e ← Ckpt.call (zeroOrder N tapes s.params)
  let g ← calculateGradient σ est capMax N tapes new
  return ⟨new, g, nextStep s.params new s.g g, s.iterations + 1, s.printed ++ [Flt.sqrt e]⟩

/-- floyd_warshall.rs:237-252: at most `n` iterations of the loop; `stop` is the negation of the loop condition. -/
def loop (σ : Nat → Sched) (est : Int → Int → Int) (capMax : Nat) (N : Net S) (tapes : Tape S × Tape S)
    (nextStep : List S → List S → DMat S → DMat S → S) (stop : DMat S → Bool) : Nat → Opt S → M (Ckpt.World (World S)) (Opt S)
  | 0, s => pure s
  | n + 1, s =>
      if stop s.g then pure s
      else do
        let s ← body (σ n) est capMax N tapes nextStep s
        loop σ est capMax N tapes nextStep stop n s

/-- floyd_warshall.rs:60-252: recording and at most `n` iterations, starting from `params` with step size `step`. -/
def optimise (σ : Sched) (σs : Nat → Sched) (est : Int → Int → Int) (capMax : Nat) (N : Net S)
    (nextStep : List S → List S → DMat S → DMat S → S) (stop : DMat S → Bool) (params : List S) (step : S) (n : Nat) :
    M (Ckpt.World (World S)) (Opt S) := do
  let tapes ← Ckpt.call (record N)
  let s ← enter σ est capMax N tapes params step
  loop σs est capMax N tapes nextStep stop n s

end Adv.Fw
