import Verif.Model.Chain

/-!
# Model of `examples/floyd_warshall.rs`

The example optimises the traffic lights of a road network. It records three kinds of tapes (the edge weights as a
function of the lights, one step of the Floyd-Warshall algorithm, the sum of squared distances) and differentiates their
composition with `reverse_sequence` and `generalized_jacobian_tape`.

Simplifications: `println!` is not modelled; the optimisation loop (lines 229-254) is in `Verif.Model.FwOptimise`; the constants `0.01`,
`0.99` and `10e3` are parameters `lo`, `hi`, `inf`; the number of nodes, the edges and the exits are parameters, their
values are given in `Fw.network`; when `tape_init` is recorded, all independents are created before the first operation
(in the example each light is computed right after its independent is created, so that the values are numbered
differently); the contexts of `tape_init` and `tape_badness` are dropped when the tape has been extracted instead of at the
end of `main` (tapes share nothing with their context).
-/

namespace Adv.Fw
open scoped Adv

variable {S : Type} [Flt S]

/-- One call of `floyd_warshall_set_edge` in floyd_warshall.rs:111-134: the end points, the number of the traffic light
and which of its quotas is used. -/
structure Edge where
  u : Nat
  v : Nat
  light : Nat
  topBottom : Bool

/-- The data of the example. -/
structure Net (S : Type) where
  n : Nat
  lights : Nat
  edges : List Edge
  exits : List Nat
  lo : S
  hi : S
  inf : S

/-- `Float::max` of `AFloat`, afloat.rs:364-366. -/
def opMax (a b : Arg S) (c : Arg S → Prog S) : Prog S :=
  .op .Add a (some b) fun s _ => .op .Sub a (some b) fun d _ => .op .Abs (.var d) none fun e _ =>
  .op .Add (.var s) (some (.var e)) fun t _ => .op .Mul (.lit Flt.half) (some (.var t)) fun r _ => c (.var r)

/-- `Float::min` of `AFloat`, afloat.rs:368-370. -/
def opMin (a b : Arg S) (c : Arg S → Prog S) : Prog S :=
  .op .Add a (some b) fun s _ => .op .Sub a (some b) fun d _ => .op .Abs (.var d) none fun e _ =>
  .op .Sub (.var s) (some (.var e)) fun t _ => .op .Mul (.lit Flt.half) (some (.var t)) fun r _ => c (.var r)

/-- floyd_warshall.rs:90-97 `new_traffic_light`; passes on the two quotas. -/
def newLight (lo hi : S) (q : Arg S) (c : Arg S → Arg S → Prog S) : Prog S :=
  opMax q (.lit lo) fun a => opMin a (.lit hi) fun tb =>
  .op .Sub (.lit Flt.one) (some tb) fun lr _ => c tb (.var lr)

/-- floyd_warshall.rs:102-107: the traffic lights with the given independents. -/
def newLights (lo hi : S) : List Nat → List (Arg S × Arg S) → (List (Arg S × Arg S) → Prog S) → Prog S
  | [], acc, c => c acc
  | q :: qs, acc, c => newLight lo hi (.var q) fun tb lr => newLights lo hi qs (acc ++ [(tb, lr)]) c

/-- floyd_warshall.rs:15-25 `floyd_warshall_init`. -/
def initMat (n : Nat) (inf : S) : List (Arg S) :=
  (List.range n).foldl (fun d i => d.set (i * n + i) (.lit Flt.zero)) (List.replicate (n * n) (.lit inf))

/-- floyd_warshall.rs:28-37 `floyd_warshall_set_edge`. -/
def setEdge (n u v : Nat) (weight : Arg S) (d : List (Arg S)) : Option (List (Arg S)) :=
  if u * n + v < d.length ∧ v * n + u < d.length then some ((d.set (u * n + v) weight).set (v * n + u) weight) else none

/-- floyd_warshall.rs:111-134: `floyd_warshall_set_edge(&mut graph, u, v, 1.0 + 1.0 / quota)` for all edges. -/
def setEdges (n : Nat) (ls : List (Arg S × Arg S)) : List Edge → List (Arg S) → (List (Arg S) → Prog S) → Prog S
  | [], d, c => c d
  | e :: es, d, c =>
    match ls[e.light]? with
    | none => .panic
    | some q =>
      .op .Div (.lit Flt.one) (some (if e.topBottom then q.1 else q.2)) fun a _ =>
      .op .Add (.lit Flt.one) (some (.var a)) fun b _ =>
      match setEdge n e.u e.v (.var b) d with
      | none => .panic
      | some d => setEdges n ls es d c

/-- floyd_warshall.rs:99-136: the function recorded in `tape_init`. -/
def init (N : Net S) : Func S :=
  .simple N.lights (N.n * N.n) fun _ =>
    newLights N.lo N.hi (List.range N.lights) [] fun ls => setEdges N.n ls N.edges (initMat N.n N.inf) fun d => .ret d

/-- The order of the loops in floyd_warshall.rs:50-51. -/
def pairs (n : Nat) : List (Nat × Nat) := (List.range n).flatMap fun i => (List.range n).map fun j => (i, j)

/-- floyd_warshall.rs:46-58 `floyd_warshall_step`: the loop body for the remaining pairs. -/
def relax (n k : Nat) : List (Nat × Nat) → List (Arg S) → (List (Arg S) → Prog S) → Prog S
  | [], d, c => c d
  | (i, j) :: ps, d, c =>
    match d[i * n + j]?, d[i * n + k]?, d[k * n + j]? with
    | some a, some x, some y =>
      .op .Add x (some y) fun s _ => opMin a (.var s) fun r => relax n k ps (d.set (i * n + j) r) c
    | _, _, _ => .panic

/-- floyd_warshall.rs:139-149: the function recorded by `tape_step(n, k)`. -/
def step (n k : Nat) : Func S :=
  .simple (n * n) (n * n) fun _ => relax n k (pairs n) ((List.range (n * n)).map .var) fun d => .ret d

/-- floyd_warshall.rs:152-162 `badness`: the loop body for the remaining pairs of exits. -/
def sumSquares (n : Nat) : List (Nat × Nat) → List (Arg S) → Arg S → (Arg S → Prog S) → Prog S
  | [], _, r, c => c r
  | (u, v) :: ps, d, r, c =>
    match d[u * n + v]? with
    | none => .panic
    | some e => .op .Mul e (some e) fun a _ => .op .Add r (some (.var a)) fun b _ => sumSquares n ps d (.var b) c

/-- The order of the loops in floyd_warshall.rs:155-156. -/
def exitPairs (exits : List Nat) : List (Nat × Nat) := exits.flatMap fun u => exits.map fun v => (u, v)

/-- floyd_warshall.rs:164-173: the function recorded in `tape_badness`. -/
def badness (n : Nat) (exits : List Nat) : Func S :=
  .simple (n * n) 1 fun _ =>
    sumSquares n (exitPairs exits) ((List.range (n * n)).map .var) (.lit Flt.zero) fun r => .ret [r]

/-- floyd_warshall.rs:137, 174: the two tapes recorded at the beginning. All independents have the value 0. -/
def record (N : Net S) : M (World S) (Tape S × Tape S) := do
  let tapeInit ← (init N).tape (List.replicate N.lights Flt.zero)
  let tapeBadness ← (badness N.n N.exits).tape (List.replicate (N.n * N.n) Flt.zero)
  return (tapeInit, tapeBadness)

/-- floyd_warshall.rs:139-149 `tape_step`. -/
def tapeStep (n k : Nat) : M (World S) (Tape S) := (step n k).tape (List.replicate (n * n) Flt.zero)

/-- floyd_warshall.rs:180-184: the loop of `zero_order` for the remaining values of `k`. -/
def stepLoop (n : Nat) : List Nat → List S → M (World S) (List S)
  | [], graph => pure graph
  | k :: ks, graph => do
      let t ← tapeStep n k
      let t ← M.lift (t.zeroOrder graph)
      let graph ← M.lift t.y
      stepLoop n ks graph

/-- floyd_warshall.rs:176-188 the closure `zero_order`. -/
def zeroOrder (N : Net S) (tapes : Tape S × Tape S) (params : List S) : M (World S) S := do
  let t ← M.lift (tapes.1.zeroOrder params)
  let graph ← M.lift t.y
  let graph ← stepLoop N.n (List.range N.n) graph
  let t ← M.lift (tapes.2.zeroOrder graph)
  let y ← M.lift t.y
  M.lift (getR y 0)

/-- floyd_warshall.rs:192-198, 204-210: the tape for index `i` of the sequence. -/
def pick (N : Net S) (tapes : Tape S × Tape S) (i : Nat) : M (World S) (Tape S) :=
  if i = 0 then pure tapes.1 else if i < N.n + 1 then tapeStep N.n (i - 1) else pure tapes.2

/-- floyd_warshall.rs:191-202 the closure `forward`. -/
def forward (N : Net S) (tapes : Tape S × Tape S) (s : Nat × List S) : M (World S) (Nat × List S) := do
  let t ← pick N tapes s.1
  let t ← M.lift (t.zeroOrder s.2)
  let y ← M.lift t.y
  return (s.1 + 1, y)

/-- floyd_warshall.rs:203-218 the closure `reverse`. -/
def reverse (σ : Sched) (N : Net S) (tapes : Tape S × Tape S) (s : Nat × List S) (next : GenJac S) :
    M (World S) (GenJac S) := do
  let t ← pick N tapes s.1
  let t ← M.lift (t.zeroOrder s.2)
  M.lift (generalizedJacobianTape (σ.at_ s.1) t (List.replicate s.2.length Flt.zero) [0] (some next))

/-- floyd_warshall.rs:219-223 the closure `identity`. -/
def identity : GenJac S :=
  { homogenous := DMat.identity 1, inhomogenous := List.replicate 1 Flt.zero, multiplicity := 0 }

/-- floyd_warshall.rs:190-227 the closure `calculate_gradient`. `est` and `capMax` are the parameters of
`reverse_sequence`, `σ` is the schedule of the parallel loops. The result is a matrix with one column. -/
def calculateGradient (σ : Sched) (est : Int → Int → Int) (capMax : Nat) (N : Net S) (tapes : Tape S × Tape S)
    (params : List S) : M (Ckpt.World (World S)) (DMat S) := do
  let g ← Ckpt.reverseSequence est capMax (0, params) (N.n + 2) N.n (forward N tapes) (reverse σ N tapes)
    (fun _ => pure identity)
  let h := g.homogenous
  return { nrows := h.ncols, ncols := h.nrows, get := fun i j => h.get j i }

/-- floyd_warshall.rs:61-62, 92, 102-134, 153: the network of the example; the lights 3, 5, 10, 12, 17, 19 are numbered
from 0. -/
def network (lo hi inf : S) : Net S where
  n := 23
  lights := 6
  edges := [⟨0, 3, 0, true⟩, ⟨1, 5, 1, true⟩, ⟨2, 3, 0, false⟩, ⟨3, 4, 0, false⟩, ⟨4, 5, 1, false⟩, ⟨5, 6, 1, false⟩,
    ⟨3, 7, 0, true⟩, ⟨5, 8, 0, true⟩, ⟨7, 10, 2, true⟩, ⟨8, 12, 3, true⟩, ⟨9, 10, 2, false⟩, ⟨10, 11, 2, false⟩,
    ⟨11, 12, 3, false⟩, ⟨12, 13, 3, false⟩, ⟨10, 14, 2, true⟩, ⟨12, 15, 2, true⟩, ⟨14, 17, 4, true⟩, ⟨15, 19, 5, true⟩,
    ⟨16, 17, 4, false⟩, ⟨17, 18, 4, false⟩, ⟨18, 19, 5, false⟩, ⟨19, 20, 5, false⟩, ⟨17, 21, 4, true⟩, ⟨19, 22, 4, true⟩]
  exits := [0, 1, 2, 6, 9, 13, 16, 20, 21, 22]
  lo := lo
  hi := hi
  inf := inf

end Adv.Fw
