# Formal model of `advantage` in Lean 4 — design

Source: `/repo` (Rust, plus the C++ binding). Nothing is executed; every model definition cites the
file and lines it was read from.

## Layout

* `lean/Verif/Model/*`  — executable (total) model, function by function.
* `lean/Verif/Spec/*`   — small independent specifications (what a user expects).
* `lean/Verif/Proof/*`  — helper lemmas.
* `lean/Verif/Props/*`  — the property theorems named in `MANIFEST.json`, with a non-vacuity `example`
  next to each.
* `lean/Verif/Conformance/*` — the crate's own unit tests, run on the model (see "Evidence that the model is
  the code"). These are not property theorems.

## Modelling decisions

* **Scalars.** `class Flt S` is an *uninterpreted* signature with the scalar functions the code calls
  (`+ - * /`, `sin`, `powf`, `powi`, comparisons, ...). Theorems stated for every `Flt S` therefore hold
  for IEEE `f64` exactly as the code computes it. `class LawfulFlt K` says the arithmetic part is that of
  an ordered field; instances for `ℚ` and `ℝ` are given. Derivative theorems are about `ℝ` with
  Mathlib's `sin`, `exp`, `log`, `rpow`, ...: rounding is not modelled there, except in C65 and C78-C80, which compare the run in
  a floating point arithmetic to the exact one (C78-C80 with infinities, NaN and signed zeros).
* **Panics** are explicit: `Res α = Except Err α`. Effects on the global registry are
  `M W α = W → Res α × W`, so the state after a panic is also observable.
* **Vectors** are lists, **matrices** `nrows × ncols` with an entry function; index and shape checks of
  nalgebra are explicit errors.
* **User functions** are programs `Prog` (a free monad of `AFloat` operations whose continuation may
  inspect values, i.e. value-dependent branching and arbitrary loops that terminate). `SLProg`-style
  (value-independent) programs are used where a property needs control flow not to depend on values.
  Not covered: user code that mutates values in place with `value_mut`/`dvalue_mut` (but see C81), captures recorded
  variables in closures, or builds `AFloat::new(v, dv)` with `dv ≠ 0` inside a recorded function.
* **Threads.** The context registry is modelled a second time as a labelled transition system whose
  atomic steps are the lock-protected sections of the code, any number of threads, any interleaving. A third
  model makes the mutexes explicit and interleaves single statements; C63 proves the two equivalent.
* **rayon.** `map/reduce` is modelled as evaluation of an arbitrary reduction tree.
* **Machine integers.** `usize` subtraction is checked; the binomials of the checkpointing code are
  checked against the word size; ids are taken modulo 2^64.
* **C++ binding.** The ownership protocol of `ADouble` is modelled on an explicit heap.

## Plan per property

| id | modelled | proof idea |
|----|----------|------------|
| C01 | dual evaluation of straight-line programs over ℝ | induction over operations; little-o calculus shared with C14 |
| C02 | `Prog` run in the registry monad vs. plain evaluation | simulation invariant |
| C03 | `Function::tape` in the registry monad | same simulation |
| C04 | `Tape::zero_order` on the recorded tape | simulation, function-level sweep |
| C05, C06 | `zero_order` | single-assignment invariant ⇒ sweep determined by inputs |
| C07 | `first_order_forward` vs. dual evaluation | simulation |
| C08 | forward sweep, lawful scalars | induction over ops |
| C09 | both sweeps | invariant Σ vbar·dv over the op list; false with duplicated dependents (refuted by witness) |
| C10 | reverse sweep | case analysis |
| C11, C12 | `jacobian_*` | C01/C07/C09 |
| C13 | reduction trees, assembly loop | permutation invariance |
| C14 | forward sweep with abs over ℝ | big-O calculus, `||a|-|b|| ≤ |a-b|` |
| C15–C17 | abs-normal tapes | linearity, superposition, triangularity |
| C18 | `row`, `column` | C17; `column` refuted |
| C19–C23 | `generalized_jacobian_tape` | triangular fixpoint iteration, matrix algebra |
| C24, C25 | chain driver | C26 + C19 |
| C26–C31 | checkpointing | loop invariant over the checkpoint stack; Stirling for `find_t` |
| C32, C33 | `FunctionChain` | structural induction on nesting |
| C34–C36, C39, C49, C50, C54 | registry | invariants over API histories |
| C37, C38 | transition system | inductive invariant over interleavings |
| C40–C46 | `AFloat` methods | direct, real analysis |
| C47, C48 | C++ layer | heap invariant; refutations by witness |
| C51–C53 | sweeps | non-interference, bounds |
| C55, C56 | operations, `eval`, `tape` | refinement of an independent interpreter; jets over ℝ |
| C57 | reverse sweep, `jacobian_reverse`, views, `generalized_jacobian` | seeds of all but the last registration vanish; all results follow by linearity |
| C58 | `zero_order`, `tape` | lockstep simulation of two recordings; a tape is determined by structure, constants and inputs |
| C59 | `next_checkpoint`, `schedule`, `reverse_sequence` | potential function for the count; lower bound for all strategies of a pebble game by a convex recursion |
| C60, C61 | `generalized_jacobian` | the local affine pieces; closed covers and Baire category for the limits |
| C62 | both generalized Jacobian drivers on a chain | evaluation of a piece at a probe vector as a second semantics of the program; induction over the links |
| C63 | mutexes of `acontext.rs` | second transition system with explicit locks and statement-level steps; forward simulation into the atomic one and back; bound on the remaining steps |
| C64 | forward sweep with abs over ℝ | the calculus of C14 with remainder `O(‖d‖²)`; C² Taylor bound for each operation |
| C65 | any arithmetic with relative and absolute error `u` per operation (formats with bounded exponents, underflow and overflow included), as a second instance of `Flt ℝ` | all arithmetics that are close enough, as a family along a filter: every value of the rounded run is the exact one `+ O(u)`, by induction over program and tape; uniform constants by contradiction; entry by entry for both Jacobian drivers |
| C66 | `AFloat<f32>`: conversions into the `f64` registry, histories with several precisions | the registry does not look at values: naturality in the scalar type; mixed histories are mapped to the one-element scalar type; own invariant for values |
| C67 | which functions register nothing twice | syntactic predicate on programs (`Spec/Fresh`); recording numbers the values of a program injectively |
| C68 | `zero_order` of the Floyd-Warshall example | evaluation of the recorded programs as functions on matrices; walks (`Spec/FloydWarshall`); invariant of the algorithm; spanning tree of the network |
| C69 | `calculate_gradient` of the Floyd-Warshall example | the result of the driver on one tape is the derivative of the selected piece with seeds of repeated dependents overwritten (`Selection`); product over the links (`FwGradient`); the weights are symmetric, each is counted once instead of twice (`FwHalf`); derivative of the distances where there are no ties (`FwDeriv`) |
| C70 | the training loop of the perceptron example | evaluation of the recorded program (`Proof/Perceptron`); value and Fréchet derivative of the error by structural rules (`Proof/NnDeriv`); loop invariant in any arithmetic (`Proof/NnTrain`); symmetry of the error gives the symmetry of the gradient |
| C71 | the optimisation loop of the Floyd-Warshall example | loop invariant with a budget of context ids; halving gradients and doubling step sizes cancel in the step rule (`Proof/FwOptimise`) |
| C72 | nested variables compute second derivatives | each operation maps 2-jets of functions to the 2-jet of the composition; induction over user code with families of twice differentiable functions (`Proof/Nested`) |
| C73 | nested variables compute derivatives of all orders | jets with any number of levels, by induction on the level, simultaneously for all operations and all analytic functions; then induction over user code (`Proof/NestedN`); powers, quotients, logarithms and inverse functions under the condition that no executed power skips a derivative, which is stated on the nested evaluation itself (`Spec/NestedSteady`, `Proof/NestedSteady`) |
| C74 | the tape of a function, entry by entry | an interpreter of user code that writes the tape without registry and locks (`Spec/Layout`); simulation of `from_op` and `set_dep` (`Proof/Layout`) |
| C75 | `generalized_jacobian` in direction 0 gives limiting Jacobians of the function itself | a calculus of pairs (function, model) that are differentiable on open sets dense near the point, with derivatives converging along rays; closed under all operations including abs (`Proof/Conical`) |
| C76 | rounding errors in the estimate of `find_t` | forward error analysis of the expression with relative errors up to `2⁻⁴⁵`; the exact estimate is at least `(c-1)/2` below the number of repetitions (`Proof/CkptRound`) |
| C77 | `reverse_sequence` panics or is right, without size limits | partial correctness; the schedule is treated as arbitrary (`Proof/CkptAny`) |
| C78 | the same for machine numbers of any type with infinities, NaN and signed zeros (`Spec/Machine`, `Spec/Ieee`) | the families of C65 over a type of numbers for each member: every number is eventually finite and `+ O(u)`; code over two types of numbers in lockstep; integer exponents of non-positive bases are constants of the tape that both runs share |
| C79 | abs-normal forms computed by machines | the families of C78 for vectors, matrices, views of tapes and monadic code; nothing is assumed about repeated abs arguments or outputs (`Proof/RoundAnf`, `Proof/RoundGenJac`) |
| C80 | generalized Jacobians computed by machines, where no sign bits are used | if the exact iteration stops, continuing does not change it, so both branches are close; if it does not stop, the machine does not either for small `u`; signs of nonzero numbers agree for small `u`; for chains, induction over the links, where the multiplicities of the links add up |
| C81 | `value_mut` of recorded variables does not change replays (`Spec/ValueMut`) | two runs of a history in lockstep, with and without the changes: the recordings differ in values only, and not in those of constants |
| C82 | whatever `generalized_jacobian_chain` returns is right, whatever the checkpoints and estimates are | as C77: results of the closures are pure where they return; then C24 for the fold |
| C83 | matrices of the chain driver are limiting Jacobians (multiplicity at most 1) | C62 gives the piece of the whole tape; the kinks on the whole tape are counted by the links, since a link records more variables (`Proof/Kinks`: two layouts of the same code in lockstep); then C61, C75. Counterexample: a chain that vanishes |
| C84 | `reverse_sequence` and `generalized_jacobian_chain` return the same results in debug and in release builds | second model with wrapping arithmetic (`Model/CkptRelease`); the asserts of `find_t` and Pascal's rule exclude wrapping in `next_checkpoint`, the bounds of the schedule exclude it elsewhere (`Proof/CkptRelease`) |
| C85 | all sign bits give limiting Jacobians at independent kinks | the switching equations solved along a direction in which every vanishing switching variable moves to its selected side; the qualification (`Spec/Likq`) gives such a direction for every choice of signs (`Proof/Likq`) |
| C86 | every limiting Jacobian of the function is reached by some sign bits | a shadow evaluation on the tape carries, for every choice of signs at the vanishing abs arguments, the smooth piece and its derivative (`Proof/ShadowNear`, `Proof/PieceShadow`); the function is a selection of finitely many pieces (`Proof/PieceFunc`); a derivative of a selection is that of a piece, as a vector space is no finite union of proper subspaces (`Proof/Pieces`) |
| C87 | Lipschitz continuity, semismoothness, local quadratic convergence of Newton's method with generalized Jacobians | `func_pieces` also gives a Lipschitz bound; a limiting Jacobian of a continuous selection at z is the derivative of a piece active at z (`selection_limiting_active`, `selection_semismooth`). For the results with arbitrary sign bits: at every z near x a shadow evaluation collects the increments of all choices of signs, independently at every abs operation (`Proof/SemiShadow`); each operation keeps them within `K ‖z - x‖²` of the difference of the values, and the result at z applied to z - x is among them (`Proof/SemiFunc`). The inverse B exists in exact arithmetic, how it is computed is not part of the library |
| C88 | Newton's method with the chain driver; in direction 0 its result is linear | the increments that all choices of signs give (C87) are carried through the links one after the other: the result of a link applied to an increment is an increment of the next link (`chain_increments`), and the direction stays 0 along the chain. So only the tapes of the links have to have distinct outputs and abs arguments, not a tape of the whole chain (as in C83) |
| C89 | near a point all tapes have the same entries; the returned matrices are upper semicontinuous; Newton's method is well defined near a zero where all returned matrices are invertible | the layout of the tape (`Proof/Layout`) is computed with functions of the point in place of numbers (`layout_prog`, `layout_progs`, `tape_near` in `Proof/TapeNear`); for fixed signs the increments are continuous functions of the point (`signed_cont`), the signs at z near x also fit the abs arguments at x, so some sign bits select them at x (`results_near`); the set of invertible operators is open (`units_near`) |
| C90 | Newton's method with the chain driver is well defined near a zero; the conditions on the links are open conditions | the layout of the tape of a link is computed for inputs that are functions of the point, link after link (`links_near` in `Proof/ChainNear`); the matrix of the chain driver is that of the driver for functions with all sign bits 0 (C62), so C89 applies |
| C91 | the residual bounds the error near a zero with invertible generalized Jacobians; Newton's method converges with inexact solutions of the linear systems | C89 bounds the inverses near the zero and C87 bounds the error of the linear model; only the linear solve is inexact, values and matrices are those of exact arithmetic |
| C92 | Newton's method with perturbed matrices, values and solutions converges up to a multiple of the absolute perturbation | as C91, with the perturbation of the matrix absorbed in the residual; the size of the perturbations is a hypothesis, C65 is what bounds them for floating point arithmetic, but the two are not composed |

## Trusted base

* **Checker.** The Lean 4.33.0 kernel. No compiler evaluation is trusted: no `native_decide`, `bv_decide`,
  `implemented_by`, `unsafe`. Concrete witnesses use `decide +kernel`, i.e. reduction in the kernel.
* **Axioms.** None of our own, no `sorry`. `#print axioms` on all theorems named in `MANIFEST.json` yields subsets of
  `propext`, `Classical.choice`, `Quot.sound` and nothing else. `Classical.choice` enters through Mathlib (reals, linear
  algebra) and classical case distinctions.
* **Mathlib**, as checked definitions: `ℝ`, `HasDerivAt`/`HasFDerivAt`, `Matrix`, elementary functions. Its statements
  are part of what the derivative theorems mean.
* **The transcription.** That `Model/*` is a faithful reading of `/repo` is not proved; it rests on the line references.
* **The statements** in `Props/*` and the specifications in `Spec/*`. They are tested by seeded errors
  (`seeded/LOG.jsonl`): a wrong model must make the theorem that claims otherwise false.

### Modelled

| code | model | remarks |
|------|-------|---------|
| `operation.rs` | `Model/Operation` | all opcodes, zero order, first order, reverse; argument checks |
| `acontext.rs` | `Model/AContext` | registry, reference counts, poisoning of the per-context mutex, tapes |
| `afloat.rs` | `Model/AFloat` | `from_op`, operators, `Float` methods, comparisons, conversions |
| `tape.rs` | `Model/Tape` | ids, `x`, `y`, replay and both sweeps |
| `function.rs`, `adv_fn!` of `macros.rs` | `Model/Function` | user code as `Prog` |
| `drivers/jacobian.rs` | `Model/Jacobian`, `Model/Parallel` | any reduction tree |
| `drivers/abs_normal.rs` | `Model/AbsNormal` | tape and matrix views, `abs_normal` |
| `AFloat<S>` for other scalar types, `cast` | `Model/Precision` | conversion to the registry as a parameter |
| `AFloat<AFloat<S>>` | `Model/Nested` | the variables inside have no context; generic code as the image of code for `S` |
| `AFloat<…<AFloat<S>>>` | `Model/NestedN` | iteration of the preceding row |
| `drivers/generalized_jacobian.rs` | `Model/GeneralizedJacobian`, `Model/Chain` | |
| `drivers/checkpointing.rs` | `Model/Checkpointing`, `Model/CkptRelease` | word size as a parameter of the arithmetic |
| `examples/floyd_warshall.rs` | `Model/FloydWarshall`, `Model/FwOptimise` | any network; step size and norm are parameters of the loop; of the output, only the errors |
| `examples/perceptron.rs` | `Model/Perceptron` | step size and norm are parameters of the loop; not the output |
| registry under threads | `Model/Concurrent`, `Model/Locks` | transition systems with atomic critical sections and with explicit mutexes, linked to each other and to the sequential model |
| `ffi.rs`, `cxx/*.cpp`, `include/adv/*.hpp` | `Model/Cxx` | explicit heap of boxes, client histories |

### Not modelled

* Special values of IEEE arithmetic, except where theorems hold over an arbitrary `Flt S` (which
  includes `f64`) and in C78-C80, which show that none arise inside of the domains. Theorems over `LawfulFlt` or `ℝ` are about exact arithmetic; C65 bounds the effect of rounding,
  underflow and overflow under the model `|fl(a ∘ b) - a ∘ b| ≤ u (|a ∘ b| + 1)` wherever `|a ∘ b| ≤ 1 / u`, which also
  has to hold for the elementary functions; results that overflow are arbitrary real numbers in C65 and infinities or
  anything else in C78-C80. Comparisons of finite numbers are exact. In the sweeps of C65 and C78, powers have a positive base or an exponent that is an integer constant, as in `powi`. `ℚ` and `NQ` (`ℚ` with NaN) only serve for witnesses; their elementary functions are placeholders.
* Narrowing conversions that fail (`AFloat::cast`, `NumCast`): conversions are total functions. Outside of C66 the scalar
  type of variables and tapes is the same (`ADouble`); outside of C81, histories do not change values with `value_mut`.
* `AContext::record` called by user code with arguments that do not belong together. `record` is public, checks nothing
  and can break the single-assignment form (C50). Histories contain calls with recorded arguments, an opcode of the right
  arity and the value of the operation (`RecordArgs`).
* `Debug`/`Display` output, trait plumbing (`scalar.rs`, `lib.rs`), `adv_dvec!`, benches, tests, examples other than `floyd_warshall.rs` and `perceptron.rs`.
* Memory exhaustion, stack overflow, non-terminating user code.
* Integer overflow is treated as in a debug build (panic); C84 treats the checkpointing code, the only code that computes
  with integers other than counters, also as in a release build (wrapping). The counter of context ids is assumed not to wrap where
  a theorem has the hypothesis `nextId < usizeMax`. Multiplicities are natural numbers: their sum with a multiplicity near
  `usize::MAX` in the argument `next` of `generalized_jacobian` would overflow.
* Nothing of `find_t`'s floating point estimate is left out, except for overflow, underflow and NaN: all intermediate
  values lie between `2⁻⁶⁴` and `2¹⁶⁰`, so these do not occur. The theorems on checkpointing hold for every estimate that does not exceed
  the number of repetitions; `estimate` is the expression of the code, over any arithmetic, and C76 shows that it does not.
* Threads: sequentially consistent interleavings; no weak memory. Fairness is not needed: C63 bounds all schedules.
* rayon: only the shape of reductions and the order of results, not scheduling or panics inside the pool.
* C++: no exceptions, templates or ABI; undefined behaviour is an explicit error of the model.

## Evidence that the model is the code

The model was written by reading `/repo`; nothing machine-checked connects the two. Two things make a
transcription error unlikely to go unnoticed.

* `Conformance/Tests.lean`, `RealTests.lean`, `CxxTests.lean` run every unit test of the crate (and the gtest
  files of the C++ interface) on the model. Tests with rational results are evaluated by the kernel over `ℚ`,
  at the points of the test. Tests with transcendental functions are proved over `ℝ` for every point of the range.
* `seeded/LOG.jsonl` records what happens to the theorems when the model is changed like a realistic bug.
  24 entries used to list examples that failed "out of memory". In these runs Lean had aborted under the address space limit of the
  test harness. `Props/FwGradient` does so without any edit, so this was no evidence. These entries now list the modules
  separately. All verdicts rest on other declarations that failed.

Proofs that run the model symbolically use `Proof/KernelRfl.lean`: `kernel_rfl` and `kernel_eval` produce a
reflexivity proof which the kernel checks when the theorem is added; they add no axiom and nothing to trust.

## Deviations of the code from the stated properties

Each one is a theorem with a concrete witness, next to the part of the property that does hold (suffix `_partial`).

| property | what happens |
|----------|--------------|
| C01 | with `abs`, the derivative is an increment; it is not the directional derivative if the step crosses a kink |
| C07 | with NaN, the forward sweep and dual evaluation differ for operations on constants only |
| C09, C12, C15, C17, C19–C22, C24 | `first_order_reverse` assigns the seed of a repeated dependent instead of adding it |
| C18 | `column(i)` panics unless there is exactly one column |
| C25 | `generalized_jacobian_chain` with `None` panics for chains with fewer than two links |
| C28 | binomials overflow beyond the word limit |
| C41 | `cbrt` is `powf(1/3)`, not the real cube root for negative numbers |
| C42 | `abs_sub` is `abs(a - b)`, not the positive difference |
| C44 | `to_f64` truncates |
| C47 | C++ operators mixing `ADouble` and `double` always add |
| C48 | C++ copy self-assignment reads freed memory |
| C61 | contradictory sign bits of coinciding kinks give a matrix outside of Clarke's generalized Jacobian |
| C62, C83 | the chain driver takes the sign -1 at every kink, also where the signs of two links exclude each other: for a chain that vanishes it returns the slope -2 |
| C69 | the gradient computed by the Floyd-Warshall example is one half of the gradient, for the reason given for C09 |
| C72 | nested variables lose second derivatives of powers whose base has derivative zero; recording them truncates |
| C73 | with three levels, third derivatives of quotients are wrong where the derivative of the denominator is zero |
