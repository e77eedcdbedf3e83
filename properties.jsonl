{"id": "C01", "title": "Forward-mode values are exact derivatives", "statement": "If a function is evaluated on AFloat inputs (x_i, dx_i) and every elementary operation it executes is differentiable at the point it is executed at, then the dvalue() of each output is the Frechet derivative of that output, as a function of the inputs, applied to dx (in exact real arithmetic).", "quantifier": "all straight-line programs over the supported operations (any length), all input vectors in the domain, all directions dx", "why_tests_cant": "Tests compare a handful of unary functions with a hand-written derivative on ~10 points; the claim is about every composition at every point.", "anchors": ["src/afloat.rs: AFloat::from_op", "src/operation.rs: zero_order_value, first_order_value"]}
{"id": "C02", "title": "Derivative seeds and recording never change values", "statement": "The value() of every result of a function evaluation is the same whatever derivative seeds the inputs carry, and whether or not the inputs are attached to a recording context; the dvalue() is the same with and without recording.", "quantifier": "all user functions built from AFloat operations (including value-dependent branching), all inputs, all seeds, all interpretations of the scalar arithmetic", "why_tests_cant": "A unit test evaluates one function at one point; the claim is parametric in program, input and arithmetic.", "anchors": ["src/afloat.rs: AFloat::from_op", "src/function.rs: Function::tape, Function::eval_float"]}
{"id": "C03", "title": "A recorded tape stores the evaluation it recorded", "statement": "Function::tape(x) returns a tape with num_indeps()=len(x), num_deps()=number of outputs, x()=x and y()=eval_float(x), and it panics exactly when the evaluation itself panics.", "quantifier": "all user functions, all inputs, any prior state of the context registry", "why_tests_cant": "Must hold for any program, any number of constants and intermediate values.", "anchors": ["src/function.rs: Function::tape", "src/acontext.rs: AContext::set_indep, set_dep, record, tape", "src/tape.rs: Tape::x, Tape::y"]}
{"id": "C04", "title": "Replaying a tape re-evaluates the function", "statement": "For a function whose control flow does not depend on values, after tape(x0) and zero_order(x1) the tape's y() equals eval_float(x1), bit for bit (same scalar operations in the same order), and x() equals x1.", "quantifier": "all straight-line functions, all recording points x0, all replay points x1, all scalar arithmetics", "why_tests_cant": "Tests replay one arithmetic function at one point.", "anchors": ["src/tape.rs: Tape::zero_order", "src/operation.rs: Operation::zero_order"]}
{"id": "C05", "title": "Replay is history independent", "statement": "After any sequence of zero_order calls on a recorded tape, the complete tape contents (all intermediate values, hence y() and all derivatives) depend only on the last argument vector; in particular replay is idempotent and replaying at the recording point restores the recorded tape.", "quantifier": "all well-formed tapes, all finite sequences of replay arguments", "why_tests_cant": "Quantifies over unbounded call histories.", "anchors": ["src/tape.rs: Tape::zero_order"]}
{"id": "C06", "title": "Replay with a wrong argument length is rejected", "statement": "zero_order(x) panics whenever len(x) differs from num_indeps(), and never panics on a recorded tape when the lengths agree.", "quantifier": "all well-formed tapes, all vectors", "why_tests_cant": "Needs an argument that no index on any recorded tape is ever out of bounds.", "anchors": ["src/tape.rs: Tape::zero_order"]}
{"id": "C07", "title": "Tape forward sweep equals tapeless forward mode", "statement": "For the tape recorded at x, first_order_forward(dx) equals the vector of dvalue()s obtained by evaluating the function on AFloats (x_i, dx_i), exactly (same scalar operations).", "quantifier": "all user functions that branch only on values, all x, all dx, all scalar arithmetics, functions with and without abs", "why_tests_cant": "Two independent implementations have to agree for every program.", "anchors": ["src/tape.rs: Tape::first_order_forward", "src/operation.rs: Operation::first_order", "src/afloat.rs: AFloat::from_op"]}
{"id": "C08", "title": "Forward sweep is linear on smooth tapes", "statement": "On a tape without abs operations first_order_forward is a linear map of dx.", "quantifier": "all well-formed abs-free tapes, all directions and scalars of an ordered field", "why_tests_cant": "Linearity is a statement about all pairs of vectors.", "anchors": ["src/tape.rs: Tape::first_order_forward", "src/operation.rs: first_order_value"]}
{"id": "C09", "title": "Reverse sweep is the adjoint of the forward sweep", "statement": "On an abs-free recorded tape, <ybar, first_order_forward(dx)> = <first_order_reverse(ybar), dx> for all ybar and dx.", "quantifier": "all recorded abs-free tapes, all ybar, dx", "why_tests_cant": "Adjointness quantifies over all pairs of vectors and all tapes.", "anchors": ["src/tape.rs: Tape::first_order_reverse, Tape::first_order_forward", "src/operation.rs: Operation::first_order_reverse"]}
{"id": "C10", "title": "Reverse sweep rejects exactly the tapes with abs", "statement": "first_order_reverse on a recorded tape with a long enough ybar panics if and only if the tape contains an abs operation; jacobian_reverse panics if and only if it contains an abs operation and has at least one dependent.", "quantifier": "all recorded tapes, all ybar", "why_tests_cant": "The if-and-only-if needs the absence of every other panic.", "anchors": ["src/operation.rs: Operation::first_order_reverse", "src/drivers/jacobian.rs: jacobian_reverse"]}
{"id": "C11", "title": "jacobian_forward returns the matrix of partial derivatives", "statement": "For a smooth function, entry (i,j) of jacobian_forward(f,x) is the partial derivative of output i with respect to input j, and the matrix represents the Frechet derivative of f at x.", "quantifier": "all straight-line smooth functions, all points in their domain", "why_tests_cant": "Tested only on polar coordinates at one point.", "anchors": ["src/drivers/jacobian.rs: jacobian_forward"]}
{"id": "C12", "title": "Forward and reverse Jacobians agree", "statement": "For a smooth function jacobian_reverse of its tape recorded (or replayed) at x equals jacobian_forward at x.", "quantifier": "all smooth functions, all points", "why_tests_cant": "Agreement of two algorithms on all programs; the tests only try one function.", "anchors": ["src/drivers/jacobian.rs: jacobian_forward, jacobian_reverse"]}
{"id": "C13", "title": "Parallel Jacobian assembly does not depend on the schedule", "statement": "However rayon splits and recombines the column (or row) computations, jacobian_forward, jacobian_reverse and the products of abs-normal matrices return the same matrix as the sequential loop.", "quantifier": "all reduction trees with identities inserted anywhere, and all permutations of the computed columns", "why_tests_cant": "A test run exercises one schedule.", "anchors": ["src/drivers/jacobian.rs: par_iter().map().reduce()", "src/drivers/abs_normal.rs: mul_right, mul_left"]}
{"id": "C14", "title": "With abs, the forward sweep is the piecewise linearization", "statement": "For functions using abs (hence max, min), the increment first_order_forward(dx) (equivalently the dvalue()s) approximates f(x+dx)-f(x) with error o(|dx|), even at kinks.", "quantifier": "all straight-line functions over the supported operations, all points where the smooth operations are differentiable, limit dx->0", "why_tests_cant": "A limit statement.", "anchors": ["src/operation.rs: first_order_value (Abs case)", "src/tape.rs: Tape::first_order_forward"]}
{"id": "C15", "title": "The abs-normal form reproduces the function's piecewise linear model", "statement": "With (a,Z,L,b,J,Y) = abs_normal(f,x): for every dx the system zhat = a + Z dx + L|zhat| has the unique solution zhat = switching values plus their increments, and b + J dx + Y|zhat| equals the increment first_order_forward(dx).", "quantifier": "all functions (any number and nesting of abs), all x, all dx", "why_tests_cant": "Equality of two piecewise linear maps at all points.", "anchors": ["src/drivers/abs_normal.rs: abs_normal, AbsNormalTape"]}
{"id": "C16", "title": "L is strictly lower triangular", "statement": "The L matrix of the abs-normal form of any recorded tape is strictly lower triangular.", "quantifier": "all recorded tapes", "why_tests_cant": "Structural property of every recording.", "anchors": ["src/drivers/abs_normal.rs: AbsNormalL"]}
{"id": "C17", "title": "Left and right products with Z, L, J, Y use the same matrix", "statement": "For each of AbsNormalZ/L/J/Y there is one matrix A of shape nrows x ncols such that mul_right(B) = A*B and mul_left(C) = C*A for all conforming B and C; non-conforming arguments panic. Hence abs_normal returns the same form whichever of the two products its n<s / n<m / s<m tests select.", "quantifier": "all recorded tapes, all conforming matrices", "why_tests_cant": "Tests multiply with identities on one example.", "anchors": ["src/drivers/abs_normal.rs: mul_right, mul_left, abs_normal"]}
{"id": "C18", "title": "row(i) and column(j) extract rows and columns", "statement": "row(i) of an abs-normal matrix is its i-th row and column(j) its j-th column, for all valid indices.", "quantifier": "all recorded tapes, all valid indices", "why_tests_cant": "column() is not tested at all.", "anchors": ["src/drivers/abs_normal.rs: row, column"]}
{"id": "C19", "title": "The generalized Jacobian is exact at dx", "statement": "With (G,gamma,k) = generalized_jacobian(f,x,dx,bits,None): G dx + gamma equals the piecewise linear increment first_order_forward(dx), for every choice of sign bits.", "quantifier": "all functions, all x, dx, all sign bit strings", "why_tests_cant": "Quantifies over all functions, directions and bit strings.", "anchors": ["src/drivers/generalized_jacobian.rs: generalized_jacobian, generalized_jacobian_tape"]}
{"id": "C20", "title": "The generalized Jacobian is the active linear piece", "statement": "(G,gamma) describes the piecewise linear model on the whole polyhedron of directions dx' whose switching values have signs compatible with the chosen signature; if multiplicity is 0 this polyhedron contains a neighbourhood of dx.", "quantifier": "all functions, x, dx, bits, all dx' in the polyhedron", "why_tests_cant": "A statement about infinitely many dx'.", "anchors": ["src/drivers/generalized_jacobian.rs: generalized_jacobian_tape"]}
{"id": "C21", "title": "multiplicity and sign bits", "statement": "multiplicity is exactly the number of switching variables that vanish at dx; exactly those take their sign from sign_bits, in tape order, least significant bit of each byte first, and -1 once the bits are exhausted.", "quantifier": "all recorded tapes, all dx, all byte strings including empty and short ones", "why_tests_cant": "All bit strings of all lengths.", "anchors": ["src/drivers/generalized_jacobian.rs: bit_iter, generalized_jacobian_tape"]}
{"id": "C22", "title": "Without abs the generalized Jacobian is the Jacobian", "statement": "On a tape without abs operations generalized_jacobian with next=None returns homogenous = Jacobian, inhomogenous = 0, multiplicity = 0, whatever the sign bits and dx.", "quantifier": "all smooth recorded tapes, all dx, bits", "why_tests_cant": "Universal over tapes and directions.", "anchors": ["src/drivers/generalized_jacobian.rs: generalized_jacobian_tape"]}
{"id": "C23", "title": "next composes generalized Jacobians", "statement": "Passing next=(G2,g2,k2) yields homogenous = G2*G, inhomogenous = g2 + G2*gamma, multiplicity = k + k2, where (G,gamma,k) is the result with next=None; a next whose column count differs from m panics.", "quantifier": "all functions, x, dx, bits, all next", "why_tests_cant": "Tests only use the identity as next.", "anchors": ["src/drivers/generalized_jacobian.rs: generalized_jacobian_tape"]}
{"id": "C24", "title": "Generalized Jacobian of a chain is exact for the composition", "statement": "generalized_jacobian_chain(chain,x,dx,c) = (G,gamma,k) satisfies G dx + gamma = dvalue()s of evaluating the whole chain on (x,dx); it is the right-to-left composition of the links' generalized Jacobians.", "quantifier": "all chains of functions, x, dx, checkpoint counts >= 2", "why_tests_cant": "Universal over chains and checkpoint numbers.", "anchors": ["src/drivers/generalized_jacobian.rs: generalized_jacobian_chain"]}
{"id": "C25", "title": "The chain result does not depend on the number of checkpoints", "statement": "generalized_jacobian_chain returns the same result for every ncheckpoints >= 2, and ncheckpoints = None is always a valid default.", "quantifier": "all chains, all checkpoint counts", "why_tests_cant": "Tests use only None on a chain of length 2.", "anchors": ["src/drivers/generalized_jacobian.rs: generalized_jacobian_chain"]}
{"id": "C26", "title": "reverse_sequence computes the plain reverse fold", "statement": "reverse_sequence(x,n,c,forward,reverse,identity) equals reverse(x_0, reverse(x_1, ... reverse(x_{n-1}, identity(x_n)))) with x_{i+1} = forward(x_i).", "quantifier": "all step functions (including panicking ones), all states, all nsteps, all ncheckpoints >= 2", "why_tests_cant": "One gauss-sum test exists; the claim ranges over all lengths, checkpoint counts and closures.", "anchors": ["src/drivers/checkpointing.rs: reverse_sequence, schedule"]}
{"id": "C27", "title": "reverse_sequence respects the checkpoint budget", "statement": "At no point are more than ncheckpoints states stored.", "quantifier": "all executions: all nsteps, ncheckpoints, every moment of the run", "why_tests_cant": "Safety invariant over all intermediate states.", "anchors": ["src/drivers/checkpointing.rs: reverse_sequence"]}
{"id": "C28", "title": "reverse_sequence terminates without panicking", "statement": "If ncheckpoints >= 2 and the closures do not panic, reverse_sequence never panics (no failed internal assertion, underflow or overflow) and terminates; with ncheckpoints < 2 it panics.", "quantifier": "all nsteps within the machine word limit, all ncheckpoints", "why_tests_cant": "Internal assertions depend on a floating point estimate and integer arithmetic for all (c,r).", "anchors": ["src/drivers/checkpointing.rs: reverse_sequence, schedule, next_checkpoint, find_t, beta"]}
{"id": "C29", "title": "Checkpoint schedules are well formed", "statement": "A schedule for c checkpoints and a sequence of length r is strictly increasing, has at most c entries, all in 1..r-1, is empty iff c=0 or r<=1 and otherwise ends exactly at r-1; the tail of a schedule is the shifted schedule for the remaining problem; with c >= r-1 it is 1,2,...,r-1.", "quantifier": "all c, r", "why_tests_cant": "Tests list a few schedules.", "anchors": ["src/drivers/checkpointing.rs: schedule"]}
{"id": "C30", "title": "find_t computes the minimal number of repetitions", "statement": "For c >= 2 and r >= 1 find_t(c,r) is the least t >= 1 with r <= binomial(c+t,c), and its internal assertions cannot fail when the starting estimate is computed exactly; for c=1 it is max(r-1,0).", "quantifier": "all c, r", "why_tests_cant": "Relies on Stirling's inequality for all c, r; one pair is tested.", "anchors": ["src/drivers/checkpointing.rs: find_t, beta"]}
{"id": "C31", "title": "Calls of the closures", "statement": "reverse is called exactly nsteps times, in order of decreasing index, identity once with the final state; forward is called exactly nsteps times when ncheckpoints > nsteps, and at least nsteps times always.", "quantifier": "all nsteps, ncheckpoints, closures", "why_tests_cant": "Counts over all executions.", "anchors": ["src/drivers/checkpointing.rs: reverse_sequence"]}
{"id": "C32", "title": "A function chain evaluates as the composition of its flattened links", "statement": "eval of a chain is the left-to-right composition of its links; nesting chains inside chains does not matter: eval, len and nth behave as for the flat list.", "quantifier": "all finite nestings of chains, all inputs", "why_tests_cant": "Arbitrary nesting depth.", "anchors": ["src/function.rs: FunctionChain::eval, iter, len, nth"]}
{"id": "C33", "title": "Chain construction keeps dimensions consistent", "statement": "append panics unless the new link's n equals the chain's current m; every chain built through the API is non-empty with matching adjacent dimensions, n() of its first and m() of its last link, also after flattening.", "quantifier": "all sequences of constructor calls, including nested chains", "why_tests_cant": "Invariant over all construction histories.", "anchors": ["src/function.rs: FunctionChain::new, append, append_boxed, n, m"]}
{"id": "C34", "title": "Contexts are isolated", "statement": "Context ids are never reused, and operations on variables of one context never read or modify any other context's recording.", "quantifier": "all histories of context creation, dropping, recording (fewer than usize::MAX creations)", "why_tests_cant": "Invariant over all histories.", "anchors": ["src/acontext.rs: AContextInner::new, NEXT_CONTEXT_ID, CONTEXT_MAP", "src/afloat.rs: AFloat::from_op"]}
{"id": "C35", "title": "Mixing contexts is rejected", "statement": "Combining variables of two different contexts in one operation panics and records nothing; set_dep of a variable of another context panics and changes neither recording.", "quantifier": "all states, all variables", "why_tests_cant": "All states of both recordings.", "anchors": ["src/afloat.rs: AFloat::from_op", "src/acontext.rs: AContext::set_dep"]}
{"id": "C36", "title": "Variables outlive their context as constants", "statement": "After a context is dropped, operations on its variables still compute the same value and derivative, record nothing anywhere, and their results carry no context.", "quantifier": "all histories, all operations", "why_tests_cant": "Depends on ids never being revived in any history.", "anchors": ["src/afloat.rs: AFloat::from_op", "src/acontext.rs: AContext::from_cid, Drop"]}
{"id": "C37", "title": "Concurrent recording keeps every recording well formed", "statement": "Under every interleaving of threads creating, recording into, sharing and dropping contexts, each recording stays in single-assignment form: every operation's arguments precede it, result ids are unique, every id ever handed out is in bounds and keeps its value.", "quantifier": "all interleavings of any number of threads at lock granularity", "why_tests_cant": "Schedules cannot be enumerated by tests.", "anchors": ["src/acontext.rs: AContext::record, set_indep, set_dep", "src/afloat.rs: AFloat::from_op"]}
{"id": "C38", "title": "A tape snapshot taken concurrently is usable", "statement": "AContext::tape reads its four components under separate locks; nevertheless under every interleaving the resulting tape only refers to value ids inside its value array, so x(), y(), zero_order and first_order_* cannot index out of bounds.", "quantifier": "all interleavings", "why_tests_cant": "Race-dependent.", "anchors": ["src/acontext.rs: AContext::tape, indeps, deps, operations, values"]}
{"id": "C39", "title": "Context lifetime", "statement": "from_cid(c) succeeds iff some handle of context c is still alive; when the last handle is dropped the registry entry disappears (no leak).", "quantifier": "all histories of handle creation and dropping", "why_tests_cant": "Histories.", "anchors": ["src/acontext.rs: AContext::from_cid, Drop for AContextInner"]}
{"id": "C40", "title": "Comparisons look at values only", "statement": "==, <, <=, is_zero, is_one, is_nan,... on AFloat give the result of the same test on the values, independent of derivatives and contexts, and record nothing.", "quantifier": "all operands", "why_tests_cant": "Universal.", "anchors": ["src/afloat.rs: PartialEq, PartialOrd, Zero, One, float_passthrough"]}
{"id": "C41", "title": "Derived AFloat functions compute what their name says", "statement": "neg, recip, mul_add, powi, sqrt, exp2, log, log2, log10, max, min, cbrt, hypot, sin_cos on AFloat return the value of the named real function and the derivative given by calculus (for max/min the piecewise linear increment), in exact real arithmetic on their domain.", "quantifier": "all real arguments in the domain", "why_tests_cant": "All arguments.", "anchors": ["src/afloat.rs: impl Float for AFloat"]}
{"id": "C42", "title": "abs_sub is the positive difference", "statement": "AFloat::abs_sub(a,b) agrees with num::Float::abs_sub: max(a-b, 0).", "quantifier": "all a, b", "why_tests_cant": "Only wrong for a<b, untested.", "anchors": ["src/afloat.rs: abs_sub"]}
{"id": "C43", "title": "Mixed and assigning operators", "statement": "x op c and c op x for f64 c, and x op= y, x op= c, behave exactly like x op y with c converted by From (same result, same recording).", "quantifier": "all operands, all worlds", "why_tests_cant": "Universal.", "anchors": ["src/afloat.rs: binary_op!, assign_op!"]}
{"id": "C44", "title": "Conversion of an AFloat to a primitive keeps its value", "statement": "Converting an AFloat to f64 via ToPrimitive/NumCast yields its value.", "quantifier": "all values", "why_tests_cant": "Untested conversion path.", "anchors": ["src/afloat.rs: ToPrimitive for AFloat, NumCast for AFloat, cast"]}
{"id": "C45", "title": "Unsupported operations panic without side effects", "statement": "%, floor, ceil, round, trunc, fract, signum, exp_m1, ln_1p, sinh, cosh, tanh, asinh, acosh, atanh, atan2 panic and leave all recordings untouched.", "quantifier": "all operands, all worlds", "why_tests_cant": "Universal.", "anchors": ["src/afloat.rs: Rem, float_unsupported!"]}
{"id": "C46", "title": "adv_fn! functions check dimensions", "statement": "A function defined by adv_fn! panics unless its argument and its result have the declared dimensions, and otherwise behaves like its body; the function object reports the declared n and m.", "quantifier": "all bodies, all declared dimensions, all arguments", "why_tests_cant": "Universal.", "anchors": ["src/macros.rs: adv_fn!"]}
{"id": "C47", "title": "C++ mixed operators", "statement": "In the C++ binding, double op ADouble equals ADouble(double) op ADouble for op in + - * /.", "quantifier": "all operands", "why_tests_cant": "The C++ tests only call the operators without looking at results.", "anchors": ["src/cxx/ADouble.cpp: BINARY_OP_IMPL"]}
{"id": "C48", "title": "C++ ADouble ownership", "statement": "Under any sequence of construction, copy, move, assignment, arithmetic and destruction of C++ ADouble objects, every Rust allocation is freed exactly once and never used after being freed.", "quantifier": "all operation sequences including self-assignment", "why_tests_cant": "Histories; undefined behaviour is invisible to tests.", "anchors": ["src/cxx/ADouble.cpp", "src/ffi.rs"]}
{"id": "C49", "title": "A failed set_dep poisons the context", "statement": "If set_dep panics because of a foreign variable, the recording is unchanged and every later operation on that context panics instead of recording inconsistently.", "quantifier": "all histories after the failure", "why_tests_cant": "Histories.", "anchors": ["src/acontext.rs: AContext::set_dep"]}
{"id": "C50", "title": "Recorded tapes are single assignment", "statement": "Every tape produced by the recording API has indices in bounds (max_id < number of values), pairwise distinct independents, operations in increasing result id order, arguments that precede results, and the right arity for every opcode.", "quantifier": "all recording histories through the public AFloat/AContext API (including AContext::record with arguments that belong together)", "why_tests_cant": "Invariant over histories.", "anchors": ["src/acontext.rs", "src/afloat.rs: AFloat::from_op", "src/tape.rs: Tape::max_id"]}
{"id": "C51", "title": "Adjoints of constants never leak into the gradient", "statement": "The result of first_order_reverse does not depend on the adjoint accumulated for constants; in particular powi/powf with a constant exponent on a negative base gives a gradient free of the NaN produced by ln of the base.", "quantifier": "all recorded tapes, all scalar arithmetics (including IEEE)", "why_tests_cant": "NaN propagation over all programs.", "anchors": ["src/operation.rs: Operation::first_order_reverse (Powf, Const)"]}
{"id": "C52", "title": "Abs-normal views of a tape", "statement": "AbsNormalTape has n+s independents (inputs, then abs results) and s+m dependents (abs arguments, then outputs); replaying it at (x, |z(x)|) reproduces the original tape's values; Z, L, J, Y views are read-only (replay panics).", "quantifier": "all recorded tapes", "why_tests_cant": "Universal over tapes.", "anchors": ["src/drivers/abs_normal.rs: AbsNormalTape, anf_matrix!"]}
{"id": "C53", "title": "Sweeps reject short vectors and ignore excess entries", "statement": "first_order_forward(dx) panics iff dx has fewer than num_indeps() entries and ignores extra entries; first_order_reverse(ybar) likewise for num_deps().", "quantifier": "all recorded abs-free tapes, all vectors", "why_tests_cant": "Universal.", "anchors": ["src/tape.rs: Tape::first_order_forward, first_order_reverse"]}
{"id": "C54", "title": "Sweeps do not modify the tape and recording is append-only", "statement": "first_order_forward and first_order_reverse leave the tape unchanged; recording only appends: earlier operations, values and ids never change while a context is alive.", "quantifier": "all histories", "why_tests_cant": "Histories.", "anchors": ["src/tape.rs", "src/acontext.rs"]}
{"id": "C55", "title": "Elementary methods compute the named functions", "statement": "Each of + - * / powf abs exp ln sin cos tan asin acos atan on AFloat returns the value of the scalar method of the same name, without panicking for operands outside any context; over the reals it carries the derivative of the named function composed with the operand curves (for abs: the increment |v+dv|-|v|).", "quantifier": "all operands, all contexts, all scalar arithmetics (values); all differentiable curves on the open domain (derivatives)", "why_tests_cant": "Exact statements about all operands and all real curves.", "anchors": ["src/afloat.rs: AFloat::from_op, float_elemental!, binary_op!", "src/operation.rs: Operation::zero_order_value, first_order_value"]}
{"id": "C56", "title": "Evaluation computes the mathematical meaning of user code", "statement": "eval_float, eval on AFloats with arbitrary seeds in any context, and the outputs stored by tape() all equal the result of interpreting the user code on plain numbers (chains compose left to right; a panic where the interpretation has no result). Derived methods (neg, recip, powi, sqrt, max, hypot, ...) are user code in this sense.", "quantifier": "all functions and chains, all inputs, all scalar arithmetics", "why_tests_cant": "All programs; refinement of an independent interpreter.", "anchors": ["src/function.rs: Function::eval_float, Function::tape, FunctionChain::eval", "src/afloat.rs"]}
{"id": "C57", "title": "Exact effect of registering a variable as dependent more than once", "statement": "first_order_reverse(ybar) is the adjoint of first_order_forward applied to the seeds in which only the seed of the last registration of every variable is kept. Consequently jacobian_reverse is jacobian_forward with the rows of outputs registered again later replaced by zero; mul_left and row of the abs-normal views ignore the corresponding columns and rows; generalized_jacobian is the piece of the abs-normal form with these rows replaced by zero; and the adjoint identity of C09 holds if and only if every output registered again later has derivative zero.", "quantifier": "all recorded tapes, all directions and seeds, all schedules, all sign bits", "why_tests_cant": "An exact characterisation for all tapes of when and how results go wrong.", "anchors": ["src/tape.rs: Tape::first_order_reverse", "src/drivers/jacobian.rs: jacobian_reverse", "src/drivers/abs_normal.rs: mul_left, row", "src/drivers/generalized_jacobian.rs: generalized_jacobian_tape"]}
{"id": "C58", "title": "Replaying a tape is recording it again", "statement": "For a function without value-dependent branches, tape(x0).zero_order(x1) is bit for bit the tape that tape(x1) records (in any context history), so every driver gives the same on the replayed tape as on a fresh recording. For arbitrary functions this holds if and only if the recordings at x0 and x1 have the same operations, constants and dependents.", "quantifier": "all functions, all pairs of points, all scalar arithmetics, all worlds", "why_tests_cant": "Equality of complete tapes for all functions and points, in both directions.", "anchors": ["src/tape.rs: Tape::zero_order", "src/function.rs: Function::tape"]}
{"id": "C59", "title": "Checkpointing does as few forward steps as possible", "statement": "With N checkpoints, `reverse_sequence` over a sequence of n steps calls `forward` exactly sum over k of max(0, n+1 - binomial(N-1+k, N-1)) times, which is t*(n+1) - binomial(N-1+t, t-1) for the least t with n+1 <= binomial(N-1+t, N-1). No strategy whatsoever that keeps at most N states in memory and produces the states in reverse order uses fewer applications of the step function, and one with this number exists.", "quantifier": "All n and N >= 2 within the range in which the arithmetic of the code does not overflow, all step functions, all estimates of the starting point of the search that are not too large; for the lower bound, all strategies (which state to advance, which to keep, which to forget, in any order).", "why_tests_cant": "A test can compare call counts with a table for a few (n, N); that the count is the formula for all n and N, and that no other strategy is cheaper, is a statement about infinitely many sequences and strategies.", "anchors": ["src/drivers/checkpointing.rs: next_checkpoint", "src/drivers/checkpointing.rs: schedule", "src/drivers/checkpointing.rs: reverse_sequence"]}
{"id": "C60", "title": "Generalized Jacobian of multiplicity zero is the Jacobian", "statement": "If `generalized_jacobian(f, x, 0, bits)` reports multiplicity 0, then f is differentiable at x, the homogenous part of the result is its Jacobian matrix and the inhomogenous part is the zero vector.", "quantifier": "All functions built from the operations of AFloat (abs anywhere, nested to any depth, all other operations inside their domains), all points of any dimension, all sign bits, all reduction schedules, exact real arithmetic; outputs are distinct variables and so are the arguments of abs.", "why_tests_cant": "Differentiability is a statement about all nearby points and a limit, for functions of any size; a test can only compare finite differences at single points.", "anchors": ["src/drivers/generalized_jacobian.rs: generalized_jacobian", "src/drivers/abs_normal.rs: switching"]}
{"id": "C61", "title": "Generalized Jacobians are the limits of Jacobians of the piecewise linear model", "statement": "The limits of Jacobians of the piecewise linear model at points converging to dx (Bouligand's limiting Jacobians, whose convex hull is Clarke's generalized Jacobian) are all among the results of `generalized_jacobian` at dx as the sign bits vary; some choice of bits yields such a limit; and every choice of bits does.", "quantifier": "All recorded tapes, all directions, all sign bits, exact real arithmetic; outputs are distinct variables and so are the arguments of abs.", "why_tests_cant": "A set of limits over all sequences of points has to be compared with a finite set of matrices, for tapes with any number of kinks.", "anchors": ["src/drivers/generalized_jacobian.rs: generalized_jacobian_tape", "src/drivers/abs_normal.rs: abs_normal"]}
{"id": "C62", "title": "The chain driver agrees with the driver for single functions", "statement": "A FunctionChain is itself a Function. `generalized_jacobian_chain(chain, x, dx, ncheckpoints)`, which records one tape for every link and composes the pieces, and `generalized_jacobian(&chain, x, dx, &[0], None)`, which records one tape for the whole chain, return the same homogenous and the same inhomogenous part.", "quantifier": "All chains of any length with links nested to any depth, all points and directions, all numbers of checkpoints within the machine word limit, all reduction schedules, exact arithmetic.", "why_tests_cant": "The two results come from different tapes with different abs-normal forms; that the matrices agree for every chain needs a proof by induction over the chain and over the recorded operations.", "anchors": ["src/drivers/generalized_jacobian.rs: generalized_jacobian_chain", "src/drivers/generalized_jacobian.rs: generalized_jacobian", "src/function.rs: FunctionChain"]}
{"id": "C63", "title": "No deadlock, and critical sections are atomic", "statement": "When any number of threads use contexts and variables at the same time, interleaved statement by statement: at most one call is inside the critical section of a mutex; as long as calls are in progress one of them can go on, and all of them finish after a bounded number of steps whatever the scheduler does; and to the threads every execution looks like one in which each critical section happens at a single instant, so recordings are well formed whenever nobody holds their mutex.", "quantifier": "Any number of threads and calls, any interleaving of statements inside and outside of critical sections, sequentially consistent memory.", "why_tests_cant": "A stress test sees a few schedules; a deadlock or a torn update may need one particular schedule out of exponentially many.", "anchors": ["src/acontext.rs: CONTEXT_MAP", "src/acontext.rs: AContextInner::new", "src/acontext.rs: Drop for AContextInner", "src/acontext.rs: AContext::from_cid", "src/acontext.rs: AContext::set_indep", "src/acontext.rs: AContext::set_dep", "src/acontext.rs: AContext::record", "src/acontext.rs: AContext::tape"]}
{"id": "C64", "title": "The piecewise linear model has a quadratic error", "statement": "Near every point x there are C and eps > 0 such that for all d with |d| < eps, f can be evaluated at x + d and differs from y + first_order_forward(d) on the tape recorded at x by at most C |d|^2, even if x lies on kinks of nested absolute values. The same bound, with the same constants for all directions and sign bits, holds for the affine function returned by `generalized_jacobian(f, x, d, bits, None)` at d.", "quantifier": "All functions built from the operations of AFloat (abs anywhere, all other operations inside their domains), all points of any dimension, all small directions, all sign bits and reduction schedules, exact real arithmetic; for generalized_jacobian, outputs are distinct variables and so are the arguments of abs.", "why_tests_cant": "The order of an approximation is a statement about all directions near zero; finite differences cannot distinguish orders reliably, least of all at kinks.", "anchors": ["src/tape.rs: Tape::first_order_forward", "src/drivers/generalized_jacobian.rs: generalized_jacobian", "src/operation.rs: first_order_value"]}
{"id": "C65", "title": "Rounding errors are proportional to the unit roundoff", "statement": "Run the same code in a floating point arithmetic whose operations have a relative error of at most u, where results may underflow (an absolute error of at most u) and results above 1/u may overflow to anything. For every function and point there are K and u0 > 0, not depending on the arithmetic, such that for u <= u0 and inputs accurate up to C u: evaluation takes the same path and returns values and derivatives that differ by at most K u from the exact ones (so the computed derivative differs by at most K u from the derivative of the function); recording yields a tape with the same operations and values that differ by at most K u; and zero_order, first_order_forward and first_order_reverse on such tapes return results that differ by at most K u. The matrices of jacobian_forward and jacobian_reverse in that arithmetic have the size of the exact Jacobian and entries that differ by at most K u.", "quantifier": "All functions built from the operations of AFloat inside their domains whose control flow is locally constant (abs anywhere in evaluation, recording, replay and forward sweeps), all points and directions, every arithmetic with small relative and absolute errors, in particular binary floating point numbers with p digits for all large p, with unlimited and with bounded exponents (IEEE formats), where operations that overflow may return any number.", "why_tests_cant": "Rounding differs with precision, platform and math library; a test compares numbers up to a tolerance chosen by hand in a single arithmetic.", "anchors": ["src/afloat.rs: AFloat::from_op", "src/operation.rs: zero_order_value", "src/operation.rs: first_order_value", "src/operation.rs: first_order_reverse", "src/tape.rs: Tape::first_order_forward", "src/tape.rs: Tape::first_order_reverse", "src/tape.rs: Tape::zero_order"]}
{"id": "C66", "title": "Single precision and mixed precision", "statement": "Variables of type AFloat<f32> are recorded in a registry of f64 values. Computing in f32 yields the same results and the same recording as if everything were f32, except that the recorded values are converted. In histories where variables of several precisions are combined, converted with `cast` and changed with `value_mut`, tapes stay in single-assignment form; if only widening conversions are used, every variable holds the number recorded for it and every recorded operation is the result of computing it in one of the precisions. Any tape of such a history becomes consistent by one zero_order and is then covered by the other properties. Replay is done in f64: it may change a tape recorded in f32 even at the point of the recording, but by no more than a multiple of the unit roundoff; after a narrowing `cast` the recorded number differs from the variable.", "quantifier": "All functions and programs, all scalar types and conversions to the type of the registry, all histories of API calls with any number of contexts and precisions; for the size of errors all arithmetics with small relative error.", "why_tests_cant": "Tests use one precision at a time and a few values; the relation between the recording and the variables has to hold for all interleavings of casts and operations, and rounding makes equality tests useless.", "anchors": ["src/afloat.rs: AFloat::cast", "src/afloat.rs: AFloat::from_op", "src/afloat.rs: ASingle", "src/acontext.rs: AContext::set_indep", "src/acontext.rs: AContext::set_dep", "src/acontext.rs: AContext::record", "src/tape.rs: Tape::zero_order"]}
{"id": "C67", "title": "Functions that do not repeat registrations", "statement": "Whether a recording registers a dependent or an argument of abs twice can be read off the function: if the outputs returned by a function are pairwise distinct variables and it takes abs of no variable twice, then the dependents and the abs arguments on its tapes are pairwise distinct, so that `jacobian_forward` and `jacobian_reverse` agree for it, and `generalized_jacobian` and the chain driver are exact for it; and for functions without operations on constants the dependents are pairwise distinct only if the outputs are.", "quantifier": "All functions and chains, all points, all worlds (states of the registry), all scalars.", "why_tests_cant": "Whether two registrations coincide depends on identifiers handed out at run time; a test sees one recording, the property relates the program text to every recording.", "anchors": ["src/acontext.rs: AContext::set_dep", "src/acontext.rs: AContext::record", "src/afloat.rs: AFloat::from_op", "src/tape.rs: Tape::first_order_reverse", "src/drivers/jacobian.rs: jacobian_reverse", "src/drivers/generalized_jacobian.rs: generalized_jacobian"]}
{"id": "C68", "title": "The Floyd-Warshall example computes shortest paths", "statement": "The example records a tape for the edge weights as a function of the traffic lights, one for the sum of squared distances, and one for each step of the algorithm; its closure `zero_order` replays them one after the other. It never panics and returns what running the algorithm on plain numbers returns, and in exact arithmetic that is the sum over all pairs of exits of the squared time of the fastest walk; for the network of the example this is the fastest route along roads, the constant 10e3 that stands for infinity never matters.", "quantifier": "All networks with indices in range and positive quotas, all parameters, all states of the registry with enough identifiers left, all arithmetics (first part), exact arithmetic (second part).", "why_tests_cant": "The matrix is updated in place and min is computed by a formula with abs; that every entry is a minimum over infinitely many walks is an invariant of the algorithm, not a finite number of cases.", "anchors": ["examples/floyd_warshall.rs: floyd_warshall_step", "examples/floyd_warshall.rs: floyd_warshall_set_edge", "examples/floyd_warshall.rs: zero_order", "examples/floyd_warshall.rs: badness", "src/tape.rs: Tape::zero_order", "src/afloat.rs: AFloat::min", "src/afloat.rs: AFloat::max"]}
{"id": "C69", "title": "The gradient computed by the Floyd-Warshall example", "statement": "The closure `calculate_gradient` of the example, which runs `generalized_jacobian_tape` on the tape of every link inside `reverse_sequence`, returns the gradient of `zero_order` at all traffic light parameters where no parameter is at the end of its range and no two compared ways take the same time. (False of the code: every edge weight is registered as a dependent twice, so the result is exactly one half of the gradient.)", "quantifier": "All networks with indices in range and positive quotas, all parameters without ties, all schedules of the parallel loops, all sound estimates, all states of the registry with enough identifiers left.", "why_tests_cant": "The sign and the direction of the result are right, so the optimisation loop of the example still descends; only a proof or a comparison with finite differences shows the factor, and that the factor is always 2 is a statement about all networks.", "anchors": ["examples/floyd_warshall.rs: calculate_gradient", "examples/floyd_warshall.rs: floyd_warshall_set_edge", "examples/floyd_warshall.rs: zero_order", "src/acontext.rs: AContext::set_dep_slice", "src/tape.rs: Tape::first_order_reverse", "src/drivers/generalized_jacobian.rs: generalized_jacobian_tape", "src/drivers/checkpointing.rs: reverse_sequence"]}
{"id": "C70", "title": "The perceptron example follows the gradient of its error", "statement": "The example records the error of a network (the sum of squared differences to the exclusive or) once, with all parameters zero, and trains it on the replayed tape. Neither the recording nor the training panics. After any number of iterations, `g` is the gradient of the error at `params`, the printed error is the error at `params`, and each step goes in a direction of descent; when the loop ends, the norm of the gradient is at most epsilon. Because the example starts with equal weights for both inputs, the trained network gives the same output for (0, 1) and (1, 0).", "quantifier": "All numbers of iterations, all initial parameters, all step size rules (the rule of the example for the direction of descent), all stopping rules, all schedules of the parallel loops, all states of the registry; absence of panics and the identity of the printed error in every arithmetic, the rest in exact real arithmetic.", "why_tests_cant": "Training takes many iterations through points that no test chooses, and a wrong gradient still decreases the error most of the time.", "anchors": ["examples/perceptron.rs: gradient", "examples/perceptron.rs: xor_error", "examples/perceptron.rs: multilayer_perceptron", "examples/perceptron.rs: main", "src/drivers/jacobian.rs: jacobian_reverse", "src/tape.rs: Tape::zero_order"]}
{"id": "C71", "title": "The optimisation of the Floyd-Warshall example", "statement": "The optimisation loop of the example does not panic as long as context ids last. The points it visits are those of gradient descent with the step size of Barzilai and Borwein, except that the first step is half as long as the initial step size says (all gradients are halves, see C69, and the later step sizes make up for it) and that the loop ends when the gradient is at most twice epsilon. The printed errors are those of the points visited; that of the first point is printed twice, that of the last point is not printed.", "quantifier": "all networks, all initial lights and step sizes, all stopping rules, all numbers of iterations, all schedules of the parallel loops", "why_tests_cant": "The claims are about every iterate of a run of any length; they need that recording, checkpointing and the drivers work at every point.", "anchors": ["examples/floyd_warshall.rs: main"]}
{"id": "C72", "title": "Nested variables compute second derivatives", "statement": "AFloat<S> is itself a scalar type, so generic code can be run on AFloat<AFloat<f64>>. The values of the outer variables are the variables that the evaluation without nesting returns. On inputs whose values carry a direction e and whose dvalues carry a direction dx, generic code made of operations that are twice differentiable at their arguments returns the value, the derivatives in the directions e and dx, and the second derivative in the directions e and dx. (False of the code for powers: the term of an operand is skipped if its dvalue equals zero, and the comparison of two AFloats ignores that this zero has a derivative.)", "quantifier": "all functions and chains, all points where each executed operation is twice differentiable and control flow is locally constant, all pairs of directions; the first part for all inputs in every arithmetic, the second part in exact real arithmetic", "why_tests_cant": "The error for powers needs a point where the first derivative of the base vanishes, such as cos(x).powi(2) at 0; at generic points all second derivatives are right.", "anchors": ["src/afloat.rs: AFloat::from_op", "src/afloat.rs: AFloat::powi", "src/afloat.rs: AFloat::eq", "src/operation.rs: first_order_value", "src/acontext.rs: AContext::set_indep"]}
{"id": "C73", "title": "Nested variables compute derivatives of all orders", "statement": "Generic code can be run on AFloat<AFloat<...<f64>>> with any number k of levels. On inputs that carry one direction per level, smooth generic code returns at each of the 2^k paths of value() and dvalue() the mixed derivative in the directions of the levels where dvalue() is taken; in particular the innermost dvalue() is the k-th derivative applied to all directions, and the order of the directions does not matter. Dropping the outermost dvalues gives the evaluation with one level less. (False of the code for powers from two levels on, and for divisions from three levels on, because the derivative of a quotient squares the denominator with powi(2).)", "quantifier": "all numbers of levels, all functions and chains made of sums, differences, products, sines, cosines and exponentials, all points where control flow is locally constant, all directions; the last part for all code in every arithmetic", "why_tests_cant": "The number of levels is a type parameter, so a test has to be written for each order; the error for divisions needs three levels and a denominator whose derivative vanishes.", "anchors": ["src/afloat.rs: AFloat::from_op", "src/afloat.rs: AFloat::powi", "src/afloat.rs: AFloat::neg", "src/operation.rs: first_order_value"]}
{"id": "C74", "title": "The tape of a function, entry by entry", "statement": "Function::tape panics exactly where the function panics on plain numbers, and otherwise returns a tape that is determined by the function and the point alone. The inputs have the first places. Each executed operation with at least one operand that depends on the inputs has one entry, in the order of execution; before it stand entries for those of its operands that are constants, anew for each use and the left operand first. Operations of constants have no entry. A constant result gets an entry when it is registered. Hence a tape has as many values as independents and operations together, at most two operations per executed operation plus one per result, and exactly the executed operations if the code contains no literals.", "quantifier": "all functions and chains, all inputs, every arithmetic, all states of the registry with an identifier left", "why_tests_cant": "The exact contents of a tape depend on the complete execution of user code; tests compare a few short tapes.", "anchors": ["src/function.rs: Function::tape", "src/afloat.rs: AFloat::from_op", "src/acontext.rs: AContext::record", "src/acontext.rs: AContext::set_indep", "src/acontext.rs: AContext::set_dep"]}
{"id": "C75", "title": "Generalized Jacobians in direction 0 belong to the function itself", "statement": "The limits of derivatives of the piecewise linear model at direction 0 (the model that first_order_forward computes on the tape recorded at x) are limits of derivatives of the recorded function at points converging to x. Hence some choice of the sign bits makes generalized_jacobian in direction 0 return an element of the Bouligand subdifferential of the function, and every choice does if at most one switching variable vanishes. For directions up to some length, first_order_forward returns the one-sided directional derivative of the function. (Contradictory sign bits of coinciding kinks give matrices outside of Clarke's generalized Jacobian of the function; and the function can have limiting Jacobians that its model does not have. Both are shown by counterexamples.)", "quantifier": "all functions with abs anywhere and any nesting of kinks whose other operations are inside of their domains and whose control flow is locally constant, all points, all schedules, all sign bits; exact real arithmetic", "why_tests_cant": "The claim is about limits over points near a kink; a test can compare with difference quotients at some points, but not decide whether a matrix is a limit of derivatives.", "anchors": ["src/drivers/generalized_jacobian.rs: generalized_jacobian", "src/drivers/generalized_jacobian.rs: generalized_jacobian_tape", "src/drivers/abs_normal.rs: abs_normal", "src/tape.rs: Tape::first_order_forward", "src/operation.rs: first_order_value"]}
{"id": "C76", "title": "Rounding errors in the starting estimate of find_t are harmless", "statement": "The expression with exp, sqrt and powf by which find_t computes its first candidate t, evaluated operation by operation in floating point arithmetic, never exceeds the number of repetitions. Hence the assertions of find_t hold, find_t returns the least t with r <= binomial(c + t, c), and reverse_sequence computes the reverse fold, although its schedule depends on rounded numbers.", "quantifier": "all c >= 2 and r >= 1 that fit into isize; all arithmetics in which each operation (and PI, and the conversion of integers) has a relative error of at most 2^-45, in particular correctly rounded binary arithmetic with 53 digits", "why_tests_cant": "The estimate is compared with an integer threshold for each of about 2^126 pairs (c, r); an unlucky rounding at one pair would panic there and nowhere else.", "anchors": ["src/drivers/checkpointing.rs: find_t", "src/drivers/checkpointing.rs: next_checkpoint", "src/drivers/checkpointing.rs: reverse_sequence"]}
{"id": "C77", "title": "reverse_sequence never returns a wrong result", "statement": "If reverse_sequence returns at all, it returns the result of the plain reverse fold. Beyond the word limit, with a bad starting estimate in find_t, or with a budget that is too small, it panics but does not return anything else. For closures with effects, or whose results vary from call to call, every relation between the index and the state that forward preserves and every relation between the index and the reversed part that identity and reverse preserve also holds of the result.", "quantifier": "all numbers of steps and checkpoints without size limits, all starting estimates, all closures (which may panic and have effects)", "why_tests_cant": "Sizes at which binomials overflow cannot be run, and a test cannot vary the rounding of the estimate.", "anchors": ["src/drivers/checkpointing.rs: reverse_sequence", "src/drivers/checkpointing.rs: schedule"]}
{"id": "C78", "title": "With machine numbers, results are finite and accurate", "statement": "Generic code run on floating point numbers with infinities, NaN and signed zeros returns finite values and derivatives that differ from those of the same code over the real numbers by at most a constant times the unit roundoff, if the exact execution stays inside of the domains of the operations and its control flow is locally constant, and the unit roundoff is small enough. The same holds for recording, zero_order, first_order_forward, first_order_reverse, jacobian_forward and jacobian_reverse: recorded tapes have the same structure as the exact tape, and no entry of a derivative is infinite or NaN. The constants depend on the function and the point only, not on the number format. (Outside of the domains the claim is false: 1 / x at 0.)", "quantifier": "all types of numbers with a partial value function whose operations are accurate on finite numbers up to 1/u (shown for IEEE 754 formats, in particular double and single precision), all functions and chains, all points, all inputs within C u of the point, all schedules; sweeps over tapes for tapes whose powers have positive bases or constant integer exponents (all recordings of code inside of its domains), the reverse sweep without abs", "why_tests_cant": "Tests check that results are close at some inputs in double precision; that no intermediate result of any sweep overflows or becomes NaN, and that the error is proportional to the unit roundoff, is a statement about all inputs and all precisions.", "anchors": ["src/function.rs: Function::eval", "src/function.rs: Function::tape", "src/afloat.rs: AFloat::from_op", "src/operation.rs: zero_order_value", "src/operation.rs: first_order_value", "src/operation.rs: Operation::first_order_reverse", "src/tape.rs: Tape::zero_order", "src/tape.rs: Tape::first_order_forward", "src/tape.rs: Tape::first_order_reverse", "src/drivers/jacobian.rs: jacobian_forward", "src/drivers/jacobian.rs: jacobian_reverse"]}
{"id": "C79", "title": "Abs-normal forms of machine numbers are finite and accurate", "statement": "The abs-normal form that abs_normal records and computes in floating point arithmetic has the same shape as the exact one, all entries of a, b, Z, L, J and Y are finite, and they differ from the exact entries by at most a constant times the unit roundoff. Arguments of absolute values may vanish, and abs arguments and outputs may be repeated.", "quantifier": "all functions and chains whose operations are inside of their domains and whose control flow is locally constant, all points, all inputs within C u of the point, all types of machine numbers (as in C78), all schedules of the parallel loops of both runs", "why_tests_cant": "An entry of a form is the result of complete sweeps over views of a tape; a test compares a few forms in double precision and cannot show that the errors are proportional to the unit roundoff, in particular at kinks.", "anchors": ["src/drivers/abs_normal.rs: abs_normal", "src/drivers/abs_normal.rs: abs_normal_tape", "src/drivers/abs_normal.rs: AbsNormalTape", "src/tape.rs: Tape::first_order_forward", "src/tape.rs: Tape::first_order_reverse"]}
{"id": "C80", "title": "Generalized Jacobians of machine numbers are accurate where no sign bits are used", "statement": "If the exact generalized_jacobian uses no sign bits (its multiplicity is that of the argument next, or zero), then in floating point arithmetic the same piece is selected: the result has the same shape and the same multiplicity, its entries are finite, and they differ from the exact entries by at most a constant times the unit roundoff, although the two iterations of the driver stop when two rounded vectors or matrices are equal. The argument next may be inexact as well. The same holds for generalized_jacobian_chain, whatever the numbers of checkpoints of the two runs are. (Where sign bits are used it is false: at the kink of |x| an arbitrarily small error in x changes the slope from -1 to 1.)", "quantifier": "all functions and chains whose operations are inside of their domains and whose control flow is locally constant, all points and directions, all sign bits, all types of machine numbers (as in C78), all schedules of the parallel loops of both runs", "why_tests_cant": "Whether the iterations stop at the right time and the signs agree depends on the rounding of every intermediate result; tests can only try some inputs in one precision.", "anchors": ["src/drivers/generalized_jacobian.rs: generalized_jacobian", "src/drivers/generalized_jacobian.rs: generalized_jacobian_tape", "src/drivers/generalized_jacobian.rs: generalized_jacobian_chain", "src/drivers/abs_normal.rs: AbsNormalTape"]}
{"id": "C81", "title": "Changing recorded variables with value_mut does not change the tape after a replay", "statement": "If values of variables that belong to a context are changed with value_mut during recording, the tapes have the same independents, dependents and operations as without these changes, they are single-assignment programs, and zero_order at any inputs gives the same tape (values, hence derivatives) or the same panic. This holds for the replays if no context is destroyed; a variable of a destroyed context is a plain number and its changed value may become a constant. (Before the first replay the values on the tape need not belong to an evaluation, so that x, y and derivatives are those of no point.)", "quantifier": "all sequences of API calls with any numbers of contexts and variables (the claim about structure also with dropped handles), all scalar types without any laws, all inputs of the replay", "why_tests_cant": "The claim compares two runs of arbitrary programs; a test changes one variable at one place.", "anchors": ["src/afloat.rs: AFloat::value_mut", "src/afloat.rs: AFloat::from_op", "src/acontext.rs: AContext::set_indep", "src/acontext.rs: AContext::set_dep", "src/tape.rs: Tape::zero_order"]}
{"id": "C82", "title": "generalized_jacobian_chain never returns a wrong result", "statement": "If generalized_jacobian_chain returns at all, it returns the right-to-left composition of the generalized Jacobians of the links, so that any two calls that return have the same result, and it is exact at dx if in the tape of every link the abs arguments and the outputs are distinct. With too few checkpoints, with sizes beyond the word limit, with a bad starting estimate in find_t or without context ids left it panics, but does not return anything else.", "quantifier": "all chains (nested or not), all points and directions, all numbers of checkpoints (or None), all starting estimates, all schedules of the parallel loops, all states of the process; the agreement of two calls for all scalar types without any laws", "why_tests_cant": "Sizes at which binomials overflow and bad estimates cannot be produced in a test.", "anchors": ["src/drivers/generalized_jacobian.rs: generalized_jacobian_chain", "src/drivers/checkpointing.rs: reverse_sequence"]}
{"id": "C83", "title": "The chain driver returns limiting Jacobians", "statement": "The matrix that generalized_jacobian_chain returns is a limiting Jacobian (an element of the Bouligand subdifferential), at the increment, of the piecewise linear model of the whole chain; in direction 0 it is a limiting Jacobian of the function itself, and its Jacobian if the multiplicity is 0. The multiplicity is never smaller than that of the chain as a single function.", "quantifier": "all chains (nested or not) over the real numbers whose links and whole tape have distinct outputs and abs arguments, all points and increments, all numbers of checkpoints, estimates and schedules; the claim about multiplicities for all chains over all ordered fields", "why_tests_cant": "A limiting Jacobian is a limit of derivatives at nearby points, and the driver sees one tape for each link while the claim is about the composition; tests can only compare with difference quotients at single points.", "anchors": ["src/drivers/generalized_jacobian.rs: generalized_jacobian_chain", "src/drivers/generalized_jacobian.rs: generalized_jacobian_tape"]}
{"id": "C84", "title": "Debug and release builds of the checkpointing code agree", "statement": "reverse_sequence and generalized_jacobian_chain have the same effects (the same calls of the closures in the same order) and return the same results in a debug build, where integer overflow panics, and in a release build, where additions and subtractions of usize and isize wrap; only the kind of a panic can differ. In particular a release build never returns a wrong result.", "quantifier": "all values of nsteps and ncheckpoints that a usize can have, all closures (with effects and panics), all chains of functions, all starting estimates in find_t, all states of the process", "why_tests_cant": "Tests are run in one build; sizes near the word limit cannot be run at all.", "anchors": ["src/drivers/checkpointing.rs: reverse_sequence", "src/drivers/checkpointing.rs: schedule", "src/drivers/checkpointing.rs: next_checkpoint", "src/drivers/checkpointing.rs: find_t", "src/drivers/generalized_jacobian.rs: generalized_jacobian_chain"]}
{"id": "C85", "title": "At independent kinks all sign bits give limiting Jacobians", "statement": "If the gradients of the switching variables of the abs-normal form that vanish are linearly independent (the linear independence kink qualification), then generalized_jacobian returns a limiting Jacobian (an element of the Bouligand subdifferential) of the piecewise linear model for every choice of the sign bits, whatever the multiplicity is; in direction 0 it is a limiting Jacobian of the function itself. generalized_jacobian_chain returns a limiting Jacobian of the piecewise linear model of the whole chain if the qualification holds for the chain. Without the qualification the same holds for sign bits that are the signs of the switching variables at increments arbitrarily close to the given one.", "quantifier": "all functions over the real numbers whose outputs and abs arguments are distinct variables, all points and increments, all sign bits, all numbers of coinciding kinks, all schedules; for the driver all chains, numbers of checkpoints and estimates", "why_tests_cant": "The claim is about limits of derivatives at nearby points for all combinations of signs of arbitrarily many kinks, nested in each other.", "anchors": ["src/drivers/generalized_jacobian.rs: generalized_jacobian", "src/drivers/generalized_jacobian.rs: generalized_jacobian_tape", "src/drivers/generalized_jacobian.rs: generalized_jacobian_chain", "src/drivers/abs_normal.rs: abs_normal"]}
{"id": "C86", "title": "The sign bits reach every limiting Jacobian of the function", "statement": "Every limiting Jacobian of the function itself at x (every limit of its derivatives at points that converge to x) is the matrix that generalized_jacobian returns at x in direction 0 for some choice of the sign bits. Near x the function is to first order given by one of the results; if the results agree for all sign bits, the function is differentiable at x and they are its Jacobian. Where the function is differentiable some sign bits give its Jacobian, and its Clarke Jacobian is contained in the convex hull of the results. If at most one switching variable vanishes or the kinks are independent, the results for all sign bits are exactly the limiting Jacobians; at independent kinks these are also exactly the limiting Jacobians of the piecewise linear model at 0.", "quantifier": "all functions over the real numbers whose outputs and abs arguments are distinct variables, with abs anywhere and the other operations executed inside of their domains, all points, all numbers of coinciding kinks, all schedules", "why_tests_cant": "The claim quantifies over all sequences of points of differentiability near the kinks of nonlinear functions.", "anchors": ["src/drivers/generalized_jacobian.rs: generalized_jacobian", "src/drivers/generalized_jacobian.rs: generalized_jacobian_tape", "src/drivers/abs_normal.rs: abs_normal"]}
{"id": "C87", "title": "Semismoothness and Newton steps with generalized Jacobians", "statement": "A function with abs anywhere whose other operations are executed inside of their domains is Lipschitz continuous near the point x and semismooth at x: for every eps, at all z close to x, every limiting Jacobian L of the function at z, and every element L of its Clarke Jacobian at z, satisfies |F(z) - F(x) - L(z - x)| <= eps |z - x|. For the matrices L that generalized_jacobian returns at z in direction 0 there is even a constant K with |F(z) - F(x) - L(z - x)| <= K |z - x|^2 at all z close to x, for all sign bits (also those that contradict each other) and all numbers of coinciding kinks. So Newton's method with these matrices converges quadratically: for a zero x of the function and a bound C there are a ball around x and a constant Q such that all sequences of steps z - B F(z), with inverses B of norm at most C, that start in the ball converge to x, and every distance to x is at most Q times the square of the previous one.", "quantifier": "all functions over the real numbers whose outputs and abs arguments are distinct variables, with abs anywhere and the other operations executed inside of their domains, all points, all sign bits, all starting points in the ball, all schedules", "why_tests_cant": "The claims are limits over all points near x and statements about infinite sequences of iterates.", "anchors": ["src/drivers/generalized_jacobian.rs: generalized_jacobian", "src/drivers/generalized_jacobian.rs: generalized_jacobian_tape", "src/drivers/abs_normal.rs: abs_normal"]}
{"id": "C88", "title": "Newton's method with the chain driver", "statement": "In direction 0 generalized_jacobian_chain returns a linear map: the inhomogeneity vanishes. For a chain with abs anywhere whose other operations are executed inside of their domains there is a constant K such that at all z close to x every matrix L that generalized_jacobian_chain returns at z in direction 0 satisfies |F(z) - F(x) - L(z - x)| <= K |z - x|^2, for every number of checkpoints and all numbers of coinciding kinks. So Newton's method with these matrices converges quadratically: for a zero x of the chain and a bound C there are a ball around x and a constant Q such that all sequences of steps z - B F(z), with inverses B of norm at most C, that start in the ball converge to x, and every distance to x is at most Q times the square of the previous one. The number of checkpoints may change from step to step.", "quantifier": "all chains over the real numbers, also nested ones, for which outputs and abs arguments are distinct variables in the tape of every link, with abs anywhere and the other operations executed inside of their domains, all points, all starting points in the ball, all numbers of checkpoints with which the driver returns, all schedules", "why_tests_cant": "The claims are limits over all points near x and statements about infinite sequences of iterates.", "anchors": ["src/drivers/generalized_jacobian.rs: generalized_jacobian_chain", "src/drivers/checkpointing.rs: reverse_sequence"]}
{"id": "C89", "title": "Newton's method is well defined near a zero", "statement": "Let a function with abs anywhere be recorded at x, with the other operations executed inside of their domains and a control flow that small changes do not affect. At all points z near x recording succeeds and gives a tape with the same independents, dependents and operations, whose values are close to those at x. At x generalized_jacobian returns only finitely many matrices in direction 0 when the sign bits vary, and for every eps, at all z close to x, every matrix that it returns at z is within eps of one that it returns at x. So if x is a zero and all matrices that it returns at x are invertible, then there are a ball around x and a constant Q such that for every start in the ball and any sign bits in every step Newton's method can be carried out: the driver returns, the matrix is invertible, and the iterates converge to x with every distance at most Q times the square of the previous one.", "quantifier": "all functions over the real numbers for which outputs and abs arguments are distinct variables in the tape at x, with abs anywhere and the other operations executed inside of their domains, all points, all starting points in the ball, all sequences of sign bits, all states of the contexts, all schedules", "why_tests_cant": "The claims are limits over all points near x and statements about all infinite sequences of sign bits and iterates.", "anchors": ["src/drivers/generalized_jacobian.rs: generalized_jacobian", "src/tape.rs: Tape", "src/acontext.rs: AContext::record"]}
{"id": "C90", "title": "Newton's method with the chain driver is well defined near a zero", "statement": "For a chain with abs anywhere, with the other operations executed inside of their domains and a control flow that small changes do not affect: if at x the links get vectors of the right length and return, and outputs and abs arguments are distinct variables in their tapes, then the same holds at all points near x. For every eps, at all z close to x, every matrix that generalized_jacobian_chain returns at z in direction 0 is within eps of a matrix that generalized_jacobian returns at x for the chain as a function and some sign bits. If x is a zero and all these matrices at x are invertible, then there are a ball around x and a constant Q such that from every start in the ball Newton's method with generalized_jacobian_chain can be carried out: the driver returns in every step, with the same result for every number of checkpoints within the machine word limit and every schedule, the matrix is invertible, and the iterates converge to x with every distance at most Q times the square of the previous one.", "quantifier": "all chains over the real numbers, also nested ones, for which outputs and abs arguments are distinct variables in the tapes of the links and of the chain at x, with abs anywhere and the other operations executed inside of their domains, all points, all starting points in the ball, all numbers of checkpoints within the machine word limit, all schedules, all states of the program", "why_tests_cant": "The claims are limits over all points near x and statements about infinite sequences of iterates.", "anchors": ["src/drivers/generalized_jacobian.rs: generalized_jacobian_chain", "src/drivers/generalized_jacobian.rs: generalized_jacobian", "src/drivers/checkpointing.rs: reverse_sequence"]}
{"id": "C91", "title": "Newton's method tolerates inexact linear solves, and the residual bounds the error", "statement": "Let x be a zero of a function with abs anywhere, with the other operations executed inside of their domains, and let all matrices that generalized_jacobian returns at x in direction 0 be invertible. Then there is a constant c such that |z - x| <= c |F(z)| at all z near x, so x is the only zero near x and a small residual means a small error. For every rate q between 0 and 1 there are a tolerance eta > 0 and a ball around x such that every sequence that starts in the ball, and in which each step d satisfies |R d + F(z)| <= eta |F(z)| with a matrix R that generalized_jacobian returns at z in direction 0, converges to x with every distance at most q times the previous one. The sign bits may change from step to step. The same holds with the matrices of generalized_jacobian_chain for a chain, whatever number of checkpoints is used in each step. The matrices and values are those of exact arithmetic; only the solution of the linear systems is inexact.", "quantifier": "all functions over the real numbers for which outputs and abs arguments are distinct variables in the tape at x, with abs anywhere and the other operations executed inside of their domains, all zeros with invertible matrices, all rates, all starting points in the ball, all sequences of inexact steps and sign bits, all states of the contexts, all schedules", "why_tests_cant": "The claims are limits over all points near x and statements about all infinite sequences of inexact steps.", "anchors": ["src/drivers/generalized_jacobian.rs: generalized_jacobian", "src/drivers/generalized_jacobian.rs: generalized_jacobian_chain"]}
{"id": "C92", "title": "Newton's method with perturbed matrices and values reaches the accuracy of the values", "statement": "Let x be a zero of a function with abs anywhere, with the other operations executed inside of their domains, and let all matrices that generalized_jacobian returns at x in direction 0 be invertible. For every rate q between 0 and 1 there are a tolerance eta > 0, a radius delta > 0 and a constant c such that for all eps with c eps <= (1 - q) delta: every sequence that starts within delta of x, and in which each step d satisfies |A d + F(z)| <= eta |F(z)| + eps with a matrix A within eta of a matrix that generalized_jacobian returns at z in direction 0, stays within delta of x, and the distance of its k-th member to x is at most q^k times the initial distance plus c eps / (1 - q). So matrices, values and solutions of the linear systems may all be perturbed, as by rounding, and the method reaches an accuracy proportional to the absolute perturbation of the values. The sign bits may change from step to step. The same holds with the matrices of generalized_jacobian_chain for a chain.", "quantifier": "all functions and chains over the real numbers for which outputs and abs arguments are distinct variables in the tape at x (for chains also in the tapes of the links), with abs anywhere and the other operations executed inside of their domains, all zeros with invertible matrices, all rates, all starting points in the ball, all perturbations within the bounds, all sequences of sign bits and numbers of checkpoints, all states of the contexts, all schedules", "why_tests_cant": "The claims are limits over all points near x and statements about all infinite sequences of perturbed steps.", "anchors": ["src/drivers/generalized_jacobian.rs: generalized_jacobian", "src/drivers/generalized_jacobian.rs: generalized_jacobian_chain"]}
