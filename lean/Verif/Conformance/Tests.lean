import Verif.Conformance.Funcs
import Verif.Spec.Scalars

/-!
# The crate's unit tests on the model

Every unit test of the crate, evaluated on the model by the kernel. These are no theorems about all inputs; they show
that the definitions of the model compute what the authors of the code expect of the code. Rational numbers replace
`f64` wherever the test does not use transcendental functions (the tests only use numbers for which both agree up to
rounding).
-/

namespace Adv.Conformance
open Adv

/-- Process start. -/
def w0 : World ℚ := ⟨1, fun _ => none⟩

/-- Result of a computation at process start. -/
def run {α : Type} (m : M (World ℚ) α) : Res α := (m w0).1

/-! ## `src/acontext.rs` -/

/-- acontext.rs:241-261 `acontext_new_and_drop`. -/
example : run (do let c ← AContext.new; return ((← fun w => (.ok (w.cells c.cid).isSome, w)) : Bool)) = .ok true := by
  decide +kernel

example : run (do
    let c ← AContext.new
    c.drop
    return ((← fun w => (.ok (w.cells c.cid).isSome, w)) : Bool)) = .ok false := by
  decide +kernel

/-- acontext.rs:266-288 `acontext_record`, first block. -/
example : run (do
    let ctx ← AContext.new
    let a ← ctx.setIndep (AFloat.new 1 0)
    let b ← ctx.setIndep (AFloat.new 2 0)
    let c ← AFloat.add a b
    ctx.setDep c
    return (← ctx.operations, ← ctx.values)) =
    .ok ([⟨.Add, 2, some 0, some 1⟩], [1, 2, 3]) := by decide +kernel

/-- acontext.rs:289-315, second block. -/
example : run (do
    let ctx ← AContext.new
    let a ← ctx.setIndep (AFloat.new 1 0)
    let c ← AFloat.add a (AFloat.new 2 0)
    ctx.setDep c
    return (← ctx.operations, ← ctx.values)) =
    .ok ([⟨.Const, 1, none, none⟩, ⟨.Add, 2, some 0, some 1⟩], [1, 2, 3]) := by decide +kernel

/-- acontext.rs:316-340, third block. -/
example : run (do
    let ctx ← AContext.new
    let b ← ctx.setIndep (AFloat.new 2 0)
    let c ← AFloat.add (AFloat.new 1 0) b
    ctx.setDep c
    return (← ctx.operations, ← ctx.values)) =
    .ok ([⟨.Const, 1, none, none⟩, ⟨.Add, 2, some 1, some 0⟩], [2, 1, 3]) := by decide +kernel

/-! ## `src/afloat.rs` -/

/-- afloat.rs:409-415 `afloat_consistency`. -/
example : run ((allArithmetic.eval [AFloat.new (2 : ℚ) 1])) = .ok [⟨2, 1, none⟩] := by decide +kernel

/-! ## `src/tape.rs` -/

/-- tape.rs:127-134 `zero_order_arithmetic`. -/
example : run (do let t ← allArithmetic.tape [(0 : ℚ)]; M.lift (do (← t.zeroOrder [3]).y)) =
    run (allArithmetic.evalFloat [3]) := by decide +kernel

/-- tape.rs:137-142 `first_order_forward_arithmetic`. -/
example : run (do let t ← allArithmetic.tape [(3 : ℚ)]; M.lift (t.firstOrderForward [1])) = .ok [1] := by
  decide +kernel

/-- tape.rs:145-150 `first_order_reverse_arithmetic`. -/
example : run (do let t ← allArithmetic.tape [(3 : ℚ)]; M.lift (t.firstOrderReverse [1])) = .ok [1] := by
  decide +kernel

/-! ## `src/function.rs` -/

/-- function.rs:158-171 `macro_function`. -/
example : run (vector10Max.evalFloat ((List.range 10).map fun i => (i : ℚ))) = .ok [9] := by decide +kernel

example : (vector10Max : Func ℚ).n = .ok 10 ∧ (vector10Max : Func ℚ).m = .ok 1 := ⟨rfl, rfl⟩

example : run (do let t ← vector10Max.tape (List.replicate 10 0); return (t.numIndeps, t.numDeps, t.numAbs)) =
    .ok (10, 1, 9) := by decide +kernel

/-- function.rs:202-204. -/
def chain3 : Res (Func ℚ) := do
  let fs := Func.newChain tenToFive
  let fs ← Func.append fs fiveToTwo
  let fs ← Func.append fs twoToOne
  return .chain fs

/-- function.rs:200-214 `function_chain_eval`. -/
example : (do let c ← chain3; return (c.len, ← c.n, ← c.m)) = .ok (3, 10, 1) := by decide +kernel

example : run (do
    let c ← M.lift chain3
    return (← c.eval (List.replicate 10 (AFloat.ofScalar 1))).map AFloat.v) = .ok [10] := by decide +kernel

/-- function.rs:216-227 `function_chain_eval_float`. -/
example : run (do let c ← M.lift chain3; c.evalFloat (List.replicate 10 1)) = .ok [10] := by decide +kernel

/-- function.rs:238-244 `function_extra_args`. -/
example : run (do return (← (multiplicate 10).eval (List.replicate 10 (AFloat.ofScalar 1))).map AFloat.v) =
    .ok (List.replicate 10 (10 : ℚ)) := by decide +kernel

/-- function.rs:252-258 `function_dim_expressions`. -/
example : run (do return (← (duplicate 10).eval [AFloat.ofScalar (0 : ℚ)]).length) = .ok 10 := by decide +kernel

/-- function.rs:266-272 `function_complex_dim_expressions`. -/
example : run (do return (← (duplicate (2 * 5)).eval [AFloat.ofScalar (0 : ℚ)]).length) = .ok 10 := by decide +kernel

/-! ## `src/drivers/abs_normal.rs` -/

/-- testfunc.rs:21-41 `halfpipe_anf`: the vectors `a`, `b` and the matrices `Z`, `L`, `J`, `Y`, which are lists of rows. -/
def halfpipeAnf (x0 x1 : ℚ) : List (List ℚ) × List (List (List ℚ)) :=
  let abs := fun q : ℚ => if q < 0 then -q else q
  let z0 := x0
  let z1 := x1 * x1 - x0 / 2 - abs x0 / 2
  ([[z0, z1 + abs z0 / 2], [abs z0 / 4 - abs z1 / 2]],
    [[[1, 0], [-1 / 2, 2 * x1]], [[0, 0], [-1 / 2, 0]], [[-1 / 4, x1]], [[-1 / 4, 1 / 2]]])

/-- The entries of an abs-normal form. -/
def anfRows (F : AbsNormalForm ℚ) := ([F.a, F.b], [F.zmat, F.lmat, F.jmat, F.ymat].map DMat.toRows)

/-- `(0..10).map(|i| (i as f64) * 0.5)`. -/
def grid (n : Nat) : List ℚ := (List.range n).map fun i : Nat => (i : ℚ) * (1 / 2)

/-- Some points of `grid 10`, for the loops that take too long on all of them. -/
def coarse : List ℚ := [0, 3 / 2]

/-- abs_normal.rs:343-371 `abs_normal_matrices`. -/
example : run (do
    let t ← halfpipe.tape [1, 2]
    M.lift (do
      let t ← AbsNormalTape.new t
      let σ := Sched.seq
      let i2 := DMat.identity 2
      let i1 := DMat.identity 1
      return [← Anf.mulRight σ (anfZ t) i2, ← Anf.mulRight σ (anfL t) i2, ← Anf.mulRight σ (anfJ t) i2,
        ← Anf.mulRight σ (anfY t) i2, ← Anf.mulLeft σ (anfZ t) i2, ← Anf.mulLeft σ (anfL t) i2,
        ← Anf.mulLeft σ (anfJ t) i1, ← Anf.mulLeft σ (anfY t) i1].map DMat.toRows)) =
    .ok ((halfpipeAnf 1 2).2 ++ (halfpipeAnf 1 2).2) := by decide +kernel

example : run (do
    let t ← halfpipe.tape [1, 2]
    M.lift (do
      let t ← AbsNormalTape.new t
      let z ← t.z
      let za := DMat.ofVec (vabs z)
      let lz ← (← Anf.mulRight Sched.seq (anfL t) za).toVec
      let yz ← (← Anf.mulRight Sched.seq (anfY t) za).toVec
      return [← vsub z lz, vneg yz])) =
    .ok (halfpipeAnf 1 2).1 := by decide +kernel

/-- abs_normal.rs:373-385 `halfpipe_function`. -/
example : ∀ x1 ∈ coarse, ∀ x2 ∈ coarse,
    run (do return anfRows (← absNormal Sched.seq halfpipe [x1, x2])) = .ok (halfpipeAnf x1 x2) := by decide +kernel

/-- abs_normal.rs:396-426 `anf_consistency`. -/
example : run (do return anfRows (← absNormal Sched.seq consistency [2, 3])) =
    .ok ([[2], [-2]], [[[1, 0]], [[0]], [[0, 1]], [[1]]]) := by decide +kernel

/-- abs_normal.rs:428-487 `abs_decompose`. -/
example : run (do
    let t ← nested.tape [0, 0]
    M.lift (do
      let a ← AbsNormalTape.new t
      return ([t.indeps, t.deps], [t.ops.map (·.opcode), a.toTape.ops.map (·.opcode)],
        [(anfZ a).indeps, (anfL a).indeps, (anfJ a).indeps, (anfY a).indeps],
        [(anfZ a).deps, (anfL a).deps, (anfJ a).deps, (anfY a).deps]))) =
    .ok ([[0, 1], [6]], [[.Sin, .Abs, .Cos, .Add, .Abs], [.Sin, .Nop, .Cos, .Add, .Nop]],
      [[0, 1], [3, 6], [0, 1], [3, 6]], [[2, 5], [2, 5], [6], [6]]) := by decide +kernel

/-! ## `src/drivers/generalized_jacobian.rs` -/

/-- The first `n` results of `bit_iter`. -/
def bits (bytes : List UInt8) : Nat → Nat → List Bool
  | _, 0 => []
  | idx, n + 1 => (bitNext bytes idx).1 :: bits bytes (bitNext bytes idx).2 n

/-- generalized_jacobian.rs:192-214 `sign_iter`. -/
example : bits [0b10000011, 0b11000111] 0 16 =
    [true, true, false, false, false, false, false, true, true, true, true, false, false, false, true, true] := by
  decide +kernel

/-- testfunc.rs:43-87 `halfpipe_jacobian`: matrix, vector, multiplicity. `(I - LΣ)⁻¹ = I + LΣ` as `L` has one entry. -/
def halfpipeJacobian (x0 x1 dx0 dx1 : ℚ) : List (List ℚ) × List ℚ × Nat :=
  let abs := fun q : ℚ => if q < 0 then -q else q
  let z0 := x0
  let z1 := x1 * x1 - x0 / 2 - abs x0 / 2
  let a0 := z0
  let a1 := z1 + abs z0 / 2
  let b0 := abs z0 / 4 - abs z1 / 2
  let dz0 := a0 + dx0
  let dz1 := a1 - dx0 / 2 + 2 * x1 * dx1 - abs dz0 / 2
  let s0 : ℚ := if dz0 < 0 then -1 else if dz0 > 0 then 1 else -1
  let s1 : ℚ := if dz1 < 0 then -1 else if dz1 > 0 then 1 else -1
  let l := -1 / 2 * s0
  -- Y Σ (I + LΣ)
  let u0 := -1 / 4 * s0 + 1 / 2 * s1 * l
  let u1 := 1 / 2 * s1
  ([[-1 / 4 + u0 - u1 / 2, x1 + u1 * (2 * x1)]], [b0 + u0 * a0 + u1 * a1],
    (if dz0 = 0 then 1 else 0) + if dz1 = 0 then 1 else 0)

/-- The entries of a generalized Jacobian. -/
def gjRows (R : GenJac ℚ) := (R.homogenous.toRows, R.inhomogenous, R.multiplicity)

/-- generalized_jacobian.rs:216-233 `halfpipe_function_tape`. -/
example : ∀ x1 ∈ coarse, ∀ x2 ∈ coarse, ∀ dx1 ∈ grid 2, ∀ dx2 ∈ [0],
    run (do return gjRows (← generalizedJacobian Sched.seq halfpipe [x1, x2] [dx1, dx2] [0] none)) =
      .ok (halfpipeJacobian x1 x2 dx1 dx2) := by decide +kernel

/-- generalized_jacobian.rs:235-257 `halfpipe_function_with_next`. -/
example : ∀ x1 ∈ coarse, ∀ x2 ∈ coarse, ∀ dx1 ∈ grid 2, ∀ dx2 ∈ [0],
    run (do return gjRows (← generalizedJacobian Sched.seq halfpipe [x1, x2] [dx1, dx2] [0]
      (some ⟨DMat.identity 1, [0], 0⟩))) = .ok (halfpipeJacobian x1 x2 dx1 dx2) := by decide +kernel

/-- A start value for the search in `find_t`. -/
def est : Int → Int → Int := fun _ _ => 0

/-- generalized_jacobian.rs:259-280 `halfpipe_function_chain`. -/
example : ∀ x1 ∈ coarse, ∀ x2 ∈ coarse, ∀ dx1 ∈ grid 2, ∀ dx2 ∈ [0],
    ((generalizedJacobianChain Sched.seq est 100 (.chain [halfpipe1, halfpipe2]) [x1, x2] [dx1, dx2] none)
      ⟨w0, 0⟩).1.map gjRows = .ok (halfpipeJacobian x1 x2 dx1 dx2) := by decide +kernel

example : ∀ x1 ∈ coarse, ∀ x2 ∈ coarse,
    run (do halfpipe2.evalFloat (← halfpipe1.evalFloat [x1, x2])) = run (halfpipe.evalFloat [x1, x2]) := by
  decide +kernel

/-! ## `src/drivers/checkpointing.rs` -/

open Ckpt

/-- The casts: between `usize` and `isize` they wrap, from floats they saturate. -/
example : toISize (2 ^ 63 - 1) = 2 ^ 63 - 1 ∧ toISize (2 ^ 63) = -2 ^ 63 ∧ toISize (2 ^ 64 - 1) = -1 ∧
    toUSize 5 = 5 ∧ toUSize (-1) = 2 ^ 64 - 1 ∧ toUSize (-2 ^ 63) = 2 ^ 63 ∧
    satISize (2 ^ 63) = 2 ^ 63 - 1 ∧ satISize (2 ^ 63 - 1) = 2 ^ 63 - 1 ∧ satISize (-2 ^ 70) = -2 ^ 63 ∧
    satISize 7 = 7 := by decide +kernel

/-- checkpointing.rs:156-159 `find_t_tests`. -/
example : findT est 3 100 = .ok 7 := by decide +kernel

/-- checkpointing.rs:161-185 `schedule_tests`. -/
example : schedule est 0 100 = .ok [] ∧ schedule est 1 100 = .ok [99] ∧ schedule est 2 100 = .ok [87, 99] ∧
    schedule est 3 100 = .ok [65, 93, 99] ∧ schedule est 4 100 = .ok [50, 80, 95, 99] ∧
    schedule est 5 100 = .ok [45, 70, 86, 96, 99] := by decide +kernel

example : schedule est 42 0 = .ok [] ∧ schedule est 42 1 = .ok [] ∧ schedule est 42 2 = .ok [1] ∧
    schedule est 42 3 = .ok [1, 2] ∧ schedule est 42 4 = .ok [1, 2, 3] ∧
    schedule est 42 41 = .ok ((List.range 40).map (· + 1)) ∧ schedule est 5 5 = .ok [1, 2, 3, 4] := by decide +kernel

/-- checkpointing.rs:187-197 `schedule_consistency`. -/
example : (do
    let full ← schedule est 4 100
    let first ← unwrap full.head?
    let part ← schedule est 3 (100 - first)
    return (part.map (· + first), full.tail)) = .ok (([80, 95, 99] : List Nat), [80, 95, 99]) := by decide +kernel

/-- checkpointing.rs:199-205 `sequence_reverse_gauss_sum`. -/
example : ((reverseSequence (W := Unit) est 100 0 37 9 (fun x => pure (x + 1)) (fun x y => pure (x + y))
    (fun x => pure x)) ⟨(), 0⟩).1 = .ok (37 * (37 + 1) / 2) := by decide +kernel

end Adv.Conformance
