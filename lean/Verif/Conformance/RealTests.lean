import Verif.Conformance.Funcs
import Verif.Proof.KernelRfl
import Verif.Spec.Real

/-!
# The crate's unit tests with transcendental functions

The same for the tests that use transcendental functions: over the real numbers, and not at the points of the test but
at every point of the test's range. The derivatives on the right hand sides are those written in the tests.
-/

namespace Adv.Conformance
open Adv

/-- Process start. -/
def r0 {S : Type} : World S := ⟨1, fun _ => none⟩

section
variable (x y : ℝ)
theorem real_powf : Flt.powf x y = x ^ y := rfl
theorem real_powi (n : Int) : Flt.powi x n = x ^ n := rfl
theorem real_half : (Flt.half : ℝ) = 1 / 2 := rfl
theorem real_sin : Flt.sin x = Real.sin x := rfl
theorem real_cos : Flt.cos x = Real.cos x := rfl
theorem real_tan : Flt.tan x = Real.tan x := rfl
theorem real_exp : Flt.exp x = Real.exp x := rfl
theorem real_ln : Flt.ln x = Real.log x := rfl
theorem real_sqrt : Flt.sqrt x = Real.sqrt x := rfl
theorem real_asin : Flt.asin x = Real.arcsin x := rfl
theorem real_acos : Flt.acos x = Real.arccos x := rfl
theorem real_atan : Flt.atan x = Real.arctan x := rfl
end

theorem real_sqrt_deriv {x : ℝ} (hx : 0 < x) : 1 / 2 * x ^ (-(1 / 2) : ℝ) = 1 / 2 / Real.sqrt x := by
  rw [Real.rpow_neg hx.le, ← Real.sqrt_eq_rpow]; ring

/-- Run an expression over the real numbers and write the result with Mathlib's operations. -/
macro "real_eval" : tactic => `(tactic| (
  kernel_eval ℝ
  simp only [LawfulFlt.add_eq, LawfulFlt.sub_eq, LawfulFlt.mul_eq, LawfulFlt.div_eq, LawfulFlt.neg_eq, LawfulFlt.abs_eq,
    LawfulFlt.zero_eq, LawfulFlt.one_eq, LawfulFlt.ofInt_eq, real_powf, real_powi, real_half, real_sin, real_cos, real_tan,
    real_exp, real_ln, real_sqrt, real_asin, real_acos, real_atan]))

/-- The dvalue of `y` in afloat.rs:418-426 for the method `f`, at `x`. -/
def tapeless {S : Type} [Flt S] (f : AFloat S → M (World S) (AFloat S)) (x : S) : Res S :=
  (f (AFloat.new x Flt.one) r0).1.map AFloat.dv

/-- The tape of tape.rs:163-170. -/
def unaryTape {S : Type} [Flt S] (f : AFloat S → M (World S) (AFloat S)) (x : S) : Res (Tape S) :=
  ((do
    let ctx ← AContext.new
    let x ← ctx.setIndep (AFloat.new x Flt.zero)
    let y ← f x
    ctx.setDep y
    ctx.tape) r0).1

/-- tape.rs:172-174. -/
def fwd {S : Type} [Flt S] (f : AFloat S → M (World S) (AFloat S)) (x : S) : Res (List S) := do (← unaryTape f x).firstOrderForward [Flt.one]
/-- tape.rs:176-178. -/
def rev {S : Type} [Flt S] (f : AFloat S → M (World S) (AFloat S)) (x : S) : Res (List S) := do (← unaryTape f x).firstOrderReverse [Flt.one]

/-! afloat.rs:417-437 `afloat_nonlinear_functions` and tape.rs:186-203 `first_order_unary_nonlinear_functions`. -/

example (x : ℝ) : tapeless AFloat.sin x = .ok (Real.cos x) := by real_eval; norm_num
example (x : ℝ) : fwd AFloat.sin x = .ok [Real.cos x] := by real_eval; norm_num
example (x : ℝ) : rev AFloat.sin x = .ok [Real.cos x] := by real_eval; norm_num
example (x : ℝ) : tapeless AFloat.cos x = .ok (-Real.sin x) := by real_eval; norm_num
example (x : ℝ) : fwd AFloat.cos x = .ok [-Real.sin x] := by real_eval; norm_num
example (x : ℝ) : rev AFloat.cos x = .ok [-Real.sin x] := by real_eval; norm_num
example (x : ℝ) : tapeless AFloat.tan x = .ok ((1 / Real.cos x) ^ 2) := by real_eval; norm_num
example (x : ℝ) : fwd AFloat.tan x = .ok [(1 / Real.cos x) ^ 2] := by real_eval; norm_num
example (x : ℝ) : rev AFloat.tan x = .ok [(1 / Real.cos x) ^ 2] := by real_eval; norm_num
example (x : ℝ) : tapeless AFloat.exp x = .ok (Real.exp x) := by real_eval; norm_num
example (x : ℝ) : fwd AFloat.exp x = .ok [Real.exp x] := by real_eval; norm_num
example (x : ℝ) : rev AFloat.exp x = .ok [Real.exp x] := by real_eval; norm_num
example (x : ℝ) : tapeless AFloat.ln x = .ok (1 / x) := by real_eval; norm_num
example (x : ℝ) : fwd AFloat.ln x = .ok [1 / x] := by real_eval; norm_num
example (x : ℝ) : rev AFloat.ln x = .ok [1 / x] := by real_eval; norm_num
example (x : ℝ) (hx : 0 < x) : tapeless AFloat.sqrt x = .ok (1 / 2 / Real.sqrt x) := by
  real_eval; norm_num [AFloat.new, AFloat.ofScalar, Flt.eq, Flt.zero, Flt.one, real_sqrt_deriv hx]
example (x : ℝ) (hx : 0 < x) : fwd AFloat.sqrt x = .ok [1 / 2 / Real.sqrt x] := by
  real_eval; norm_num [AFloat.new, AFloat.ofScalar, Flt.eq, Flt.zero, Flt.one, real_sqrt_deriv hx]
example (x : ℝ) (hx : 0 < x) : rev AFloat.sqrt x = .ok [1 / 2 / Real.sqrt x] := by
  real_eval; norm_num [real_sqrt_deriv hx]
example (x : ℝ) : tapeless AFloat.asin x = .ok (1 / Real.sqrt (1 - x ^ 2)) := by real_eval; norm_num
example (x : ℝ) : fwd AFloat.asin x = .ok [1 / Real.sqrt (1 - x ^ 2)] := by real_eval; norm_num
example (x : ℝ) : rev AFloat.asin x = .ok [1 / Real.sqrt (1 - x ^ 2)] := by real_eval; norm_num
example (x : ℝ) : tapeless AFloat.acos x = .ok (-1 / Real.sqrt (1 - x ^ 2)) := by real_eval; norm_num
example (x : ℝ) : fwd AFloat.acos x = .ok [-1 / Real.sqrt (1 - x ^ 2)] := by real_eval; norm_num
example (x : ℝ) : rev AFloat.acos x = .ok [-1 / Real.sqrt (1 - x ^ 2)] := by real_eval; norm_num
example (x : ℝ) : tapeless AFloat.atan x = .ok (1 / (1 + x ^ 2)) := by real_eval; norm_num
example (x : ℝ) : fwd AFloat.atan x = .ok [1 / (1 + x ^ 2)] := by real_eval; norm_num
example (x : ℝ) : rev AFloat.atan x = .ok [1 / (1 + x ^ 2)] := by real_eval; norm_num

/-- jacobian.rs:100-109 `reference_jacobian`. -/
noncomputable def polarJacobian (r φ : ℝ) : List (List ℝ) :=
  [[Real.cos φ, -r * Real.sin φ], [Real.sin φ, r * Real.cos φ]]

/-- jacobian.rs:111-121 `jacobian_forward_polar`. -/
example (r φ : ℝ) : (jacobianForward Sched.seq polar [r, φ] r0).1.map DMat.toRows = .ok (polarJacobian r φ) := by
  real_eval
  norm_num [polarJacobian]

/-- jacobian.rs:123-136 `jacobian_reverse_polar`; the tape is recorded at another point. -/
example (r φ a b : ℝ) : ((polar.tape [a, b] r0).1.bind fun t => do
    return (← jacobianReverse Sched.seq (← t.zeroOrder [r, φ])).toRows) = .ok (polarJacobian r φ) := by
  real_eval
  norm_num [polarJacobian]

/-- testfunc.rs:21-41 `halfpipe_anf`: the vectors `a`, `b` and the matrices `Z`, `L`, `J`, `Y`, which are lists of rows. -/
noncomputable def halfpipeAnfReal (x0 x1 : ℝ) : List (List ℝ) × List (List (List ℝ)) :=
  let z0 := x0
  let z1 := x1 * x1 - x0 / 2 - |x0| / 2
  ([[z0, z1 + |z0| / 2], [|z0| / 4 - |z1| / 2]],
    [[[1, 0], [-1 / 2, 2 * x1]], [[0, 0], [-1 / 2, 0]], [[-1 / 4, x1]], [[-1 / 4, 1 / 2]]])

/-- abs_normal.rs:373-385 `halfpipe_function`, at every point. -/
example (x0 x1 : ℝ) : (absNormal Sched.seq halfpipe [x0, x1] r0).1.map
    (fun F => ([F.a, F.b], [F.zmat, F.lmat, F.jmat, F.ymat].map DMat.toRows)) = .ok (halfpipeAnfReal x0 x1) := by
  real_eval
  have h : x1 * x1 - x0 / 2 - |x0| / 2 = x1 ^ 2 - 1 / 2 * (x0 + |x0|) := by ring
  have c : ((Int.ofNat 2 : Int) : ℝ) = 2 := by norm_num
  have c0 : ((Int.ofNat 0 : Int) : ℝ) = 0 := by norm_num
  simp only [halfpipeAnfReal, h, c, c0, Real.rpow_ofNat]
  norm_num
  constructor <;> ring

end Adv.Conformance
