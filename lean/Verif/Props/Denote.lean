import Verif.Proof.Denote
import Verif.Proof.Record
import Verif.Proof.Jet
import Verif.Spec.Demo

/-!
# Elementary operations and the meaning of functions: C55, C56
-/

set_option linter.unusedSectionVars false
set_option linter.unusedSimpArgs false

namespace Adv.Props
open Adv
open scoped Adv

section generic
variable {S : Type} [Flt S]

/-! ## C55 -/

/-- C55, values: each elementary method of `AFloat` returns the value that the method of the same name of the scalar
type returns (no law about the scalars is used, so this is exact for floating point numbers). The operands may belong
to any context. -/
theorem C55_elementary_values {a b r : AFloat S} {w w' : World S} :
    (AFloat.add a b w = (.ok r, w') → r.v = a.v +ᶠ b.v) ∧
    (AFloat.sub a b w = (.ok r, w') → r.v = a.v -ᶠ b.v) ∧
    (AFloat.mul a b w = (.ok r, w') → r.v = a.v *ᶠ b.v) ∧
    (AFloat.div a b w = (.ok r, w') → r.v = a.v /ᶠ b.v) ∧
    (AFloat.powf a b w = (.ok r, w') → r.v = Flt.powf a.v b.v) ∧
    (AFloat.abs a w = (.ok r, w') → r.v = Flt.abs a.v) ∧
    (AFloat.exp a w = (.ok r, w') → r.v = Flt.exp a.v) ∧
    (AFloat.ln a w = (.ok r, w') → r.v = Flt.ln a.v) ∧
    (AFloat.sin a w = (.ok r, w') → r.v = Flt.sin a.v) ∧
    (AFloat.cos a w = (.ok r, w') → r.v = Flt.cos a.v) ∧
    (AFloat.tan a w = (.ok r, w') → r.v = Flt.tan a.v) ∧
    (AFloat.asin a w = (.ok r, w') → r.v = Flt.asin a.v) ∧
    (AFloat.acos a w = (.ok r, w') → r.v = Flt.acos a.v) ∧
    (AFloat.atan a w = (.ok r, w') → r.v = Flt.atan a.v) :=
  ⟨fun h => (fromOp_ok rfl h).1, fun h => (fromOp_ok rfl h).1, fun h => (fromOp_ok rfl h).1,
    fun h => (fromOp_ok rfl h).1, fun h => (fromOp_ok rfl h).1, fun h => (fromOp_ok rfl h).1,
    fun h => (fromOp_ok rfl h).1, fun h => (fromOp_ok rfl h).1, fun h => (fromOp_ok rfl h).1,
    fun h => (fromOp_ok rfl h).1, fun h => (fromOp_ok rfl h).1, fun h => (fromOp_ok rfl h).1,
    fun h => (fromOp_ok rfl h).1, fun h => (fromOp_ok rfl h).1⟩

/-- C55: without contexts the elementary methods never panic and do not touch the process state. -/
theorem C55_elementary_total {a b : AFloat S} (ha : a.ctx = none) (hb : b.ctx = none) (w : World S) :
    (∀ m ∈ [AFloat.add a b, AFloat.sub a b, AFloat.mul a b, AFloat.div a b, AFloat.powf a b, AFloat.abs a, AFloat.exp a,
      AFloat.ln a, AFloat.sin a, AFloat.cos a, AFloat.tan a, AFloat.asin a, AFloat.acos a, AFloat.atan a],
      ∃ r, m w = (.ok r, w) ∧ r.ctx = none) := by
  have hbin : ∀ o : OpCode, o.isBinary = true → ∃ r, AFloat.fromOp o a (some b) w = (.ok r, w) ∧ r.ctx = none :=
    fun o ho => ⟨_, fromOp_free _ ho ha (by rintro _ ⟨⟩; exact hb), rfl⟩
  have hun : ∀ o : OpCode, o.isUnary = true → ∃ r, AFloat.fromOp o a none w = (.ok r, w) ∧ r.ctx = none :=
    fun o ho => ⟨_, fromOp_free _ ho ha (by rintro _ ⟨⟩), rfl⟩
  intro m hm
  simp only [List.mem_cons, List.not_mem_nil, or_false] at hm
  rcases hm with rfl | rfl | rfl | rfl | rfl | rfl | rfl | rfl | rfl | rfl | rfl | rfl | rfl | rfl
  · exact hbin .Add rfl
  · exact hbin .Sub rfl
  · exact hbin .Mul rfl
  · exact hbin .Div rfl
  · exact hbin .Powf rfl
  · exact hun .Abs rfl
  · exact hun .Exp rfl
  · exact hun .Ln rfl
  · exact hun .Sin rfl
  · exact hun .Cos rfl
  · exact hun .Tan rfl
  · exact hun .Asin rfl
  · exact hun .Acos rfl
  · exact hun .Atan rfl

example : (AFloat.mul (AFloat.new 2 1) (AFloat.new 3 0) Demo.w0).1 = .ok (AFloat.new (6 : ℚ) 3) := by decide +kernel

/-! ## C56 -/

/-- C56: `eval_float` computes the mathematical meaning of the function (`none` is a panic), for any scalar
arithmetic, and does not change the process state. -/
theorem C56_eval_float_meaning (f : Func S) (x : List S) (w : World S) :
    (f.evalFloat x w).1.toOption = f.meaning x ∧ (f.evalFloat x w).2 = w := by
  rw [Func.evalFloat_eq]; exact ⟨evalV_meaning f x, rfl⟩

/-- C56: so does evaluation on `AFloat`s with arbitrary seeds, in any context. -/
theorem C56_eval_meaning (f : Func S) (env : List (AFloat S)) {w w' : World S} {y : List (AFloat S)}
    (h : f.eval env w = (.ok y, w')) : f.meaning (env.map AFloat.v) = some (y.map AFloat.v) := by
  have h1 := runProgs_ok_dual f.progs env w (by rw [← Func.eval_eq]; exact h)
  have h2 := Func.evalD_fst f (env.map AFloat.dual)
  rw [map_dual_fst] at h2
  rw [← evalV_meaning, ← h2]
  unfold Func.evalD Func.evalS
  rw [h1]
  show some _ = _
  rw [map_dual_fst]

/-- C56: and recording followed by reading the tape. -/
theorem C56_tape_meaning (f : Func S) (x : List S) {w w' : World S} {t : Tape S} (hw : w.nextId < usizeMax)
    (e : f.tape x w = (.ok t, w')) : t.y.toOption = f.meaning x := by
  have h := (Func.tape_spec f x w hw).2
  rw [e] at h
  obtain ⟨_, -, h⟩ := h.ok_left
  rw [← evalV_meaning, h.out]
  rw [Tape.y_eq h.wf]

example : Demo.absF.meaning [2, -3] = some [6, 8] ∧ (Demo.absF.evalFloat [2, -3] Demo.w0).1 = .ok [6, 8] := by
  decide +kernel
example : Demo.absF.meaning [2] = none := by decide +kernel
example : (Func.chain [Demo.branchF, Demo.branchF]).meaning [3] = some [81] := by decide +kernel

/-- User code consisting of one call of a method of two numbers (`self` is variable 0, the argument variable 1), for
every derived method of `AFloat`. -/
def methodProgs : List (Prog S × (AFloat S → AFloat S → M (World S) (List (AFloat S)))) :=
  [(.op .Sub (.lit Flt.zero) (some (.lit Flt.one)) fun i _ => .op .Mul (.var i) (some (.var 0)) fun j _ => .ret [.var j],
      fun a _ => do return [← a.neg]),
   (.op .Div (.lit Flt.one) (some (.var 0)) fun i _ => .ret [.var i], fun a _ => do return [← a.recip]),
   (.op .Powf (.var 0) (some (.lit Flt.half)) fun i _ => .ret [.var i], fun a _ => do return [← a.sqrt]),
   (.op .Powf (.lit (Flt.ofInt 2)) (some (.var 0)) fun i _ => .ret [.var i], fun a _ => do return [← a.exp2]),
   (.op .Ln (.var 0) none fun i _ => .op .Ln (.var 1) none fun j _ =>
      .op .Div (.var i) (some (.var j)) fun k _ => .ret [.var k], fun a b => do return [← a.log b]),
   (.op .Ln (.var 0) none fun i _ => .op .Ln (.lit (Flt.ofInt 2)) none fun j _ =>
      .op .Div (.var i) (some (.var j)) fun k _ => .ret [.var k], fun a _ => do return [← a.log2]),
   (.op .Ln (.var 0) none fun i _ => .op .Ln (.lit (Flt.ofInt 10)) none fun j _ =>
      .op .Div (.var i) (some (.var j)) fun k _ => .ret [.var k], fun a _ => do return [← a.log10]),
   (.op .Add (.var 0) (some (.var 1)) fun i _ => .op .Sub (.var 0) (some (.var 1)) fun j _ =>
      .op .Abs (.var j) none fun k _ => .op .Add (.var i) (some (.var k)) fun l _ =>
      .op .Mul (.lit Flt.half) (some (.var l)) fun m _ => .ret [.var m], fun a b => do return [← a.max b]),
   (.op .Add (.var 0) (some (.var 1)) fun i _ => .op .Sub (.var 0) (some (.var 1)) fun j _ =>
      .op .Abs (.var j) none fun k _ => .op .Sub (.var i) (some (.var k)) fun l _ =>
      .op .Mul (.lit Flt.half) (some (.var l)) fun m _ => .ret [.var m], fun a b => do return [← a.min b]),
   (.op .Sub (.var 0) (some (.var 1)) fun i _ => .op .Abs (.var i) none fun j _ => .ret [.var j],
      fun a b => do return [← a.absSub b]),
   (.op .Div (.lit Flt.one) (some (.lit (Flt.ofInt 3))) fun i _ =>
      .op .Powf (.var 0) (some (.var i)) fun j _ => .ret [.var j], fun a _ => do return [← a.cbrt]),
   (.op .Powf (.var 0) (some (.lit (Flt.ofInt 2))) fun i _ => .op .Powf (.var 1) (some (.lit (Flt.ofInt 2))) fun j _ =>
      .op .Add (.var i) (some (.var j)) fun k _ => .op .Powf (.var k) (some (.lit Flt.half)) fun l _ => .ret [.var l],
      fun a b => do return [← a.hypot b]),
   (.op .Sin (.var 0) none fun i _ => .op .Cos (.var 0) none fun j _ => .ret [.var i, .var j],
      fun a _ => do let r ← a.sinCos; return [r.1, r.2])]

/-- C56: the derived methods are user code in the sense of the model, with the same effects on the process state. What
is proved about all functions therefore covers functions that call them. -/
theorem C56_methods_are_programs (a b : AFloat S) (w : World S) :
    ∀ pm ∈ (methodProgs : List (Prog S × _)), pm.1.run [a, b] w = pm.2 a b w := by
  simp only [methodProgs, List.forall_mem_cons, List.not_mem_nil, false_imp_iff, implies_true, and_true]
  refine ⟨?_, ?_, ?_, ?_, ?_, ?_, ?_, ?_, ?_, ?_, ?_, ?_, ?_⟩ <;> (try simp only [AFloat.neg, AFloat.log, AFloat.log2, AFloat.log10, AFloat.max, AFloat.min, AFloat.absSub,
      AFloat.cbrt, AFloat.hypot, AFloat.sinCos, AFloat.mulAdd, bind_assoc, pure_bind]) <;> rfl

/-- C56: the same for `powi` (any exponent) and `mul_add`. -/
theorem C56_powi_mul_add_are_programs (a b c : AFloat S) (n : Int) (w : World S) :
    (Prog.op .Powf (.var 0) (some (.lit (Flt.ofInt n))) fun i _ => .ret [.var i]).run [a] w =
      (do return [← a.powi n] : M (World S) (List (AFloat S))) w ∧
    (Prog.op .Mul (.var 0) (some (.var 1)) fun i _ => .op .Add (.var i) (some (.var 2)) fun j _ =>
      .ret [.var j]).run [a, b, c] w = (do return [← a.mulAdd b c] : M (World S) (List (AFloat S))) w := by
  constructor <;> (try simp only [AFloat.neg, AFloat.log, AFloat.log2, AFloat.log10, AFloat.max, AFloat.min, AFloat.absSub,
      AFloat.cbrt, AFloat.hypot, AFloat.sinCos, AFloat.mulAdd, bind_assoc, pure_bind]) <;> rfl

example : ((AFloat.max (AFloat.new 2 1) (AFloat.new 5 3) Demo.w0).1.map AFloat.dv) = .ok (3 : ℚ) := by decide +kernel

end generic

/-! ## C55 over the reals -/

section real
variable {X Y : ℝ → ℝ} {t : ℝ} {a b r : AFloat ℝ} {w w' : World ℝ}

/-- C55, derivatives of arithmetic: along differentiable curves `X`, `Y` with the values and derivatives carried by the
operands, the result carries value and derivative of the combined curve. -/
theorem C55_arithmetic_derivatives (ha : Jet X t a) (hb : Jet Y t b) :
    (AFloat.add a b w = (.ok r, w') → Jet (fun s => X s + Y s) t r) ∧
    (AFloat.sub a b w = (.ok r, w') → Jet (fun s => X s - Y s) t r) ∧
    (AFloat.mul a b w = (.ok r, w') → Jet (fun s => X s * Y s) t r) ∧
    (b.v ≠ 0 → AFloat.div a b w = (.ok r, w') → Jet (fun s => X s / Y s) t r) ∧
    (0 < a.v → AFloat.powf a b w = (.ok r, w') → Jet (fun s => X s ^ Y s) t r) :=
  ⟨jet_add ha hb, jet_sub ha hb, jet_mul ha hb, fun h => jet_div ha hb h, fun h => jet_powf ha hb h⟩

/-- C55, derivatives of the elementary functions on the open domains where they are differentiable. -/
theorem C55_elementary_derivatives (ha : Jet X t a) :
    (AFloat.exp a w = (.ok r, w') → Jet (fun s => Real.exp (X s)) t r) ∧
    (a.v ≠ 0 → AFloat.ln a w = (.ok r, w') → Jet (fun s => Real.log (X s)) t r) ∧
    (AFloat.sin a w = (.ok r, w') → Jet (fun s => Real.sin (X s)) t r) ∧
    (AFloat.cos a w = (.ok r, w') → Jet (fun s => Real.cos (X s)) t r) ∧
    (Real.cos a.v ≠ 0 → AFloat.tan a w = (.ok r, w') → Jet (fun s => Real.tan (X s)) t r) ∧
    (a.v ≠ -1 → a.v ≠ 1 → AFloat.asin a w = (.ok r, w') → Jet (fun s => Real.arcsin (X s)) t r) ∧
    (a.v ≠ -1 → a.v ≠ 1 → AFloat.acos a w = (.ok r, w') → Jet (fun s => Real.arccos (X s)) t r) ∧
    (AFloat.atan a w = (.ok r, w') → Jet (fun s => Real.arctan (X s)) t r) :=
  ⟨jet_exp ha, fun h => jet_ln ha h, jet_sin ha, jet_cos ha, fun h => jet_tan ha h, fun h h' => jet_asin ha h h',
    fun h h' => jet_acos ha h h', jet_atan ha⟩

/-- C55, `abs`: the derivative is the increment of the absolute value over the step `dv` (its piecewise linearization,
not a limit); it is the derivative of `|·|` in direction `dv` whenever the step does not cross zero. -/
theorem C55_abs_increment (h : AFloat.abs a w = (.ok r, w')) :
    r.v = |a.v| ∧ r.dv = |a.v + a.dv| - |a.v| ∧
      (0 < a.v → 0 ≤ a.v + a.dv → r.dv = a.dv) ∧ (a.v < 0 → a.v + a.dv ≤ 0 → r.dv = -a.dv) := by
  obtain ⟨h1, h2⟩ := fromOp_ok rfl h
  have h2' : r.dv = |a.v + a.dv| - |a.v| := h2
  refine ⟨h1, h2', fun p q => ?_, fun p q => ?_⟩
  · rw [h2', abs_of_nonneg q, abs_of_pos p]; ring
  · rw [h2', abs_of_nonpos q, abs_of_neg p]; ring

example : Jet (fun s => 3 * s) 2 (AFloat.new (6 : ℝ) 3) :=
  ⟨by norm_num [AFloat.new], by simpa [AFloat.new] using (hasDerivAt_id (2 : ℝ)).const_mul 3⟩

example : (AFloat.abs (AFloat.new (1 : ℚ) (-3)) Demo.w0).1 = .ok (AFloat.new 1 1) := by decide +kernel

end real
end Adv.Props
