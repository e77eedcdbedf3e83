import Mathlib.Analysis.Analytic.IteratedFDeriv
import Verif.Proof.NestedN
import Verif.Props.Nested

/-!
# Property C73: variables nested any number of times
-/

set_option linter.unusedSectionVars false
set_option linter.unusedSimpArgs false

namespace Adv.Props
open Adv Filter
open scoped Adv Topology ContDiff

/-- C73, for all inputs, in any arithmetic: dropping the outermost derivatives of an evaluation with `k + 2` levels gives the
evaluation with `k + 1` levels, including errors. -/
theorem C73_levels {S F : Type} [Flt S] (k : Nat) (f : Func S) (up : Nest S (k + 1) → F) {X : List (AFloat (AFloat (Nest S k)))}
    (hX : ∀ a ∈ X, a.ctx = none ∧ a.v.ctx = none) (w : World F) (w' : World (Nest S k)) :
    (Func.evalVia (S := AFloat (Nest S k)) up (f.nestN (k + 1)) X w).1.map (List.map AFloat.v) =
      ((f.nestN k).eval (X.map AFloat.v) w').1 :=
  (C72_values up (f.nestN k) hX w w').1

/-- C73. The full statement allows all operations that are smooth where they are executed:
```
f.Along smooth2 w (duals x 0) → … ys.map (AFloat.coef k p) = List.ofFn (pathDeriv (k + 1) p d F x)
```
It is false for powers already with two levels (C72), and for divisions with three levels (`C73_counterexample`), because
the derivative of a quotient squares the denominator with `powi(2)`. For code made of sums, differences, products, sines,
cosines and exponentials: near `x` the function is an analytic map `F`, and an evaluation with `k + 1` levels returns all
mixed derivatives in the `k + 1` directions. -/
theorem C73_all_orders_partial (f : Func ℝ) (k : Nat) {n : Nat} {x : Fin n → ℝ} (d : Fin (k + 1) → Fin n → ℝ) {T : Type}
    (up : Nest ℝ k → T) {w : World ℝ} (w' : World T) {y : List ℝ} (he : (f.evalFloat (List.ofFn x) w).1 = .ok y)
    (hs : f.Along analyticOps w (duals x 0)) :
    ∃ F : (Fin n → ℝ) → Fin y.length → ℝ, (∀ᶠ z in 𝓝 x, (f.evalFloat (List.ofFn z) w).1 = .ok (List.ofFn (F z))) ∧
      ContDiffAt ℝ ω F x ∧ ∃ ys, (f.nestN k).evalVia up (nestedVars k x d) w' = (.ok ys, w') ∧
        ∀ p, ys.map (AFloat.coef k p) = List.ofFn (pathDeriv (k + 1) p d F x) := by
  obtain ⟨F, h1, h2, h3⟩ := nestN_func (up := up) (w' := w') d he hs
  exact ⟨F, h1, h2, _, h3, fun p => nestN_outputs h2 p d⟩

/-- C73: the innermost `dvalue()` is the derivative of order `k + 1`, applied to the directions. -/
theorem C73_top_partial (f : Func ℝ) (k : Nat) {n : Nat} {x : Fin n → ℝ} (d : Fin (k + 1) → Fin n → ℝ) {T : Type}
    (up : Nest ℝ k → T) {w : World ℝ} (w' : World T) {y : List ℝ} (he : (f.evalFloat (List.ofFn x) w).1 = .ok y)
    (hs : f.Along analyticOps w (duals x 0)) :
    ∃ F : (Fin n → ℝ) → Fin y.length → ℝ, (∀ᶠ z in 𝓝 x, (f.evalFloat (List.ofFn z) w).1 = .ok (List.ofFn (F z))) ∧
      ContDiffAt ℝ ω F x ∧ ∃ ys, (f.nestN k).evalVia up (nestedVars k x d) w' = (.ok ys, w') ∧
        ys.map (AFloat.coef k fun _ => true) = List.ofFn (iteratedFDeriv ℝ (k + 1) F x d) := by
  obtain ⟨F, h1, h2, ys, h3, h4⟩ := C73_all_orders_partial f k d up w' he hs
  refine ⟨F, h1, h2, ys, h3, ?_⟩
  rw [h4, pathDeriv_top (k + 1) d h2]
  exact congrArg _ (h2.iteratedFDeriv_comp_perm d (Equiv.ofBijective Fin.rev Fin.rev_bijective))

/-- C73: the order of the directions does not matter. -/
theorem C73_directions_partial (f : Func ℝ) (k : Nat) {n : Nat} {x : Fin n → ℝ} (d : Fin (k + 1) → Fin n → ℝ)
    (σ : Equiv.Perm (Fin (k + 1))) {T : Type} (up : Nest ℝ k → T) {w : World ℝ} (w' : World T) {y : List ℝ}
    (he : (f.evalFloat (List.ofFn x) w).1 = .ok y) (hs : f.Along analyticOps w (duals x 0)) :
    ((f.nestN k).evalVia up (nestedVars k x fun i => d (σ i)) w').1.map (List.map (AFloat.coef k fun _ => true)) =
      ((f.nestN k).evalVia up (nestedVars k x d) w').1.map (List.map (AFloat.coef k fun _ => true)) := by
  obtain ⟨F, h1, h2, ys, h3, h4⟩ := C73_top_partial f k d up w' he hs
  obtain ⟨G, g1, g2, zs, g3, g4⟩ := C73_top_partial f k (fun i => d (σ i)) up w' he hs
  have hFG : F =ᶠ[𝓝 x] G := by
    filter_upwards [h1, g1] with z hz1 hz2
    rw [hz1] at hz2
    exact List.ofFn_injective (Except.ok.inj hz2)
  have hff := (hFG.iteratedFDeriv ℝ (k + 1)).eq_of_nhds
  rw [h3, g3, map_ok_eq, map_ok_eq, h4, g4, hff]
  exact congrArg (fun v => Except.ok (List.ofFn v)) (g2.iteratedFDeriv_comp_perm d σ)

/-! ## Three levels -/

/-- `x ↦ x * exp(0 - x * x)` -/
noncomputable def mulExp : Func ℝ := Func.advFn 1 1 fun _ =>
  (.op .Mul (.var 0) (some (.var 0)) fun i _ => .op .Sub (.lit 0) (some (.var i)) fun j _ =>
    .op .Exp (.var j) none fun l _ => .op .Mul (.var 0) (some (.var l)) fun r _ => .ret [.var r])

/-- `x ↦ x / exp(x * x)` -/
noncomputable def divExp : Func ℝ := Func.advFn 1 1 fun _ =>
  (.op .Mul (.var 0) (some (.var 0)) fun i _ => .op .Exp (.var i) none fun l _ =>
    .op .Div (.var 0) (some (.var l)) fun r _ => .ret [.var r])

theorem mulExp_straight : mulExp.StraightLine := by straight mulExp
theorem divExp_straight : divExp.StraightLine := by straight divExp

theorem mulExp_eval (x : ℝ) (w : World ℝ) : (mulExp.evalFloat [x] w).1 = .ok [x * Real.exp (0 - x * x)] := rfl

theorem divExp_eval (x : ℝ) (w : World ℝ) : (divExp.evalFloat [x] w).1 = .ok [x * Real.exp (0 - x * x)] := by
  have h : (divExp.evalFloat [x] w).1 = .ok [x / Real.exp (x * x)] := rfl
  rw [h, zero_sub, Real.exp_neg, div_eq_mul_inv]

theorem mulExp_along (w : World ℝ) : mulExp.Along analyticOps w (duals ![0] 0) := by
  rw [C01_straight_line mulExp_straight]
  unfold mulExp
  refine ⟨?_, fun _ _ => trivial⟩
  eachop
  · exact rfl
  eachop
  · exact rfl
  eachop
  · exact rfl
  eachop
  · exact rfl
  · trivial

theorem divExp_along (w : World ℝ) : divExp.Along (fun o arg a b => smooth2 o arg a b ∧ o ≠ .Powf) w (duals ![0] 0) := by
  rw [C01_straight_line divExp_straight]
  unfold divExp
  refine ⟨?_, fun _ _ => trivial⟩
  eachop
  · exact ⟨trivial, by simp⟩
  eachop
  · exact ⟨trivial, by simp⟩
  eachop
  · refine ⟨?_, by simp⟩
    exact fun h => Real.exp_ne_zero _ (Option.some.inj h)
  · trivial

/-- A variable with three levels. -/
def three (c0 c1 c2 c3 c4 c5 c6 c7 : ℝ) : AFloat (AFloat (AFloat ℝ)) :=
  ⟨⟨⟨c0, c1, none⟩, ⟨c2, c3, none⟩, none⟩, ⟨⟨c4, c5, none⟩, ⟨c6, c7, none⟩, none⟩, none⟩

theorem nestedVars3 : nestedVars 2 ![0] ![![1], ![1], ![1]] = [three 0 1 1 0 1 0 0 0] := rfl

section arith
variable {S : Type} [Flt S] (a b : AFloat S)
theorem nest_exp : Flt.exp a = ⟨Flt.exp a.v, a.dv *ᶠ Flt.exp a.v, none⟩ := rfl
theorem nest_div : a /ᶠ b = ⟨a.v /ᶠ b.v, (a.dv *ᶠ b.v -ᶠ a.v *ᶠ b.dv) /ᶠ Flt.powi b.v 2, none⟩ := rfl
theorem nest_powi (n : Int) : Flt.powi a n = Flt.powf a (AFloat.ofScalar (Flt.ofInt n)) := rfl
end arith

/-- Evaluation of arithmetic of variables with three levels. -/
macro "nest_eval3" : tactic => `(tactic|
  (simp only [opVal, opDval, zfun, ffun, nest_mul, nest_add, nest_sub, nest_neg, nest_powf, nest_eq, nest_exp, nest_div, nest_powi,
     nest_zero, nest_one, AFloat.new, AFloat.ofScalar, Option.getD_some, Option.getD_none, three]
   norm_num [AFloat.ofScalar, AFloat.new, Flt.add, Flt.sub, Flt.mul, Flt.div, Flt.neg, Flt.exp, Flt.powf, Flt.powi, Flt.eq, Flt.zero, Flt.one, Flt.ofInt]))

theorem mulExp_three : AFloat.plainOp .Mul (three 0 1 1 0 1 0 0 0) (some (AFloat.plainOp .Exp (AFloat.plainOp .Sub
    (AFloat.ofScalar (AFloat.ofScalar (AFloat.ofScalar (0 : ℝ)))) (some (AFloat.plainOp .Mul (three 0 1 1 0 1 0 0 0)
    (some (three 0 1 1 0 1 0 0 0))))) none)) = three 0 1 1 0 1 0 0 (-6) := by
  rw [plainOp_eq rfl, plainOp_eq rfl, plainOp_eq rfl, plainOp_eq rfl]
  nest_eval3

theorem divExp_three : AFloat.plainOp .Div (three 0 1 1 0 1 0 0 0) (some (AFloat.plainOp .Exp (AFloat.plainOp .Mul
    (three 0 1 1 0 1 0 0 0) (some (three 0 1 1 0 1 0 0 0))) none)) = three 0 1 1 0 1 0 0 (-2) := by
  rw [plainOp_eq rfl, plainOp_eq rfl, plainOp_eq rfl]
  nest_eval3

/-- The result of an evaluation. -/
def result3 {T : Type} (w : World T) (r : AFloat (AFloat (AFloat ℝ))) : Res (List (AFloat (Nest ℝ 2))) × World T := (.ok [r], w)

theorem mulExp_at0 {T : Type} (up : Nest ℝ 2 → T) (w : World T) :
    (mulExp.nestN 2).evalVia up (nestedVars 2 ![0] ![![1], ![1], ![1]]) w = (.ok [three 0 1 1 0 1 0 0 (-6)], w) :=
  (congrArg (result3 w) mulExp_three :)

theorem divExp_at0 {T : Type} (up : Nest ℝ 2 → T) (w : World T) :
    (divExp.nestN 2).evalVia up (nestedVars 2 ![0] ![![1], ![1], ![1]]) w = (.ok [three 0 1 1 0 1 0 0 (-2)], w) :=
  (congrArg (result3 w) divExp_three :)

/-- Non-vacuity: `x * exp(-x²)` at 0, where the third derivative is -6. -/
example {T : Type} (up : Nest ℝ 2 → T) (w : World ℝ) (w' : World T) : (mulExp.evalFloat (List.ofFn ![0]) w).1 = .ok [0] ∧
    mulExp.Along analyticOps w (duals ![0] 0) ∧
    (mulExp.nestN 2).evalVia up (nestedVars 2 ![0] ![![1], ![1], ![1]]) w' = (.ok [three 0 1 1 0 1 0 0 (-6)], w') ∧
    AFloat.coef 2 (fun _ => true) (three 0 1 1 0 1 0 0 (-6)) = -6 := by
  refine ⟨?_, mulExp_along w, mulExp_at0 up w', rfl⟩
  rw [show List.ofFn ![(0 : ℝ)] = [0] from rfl, mulExp_eval]
  norm_num

/-- Non-vacuity of `C73_levels`: three levels and two levels, over the rationals. -/
example : (Func.evalVia (S := AFloat (AFloat ℚ)) AFloat.v (Demo.smoothF.nestN 2)
      [⟨⟨⟨1, 1, none⟩, ⟨1, 0, none⟩, none⟩, ⟨⟨1, 0, none⟩, ⟨0, 0, none⟩, none⟩, none⟩,
       ⟨⟨⟨2, 0, none⟩, ⟨3, 0, none⟩, none⟩, ⟨⟨0, 0, none⟩, ⟨0, 0, none⟩, none⟩, none⟩] ⟨1, fun _ => none⟩).1 =
      .ok [⟨⟨⟨2, 2, none⟩, ⟨5, 3, none⟩, none⟩, ⟨⟨2, 0, none⟩, ⟨3, 0, none⟩, none⟩, none⟩,
        ⟨⟨⟨1, 0, none⟩, ⟨-3, 0, none⟩, none⟩, ⟨⟨0, 0, none⟩, ⟨0, 0, none⟩, none⟩, none⟩] ∧
    (Func.eval (S := AFloat ℚ) (Demo.smoothF.nestN 1) [⟨⟨1, 1, none⟩, ⟨1, 0, none⟩, none⟩, ⟨⟨2, 0, none⟩, ⟨3, 0, none⟩, none⟩]
      ⟨1, fun _ => none⟩).1 = .ok [⟨⟨2, 2, none⟩, ⟨5, 3, none⟩, none⟩, ⟨⟨1, 0, none⟩, ⟨-3, 0, none⟩, none⟩] := by
  decide +kernel

/-- The full statement of C73 fails for divisions: `x * exp(-x²)` and `x / exp(x²)` are the same function, but with three
levels the evaluation of the former returns the third derivative -6 at 0, and that of the latter returns -2. -/
theorem C73_division_skips : (∀ (x : ℝ) (w : World ℝ), (mulExp.evalFloat [x] w).1 = (divExp.evalFloat [x] w).1) ∧
    ∀ (T : Type) (up : Nest ℝ 2 → T) (w : World T),
      (mulExp.nestN 2).evalVia up (nestedVars 2 ![0] ![![1], ![1], ![1]]) w = (.ok [three 0 1 1 0 1 0 0 (-6)], w) ∧
      (divExp.nestN 2).evalVia up (nestedVars 2 ![0] ![![1], ![1], ![1]]) w = (.ok [three 0 1 1 0 1 0 0 (-2)], w) :=
  ⟨fun x w => by rw [mulExp_eval, divExp_eval], fun _ up w => ⟨mulExp_at0 up w, divExp_at0 up w⟩⟩

/-- The negation of the full statement, even without powers. -/
theorem C73_counterexample : ¬ ∀ (f : Func ℝ) (k n : Nat) (x : Fin n → ℝ) (d : Fin (k + 1) → Fin n → ℝ) (up : Nest ℝ k → ℝ)
    (w w' : World ℝ) (y : List ℝ), (f.evalFloat (List.ofFn x) w).1 = .ok y →
    f.Along (fun o arg a b => smooth2 o arg a b ∧ o ≠ .Powf) w (duals x 0) →
    ∃ F : (Fin n → ℝ) → Fin y.length → ℝ, (∀ᶠ z in 𝓝 x, (f.evalFloat (List.ofFn z) w).1 = .ok (List.ofFn (F z))) ∧
      ∃ ys, (f.nestN k).evalVia up (nestedVars k x d) w' = (.ok ys, w') ∧
        ys.map (AFloat.coef k fun _ => true) = List.ofFn (iteratedFDeriv ℝ (k + 1) F x d) := by
  intro H
  let w : World ℝ := ⟨1, fun _ => none⟩
  have hm : (mulExp.evalFloat (List.ofFn ![(0 : ℝ)]) w).1 = .ok [0] := by
    rw [show List.ofFn ![(0 : ℝ)] = [0] from rfl, mulExp_eval]; norm_num
  have hd : (divExp.evalFloat (List.ofFn ![(0 : ℝ)]) w).1 = .ok [0] := by
    rw [show List.ofFn ![(0 : ℝ)] = [0] from rfl, divExp_eval]; norm_num
  let up : Nest ℝ 2 → ℝ := fun _ => 0
  obtain ⟨F, f1, ys, f2, f3⟩ := H divExp 2 1 ![0] ![![1], ![1], ![1]] up w w [0] hd (divExp_along w)
  obtain ⟨G, g1, -, zs, g2, g3⟩ := C73_top_partial mulExp 2 ![![1], ![1], ![1]] up w hm (mulExp_along w)
  have hFG : F =ᶠ[𝓝 ![0]] G := by
    filter_upwards [f1, g1] with z hz1 hz2
    have : List.ofFn z = [z 0] := by simp [List.ofFn_succ]
    rw [this, divExp_eval] at hz1
    rw [this, mulExp_eval, hz1] at hz2
    exact List.ofFn_injective (Except.ok.inj hz2)
  rw [(hFG.iteratedFDeriv ℝ 3).eq_of_nhds, ← g3] at f3
  have e1 := congrArg (fun r => r.1.map (List.map (AFloat.coef 2 fun _ => true))) ((divExp_at0 up w).symm.trans f2)
  have e2 := congrArg (fun r => r.1.map (List.map (AFloat.coef 2 fun _ => true))) ((mulExp_at0 up w).symm.trans g2)
  have e3 : (Except.ok [(-2 : ℝ)] : Res (List ℝ)) = .ok [(-6 : ℝ)] := by
    refine Eq.trans (e1.trans ?_) e2.symm
    exact congrArg Except.ok f3
  have e4 := List.cons.inj (Except.ok.inj e3)
  norm_num at e4

end Adv.Props
