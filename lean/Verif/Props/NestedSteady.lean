import Verif.Proof.NestedSteady
import Verif.Props.NestedN

/-!
# Property C73: all smooth operations, if no derivative is skipped
-/

set_option linter.unusedSectionVars false
set_option linter.unusedSimpArgs false

namespace Adv.Props
open Adv Filter
open scoped Adv Topology ContDiff

/-- C73. The full statement is that of `C73_all_orders_partial`, without the hypothesis `hst`. That is false for powers with two levels
(`C72_counterexample`) and for divisions with three levels (`C73_counterexample`). For code made of any smooth operations: if no
power that is executed skips a derivative, then an evaluation with `k + 1` levels returns all mixed derivatives in the `k + 1`
directions. -/
theorem C73_steady_partial (f : Func ℝ) (k : Nat) {n : Nat} {x : Fin n → ℝ} (d : Fin (k + 1) → Fin n → ℝ) {T : Type}
    (up : Nest ℝ k → T) {w : World ℝ} (w' : World T) {y : List ℝ} (he : (f.evalFloat (List.ofFn x) w).1 = .ok y)
    (hs : f.Along (smoothN (k + 1)) w (duals x 0)) (hst : (f.nestN k).SteadyN up w' (nestedVars k x d)) :
    ∃ F : (Fin n → ℝ) → Fin y.length → ℝ, (∀ᶠ z in 𝓝 x, (f.evalFloat (List.ofFn z) w).1 = .ok (List.ofFn (F z))) ∧
      ContDiffAt ℝ ω F x ∧ ∃ ys, (f.nestN k).evalVia up (nestedVars k x d) w' = (.ok ys, w') ∧
        ∀ p, ys.map (AFloat.coef k p) = List.ofFn (pathDeriv (k + 1) p d F x) := by
  obtain ⟨F, h1, h2, h3⟩ := nestN_func_steady (up := up) (w' := w') d he hs hst
  exact ⟨F, h1, h2, _, h3, fun p => nestN_outputs h2 p d⟩

/-- C73: the innermost `dvalue()` is the derivative of order `k + 1`, applied to the directions. -/
theorem C73_steady_top_partial (f : Func ℝ) (k : Nat) {n : Nat} {x : Fin n → ℝ} (d : Fin (k + 1) → Fin n → ℝ) {T : Type}
    (up : Nest ℝ k → T) {w : World ℝ} (w' : World T) {y : List ℝ} (he : (f.evalFloat (List.ofFn x) w).1 = .ok y)
    (hs : f.Along (smoothN (k + 1)) w (duals x 0)) (hst : (f.nestN k).SteadyN up w' (nestedVars k x d)) :
    ∃ F : (Fin n → ℝ) → Fin y.length → ℝ, (∀ᶠ z in 𝓝 x, (f.evalFloat (List.ofFn z) w).1 = .ok (List.ofFn (F z))) ∧
      ContDiffAt ℝ ω F x ∧ ∃ ys, (f.nestN k).evalVia up (nestedVars k x d) w' = (.ok ys, w') ∧
        ys.map (AFloat.coef k fun _ => true) = List.ofFn (iteratedFDeriv ℝ (k + 1) F x d) := by
  obtain ⟨F, h1, h2, ys, h3, h4⟩ := C73_steady_partial f k d up w' he hs hst
  refine ⟨F, h1, h2, ys, h3, ?_⟩
  rw [h4, pathDeriv_top (k + 1) d h2]
  exact congrArg _ (h2.iteratedFDeriv_comp_perm d (Equiv.ofBijective Fin.rev Fin.rev_bijective))

/-- C73: with one or two levels, all operations except powers are steady. -/
theorem C73_two_levels_steady {k : Nat} (hk : k ≤ 1) (o : OpCode) (ho : o ≠ .Powf) (a b : Nest ℝ (k + 1)) :
    Nest.SteadyOp (k + 1) o a b := by
  have h1 : ∀ (j : Nat) (_ : j ≤ 1) (c : Nest ℝ j), Nest.Steady j c := by
    intro j hj c
    match j, hj with
    | 0, _ => trivial
    | 1, _ => exact ⟨trivial, fun h => h⟩
  have h2 : ∀ c : Nest ℝ (k + 1), Nest.SteadyBelow 1 (k + 1) c := fun c => steady_zero (h1 k hk _)
  cases o <;> try trivial
  case Div => exact h2 b
  case Ln => exact below_succ (h2 a)
  case Tan => exact h2 _
  case Asin => exact ⟨h2 _, h2 _⟩
  case Acos => exact ⟨h2 _, h2 _⟩
  case Atan => exact ⟨h2 _, below_succ (h2 _)⟩

/-! ## Non-vacuity -/

/-- `x ↦ (x.powi(3), 1 / x)` -/
noncomputable def cubeInv : Func ℝ := Func.advFn 1 2 fun _ =>
  (.op .Powf (.var 0) (some (.lit 3)) fun i _ => .op .Div (.lit 1) (some (.var 0)) fun j _ => .ret [.var i, .var j])

theorem cubeInv_straight : cubeInv.StraightLine := by straight cubeInv

theorem cubeInv_along (w : World ℝ) : cubeInv.Along (smoothN 3) w (duals ![1] 0) := by
  rw [C01_straight_line cubeInv_straight]
  unfold cubeInv
  refine ⟨?_, fun _ _ => trivial⟩
  eachop
  · exact .inl one_pos
  eachop
  · exact fun h => one_ne_zero (Option.some.inj h)
  · trivial

theorem nestedVars3_one : nestedVars 2 ![1] ![![1], ![1], ![1]] = [three 1 1 1 0 1 0 0 0] := rfl

theorem three_steady : Nest.Steady 3 (three 1 1 1 0 1 0 0 0) :=
  ⟨⟨⟨trivial, fun h => absurd h one_ne_zero⟩, fun h => absurd h one_ne_zero⟩, fun h => absurd h one_ne_zero⟩

theorem cubeInv_steady {T : Type} (up : Nest ℝ 2 → T) (w : World T) :
    (cubeInv.nestN 2).SteadyN up w (nestedVars 2 ![1] ![![1], ![1], ![1]]) := by
  rw [nestedVars3_one]
  refine ⟨?_, fun _ _ => trivial⟩
  intro a' b' r ha hb _ _
  obtain rfl := Except.ok.inj ha
  obtain rfl := Except.ok.inj hb
  refine ⟨⟨three_steady, steady_lit 3 3⟩, ?_⟩
  intro a' b' r ha hb _ _
  obtain rfl := Except.ok.inj ha
  obtain rfl := Except.ok.inj hb
  exact ⟨three_steady.1, trivial⟩

theorem cubeInv_three : (AFloat.plainOp .Powf (three 1 1 1 0 1 0 0 0) (some (AFloat.ofScalar (AFloat.ofScalar (AFloat.ofScalar (3 : ℝ))))) =
      three 1 3 3 6 3 6 6 6) ∧
    AFloat.plainOp .Div (AFloat.ofScalar (AFloat.ofScalar (AFloat.ofScalar (1 : ℝ)))) (some (three 1 1 1 0 1 0 0 0)) =
      three 1 (-1) (-1) 2 (-1) 2 2 (-6) := by
  rw [plainOp_eq rfl, plainOp_eq rfl]
  constructor <;> nest_eval3

/-- The result of an evaluation. -/
def results3 {T : Type} (w : World T) (r s : AFloat (AFloat (AFloat ℝ))) : Res (List (AFloat (Nest ℝ 2))) × World T := (.ok [r, s], w)

theorem cubeInv_at1 {T : Type} (up : Nest ℝ 2 → T) (w : World T) :
    (cubeInv.nestN 2).evalVia up (nestedVars 2 ![1] ![![1], ![1], ![1]]) w =
      (.ok [three 1 3 3 6 3 6 6 6, three 1 (-1) (-1) 2 (-1) 2 2 (-6)], w) :=
  (congrArg₂ (results3 w) cubeInv_three.1 cubeInv_three.2 :)

/-- Non-vacuity: `x³` and `1 / x` at 1. The third derivatives are 6 and -6. -/
example {T : Type} (up : Nest ℝ 2 → T) (w : World ℝ) (w' : World T) : (cubeInv.evalFloat (List.ofFn ![1]) w).1 = .ok [1, 1] ∧
    cubeInv.Along (smoothN 3) w (duals ![1] 0) ∧ (cubeInv.nestN 2).SteadyN up w' (nestedVars 2 ![1] ![![1], ![1], ![1]]) ∧
    (cubeInv.nestN 2).evalVia up (nestedVars 2 ![1] ![![1], ![1], ![1]]) w' =
      (.ok [three 1 3 3 6 3 6 6 6, three 1 (-1) (-1) 2 (-1) 2 2 (-6)], w') := by
  refine ⟨?_, cubeInv_along w, cubeInv_steady up w', cubeInv_at1 up w'⟩
  have : (cubeInv.evalFloat (List.ofFn ![(1 : ℝ)]) w).1 = .ok [(1 : ℝ) ^ (3 : ℝ), 1 / 1] := rfl
  rw [this, Real.one_rpow, div_one]

/-- Non-vacuity of `C73_two_levels_steady`, and the hypothesis on powers is needed. -/
example : Nest.SteadyOp 2 .Div (Nest.lit 2 1) (Nest.lit 2 2) ∧
    ¬ Nest.SteadyOp 2 .Powf (⟨⟨1, 0, none⟩, ⟨0, 1, none⟩, none⟩ : AFloat (AFloat ℝ)) (Nest.lit 2 2) := by
  refine ⟨C73_two_levels_steady le_rfl .Div (by simp) _ _, fun h => ?_⟩
  have h1 : (⟨0, 1, none⟩ : AFloat ℝ) = ⟨0, 0, none⟩ := h.1.2 rfl
  injection h1 with _ h2
  exact one_ne_zero h2

/-- Unsteady: the evaluation of `C73_division_skips`. -/
example {T : Type} (up : Nest ℝ 2 → T) (w : World T) :
    ¬ (divExp.nestN 2).SteadyN up w (nestedVars 2 ![0] ![![1], ![1], ![1]]) := by
  intro h
  obtain ⟨F, f1, -, ys, f2, f3⟩ := C73_steady_top_partial divExp 2 ![![1], ![1], ![1]] up (w := ⟨1, fun _ => none⟩) w
    (y := [0]) (by rw [show List.ofFn ![(0 : ℝ)] = [0] from rfl, divExp_eval]; norm_num)
    (by
      rw [C01_straight_line divExp_straight]
      unfold divExp
      refine ⟨?_, fun _ _ => trivial⟩
      eachop
      · exact trivial
      eachop
      · exact trivial
      eachop
      · exact fun h => Real.exp_ne_zero _ (Option.some.inj h)
      · trivial) h
  obtain ⟨G, g1, -, zs, g2, g3⟩ := C73_top_partial mulExp 2 ![![1], ![1], ![1]] up (w := ⟨1, fun _ => none⟩) w
    (y := [0]) (by rw [show List.ofFn ![(0 : ℝ)] = [0] from rfl, mulExp_eval]; norm_num) (mulExp_along _)
  have hFG : F =ᶠ[𝓝 ![0]] G := by
    filter_upwards [f1, g1] with z hz1 hz2
    have : List.ofFn z = [z 0] := by simp [List.ofFn_succ]
    rw [this, divExp_eval] at hz1
    rw [this, mulExp_eval, hz1] at hz2
    exact List.ofFn_injective (Except.ok.inj hz2)
  rw [(hFG.iteratedFDeriv ℝ 3).eq_of_nhds, ← g3] at f3
  have e1 := congrArg (fun r => r.1.map (List.map (AFloat.coef 2 fun _ => true))) ((divExp_at0 up w).symm.trans f2)
  have e2 := congrArg (fun r => r.1.map (List.map (AFloat.coef 2 fun _ => true))) ((mulExp_at0 up w).symm.trans g2)
  have e3 : (Except.ok [(-2 : ℝ)] : Res (List ℝ)) = .ok [(-6 : ℝ)] := by
    refine Eq.trans (e1.trans ?_) e2.symm
    exact congrArg Except.ok f3
  have e4 := List.cons.inj (Except.ok.inj e3)
  norm_num at e4

end Adv.Props
