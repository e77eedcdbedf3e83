import Mathlib.Analysis.Calculus.FDeriv.Symmetric
import Verif.Proof.Nested
import Verif.Props.Deriv

/-!
# Property C72: nested variables and second derivatives
-/

set_option linter.unusedSectionVars false
set_option linter.unusedSimpArgs false

namespace Adv.Props
open Adv Filter
open scoped Adv Topology

/-! ## The variables inside -/

section free
variable {S F : Type} [Flt S]

/-- C72: as long as the variables are not recorded, the arithmetic of the scalar type `AFloat<S>` consists of the methods of
`AFloat`. -/
theorem C72_methods {a b : AFloat S} (n : Int) (w : World S) (ha : a.ctx = none) (hb : b.ctx = none) :
    a.add b w = (.ok (a +ᶠ b), w) ∧ a.sub b w = (.ok (a -ᶠ b), w) ∧ a.mul b w = (.ok (a *ᶠ b), w) ∧
    a.div b w = (.ok (a /ᶠ b), w) ∧ a.neg w = (.ok (Flt.neg a), w) ∧ a.abs w = (.ok (Flt.abs a), w) ∧
    a.sin w = (.ok (Flt.sin a), w) ∧ a.cos w = (.ok (Flt.cos a), w) ∧ a.tan w = (.ok (Flt.tan a), w) ∧
    a.exp w = (.ok (Flt.exp a), w) ∧ a.ln w = (.ok (Flt.ln a), w) ∧ a.asin w = (.ok (Flt.asin a), w) ∧
    a.acos w = (.ok (Flt.acos a), w) ∧ a.atan w = (.ok (Flt.atan a), w) ∧ a.powf b w = (.ok (Flt.powf a b), w) ∧
    a.powi n w = (.ok (Flt.powi a n), w) ∧ a.sqrt w = (.ok (Flt.sqrt a), w) ∧
    AFloat.eq a b = Flt.eq a b ∧ AFloat.lt a b = Flt.lt a b := by
  have h2 : ∀ {o : OpCode} {a b : AFloat S}, o.isBinary = true → a.ctx = none → b.ctx = none →
      AFloat.fromOp o a (some b) w = (.ok (AFloat.plainOp o a (some b)), w) := by
    intro o a b ho ha hb
    rw [fromOp_free (b := some b) w ho ha (by rintro c ⟨⟩; exact hb), plainOp_eq (b := some b) ho]
  have h1 : ∀ {o : OpCode} {a : AFloat S}, o.isUnary = true → a.ctx = none →
      AFloat.fromOp o a none w = (.ok (AFloat.plainOp o a none), w) := by
    intro o a ho ha
    rw [fromOp_free (b := none) w ho ha (by rintro c ⟨⟩), plainOp_eq (b := none) ho]
  refine ⟨h2 rfl ha hb, h2 rfl ha hb, h2 rfl ha hb, h2 rfl ha hb, ?_, h1 rfl ha, h1 rfl ha, h1 rfl ha, h1 rfl ha, h1 rfl ha,
    h1 rfl ha, h1 rfl ha, h1 rfl ha, h1 rfl ha, h2 rfl ha hb, h2 rfl ha rfl, h2 rfl ha rfl, rfl, rfl⟩
  unfold AFloat.neg AFloat.sub AFloat.mul
  rw [M.bind_ok (h2 rfl rfl rfl), h2 rfl (by rw [plainOp_eq rfl]) ha]
  rfl

/-- Non-vacuity: `(3 + 2ε) * (1/2 + ε)`. -/
example : (AFloat.new (3 : ℚ) 2).ctx = none ∧ (AFloat.new (3 : ℚ) 2) *ᶠ (AFloat.new (1 / 2) 1) = AFloat.new (3 / 2) 4 := by
  decide +kernel

/-- C72, for all inputs, in any arithmetic: the values of the variables outside are the variables of the evaluation without
nesting, including errors. -/
theorem C72_values (up : AFloat S → F) (f : Func S) {X : List (AFloat (AFloat S))}
    (hX : ∀ a ∈ X, a.ctx = none ∧ a.v.ctx = none) (w : World F) (w' : World S) :
    (f.nest.evalVia up X w).1.map (List.map AFloat.v) = (f.eval (X.map AFloat.v) w').1 ∧ (f.nest.evalVia up X w).2 = w := by
  obtain ⟨r, r1, r2⟩ := nest_progs_values up w w' f.progs X hX
  rw [evalVia_eq, progs_nest, r1, Func.eval_eq, r2]
  exact ⟨rfl, rfl⟩

/-- Non-vacuity: `(x, y) ↦ (x y, 3 - x y / x)` at `(1, 2)`, `x` inside and `y` outside. -/
example : (Demo.smoothF.nest.evalVia AFloat.toRegistry
      [AFloat.new (AFloat.new 1 1) (AFloat.new 0 0), AFloat.new (AFloat.new 2 0) (AFloat.new 1 0)] ⟨1, fun _ => none⟩).1 =
    .ok [AFloat.new (AFloat.new 2 2) (AFloat.new 1 1), AFloat.new (AFloat.new 1 0) (AFloat.new (-1) 0)] := by
  decide +kernel

/-- C72: recording nested variables. The value that is stored is the truncated value, since `NumCast::from` calls
`to_f64` (C44), so that the tape does not contain the values of the computation. -/
theorem C72_recording_truncates (c : AContext) (x : AFloat (AFloat S)) {w : World S} {n : Nat} {i : Inner S}
    (hc : w.cells c.cid = some ⟨n, i⟩) (hp : i.poisoned = false) {k : Int} (hk : Flt.toI64 x.v.v = some k) :
    c.setIndepVia AFloat.toRegistry x w = (.ok { x with ctx := some (i.cid, i.vals.length) },
      w.setCell c.cid (some ⟨n, { i with vals := i.vals ++ [Flt.ofInt k], indeps := i.indeps ++ [i.vals.length] }⟩)) := by
  have h : AFloat.toRegistry x.v = Flt.ofInt k := by
    unfold AFloat.toRegistry AFloat.toF64 AFloat.toI64
    rw [hk]; rfl
  unfold AContext.setIndepVia AContext.withLock
  simp only [hc, hp, Inner.setIndep, h]
  rfl

/-- Non-vacuity: the independent variable 1/2 is stored as 0. -/
example : let w : World ℚ := ⟨2, fun c => if c = 1 then some ⟨1, ⟨1, [], [], [], [], false⟩⟩ else none⟩
    Flt.toI64 (1 / 2 : ℚ) = some 0 ∧
    (((AContext.mk 1).setIndepVia AFloat.toRegistry (AFloat.new (AFloat.new (1 / 2) 1) (AFloat.new 0 0)) w).2.cells 1).map
      Cell.inner = some ⟨1, [0], [], [], [0], false⟩ := by
  intro w
  decide +kernel

end free

/-! ## Second derivatives -/

/-- C72 without powers, in exact arithmetic: if the function returns at `x` and each operation is executed inside of its
domain, then near `x` it is a map `F` that is twice differentiable at `x`, and the evaluation on nested variables returns
the value, the two directional derivatives, and the second derivative. -/
theorem C72_second_derivatives (f : Func ℝ) {n : Nat} {x : Fin n → ℝ} (e dx : Fin n → ℝ) {w w' : World ℝ} {y : List ℝ}
    (up : AFloat ℝ → ℝ) (he : (f.evalFloat (List.ofFn x) w).1 = .ok y)
    (hs : f.Along (fun o arg a b => smooth2 o arg a b ∧ o ≠ .Powf) w (duals x 0)) :
    ∃ F : (Fin n → ℝ) → Fin y.length → ℝ, (∀ᶠ z in 𝓝 x, (f.evalFloat (List.ofFn z) w).1 = .ok (List.ofFn (F z))) ∧
      ContDiffAt ℝ 2 F x ∧ ∃ ys, f.nest.evalVia up (nested x e dx) w' = (.ok ys, w') ∧
        ys.map (fun r => r.v.v) = List.ofFn (F x) ∧ ys.map (fun r => r.v.dv) = List.ofFn (fderiv ℝ F x e) ∧
        ys.map (fun r => r.dv.v) = List.ofFn (fderiv ℝ F x dx) ∧
        ys.map (fun r => r.dv.dv) = List.ofFn (fderiv ℝ (fderiv ℝ F) x e dx) := by
  obtain ⟨F, h1, h2, h3⟩ := nest_func (fun o arg a b h => h.1) (up := up) (w' := w') e dx he hs (.inl fun o arg a b h => h.2)
  exact ⟨F, h1, h2, _, h3, nest_outputs h2 e dx⟩

/-- C72: exchanging the directions inside and outside gives the same second derivatives. -/
theorem C72_symmetric (f : Func ℝ) {n : Nat} {x : Fin n → ℝ} (e dx : Fin n → ℝ) {w w' : World ℝ} {y : List ℝ}
    (up : AFloat ℝ → ℝ) (he : (f.evalFloat (List.ofFn x) w).1 = .ok y)
    (hs : f.Along (fun o arg a b => smooth2 o arg a b ∧ o ≠ .Powf) w (duals x 0)) :
    ((f.nest.evalVia up (nested x e dx) w').1.map fun ys => ys.map fun r => r.dv.dv) =
      (f.nest.evalVia up (nested x dx e) w').1.map fun ys => ys.map fun r => r.dv.dv := by
  obtain ⟨F, h1, h2, ys, h3, -, -, -, h4⟩ := C72_second_derivatives f e dx (w' := w') up he hs
  obtain ⟨G, g1, -, zs, g3, -, -, -, g4⟩ := C72_second_derivatives f dx e (w' := w') up he hs
  have hFG : F =ᶠ[𝓝 x] G := by
    filter_upwards [h1, g1] with z hz1 hz2
    rw [hz1] at hz2
    exact List.ofFn_injective (Except.ok.inj hz2)
  have hff : fderiv ℝ (fderiv ℝ F) x = fderiv ℝ (fderiv ℝ G) x := hFG.fderiv.fderiv_eq
  rw [h3, g3, map_ok_eq, map_ok_eq, h4, g4, ← hff, h2.isSymmSndFDerivAt (by simp) e dx]

/-- C72 with powers. The full statement is that of `C72_second_derivatives` with `smooth2` only:
```
f.Along smooth2 w (duals x 0) → … ys.map (fun r => r.dv.dv) = List.ofFn (fderiv ℝ (fderiv ℝ F) x e dx)
```
It is false (`C72_counterexample`): the derivative of a power skips the terms of operands whose `dvalue()` equals zero, and
the comparison ignores that this zero may have a derivative. The theorem adds that no operand of a power has such a
`dvalue()`. -/
theorem C72_second_derivatives_partial (f : Func ℝ) {n : Nat} {x : Fin n → ℝ} (e dx : Fin n → ℝ) {w w' : World ℝ} {y : List ℝ}
    (up : AFloat ℝ → ℝ) (he : (f.evalFloat (List.ofFn x) w).1 = .ok y) (hs : f.Along smooth2 w (duals x 0))
    (hst : f.nest.SteadyPowers up w' (nested x e dx)) :
    ∃ F : (Fin n → ℝ) → Fin y.length → ℝ, (∀ᶠ z in 𝓝 x, (f.evalFloat (List.ofFn z) w).1 = .ok (List.ofFn (F z))) ∧
      ContDiffAt ℝ 2 F x ∧ ∃ ys, f.nest.evalVia up (nested x e dx) w' = (.ok ys, w') ∧
        ys.map (fun r => r.v.v) = List.ofFn (F x) ∧ ys.map (fun r => r.v.dv) = List.ofFn (fderiv ℝ F x e) ∧
        ys.map (fun r => r.dv.v) = List.ofFn (fderiv ℝ F x dx) ∧
        ys.map (fun r => r.dv.dv) = List.ofFn (fderiv ℝ (fderiv ℝ F) x e dx) := by
  obtain ⟨F, h1, h2, h3⟩ := nest_func (fun o arg a b h => h) (up := up) (w' := w') e dx he hs (.inr hst)
  exact ⟨F, h1, h2, _, h3, nest_outputs h2 e dx⟩

/-- `x ↦ cos x * cos x` -/
noncomputable def cosMul : Func ℝ := Func.advFn 1 1 fun _ =>
  (.op .Cos (.var 0) none fun i _ => .op .Mul (.var i) (some (.var i)) fun j _ => .ret [.var j])

/-- `x ↦ (cos x).powi(2)` -/
noncomputable def cosPow : Func ℝ := Func.advFn 1 1 fun _ =>
  (.op .Cos (.var 0) none fun i _ => .op .Powf (.var i) (some (.lit ((2 : ℤ) : ℝ))) fun j _ => .ret [.var j])

theorem cosMul_straight : cosMul.StraightLine := by straight cosMul
theorem cosPow_straight : cosPow.StraightLine := by straight cosPow

theorem cosMul_nested (up : AFloat ℝ → ℝ) (w : World ℝ) (X : AFloat (AFloat ℝ)) (hX : X.ctx = none) :
    cosMul.nest.evalVia up [X] w = (.ok [AFloat.plainOp .Mul (AFloat.plainOp .Cos X none) (some (AFloat.plainOp .Cos X none))], w) := by
  cases X
  subst hX
  rfl

theorem cosPow_nested (up : AFloat ℝ → ℝ) (w : World ℝ) (X : AFloat (AFloat ℝ)) (hX : X.ctx = none) :
    cosPow.nest.evalVia up [X] w = (.ok [AFloat.plainOp .Powf (AFloat.plainOp .Cos X none)
      (some (AFloat.ofScalar (AFloat.ofScalar ((2 : ℤ) : ℝ))))], w) := by
  cases X
  subst hX
  rfl

/-- Evaluation of arithmetic of nested variables. -/
macro "nest_eval" : tactic => `(tactic|
  (simp only [opVal, opDval, zfun, ffun, nest_mul, nest_add, nest_sub, nest_neg, nest_cos, nest_sin, nest_powf, nest_eq,
     nest_zero, nest_one, AFloat.new, AFloat.ofScalar, Option.getD_some, Option.getD_none]
   norm_num [Flt.add, Flt.sub, Flt.mul, Flt.neg, Flt.sin, Flt.cos, Flt.powf, Flt.eq, Flt.zero, Flt.one]))

theorem cosMul_at0 (up : AFloat ℝ → ℝ) (w : World ℝ) : cosMul.nest.evalVia up (nested ![0] ![1] ![1]) w =
    (.ok [AFloat.new (AFloat.new 1 0) (AFloat.new 0 (-2))], w) := by
  have h : nested ![0] ![1] ![1] = [AFloat.new (AFloat.new 0 1) (AFloat.new 1 0)] := rfl
  rw [h, cosMul_nested _ _ _ rfl]
  congr 3
  rw [plainOp_eq rfl, plainOp_eq rfl]
  nest_eval

theorem cosPow_at0 (up : AFloat ℝ → ℝ) (w : World ℝ) : cosPow.nest.evalVia up (nested ![0] ![1] ![1]) w =
    (.ok [AFloat.new (AFloat.new 1 0) (AFloat.new 0 0)], w) := by
  have h : nested ![0] ![1] ![1] = [AFloat.new (AFloat.new 0 1) (AFloat.new 1 0)] := rfl
  rw [h, cosPow_nested _ _ _ rfl]
  congr 3
  rw [plainOp_eq rfl, plainOp_eq rfl]
  nest_eval

theorem cosMul_along (w : World ℝ) :
    cosMul.Along (fun o arg a b => smooth2 o arg a b ∧ o ≠ .Powf) w (duals ![0] 0) := by
  rw [C01_straight_line cosMul_straight]
  unfold cosMul
  refine ⟨?_, fun _ _ => trivial⟩
  eachop
  · exact ⟨trivial, by simp⟩
  eachop
  · exact ⟨trivial, by simp⟩
  · trivial

theorem cosPow_along (w : World ℝ) : cosPow.Along smooth2 w (duals ![0] 0) := by
  rw [C01_straight_line cosPow_straight]
  unfold cosPow
  refine ⟨?_, fun _ _ => trivial⟩
  eachop
  · trivial
  eachop
  · exact .inr ⟨2, rfl, .inr le_rfl⟩
  · trivial

theorem cosMul_eval (x : ℝ) (w : World ℝ) : (cosMul.evalFloat [x] w).1 = .ok [Real.cos x * Real.cos x] := rfl

theorem cosPow_eval (x : ℝ) (w : World ℝ) : (cosPow.evalFloat [x] w).1 = .ok [Real.cos x * Real.cos x] := by
  have h : (cosPow.evalFloat [x] w).1 = .ok [Real.cos x ^ (((2 : ℤ) : ℝ))] := rfl
  rw [h, Real.rpow_intCast, zpow_two]

/-- Non-vacuity of `C72_second_derivatives`: `cos x * cos x` at 0, where the second derivative is -2. -/
example (up : AFloat ℝ → ℝ) (w : World ℝ) : (cosMul.evalFloat (List.ofFn ![0]) w).1 = .ok [1] ∧
    cosMul.Along (fun o arg a b => smooth2 o arg a b ∧ o ≠ .Powf) w (duals ![0] 0) ∧
    cosMul.nest.evalVia up (nested ![0] ![1] ![1]) w = (.ok [AFloat.new (AFloat.new 1 0) (AFloat.new 0 (-2))], w) := by
  refine ⟨?_, cosMul_along w, cosMul_at0 up w⟩
  rw [show List.ofFn ![(0 : ℝ)] = [0] from rfl, cosMul_eval]
  norm_num

/-- The full statement of C72 fails for powers: `cos x * cos x` and `cos(x).powi(2)` are the same function, but at 0 the
nested evaluation of the former returns the second derivative -2 and that of the latter returns 0. -/
theorem C72_power_skips : (∀ (x : ℝ) (w : World ℝ), (cosMul.evalFloat [x] w).1 = (cosPow.evalFloat [x] w).1) ∧
    ∀ (up : AFloat ℝ → ℝ) (w : World ℝ), cosMul.nest.evalVia up (nested ![0] ![1] ![1]) w = (.ok [AFloat.new (AFloat.new 1 0) (AFloat.new 0 (-2))], w) ∧
      cosPow.nest.evalVia up (nested ![0] ![1] ![1]) w = (.ok [AFloat.new (AFloat.new 1 0) (AFloat.new 0 0)], w) :=
  ⟨fun x w => by rw [cosMul_eval, cosPow_eval], fun up w => ⟨cosMul_at0 up w, cosPow_at0 up w⟩⟩

/-- The negation of the full statement. -/
theorem C72_counterexample : ¬ ∀ (f : Func ℝ) (n : Nat) (x e dx : Fin n → ℝ) (w w' : World ℝ) (y : List ℝ) (up : AFloat ℝ → ℝ),
    (f.evalFloat (List.ofFn x) w).1 = .ok y → f.Along smooth2 w (duals x 0) →
    ∃ F : (Fin n → ℝ) → Fin y.length → ℝ, (∀ᶠ z in 𝓝 x, (f.evalFloat (List.ofFn z) w).1 = .ok (List.ofFn (F z))) ∧
      ∃ ys, f.nest.evalVia up (nested x e dx) w' = (.ok ys, w') ∧
        ys.map (fun r => r.dv.dv) = List.ofFn (fderiv ℝ (fderiv ℝ F) x e dx) := by
  intro H
  let w : World ℝ := ⟨1, fun _ => none⟩
  have hm : (cosMul.evalFloat (List.ofFn ![(0 : ℝ)]) w).1 = .ok [1] := by
    rw [show List.ofFn ![(0 : ℝ)] = [0] from rfl, cosMul_eval]; norm_num
  have hp : (cosPow.evalFloat (List.ofFn ![(0 : ℝ)]) w).1 = .ok [1] := by
    rw [show List.ofFn ![(0 : ℝ)] = [0] from rfl, cosPow_eval]; norm_num
  obtain ⟨F, f1, ys, f2, f3⟩ := H cosPow 1 ![0] ![1] ![1] w w [1] AFloat.v hp (cosPow_along w)
  obtain ⟨G, g1, -, zs, g2, -, -, -, g3⟩ := C72_second_derivatives cosMul ![1] ![1] (w' := w) AFloat.v hm (cosMul_along w)
  rw [cosPow_at0] at f2
  rw [cosMul_at0] at g2
  have hFG : F =ᶠ[𝓝 ![0]] G := by
    filter_upwards [f1, g1] with z hz1 hz2
    have : List.ofFn z = [z 0] := by simp [List.ofFn_succ]
    rw [this, cosPow_eval] at hz1
    rw [this, cosMul_eval, hz1] at hz2
    exact List.ofFn_injective (Except.ok.inj hz2)
  have hff : fderiv ℝ (fderiv ℝ F) ![0] = fderiv ℝ (fderiv ℝ G) ![0] := hFG.fderiv.fderiv_eq
  rw [hff, ← g3] at f3
  injection f2 with f2 _
  injection g2 with g2 _
  injection f2 with f2
  injection g2 with g2
  rw [← f2, ← g2] at f3
  norm_num [AFloat.new] at f3

/-- `x ↦ x.powi(3)` -/
noncomputable def cubeR : Func ℝ := Func.advFn 1 1 fun _ =>
  (.op .Powf (.var 0) (some (.lit ((3 : ℤ) : ℝ))) fun i _ => .ret [.var i])

theorem cubeR_straight : cubeR.StraightLine := by straight cubeR

/-- Non-vacuity of `C72_second_derivatives_partial`: the second derivative of `x.powi(3)` at 2 is 12. -/
example (up : AFloat ℝ → ℝ) (w : World ℝ) : (cubeR.evalFloat (List.ofFn ![2]) w).1 = .ok [8] ∧
    cubeR.Along smooth2 w (duals ![2] 0) ∧ cubeR.nest.SteadyPowers up w (nested ![2] ![1] ![1]) ∧
    cubeR.nest.evalVia up (nested ![2] ![1] ![1]) w = (.ok [AFloat.new (AFloat.new 8 12) (AFloat.new 12 12)], w) := by
  refine ⟨?_, ?_, ?_, ?_⟩
  · have h : (cubeR.evalFloat (List.ofFn ![2]) w).1 = .ok [(2 : ℝ) ^ (((3 : ℤ) : ℝ))] := rfl
    rw [h, Real.rpow_intCast]; norm_num
  · rw [C01_straight_line cubeR_straight]
    unfold cubeR
    refine ⟨?_, fun _ _ => trivial⟩
    eachop
    · exact .inr ⟨3, rfl, .inr (by norm_num)⟩
    · trivial
  · refine ⟨?_, fun _ _ => trivial⟩
    rintro a' b' r ⟨⟩ ⟨⟩ - -
    refine ⟨fun _ => ⟨fun h => ?_, ?_⟩, trivial⟩
    · exact absurd h one_ne_zero
    · rintro c ⟨⟩ -
      rfl
  · have h : cubeR.nest.evalVia up (nested ![2] ![1] ![1]) w = (.ok [AFloat.plainOp .Powf (AFloat.new (AFloat.new 2 1)
        (AFloat.new 1 0)) (some (AFloat.ofScalar (AFloat.ofScalar ((3 : ℤ) : ℝ))))], w) := rfl
    rw [h]
    congr 3
    rw [plainOp_eq rfl]
    nest_eval

end Adv.Props
