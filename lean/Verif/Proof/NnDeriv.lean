import Mathlib.Analysis.Calculus.FDeriv.Pi
import Mathlib.Analysis.Calculus.FDeriv.Mul
import Mathlib.Analysis.Calculus.Deriv.Inv
import Mathlib.Analysis.Calculus.Deriv.Comp
import Mathlib.Analysis.SpecialFunctions.ExpDeriv
import Verif.Proof.Perceptron
import Verif.Spec.Perceptron

/-! # The derivative of the error of the perceptron -/

set_option linter.unusedSectionVars false

namespace Adv.Nn
open Adv.Fw (bin lit)
open scoped Adv

/-- `p` is value and directional derivative of `F`. -/
structure JetF (F : (Fin 9 → ℝ) → ℝ) (x v : Fin 9 → ℝ) (p : ℝ × ℝ) : Prop where
  val : p.1 = F x
  diff : DifferentiableAt ℝ F x
  der : p.2 = fderiv ℝ F x v

section jets
variable {F G : (Fin 9 → ℝ) → ℝ} {x v : Fin 9 → ℝ} {p q : ℝ × ℝ}

theorem JetF.lit (c : ℝ) : JetF (fun _ => c) x v (lit dualSh c) :=
  ⟨rfl, differentiableAt_const c, by rw [fderiv_fun_const]; rfl⟩

theorem JetF.add (hp : JetF F x v p) (hq : JetF G x v q) : JetF (fun x => F x + G x) x v (bin dualSh .Add p q) :=
  ⟨by show p.1 + q.1 = _; rw [hp.val, hq.val], hp.diff.add hq.diff, by
    rw [fderiv_fun_add hp.diff hq.diff]; show p.2 + q.2 = _; rw [hp.der, hq.der]; rfl⟩

theorem JetF.sub (hp : JetF F x v p) (hq : JetF G x v q) : JetF (fun x => F x - G x) x v (bin dualSh .Sub p q) :=
  ⟨by show p.1 - q.1 = _; rw [hp.val, hq.val], hp.diff.sub hq.diff, by
    rw [fderiv_fun_sub hp.diff hq.diff]; show p.2 - q.2 = _; rw [hp.der, hq.der]; rfl⟩

theorem JetF.mul (hp : JetF F x v p) (hq : JetF G x v q) : JetF (fun x => F x * G x) x v (bin dualSh .Mul p q) :=
  ⟨by show p.1 * q.1 = _; rw [hp.val, hq.val], hp.diff.mul hq.diff, by
    rw [fderiv_fun_mul hp.diff hq.diff]
    show p.2 * q.1 + p.1 * q.2 = F x * fderiv ℝ G x v + G x * fderiv ℝ F x v
    rw [hp.der, hq.der, hp.val, hq.val]; ring⟩

theorem JetF.comp {g : ℝ → ℝ} {g' : ℝ} (hp : JetF F x v p) (hg : HasDerivAt g g' (F x)) :
    DifferentiableAt ℝ (fun x => g (F x)) x ∧ fderiv ℝ (fun x => g (F x)) x v = g' * fderiv ℝ F x v := by
  have := hg.comp_hasFDerivAt x hp.diff.hasFDerivAt
  exact ⟨this.differentiableAt, by
    have e := this.fderiv
    have : fderiv ℝ (fun x => g (F x)) x = g' • fderiv ℝ F x := e
    rw [this]; rfl⟩

theorem hasDerivAt_logistic (z : ℝ) :
    HasDerivAt logistic (Real.exp z / (Real.exp z + 1) ^ 2) z := by
  have h1 : HasDerivAt (fun z => 1 + Real.exp (-z)) (-Real.exp (-z)) z := by
    simpa using ((hasDerivAt_neg z).exp.const_add 1)
  have hpos : (1 + Real.exp (-z)) ≠ 0 := by positivity
  have h2 := h1.inv hpos
  have e : logistic = fun z => (1 + Real.exp (-z))⁻¹ := by funext z; rw [logistic, one_div]
  rw [e]
  have : - -Real.exp (-z) / (1 + Real.exp (-z)) ^ 2 = Real.exp z / (Real.exp z + 1) ^ 2 := by
    rw [Real.exp_neg]
    have := Real.exp_pos z
    field_simp
  rw [← this]
  exact h2

theorem logistic_eq (z : ℝ) : logistic z = Real.exp z / (Real.exp z + 1) := by
  rw [logistic, Real.exp_neg]
  have := Real.exp_pos z
  field_simp

theorem JetF.sig (hp : JetF F x v p) : JetF (fun x => logistic (F x)) x v (sigS dualSh p) := by
  obtain ⟨h1, h2⟩ := hp.comp (hasDerivAt_logistic (F x))
  refine ⟨?_, h1, ?_⟩
  · show Real.exp p.1 / (Real.exp p.1 + 1) = logistic (F x)
    rw [logistic_eq, hp.val]
  · rw [h2]
    show (p.2 * Real.exp p.1 * (Real.exp p.1 + 1) - Real.exp p.1 * (p.2 * Real.exp p.1 + 0)) / (Real.exp p.1 + 1) ^ (2 : ℤ) = _
    rw [hp.der, hp.val, zpow_ofNat]
    ring

theorem JetF.weigh {X U Y V B : (Fin 9 → ℝ) → ℝ} {x' u' y' v' b' : ℝ × ℝ} (hx : JetF X x v x') (hu : JetF U x v u')
    (hy : JetF Y x v y') (hv : JetF V x v v') (hb : JetF B x v b') :
    JetF (fun x => X x * U x + Y x * V x + B x) x v (weighS dualSh x' u' y' v' b') :=
  ((hx.mul hu).add (hy.mul hv)).add hb

end jets

/-- A point and a direction, numbered by natural numbers. -/
def pt (x v : Fin 9 → ℝ) (i : Nat) : ℝ × ℝ := if h : i < 9 then (x ⟨i, h⟩, v ⟨i, h⟩) else (0, 0)

theorem JetF.coord (x v : Fin 9 → ℝ) (i : Fin 9) : JetF (fun x => x i) x v (pt x v i) := by
  have h : HasFDerivAt (fun x : Fin 9 → ℝ => x i) (ContinuousLinearMap.proj (R := ℝ) (φ := fun _ : Fin 9 => ℝ) i) x :=
    (ContinuousLinearMap.proj (R := ℝ) (φ := fun _ : Fin 9 => ℝ) i).hasFDerivAt
  refine ⟨by simp [pt], h.differentiableAt, ?_⟩
  rw [h.fderiv]
  simp [pt]

theorem mlp_jet (x v : Fin 9 → ℝ) (a b : ℝ) : JetF (fun x => out x a b) x v (mlpS dualSh (pt x v) a b) := by
  have c := JetF.coord x v
  have h1 := ((JetF.lit (x := x) (v := v) a).weigh (c 0) (JetF.lit b) (c 1) (c 4)).sig
  have h2 := ((JetF.lit (x := x) (v := v) a).weigh (c 2) (JetF.lit b) (c 3) (c 5)).sig
  exact (h1.weigh (c 6) h2 (c 7) (c 8)).sig

theorem term_jet (x v : Fin 9 → ℝ) (a b e : ℝ) :
    JetF (fun x => (out x a b - e) * (out x a b - e)) x v (termS dualSh (pt x v) a b e) :=
  ((mlp_jet x v a b).sub (JetF.lit e)).mul ((mlp_jet x v a b).sub (JetF.lit e))

theorem loss_eq (p : Fin 9 → ℝ) : loss p = (out p 0 0 - 0) * (out p 0 0 - 0) + (out p 0 1 - 1) * (out p 0 1 - 1) +
    (out p 1 0 - 1) * (out p 1 0 - 1) + (out p 1 1 - 0) * (out p 1 1 - 0) := by
  simp only [loss, Fintype.sum_bool, bit]
  simp
  ring

theorem err_jet (x v : Fin 9 → ℝ) : JetF loss x v (errS dualSh (pt x v)) := by
  have := (((term_jet x v 0 0 0).add (term_jet x v 0 1 1)).add (term_jet x v 1 0 1)).add (term_jet x v 1 1 0)
  have e : loss = _ := funext loss_eq
  rw [e]
  exact this

theorem ofFn_zip (x v : Fin 9 → ℝ) : (List.ofFn x).zip (List.ofFn v) = (List.range 9).map (pt x v) := by
  apply List.ext_getElem (by simp)
  intro i h1 h2
  have hi : i < 9 := by simpa using h1
  rw [List.getElem_zip, List.getElem_ofFn, List.getElem_ofFn, List.getElem_map, List.getElem_range, pt, dif_pos hi]

theorem pt_fst (x v : Fin 9 → ℝ) : ((List.range 9).map (pt x v)).map Prod.fst = List.ofFn x := by
  rw [← ofFn_zip, List.map_fst_zip (by simp)]

end Adv.Nn
