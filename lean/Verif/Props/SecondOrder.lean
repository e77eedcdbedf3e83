import Verif.Proof.KernelRfl
import Verif.Props.Limiting

/-!
# Property C64: the piecewise linear model is a second order approximation

Near `x` the error of the model `y + first_order_forward(d)` is at most `C‖d‖²`, also at kinks and with nested abs.
-/

namespace Adv.Props
open Adv Filter Topology Asymptotics

/-- `x ↦ |sin |x||`, which has a kink at 0. -/
noncomputable def sinAbsR : Func ℝ := Func.advFn 1 1 fun _ =>
  (.op .Abs (.var 0) none fun i _ => .op .Sin (.var i) none fun j _ => .op .Abs (.var j) none fun k _ => .ret [.var k])

theorem sinAbsR_straight : sinAbsR.StraightLine := by straight sinAbsR

theorem sinAbsR_along (w : World ℝ) : sinAbsR.Along piecewiseSmooth w (duals ![0] 0) := by
  rw [C01_straight_line sinAbsR_straight]
  unfold sinAbsR
  refine ⟨?_, fun _ _ => trivial⟩
  eachop
  · exec
  eachop
  · exec
  eachop
  · exec
  · trivial

/-- C64: there are `C` and `ε > 0`, such that for all `d` up to `ε`, the function can be evaluated at `x + d`, and the result
differs from `y + first_order_forward(d)` on the tape recorded at `x` by at most `C‖d‖²`. (The function may contain abs
anywhere, the other operations are executed inside of their domains.) -/
theorem C64_quadratic_error (f : Func ℝ) {n : Nat} {x : Fin n → ℝ} {w w' : World ℝ} {t : Tape ℝ}
    (hw : w.nextId < usizeMax) (ht : f.tape (List.ofFn x) w = (.ok t, w'))
    (hs : f.Along piecewiseSmooth w (duals x 0)) :
    ∃ (m : Nat) (y0 : Fin m → ℝ) (C ε : ℝ), t.y = .ok (List.ofFn y0) ∧ 0 < ε ∧ ∀ d : Fin n → ℝ, ‖d‖ < ε →
      ∃ y δ : Fin m → ℝ, (f.evalFloat (List.ofFn (x + d)) w).1 = .ok (List.ofFn y) ∧
        t.firstOrderForward (List.ofFn d) = .ok (List.ofFn δ) ∧ ∀ i, |y i - (y0 i + δ i)| ≤ C * ‖d‖ ^ 2 := by
  have h := (Func.tape_spec f (List.ofFn x) w hw).2
  rw [ht] at h
  obtain ⟨y, hy, h⟩ := h.ok_left
  obtain ⟨F, D, h1, h2, h3, h4⟩ := model_func (y0 := y) (by rw [Func.evalFloat_eq]; exact hy) hs
  obtain ⟨C, hC⟩ := h4.bound
  have h1' : ∀ᶠ d in 𝓝 (0 : Fin n → ℝ), (f.evalFloat (List.ofFn (x + d)) w).1 = .ok (List.ofFn (F (x + d))) := by
    have : Tendsto (fun d : Fin n → ℝ => x + d) (𝓝 0) (𝓝 x) := by
      have := (tendsto_id (x := 𝓝 (0 : Fin n → ℝ))).const_add x
      rwa [add_zero] at this
    exact this.eventually h1
  obtain ⟨ε, hε, hb⟩ := Metric.eventually_nhds_iff_ball.mp (h1'.and hC)
  refine ⟨y.length, F x, C, ε, by rw [h2, Tape.y_eq h.wf, ← hy, h.out], hε, fun d hd => ?_⟩
  obtain ⟨k1, k2⟩ := hb d (by simpa using hd)
  refine ⟨F (x + d), D d, k1, ?_, fun i => ?_⟩
  · obtain ⟨ys, q1, -, q3⟩ := h3 d
    obtain ⟨zs, r1, r2, -⟩ := C07_forward_eq_tapeless_exact f (dx := List.ofFn d) (w'' := w) hw ht (by simp)
    rw [← duals_zip, q1] at r1
    injection r1 with r1
    injection r1 with r1
    subst r1
    rw [r2, q3]
  · have h5 := (norm_le_pi_norm (F (x + d) - F x - D d) i).trans k2
    rw [Real.norm_of_nonneg (by positivity : (0 : ℝ) ≤ ‖d‖ ^ 2)] at h5
    have e : F (x + d) i - (F x i + D d i) = (F (x + d) - F x - D d) i := by
      simp only [Pi.sub_apply]; ring
    rw [e]
    exact h5

/-- C64: the same for the result of `generalized_jacobian` in direction `d`, with the same constants for all directions, sign
bits and schedules (for tapes whose outputs and abs arguments are distinct variables). -/
theorem C64_generalized_jacobian (f : Func ℝ) {n : Nat} {x : Fin n → ℝ} {w w' : World ℝ} {t : Tape ℝ}
    (hw : w.nextId < usizeMax) (ht : f.tape (List.ofFn x) w = (.ok t, w')) (hn : f.n = .ok n)
    (hs : f.Along piecewiseSmooth w (duals x 0)) (hz : t.switching.deps.Nodup) (hd : t.deps.Nodup) :
    ∃ (m : Nat) (y0 : Fin m → ℝ) (C ε : ℝ), t.y = .ok (List.ofFn y0) ∧ 0 < ε ∧
      ∀ d : Fin n → ℝ, ‖d‖ < ε → ∀ {σ : Sched}, σ.Valid → ∀ bits,
      ∃ (y : Fin m → ℝ) (R : GenJac ℝ), (f.evalFloat (List.ofFn (x + d)) w).1 = .ok (List.ofFn y) ∧
        generalizedJacobian σ f (List.ofFn x) (List.ofFn d) bits none w = (.ok R, w') ∧
        ∀ i : Fin m, |y i - (y0 i + ((∑ j : Fin n, R.homogenous.get i j * d j) + R.inhomogenous.getD i 0))| ≤
          C * ‖d‖ ^ 2 := by
  obtain ⟨m, y0, C, ε, h1, hε, h2⟩ := C64_quadratic_error f hw ht hs
  refine ⟨m, y0, C, ε, h1, hε, fun d hdε σ hσ bits => ?_⟩
  obtain ⟨y, δ, k1, k2, k3⟩ := h2 d hdε
  obtain ⟨R, e1, e2, e3, e4, e5⟩ := C19_exact_at_dx_partial hσ f (dx := List.ofFn d) hw ht (by simpa using hn) (by simp)
    hz hd bits
  refine ⟨y, R, k1, e1, fun i => ?_⟩
  rw [k2] at e5
  injection e5 with e5
  have hm : R.homogenous.nrows = m := by
    have := congrArg List.length e5
    simpa [affine] using this.symm
  have h6 : δ i = (∑ j : Fin n, R.homogenous.get i j * d j) + R.inhomogenous.getD i 0 := by
    have h7 := List.getElem_of_eq e5 (i := i) (by simp)
    have hc : R.homogenous.ncols = n := by simpa using e3
    simp only [affine, mv, hc, sum_range_ofFn, List.getElem_map, List.getElem_range, List.getElem_ofFn] at h7
    exact h7
  rw [← h6]
  exact k3 i

/-- Non-vacuity: the hypotheses of both theorems hold for `|sin |x||` at 0. -/
example : ∃ (w w' : World ℝ) (t : Tape ℝ), w.nextId < usizeMax ∧ sinAbsR.tape (List.ofFn ![0]) w = (.ok t, w') ∧
    sinAbsR.n = .ok 1 ∧ sinAbsR.Along piecewiseSmooth w (duals ![0] 0) ∧ t.switching.deps.Nodup ∧ t.deps.Nodup := by
  rcases ht : sinAbsR.tape (List.ofFn ![0]) HState.init.world with ⟨r, w'⟩
  let t : Tape ℝ := ⟨[0], [3], [⟨.Abs, 1, some 0, none⟩, ⟨.Sin, 2, some 1, none⟩, ⟨.Abs, 3, some 2, none⟩],
    [0, Flt.abs 0, Flt.sin (Flt.abs 0), Flt.abs (Flt.sin (Flt.abs 0))], true⟩
  have h1 : (sinAbsR.tape (List.ofFn ![0]) HState.init.world).1 = .ok t := by kernel_rfl
  rw [ht] at h1
  replace h1 : r = .ok t := h1
  subst h1
  have hrec : Recorded t := .func sinAbsR _ HState.init.world w' (by decide) ht
  refine ⟨HState.init.world, w', t, by decide, ht, rfl, ?_, ?_, by decide⟩
  · exact sinAbsR_along _
  · rw [switching_deps hrec.proper.wf]; decide

end Adv.Props
