import Verif.Proof.Deriv
import Verif.Props.Jacobian
import Mathlib.Analysis.Calculus.Deriv.Pi
import Mathlib.Analysis.Real.Pi.Bounds

/-!
# Derivatives over the reals: C01, C11, C14
-/

set_option linter.unusedSectionVars false

namespace Adv.Props
open Adv Filter Asymptotics
open scoped Adv Topology

/-- `(x, y) ↦ |sin (x * y)|` -/
noncomputable def sinF : Func ℝ := Func.advFn 2 1 fun _ =>
  (.op .Mul (.var 0) (some (.var 1)) fun i _ =>
   .op .Sin (.var i) none fun j _ =>
   .op .Abs (.var j) none fun k _ => .ret [.var k])

/-- `(x, y) ↦ exp (x * y) / x` -/
noncomputable def expF : Func ℝ := Func.advFn 2 1 fun _ =>
  (.op .Mul (.var 0) (some (.var 1)) fun i _ =>
   .op .Exp (.var i) none fun j _ =>
   .op .Div (.var j) (some (.var 0)) fun k _ => .ret [.var k])

/-- `x ↦ |x|` -/
noncomputable def absR : Func ℝ := Func.advFn 1 1 fun _ =>
  (.op .Abs (.var 0) none fun i _ => .ret [.var i])

open Classical in
/-- `x ↦ x * x` where `x > 1`, otherwise `x`. -/
noncomputable def branchR : Func ℝ := Func.advFn 1 1 fun xs =>
  if xs.headD 0 > 1 then .op .Mul (.var 0) (some (.var 0)) fun j _ => .ret [.var j] else .ret [.var 0]

/-- Unfolding of the execution of a concrete function. -/
macro "exec" : tactic => `(tactic|
  simp [Func.Each, Func.progs, Func.advFn, eachProgs, Prog.Each, duals, List.ofFn_succ, Prog.assertLen, AFloat.new,
    Arg.get, Arg.getOpt, arityOk, OpCode.isUnary, OpCode.isBinary, AFloat.fromOp, AFloat.opCid, M.bind_apply,
    M.lift_apply, zeroOrderValue, firstOrderValue, Func.eval, Func.evalFloat, Prog.run,
    bind_ok_eq, map_ok_eq, M.pure_apply, smooth, piecewiseSmooth, differentiable, SmoothOp,
    LawfulFlt.add_eq, LawfulFlt.sub_eq, LawfulFlt.mul_eq, LawfulFlt.div_eq, LawfulFlt.neg_eq, LawfulFlt.abs_eq,
    LawfulFlt.zero_eq, LawfulFlt.one_eq, unwrap, opVal, opDval, zfun, ffun])

/-- One operation of a concrete execution. -/
macro "eachop" : tactic => `(tactic|
  (show Prog.Each _ _ (.op _ _ _ _) _
   refine (Prog.each_op rfl rfl rfl rfl (by intro _ h; cases h <;> rfl)).mpr ⟨?_, ?_⟩))

/-- Straight-line by inspection. -/
macro "straight" f:ident : tactic => `(tactic|
  (intro p hp
   simp only [$f:ident, Func.advFn, Func.progs, List.mem_singleton] at hp
   subst hp
   refine ⟨fun xs => ?_, fun xs xs' h => by simp [h]⟩
   simp only
   split
   · simp [Prog.assertLen, Prog.StraightLine]
   · trivial))

theorem absR_straight : absR.StraightLine := by straight absR
theorem sinF_straight : sinF.StraightLine := by straight sinF
theorem expF_straight : expF.StraightLine := by straight expF

/-! ## C01 -/

/-- C01 for straight-line functions: the condition along the execution is the condition on each executed operation. -/
theorem C01_straight_line {P : OpCond} {w : World ℝ} {f : Func ℝ} (hf : f.StraightLine) (env : List (AFloat ℝ)) :
    f.Along P w env ↔ f.Each P w env := Func.along_iff_each hf

/-- C01 for smooth operations (everything but abs), any direction: if the function returns at `x` and each operation
is executed inside of its domain, then near `x` the function is a map `F`, `F` has a Fréchet derivative `L` at `x`,
and the `dvalue()`s of the outputs of the evaluation on `(x, dx)` are `L dx`. -/
theorem C01_smooth (f : Func ℝ) {n : Nat} {x : Fin n → ℝ} {w : World ℝ} {y : List ℝ}
    (he : (f.evalFloat (List.ofFn x) w).1 = .ok y) (hs : f.Along smooth w (duals x 0)) :
    ∃ (F : (Fin n → ℝ) → Fin y.length → ℝ) (L : (Fin n → ℝ) →L[ℝ] (Fin y.length → ℝ)),
      (∀ᶠ z in 𝓝 x, (f.evalFloat (List.ofFn z) w).1 = .ok (List.ofFn (F z))) ∧ HasFDerivAt F L x ∧
      ∀ dx, ∃ ys, f.eval (duals x dx) w = (.ok ys, w) ∧ ys.map AFloat.v = List.ofFn (F x) ∧
        ys.map AFloat.dv = List.ofFn (L dx) := by
  obtain ⟨F, L, h1, h2, h3, h4⟩ := frechet_func (fun d => d) he fun d => hs.smooth_differentiable d
  refine ⟨F, L, h1, h3, fun dx => ?_⟩
  obtain ⟨ys, k1, k2, k3⟩ := h4 dx
  exact ⟨ys, k1, k2.trans h2.symm, k3⟩

/-- Non-vacuity: `exp (x y) / x` at `(2, 3)`. -/
example (w : World ℝ) : (expF.evalFloat (List.ofFn ![2, 3]) w).1 = .ok [Real.exp 6 / 2] ∧
    expF.Along smooth w (duals ![2, 3] 0) := by
  rw [C01_straight_line expF_straight]
  unfold expF
  constructor
  · exec
    norm_num [Flt.exp]
  · refine ⟨?_, fun _ _ => trivial⟩
    eachop
    · exec
    eachop
    · exec
    eachop
    · exec
    · trivial

/-- C01 with abs. The full statement allows abs at every non-zero argument:
```
(∀ executed abs, argument ≠ 0) → ys.map dv = List.ofFn (L dx)
```
It is false (`C01_abs_increment_counterexample`): the dvalue of `abs` is the increment `|a + da| - |a|`, which is the
derivative only as long as `a + da` has not changed sign. The theorem adds this condition (it is part of
`differentiable`); it holds for every `dx` that is small enough. -/
theorem C01_frechet_partial (f : Func ℝ) {n : Nat} {x dx : Fin n → ℝ} {w : World ℝ} {ys : List (AFloat ℝ)}
    (he : (f.eval (duals x dx) w).1 = .ok ys) (hs : f.Along differentiable w (duals x dx)) :
    ∃ (F : (Fin n → ℝ) → Fin ys.length → ℝ) (L : (Fin n → ℝ) →L[ℝ] (Fin ys.length → ℝ)),
      (∀ᶠ z in 𝓝 x, (f.evalFloat (List.ofFn z) w).1 = .ok (List.ofFn (F z))) ∧ HasFDerivAt F L x ∧
      ys.map AFloat.v = List.ofFn (F x) ∧ ys.map AFloat.dv = List.ofFn (L dx) := by
  have hy : (f.evalFloat (List.ofFn x) w).1 = .ok (ys.map AFloat.v) := by
    rw [duals_zip, Func.eval_new] at he
    rw [Func.evalFloat_eq]
    have h := Func.evalD_fst f ((List.ofFn x).zip (List.ofFn dx))
    rw [List.map_fst_zip (by simp)] at h
    rcases hd : f.evalD ((List.ofFn x).zip (List.ofFn dx)) with e | y
    · rw [hd] at he; cases he
    · rw [hd] at he h
      injection he with he
      rw [← h, ← he, map_ok_eq, List.map_map]
      rfl
  obtain ⟨F, L, h1, h2, h3, h4⟩ := frechet_func (fun _ : Unit => dx) hy fun _ => hs
  obtain ⟨zs, k1, k2, k3⟩ := h4 ()
  rw [k1] at he
  injection he with he
  subst he
  have hl : (zs.map AFloat.v).length = zs.length := by simp
  revert F L
  rw [hl]
  intro F L h1 h2 h3 _ k3
  exact ⟨F, L, h1, h3, h2.symm, k3⟩

/-- Non-vacuity: `|sin (x y)|` at `(1, 1)` in direction `(1, 0)`. -/
example (w : World ℝ) : (sinF.eval (duals ![1, 1] ![1, 0]) w).1 = .ok [AFloat.new (Real.sin 1) (Real.cos 1)] ∧
    sinF.Along differentiable w (duals ![1, 1] ![1, 0]) := by
  have h0 : 0 < Real.sin 1 := Real.sin_pos_of_pos_of_lt_pi one_pos (by linarith [Real.pi_gt_three])
  have h1 : 0 < Real.cos 1 := Real.cos_one_pos
  rw [C01_straight_line sinF_straight]
  unfold sinF
  constructor
  · exec
    norm_num [Flt.sin, Flt.cos]
    rw [abs_of_pos h0, abs_of_pos (by linarith)]
    simp [h0.le]
  · refine ⟨?_, fun _ _ => trivial⟩
    eachop
    · exec
    eachop
    · exec
    eachop
    · exec
      norm_num [Flt.sin, Flt.cos]
      exact ⟨h0.ne', by positivity⟩
    · trivial

/-- Non-vacuity: a function that branches on its input, at a point inside of a branch. -/
example (w : World ℝ) : (branchR.eval (duals ![2] ![1]) w).1 = .ok [AFloat.new 4 4] ∧
    branchR.Along differentiable w (duals ![2] ![1]) := by
  have hb : ∀ v : ℝ, |v - 2| < 1 → v > 1 := fun v hv => by linarith [(abs_lt.mp hv).1]
  unfold branchR
  constructor
  · exec
    norm_num
  · refine ⟨⟨1, one_pos, ?_⟩, ?_, fun _ _ => trivial⟩
    · intro xs hl hx
      have h1 : xs.length = 1 := by simpa [duals] using hl
      obtain ⟨v, rfl⟩ := List.length_eq_one_iff.mp h1
      have h2 : |v - 2| < 1 := by simpa [duals, AFloat.new] using hx 0 (by simp) (by simp [duals])
      simp [duals, AFloat.new, hb v h2, show (1 : ℝ) < 2 by norm_num]
    · have h2 : (1 : ℝ) < 2 := by norm_num
      simp only [duals, AFloat.new, List.map_cons, List.ofFn_succ, List.headD_cons]
      simp [h2, Prog.assertLen]
      rw [Prog.along_op rfl rfl rfl rfl (by simp)]
      exact ⟨by exec, ⟨1, one_pos, fun _ _ => rfl⟩, trivial⟩

/-- The full statement of C01 fails for abs: at `x = 1` the function `|x|` is differentiable with derivative `1`,
but the dvalue in direction `-3` is `1`, not `-3`. -/
theorem C01_abs_increment_counterexample :
    ∃ (f : Func ℝ) (F : (Fin 1 → ℝ) → Fin 1 → ℝ) (L : (Fin 1 → ℝ) →L[ℝ] (Fin 1 → ℝ)),
      (∀ w, f.Along (fun o arg a b => piecewiseSmooth o arg a b ∧ (o = .Abs → a.v ≠ 0)) w (duals ![1] ![-3])) ∧
      (∀ z w, (f.evalFloat (List.ofFn z) w).1 = .ok (List.ofFn (F z))) ∧ HasFDerivAt F L ![1] ∧
      ∀ w, ∃ ys, f.eval (duals ![1] ![-3]) w = (.ok ys, w) ∧ ys.map AFloat.dv = [1] ∧
        List.ofFn (L ![-3]) = [-3] := by
  refine ⟨absR, fun z _ => |z 0|, ContinuousLinearMap.pi fun _ => ContinuousLinearMap.proj 0, ?_, ?_, ?_, ?_⟩
  · intro w
    rw [C01_straight_line absR_straight]
    unfold absR
    refine ⟨?_, fun _ _ => trivial⟩
    eachop
    · exec
    · trivial
  · intro z w
    unfold absR
    exec
  · refine hasFDerivAt_pi.mpr fun _ => ?_
    have h := (hasDerivAt_abs (x := (![1] : Fin 1 → ℝ) 0) (by simp)).comp_hasFDerivAt ![1]
      (hasFDerivAt_apply (𝕜 := ℝ) (0 : Fin 1) (![1] : Fin 1 → ℝ))
    have h5 : ((SignType.sign ((![1] : Fin 1 → ℝ) 0) : SignType) : ℝ) • (ContinuousLinearMap.proj 0 : (Fin 1 → ℝ) →L[ℝ] ℝ) =
        ContinuousLinearMap.proj 0 := by simp
    rw [h5] at h
    exact h
  · intro w
    refine ⟨[AFloat.new 1 1], ?_, by simp [AFloat.new], by simp [List.ofFn_succ]⟩
    unfold absR
    exec
    norm_num

/-! ## C11 -/

/-- C11: for a function that is smooth at `x`, `jacobian_forward` returns the matrix of the Fréchet derivative at
`x`; its entries are the partial derivatives. -/
theorem C11_jacobian_forward {σ : Sched} (hσ : σ.Valid) (f : Func ℝ) {n m : Nat} {x : Fin n → ℝ} {w : World ℝ}
    {y : List ℝ} (hn : f.n = .ok n) (hm : f.m = .ok m) (he : (f.evalFloat (List.ofFn x) w).1 = .ok y)
    (hy : y.length = m) (hs : f.Along smooth w (duals x 0)) :
    ∃ (F : (Fin n → ℝ) → Fin m → ℝ) (L : (Fin n → ℝ) →L[ℝ] (Fin m → ℝ)) (J : DMat ℝ),
      (∀ᶠ z in 𝓝 x, (f.evalFloat (List.ofFn z) w).1 = .ok (List.ofFn (F z))) ∧ HasFDerivAt F L x ∧
      jacobianForward σ f (List.ofFn x) w = (.ok J, w) ∧ J.nrows = m ∧ J.ncols = n ∧
      (∀ (i : Fin m) (j : Fin n), HasDerivAt (fun s => F (Function.update x j s) i) (J.get i j) (x j)) ∧
      ∀ (dx : Fin n → ℝ) (i : Fin m), L dx i = ∑ j : Fin n, J.get i j * dx j := by
  subst hy
  obtain ⟨F, L, h1, h2, h3, h4⟩ := frechet_func (fun d => d) he fun d => hs.smooth_differentiable d
  have hent : ∀ (i : Fin y.length) (j : Fin n), jfEntry f n (List.ofFn x) i j = L (Pi.single j 1) i := by
    intro i j
    obtain ⟨ys, k1, -, k3⟩ := h4 (Pi.single j 1)
    have hdir : List.ofFn (Pi.single j 1 : Fin n → ℝ) = eVec n j := by
      apply List.ext_getElem
      · simp [eVec]
      · intro k q1 q2
        have hk : k < n := by simpa using q1
        simp [eVec, Pi.single_apply, Fin.ext_iff, LawfulFlt.one_eq, LawfulFlt.zero_eq]
    rw [duals_zip, hdir, Func.eval_new] at k1
    unfold jfEntry
    rcases hd : f.evalD ((List.ofFn x).zip (eVec n j)) with e | zs
    · rw [hd] at k1; cases k1
    · rw [hd] at k1
      injection k1 with k1
      injection k1 with k1
      have : zs.map Prod.snd = List.ofFn (L (Pi.single j 1)) := by
        rw [← k3, ← k1, List.map_map]; rfl
      simp only [this]
      simp
  refine ⟨F, L, DMat.ofFn y.length n (jfEntry f n (List.ofFn x)), h1, h3, ?_, rfl, rfl, ?_, ?_⟩
  · rw [jacobianForward_eq hσ]
    congr 1
    unfold jfPure
    have h5 : assertR (decide ((List.ofFn x).length = n)) = .ok () := by simp [assertR]
    rw [Func.evalFloat_eq] at he
    change f.evalV (List.ofFn x) = .ok y at he
    simp only [hn, hm, bind_ok_eq, h5, he, le_refl, if_true]
    split
    · rename_i h0
      subst h0
      simp [DMat.zeros, DMat.ofFn, pure, Except.pure]
    · rfl
  · intro i j
    have hg : (DMat.ofFn y.length n (jfEntry f n (List.ofFn x))).get i j = L (Pi.single j 1) i := by
      simp [DMat.ofFn, hent]
    rw [hg]
    have hu : HasDerivAt (fun s => Function.update x j s) (Pi.single j 1) (x j) := hasDerivAt_update x j (x j)
    have h5 : HasFDerivAt F L (Function.update x j (x j)) := by rwa [Function.update_eq_self]
    exact hasDerivAt_pi.mp (h5.comp_hasDerivAt (x j) hu) i
  · intro dx i
    have hg : ∀ j : Fin n, (DMat.ofFn y.length n (jfEntry f n (List.ofFn x))).get i j = L (Pi.single j 1) i := by
      intro j; simp [DMat.ofFn, hent]
    simp only [hg]
    conv_lhs => rw [show dx = ∑ j, dx j • (Pi.single j 1 : Fin n → ℝ) from by
      simpa using (Finset.univ_sum_single dx).symm.trans (by
        refine Finset.sum_congr rfl fun j _ => ?_
        rw [← Pi.single_smul, smul_eq_mul, mul_one])]
    rw [map_sum, Finset.sum_apply]
    refine Finset.sum_congr rfl fun j _ => ?_
    rw [map_smul, Pi.smul_apply, smul_eq_mul, mul_comm]

/-- Non-vacuity: the hypotheses hold for `exp (x y) / x` at `(2, 3)`. -/
example (w : World ℝ) : expF.n = .ok 2 ∧ expF.m = .ok [Real.exp 6 / 2].length ∧
    (expF.evalFloat (List.ofFn ![2, 3]) w).1 = .ok [Real.exp 6 / 2] := by
  refine ⟨rfl, rfl, ?_⟩
  unfold expF
  exec
  norm_num [Flt.exp]

/-- C11, reverse mode: under the same hypotheses `jacobian_reverse` of the tape recorded at `x` returns the same
matrix, provided no node is registered twice as dependent (C12). -/
theorem C11_jacobian_reverse {σ : Sched} (hσ : σ.Valid) (f : Func ℝ) {n m : Nat} {x : Fin n → ℝ}
    {w w' : World ℝ} {t : Tape ℝ} (hw : w.nextId < usizeMax) (ht : f.tape (List.ofFn x) w = (.ok t, w'))
    (hn : f.n = .ok n) (hm : f.m = .ok m) (htm : t.numDeps = m) (ha : t.AbsFree) (hnd : t.deps.Nodup)
    (hs : f.Along smooth w (duals x 0)) :
    ∃ (F : (Fin n → ℝ) → Fin m → ℝ) (L : (Fin n → ℝ) →L[ℝ] (Fin m → ℝ)) (J : DMat ℝ),
      (∀ᶠ z in 𝓝 x, (f.evalFloat (List.ofFn z) w).1 = .ok (List.ofFn (F z))) ∧ HasFDerivAt F L x ∧
      jacobianReverse σ t = .ok J ∧ J.nrows = m ∧ J.ncols = n ∧
      ∀ (dx : Fin n → ℝ) (i : Fin m), L dx i = ∑ j : Fin n, J.get i j * dx j := by
  have h := (Func.tape_spec f (List.ofFn x) w hw).2
  rw [ht] at h
  obtain ⟨y, hy, h⟩ := h.ok_left
  have hl : y.length = m := by
    have := h.out
    rw [hy] at this
    injection this with this
    rw [this, List.length_map]
    exact htm
  obtain ⟨F, L, J, h1, h2, h3, h4, h5, -, h7⟩ := C11_jacobian_forward hσ f hn hm
    (by rw [Func.evalFloat_eq]; exact hy) hl hs
  obtain ⟨J', k1, k2, -, -⟩ := C12_forward_eq_reverse_partial (w'' := w) hσ hσ f hw ht (by simpa using hn)
    (by rw [htm]; exact hm) ha hnd
  rw [k1] at h3
  injection h3 with h3
  injection h3 with h3
  subst h3
  exact ⟨F, L, J', h1, h2, k2, h4, h5, h7⟩

/-! ## C14 -/

/-- C14: with abs anywhere (also at kinks), the dvalues of an evaluation on `(x, dx)` - equivalently the result of
`first_order_forward(dx)` on the tape recorded at `x` - approximate the increment of the function up to `o(dx)`. -/
theorem C14_piecewise_linearization (f : Func ℝ) {n : Nat} {x : Fin n → ℝ} {w w' : World ℝ} {t : Tape ℝ}
    (hw : w.nextId < usizeMax) (ht : f.tape (List.ofFn x) w = (.ok t, w'))
    (hs : f.Along piecewiseSmooth w (duals x 0)) :
    ∃ (m : Nat) (F D : (Fin n → ℝ) → Fin m → ℝ),
      (∀ᶠ z in 𝓝 x, (f.evalFloat (List.ofFn z) w).1 = .ok (List.ofFn (F z))) ∧
      t.y = .ok (List.ofFn (F x)) ∧
      (∀ d, t.firstOrderForward (List.ofFn d) = .ok (List.ofFn (D d)) ∧
        ∃ ys, f.eval (duals x d) w = (.ok ys, w) ∧ ys.map AFloat.dv = List.ofFn (D d)) ∧
      (fun d => F (x + d) - F x - D d) =o[𝓝 0] fun d => d := by
  have h := (Func.tape_spec f (List.ofFn x) w hw).2
  rw [ht] at h
  obtain ⟨y, hy, h⟩ := h.ok_left
  obtain ⟨F, D, h1, h2, h3, h4⟩ := model_func (y0 := y) (by rw [Func.evalFloat_eq]; exact hy) hs
  refine ⟨y.length, F, D, h1, ?_, fun d => ?_, h4.trans_isLittleO sq_isLittleO⟩
  · rw [h2, Tape.y_eq h.wf, ← hy, h.out]
  · obtain ⟨ys, k1, -, k3⟩ := h3 d
    obtain ⟨zs, q1, q2, -⟩ := C07_forward_eq_tapeless_exact f (dx := List.ofFn d) (w'' := w) hw ht (by simp)
    rw [← duals_zip, k1] at q1
    injection q1 with q1
    injection q1 with q1
    subst q1
    exact ⟨by rw [q2, k3], ys, k1, k3⟩

/-- Non-vacuity: `|x|` at its kink. -/
example (w : World ℝ) (hw : w.nextId < usizeMax) : absR.Along piecewiseSmooth w (duals ![0] 0) ∧
    ∃ t w', absR.tape (List.ofFn ![0]) w = (.ok t, w') := by
  constructor
  · rw [C01_straight_line absR_straight]
    unfold absR
    refine ⟨?_, fun _ _ => trivial⟩
    eachop
    · exec
    · trivial
  · have h := (Func.tape_spec absR (List.ofFn ![0]) w hw).2
    have h2 : absR.evalV (List.ofFn ![0]) = .ok [0] := by
      have : (absR.evalFloat (List.ofFn ![0]) w).1 = absR.evalV (List.ofFn ![0]) :=
        congrArg Prod.fst (Func.evalFloat_eq absR (List.ofFn ![0]) w)
      rw [← this]
      unfold absR
      exec
    rw [h2] at h
    rcases ht : absR.tape (List.ofFn ![0]) w with ⟨e | t, w'⟩
    · rw [ht] at h; cases h
    · exact ⟨t, w', rfl⟩

end Adv.Props
