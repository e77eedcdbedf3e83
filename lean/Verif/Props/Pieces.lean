import Verif.Proof.PieceFunc
import Verif.Props.Likq

/-!
# Property C86: the sign bits reach every limiting Jacobian of the function

C75 says that some sign bits give a limiting Jacobian of the function in direction 0. Here: every limiting Jacobian of the function
is obtained for some sign bits. (Not all sign bits give limiting Jacobians, see `C75_converse_counterexample`.)
-/

namespace Adv.Props
open Adv Filter Topology

/-- The matrices that `generalized_jacobian` returns in direction 0, for all sign bits. -/
def signResults (σ : Sched) (f : Func ℝ) (n m : ℕ) (x : Fin n → ℝ) (w w' : World ℝ) : Set ((Fin n → ℝ) →L[ℝ] (Fin m → ℝ)) :=
  {L | ∃ bits R, generalizedJacobian σ f (List.ofFn x) (List.replicate n 0) bits none w = (.ok R, w') ∧
    R.homogenous.linear n m = L}

section
variable {σ : Sched} {f : Func ℝ} {n m : ℕ} {x : Fin n → ℝ} {w w' : World ℝ} {t : Tape ℝ}

/-- C86: let `F` be the function near `x`. Every limiting Jacobian of `F` at `x` is what `generalized_jacobian` returns in direction 0
for some sign bits. (The function may contain abs anywhere, the other operations are executed inside of their domains; outputs
and abs arguments are distinct variables.) -/
theorem C86_every_limit (hσ : σ.Valid) (f : Func ℝ) (hw : w.nextId < usizeMax) (ht : f.tape (List.ofFn x) w = (.ok t, w'))
    (hn : f.n = .ok n) (hs : f.Along piecewiseSmooth w (duals x 0)) (hz : t.switching.deps.Nodup) (hd : t.deps.Nodup)
    {F : (Fin n → ℝ) → Fin m → ℝ} (hF : ∀ᶠ z in 𝓝 x, (f.evalFloat (List.ofFn z) w).1 = .ok (List.ofFn (F z))) :
    limitingJacobians F x ⊆ signResults σ f n m x w w' := by
  intro L hL
  have hsp := (Func.tape_spec f (List.ofFn x) w hw).2
  rw [ht] at hsp
  obtain ⟨_, -, hT⟩ := hsp.ok_left
  obtain ⟨ι, hι, P, p1, p2, -, p3⟩ := func_pieces hσ hT (by rwa [← switching_deps hT.wf]) hd hs hF
  obtain ⟨i, hi⟩ := selection_limiting (fun i => (p1 i).1) p2 hL
  obtain ⟨bits, R, e1, e2⟩ := p3 i
  refine ⟨bits, R, ?_, by rw [e2, hi]⟩
  rw [gj_func f ht (by simpa using hn)]
  exact congrArg (·, w') e1

/-- C86: where the function is differentiable, some sign bits give its Jacobian. -/
theorem C86_derivative (hσ : σ.Valid) (f : Func ℝ) (hw : w.nextId < usizeMax) (ht : f.tape (List.ofFn x) w = (.ok t, w'))
    (hn : f.n = .ok n) (hs : f.Along piecewiseSmooth w (duals x 0)) (hz : t.switching.deps.Nodup) (hd : t.deps.Nodup)
    {F : (Fin n → ℝ) → Fin m → ℝ} (hF : ∀ᶠ z in 𝓝 x, (f.evalFloat (List.ofFn z) w).1 = .ok (List.ofFn (F z)))
    (hdiff : DifferentiableAt ℝ F x) :
    ∃ bits R, generalizedJacobian σ f (List.ofFn x) (List.replicate n 0) bits none w = (.ok R, w') ∧
      HasFDerivAt F (R.homogenous.linear n m) x := by
  obtain ⟨bits, R, e, hR⟩ := C86_every_limit hσ f hw ht hn hs hz hd hF
    (show fderiv ℝ F x ∈ limitingJacobians F x from ⟨fun _ => x, tendsto_const_nhds, fun _ => hdiff, tendsto_const_nhds⟩)
  exact ⟨bits, R, e, by rw [hR]; exact hdiff.hasFDerivAt⟩

/-- C86: the Clarke Jacobian of the function is contained in the convex hull of the results. -/
theorem C86_clarke (hσ : σ.Valid) (f : Func ℝ) (hw : w.nextId < usizeMax) (ht : f.tape (List.ofFn x) w = (.ok t, w'))
    (hn : f.n = .ok n) (hs : f.Along piecewiseSmooth w (duals x 0)) (hz : t.switching.deps.Nodup) (hd : t.deps.Nodup)
    {F : (Fin n → ℝ) → Fin m → ℝ} (hF : ∀ᶠ z in 𝓝 x, (f.evalFloat (List.ofFn z) w).1 = .ok (List.ofFn (F z))) :
    convexHull ℝ (limitingJacobians F x) ⊆ convexHull ℝ (signResults σ f n m x w w') :=
  convexHull_mono (C86_every_limit hσ f hw ht hn hs hz hd hF)

/-- C86: at independent kinks the results for all sign bits are exactly the limiting Jacobians of the function. -/
theorem C86_independent_kinks {σ' : Sched} (hσ : σ.Valid) (hσ' : σ'.Valid) (f : Func ℝ) (hw : w.nextId < usizeMax)
    (ht : f.tape (List.ofFn x) w = (.ok t, w')) (hn : f.n = .ok n) (hs : f.Along piecewiseSmooth w (duals x 0))
    (hz : t.switching.deps.Nodup) (hd : t.deps.Nodup)
    {F : (Fin n → ℝ) → Fin m → ℝ} (hF : ∀ᶠ z in 𝓝 x, (f.evalFloat (List.ofFn z) w).1 = .ok (List.ofFn (F z)))
    {A : AbsNormalForm ℝ} (hA : absNormal σ' f (List.ofFn x) w = (.ok A, w')) {zhat : List ℝ}
    (hzh : SwitchEq A (List.replicate n 0) zhat) (hl : Likq A zhat) :
    limitingJacobians F x = signResults σ f n m x w w' := by
  refine Set.Subset.antisymm (C86_every_limit hσ f hw ht hn hs hz hd hF) ?_
  rintro L ⟨bits, R, e, rfl⟩
  exact C85_function_itself hσ hσ' f hw ht hn hs hz hd hF hA hzh hl bits e

/-- C86: if at most one switching variable vanishes, the results for all sign bits are exactly the limiting Jacobians of the
function. -/
theorem C86_single_kink (hσ : σ.Valid) (f : Func ℝ) (hw : w.nextId < usizeMax) (ht : f.tape (List.ofFn x) w = (.ok t, w'))
    (hn : f.n = .ok n) (hs : f.Along piecewiseSmooth w (duals x 0)) (hz : t.switching.deps.Nodup) (hd : t.deps.Nodup)
    {F : (Fin n → ℝ) → Fin m → ℝ} (hF : ∀ᶠ z in 𝓝 x, (f.evalFloat (List.ofFn z) w).1 = .ok (List.ofFn (F z)))
    (h1 : ∀ bits R, generalizedJacobian σ f (List.ofFn x) (List.replicate n 0) bits none w = (.ok R, w') → R.multiplicity ≤ 1) :
    limitingJacobians F x = signResults σ f n m x w w' := by
  refine Set.Subset.antisymm (C86_every_limit hσ f hw ht hn hs hz hd hF) ?_
  rintro L ⟨bits, R, e, rfl⟩
  exact C75_every_sign hσ f hw ht hn hs hz hd hF bits e (h1 bits R e)

/-- C86: at independent kinks the limiting Jacobians of the function are those of its piecewise linear model. -/
theorem C86_model {σ' : Sched} (hσ : σ.Valid) (hσ' : σ'.Valid) (f : Func ℝ) (hw : w.nextId < usizeMax)
    (ht : f.tape (List.ofFn x) w = (.ok t, w')) (hn : f.n = .ok n) (hs : f.Along piecewiseSmooth w (duals x 0))
    (hz : t.switching.deps.Nodup) (hd : t.deps.Nodup)
    {F D : (Fin n → ℝ) → Fin m → ℝ} (hF : ∀ᶠ z in 𝓝 x, (f.evalFloat (List.ofFn z) w).1 = .ok (List.ofFn (F z)))
    (hD : ∀ d, t.firstOrderForward (List.ofFn d) = .ok (List.ofFn (D d)))
    {A : AbsNormalForm ℝ} (hA : absNormal σ' f (List.ofFn x) w = (.ok A, w')) {zhat : List ℝ}
    (hzh : SwitchEq A (List.replicate n 0) zhat) (hl : Likq A zhat) : limitingJacobians F x = limitingJacobians D 0 := by
  refine Set.Subset.antisymm (fun L hL => ?_) (C75_conical f hw ht hs hF hD)
  obtain ⟨bits, R, e, rfl⟩ := C86_every_limit hσ f hw ht hn hs hz hd hF hL
  rw [← ofFn_zero] at e hzh
  exact C85_function hσ hσ' f hw ht hn hz hd hD hA hzh hl bits e

/-- C86: near `x` the function is, to first order, given by one of the results: for every `ε` and all `z` close to `x` there are
sign bits for which the error is at most `ε ‖z - x‖`. -/
theorem C86_expansion (hσ : σ.Valid) (f : Func ℝ) (hw : w.nextId < usizeMax) (ht : f.tape (List.ofFn x) w = (.ok t, w'))
    (hn : f.n = .ok n) (hs : f.Along piecewiseSmooth w (duals x 0)) (hz : t.switching.deps.Nodup) (hd : t.deps.Nodup)
    {F : (Fin n → ℝ) → Fin m → ℝ} (hF : ∀ᶠ z in 𝓝 x, (f.evalFloat (List.ofFn z) w).1 = .ok (List.ofFn (F z))) {ε : ℝ} (hε : 0 < ε) :
    ∀ᶠ z in 𝓝 x, ∃ L ∈ signResults σ f n m x w w', ‖F z - F x - L (z - x)‖ ≤ ε * ‖z - x‖ := by
  have hsp := (Func.tape_spec f (List.ofFn x) w hw).2
  rw [ht] at hsp
  obtain ⟨_, -, hT⟩ := hsp.ok_left
  obtain ⟨ι, hι, P, p1, p2, -, p3⟩ := func_pieces hσ hT (by rwa [← switching_deps hT.wf]) hd hs hF
  have hP : ∀ᶠ z in 𝓝 x, ∀ i, ‖P i z - P i x - fderiv ℝ (P i) x (z - x)‖ ≤ ε * ‖z - x‖ := by
    rw [eventually_all]
    intro i
    have h1 := ((p1 i).1.differentiableAt (by simp)).hasFDerivAt
    exact h1.isLittleO.def hε
  filter_upwards [p2, hP] with z ⟨i, hi⟩ hz
  obtain ⟨bits, R, e1, e2⟩ := p3 i
  refine ⟨_, ⟨bits, R, ?_, e2⟩, ?_⟩
  · rw [gj_func f ht (by simpa using hn)]
    exact congrArg (·, w') e1
  · have := hz i
    rwa [(p1 i).2, ← hi] at this

/-- C86: if `generalized_jacobian` returns the same matrix in direction 0 for all sign bits, then the function is differentiable
at `x`, whatever kinks it has there, and the matrix is its Jacobian. -/
theorem C86_agreement (hσ : σ.Valid) (f : Func ℝ) (hw : w.nextId < usizeMax) (ht : f.tape (List.ofFn x) w = (.ok t, w'))
    (hn : f.n = .ok n) (hs : f.Along piecewiseSmooth w (duals x 0)) (hz : t.switching.deps.Nodup) (hd : t.deps.Nodup)
    {F : (Fin n → ℝ) → Fin m → ℝ} (hF : ∀ᶠ z in 𝓝 x, (f.evalFloat (List.ofFn z) w).1 = .ok (List.ofFn (F z)))
    {J : (Fin n → ℝ) →L[ℝ] (Fin m → ℝ)} (hJ : ∀ bits R,
      generalizedJacobian σ f (List.ofFn x) (List.replicate n 0) bits none w = (.ok R, w') → R.homogenous.linear n m = J) :
    HasFDerivAt F J x := by
  refine .of_isLittleO (Asymptotics.isLittleO_iff.mpr fun ε hε => ?_)
  filter_upwards [C86_expansion hσ f hw ht hn hs hz hd hF hε] with z ⟨L, ⟨bits, R, e, hR⟩, hL⟩
  rwa [← hR, hJ bits R e] at hL

end

/-- Non-vacuity of C86: for `|y - |x||` at 0 all hypotheses hold, and the limiting Jacobians are those that the sign bits give. -/
example {σ : Sched} (hσ : σ.Valid) : ∃ (w w' : World ℝ) (F : (Fin 2 → ℝ) → Fin 1 → ℝ),
    (∀ᶠ z in 𝓝 ![0, 0], (roofF.evalFloat (List.ofFn z) w).1 = .ok (List.ofFn (F z))) ∧
    limitingJacobians F ![0, 0] = signResults σ roofF 2 1 ![0, 0] w w' ∧ (limitingJacobians F ![0, 0]).Nonempty := by
  obtain ⟨w, w', t, F, A, zhat, R, hw, ht, hn, hs, hz, hd, hF, hA, hzh, hl, e, -⟩ := roof_hypotheses hσ []
  refine ⟨w, w', F, hF, C86_independent_kinks hσ hσ roofF hw ht hn hs hz hd hF hA hzh hl, _,
    C85_function_itself hσ hσ roofF hw ht hn hs hz hd hF hA hzh hl [] e⟩

/-! ## A differentiable function with a kink -/

/-- `x ↦ x |x|`. -/
def oddSquareF {S : Type} [Flt S] : Func S := Func.advFn 1 1 fun _ =>
  .op .Abs (.var 0) none fun i _ => .op .Mul (.var 0) (some (.var i)) fun r _ => .ret [.var r]

/-- Its tape. -/
def oddSquareTape {S : Type} [Flt S] (x : S) : Tape S :=
  ⟨[0], [2], [⟨.Abs, 1, some 0, none⟩, ⟨.Mul, 2, some 0, some 1⟩], [x, Flt.abs x, Flt.mul x (Flt.abs x)], true⟩

theorem oddSquareTape_eq {S : Type} [Flt S] (x : S) :
    (oddSquareF.tape [x] HState.init.world).1 = .ok (oddSquareTape x) := by
  kernel_rfl

/-- Non-vacuity of `C86_agreement`: for `x |x|` at 0 all hypotheses hold with the Jacobian 0, although a switching variable
vanishes. -/
example {σ : Sched} (hσ : σ.Valid) :
    ∃ (w w' : World ℝ) (t : Tape ℝ) (F : (Fin 1 → ℝ) → Fin 1 → ℝ), w.nextId < usizeMax ∧
      oddSquareF.tape (List.ofFn ![0]) w = (.ok t, w') ∧ (oddSquareF (S := ℝ)).n = .ok 1 ∧
      oddSquareF.Along piecewiseSmooth w (duals ![0] 0) ∧ t.switching.deps.Nodup ∧ t.deps.Nodup ∧
      (∀ᶠ z in 𝓝 ![0], (oddSquareF.evalFloat (List.ofFn z) w).1 = .ok (List.ofFn (F z))) ∧
      (∀ bits, ∃ R, generalizedJacobian σ oddSquareF (List.ofFn ![0]) (List.replicate 1 0) bits none w = (.ok R, w') ∧
        R.multiplicity = 1) ∧
      ∀ bits R, generalizedJacobian σ oddSquareF (List.ofFn ![0]) (List.replicate 1 0) bits none w = (.ok R, w') →
        R.homogenous.linear 1 1 = 0 := by
  have hof : List.ofFn ![(0 : ℝ)] = [0] := by simp
  rcases ht : oddSquareF.tape (List.ofFn ![(0 : ℝ)]) HState.init.world with ⟨r, w'⟩
  have h1 := oddSquareTape_eq (0 : ℝ)
  rw [← hof, ht] at h1
  replace h1 : r = .ok (oddSquareTape 0) := h1
  subst h1
  have hrec : Recorded (oddSquareTape (0 : ℝ)) := .func oddSquareF _ HState.init.world w' (by decide) ht
  have hwf := hrec.proper.wf
  have hj : (anfForm (oddSquareTape (0 : ℝ))).jmat.get 0 0 = 0 := by
    have : (anfForm (oddSquareTape (0 : ℝ))).jmat.get 0 0 = Flt.add (Flt.mul 1 (Flt.abs 0)) (Flt.mul 0 0) := by kernel_rfl
    simpa [LawfulFlt.abs_eq, LawfulFlt.mul_eq, LawfulFlt.add_eq] using this
  have hy : (anfForm (oddSquareTape (0 : ℝ))).ymat.get 0 0 = 0 := by
    have : (anfForm (oddSquareTape (0 : ℝ))).ymat.get 0 0 = Flt.add (Flt.mul 0 (Flt.abs 0)) (Flt.mul 0 1) := by kernel_rfl
    simpa [LawfulFlt.abs_eq, LawfulFlt.mul_eq, LawfulFlt.add_eq] using this
  have hl : (anfForm (oddSquareTape (0 : ℝ))).lmat.get 0 0 = 0 := by kernel_rfl
  have hzz : zHatV (oddSquareTape (0 : ℝ)) [0] = [0 + 0] := by kernel_rfl
  have key : ∀ bits, ∃ R, generalizedJacobian σ oddSquareF (List.ofFn ![(0 : ℝ)]) (List.replicate 1 0) bits none HState.init.world = (.ok R, w') ∧
      R.multiplicity = 1 ∧ R.homogenous.linear 1 1 = 0 := by
    intro bits
    obtain ⟨R, e, ⟨U, u1, -, -, u4, -⟩, hm⟩ := gj_piece hσ hwf (by decide) (by decide) (dx := [0]) rfl bits
    refine ⟨R, ?_, ?_, ?_⟩
    · rw [gj_func oddSquareF ht rfl]
      exact congrArg (·, w') e
    · rw [hm, hzz, add_zero, zerosBefore]
      show (Finset.filter _ (Finset.range 1)).card = 1
      rw [Finset.filter_true_of_mem]
      · rfl
      · intro i hi
        have := Finset.mem_range.mp hi
        interval_cases i; rfl
    · have ea : (anfForm (oddSquareTape (0 : ℝ))).a.length = 1 := rfl
      have q1 := u1 0 (by show 0 < 1; decide) 0 (by show 0 < 1; decide)
      have q2 := u4 0 (by show 0 < 1; decide) 0 (by show 0 < 1; decide)
      rw [ea, Finset.sum_range_one, hl, hy] at q1
      rw [ea, Finset.sum_range_one, hj, show U 0 0 = 0 by rw [q1]; ring] at q2
      ext v i
      rw [DMat.linear_apply]
      have hi : i = 0 := Subsingleton.elim _ _
      subst hi
      simp only [Fin.sum_univ_one]
      show R.homogenous.get 0 0 * _ = 0
      rw [q2]
      ring
  refine ⟨HState.init.world, w', oddSquareTape 0, fun z _ => z 0 * |z 0|, by decide, ht, rfl, ?_, ?_, by decide,
    .of_forall fun z => ?_, fun bits => ?_, fun bits R e => ?_⟩
  · rw [C01_straight_line (by straight oddSquareF)]
    unfold oddSquareF
    refine ⟨?_, fun _ _ => trivial⟩
    eachop
    · exec
    eachop
    · exec
    · trivial
  · rw [switching_deps hwf]; decide
  · have : (oddSquareF.evalFloat (List.ofFn z) HState.init.world).1 = .ok [Flt.mul (z 0) (Flt.abs (z 0))] := by
      kernel_rfl
    simpa [LawfulFlt.abs_eq, LawfulFlt.mul_eq] using this
  · obtain ⟨R, e, hm, -⟩ := key bits
    exact ⟨R, e, hm⟩
  · obtain ⟨R', e', -, hR⟩ := key bits
    rw [e] at e'
    have : R = R' := by injection e' with e' _; injection e'
    rw [this, hR]

end Adv.Props
