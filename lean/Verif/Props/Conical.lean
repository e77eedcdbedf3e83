import Verif.Proof.Conical
import Verif.Props.SecondOrder

/-!
# Property C75: generalized Jacobians in direction 0 belong to the function itself

C61 relates `generalized_jacobian` to the piecewise linear model. In direction 0 the results are also limits of
derivatives of the function that was recorded.
-/

namespace Adv.Props
open Adv Filter Topology

theorem limitingJacobians_congr {E W : Type} [NormedAddCommGroup E] [NormedSpace ℝ E] [NormedAddCommGroup W]
    [NormedSpace ℝ W] {F G : E → W} {x : E} (h : F =ᶠ[𝓝 x] G) : limitingJacobians F x ⊆ limitingJacobians G x := by
  rintro L ⟨u, h1, h2, h3⟩
  obtain ⟨N, hN⟩ := eventually_atTop.mp (h1.eventually h.eventuallyEq_nhds)
  have h4 : ∀ k, F =ᶠ[𝓝 (u (k + N))] G := fun k => hN _ (by omega)
  refine ⟨fun k => u (k + N), h1.comp (tendsto_add_atTop_nat N), fun k => (h2 _).congr_of_eventuallyEq (h4 k).symm, ?_⟩
  refine (h3.comp (tendsto_add_atTop_nat N)).congr fun k => ?_
  exact (h4 k).fderiv_eq

theorem ofFn_zero (n : ℕ) : List.ofFn (0 : Fin n → ℝ) = List.replicate n 0 := by
  rw [← List.ofFn_const]; rfl

/-- The dimensions of a recorded tape, and its model. -/
theorem model_dims (f : Func ℝ) {n m : ℕ} {x : Fin n → ℝ} {w w' : World ℝ} {t : Tape ℝ} (hw : w.nextId < usizeMax)
    (ht : f.tape (List.ofFn x) w = (.ok t, w')) (hs : f.Along piecewiseSmooth w (duals x 0))
    {F : (Fin n → ℝ) → Fin m → ℝ} (hF : ∀ᶠ z in 𝓝 x, (f.evalFloat (List.ofFn z) w).1 = .ok (List.ofFn (F z))) :
    ∃ D : (Fin n → ℝ) → Fin m → ℝ, t.numIndeps = n ∧ t.numDeps = m ∧
      ∀ d, t.firstOrderForward (List.ofFn d) = .ok (List.ofFn (D d)) := by
  obtain ⟨m', F', D, h1, -, hD, -⟩ := C14_piecewise_linearization f hw ht hs
  have hm : m' = m := by
    have e1 := hF.self_of_nhds
    rw [h1.self_of_nhds] at e1
    injection e1 with e1
    simpa using congrArg List.length e1
  subst hm
  have h := (Func.tape_spec f (List.ofFn x) w hw).2
  rw [ht] at h
  obtain ⟨y, -, h⟩ := h.ok_left
  have hni : t.numIndeps = n := by simp [Tape.numIndeps, h.indeps]
  refine ⟨D, hni, ?_, fun d => (hD d).1⟩
  have := forward_dy h.wf (dx := List.ofFn (0 : Fin n → ℝ)) (by simp [hni])
  rw [(hD 0).1] at this
  injection this with this
  simpa using (congrArg List.length this).symm

/-- C75: let `F` be the function near `x`, and `D` the piecewise linear model that `first_order_forward` computes on the tape
recorded at `x`. Every limiting Jacobian of `D` at 0 is a limiting Jacobian of `F` at `x`. (The function may contain abs
anywhere, the other operations are executed inside of their domains.) -/
theorem C75_conical (f : Func ℝ) {n m : ℕ} {x : Fin n → ℝ} {w w' : World ℝ} {t : Tape ℝ} (hw : w.nextId < usizeMax)
    (ht : f.tape (List.ofFn x) w = (.ok t, w')) (hs : f.Along piecewiseSmooth w (duals x 0))
    {F D : (Fin n → ℝ) → Fin m → ℝ} (hF : ∀ᶠ z in 𝓝 x, (f.evalFloat (List.ofFn z) w).1 = .ok (List.ofFn (F z)))
    (hD : ∀ d, t.firstOrderForward (List.ofFn d) = .ok (List.ofFn (D d))) :
    limitingJacobians D 0 ⊆ limitingJacobians F x := by
  have h := (Func.tape_spec f (List.ofFn x) w hw).2
  rw [ht] at h
  obtain ⟨y, hy, h⟩ := h.ok_left
  have hni : t.numIndeps = n := by simp [Tape.numIndeps, h.indeps]
  obtain ⟨F', D', h1, h2, h3, h4⟩ := conic_func (y0 := y) (by rw [Func.evalFloat_eq]; exact hy) hs
  have hm : y.length = m := by
    have e1 := hF.self_of_nhds
    rw [h1.self_of_nhds] at e1
    injection e1 with e1
    simpa using congrArg List.length e1
  subst hm
  have hFF : F' =ᶠ[𝓝 x] F := by
    filter_upwards [h1, hF] with z k1 k2
    rw [k1] at k2
    injection k2 with k2
    exact List.ofFn_injective k2
  have hDD : D' = D := by
    funext d
    obtain ⟨ys, q1, -, q3⟩ := h3 d
    obtain ⟨zs, r1, r2, -⟩ := C07_forward_eq_tapeless_exact f (dx := List.ofFn d) (w'' := w) hw ht (by simp)
    rw [← duals_zip, q1] at r1
    injection r1 with r1
    injection r1 with r1
    subst r1
    rw [hD d, q3] at r2
    injection r2 with r2
    exact (List.ofFn_injective r2).symm
  subst hDD
  refine subset_trans (fun L hL => ?_) (limitingJacobians_congr hFF)
  obtain ⟨A, hA, hA0, hA1⟩ := conic_limiting h4
  have hmd : t.numDeps = y.length := by
    have := forward_dy h.wf (dx := List.ofFn (0 : Fin n → ℝ)) (by simp [hni])
    rw [hD] at this
    injection this with this
    simpa using (congrArg List.length this).symm
  subst hni
  -- the model is piecewise linear
  generalize y.length = m at *
  subst hmd
  have S := absSystem h.wf hD
  obtain ⟨p, hp, hG⟩ := S.of_limiting hL
  obtain ⟨G, γ, hGp⟩ := S.piece (sg := pattern p) (fun i => by unfold pattern; split_ifs <;> norm_num)
  have hLG := hG G γ hGp
  obtain ⟨v, hv1, hv2⟩ := ((mem_closure_iff_frequently.mp hp).and_eventually hA0).exists
  obtain ⟨d, hd1, hd2⟩ := ((mem_closure_iff_frequently.mp hv2).and_eventually (isOpen_interior.mem_nhds hv1)).exists
  have e : HasFDerivAt D' G d := by
    refine HasFDerivAt.congr_of_eventuallyEq (G.hasFDerivAt.add_const γ) ?_
    filter_upwards [mem_interior_iff_mem_nhds.mp hd2] with w hw using hGp w hw
  have := (hA1 d hd1).2
  rwa [e.fderiv, ← hLG] at this

/-- C75: some choice of the sign bits makes `generalized_jacobian` in direction 0 return a limiting Jacobian of the
function (for tapes whose outputs and abs arguments are distinct variables). -/
theorem C75_exists {σ : Sched} (hσ : σ.Valid) (f : Func ℝ) {n m : ℕ} {x : Fin n → ℝ} {w w' : World ℝ} {t : Tape ℝ}
    (hw : w.nextId < usizeMax) (ht : f.tape (List.ofFn x) w = (.ok t, w')) (hn : f.n = .ok n)
    (hs : f.Along piecewiseSmooth w (duals x 0)) (hz : t.switching.deps.Nodup) (hd : t.deps.Nodup)
    {F : (Fin n → ℝ) → Fin m → ℝ} (hF : ∀ᶠ z in 𝓝 x, (f.evalFloat (List.ofFn z) w).1 = .ok (List.ofFn (F z))) :
    ∃ bits R, generalizedJacobian σ f (List.ofFn x) (List.replicate n 0) bits none w = (.ok R, w') ∧
      R.homogenous.linear n m ∈ limitingJacobians F x := by
  obtain ⟨D, rfl, rfl, hD⟩ := model_dims f hw ht hs hF
  have hrec : Recorded t := .func f _ w w' hw ht
  obtain ⟨bits, R, e, hR⟩ := C61_exists hσ hrec hz hd hD 0
  refine ⟨bits, R, ?_, C75_conical f hw ht hs hF hD hR⟩
  rw [gj_func f ht (by simpa using hn), ← ofFn_zero, e]

/-- C75: if at most one switching variable vanishes, then every choice of the sign bits gives a limiting Jacobian of the
function. -/
theorem C75_every_sign {σ : Sched} (hσ : σ.Valid) (f : Func ℝ) {n m : ℕ} {x : Fin n → ℝ} {w w' : World ℝ} {t : Tape ℝ}
    (hw : w.nextId < usizeMax) (ht : f.tape (List.ofFn x) w = (.ok t, w')) (hn : f.n = .ok n)
    (hs : f.Along piecewiseSmooth w (duals x 0)) (hz : t.switching.deps.Nodup) (hd : t.deps.Nodup)
    {F : (Fin n → ℝ) → Fin m → ℝ} (hF : ∀ᶠ z in 𝓝 x, (f.evalFloat (List.ofFn z) w).1 = .ok (List.ofFn (F z)))
    (bits : List UInt8) {R : GenJac ℝ}
    (e : generalizedJacobian σ f (List.ofFn x) (List.replicate n 0) bits none w = (.ok R, w')) (h1 : R.multiplicity ≤ 1) :
    R.homogenous.linear n m ∈ limitingJacobians F x := by
  obtain ⟨D, rfl, rfl, hD⟩ := model_dims f hw ht hs hF
  have hrec : Recorded t := .func f _ w w' hw ht
  rw [gj_func f ht (by simpa using hn), ← ofFn_zero] at e
  injection e with e _
  exact C75_conical f hw ht hs hF hD (C61_every_sign_partial hσ hrec hz hd hD 0 bits e h1)

/-- C75: for directions up to some length, forward mode computes the one-sided directional derivative of the function. -/
theorem C75_directional (f : Func ℝ) {n m : ℕ} {x : Fin n → ℝ} {w w' : World ℝ} {t : Tape ℝ} (hw : w.nextId < usizeMax)
    (ht : f.tape (List.ofFn x) w = (.ok t, w')) (hs : f.Along piecewiseSmooth w (duals x 0))
    {F : (Fin n → ℝ) → Fin m → ℝ} (hF : ∀ᶠ z in 𝓝 x, (f.evalFloat (List.ofFn z) w).1 = .ok (List.ofFn (F z))) :
    ∃ ε > 0, ∀ d : Fin n → ℝ, ‖d‖ < ε → ∃ δ, t.firstOrderForward (List.ofFn d) = .ok (List.ofFn δ) ∧
      Tendsto (fun s : ℝ => s⁻¹ • (F (x + s • d) - F x)) (𝓝[>] 0) (𝓝 δ) := by
  have h := (Func.tape_spec f (List.ofFn x) w hw).2
  rw [ht] at h
  obtain ⟨y, hy, h⟩ := h.ok_left
  obtain ⟨D, rfl, rfl, hD⟩ := model_dims f hw ht hs hF
  obtain ⟨m', F', D', h1, -, hD', ho⟩ := C14_piecewise_linearization f hw ht hs
  have hm : m' = t.numDeps := by
    have e := (hD' 0).1
    rw [hD] at e
    injection e with e
    simpa using (congrArg List.length e).symm
  subst hm
  have hDD : D' = D := by
    funext d
    have e := (hD' d).1
    rw [hD] at e
    injection e with e
    exact (List.ofFn_injective e).symm
  subst hDD
  have hFF : F' =ᶠ[𝓝 x] F := by
    filter_upwards [h1, hF] with z k1 k2
    rw [k1] at k2
    injection k2 with k2
    exact List.ofFn_injective k2
  have hD0 : D' 0 = 0 := by
    have := ho.def (zero_lt_one' ℝ)
    have := this.self_of_nhds
    simpa using this
  obtain ⟨ε, hε, hh⟩ := (absSystem h.wf hD).homog 0
  refine ⟨ε, hε, fun d hd => ⟨D' d, hD d, ?_⟩⟩
  have hsd : Tendsto (fun s : ℝ => s • d) (𝓝[>] 0) (𝓝 0) := by
    have : Tendsto (fun s : ℝ => s • d) (𝓝[>] 0) (𝓝 ((0 : ℝ) • d)) :=
      (tendsto_id.mono_right nhdsWithin_le_nhds).smul_const d
    simpa using this
  have hlo := ho.comp_tendsto hsd
  have hpos : ∀ᶠ s in 𝓝[>] (0 : ℝ), 0 < s := self_mem_nhdsWithin
  have hone : ∀ᶠ s in 𝓝[>] (0 : ℝ), s < 1 :=
    (tendsto_id.mono_right nhdsWithin_le_nhds : Tendsto id (𝓝[>] (0 : ℝ)) (𝓝 0)).eventually_lt_const one_pos
  have hnb : ∀ᶠ s in 𝓝[>] (0 : ℝ), F' (x + s • d) = F (x + s • d) := by
    have : Tendsto (fun s : ℝ => x + s • d) (𝓝[>] 0) (𝓝 x) := by simpa using hsd.const_add x
    exact this.eventually hFF
  -- the error, divided by `s`, tends to 0
  have herr : Tendsto (fun s : ℝ => s⁻¹ • (F' (x + s • d) - F' x - D' (s • d))) (𝓝[>] 0) (𝓝 0) := by
    rw [tendsto_zero_iff_norm_tendsto_zero]
    refine tendsto_order.mpr ⟨fun a ha => .of_forall fun s => ha.trans_le (norm_nonneg _), fun a ha => ?_⟩
    have hc : 0 < a / (‖d‖ + 1) := by positivity
    filter_upwards [hlo.def hc, hpos] with s k1 k2
    simp only [Function.comp] at k1
    rw [norm_smul, norm_inv, Real.norm_of_nonneg k2.le]
    rw [norm_smul, Real.norm_of_nonneg k2.le] at k1
    have k3 : s⁻¹ * ‖F' (x + s • d) - F' x - D' (s • d)‖ ≤ s⁻¹ * (a / (‖d‖ + 1) * (s * ‖d‖)) :=
      mul_le_mul_of_nonneg_left k1 (inv_nonneg.mpr k2.le)
    refine k3.trans_lt ?_
    have k4 : s⁻¹ * (a / (‖d‖ + 1) * (s * ‖d‖)) = a * (‖d‖ / (‖d‖ + 1)) := by
      field_simp
    rw [k4]
    have k5 : ‖d‖ / (‖d‖ + 1) < 1 := by
      rw [div_lt_one (by positivity)]
      linarith
    nlinarith
  have := herr.add_const (D' d)
  rw [zero_add] at this
  refine this.congr' ?_
  filter_upwards [hpos, hone, hnb] with s k1 k2 k3
  have k4 := (hh d hd s k1.le k2.le).2
  rw [zero_add, zero_add, hD0, smul_zero, zero_add] at k4
  rw [k3, hFF.self_of_nhds, k4, smul_sub, smul_smul, inv_mul_cancel₀ k1.ne', one_smul, sub_add_cancel]

/-! ### Examples and counterexamples -/

/-- Non-vacuity of `C75_conical`, `C75_exists` and `C75_directional`: `|sin |x||` at its kink. -/
example : ∃ (w w' : World ℝ) (t : Tape ℝ) (F D : (Fin 1 → ℝ) → Fin 1 → ℝ), w.nextId < usizeMax ∧
    sinAbsR.tape (List.ofFn ![0]) w = (.ok t, w') ∧ sinAbsR.n = .ok 1 ∧ sinAbsR.Along piecewiseSmooth w (duals ![0] 0) ∧
    t.switching.deps.Nodup ∧ t.deps.Nodup ∧
    (∀ᶠ z in 𝓝 ![0], (sinAbsR.evalFloat (List.ofFn z) w).1 = .ok (List.ofFn (F z))) ∧
    ∀ d, t.firstOrderForward (List.ofFn d) = .ok (List.ofFn (D d)) := by
  rcases ht : sinAbsR.tape (List.ofFn ![0]) HState.init.world with ⟨r, w'⟩
  let t : Tape ℝ := ⟨[0], [3], [⟨.Abs, 1, some 0, none⟩, ⟨.Sin, 2, some 1, none⟩, ⟨.Abs, 3, some 2, none⟩],
    [0, Flt.abs 0, Flt.sin (Flt.abs 0), Flt.abs (Flt.sin (Flt.abs 0))], true⟩
  have h1 : (sinAbsR.tape (List.ofFn ![0]) HState.init.world).1 = .ok t := by kernel_rfl
  rw [ht] at h1
  replace h1 : r = .ok t := h1
  subst h1
  have hrec : Recorded t := .func sinAbsR _ HState.init.world w' (by decide) ht
  have hF : ∀ z : Fin 1 → ℝ, (sinAbsR.evalFloat (List.ofFn z) HState.init.world).1 =
      .ok (List.ofFn fun _ : Fin 1 => Flt.abs (Flt.sin (Flt.abs (z 0)))) := fun z => by kernel_rfl
  obtain ⟨D, -, -, hD⟩ := model_dims sinAbsR (by decide) ht (sinAbsR_along _) (.of_forall hF)
  refine ⟨HState.init.world, w', t, _, D, by decide, ht, rfl, sinAbsR_along _, ?_, by decide, .of_forall hF, hD⟩
  rw [switching_deps hrec.proper.wf]; decide

/-- Non-vacuity of `C75_every_sign`: `|x|` at 0, where one switching variable vanishes. -/
example {σ : Sched} (hσ : σ.Valid) (bits : List UInt8) :
    ∃ (w w' : World ℝ) (t : Tape ℝ) (F : (Fin 1 → ℝ) → Fin 1 → ℝ) (R : GenJac ℝ), w.nextId < usizeMax ∧
      absR.tape (List.ofFn ![0]) w = (.ok t, w') ∧ absR.n = .ok 1 ∧ absR.Along piecewiseSmooth w (duals ![0] 0) ∧
      t.switching.deps.Nodup ∧ t.deps.Nodup ∧
      (∀ᶠ z in 𝓝 ![0], (absR.evalFloat (List.ofFn z) w).1 = .ok (List.ofFn (F z))) ∧
      generalizedJacobian σ absR (List.ofFn ![0]) (List.replicate 1 0) bits none w = (.ok R, w') ∧ R.multiplicity = 1 := by
  rcases ht : absR.tape (List.ofFn ![0]) HState.init.world with ⟨r, w'⟩
  let t : Tape ℝ := ⟨[0], [1], [⟨.Abs, 1, some 0, none⟩], [0, Flt.abs 0], true⟩
  have h1 : (absR.tape (List.ofFn ![0]) HState.init.world).1 = .ok t := by kernel_rfl
  rw [ht] at h1
  replace h1 : r = .ok t := h1
  subst h1
  have hrec : Recorded t := .func absR _ HState.init.world w' (by decide) ht
  obtain ⟨R, e, -, hm⟩ := gj_piece hσ hrec.proper.wf (by decide) (by decide) (dx := [0]) rfl bits
  refine ⟨HState.init.world, w', t, fun z _ => Flt.abs (z 0), R, by decide, ht, rfl, ?_, ?_, by decide,
    .of_forall fun z => ?_, ?_, ?_⟩
  · rw [C01_straight_line absR_straight]
    unfold absR
    refine ⟨?_, fun _ _ => trivial⟩
    eachop
    · exec
    · trivial
  · rw [switching_deps hrec.proper.wf]; decide
  · kernel_rfl
  · rw [gj_func absR ht rfl]
    exact congrArg (·, w') e
  · have h2 : zHatV t [0] = [0 + 0] := by kernel_rfl
    rw [hm, h2, zerosBefore]
    show (Finset.filter _ (Finset.range 1)).card = 1
    simp

/-- C75 is false for arbitrary sign bits if several switching variables vanish: for `x ↦ |x| - |2x| = -|x|` at 0, the bits
1, 0 give the slope 3, which is not even a convex combination of limiting Jacobians of the function. -/
theorem C75_inconsistent_signs_counterexample {σ : Sched} (hσ : σ.Valid) :
    ∃ (f : Func ℝ) (w w' : World ℝ) (F : (Fin 1 → ℝ) → Fin 1 → ℝ) (R : GenJac ℝ), w.nextId < usizeMax ∧
      f.Along piecewiseSmooth w (duals ![0] 0) ∧
      (∀ᶠ z in 𝓝 ![0], (f.evalFloat (List.ofFn z) w).1 = .ok (List.ofFn (F z))) ∧
      generalizedJacobian σ f (List.ofFn ![0]) (List.replicate 1 0) [1] none w = (.ok R, w') ∧
      R.homogenous.linear 1 1 ∉ convexHull ℝ (limitingJacobians F ![0]) := by
  obtain ⟨R, e, hR⟩ := kink_result hσ
  rcases ht : kinkF.tape (List.ofFn ![(0 : ℝ)]) HState.init.world with ⟨r, w'⟩
  have h1 := kinkTape_eq (0 : ℝ)
  have h2 : List.ofFn ![(0 : ℝ)] = [0] := by simp
  rw [← h2, ht] at h1
  replace h1 : r = .ok (kinkTape 0) := h1
  subst h1
  refine ⟨kinkF, HState.init.world, w', fun d _ => |d 0| - |d 0 + d 0|, R, by decide, ?_, .of_forall fun z => ?_, ?_, ?_⟩
  · rw [C01_straight_line (by straight kinkF)]
    unfold kinkF
    refine ⟨?_, fun _ _ => trivial⟩
    eachop
    · exec
    eachop
    · exec
    eachop
    · exec
    eachop
    · exec
    · trivial
  · have : (kinkF.evalFloat (List.ofFn z) HState.init.world).1 =
        .ok [Flt.sub (Flt.abs (z 0)) (Flt.abs (Flt.add (z 0) (z 0)))] := by kernel_rfl
    simpa [LawfulFlt.abs_eq, LawfulFlt.sub_eq, LawfulFlt.add_eq] using this
  · rw [gj_func kinkF ht rfl]
    exact congrArg (·, w') e
  · have h3 : ![(0 : ℝ)] = 0 := by ext i; fin_cases i; rfl
    rw [h3]
    exact kink_not_limiting hR

/-- `(x, y) ↦ |x| - |x + y²|`. -/
noncomputable def curvedR : Func ℝ := Func.advFn 2 1 fun _ =>
  .op .Mul (.var 1) (some (.var 1)) fun i _ => .op .Add (.var 0) (some (.var i)) fun j _ =>
  .op .Abs (.var 0) none fun k _ => .op .Abs (.var j) none fun l _ =>
  .op .Sub (.var k) (some (.var l)) fun r _ => .ret [.var r]

/-- The converse of `C75_conical` is false: the model of `|x| - |x + y²|` at 0 is constant, but the function has the limiting
Jacobian `(-2, 0)`, which belongs to the thin region `-y² < x < 0`. -/
theorem C75_converse_counterexample :
    ∃ (f : Func ℝ) (w w' : World ℝ) (t : Tape ℝ) (F D : (Fin 2 → ℝ) → Fin 1 → ℝ) (L : (Fin 2 → ℝ) →L[ℝ] (Fin 1 → ℝ)),
      w.nextId < usizeMax ∧ f.tape (List.ofFn ![0, 0]) w = (.ok t, w') ∧
      f.Along piecewiseSmooth w (duals ![0, 0] 0) ∧
      (∀ᶠ z in 𝓝 ![0, 0], (f.evalFloat (List.ofFn z) w).1 = .ok (List.ofFn (F z))) ∧
      (∀ d, t.firstOrderForward (List.ofFn d) = .ok (List.ofFn (D d))) ∧
      L ∈ limitingJacobians F ![0, 0] ∧ L ∉ limitingJacobians D 0 := by
  rcases ht : curvedR.tape (List.ofFn ![0, 0]) HState.init.world with ⟨r, w'⟩
  let t : Tape ℝ := ⟨[0, 1], [6], [⟨.Mul, 2, some 1, some 1⟩, ⟨.Add, 3, some 0, some 2⟩, ⟨.Abs, 4, some 0, none⟩,
      ⟨.Abs, 5, some 3, none⟩, ⟨.Sub, 6, some 4, some 5⟩],
    [0, 0, Flt.mul 0 0, Flt.add 0 (Flt.mul 0 0), Flt.abs 0, Flt.abs (Flt.add 0 (Flt.mul 0 0)),
      Flt.sub (Flt.abs 0) (Flt.abs (Flt.add 0 (Flt.mul 0 0)))], true⟩
  have h1 : (curvedR.tape (List.ofFn ![0, 0]) HState.init.world).1 = .ok t := by kernel_rfl
  rw [ht] at h1
  replace h1 : r = .ok t := h1
  subst h1
  let F : (Fin 2 → ℝ) → Fin 1 → ℝ := fun z _ => |z 0| - |z 0 + z 1 * z 1|
  let L : (Fin 2 → ℝ) →L[ℝ] (Fin 1 → ℝ) := ContinuousLinearMap.pi fun _ => (-2 : ℝ) • ContinuousLinearMap.proj 0
  refine ⟨curvedR, HState.init.world, w', t, F, fun _ _ => 0, L, by decide, ht, ?_, .of_forall fun z => ?_, fun d => ?_,
    ?_, ?_⟩
  · rw [C01_straight_line (by straight curvedR)]
    unfold curvedR
    refine ⟨?_, fun _ _ => trivial⟩
    eachop
    · exec
    eachop
    · exec
    eachop
    · exec
    eachop
    · exec
    eachop
    · exec
    · trivial
  · have : (curvedR.evalFloat (List.ofFn z) HState.init.world).1 =
        .ok [Flt.sub (Flt.abs (z 0)) (Flt.abs (Flt.add (z 0) (Flt.mul (z 1) (z 1))))] := by kernel_rfl
    simpa [F, LawfulFlt.abs_eq, LawfulFlt.sub_eq, LawfulFlt.add_eq, LawfulFlt.mul_eq] using this
  · have : t.firstOrderForward (List.ofFn d) = .ok [Flt.sub
        (Flt.sub (Flt.abs (Flt.add 0 (d 0))) (Flt.abs 0))
        (Flt.sub (Flt.abs (Flt.add (Flt.add 0 (Flt.mul 0 0)) (Flt.add (d 0) (Flt.add (Flt.mul (d 1) 0) (Flt.mul 0 (d 1))))))
          (Flt.abs (Flt.add 0 (Flt.mul 0 0))))] := by kernel_rfl
    simpa [LawfulFlt.abs_eq, LawfulFlt.sub_eq, LawfulFlt.add_eq, LawfulFlt.mul_eq] using this
  · -- points of the thin region
    let y : ℕ → ℝ := fun k => 1 / ((k : ℝ) + 1)
    have hy : Tendsto y atTop (𝓝 0) := tendsto_one_div_add_atTop_nhds_zero_nat
    have hy0 : ∀ k, 0 < y k := fun k => by simp only [y]; positivity
    let u : ℕ → Fin 2 → ℝ := fun k => ![-(y k * y k) / 2, y k]
    have hder : ∀ k, HasFDerivAt F (ContinuousLinearMap.pi fun _ : Fin 1 =>
        (-2 : ℝ) • ContinuousLinearMap.proj (R := ℝ) (φ := fun _ : Fin 2 => ℝ) 0 -
          (2 * y k) • ContinuousLinearMap.proj (R := ℝ) (φ := fun _ : Fin 2 => ℝ) 1) (u k) := by
      intro k
      have hk := mul_pos (hy0 k) (hy0 k)
      have c0 : ContinuousAt (fun z : Fin 2 → ℝ => z 0) (u k) := continuousAt_apply 0 _
      have c1 : ContinuousAt (fun z : Fin 2 → ℝ => z 0 + z 1 * z 1) (u k) := by fun_prop
      have a0 : ∀ᶠ z in 𝓝 (u k), z 0 < 0 := c0.eventually_lt_const (by simp [u]; linarith)
      have a1 : ∀ᶠ z in 𝓝 (u k), 0 < z 0 + z 1 * z 1 := c1.eventually_const_lt (by simp [u]; linarith)
      have p0 := hasFDerivAt_apply (𝕜 := ℝ) (F' := fun _ : Fin 2 => ℝ) 0 (u k)
      have p1 := hasFDerivAt_apply (𝕜 := ℝ) (F' := fun _ : Fin 2 => ℝ) 1 (u k)
      refine hasFDerivAt_pi.mpr fun _ => ?_
      have hd := (p0.const_mul (-2)).sub (p1.mul p1)
      have e : (fun z : Fin 2 → ℝ => |z 0| - |z 0 + z 1 * z 1|) =ᶠ[𝓝 (u k)] fun z => -2 * z 0 - z 1 * z 1 := by
        filter_upwards [a0, a1] with z b0 b1
        rw [abs_of_neg b0, abs_of_pos b1]
        ring
      refine (hd.congr_of_eventuallyEq e).congr_fderiv ?_
      ext v
      simp [u]
      ring
    refine ⟨u, ?_, fun k => (hder k).differentiableAt, ?_⟩
    · rw [tendsto_pi_nhds]
      intro i
      fin_cases i
      · have := ((hy.mul hy).neg).div_const 2
        simpa [u] using this
      · simpa [u] using hy
    · simp only [fun k => (hder k).fderiv]
      have e : ∀ k, (ContinuousLinearMap.pi fun _ : Fin 1 =>
          (-2 : ℝ) • ContinuousLinearMap.proj (R := ℝ) (φ := fun _ : Fin 2 => ℝ) 0 -
            (2 * y k) • ContinuousLinearMap.proj (R := ℝ) (φ := fun _ : Fin 2 => ℝ) 1) =
          L - (2 * y k) • ContinuousLinearMap.pi fun _ : Fin 1 => ContinuousLinearMap.proj (R := ℝ) (φ := fun _ : Fin 2 => ℝ) 1 := by
        intro k
        ext v i
        simp [L]
      simp only [e]
      have := ((hy.const_mul 2).smul_const
        (ContinuousLinearMap.pi fun _ : Fin 1 => ContinuousLinearMap.proj (R := ℝ) (φ := fun _ : Fin 2 => ℝ) 1)).const_sub L
      simpa using this
  · rintro ⟨u, -, -, h⟩
    have h0 : ∀ z : Fin 2 → ℝ, fderiv ℝ (fun (_ : Fin 2 → ℝ) (_ : Fin 1) => (0 : ℝ)) z = 0 := fun z => by simp
    simp only [h0] at h
    have := tendsto_nhds_unique tendsto_const_nhds h
    have := congrFun (congrArg (fun M : (Fin 2 → ℝ) →L[ℝ] (Fin 1 → ℝ) => M 1) this) 0
    simp [L] at this

end Adv.Props
