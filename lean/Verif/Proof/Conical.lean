import Verif.Proof.Deriv
import Verif.Spec.Limiting

/-!
# A calculus for limiting Jacobians

A function and its piecewise linear model at `x0` are differentiable on open sets that are dense near `x0` and near 0.
Where the model is differentiable at `d`, its derivative is the limit of the derivatives of the function at the points
`x0 + s v` for `s → 0` and `v → d`.
-/

set_option linter.unusedSectionVars false

namespace Adv
open scoped Adv Topology
open Filter Asymptotics

section
variable {E : Type} [NormedAddCommGroup E] [NormedSpace ℝ E]

/-! ## Sets that are dense near a point -/

/-- `O` is dense near `x`. -/
def DenseNear (x : E) (O : Set E) : Prop := ∀ᶠ z in 𝓝 x, z ∈ closure O

theorem DenseNear.of_mem {x : E} {O : Set E} (h : ∀ᶠ z in 𝓝 x, z ∈ O) : DenseNear x O :=
  h.mono fun _ hz => subset_closure hz

theorem DenseNear.inter {x : E} {O P : Set E} (hO : DenseNear x O) (ho : IsOpen O) (hP : DenseNear x P) :
    DenseNear x (O ∩ P) := by
  filter_upwards [hO, hP.eventually_nhds] with z h1 h2
  rw [mem_closure_iff_frequently] at h1 ⊢
  rw [← frequently_frequently_nhds]
  refine (h1.and_eventually h2).mono fun y hy => ?_
  exact ((mem_closure_iff_frequently.mp hy.2).and_eventually (ho.mem_nhds hy.1)).mono fun w hw => ⟨hw.2, hw.1⟩

theorem DenseNear.inter_ball {x : E} {O : Set E} (hO : DenseNear x O) (ho : IsOpen O) {r : ℝ} (hr : 0 < r) :
    DenseNear x (O ∩ Metric.ball x r) :=
  hO.inter ho (.of_mem (Metric.ball_mem_nhds x hr))

theorem DenseNear.iInter {ι : Type} [Finite ι] {x : E} {O : ι → Set E} (h : ∀ i, DenseNear x (O i))
    (ho : ∀ i, IsOpen (O i)) : DenseNear x (⋂ i, O i) := by
  classical
  cases nonempty_fintype ι
  have : ∀ s : Finset ι, DenseNear x (⋂ i ∈ s, O i) := by
    intro s
    induction s using Finset.induction_on with
    | empty => exact .of_mem (by simp)
    | insert a s _ ih =>
      rw [Finset.set_biInter_insert]
      exact (h a).inter (ho a) ih
  simpa using this Finset.univ

/-- Points where a function vanishes on a neighbourhood, or on none. -/
def settled (g : E → ℝ) : Set E := interior {z | g z ≠ 0} ∪ interior {z | g z = 0}

theorem settled_open (g : E → ℝ) : IsOpen (settled g) := isOpen_interior.union isOpen_interior

theorem settled_dense {x : E} {g : E → ℝ} (h : ∀ᶠ z in 𝓝 x, ContinuousAt g z) : DenseNear x (settled g) := by
  have key : ∀ z, ContinuousAt g z → g z ≠ 0 → z ∈ settled g := fun z hz h0 =>
    Or.inl (mem_interior_iff_mem_nhds.mpr (hz.eventually_ne h0))
  filter_upwards [h.eventually_nhds] with z hz
  by_cases h0 : ∀ᶠ y in 𝓝 z, g y = 0
  · exact subset_closure (Or.inr (mem_interior_iff_mem_nhds.mpr h0))
  · rw [mem_closure_iff_frequently]
    exact ((not_eventually.mp h0).and_eventually hz).mono fun y hy => key y hy.2 hy.1

/-! ## Derivatives of absolute values -/

theorem fderiv_abs_of_sign {g : E → ℝ} {z : E} (hg : ContinuousAt g z) {s : ℝ} (hs : s = 1 ∨ s = -1) (h : 0 < s * g z) :
    (fun y => |g y|) =ᶠ[𝓝 z] fun y => s * g y := by
  have : ∀ᶠ y in 𝓝 z, 0 < s * g y := (hg.const_mul s).eventually_const_lt h
  filter_upwards [this] with y hy
  rcases hs with rfl | rfl
  · rw [one_mul] at hy ⊢; exact abs_of_pos hy
  · rw [neg_one_mul] at hy ⊢; exact abs_of_neg (by linarith)

theorem abs_settled {g : E → ℝ} {z : E} (hg : DifferentiableAt ℝ g z) (h : z ∈ settled g) :
    DifferentiableAt ℝ (fun y => |g y|) z ∧ ‖fderiv ℝ (fun y => |g y|) z‖ = ‖fderiv ℝ g z‖ := by
  rcases h with h | h
  · have h0 : g z ≠ 0 := interior_subset h
    have hc := hg.continuousAt
    rcases lt_or_gt_of_ne h0 with hn | hp
    · have e := fderiv_abs_of_sign hc (s := -1) (.inr rfl) (by linarith)
      refine ⟨(hg.const_mul (-1)).congr_of_eventuallyEq e, ?_⟩
      rw [e.fderiv_eq, fderiv_const_mul hg]
      simp
    · have e := fderiv_abs_of_sign hc (s := 1) (.inl rfl) (by linarith)
      refine ⟨(hg.const_mul 1).congr_of_eventuallyEq e, ?_⟩
      rw [e.fderiv_eq, fderiv_const_mul hg]
      simp
  · have e : (fun y => |g y|) =ᶠ[𝓝 z] g := by
      filter_upwards [mem_interior_iff_mem_nhds.mp h] with y hy
      have : g y = 0 := hy
      rw [this, abs_zero]
    exact ⟨hg.congr_of_eventuallyEq e, by rw [e.fderiv_eq]⟩

/-! ## Rays -/

/-- Points `x + s v` with `s → 0`, `s > 0` and `v → d`. -/
def rays (x d : E) : Filter E := map (fun p : ℝ × E => x + p.1 • p.2) (𝓝[>] 0 ×ˢ 𝓝 d)

theorem rays_smul (d : E) : Tendsto (fun p : ℝ × E => p.1 • p.2) (𝓝[>] 0 ×ˢ 𝓝 d) (𝓝 0) := by
  have h1 : Tendsto (fun p : ℝ × E => p.1) (𝓝[>] 0 ×ˢ 𝓝 d) (𝓝 0) := tendsto_fst.mono_right nhdsWithin_le_nhds
  have := h1.smul (tendsto_snd (f := 𝓝[>] (0 : ℝ)) (g := 𝓝 d))
  simpa using this

theorem rays_le (x d : E) : rays x d ≤ 𝓝 x := by
  have := (rays_smul d).const_add x
  rwa [add_zero] at this

instance (x d : E) : (rays x d).IsCountablyGenerated := by unfold rays; infer_instance

theorem rays_neBot {x d : E} {O : Set E} (hO : DenseNear x O) : (rays x d ⊓ 𝓟 O).NeBot := by
  rw [inf_principal_neBot_iff]
  intro S hS
  rw [rays, mem_map] at hS
  have hcl : ∀ᶠ p in 𝓝[>] (0 : ℝ) ×ˢ 𝓝 d, x + p.1 • p.2 ∈ closure O := rays_le x d hO
  obtain ⟨a, ha, b, hb, hab⟩ := eventually_prod_iff.mp ((eventually_mem_set.mpr hS).and hcl)
  obtain ⟨s, hs, hs0⟩ := (ha.and self_mem_nhdsWithin).exists
  have hs0 : (0 : ℝ) < s := hs0
  have h2 := (hab hs hb.self_of_nhds).2
  -- a neighbourhood of `x + s d`
  have hn : ∀ᶠ z in 𝓝 (x + s • d), z ∈ S := by
    have h3 : Tendsto (fun z => s⁻¹ • (z - x)) (𝓝 (x + s • d)) (𝓝 d) := by
      have : ContinuousAt (fun z : E => s⁻¹ • (z - x)) (x + s • d) := by fun_prop
      unfold ContinuousAt at this
      simpa [smul_smul, inv_mul_cancel₀ hs0.ne'] using this
    filter_upwards [h3.eventually hb] with z hz
    have h4 := (hab hs hz).1
    rw [Set.mem_preimage] at h4
    simpa [smul_smul, mul_inv_cancel₀ hs0.ne'] using h4
  obtain ⟨z, hz1, hz2⟩ := ((mem_closure_iff_frequently.mp h2).and_eventually hn).exists
  exact ⟨z, hz2, hz1⟩

/-! ## The calculus -/

/-- Sets on which a function and its model are differentiable. -/
structure ConicOn (x0 : E) (g δ : E → ℝ) (O A : Set E) : Prop where
  openO : IsOpen O
  openA : IsOpen A
  denseO : DenseNear x0 O
  denseA : DenseNear 0 A
  diff : ∀ z ∈ O, DifferentiableAt ℝ g z
  ddiff : ∀ d ∈ A, DifferentiableAt ℝ δ d
  homog : ∀ d ∈ A, ∀ s, 0 < s → s ≤ 1 → δ (s • d) = s * δ d
  lim : ∀ d ∈ A, Tendsto (fderiv ℝ g) (rays x0 d ⊓ 𝓟 O) (𝓝 (fderiv ℝ δ d))

/-- `δ` is a model of `g` whose derivatives are limits of derivatives of `g`. -/
structure Conic (x0 : E) (g δ : E → ℝ) : Prop where
  approx : Approx x0 g δ
  cont : ∀ᶠ z in 𝓝 x0, ContinuousAt g z
  dcont : Continuous δ
  sets : ∃ O A, ConicOn x0 g δ O A

theorem Approx.zero {x0 : E} {g δ : E → ℝ} (h : Approx x0 g δ) : δ 0 = 0 := by
  obtain ⟨C, hC⟩ := h.bound.bound
  have := hC.self_of_nhds
  simpa using this

theorem Conic.linear (x0 : E) (c : ℝ) (L : E →L[ℝ] ℝ) : Conic x0 (fun z => c + L z) L where
  approx := by
    refine ⟨?_, L.isBigO_id _⟩
    have : (fun d : E => c + L (x0 + d) - (c + L x0) - L d) = fun _ => 0 := by funext d; simp
    rw [this]
    exact isBigO_zero _ _
  cont := Eventually.of_forall fun z => by fun_prop
  dcont := L.continuous
  sets := by
    refine ⟨Set.univ, Set.univ, isOpen_univ, isOpen_univ, .of_mem (by simp), .of_mem (by simp), fun _ _ => by fun_prop,
      fun _ _ => by fun_prop, fun d _ s _ _ => by simp, fun d _ => ?_⟩
    have h1 : fderiv ℝ (fun z => c + L z) = fun _ => L := by
      funext z
      rw [fderiv_const_add]
      exact L.fderiv
    rw [h1, L.fderiv]
    exact tendsto_const_nhds

/-- Only the values of the model near 0 matter. -/
theorem Conic.congr {x0 : E} {g δ δ' : E → ℝ} (h : Conic x0 g δ) (he : δ =ᶠ[𝓝 0] δ') (hc : Continuous δ') :
    Conic x0 g δ' where
  approx := by
    refine ⟨h.approx.diff.congr' ?_ EventuallyEq.rfl, h.approx.bound.congr' he EventuallyEq.rfl⟩
    filter_upwards [he] with d hd
    rw [hd]
  cont := h.cont
  dcont := hc
  sets := by
    obtain ⟨O, A, k⟩ := h.sets
    obtain ⟨r, hr, hb⟩ := Metric.eventually_nhds_iff_ball.mp he
    have hn : ∀ d ∈ A ∩ Metric.ball 0 r, δ' =ᶠ[𝓝 d] δ := fun d hd => by
      filter_upwards [Metric.isOpen_ball.mem_nhds hd.2] with v hv using (hb v hv).symm
    refine ⟨O, A ∩ Metric.ball 0 r, k.openO, k.openA.inter Metric.isOpen_ball, k.denseO, k.denseA.inter_ball k.openA hr,
      k.diff, fun d hd => (k.ddiff d hd.1).congr_of_eventuallyEq (hn d hd), fun d hd s h0 h1 => ?_, fun d hd => ?_⟩
    · have hd2 : ‖d‖ < r := by simpa using hd.2
      have : ‖s • d‖ < r := by
        rw [norm_smul, Real.norm_of_nonneg h0.le]
        nlinarith [norm_nonneg d]
      rw [← hb _ hd.2, ← hb (s • d) (by simpa using this)]
      exact k.homog d hd.1 s h0 h1
    · rw [(hn d hd).fderiv_eq]
      exact k.lim d hd.1

theorem clm_pair (M : ℝ × ℝ →L[ℝ] ℝ) (P Q : E →L[ℝ] ℝ) : M.comp (P.prod Q) = M (1, 0) • P + M (0, 1) • Q := by
  ext v
  have : (P v, Q v) = P v • ((1 : ℝ), (0 : ℝ)) + Q v • ((0 : ℝ), (1 : ℝ)) := by simp
  simp only [ContinuousLinearMap.comp_apply, ContinuousLinearMap.prod_apply, _root_.add_apply,
    _root_.smul_apply, smul_eq_mul]
  rw [this, map_add, map_smul, map_smul, smul_eq_mul, smul_eq_mul]
  ring

theorem Conic.comp {x0 : E} {g δ h ε : E → ℝ} (hg : Conic x0 g δ) (hh : Conic x0 h ε) {φ : ℝ × ℝ → ℝ}
    {L : ℝ × ℝ →L[ℝ] ℝ} (hc : ContDiffAt ℝ 2 φ (g x0, h x0)) (hφ : HasFDerivAt φ L (g x0, h x0)) :
    Conic x0 (fun z => φ (g z, h z)) fun d => L (δ d, ε d) := by
  have hx : Tendsto (fun z => (g z, h z)) (𝓝 x0) (𝓝 (g x0, h x0)) :=
    (hg.approx.continuousAt.prodMk hh.approx.continuousAt)
  have hd : ∀ᶠ z in 𝓝 x0, DifferentiableAt ℝ φ (g z, h z) :=
    hx.eventually ((hc.eventually (by simp)).mono fun p hp => hp.differentiableAt (by norm_num))
  have hfc : ContinuousAt (fderiv ℝ φ) (g x0, h x0) :=
    (hc.fderiv_right (m := 1) (by norm_num)).continuousAt
  have hf : Tendsto (fun z => fderiv ℝ φ (g z, h z)) (𝓝 x0) (𝓝 L) := by
    have := hfc.tendsto.comp hx
    rwa [hφ.fderiv] at this
  refine ⟨hg.approx.comp hh.approx hc hφ, ?_, L.continuous.comp (hg.dcont.prodMk hh.dcont), ?_⟩
  · filter_upwards [hd, hg.cont, hh.cont] with z h1 h2 h3
    exact ContinuousAt.comp (g := φ) (f := fun z => (g z, h z)) h1.continuousAt (h2.prodMk h3)
  obtain ⟨O1, A1, k1⟩ := hg.sets
  obtain ⟨O2, A2, k2⟩ := hh.sets
  let N := interior {z | DifferentiableAt ℝ φ (g z, h z)}
  have hN : ∀ᶠ z in 𝓝 x0, z ∈ N := interior_mem_nhds.mpr hd
  have hder : ∀ z ∈ (O1 ∩ O2) ∩ N, HasFDerivAt (fun z => φ (g z, h z))
      (fderiv ℝ φ (g z, h z) (1, 0) • fderiv ℝ g z + fderiv ℝ φ (g z, h z) (0, 1) • fderiv ℝ h z) z := by
    intro z hz
    have h1 : z ∈ {z | DifferentiableAt ℝ φ (g z, h z)} := interior_subset hz.2
    replace h1 : DifferentiableAt ℝ φ (g z, h z) := h1
    rw [← clm_pair]
    exact HasFDerivAt.comp (g := φ) (f := fun z => (g z, h z)) z h1.hasFDerivAt
      ((k1.diff z hz.1.1).hasFDerivAt.prodMk (k2.diff z hz.1.2).hasFDerivAt)
  have hder' : ∀ d ∈ A1 ∩ A2, HasFDerivAt (fun d => L (δ d, ε d))
      (L (1, 0) • fderiv ℝ δ d + L (0, 1) • fderiv ℝ ε d) d := by
    intro d hd
    rw [← clm_pair]
    exact L.hasFDerivAt.comp d ((k1.ddiff d hd.1).hasFDerivAt.prodMk (k2.ddiff d hd.2).hasFDerivAt)
  refine ⟨(O1 ∩ O2) ∩ N, A1 ∩ A2, (k1.openO.inter k2.openO).inter isOpen_interior, k1.openA.inter k2.openA,
    (k1.denseO.inter k1.openO k2.denseO).inter (k1.openO.inter k2.openO) (.of_mem hN),
    k1.denseA.inter k1.openA k2.denseA, fun z hz => (hder z hz).differentiableAt,
    fun d hd => (hder' d hd).differentiableAt, fun d hd s h0 h1 => ?_, fun d hd => ?_⟩
  · rw [k1.homog d hd.1 s h0 h1, k2.homog d hd.2 s h0 h1]
    have : (s * δ d, s * ε d) = s • (δ d, ε d) := rfl
    rw [this, map_smul, smul_eq_mul]
  · rw [(hder' d hd).fderiv]
    have hle : rays x0 d ⊓ 𝓟 ((O1 ∩ O2) ∩ N) ≤ 𝓝 x0 := inf_le_left.trans (rays_le x0 d)
    have l1 := (k1.lim d hd.1).mono_left
      (inf_le_inf_left (rays x0 d) (principal_mono.mpr (fun z (hz : z ∈ (O1 ∩ O2) ∩ N) => hz.1.1)))
    have l2 := (k2.lim d hd.2).mono_left
      (inf_le_inf_left (rays x0 d) (principal_mono.mpr (fun z (hz : z ∈ (O1 ∩ O2) ∩ N) => hz.1.2)))
    have l3 := hf.mono_left hle
    have e1 : Tendsto (fun z => fderiv ℝ φ (g z, h z) (1, 0)) (rays x0 d ⊓ 𝓟 ((O1 ∩ O2) ∩ N)) (𝓝 (L (1, 0))) :=
      ((ContinuousLinearMap.apply ℝ ℝ ((1 : ℝ), (0 : ℝ))).continuous.tendsto L).comp l3
    have e2 : Tendsto (fun z => fderiv ℝ φ (g z, h z) (0, 1)) (rays x0 d ⊓ 𝓟 ((O1 ∩ O2) ∩ N)) (𝓝 (L (0, 1))) :=
      ((ContinuousLinearMap.apply ℝ ℝ ((0 : ℝ), (1 : ℝ))).continuous.tendsto L).comp l3
    refine ((e1.smul l1).add (e2.smul l2)).congr' ?_
    filter_upwards [mem_inf_of_right (mem_principal_self _)] with z hz
    exact (hder z hz).fderiv.symm

/-- Near a point on a ray on which the model does not vanish, the function has the sign of the model. -/
theorem Conic.sign {x0 : E} {g δ : E → ℝ} (hg : Conic x0 g δ) {O A : Set E} (k : ConicOn x0 g δ O A) (h0 : g x0 = 0)
    {d : E} (hd : d ∈ A) {s : ℝ} (hs : s = 1 ∨ s = -1) (h : 0 < s * δ d) : ∀ᶠ z in rays x0 d, 0 < s * g z := by
  obtain ⟨C, hC⟩ := hg.approx.diff.bound
  show ∀ᶠ p in 𝓝[>] (0 : ℝ) ×ˢ 𝓝 d, 0 < s * g (x0 + p.1 • p.2)
  have hp1 : Tendsto (fun p : ℝ × E => p.1) (𝓝[>] 0 ×ˢ 𝓝 d) (𝓝 0) := tendsto_fst.mono_right nhdsWithin_le_nhds
  have hp2 : Tendsto (fun p : ℝ × E => p.2) (𝓝[>] 0 ×ˢ 𝓝 d) (𝓝 d) := tendsto_snd
  have e1 : Tendsto (fun p : ℝ × E => s * δ p.2) (𝓝[>] 0 ×ˢ 𝓝 d) (𝓝 (s * δ d)) :=
    (((hg.dcont.tendsto d).comp hp2).const_mul s)
  have e2 : Tendsto (fun p : ℝ × E => C * (p.1 * ‖p.2‖ ^ 2)) (𝓝[>] 0 ×ˢ 𝓝 d) (𝓝 0) := by
    have := (hp1.mul (hp2.norm.pow 2)).const_mul C
    simpa using this
  have e3 : ∀ᶠ p in 𝓝[>] (0 : ℝ) ×ˢ 𝓝 d, 0 < p.1 :=
    tendsto_fst.eventually (self_mem_nhdsWithin : ∀ᶠ s in 𝓝[>] (0 : ℝ), 0 < s)
  have e4 : ∀ᶠ p in 𝓝[>] (0 : ℝ) ×ˢ 𝓝 d, p.1 < 1 := hp1.eventually_lt_const one_pos
  have e5 : ∀ᶠ p in 𝓝[>] (0 : ℝ) ×ˢ 𝓝 d, p.2 ∈ A := hp2.eventually (k.openA.mem_nhds hd)
  filter_upwards [e2.eventually_lt e1 h, e3, e4, e5, (rays_smul d).eventually hC] with p q1 q2 q3 q4 q5
  rw [h0, k.homog _ q4 _ q2 q3.le, sub_zero, norm_smul, Real.norm_of_nonneg q2.le, Real.norm_eq_abs,
    Real.norm_of_nonneg (by positivity)] at q5
  have q6 : |s * (g (x0 + p.1 • p.2) - p.1 * δ p.2)| ≤ C * (p.1 * ‖p.2‖) ^ 2 := by
    rw [abs_mul]
    rcases hs with rfl | rfl <;> simpa using q5
  have q7 := (abs_le.mp q6).1
  have q8 : C * (p.1 * ‖p.2‖) ^ 2 = p.1 * (C * (p.1 * ‖p.2‖ ^ 2)) := by ring
  have q9 : p.1 * (C * (p.1 * ‖p.2‖ ^ 2)) < p.1 * (s * δ p.2) := mul_lt_mul_of_pos_left q1 q2
  nlinarith

theorem Conic.abs {x0 : E} {g δ : E → ℝ} (hg : Conic x0 g δ) :
    Conic x0 (fun z => |g z|) fun d => |g x0 + δ d| - |g x0| := by
  have hcont : Continuous fun d => |g x0 + δ d| - |g x0| := ((hg.dcont.const_add _).abs).sub continuous_const
  by_cases h0 : g x0 = 0
  · -- a kink
    refine ⟨hg.approx.abs, hg.cont.mono fun z hz => hz.abs, hcont, ?_⟩
    simp only [h0, zero_add, abs_zero, sub_zero]
    obtain ⟨O, A, k⟩ := hg.sets
    refine ⟨O ∩ settled g, A ∩ settled δ, k.openO.inter (settled_open g), k.openA.inter (settled_open δ),
      k.denseO.inter k.openO (settled_dense hg.cont),
      k.denseA.inter k.openA (settled_dense (.of_forall fun d => hg.dcont.continuousAt)),
      fun z hz => (abs_settled (k.diff z hz.1) hz.2).1, fun d hd => (abs_settled (k.ddiff d hd.1) hd.2).1,
      fun d hd s h1 h2 => by rw [k.homog d hd.1 s h1 h2, abs_mul, abs_of_pos h1], fun d hd => ?_⟩
    have l1 := (k.lim d hd.1).mono_left
      (inf_le_inf_left (rays x0 d) (principal_mono.mpr (fun z (hz : z ∈ O ∩ settled g) => hz.1)))
    have hmem : ∀ᶠ z in rays x0 d ⊓ 𝓟 (O ∩ settled g), z ∈ O ∩ settled g := mem_inf_of_right (mem_principal_self _)
    by_cases hd0 : δ d = 0
    · -- the model vanishes near `d`
      have hz : fderiv ℝ δ d = 0 := by
        have : δ =ᶠ[𝓝 d] fun _ => 0 := by
          rcases hd.2 with h | h
          · exact absurd hd0 (interior_subset h)
          · exact mem_interior_iff_mem_nhds.mp h
        rw [this.fderiv_eq]
        simp
      have hz' : fderiv ℝ (fun d => |δ d|) d = 0 := by
        rw [← norm_eq_zero, (abs_settled (k.ddiff d hd.1) hd.2).2, hz, norm_zero]
      rw [hz'] at *
      rw [hz] at l1
      refine squeeze_zero_norm' ?_ (tendsto_zero_iff_norm_tendsto_zero.mp l1)
      filter_upwards [hmem] with z hz
      exact (abs_settled (k.diff z hz.1) hz.2).2.le
    · obtain ⟨s, hs, hsd⟩ : ∃ s : ℝ, (s = 1 ∨ s = -1) ∧ 0 < s * δ d := by
        rcases lt_or_gt_of_ne hd0 with hn | hp
        · exact ⟨-1, .inr rfl, by linarith⟩
        · exact ⟨1, .inl rfl, by linarith⟩
      have e := fderiv_abs_of_sign hg.dcont.continuousAt hs hsd
      rw [e.fderiv_eq, fderiv_const_mul (k.ddiff d hd.1)]
      refine (l1.const_smul s).congr' ?_
      filter_upwards [hmem, (hg.sign k h0 hd.1 hs hsd).filter_mono inf_le_left] with z hz hsz
      have e := fderiv_abs_of_sign (k.diff z hz.1).continuousAt hs hsz
      rw [e.fderiv_eq, fderiv_const_mul (k.diff z hz.1)]
  · -- no kink
    obtain ⟨s, hs, hsd⟩ : ∃ s : ℝ, (s = 1 ∨ s = -1) ∧ 0 < s * g x0 := by
      rcases lt_or_gt_of_ne h0 with hn | hp
      · exact ⟨-1, .inr rfl, by linarith⟩
      · exact ⟨1, .inl rfl, by linarith⟩
    have hφ : (fun p : ℝ × ℝ => |p.1|) =ᶠ[𝓝 (g x0, g x0)] fun p => s * p.1 :=
      fderiv_abs_of_sign (E := ℝ × ℝ) (g := fun p => p.1) continuousAt_fst hs hsd
    have hL : HasFDerivAt (fun p : ℝ × ℝ => s * p.1) (s • ContinuousLinearMap.fst ℝ ℝ ℝ) (g x0, g x0) :=
      hasFDerivAt_fst.const_mul s
    have hC : ContDiffAt ℝ 2 (fun p : ℝ × ℝ => s * p.1) (g x0, g x0) := contDiffAt_const.mul contDiffAt_fst
    refine (hg.comp hg (hC.congr_of_eventuallyEq hφ) (hL.congr_of_eventuallyEq hφ)).congr ?_ hcont
    have : ContinuousAt (fun d => g x0 + δ d) 0 := (hg.dcont.const_add _).continuousAt
    have h1 := fderiv_abs_of_sign this hs (by rw [hg.approx.zero, add_zero]; exact hsd)
    filter_upwards [h1] with d hd
    show s * δ d = |g x0 + δ d| - |g x0|
    have h2 : |g x0| = s * g x0 := by
      rcases hs with rfl | rfl
      · rw [one_mul] at hsd ⊢; exact abs_of_pos hsd
      · rw [neg_one_mul] at hsd ⊢; exact abs_of_neg (by linarith)
    rw [hd, h2]
    ring

/-- The calculus. -/
def conic (x0 : E) : Calculus E (E → ℝ) E x0 piecewiseSmooth where
  Rel g δ := Conic x0 g δ
  ev δ d := δ d
  z0 := fun _ => 0
  cont g δ h := h.approx.continuousAt
  lit c := by
    have := Conic.linear x0 c 0
    simp only [_root_.zero_apply, add_zero] at this
    exact this
  ev_z0 _ := rfl
  un o g a ho hg hP := by
    by_cases habs : o = .Abs
    · subst habs
      exact ⟨_, hg.abs, fun _ => rfl⟩
    · obtain ⟨k, h1, hc2, h2⟩ := smooth_un ho habs (hP 0)
      have hφ : HasFDerivAt (fun p : ℝ × ℝ => zfun o p.1 p.1) (k • ContinuousLinearMap.fst ℝ ℝ ℝ) (g x0, g x0) :=
        HasDerivAt.comp_hasFDerivAt (h₂ := fun s : ℝ => zfun o s s) (f := fun p : ℝ × ℝ => p.1) (g x0, g x0) h1
          hasFDerivAt_fst
      have hcφ : ContDiffAt ℝ 2 (fun p : ℝ × ℝ => zfun o p.1 p.1) (g x0, g x0) :=
        ContDiffAt.comp (g := fun s : ℝ => zfun o s s) (f := fun p : ℝ × ℝ => p.1) (g x0, g x0) hc2 contDiffAt_fst
      exact ⟨_, hg.comp hg hcφ hφ, fun d => (h2 _).symm⟩
  bin o arg g a h b ho hg hh hlit hP := by
    have hb : ∀ c, arg = .lit c → h x0 = c := fun c hc => by rw [(hlit c hc).1]
    obtain ⟨φ, L, h1, hc2, h2, h3⟩ := smooth_bin ho (hP 0) hb
    have he : (fun z => zfun o (g z) (h z)) = fun z => φ (g z, h z) := by
      funext z
      exact h2 _ _ fun c hc => by rw [(hlit c hc).1]
    refine ⟨_, by rw [he]; exact hg.comp hh hc2 h1, fun d => ?_⟩
    exact (h3 (a d) (b d) fun c hc => by rw [(hlit c hc).2]).symm

end

/-! ## Whole functions -/

theorem conic_func {f : Func ℝ} {n : Nat} {x : Fin n → ℝ} {w : World ℝ} {y0 : List ℝ}
    (he : (f.evalFloat (List.ofFn x) w).1 = .ok y0) (hs : f.Along piecewiseSmooth w (duals x 0)) :
    ∃ (F D : (Fin n → ℝ) → Fin y0.length → ℝ),
      (∀ᶠ z in 𝓝 x, (f.evalFloat (List.ofFn z) w).1 = .ok (List.ofFn (F z))) ∧ List.ofFn (F x) = y0 ∧
      (∀ d, ∃ ys, f.eval (duals x d) w = (.ok ys, w) ∧ ys.map AFloat.v = y0 ∧ ys.map AFloat.dv = List.ofFn (D d)) ∧
      ∀ i, Conic x (fun z => F z i) fun d => D d i :=
  (conic x).func (fun _ _ => rfl) (fun i => by
    have := Conic.linear x 0 (ContinuousLinearMap.proj (R := ℝ) (φ := fun _ : Fin n => ℝ) i)
    simp only [zero_add] at this
    exact this) he hs

/-- The derivative of a function with several components. -/
theorem fderiv_components {E : Type} [NormedAddCommGroup E] [NormedSpace ℝ E] {m : ℕ} {F : E → Fin m → ℝ} {z : E}
    (h : ∀ i, DifferentiableAt ℝ (fun z => F z i) z) :
    fderiv ℝ F z = ∑ i, (ContinuousLinearMap.single ℝ (fun _ : Fin m => ℝ) i).comp (fderiv ℝ (fun z => F z i) z) := by
  rw [fderiv_pi h]
  ext v i
  simp [Finset.sum_apply, Pi.single_apply]

/-- Where the model is differentiable near the origin, its derivative is a limit of derivatives of the function. -/
theorem conic_limiting {E : Type} [NormedAddCommGroup E] [NormedSpace ℝ E] {m : ℕ} {x : E} {F D : E → Fin m → ℝ}
    (h : ∀ i, Conic x (fun z => F z i) fun d => D d i) :
    ∃ A : Set E, IsOpen A ∧ DenseNear 0 A ∧ ∀ d ∈ A, DifferentiableAt ℝ D d ∧ fderiv ℝ D d ∈ limitingJacobians F x := by
  choose O A k using fun i => (h i).sets
  refine ⟨⋂ i, A i, isOpen_iInter_of_finite fun i => (k i).openA, .iInter (fun i => (k i).denseA) fun i => (k i).openA,
    fun d hd => ?_⟩
  rw [Set.mem_iInter] at hd
  have hdD : ∀ i, DifferentiableAt ℝ (fun d => D d i) d := fun i => (k i).ddiff d (hd i)
  refine ⟨differentiableAt_pi.mpr hdD, ?_⟩
  have hdense : DenseNear x (⋂ i, O i) := .iInter (fun i => (k i).denseO) fun i => (k i).openO
  have := rays_neBot (d := d) hdense
  obtain ⟨u, hu⟩ := exists_seq_tendsto (rays x d ⊓ 𝓟 (⋂ i, O i))
  have hmem : ∀ᶠ j in atTop, u j ∈ ⋂ i, O i := (tendsto_principal.mp (hu.mono_right inf_le_right))
  obtain ⟨N, hN⟩ := eventually_atTop.mp hmem
  have hdiff : ∀ j, ∀ i, DifferentiableAt ℝ (fun z => F z i) (u (j + N)) := fun j i =>
    (k i).diff _ (Set.mem_iInter.mp (hN (j + N) (by omega)) i)
  have hu' : Tendsto (fun j => u (j + N)) atTop (rays x d ⊓ 𝓟 (⋂ i, O i)) := hu.comp (tendsto_add_atTop_nat N)
  refine ⟨fun j => u (j + N), hu'.mono_right (inf_le_left.trans (rays_le x d)),
    fun j => differentiableAt_pi.mpr (hdiff j), ?_⟩
  rw [fderiv_components hdD]
  simp only [fun j => fderiv_components (hdiff j)]
  refine tendsto_finsetSum _ fun i _ => ?_
  have hle : rays x d ⊓ 𝓟 (⋂ i, O i) ≤ rays x d ⊓ 𝓟 (O i) :=
    inf_le_inf_left _ (principal_mono.mpr (Set.iInter_subset _ i))
  have h1 := ((k i).lim d (hd i)).comp (hu'.mono_right hle)
  exact ((ContinuousLinearMap.compL ℝ E ℝ (Fin m → ℝ)
    (ContinuousLinearMap.single ℝ (fun _ : Fin m => ℝ) i)).continuous.tendsto _).comp h1

end Adv
