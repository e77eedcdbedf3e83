import Verif.Proof.Deriv
import Verif.Proof.ShadowNear
import Verif.Spec.Limiting
import Mathlib.GroupTheory.CosetCover

/-!
# Smooth pieces of a function with kinks

Near a point, a function with kinks is a selection of finitely many smooth functions. Where it is differentiable, its derivative is
that of one of them.
-/

namespace Adv
open Filter Topology

section selection
variable {E W : Type} [NormedAddCommGroup E] [NormedSpace ℝ E] [NormedAddCommGroup W] [NormedSpace ℝ W]

/-- Two functions that agree at points arbitrarily close to `y` in direction `d`. -/
theorem deriv_eq_of_frequently {F G : E → W} {y d : E} (hF : DifferentiableAt ℝ F y) (hG : DifferentiableAt ℝ G y)
    (h : ∃ᶠ s in 𝓝[>] (0 : ℝ), F (y + s • d) = G (y + s • d)) : fderiv ℝ F y d = fderiv ℝ G y d := by
  have hH : HasFDerivAt (fun z => F z - G z) (fderiv ℝ F y - fderiv ℝ G y) y := hF.hasFDerivAt.sub hG.hasFDerivAt
  have hline : HasDerivAt (fun s : ℝ => y + s • d) d 0 := by
    simpa using ((hasDerivAt_id (0 : ℝ)).smul_const d).const_add y
  have hd : HasDerivAt (fun s : ℝ => F (y + s • d) - G (y + s • d)) ((fderiv ℝ F y - fderiv ℝ G y) d) 0 := by
    have h0 : HasFDerivAt (fun z => F z - G z) (fderiv ℝ F y - fderiv ℝ G y) (y + (0 : ℝ) • d) := by simpa using hH
    exact h0.comp_hasDerivAt (0 : ℝ) hline
  have hc : Tendsto (fun s : ℝ => F (y + s • d) - G (y + s • d)) (𝓝[>] 0) (𝓝 (F y - G y)) := by
    have := hd.continuousAt.tendsto
    simp only [zero_smul, add_zero] at this
    exact this.mono_left nhdsWithin_le_nhds
  have h0 : F y - G y = 0 := by
    have := isClosed_singleton.mem_of_frequently_of_tendsto (b := 𝓝[>] (0 : ℝ)) (s := {(0 : W)})
      (h.mono fun s hs => by rw [Set.mem_singleton_iff, hs, sub_self]) hc
    exact this
  have hs : Tendsto (slope (fun s : ℝ => F (y + s • d) - G (y + s • d)) 0) (𝓝[>] 0) (𝓝 ((fderiv ℝ F y - fderiv ℝ G y) d)) :=
    (hasDerivAt_iff_tendsto_slope.mp hd).mono_left (nhdsWithin_mono _ fun s hs => ne_of_gt hs)
  have := isClosed_singleton.mem_of_frequently_of_tendsto (b := 𝓝[>] (0 : ℝ)) (s := {(0 : W)})
    (h.mono fun s hs => by
      rw [Set.mem_singleton_iff, slope_def_module]
      simp only [zero_smul, add_zero, hs, sub_self, h0, smul_zero]) hs
  rw [Set.mem_singleton_iff, _root_.sub_apply] at this
  exact sub_eq_zero.mp this

/-- Where a selection of differentiable functions is differentiable, its derivative is that of one of them. -/
theorem selection_fderiv {ι : Type} [Finite ι] {F : E → W} {P : ι → E → W} {y : E} (hF : DifferentiableAt ℝ F y)
    (hP : ∀ i, DifferentiableAt ℝ (P i) y) (hs : ∀ᶠ z in 𝓝 y, ∃ i, F z = P i z) : ∃ i, fderiv ℝ F y = fderiv ℝ (P i) y := by
  have hcover : ⋃ i, ((LinearMap.ker ((fderiv ℝ F y - fderiv ℝ (P i) y : E →L[ℝ] W) : E →ₗ[ℝ] W) : Submodule ℝ E) : Set E) =
      Set.univ := by
    rw [Set.eq_univ_iff_forall]
    intro d
    rw [Set.mem_iUnion]
    have hev : ∀ᶠ s in 𝓝[>] (0 : ℝ), ∃ i, F (y + s • d) = P i (y + s • d) := by
      have ht : Tendsto (fun s : ℝ => y + s • d) (𝓝[>] 0) (𝓝 y) := by
        have : Continuous fun s : ℝ => y + s • d := by fun_prop
        have := this.tendsto 0
        simp only [zero_smul, add_zero] at this
        exact this.mono_left nhdsWithin_le_nhds
      exact ht.eventually hs
    obtain ⟨i, hi⟩ : ∃ i, ∃ᶠ s in 𝓝[>] (0 : ℝ), F (y + s • d) = P i (y + s • d) := by
      by_contra hno
      push Not at hno
      have : ∀ᶠ s in 𝓝[>] (0 : ℝ), ∀ i, F (y + s • d) ≠ P i (y + s • d) := by
        exact eventually_all.mpr hno
      obtain ⟨s, ⟨j, hj⟩, hn⟩ := (hev.and this).exists
      exact hn j hj
    refine ⟨i, ?_⟩
    show (fderiv ℝ F y - fderiv ℝ (P i) y) d = 0
    rw [_root_.sub_apply, deriv_eq_of_frequently hF (hP i) hi, sub_self]
  obtain ⟨i, hi⟩ := Subspace.exists_eq_top_of_iUnion_eq_univ (k := ℝ) hcover
  refine ⟨i, ?_⟩
  ext d
  have : d ∈ (LinearMap.ker ((fderiv ℝ F y - fderiv ℝ (P i) y : E →L[ℝ] W) : E →ₗ[ℝ] W)) := by rw [hi]; trivial
  have : (fderiv ℝ F y - fderiv ℝ (P i) y) d = 0 := this
  rw [_root_.sub_apply] at this
  exact sub_eq_zero.mp this

/-- The limiting Jacobians of a selection of continuously differentiable functions are derivatives of these. -/
theorem selection_limiting {ι : Type} [Finite ι] {F : E → W} {P : ι → E → W} {x : E} (hP : ∀ i, ContDiffAt ℝ 1 (P i) x)
    (hs : ∀ᶠ z in 𝓝 x, ∃ i, F z = P i z) {L : E →L[ℝ] W} (hL : L ∈ limitingJacobians F x) : ∃ i, L = fderiv ℝ (P i) x := by
  obtain ⟨u, h1, h2, h3⟩ := hL
  have hd : ∀ᶠ z in 𝓝 x, ∀ i, DifferentiableAt ℝ (P i) z := by
    rw [eventually_all]
    intro i
    filter_upwards [(hP i).eventually (by simp)] with z hz
    exact hz.differentiableAt (by simp)
  have hsel : ∀ᶠ k in atTop, ∃ i, fderiv ℝ F (u k) = fderiv ℝ (P i) (u k) := by
    filter_upwards [h1.eventually hd, h1.eventually hs.eventually_nhds] with k k1 k2
    exact selection_fderiv (h2 k) k1 k2
  obtain ⟨i, hi⟩ : ∃ i, ∃ᶠ k in atTop, fderiv ℝ F (u k) = fderiv ℝ (P i) (u k) := by
    by_contra hno
    push Not at hno
    have : ∀ᶠ k in atTop, ∀ i, fderiv ℝ F (u k) ≠ fderiv ℝ (P i) (u k) := by
      exact eventually_all.mpr hno
    obtain ⟨k, ⟨j, hj⟩, hn⟩ := (hsel.and this).exists
    exact hn j hj
  have hc : Tendsto (fun k => fderiv ℝ F (u k) - fderiv ℝ (P i) (u k)) atTop (𝓝 (L - fderiv ℝ (P i) x)) :=
    h3.sub (((hP i).continuousAt_fderiv (by simp)).tendsto.comp h1)
  have := isClosed_singleton.mem_of_frequently_of_tendsto (s := {(0 : E →L[ℝ] W)})
    (hi.mono fun k hk => by rw [Set.mem_singleton_iff, hk, sub_self]) hc
  exact ⟨i, sub_eq_zero.mp this⟩

/-- The same for the functions that are selected at the point. -/
theorem selection_limiting_active {ι : Type} [Finite ι] {F : E → W} {P : ι → E → W} {x : E} (hP : ∀ i, ContDiffAt ℝ 1 (P i) x)
    (hs : ∀ᶠ z in 𝓝 x, ∃ i, F z = P i z) (hF : ContinuousAt F x) {L : E →L[ℝ] W} (hL : L ∈ limitingJacobians F x) :
    ∃ i, F x = P i x ∧ L = fderiv ℝ (P i) x := by
  have hne : ∀ᶠ z in 𝓝 x, ∀ i, F x ≠ P i x → F z ≠ P i z := by
    rw [eventually_all]
    intro i
    by_cases h : F x = P i x
    · exact .of_forall fun z hz => absurd h hz
    · filter_upwards [hF.ne_iff_eventually_ne (hP i).continuousAt |>.mp h] with z hz _ using hz
  obtain ⟨i, hi⟩ := selection_limiting (ι := {i // F x = P i x}) (P := fun i => P i.1) (fun i => hP i.1) (by
    filter_upwards [hs, hne] with z ⟨i, hi⟩ hn
    by_cases h : F x = P i x
    · exact ⟨⟨i, h⟩, hi⟩
    · exact absurd hi (hn i h)) hL
  exact ⟨i.1, i.2, hi⟩

/-- Continuous selections of continuously differentiable functions are semismooth. -/
theorem selection_semismooth {ι : Type} [Finite ι] {F : E → W} {P : ι → E → W} {x : E}
    (hP : ∀ i, ContDiffAt ℝ 1 (P i) x ∧ P i x = F x) (hs : ∀ᶠ z in 𝓝 x, ∃ i, F z = P i z)
    (hF : ∀ᶠ z in 𝓝 x, ContinuousAt F z) {ε : ℝ} (hε : 0 < ε) :
    ∀ᶠ z in 𝓝 x, ∀ L ∈ limitingJacobians F z, ‖F z - F x - L (z - x)‖ ≤ ε * ‖z - x‖ := by
  have hd : ∀ᶠ z in 𝓝 x, ∀ i, ContDiffAt ℝ 1 (P i) z := by
    rw [eventually_all]
    exact fun i => (hP i).1.eventually (by simp)
  have h1 : ∀ᶠ z in 𝓝 x, ∀ i, ‖P i z - P i x - fderiv ℝ (P i) x (z - x)‖ ≤ ε / 2 * ‖z - x‖ := by
    rw [eventually_all]
    exact fun i => ((hP i).1.differentiableAt (by simp)).hasFDerivAt.isLittleO.def (half_pos hε)
  have h2 : ∀ᶠ z in 𝓝 x, ∀ i, ‖fderiv ℝ (P i) x - fderiv ℝ (P i) z‖ < ε / 2 := by
    rw [eventually_all]
    intro i
    have hc := ((hP i).1.continuousAt_fderiv (by simp)).tendsto
    filter_upwards [(Metric.tendsto_nhds.mp hc) (ε / 2) (half_pos hε)] with z hz
    rwa [dist_comm, dist_eq_norm] at hz
  filter_upwards [hd, h1, h2, hs.eventually_nhds, hF] with z k1 k2 k3 k4 k5 L hL
  obtain ⟨i, hi, rfl⟩ := selection_limiting_active k1 k4 k5 hL
  rw [hi, ← (hP i).2]
  have e : P i z - P i x - fderiv ℝ (P i) z (z - x) =
      (P i z - P i x - fderiv ℝ (P i) x (z - x)) + (fderiv ℝ (P i) x - fderiv ℝ (P i) z) (z - x) := by
    rw [_root_.sub_apply]; abel
  rw [e]
  have b2 := (fderiv ℝ (P i) x - fderiv ℝ (P i) z).le_of_opNorm_le (k3 i).le (z - x)
  calc _ ≤ ‖P i z - P i x - fderiv ℝ (P i) x (z - x)‖ + ‖(fderiv ℝ (P i) x - fderiv ℝ (P i) z) (z - x)‖ := norm_add_le _ _
    _ ≤ ε / 2 * ‖z - x‖ + ε / 2 * ‖z - x‖ := add_le_add (k2 i) b2
    _ = ε * ‖z - x‖ := by ring

end selection

end Adv
