import Verif.Spec.Limiting
import Mathlib.Topology.Baire.Lemmas
import Mathlib.Topology.Baire.CompleteMetrizable
import Mathlib.Analysis.Calculus.FDeriv.Add
import Mathlib.Analysis.Calculus.Deriv.Add
import Mathlib.Analysis.Calculus.Deriv.Mul
import Mathlib.Analysis.Calculus.Deriv.Comp
import Mathlib.Analysis.Calculus.TangentCone.Real
import Mathlib.Analysis.Normed.Module.FiniteDimension

/-!
# Piecewise linear functions given by a triangular system of absolute values

Real analysis only: nothing here refers to tapes.
-/

namespace Adv
open Filter Topology

variable {E W : Type} [NormedAddCommGroup E] [NormedSpace ℝ E] [NormedAddCommGroup W] [NormedSpace ℝ W]

/-- `z_i(v) = c_i + A_i v + ∑_{k<i} l_{ik} |z_k(v)|` for `i < s` and `D(v) = b + J v + ∑_k |z_k(v)| y_k`. -/
structure AbsSystem (s : ℕ) (Z : ℕ → E → ℝ) (D : E → W) where
  c : ℕ → ℝ
  A : ℕ → E →L[ℝ] ℝ
  l : ℕ → ℕ → ℝ
  b : W
  J : E →L[ℝ] W
  y : ℕ → W
  hZ : ∀ i < s, ∀ v, Z i v = c i + A i v + ∑ k ∈ Finset.range i, l i k * |Z k v|
  hD : ∀ v, D v = b + J v + ∑ k ∈ Finset.range s, |Z k v| • y k

/-- The directions whose switching values fit a signature. -/
def Fitting (s : ℕ) (Z : ℕ → E → ℝ) (sg : ℕ → ℝ) : Set E := {v | ∀ i < s, 0 ≤ sg i * Z i v}

namespace AbsSystem
variable {s : ℕ} {Z : ℕ → E → ℝ} {D : E → W} (S : AbsSystem s Z D)
include S

theorem cont : ∀ i < s, Continuous (Z i) := by
  intro i
  induction i using Nat.strongRecOn with
  | _ i ih =>
    intro hi
    have : Z i = fun v => S.c i + S.A i v + ∑ k ∈ Finset.range i, S.l i k * |Z k v| := funext (S.hZ i hi)
    rw [this]
    refine (continuous_const.add (S.A i).continuous).add (continuous_finsetSum _ fun k hk => ?_)
    have hk := Finset.mem_range.mp hk
    exact continuous_const.mul (ih k hk (by omega)).abs

theorem closed (sg : ℕ → ℝ) : IsClosed (Fitting s Z sg) := by
  have : Fitting s Z sg = ⋂ i, ⋂ (_ : i < s), {v | 0 ≤ sg i * Z i v} := by
    ext v; simp [Fitting]
  rw [this]
  exact isClosed_iInter fun i => isClosed_iInter fun hi =>
    isClosed_le continuous_const (continuous_const.mul (S.cont i hi))

/-- Switching values that do not vanish keep their sign nearby. -/
theorem signs (u : E) : ∃ ε > 0, ∀ h : E, ‖h‖ < ε → ∀ i < s, Z i u ≠ 0 → 0 < Z i u * Z i (u + h) := by
  have h1 : ∀ᶠ v in 𝓝 u, ∀ i ∈ Finset.range s, Z i u ≠ 0 → 0 < Z i u * Z i v := by
    rw [Filter.eventually_all_finset]
    intro i hi
    have hc := (S.cont i (Finset.mem_range.mp hi)).continuousAt (x := u)
    by_cases h0 : Z i u = 0
    · exact Eventually.of_forall fun v h => absurd h0 h
    · have : Tendsto (fun v => Z i u * Z i v) (𝓝 u) (𝓝 (Z i u * Z i u)) := tendsto_const_nhds.mul hc
      exact (this.eventually_const_lt (mul_self_pos.mpr h0)).mono fun v h _ => h
  obtain ⟨ε, he, hb⟩ := Metric.eventually_nhds_iff.mp h1
  exact ⟨ε, he, fun h hh i hi h0 => hb (by simpa using hh) i (Finset.mem_range.mpr hi) h0⟩

/-- On every short segment that starts in `u` the switching values and the function are affine. -/
theorem homog (u : E) : ∃ ε > 0, ∀ h : E, ‖h‖ < ε → ∀ t : ℝ, 0 ≤ t → t ≤ 1 →
    (∀ i < s, Z i (u + t • h) = (1 - t) * Z i u + t * Z i (u + h)) ∧
    D (u + t • h) = (1 - t) • D u + t • D (u + h) := by
  obtain ⟨ε, he, hs⟩ := S.signs u
  refine ⟨ε, he, fun h hh t h0 h1 => ?_⟩
  have hth : ‖t • h‖ < ε := by
    rw [norm_smul, Real.norm_of_nonneg h0]
    exact lt_of_le_of_lt (mul_le_of_le_one_left (norm_nonneg _) h1) hh
  have key : ∀ i < s, Z i (u + t • h) = (1 - t) * Z i u + t * Z i (u + h) ∧
      |Z i (u + t • h)| = (1 - t) * |Z i u| + t * |Z i (u + h)| := by
    intro i
    induction i using Nat.strongRecOn with
    | _ i ih =>
      intro hi
      have e : Z i (u + t • h) = (1 - t) * Z i u + t * Z i (u + h) := by
        rw [S.hZ i hi (u + t • h), S.hZ i hi u, S.hZ i hi (u + h), Finset.sum_congr rfl (fun k hk => by
          rw [(ih k (Finset.mem_range.mp hk) (by have := Finset.mem_range.mp hk; omega)).2,
            show S.l i k * ((1 - t) * |Z k u| + t * |Z k (u + h)|) =
              (1 - t) * (S.l i k * |Z k u|) + t * (S.l i k * |Z k (u + h)|) by ring]), Finset.sum_add_distrib,
          ← Finset.mul_sum, ← Finset.mul_sum]
        simp only [map_add, map_smul, smul_eq_mul]
        ring
      refine ⟨e, ?_⟩
      by_cases hz : Z i u = 0
      · rw [e, hz, abs_zero, mul_zero, zero_add, zero_add, abs_mul, abs_of_nonneg h0]
      · have a1 := hs h hh i hi hz
        have a2 := hs (t • h) hth i hi hz
        rcases lt_or_gt_of_ne hz with hn | hp
        · rw [abs_of_neg hn, abs_of_neg (neg_of_mul_pos_right a1 hn.le), abs_of_neg (neg_of_mul_pos_right a2 hn.le), e]
          ring
        · rw [abs_of_pos hp, abs_of_pos (pos_of_mul_pos_right a1 hp.le), abs_of_pos (pos_of_mul_pos_right a2 hp.le), e]
  refine ⟨fun i hi => (key i hi).1, ?_⟩
  rw [S.hD, S.hD u, S.hD (u + h), Finset.sum_congr rfl (fun k hk => by
    rw [(key k (Finset.mem_range.mp hk)).2, add_smul, mul_smul, mul_smul]), Finset.sum_add_distrib,
    ← Finset.smul_sum, ← Finset.smul_sum]
  simp only [map_add, map_smul, smul_add, sub_smul, one_smul]
  module

/-- Where the function is differentiable, it is affine. -/
theorem affine_of_differentiable {u : E} {L : E →L[ℝ] W} (hd : HasFDerivAt D L u) :
    ∀ᶠ v in 𝓝 u, D v = D u + L (v - u) := by
  obtain ⟨ε, he, hh⟩ := S.homog u
  rw [Metric.eventually_nhds_iff]
  refine ⟨ε, he, fun v hv => ?_⟩
  have hv' : ‖v - u‖ < ε := by rwa [← dist_eq_norm]
  have h1 : HasDerivAt (fun t : ℝ => D (u + t • (v - u))) (L (v - u)) 0 := by
    have h2 : HasDerivAt (fun t : ℝ => u + t • (v - u)) (v - u) 0 := by
      simpa using ((hasDerivAt_id (0 : ℝ)).smul_const (v - u)).const_add u
    have h3 : HasFDerivAt D L (u + (0 : ℝ) • (v - u)) := by simpa using hd
    exact h3.comp_hasDerivAt 0 h2
  have h2 : HasDerivWithinAt (fun t : ℝ => D u + t • (D v - D u)) (D v - D u) (Set.Icc 0 1) 0 := by
    have := ((hasDerivAt_id (0 : ℝ)).smul_const (D v - D u)).const_add (D u)
    simpa using this.hasDerivWithinAt
  have h3 : HasDerivWithinAt (fun t : ℝ => D u + t • (D v - D u)) (L (v - u)) (Set.Icc 0 1) 0 := by
    refine h1.hasDerivWithinAt.congr (fun t ht => ?_) (by simp)
    have := (hh (v - u) hv' t ht.1 ht.2).2
    rw [add_sub_cancel] at this
    rw [this]
    module
  have hu : UniqueDiffWithinAt ℝ (Set.Icc (0 : ℝ) 1) 0 := uniqueDiffOn_Icc zero_lt_one 0 (by simp)
  have := hu.eq_deriv _ h2 h3
  rw [← this]
  abel

/-- Every signature selects an affine piece. -/
theorem piece {sg : ℕ → ℝ} (hsg : ∀ i, sg i * sg i = 1) :
    ∃ (G : E →L[ℝ] W) (γ : W), ∀ v ∈ Fitting s Z sg, D v = G v + γ := by
  have habs : ∀ i < s, ∀ v ∈ Fitting s Z sg, |Z i v| = sg i * Z i v := by
    intro i hi v hv
    rcases mul_self_eq_one_iff.mp (hsg i) with h | h
    · have := hv i hi
      rw [h, one_mul] at this ⊢
      exact abs_of_nonneg this
    · have := hv i hi
      rw [h, neg_one_mul] at this ⊢
      exact abs_of_nonpos (by linarith)
  have key : ∀ i, ∃ (G : E →L[ℝ] ℝ) (γ : ℝ), i < s → ∀ v ∈ Fitting s Z sg, Z i v = G v + γ := by
    intro i
    induction i using Nat.strongRecOn with
    | _ i ih =>
      by_cases hi : i < s
      · choose! G γ h using ih
        refine ⟨S.A i + ∑ k ∈ Finset.range i, (S.l i k * sg k) • G k,
          S.c i + ∑ k ∈ Finset.range i, S.l i k * sg k * γ k, fun _ v hv => ?_⟩
        have : ∀ k ∈ Finset.range i, S.l i k * |Z k v| = S.l i k * sg k * G k v + S.l i k * sg k * γ k := by
          intro k hk
          have hk := Finset.mem_range.mp hk
          rw [habs k (by omega) v hv, h k hk (by omega) v hv]
          ring
        rw [S.hZ i hi v, Finset.sum_congr rfl this, Finset.sum_add_distrib]
        simp
        ring
      · exact ⟨0, 0, fun h => absurd h hi⟩
  choose G γ h using key
  refine ⟨S.J + ∑ k ∈ Finset.range s, (sg k • G k).smulRight (S.y k), S.b + ∑ k ∈ Finset.range s, (sg k * γ k) • S.y k,
    fun v hv => ?_⟩
  have : ∀ k ∈ Finset.range s, |Z k v| • S.y k = (sg k * G k v) • S.y k + (sg k * γ k) • S.y k := by
    intro k hk
    have hk := Finset.mem_range.mp hk
    rw [habs k hk v hv, h k hk v hv, mul_add, add_smul]
  rw [S.hD v, Finset.sum_congr rfl this, Finset.sum_add_distrib]
  simp
  abel

/-- If a piece is active on an open set that touches `u`, it is the derivative in `u`, should there be one. -/
theorem fderiv_eq {u : E} (hd : DifferentiableAt ℝ D u) {sg : ℕ → ℝ} {G : E →L[ℝ] W} {γ : W}
    (hG : ∀ v ∈ Fitting s Z sg, D v = G v + γ) (hu : u ∈ closure (interior (Fitting s Z sg))) : fderiv ℝ D u = G := by
  have h1 := eventually_eventually_nhds.mpr (S.affine_of_differentiable hd.hasFDerivAt)
  obtain ⟨v, hv1, hv2⟩ := (mem_closure_iff_frequently.mp hu).and_eventually h1 |>.exists
  have h2 : HasFDerivAt D (fderiv ℝ D u) v := by
    refine HasFDerivAt.congr_of_eventuallyEq ?_ hv2
    have := ((fderiv ℝ D u).hasFDerivAt (x := v - u)).comp v ((hasFDerivAt_id v).sub_const u)
    simpa using this.const_add (D u)
  have h3 : HasFDerivAt D G v := by
    refine HasFDerivAt.congr_of_eventuallyEq (G.hasFDerivAt.add_const γ) ?_
    filter_upwards [mem_interior_iff_mem_nhds.mp hv1] with w hw using hG w hw
  exact h2.unique h3

omit S in
/-- An active piece is a limiting Jacobian. -/
theorem mem_limiting {u : E} {sg : ℕ → ℝ} {G : E →L[ℝ] W} {γ : W} (hG : ∀ v ∈ Fitting s Z sg, D v = G v + γ)
    (hu : u ∈ closure (interior (Fitting s Z sg))) : G ∈ limitingJacobians D u := by
  obtain ⟨v, hv1, hv2⟩ := mem_closure_iff_seq_limit.mp hu
  have h3 : ∀ k, HasFDerivAt D G (v k) := by
    intro k
    refine HasFDerivAt.congr_of_eventuallyEq (G.hasFDerivAt.add_const γ) ?_
    filter_upwards [mem_interior_iff_mem_nhds.mp (hv1 k)] with w hw using hG w hw
  refine ⟨v, hv2, fun k => (h3 k).differentiableAt, ?_⟩
  simp only [(h3 _).fderiv]
  exact tendsto_const_nhds

/-- The sign patterns. -/
def _root_.Adv.pattern (p : Fin s → Bool) (i : ℕ) : ℝ := if h : i < s then (if p ⟨i, h⟩ then 1 else -1) else 1

omit S [NormedAddCommGroup E] [NormedSpace ℝ E] in
theorem _root_.Adv.pattern_cover (v : E) : ∃ p : Fin s → Bool, v ∈ Fitting s Z (pattern p) := by
  refine ⟨fun i => decide (0 ≤ Z i v), fun i hi => ?_⟩
  simp only [pattern, hi, dif_pos, decide_eq_true_eq]
  split_ifs with h
  · simpa using h
  · linarith

/-- Every point is touched by an open set on which some sign pattern is active. -/
theorem exists_active [CompleteSpace E] (u : E) : ∃ p : Fin s → Bool, u ∈ closure (interior (Fitting s Z (pattern p))) := by
  have h := dense_iUnion_interior_of_closed (f := fun p : Fin s → Bool => Fitting s Z (pattern p))
    (fun p => S.closed _) (by
      ext v; simpa using pattern_cover v)
  have := h u
  rw [closure_iUnion_of_finite] at this
  simpa using this

/-- All limiting Jacobians belong to sign patterns that are active near the point. -/
theorem of_limiting [CompleteSpace E] {u : E} {L : E →L[ℝ] W} (hL : L ∈ limitingJacobians D u) :
    ∃ p : Fin s → Bool, u ∈ closure (interior (Fitting s Z (pattern p))) ∧
      ∀ (G : E →L[ℝ] W) (γ : W), (∀ v ∈ Fitting s Z (pattern p), D v = G v + γ) → L = G := by
  obtain ⟨v, h1, h2, h3⟩ := hL
  choose p hp using fun k => S.exists_active (v k)
  obtain ⟨q, hq⟩ := Finite.exists_infinite_fiber p
  have hfreq : ∃ᶠ k in atTop, p k = q := by
    rw [Nat.frequently_atTop_iff_infinite]
    exact Set.infinite_coe_iff.mp hq
  refine ⟨q, ?_, fun G γ hG => ?_⟩
  · refine isClosed_closure.mem_of_frequently_of_tendsto ?_ h1
    exact hfreq.mono fun k hk => hk ▸ hp k
  · have hc : ∃ᶠ k in atTop, fderiv ℝ D (v k) ∈ ({G} : Set (E →L[ℝ] W)) :=
      hfreq.mono fun k hk => S.fderiv_eq (h2 k) hG (hk ▸ hp k)
    exact isClosed_singleton.mem_of_frequently_of_tendsto hc h3

/-- If at most one switching value vanishes, both signs are active. -/
theorem active_of_simple {u : E} (h1 : ∀ i < s, ∀ j < s, Z i u = 0 → Z j u = 0 → i = j) {sg : ℕ → ℝ}
    (hsg : ∀ i, sg i * sg i = 1) (hu : u ∈ Fitting s Z sg) : u ∈ closure (interior (Fitting s Z sg)) := by
  obtain ⟨ε1, he1, hs1⟩ := S.signs u
  obtain ⟨ε2, he2, hhom⟩ := S.homog u
  obtain ⟨ε, he, hε1, hε2⟩ : ∃ ε > 0, ε ≤ ε1 ∧ ε ≤ ε2 := ⟨min ε1 ε2, lt_min he1 he2, min_le_left _ _, min_le_right _ _⟩
  have hs : ∀ h : E, ‖h‖ < ε → ∀ i < s, Z i u ≠ 0 → 0 < Z i u * Z i (u + h) := fun h hh => hs1 h (by linarith)
  have hsg0 : ∀ i, sg i ≠ 0 := fun i h => by have := hsg i; rw [h] at this; norm_num at this
  -- values that do not vanish fit near `u`
  have hfit : ∀ h : E, ‖h‖ < ε → ∀ i < s, Z i u ≠ 0 → 0 < sg i * Z i (u + h) := by
    intro h hh i hi h0
    have a1 := hs h hh i hi h0
    have a2 : 0 < sg i * Z i u := lt_of_le_of_ne (hu i hi) (Ne.symm (mul_ne_zero (hsg0 i) h0))
    have a3 : 0 < sg i * Z i u * (Z i u * Z i (u + h)) := mul_pos a2 a1
    have a4 : sg i * Z i u * (Z i u * Z i (u + h)) = (Z i u * Z i u) * (sg i * Z i (u + h)) := by ring
    rw [a4] at a3
    exact pos_of_mul_pos_right a3 (mul_self_nonneg _)
  -- the first value that vanishes is odd
  have hodd : ∀ h : E, ‖h‖ < ε → ∀ i < s, (∀ k < i, Z k u ≠ 0) → Z i (u + h) + Z i (u - h) = 2 * Z i u := by
    intro h hh i
    have hh' : ‖-h‖ < ε := by rwa [norm_neg]
    induction i using Nat.strongRecOn with
    | _ i ih =>
      intro hi hk
      have habs : ∀ k ∈ Finset.range i, S.l i k * |Z k (u + h)| + S.l i k * |Z k (u - h)| = 2 * (S.l i k * |Z k u|) := by
        intro k hk'
        have hki := Finset.mem_range.mp hk'
        have a := ih k hki (by omega) (fun j hj => hk j (by omega))
        have b1 := hs h hh k (by omega) (hk k hki)
        have b2 := hs (-h) hh' k (by omega) (hk k hki)
        rw [← sub_eq_add_neg] at b2
        rcases lt_or_gt_of_ne (hk k hki) with hn | hp
        · rw [abs_of_neg hn, abs_of_neg (neg_of_mul_pos_right b1 hn.le), abs_of_neg (neg_of_mul_pos_right b2 hn.le)]
          linear_combination (- S.l i k) * a
        · rw [abs_of_pos hp, abs_of_pos (pos_of_mul_pos_right b1 hp.le), abs_of_pos (pos_of_mul_pos_right b2 hp.le)]
          linear_combination (S.l i k) * a
      have e := Finset.sum_congr rfl habs
      rw [Finset.sum_add_distrib, ← Finset.mul_sum] at e
      rw [S.hZ i hi (u + h), S.hZ i hi (u - h), S.hZ i hi u]
      simp only [map_add, map_sub]
      linear_combination e
  by_cases hall : ∀ i < s, Z i u ≠ 0
  · apply subset_closure
    rw [mem_interior_iff_mem_nhds, Metric.mem_nhds_iff]
    refine ⟨ε, he, fun v hv i hi => ?_⟩
    have := hfit (v - u) (by rwa [Metric.mem_ball, dist_eq_norm] at hv) i hi (hall i hi)
    rw [add_sub_cancel] at this
    exact this.le
  push Not at hall
  obtain ⟨i0, hi0, hz0⟩ := hall
  have hne : ∀ i < s, i ≠ i0 → Z i u ≠ 0 := fun i hi hii h => hii (h1 i hi i0 hi0 h hz0)
  have hin : ∀ h : E, ‖h‖ < ε → 0 ≤ sg i0 * Z i0 (u + h) → u + h ∈ Fitting s Z sg := by
    intro h hh h0 i hi
    by_cases hii : i = i0
    · subst hii; exact h0
    · exact (hfit h hh i hi (hne i hi hii)).le
  have hodd0 : ∀ h : E, ‖h‖ < ε → Z i0 (u - h) = - Z i0 (u + h) := by
    intro h hh
    have := hodd h hh i0 hi0 (fun k hk => hne k (by omega) (by omega))
    rw [hz0] at this
    linarith
  by_cases hzero : ∀ h : E, ‖h‖ < ε → Z i0 (u + h) = 0
  · apply subset_closure
    rw [mem_interior_iff_mem_nhds, Metric.mem_nhds_iff]
    refine ⟨ε, he, fun v hv => ?_⟩
    have hv' : ‖v - u‖ < ε := by rwa [Metric.mem_ball, dist_eq_norm] at hv
    have := hin (v - u) hv' (by rw [hzero _ hv', mul_zero])
    rwa [add_sub_cancel] at this
  push Not at hzero
  obtain ⟨h, hh, hnz⟩ := hzero
  -- a direction with the right sign
  obtain ⟨d, hd, hdp⟩ : ∃ d : E, ‖d‖ < ε ∧ 0 < sg i0 * Z i0 (u + d) := by
    rcases lt_or_gt_of_ne (mul_ne_zero (hsg0 i0) hnz) with hn | hp
    · refine ⟨-h, by rwa [norm_neg], ?_⟩
      rw [← sub_eq_add_neg, hodd0 h hh]; linarith
    · exact ⟨h, hh, hp⟩
  have hpt : ∀ t : ℝ, 0 < t → t ≤ 1 → u + t • d ∈ interior (Fitting s Z sg) := by
    intro t h0 h1
    have htd : ‖t • d‖ < ε := by
      rw [norm_smul, Real.norm_of_nonneg h0.le]
      exact lt_of_le_of_lt (mul_le_of_le_one_left (norm_nonneg _) h1) hd
    have hval : 0 < sg i0 * Z i0 (u + t • d) := by
      rw [(hhom d (by linarith) t h0.le h1).1 i0 hi0, hz0, mul_zero, zero_add]
      have := mul_pos h0 hdp
      linarith
    rw [mem_interior_iff_mem_nhds]
    have hc : ∀ᶠ v in 𝓝 (u + t • d), 0 < sg i0 * Z i0 v :=
      ((continuous_const.mul (S.cont i0 hi0)).continuousAt (x := u + t • d)).eventually_const_lt hval
    have hn : ∀ᶠ v in 𝓝 (u + t • d), ‖v - u‖ < ε := by
      have : Continuous fun v : E => ‖v - u‖ := by fun_prop
      exact (this.continuousAt (x := u + t • d)).eventually_lt_const (by simpa using htd)
    filter_upwards [hc, hn] with v h2 h3
    have := hin (v - u) h3 (by rw [add_sub_cancel]; exact h2.le)
    rwa [add_sub_cancel] at this
  have ht : Tendsto (fun t : ℝ => u + t • d) (𝓝[>] 0) (𝓝 u) := by
    have : Continuous fun t : ℝ => u + t • d := by fun_prop
    have h := (this.tendsto 0).mono_left (nhdsWithin_le_nhds (s := Set.Ioi 0))
    simpa using h
  refine mem_closure_of_tendsto ht ?_
  filter_upwards [Ioc_mem_nhdsGT (zero_lt_one' ℝ)] with t h using hpt t h.1 h.2

end AbsSystem
end Adv
