import Verif.Spec.Likq
import Verif.Proof.Limiting
import Mathlib.LinearAlgebra.Basis.VectorSpace
import Mathlib.LinearAlgebra.Pi

/-!
# Sign patterns of independent kinks are active
-/

namespace Adv
open Filter Topology

namespace AbsSystem
variable {E W : Type} [NormedAddCommGroup E] [NormedSpace ℝ E] [NormedAddCommGroup W] [NormedSpace ℝ W]
variable {s : ℕ} {Z : ℕ → E → ℝ} {D : E → W} (S : AbsSystem s Z D)
include S

/-- If some directions near `u` have the signs of `sg`, then `sg` is active. -/
theorem active_of_consistent {u : E} {sg : ℕ → ℝ} (hsg : ∀ i, sg i * sg i = 1) (hu : u ∈ Fitting s Z sg)
    (hc : ∀ ε > 0, ∃ v, ‖v - u‖ < ε ∧ ∀ i < s, Z i u = 0 → 0 < sg i * Z i v) : u ∈ closure (interior (Fitting s Z sg)) := by
  obtain ⟨ε1, he1, hs1⟩ := S.signs u
  have hsg0 : ∀ i, sg i ≠ 0 := fun i h => by have := hsg i; rw [h] at this; norm_num at this
  rw [Metric.mem_closure_iff]
  intro ε he
  obtain ⟨v, hv, hz⟩ := hc (min ε ε1) (lt_min he he1)
  refine ⟨v, ?_, by rw [dist_comm, dist_eq_norm]; exact lt_of_lt_of_le hv (min_le_left _ _)⟩
  have hall : ∀ i < s, 0 < sg i * Z i v := by
    intro i hi
    by_cases h0 : Z i u = 0
    · exact hz i hi h0
    · have a1 := hs1 (v - u) (lt_of_lt_of_le hv (min_le_right _ _)) i hi h0
      rw [add_sub_cancel] at a1
      have a2 : 0 < sg i * Z i u := lt_of_le_of_ne (hu i hi) (Ne.symm (mul_ne_zero (hsg0 i) h0))
      have a3 : 0 < sg i * Z i u * (Z i u * Z i v) := mul_pos a2 a1
      have a4 : sg i * Z i u * (Z i u * Z i v) = (Z i u * Z i u) * (sg i * Z i v) := by ring
      rw [a4] at a3
      exact pos_of_mul_pos_right a3 (mul_self_nonneg _)
  rw [mem_interior_iff_mem_nhds]
  have h1 : ∀ᶠ q in 𝓝 v, ∀ i ∈ Finset.range s, 0 < sg i * Z i q := by
    rw [Filter.eventually_all_finset]
    intro i hi
    have hi := Finset.mem_range.mp hi
    exact ((continuous_const.mul (S.cont i hi)).continuousAt (x := v)).eventually_const_lt (hall i hi)
  filter_upwards [h1] with q hq i hi
  exact (hq i (Finset.mem_range.mpr hi)).le

/-- Change of the switching values if every one that vanishes gets the absolute value 1. -/
noncomputable def shift (u : E) (i : ℕ) : ℝ :=
  ∑ k : Fin i, S.l i k * (if Z k u = 0 then 1 else Real.sign (Z k u) * shift u k)
termination_by i
decreasing_by exact k.isLt

/-- If the gradients of the switching values that vanish are independent, then all sign patterns are active. -/
theorem active_of_independent {u : E} {B : ℕ → E → ℝ}
    (hB : ∀ i < s, ∀ e, B i e = S.A i e + ∑ k ∈ Finset.range i, S.l i k * Real.sign (Z k u) * B k e)
    (hsurj : ∀ c : ℕ → ℝ, ∃ e, ∀ i < s, Z i u = 0 → B i e = c i) {sg : ℕ → ℝ}
    (hsg : ∀ i, sg i * sg i = 1) (hu : u ∈ Fitting s Z sg) : u ∈ closure (interior (Fitting s Z sg)) := by
  refine S.active_of_consistent hsg hu fun ε he => ?_
  obtain ⟨ε1, he1, hs1⟩ := S.signs u
  obtain ⟨e, hE⟩ := hsurj fun i => sg i - S.shift u i
  -- a short step in direction `e`
  obtain ⟨τ, h0, hτ⟩ : ∃ τ : ℝ, 0 < τ ∧ ‖τ • e‖ < min ε ε1 := by
    have hpos : 0 < min ε ε1 := lt_min he he1
    refine ⟨min ε ε1 / (2 * (‖e‖ + 1)), by positivity, ?_⟩
    rw [norm_smul, Real.norm_of_nonneg (by positivity), div_mul_eq_mul_div, div_lt_iff₀ (by positivity)]
    nlinarith [norm_nonneg e]
  have habs1 : ∀ i, |sg i| = 1 := by
    intro i
    rcases mul_self_eq_one_iff.mp (hsg i) with h | h <;> rw [h] <;> simp
  have key : ∀ i < s, Z i (u + τ • e) = Z i u + τ * (B i e + S.shift u i) := by
    intro i
    induction i using Nat.strongRecOn with
    | _ i ih =>
      intro hi
      have habs : ∀ k ∈ Finset.range i, S.l i k * |Z k (u + τ • e)| = S.l i k * |Z k u| +
          τ * (S.l i k * Real.sign (Z k u) * B k e + S.l i k * (if Z k u = 0 then 1 else Real.sign (Z k u) * S.shift u k)) := by
        intro k hk
        have hk := Finset.mem_range.mp hk
        have hks : k < s := by omega
        have e1 := ih k hk hks
        by_cases hz : Z k u = 0
        · have e2 : Z k (u + τ • e) = τ * sg k := by
            rw [e1, hz, hE k hks hz]; ring
          rw [e2, abs_mul, habs1, abs_of_pos h0, hz, Real.sign_zero, abs_zero, if_pos rfl]
          ring
        · have a1 := hs1 (τ • e) (lt_of_lt_of_le hτ (min_le_right _ _)) k hks hz
          rw [if_neg hz]
          rcases lt_or_gt_of_ne hz with hn | hp
          · rw [abs_of_neg hn, abs_of_neg (neg_of_mul_pos_right a1 hn.le), Real.sign_of_neg hn, e1]
            ring
          · rw [abs_of_pos hp, abs_of_pos (pos_of_mul_pos_right a1 hp.le), Real.sign_of_pos hp, e1]
            ring
      have hsh : S.shift u i = ∑ k ∈ Finset.range i, S.l i k * (if Z k u = 0 then 1 else Real.sign (Z k u) * S.shift u k) := by
        rw [Finset.sum_range, shift]
      rw [S.hZ i hi (u + τ • e), S.hZ i hi u, Finset.sum_congr rfl habs, Finset.sum_add_distrib, ← Finset.mul_sum,
        Finset.sum_add_distrib, ← hsh, hB i hi e]
      simp only [map_add, map_smul, smul_eq_mul]
      ring
  refine ⟨u + τ • e, ?_, fun i hi hz => ?_⟩
  · rw [add_sub_cancel_left]
    exact lt_of_lt_of_le hτ (min_le_left _ _)
  · rw [key i hi, hz, hE i hi hz]
    have : sg i * (0 + τ * (sg i - S.shift u i + S.shift u i)) = τ * (sg i * sg i) := by ring
    rw [this, hsg, mul_one]
    exact h0

end AbsSystem

/-- Linear equations with independent rows have solutions. -/
theorem exists_solution {ι : Type} {n : ℕ} {v : ι → Fin n → ℝ} (h : LinearIndependent ℝ v) (c : ι → ℝ) :
    ∃ e : Fin n → ℝ, ∀ i, ∑ j, v i j * e j = c i := by
  obtain ⟨f, hf⟩ := LinearMap.exists_extend ((Finsupp.linearCombination ℝ c).comp h.repr)
  have h1 : ∀ i, f (v i) = c i := by
    intro i
    have := congrArg (fun g => g ⟨v i, Submodule.subset_span ⟨i, rfl⟩⟩) hf
    simp only [LinearMap.comp_apply, Submodule.subtype_apply] at this
    rw [this, h.repr_eq_single i _ rfl]
    simp
  refine ⟨fun j => f (Pi.single j 1), fun i => ?_⟩
  rw [← h1 i]
  conv_rhs => rw [pi_eq_sum_univ' (v i), map_sum]
  refine Finset.sum_congr rfl fun j _ => ?_
  rw [map_smul, smul_eq_mul]

/-- The kink qualification for the abs-normal form of a tape. -/
theorem likq_active {t : Tape ℝ} (h : t.WF) {D : (Fin t.numIndeps → ℝ) → Fin t.numDeps → ℝ}
    (hD : ∀ d, t.firstOrderForward (List.ofFn d) = .ok (List.ofFn (D d))) {dx : Fin t.numIndeps → ℝ} {B : ℕ → ℕ → ℝ}
    (hB : KinkGradients (anfForm t) (zHatV t (List.ofFn dx)) B)
    (hli : LinearIndependent ℝ fun (i : {i : Fin (anfForm t).a.length // (zHatV t (List.ofFn dx)).getD i 0 = 0})
      (j : Fin (anfForm t).zmat.ncols) => B i.1 j) {sg : ℕ → ℝ} (hsg : ∀ i, sg i * sg i = 1)
    (hu : dx ∈ Fitting t.numAbs (zAt t) sg) : dx ∈ closure (interior (Fitting t.numAbs (zAt t) sg)) := by
  have ha : (anfForm t).a.length = t.numAbs := (anfForm_shape t).a
  have hc : (anfForm t).zmat.ncols = t.numIndeps := (anfForm_shape t).zmat.2
  refine (absSystem h hD).active_of_independent (B := fun i e => ∑ j : Fin t.numIndeps, B i j * e j) ?_ ?_ hsg hu
  · intro i hi e
    have e1 : ∀ j : Fin t.numIndeps, B i j * e j = tmat (anfZ (anfOf t)) i j * e j +
        ∑ k ∈ Finset.range i, tmat (anfL (anfOf t)) i k * Real.sign (zAt t k dx) * (B k j * e j) := by
      intro j
      rw [hB i (by omega) j (by rw [hc]; exact j.isLt), add_mul, ha]
      congr 1
      · have : (anfForm t).zmat.get i j = tmat (anfZ (anfOf t)) i j :=
          DMat.ofFn_get (by rw [Z_numDeps]; exact hi) (by rw [Z_numIndeps]; exact j.isLt)
        rw [this]
      · rw [Finset.sum_mul]
        symm
        have e2 : ∀ k < t.numAbs, (anfForm t).lmat.get i k = tmat (anfL (anfOf t)) i k := fun k hk =>
          DMat.ofFn_get (by rw [L_numDeps]; exact hi) (by rw [L_numIndeps]; exact hk)
        refine (Finset.sum_subset (s₂ := Finset.range t.numAbs) (fun k hk => ?_) fun k hk hk' => ?_).trans ?_
        · simp only [Finset.mem_range] at hk ⊢; omega
        · simp only [Finset.mem_range] at hk hk'
          rw [tmat_L_tri h i hi k hk (by omega)]
          ring
        · refine Finset.sum_congr rfl fun k hk => ?_
          have hk := Finset.mem_range.mp hk
          rw [e2 k hk, zHatV_getD hk, zAt]
          ring
    show ∑ j : Fin t.numIndeps, B i j * e j = (∑ j : Fin t.numIndeps, tmat (anfZ (anfOf t)) i j •
      (ContinuousLinearMap.proj j : (Fin t.numIndeps → ℝ) →L[ℝ] ℝ)) e + ∑ k ∈ Finset.range i,
        tmat (anfL (anfOf t)) i k * Real.sign (zAt t k dx) * ∑ j : Fin t.numIndeps, B k j * e j
    rw [Finset.sum_congr rfl fun j _ => e1 j, Finset.sum_add_distrib, Finset.sum_comm]
    congr 1
    · simp
    · exact Finset.sum_congr rfl fun k _ => by rw [Finset.mul_sum]
  · intro c
    obtain ⟨e, he⟩ := exists_solution hli fun i => c i.1
    refine ⟨fun j => e (j.cast hc.symm), fun i hi h0 => ?_⟩
    have := he ⟨⟨i, by omega⟩, by rw [zHatV_getD hi]; exact h0⟩
    rw [← this]
    exact (Fintype.sum_equiv (finCongr hc) _ _ fun j => rfl).symm

end Adv
