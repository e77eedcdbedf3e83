import Verif.Props.InexactNewton

/-!
# Property C92: Newton's method with perturbed matrices and values

In floating point arithmetic the matrix, the value of the function and the solution of the linear system are all perturbed. Near a zero where
all generalized Jacobians are invertible, Newton's method still converges up to a multiple of the absolute perturbation of the values.
-/

namespace Adv.Props
open Adv Filter Topology

section
variable {σ : Sched} {n : ℕ} {x : Fin n → ℝ} {w w' : World ℝ} {t : Tape ℝ}

/-- C92: a single perturbed step of Newton's method. Its matrix `A` is within `η` of a matrix that `generalized_jacobian` returns, and the
residual is at most `η ‖F z‖ + ε`. -/
theorem C92_step (hσ : σ.Valid) (f : Func ℝ) (hn : f.n = .ok n) (hw : w.nextId < usizeMax)
    (ht : f.tape (List.ofFn x) w = (.ok t, w')) (hs : f.Along piecewiseSmooth w (duals x 0)) (hz : t.switching.deps.Nodup)
    (hd : t.deps.Nodup)
    {F : (Fin n → ℝ) → Fin n → ℝ} (hF : ∀ᶠ z in 𝓝 x, (f.evalFloat (List.ofFn z) w).1 = .ok (List.ofFn (F z))) (h0 : F x = 0)
    (hinv : ∀ bits R, generalizedJacobian σ f (List.ofFn x) (List.replicate n 0) bits none w = (.ok R, w') →
      IsUnit (R.homogenous.linear n n)) {q : ℝ} (hq0 : 0 < q) :
    ∃ η > 0, ∃ δ > 0, ∃ c ≥ 0, ∀ (ε : ℝ) (z z' : Fin n → ℝ), 0 ≤ ε → ‖z - x‖ < δ →
      (∃ (v v' : World ℝ) (bits : List UInt8) (R : GenJac ℝ) (A : (Fin n → ℝ) →L[ℝ] (Fin n → ℝ)), v.nextId < usizeMax ∧
        generalizedJacobian σ f (List.ofFn z) (List.replicate n 0) bits none v = (.ok R, v') ∧
        ‖A - R.homogenous.linear n n‖ ≤ η ∧ ‖A (z' - z) + F z‖ ≤ η * ‖F z‖ + ε) → ‖z' - x‖ ≤ q * ‖z - x‖ + c * ε := by
  obtain ⟨K, C, hK, hC, hev⟩ := results_bounds hσ f hn hw ht hs hz hd hF hinv
  obtain ⟨δ1, hδ1, hball⟩ := Metric.eventually_nhds_iff.mp hev
  have hD : 0 ≤ C * (2 + 2 * C) * (C + K) := by positivity
  refine ⟨min (min 1 (1 / (2 * C + 1))) (q / (2 * (C * (2 + 2 * C) * (C + K) + 1))),
    lt_min (lt_min one_pos (by positivity)) (by positivity), min (min δ1 1) (q / (2 * (C * K + 1))),
    lt_min (lt_min hδ1 one_pos) (by positivity), 2 * C, by positivity, fun ε z z' hε hk hstep => ?_⟩
  set η := min (min 1 (1 / (2 * C + 1))) (q / (2 * (C * (2 + 2 * C) * (C + K) + 1))) with hη
  have hη0 : 0 ≤ η := le_min (le_min zero_le_one (by positivity)) (by positivity)
  have hη1 : η ≤ 1 := (min_le_left _ _).trans (min_le_left _ _)
  have hη2 : 2 * C * η ≤ 1 := by
    have h1 : η ≤ 1 / (2 * C + 1) := (min_le_left _ _).trans (min_le_right _ _)
    have h2 : (2 * C + 1) * η ≤ (2 * C + 1) * (1 / (2 * C + 1)) := mul_le_mul_of_nonneg_left h1 (by positivity)
    rw [mul_one_div_cancel (by positivity)] at h2
    linarith
  have hη3 : C * (2 + 2 * C) * (C + K) * η ≤ q / 2 := by
    have h1 : η ≤ q / (2 * (C * (2 + 2 * C) * (C + K) + 1)) := min_le_right _ _
    have h2 := mul_le_mul_of_nonneg_left h1 (show 0 ≤ C * (2 + 2 * C) * (C + K) + 1 by positivity)
    have h3 : (C * (2 + 2 * C) * (C + K) + 1) * (q / (2 * (C * (2 + 2 * C) * (C + K) + 1))) = q / 2 := by field_simp
    nlinarith
  have k1 : ‖z - x‖ < δ1 := hk.trans_le ((min_le_left _ _).trans (min_le_left _ _))
  have k2 : ‖z - x‖ ≤ 1 := (hk.trans_le ((min_le_left _ _).trans (min_le_right _ _))).le
  have k3 : ‖z - x‖ ≤ q / (2 * (C * K + 1)) := (hk.trans_le (min_le_right _ _)).le
  obtain ⟨v, v', bits, R, A, hv, e, hA, hr⟩ := hstep
  obtain ⟨p1, p2, p3⟩ := (hball (y := z) (by rw [dist_eq_norm]; exact k1)).2 v v' bits R hv e
  rw [h0, sub_zero] at p3
  set L := R.homogenous.linear n n
  set a := ‖z - x‖ with ha
  have ha0 : 0 ≤ a := norm_nonneg _
  have hFz : ‖F z‖ ≤ (C + K) * a := by
    calc _ = ‖L (z - x) + (F z - L (z - x))‖ := by rw [add_sub_cancel]
      _ ≤ ‖L (z - x)‖ + ‖F z - L (z - x)‖ := norm_add_le _ _
      _ ≤ C * a + K * a ^ 2 := add_le_add (p2 _) p3
      _ ≤ C * a + K * a := by
        have : a ^ 2 ≤ a := by nlinarith
        linarith [mul_le_mul_of_nonneg_left this hK]
      _ = _ := by ring
  have hAL : ‖(A - L) (z' - z)‖ ≤ η * ‖z' - z‖ := ContinuousLinearMap.le_of_opNorm_le _ hA _
  have hLd : ‖L (z' - z)‖ ≤ ‖A (z' - z) + F z‖ + η * ‖z' - z‖ + ‖F z‖ := by
    have e1 : L (z' - z) = (A (z' - z) + F z) - (A - L) (z' - z) - F z := by
      rw [sub_apply]
      abel
    rw [e1]
    exact (norm_sub_le _ _).trans (add_le_add ((norm_sub_le _ _).trans (add_le_add le_rfl hAL)) le_rfl)
  have hdn : ‖z' - z‖ ≤ 2 * C * (‖A (z' - z) + F z‖ + ‖F z‖) := by
    have h1 := (p1 (z' - z)).trans (mul_le_mul_of_nonneg_left hLd hC)
    nlinarith [mul_le_mul_of_nonneg_right hη2 (norm_nonneg (z' - z))]
  have hres : ‖L (z' - z) + F z‖ ≤ (2 + 2 * C) * η * ‖F z‖ + 2 * ε := by
    have e1 : L (z' - z) + F z = (A (z' - z) + F z) - (A - L) (z' - z) := by
      rw [sub_apply]
      abel
    rw [e1]
    have h1 : ‖(A (z' - z) + F z) - (A - L) (z' - z)‖ ≤ ‖A (z' - z) + F z‖ + η * (2 * C * (‖A (z' - z) + F z‖ + ‖F z‖)) :=
      (norm_sub_le _ _).trans (add_le_add le_rfl (hAL.trans (mul_le_mul_of_nonneg_left hdn hη0)))
    have h2 := mul_le_mul_of_nonneg_right hη2 (norm_nonneg (A (z' - z) + F z))
    nlinarith
  have e1 : L (z' - x) = (L (z' - z) + F z) - (F z - L (z - x)) := by
    have : z' - x = (z' - z) + (z - x) := by abel
    rw [this, map_add]
    abel
  have h1 : ‖z' - x‖ ≤ C * ((2 + 2 * C) * η * ((C + K) * a) + 2 * ε + K * a ^ 2) := by
    refine (p1 _).trans (mul_le_mul_of_nonneg_left ?_ hC)
    rw [e1]
    refine (norm_sub_le _ _).trans (add_le_add (hres.trans (add_le_add ?_ le_rfl)) p3)
    exact mul_le_mul_of_nonneg_left hFz (by positivity)
  have h3 : C * K * a ≤ q / 2 := by
    have h4 : (C * K + 1) * a ≤ (C * K + 1) * (q / (2 * (C * K + 1))) := mul_le_mul_of_nonneg_left k3 (by positivity)
    have h5 : (C * K + 1) * (q / (2 * (C * K + 1))) = q / 2 := by field_simp
    nlinarith
  calc _ ≤ C * ((2 + 2 * C) * η * ((C + K) * a) + 2 * ε + K * a ^ 2) := h1
    _ = (C * (2 + 2 * C) * (C + K) * η) * a + (C * K * a) * a + 2 * C * ε := by ring
    _ ≤ q / 2 * a + q / 2 * a + 2 * C * ε :=
      add_le_add (add_le_add (mul_le_mul_of_nonneg_right hη3 ha0) (mul_le_mul_of_nonneg_right h3 ha0)) le_rfl
    _ = q * a + 2 * C * ε := by ring

/-- Sequences whose distance to `x` decreases by the factor `q` up to an absolute perturbation `e`, as long as they are in a ball around
`x`. -/
theorem noisy_contract {q δ e : ℝ} (hq0 : 0 < q) (hq1 : q < 1) (he : e ≤ (1 - q) * δ) {z : ℕ → Fin n → ℝ} (hz0 : ‖z 0 - x‖ < δ)
    (he0 : 0 ≤ e) (step : ∀ k, ‖z k - x‖ < δ → ‖z (k + 1) - x‖ ≤ q * ‖z k - x‖ + e) (k : ℕ) :
    ‖z k - x‖ < δ ∧ ‖z k - x‖ ≤ q ^ k * ‖z 0 - x‖ + e / (1 - q) := by
  have hq : 0 < 1 - q := by linarith
  induction k with
  | zero => exact ⟨hz0, by rw [pow_zero, one_mul]; linarith [div_nonneg he0 hq.le]⟩
  | succ k ih =>
    have h1 := step k ih.1
    refine ⟨by nlinarith [ih.1], h1.trans ?_⟩
    have h2 : e / (1 - q) = q * (e / (1 - q)) + e := by field_simp; ring
    rw [h2, pow_succ]
    nlinarith [mul_le_mul_of_nonneg_left ih.2 hq0.le]

/-- C92: Newton's method with perturbed matrices, values and solutions. Let `x` be a zero of the function and let all matrices that
`generalized_jacobian` returns at `x` in direction 0 be invertible. For every rate `q` there are a tolerance `η`, a ball around `x` of radius
`δ` and a constant `c` such that for all `ε` with `c ε ≤ (1 - q) δ`: sequences that start in the ball, whose steps use matrices within `η` of
matrices that the driver returns, and have residuals of at most `η ‖F z‖ + ε`, stay in the ball, and the distance of the `k`-th member to `x` is
at most `q ^ k` times the initial distance plus `c ε / (1 - q)`. -/
theorem C92_newton (hσ : σ.Valid) (f : Func ℝ) (hn : f.n = .ok n) (hw : w.nextId < usizeMax)
    (ht : f.tape (List.ofFn x) w = (.ok t, w')) (hs : f.Along piecewiseSmooth w (duals x 0)) (hz : t.switching.deps.Nodup)
    (hd : t.deps.Nodup)
    {F : (Fin n → ℝ) → Fin n → ℝ} (hF : ∀ᶠ z in 𝓝 x, (f.evalFloat (List.ofFn z) w).1 = .ok (List.ofFn (F z))) (h0 : F x = 0)
    (hinv : ∀ bits R, generalizedJacobian σ f (List.ofFn x) (List.replicate n 0) bits none w = (.ok R, w') →
      IsUnit (R.homogenous.linear n n)) {q : ℝ} (hq0 : 0 < q) (hq1 : q < 1) :
    ∃ η > 0, ∃ δ > 0, ∃ c ≥ 0, ∀ (ε : ℝ) (z : ℕ → Fin n → ℝ), 0 ≤ ε → c * ε ≤ (1 - q) * δ → ‖z 0 - x‖ < δ →
      (∀ k, ∃ (v v' : World ℝ) (bits : List UInt8) (R : GenJac ℝ) (A : (Fin n → ℝ) →L[ℝ] (Fin n → ℝ)), v.nextId < usizeMax ∧
        generalizedJacobian σ f (List.ofFn (z k)) (List.replicate n 0) bits none v = (.ok R, v') ∧
        ‖A - R.homogenous.linear n n‖ ≤ η ∧ ‖A (z (k + 1) - z k) + F (z k)‖ ≤ η * ‖F (z k)‖ + ε) →
      ∀ k, ‖z k - x‖ < δ ∧ ‖z k - x‖ ≤ q ^ k * ‖z 0 - x‖ + c * ε / (1 - q) := by
  obtain ⟨η, hη, δ, hδ, c, hc, h⟩ := C92_step hσ f hn hw ht hs hz hd hF h0 hinv hq0
  exact ⟨η, hη, δ, hδ, c, hc, fun ε z hε he hz0 hstep => noisy_contract hq0 hq1 he hz0 (mul_nonneg hc hε)
    fun k hk => h ε _ _ hε hk (hstep k)⟩

end

section
variable {σ : Sched} {n : ℕ} {x : Fin n → ℝ} {w w' : World ℝ} {t : Tape ℝ} {chain : Func ℝ}

/-- C92 for the chain driver, under the assumptions of C90. -/
theorem C92_chain (hσ : σ.Valid) (hn : chain.n = .ok n) (hw : w.nextId < usizeMax)
    (ht : chain.tape (List.ofFn x) w = (.ok t, w')) (hs : chain.Along piecewiseSmooth w (duals x 0))
    (hz : t.switching.deps.Nodup) (hd : t.deps.Nodup) (hfit : LinksFit w chain.flatten (List.ofFn x))
    (hL : LinkTapes w (fun t => t.switching.deps.Nodup ∧ t.deps.Nodup) chain.flatten (List.ofFn x))
    {F : (Fin n → ℝ) → Fin n → ℝ} (hF : ∀ᶠ z in 𝓝 x, (chain.evalFloat (List.ofFn z) w).1 = .ok (List.ofFn (F z))) (h0 : F x = 0)
    (hinv : ∀ bits R, generalizedJacobian σ chain (List.ofFn x) (List.replicate n 0) bits none w = (.ok R, w') →
      IsUnit (R.homogenous.linear n n)) {q : ℝ} (hq0 : 0 < q) (hq1 : q < 1) :
    ∃ η > 0, ∃ δ > 0, ∃ c ≥ 0, ∀ (ε : ℝ) (z : ℕ → Fin n → ℝ), 0 ≤ ε → c * ε ≤ (1 - q) * δ → ‖z 0 - x‖ < δ →
      (∀ k, ∃ (τ : Sched) (est : Int → Int → Int) (capMax : Nat) (N : Option Nat) (s : Ckpt.World (World ℝ)) (R : GenJac ℝ)
        (A : (Fin n → ℝ) →L[ℝ] (Fin n → ℝ)), τ.Valid ∧
        (generalizedJacobianChain τ est capMax chain (List.ofFn (z k)) (List.replicate n 0) N s).1 = .ok R ∧
        ‖A - R.homogenous.linear n n‖ ≤ η ∧ ‖A (z (k + 1) - z k) + F (z k)‖ ≤ η * ‖F (z k)‖ + ε) →
      ∀ k, ‖z k - x‖ < δ ∧ ‖z k - x‖ ≤ q ^ k * ‖z 0 - x‖ + c * ε / (1 - q) := by
  have hsp := (Func.tape_spec chain (List.ofFn x) w hw).2
  rw [ht] at hsp
  obtain ⟨_, -, hT⟩ := hsp.ok_left
  have hm : t.numDeps = n := by
    have h1 := hF.self_of_nhds
    rw [Func.evalFloat_eq] at h1
    have := congrArg List.length (Except.ok.inj (hT.out.symm.trans h1))
    simpa [Tape.numDeps] using this
  obtain ⟨η, hη, δ, hδ, c, hc, h⟩ := C92_step hσ chain hn hw ht hs hz hd hF h0 hinv hq0
  obtain ⟨δ1, hδ1, hball⟩ := Metric.eventually_nhds_iff.mp (chain_result_near hσ hn hw ht hs hz hd hm hfit hL)
  refine ⟨η, hη, min δ δ1, lt_min hδ hδ1, c, hc, fun ε z hε he hz0 hstep =>
    noisy_contract hq0 hq1 he hz0 (mul_nonneg hc hε) fun k hk => ?_⟩
  obtain ⟨τ, est, capMax, N, s, R, A, hτ, e, hA, hr⟩ := hstep k
  obtain ⟨R1, R2, u, e1, e2, e3⟩ := hball (y := z k) (by rw [dist_eq_norm]; exact hk.trans_le (min_le_right _ _))
  have hR : R = R1 := Except.ok.inj ((generalizedJacobianChain_any hτ e hw).symm.trans e1)
  subst hR
  exact h ε _ _ hε (hk.trans_le (min_le_left _ _)) ⟨w, u, [0], R2, A, hw, e2, by rw [← e3]; exact hA, hr⟩

end

/-- Non-vacuity: the assumptions hold for `x ↦ |x|` at the kink, and for `||x||` as a chain of two links. -/
example {σ : Sched} (hσ : σ.Valid) : ∃ (w : World ℝ) (F : (Fin 1 → ℝ) → Fin 1 → ℝ),
    (∀ᶠ z in 𝓝 ![0], (absR.evalFloat (List.ofFn z) w).1 = .ok (List.ofFn (F z))) ∧
    ∃ η > 0, ∃ δ > 0, ∃ c ≥ 0, ∀ (ε : ℝ) (z : ℕ → Fin 1 → ℝ), 0 ≤ ε → c * ε ≤ (1 - 1 / 2) * δ → ‖z 0 - ![0]‖ < δ →
      (∀ k, ∃ (v v' : World ℝ) (bits : List UInt8) (R : GenJac ℝ) (A : (Fin 1 → ℝ) →L[ℝ] (Fin 1 → ℝ)), v.nextId < usizeMax ∧
        generalizedJacobian σ absR (List.ofFn (z k)) (List.replicate 1 0) bits none v = (.ok R, v') ∧
        ‖A - R.homogenous.linear 1 1‖ ≤ η ∧ ‖A (z (k + 1) - z k) + F (z k)‖ ≤ η * ‖F (z k)‖ + ε) →
      ∀ k, ‖z k - ![0]‖ < δ ∧ ‖z k - ![0]‖ ≤ (1 / 2) ^ k * ‖z 0 - ![0]‖ + c * ε / (1 - 1 / 2) := by
  obtain ⟨w, w', t, F, hw, ht, hn, -, hs, hz, hd, hF, h0, hinv⟩ := absR_newton hσ
  exact ⟨w, F, hF, C92_newton hσ absR hn hw ht hs hz hd hF h0 hinv (by norm_num) (by norm_num)⟩

example {σ : Sched} (hσ : σ.Valid) := absAbsR_newton hσ

end Adv.Props
