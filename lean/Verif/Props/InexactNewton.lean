import Verif.Props.NewtonBall
import Verif.Props.ChainNewtonBall

/-!
# Property C91: error bound and Newton's method with inexact solutions

The linear systems of Newton's method are solved in floating point arithmetic, hence inexactly. Near a zero where all generalized Jacobians
are invertible the method tolerates this, and the value of the function bounds the distance to the zero.
-/

namespace Adv.Props
open Adv Filter Topology

section
variable {σ : Sched} {n : ℕ} {x : Fin n → ℝ} {w w' : World ℝ} {t : Tape ℝ}

/-- Near a point where all matrices are invertible, the inverses are bounded, and the matrices approximate the function. -/
theorem results_bounds (hσ : σ.Valid) (f : Func ℝ) (hn : f.n = .ok n) (hw : w.nextId < usizeMax)
    (ht : f.tape (List.ofFn x) w = (.ok t, w')) (hs : f.Along piecewiseSmooth w (duals x 0)) (hz : t.switching.deps.Nodup)
    (hd : t.deps.Nodup)
    {F : (Fin n → ℝ) → Fin n → ℝ} (hF : ∀ᶠ z in 𝓝 x, (f.evalFloat (List.ofFn z) w).1 = .ok (List.ofFn (F z)))
    (hinv : ∀ bits R, generalizedJacobian σ f (List.ofFn x) (List.replicate n 0) bits none w = (.ok R, w') →
      IsUnit (R.homogenous.linear n n)) :
    ∃ K C : ℝ, 0 ≤ K ∧ 0 ≤ C ∧ ∀ᶠ z in 𝓝 x,
      (∃ R v', generalizedJacobian σ f (List.ofFn z) (List.replicate n 0) [0] none w = (.ok R, v')) ∧
      ∀ (v v' : World ℝ) (bits : List UInt8) (R : GenJac ℝ), v.nextId < usizeMax →
        generalizedJacobian σ f (List.ofFn z) (List.replicate n 0) bits none v = (.ok R, v') →
        (∀ u, ‖u‖ ≤ C * ‖R.homogenous.linear n n u‖) ∧ (∀ u, ‖R.homogenous.linear n n u‖ ≤ C * ‖u‖) ∧
        ‖F z - F x - R.homogenous.linear n n (z - x)‖ ≤ K * ‖z - x‖ ^ 2 := by
  have hsp := (Func.tape_spec f (List.ofFn x) w hw).2
  rw [ht] at hsp
  obtain ⟨_, -, hT⟩ := hsp.ok_left
  have hm : t.numDeps = n := by
    have h1 := hF.self_of_nhds
    rw [Func.evalFloat_eq] at h1
    have := congrArg List.length (Except.ok.inj (hT.out.symm.trans h1))
    simpa [Tape.numDeps] using this
  obtain ⟨K, hK, hsemi⟩ := func_semismooth hσ hs hF
  obtain ⟨l, ds, hl, rfl, hev⟩ := recorded_near hw ht hs
  have hwf := hev.mono fun z h => h.1
  rw [switching_deps hwf.self_of_nhds] at hz
  obtain ⟨hfin, hnear⟩ := results_near hσ hl hwf hz hd hm
  obtain ⟨ε, hε, C, hC⟩ := units_near hfin (by
    rintro L ⟨bits, R, e, rfl⟩
    exact hinv bits R (by rw [gj_func f ht (by simpa using hn), e]))
  obtain ⟨B, hB⟩ := (hfin.image fun L => ‖L‖).bddAbove
  refine ⟨K, max |C| (|B| + ε), hK, (abs_nonneg C).trans (le_max_left _ _), ?_⟩
  filter_upwards [hsemi, hev, hnear ε hε] with z h1 h2 h3
  have hni : (tapeOn n l ds z).numIndeps = n := by simp [Tape.numIndeps, tapeOn]
  have hzz : (zIds (tapeOn n l ds z)).Nodup := hz
  constructor
  · obtain ⟨R, e, -⟩ := gj_piece hσ h2.1 hzz hd (dx := List.replicate n 0) (by simp [hni]) [0]
    obtain ⟨v', hv'⟩ := h2.2 w hw
    exact ⟨R, v', by rw [gj_func f hv' (by simpa using hn), e]⟩
  · intro v v' bits R hv e
    obtain ⟨u', hu⟩ := h2.2 v hv
    rw [gj_func f hu (by simpa using hn)] at e
    replace e := congrArg Prod.fst e
    have hspz : TapeOf f (List.ofFn z) (tapeOn n l ds z) := by
      have hsp := (Func.tape_spec f (List.ofFn z) v hv).2
      rw [hu] at hsp
      exact hsp.ok_left.choose_spec.2
    obtain ⟨bits', R', e', h4⟩ := h3 bits R e
    obtain ⟨q1, q2⟩ := hC _ ⟨bits', R', e', rfl⟩ _ h4
    refine ⟨fun u => ?_, fun u => ?_, h1 _ bits R hspz hzz hd e⟩
    · have hB : Ring.inverse (R.homogenous.linear n n) (R.homogenous.linear n n u) = u :=
        congrArg (fun L : (Fin n → ℝ) →L[ℝ] (Fin n → ℝ) => L u) (Ring.inverse_mul_cancel _ q1)
      calc ‖u‖ = ‖Ring.inverse (R.homogenous.linear n n) (R.homogenous.linear n n u)‖ := by rw [hB]
        _ ≤ max |C| (|B| + ε) * ‖R.homogenous.linear n n u‖ :=
          ContinuousLinearMap.le_of_opNorm_le _ ((q2.trans (le_abs_self C)).trans (le_max_left _ _)) _
    · refine ContinuousLinearMap.le_of_opNorm_le _ (le_trans ?_ (le_max_right _ _)) _
      have hB' : ‖R'.homogenous.linear n n‖ ≤ B := hB (Set.mem_image_of_mem _ ⟨bits', R', e', rfl⟩)
      calc _ = ‖R'.homogenous.linear n n + (R.homogenous.linear n n - R'.homogenous.linear n n)‖ := by rw [add_sub_cancel]
        _ ≤ ‖R'.homogenous.linear n n‖ + ‖R.homogenous.linear n n - R'.homogenous.linear n n‖ := norm_add_le _ _
        _ ≤ |B| + ε := add_le_add (hB'.trans (le_abs_self B)) h4

/-- C91: error bound. Let `x` be a zero of the function and let all matrices that `generalized_jacobian` returns at `x` in direction 0 be
invertible. Then at all `z` near `x` the distance to `x` is at most `c` times the norm of the value. In particular `x` is the only zero
near `x`. -/
theorem C91_error_bound (hσ : σ.Valid) (f : Func ℝ) (hn : f.n = .ok n) (hw : w.nextId < usizeMax)
    (ht : f.tape (List.ofFn x) w = (.ok t, w')) (hs : f.Along piecewiseSmooth w (duals x 0)) (hz : t.switching.deps.Nodup)
    (hd : t.deps.Nodup)
    {F : (Fin n → ℝ) → Fin n → ℝ} (hF : ∀ᶠ z in 𝓝 x, (f.evalFloat (List.ofFn z) w).1 = .ok (List.ofFn (F z))) (h0 : F x = 0)
    (hinv : ∀ bits R, generalizedJacobian σ f (List.ofFn x) (List.replicate n 0) bits none w = (.ok R, w') →
      IsUnit (R.homogenous.linear n n)) :
    ∃ c : ℝ, ∀ᶠ z in 𝓝 x, ‖z - x‖ ≤ c * ‖F z‖ := by
  obtain ⟨K, C, hK, hC, hev⟩ := results_bounds hσ f hn hw ht hs hz hd hF hinv
  have hsmall : ∀ᶠ z in 𝓝 x, ‖z - x‖ < 1 / (2 * (C * K + 1)) := by
    filter_upwards [Metric.ball_mem_nhds x (show 0 < 1 / (2 * (C * K + 1)) by positivity)] with z hz
    rwa [Metric.mem_ball, dist_eq_norm] at hz
  refine ⟨2 * C, ?_⟩
  filter_upwards [hev, hsmall] with z h1 h2
  obtain ⟨⟨R, v', e⟩, h1⟩ := h1
  obtain ⟨q1, -, q2⟩ := h1 w v' [0] R hw e
  rw [h0, sub_zero] at q2
  have q3 : ‖R.homogenous.linear n n (z - x)‖ ≤ ‖F z‖ + K * ‖z - x‖ ^ 2 := by
    calc _ = ‖F z - (F z - R.homogenous.linear n n (z - x))‖ := by rw [sub_sub_cancel]
      _ ≤ ‖F z‖ + ‖F z - R.homogenous.linear n n (z - x)‖ := norm_sub_le _ _
      _ ≤ _ := by linarith
  have q4 := (q1 (z - x)).trans (mul_le_mul_of_nonneg_left q3 hC)
  have q5 : C * K * ‖z - x‖ ≤ 1 / 2 := by
    have h3 : (C * K + 1) * ‖z - x‖ ≤ (C * K + 1) * (1 / (2 * (C * K + 1))) := mul_le_mul_of_nonneg_left h2.le (by positivity)
    have h4 : (C * K + 1) * (1 / (2 * (C * K + 1))) = 1 / 2 := by field_simp
    nlinarith [norm_nonneg (z - x)]
  have q6 : C * K * ‖z - x‖ * ‖z - x‖ ≤ 1 / 2 * ‖z - x‖ := mul_le_mul_of_nonneg_right q5 (norm_nonneg _)
  nlinarith

/-- C91: under the same assumptions `x` is the only zero near `x`. -/
theorem C91_isolated (hσ : σ.Valid) (f : Func ℝ) (hn : f.n = .ok n) (hw : w.nextId < usizeMax)
    (ht : f.tape (List.ofFn x) w = (.ok t, w')) (hs : f.Along piecewiseSmooth w (duals x 0)) (hz : t.switching.deps.Nodup)
    (hd : t.deps.Nodup)
    {F : (Fin n → ℝ) → Fin n → ℝ} (hF : ∀ᶠ z in 𝓝 x, (f.evalFloat (List.ofFn z) w).1 = .ok (List.ofFn (F z))) (h0 : F x = 0)
    (hinv : ∀ bits R, generalizedJacobian σ f (List.ofFn x) (List.replicate n 0) bits none w = (.ok R, w') →
      IsUnit (R.homogenous.linear n n)) :
    ∀ᶠ z in 𝓝 x, F z = 0 → z = x := by
  obtain ⟨c, hc⟩ := C91_error_bound hσ f hn hw ht hs hz hd hF h0 hinv
  filter_upwards [hc] with z h1 h2
  rw [h2, norm_zero, mul_zero] at h1
  exact sub_eq_zero.mp (norm_le_zero_iff.mp h1)

/-- C91: a single inexact step of Newton's method near `x` decreases the distance to `x` by the factor `q`. -/
theorem C91_step (hσ : σ.Valid) (f : Func ℝ) (hn : f.n = .ok n) (hw : w.nextId < usizeMax)
    (ht : f.tape (List.ofFn x) w = (.ok t, w')) (hs : f.Along piecewiseSmooth w (duals x 0)) (hz : t.switching.deps.Nodup)
    (hd : t.deps.Nodup)
    {F : (Fin n → ℝ) → Fin n → ℝ} (hF : ∀ᶠ z in 𝓝 x, (f.evalFloat (List.ofFn z) w).1 = .ok (List.ofFn (F z))) (h0 : F x = 0)
    (hinv : ∀ bits R, generalizedJacobian σ f (List.ofFn x) (List.replicate n 0) bits none w = (.ok R, w') →
      IsUnit (R.homogenous.linear n n)) {q : ℝ} (hq0 : 0 < q) :
    ∃ η > 0, ∃ δ > 0, ∀ z z' : Fin n → ℝ, ‖z - x‖ < δ →
      (∃ (v v' : World ℝ) (bits : List UInt8) (R : GenJac ℝ), v.nextId < usizeMax ∧
        generalizedJacobian σ f (List.ofFn z) (List.replicate n 0) bits none v = (.ok R, v') ∧
        ‖R.homogenous.linear n n (z' - z) + F z‖ ≤ η * ‖F z‖) → ‖z' - x‖ ≤ q * ‖z - x‖ := by
  obtain ⟨K, C, hK, hC, hev⟩ := results_bounds hσ f hn hw ht hs hz hd hF hinv
  obtain ⟨δ1, hδ1, hball⟩ := Metric.eventually_nhds_iff.mp hev
  have hpos : 0 < 2 * (C * (C + K) + 1) := by positivity
  have hpos2 : 0 < 2 * (C * K + 1) := by positivity
  refine ⟨q / (2 * (C * (C + K) + 1)), by positivity, min (min δ1 1) (q / (2 * (C * K + 1))),
    lt_min (lt_min hδ1 one_pos) (by positivity), fun z z' hk hstep => ?_⟩
  set η := q / (2 * (C * (C + K) + 1)) with hη
  set δ := min (min δ1 1) (q / (2 * (C * K + 1))) with hδ
  have hη0 : 0 ≤ η := by positivity
  have k1 : ‖z - x‖ < δ1 := hk.trans_le ((min_le_left _ _).trans (min_le_left _ _))
  have k2 : ‖z - x‖ ≤ 1 := (hk.trans_le ((min_le_left _ _).trans (min_le_right _ _))).le
  have k3 : ‖z - x‖ ≤ q / (2 * (C * K + 1)) := (hk.trans_le (min_le_right _ _)).le
  obtain ⟨v, v', bits, R, hv, e, hr⟩ := hstep
  obtain ⟨p1, p2, p3⟩ := (hball (y := z) (by rw [dist_eq_norm]; exact k1)).2 v v' bits R hv e
  rw [h0, sub_zero] at p3
  set L := R.homogenous.linear n n
  set a := ‖z - x‖ with ha
  have ha0 : 0 ≤ a := norm_nonneg _
  have hFz : ‖F z‖ ≤ (C + K) * a := by
    calc _ = ‖L (z - x) + (F z - L (z - x))‖ := by rw [add_sub_cancel]
      _ ≤ ‖L (z - x)‖ + ‖F z - L (z - x)‖ := norm_add_le _ _
      _ ≤ C * a + K * a ^ 2 := add_le_add (p2 _) p3
      _ ≤ C * a + K * a := by
        have : a ^ 2 ≤ a := by nlinarith
        linarith [mul_le_mul_of_nonneg_left this hK]
      _ = _ := by ring
  have e1 : L (z' - x) = (L (z' - z) + F z) - (F z - L (z - x)) := by
    have : z' - x = (z' - z) + (z - x) := by abel
    rw [this, map_add]
    abel
  have h1 : ‖z' - x‖ ≤ C * (η * ((C + K) * a) + K * a ^ 2) := by
    refine (p1 _).trans (mul_le_mul_of_nonneg_left ?_ hC)
    rw [e1]
    calc _ ≤ ‖L (z' - z) + F z‖ + ‖F z - L (z - x)‖ := norm_sub_le _ _
      _ ≤ η * ((C + K) * a) + K * a ^ 2 := add_le_add (hr.trans (mul_le_mul_of_nonneg_left hFz hη0)) p3
  have h2 : C * (C + K) * η ≤ q / 2 := by
    have : (C * (C + K) + 1) * η = q / 2 := by rw [hη]; field_simp
    nlinarith
  have h3 : C * K * a ≤ q / 2 := by
    have h4 : (C * K + 1) * a ≤ (C * K + 1) * (q / (2 * (C * K + 1))) := mul_le_mul_of_nonneg_left k3 (by positivity)
    have h5 : (C * K + 1) * (q / (2 * (C * K + 1))) = q / 2 := by field_simp
    nlinarith
  calc _ ≤ C * (η * ((C + K) * a) + K * a ^ 2) := h1
    _ = (C * (C + K) * η) * a + (C * K * a) * a := by ring
    _ ≤ q / 2 * a + q / 2 * a := add_le_add (mul_le_mul_of_nonneg_right h2 ha0) (mul_le_mul_of_nonneg_right h3 ha0)
    _ = q * a := by ring

/-- Sequences whose distance to `x` decreases by the factor `q` as long as they are in a ball around `x` converge to `x`. -/
theorem contract_tendsto {q δ : ℝ} (hq0 : 0 < q) (hq1 : q < 1) {z : ℕ → Fin n → ℝ} (hz0 : ‖z 0 - x‖ < δ)
    (step : ∀ k, ‖z k - x‖ < δ → ‖z (k + 1) - x‖ ≤ q * ‖z k - x‖) :
    Tendsto z atTop (𝓝 x) ∧ ∀ k, ‖z (k + 1) - x‖ ≤ q * ‖z k - x‖ := by
  have hin : ∀ k, ‖z k - x‖ < δ ∧ ‖z k - x‖ ≤ q ^ k * ‖z 0 - x‖ := by
    intro k
    induction k with
    | zero => exact ⟨hz0, by rw [pow_zero, one_mul]⟩
    | succ k ih =>
      have h1 := step k ih.1
      have h2 : q * ‖z k - x‖ ≤ ‖z k - x‖ := by nlinarith [norm_nonneg (z k - x)]
      refine ⟨(h1.trans h2).trans_lt ih.1, h1.trans ?_⟩
      rw [pow_succ]
      nlinarith [mul_le_mul_of_nonneg_left ih.2 hq0.le]
  refine ⟨?_, fun k => step k (hin k).1⟩
  rw [tendsto_iff_norm_sub_tendsto_zero]
  have hlim : Tendsto (fun k => q ^ k * ‖z 0 - x‖) atTop (𝓝 0) := by
    have := (tendsto_pow_atTop_nhds_zero_of_lt_one hq0.le hq1).mul_const ‖z 0 - x‖
    rwa [zero_mul] at this
  exact squeeze_zero (fun _ => norm_nonneg _) (fun k => (hin k).2) hlim

/-- C91: Newton's method with inexact solutions. Let `x` be a zero of the function and let all matrices that `generalized_jacobian` returns
at `x` in direction 0 be invertible. For every rate `q` there are a tolerance `η` and a ball around `x` such that all sequences that start in
the ball, and whose steps solve the linear systems up to a residual of `η ‖F z‖`, converge to `x`, and the distance to `x` decreases by the
factor `q` in every step. The sign bits may change from step to step. -/
theorem C91_inexact (hσ : σ.Valid) (f : Func ℝ) (hn : f.n = .ok n) (hw : w.nextId < usizeMax)
    (ht : f.tape (List.ofFn x) w = (.ok t, w')) (hs : f.Along piecewiseSmooth w (duals x 0)) (hz : t.switching.deps.Nodup)
    (hd : t.deps.Nodup)
    {F : (Fin n → ℝ) → Fin n → ℝ} (hF : ∀ᶠ z in 𝓝 x, (f.evalFloat (List.ofFn z) w).1 = .ok (List.ofFn (F z))) (h0 : F x = 0)
    (hinv : ∀ bits R, generalizedJacobian σ f (List.ofFn x) (List.replicate n 0) bits none w = (.ok R, w') →
      IsUnit (R.homogenous.linear n n)) {q : ℝ} (hq0 : 0 < q) (hq1 : q < 1) :
    ∃ η > 0, ∃ δ > 0, ∀ z : ℕ → Fin n → ℝ, ‖z 0 - x‖ < δ →
      (∀ k, ∃ (v v' : World ℝ) (bits : List UInt8) (R : GenJac ℝ), v.nextId < usizeMax ∧
        generalizedJacobian σ f (List.ofFn (z k)) (List.replicate n 0) bits none v = (.ok R, v') ∧
        ‖R.homogenous.linear n n (z (k + 1) - z k) + F (z k)‖ ≤ η * ‖F (z k)‖) →
      Tendsto z atTop (𝓝 x) ∧ ∀ k, ‖z (k + 1) - x‖ ≤ q * ‖z k - x‖ := by
  obtain ⟨η, hη, δ, hδ, h⟩ := C91_step hσ f hn hw ht hs hz hd hF h0 hinv hq0
  exact ⟨η, hη, δ, hδ, fun z hz0 hstep => contract_tendsto hq0 hq1 hz0 fun k hk => h _ _ hk (hstep k)⟩

end

section
variable {σ : Sched} {n : ℕ} {x : Fin n → ℝ} {w w' : World ℝ} {t : Tape ℝ} {chain : Func ℝ}

/-- C91: Newton's method with inexact solutions and the chain driver. The assumption on the matrices at `x` is that of C90. The schedule, the
number of checkpoints and the state of the program may change from step to step. -/
theorem C91_chain (hσ : σ.Valid) (hn : chain.n = .ok n) (hw : w.nextId < usizeMax)
    (ht : chain.tape (List.ofFn x) w = (.ok t, w')) (hs : chain.Along piecewiseSmooth w (duals x 0))
    (hz : t.switching.deps.Nodup) (hd : t.deps.Nodup) (hfit : LinksFit w chain.flatten (List.ofFn x))
    (hL : LinkTapes w (fun t => t.switching.deps.Nodup ∧ t.deps.Nodup) chain.flatten (List.ofFn x))
    {F : (Fin n → ℝ) → Fin n → ℝ} (hF : ∀ᶠ z in 𝓝 x, (chain.evalFloat (List.ofFn z) w).1 = .ok (List.ofFn (F z))) (h0 : F x = 0)
    (hinv : ∀ bits R, generalizedJacobian σ chain (List.ofFn x) (List.replicate n 0) bits none w = (.ok R, w') →
      IsUnit (R.homogenous.linear n n)) {q : ℝ} (hq0 : 0 < q) (hq1 : q < 1) :
    ∃ η > 0, ∃ δ > 0, ∀ z : ℕ → Fin n → ℝ, ‖z 0 - x‖ < δ →
      (∀ k, ∃ (τ : Sched) (est : Int → Int → Int) (capMax : Nat) (N : Option Nat) (s : Ckpt.World (World ℝ)) (R : GenJac ℝ),
        τ.Valid ∧ (generalizedJacobianChain τ est capMax chain (List.ofFn (z k)) (List.replicate n 0) N s).1 = .ok R ∧
        ‖R.homogenous.linear n n (z (k + 1) - z k) + F (z k)‖ ≤ η * ‖F (z k)‖) →
      Tendsto z atTop (𝓝 x) ∧ ∀ k, ‖z (k + 1) - x‖ ≤ q * ‖z k - x‖ := by
  have hsp := (Func.tape_spec chain (List.ofFn x) w hw).2
  rw [ht] at hsp
  obtain ⟨_, -, hT⟩ := hsp.ok_left
  have hm : t.numDeps = n := by
    have h1 := hF.self_of_nhds
    rw [Func.evalFloat_eq] at h1
    have := congrArg List.length (Except.ok.inj (hT.out.symm.trans h1))
    simpa [Tape.numDeps] using this
  obtain ⟨η, hη, δ, hδ, h⟩ := C91_step hσ chain hn hw ht hs hz hd hF h0 hinv hq0
  obtain ⟨δ1, hδ1, hball⟩ := Metric.eventually_nhds_iff.mp (chain_result_near hσ hn hw ht hs hz hd hm hfit hL)
  refine ⟨η, hη, min δ δ1, lt_min hδ hδ1, fun z hz0 hstep => contract_tendsto hq0 hq1 hz0 fun k hk => ?_⟩
  obtain ⟨τ, est, capMax, N, s, R, hτ, e, hr⟩ := hstep k
  obtain ⟨R1, R2, u, e1, e2, e3⟩ := hball (y := z k) (by rw [dist_eq_norm]; exact hk.trans_le (min_le_right _ _))
  have hR : R = R1 := Except.ok.inj ((generalizedJacobianChain_any hτ e hw).symm.trans e1)
  subst hR
  exact h _ _ (hk.trans_le (min_le_left _ _)) ⟨w, u, [0], R2, hw, e2, by rw [← e3]; exact hr⟩

end

/-- Non-vacuity: the assumptions hold for `x ↦ |x|` at the kink (`absR_newton`). So `|x|` has an error bound there, and inexact steps
halve the distance to 0. -/
example {σ : Sched} (hσ : σ.Valid) :
    ∃ (w : World ℝ) (F : (Fin 1 → ℝ) → Fin 1 → ℝ),
      (∀ᶠ z in 𝓝 ![0], (absR.evalFloat (List.ofFn z) w).1 = .ok (List.ofFn (F z))) ∧
      (∃ c : ℝ, ∀ᶠ z in 𝓝 ![0], ‖z - ![0]‖ ≤ c * ‖F z‖) ∧
      ∃ η > 0, ∃ δ > 0, ∀ z : ℕ → Fin 1 → ℝ, ‖z 0 - ![0]‖ < δ →
        (∀ k, ∃ (v v' : World ℝ) (bits : List UInt8) (R : GenJac ℝ), v.nextId < usizeMax ∧
          generalizedJacobian σ absR (List.ofFn (z k)) (List.replicate 1 0) bits none v = (.ok R, v') ∧
          ‖R.homogenous.linear 1 1 (z (k + 1) - z k) + F (z k)‖ ≤ η * ‖F (z k)‖) →
        Tendsto z atTop (𝓝 ![0]) ∧ ∀ k, ‖z (k + 1) - ![0]‖ ≤ 1 / 2 * ‖z k - ![0]‖ := by
  obtain ⟨w, w', t, F, hw, ht, hn, -, hs, hz, hd, hF, h0, hinv⟩ := absR_newton hσ
  exact ⟨w, F, hF, C91_error_bound hσ absR hn hw ht hs hz hd hF h0 hinv,
    C91_inexact hσ absR hn hw ht hs hz hd hF h0 hinv (by norm_num) (by norm_num)⟩

/-- Non-vacuity of the theorem about chains: the assumptions hold for `||x||` as a chain of two links at the kink (`absAbsR_newton`). -/
example {σ : Sched} (hσ : σ.Valid) :
    ∃ (w : World ℝ) (F : (Fin 1 → ℝ) → Fin 1 → ℝ),
      (∀ᶠ z in 𝓝 ![0], (absAbsR.evalFloat (List.ofFn z) w).1 = .ok (List.ofFn (F z))) ∧
      ∃ η > 0, ∃ δ > 0, ∀ z : ℕ → Fin 1 → ℝ, ‖z 0 - ![0]‖ < δ →
        (∀ k, ∃ (τ : Sched) (est : Int → Int → Int) (capMax : Nat) (N : Option Nat) (s : Ckpt.World (World ℝ)) (R : GenJac ℝ),
          τ.Valid ∧ (generalizedJacobianChain τ est capMax absAbsR (List.ofFn (z k)) (List.replicate 1 0) N s).1 = .ok R ∧
          ‖R.homogenous.linear 1 1 (z (k + 1) - z k) + F (z k)‖ ≤ η * ‖F (z k)‖) →
        Tendsto z atTop (𝓝 ![0]) ∧ ∀ k, ‖z (k + 1) - ![0]‖ ≤ 1 / 2 * ‖z k - ![0]‖ := by
  obtain ⟨w, w', t, F, hw, ht, hn, -, hs, hz, hd, hfit, hL, hF, h0, hinv⟩ := absAbsR_newton hσ
  exact ⟨w, F, hF, C91_chain hσ hn hw ht hs hz hd hfit hL hF h0 hinv (by norm_num) (by norm_num)⟩

end Adv.Props
