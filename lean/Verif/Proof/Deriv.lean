import Verif.Proof.Family
import Verif.Proof.Jacobian
import Mathlib.Analysis.Calculus.FDeriv.Mul
import Mathlib.Analysis.Calculus.FDeriv.Pi
import Mathlib.Analysis.Calculus.FDeriv.Prod
import Mathlib.Analysis.Calculus.Deriv.Abs
import Mathlib.Analysis.Calculus.Deriv.Inv
import Mathlib.Analysis.Calculus.ContDiff.Operations
import Mathlib.Analysis.Calculus.MeanValue
import Mathlib.Analysis.SpecialFunctions.Trigonometric.ArctanDeriv

/-!
# Two calculi: Fréchet derivatives, and piecewise linear models
-/

set_option linter.unusedSectionVars false

namespace Adv
open scoped Adv Topology
open Filter Asymptotics

/-! ## Elementary operations -/

/-- The first order Taylor polynomial of a C² function has a quadratic error. -/
theorem quadratic_error {E F : Type} [NormedAddCommGroup E] [NormedSpace ℝ E] [NormedAddCommGroup F] [NormedSpace ℝ F]
    {φ : E → F} {L : E →L[ℝ] F} {p : E} (hc : ContDiffAt ℝ 2 φ p) (hL : HasFDerivAt φ L p) :
    (fun h => φ (p + h) - φ p - L h) =O[𝓝 0] fun h => ‖h‖ ^ 2 := by
  have hd : DifferentiableAt ℝ (fderiv ℝ φ) p :=
    (hc.fderiv_right (m := 1) (by norm_num)).differentiableAt (by norm_num)
  obtain ⟨C, hC⟩ := hd.hasFDerivAt.isBigO_sub.bound
  have hev : ∀ᶠ z in 𝓝 p, DifferentiableAt ℝ φ z :=
    (hc.eventually (by simp)).mono fun z hz => hz.differentiableAt (by norm_num)
  obtain ⟨ε, hε, hb⟩ := Metric.eventually_nhds_iff_ball.mp (hC.and hev)
  refine IsBigO.of_bound C ?_
  filter_upwards [Metric.ball_mem_nhds (0 : E) hε] with h hh
  have hh' : ‖h‖ < ε := by simpa using hh
  have hC0 : ∀ z ∈ Metric.closedBall p ‖h‖, ‖fderiv ℝ φ z - L‖ ≤ C * ‖h‖ := by
    intro z hz
    have hz1 : ‖z - p‖ ≤ ‖h‖ := by simpa [dist_eq_norm] using hz
    have h1 := (hb z (by simpa [dist_eq_norm] using hz1.trans_lt hh')).1
    rw [← hL.fderiv]
    refine h1.trans ?_
    by_cases hC' : 0 ≤ C
    · exact mul_le_mul_of_nonneg_left hz1 hC'
    · have h2 := (hb (p + h) (by simpa using hh')).1
      have h3 : 0 ≤ C * ‖p + h - p‖ := (norm_nonneg _).trans h2
      rw [add_sub_cancel_left] at h3
      have h4 : ‖h‖ = 0 := le_antisymm (by nlinarith [norm_nonneg h]) (norm_nonneg h)
      rw [h4] at hz1 ⊢
      rw [le_antisymm hz1 (norm_nonneg _)]
  have := Convex.norm_image_sub_le_of_norm_hasFDerivWithin_le' (f := φ) (f' := fderiv ℝ φ) (φ := L)
    (s := Metric.closedBall p ‖h‖) (C := C * ‖h‖) (x := p) (y := p + h)
    (fun z hz => by
      have hz1 : ‖z - p‖ ≤ ‖h‖ := by simpa [dist_eq_norm] using hz
      exact (hb z (by simpa [dist_eq_norm] using hz1.trans_lt hh')).2.hasFDerivAt.hasFDerivWithinAt)
    hC0 (convex_closedBall p ‖h‖) (by simp) (by simp)
  rw [add_sub_cancel_left] at this
  refine this.trans (le_of_eq ?_)
  rw [Real.norm_of_nonneg (by positivity)]
  ring

/-- A smooth operation of one variable. -/
theorem smooth_un {o : OpCode} (ho : o.isUnary = true) (habs : o ≠ .Abs) {a : ℝ} (h : SmoothOp o none a none) :
    ∃ d, HasDerivAt (fun s : ℝ => zfun o s s) d a ∧ ContDiffAt ℝ 2 (fun s : ℝ => zfun o s s) a ∧ ∀ da, ffun o a a da da = d * da := by
  cases o <;> simp [OpCode.isUnary] at ho
  case Sin => exact ⟨_, Real.hasDerivAt_sin a, Real.contDiff_sin.contDiffAt, fun da => mul_comm _ _⟩
  case Cos =>
    refine ⟨_, Real.hasDerivAt_cos a, Real.contDiff_cos.contDiffAt, fun da => ?_⟩
    show -da * Real.sin a = -Real.sin a * da
    ring
  case Tan =>
    refine ⟨_, Real.hasDerivAt_tan h, Real.contDiffAt_tan.mpr h, fun da => ?_⟩
    show da * (1 / Real.cos a ^ (2 : ℤ)) = 1 / Real.cos a ^ 2 * da
    rw [mul_comm]; norm_cast
  case Abs => exact absurd rfl habs
  case Exp => exact ⟨_, Real.hasDerivAt_exp a, Real.contDiff_exp.contDiffAt, fun da => mul_comm _ _⟩
  case Ln =>
    refine ⟨_, Real.hasDerivAt_log (ne_of_gt h), Real.contDiffAt_log.mpr (ne_of_gt h), fun da => ?_⟩
    show da * (1 / a) = a⁻¹ * da
    ring
  case Asin =>
    refine ⟨_, Real.hasDerivAt_arcsin (ne_of_gt h.1) (ne_of_lt h.2), Real.contDiffAt_arcsin (ne_of_gt h.1) (ne_of_lt h.2), fun da => ?_⟩
    show da / Real.sqrt (1 - a ^ (2 : ℤ)) = 1 / Real.sqrt (1 - a ^ 2) * da
    norm_cast; ring
  case Acos =>
    refine ⟨_, Real.hasDerivAt_arccos (ne_of_gt h.1) (ne_of_lt h.2), Real.contDiffAt_arccos (ne_of_gt h.1) (ne_of_lt h.2), fun da => ?_⟩
    show -da / Real.sqrt (1 - a ^ (2 : ℤ)) = -(1 / Real.sqrt (1 - a ^ 2)) * da
    norm_cast; ring
  case Atan =>
    refine ⟨_, Real.hasDerivAt_arctan a, Real.contDiff_arctan.contDiffAt, fun da => ?_⟩
    show da / (1 + a ^ (2 : ℤ)) = 1 / (1 + a ^ 2) * da
    norm_cast; ring

/-- A smooth operation of two variables. `φ` agrees with it on the values that the second operand can take. -/
theorem smooth_bin {o : OpCode} (ho : o.isBinary = true) {arg : Arg ℝ} {a b : ℝ}
    (h : SmoothOp o (some arg) a (some b)) (hb : ∀ c, arg = .lit c → b = c) :
    ∃ (φ : ℝ × ℝ → ℝ) (L : ℝ × ℝ →L[ℝ] ℝ), HasFDerivAt φ L (a, b) ∧ ContDiffAt ℝ 2 φ (a, b) ∧
      (∀ p q, (∀ c, arg = .lit c → q = c) → zfun o p q = φ (p, q)) ∧
      (∀ da db, (∀ c, arg = .lit c → db = 0) → ffun o a b da db = L (da, db)) := by
  have h1 : HasFDerivAt (fun p : ℝ × ℝ => p.1) (ContinuousLinearMap.fst ℝ ℝ ℝ) (a, b) := hasFDerivAt_fst
  have h2 : HasFDerivAt (fun p : ℝ × ℝ => p.2) (ContinuousLinearMap.snd ℝ ℝ ℝ) (a, b) := hasFDerivAt_snd
  have c1 : ContDiffAt ℝ 2 (fun p : ℝ × ℝ => p.1) (a, b) := contDiffAt_fst
  have c2 : ContDiffAt ℝ 2 (fun p : ℝ × ℝ => p.2) (a, b) := contDiffAt_snd
  cases o <;> simp [OpCode.isBinary] at ho
  case Add => exact ⟨_, _, h1.add h2, c1.add c2, fun p q _ => rfl, fun da db _ => rfl⟩
  case Sub => exact ⟨_, _, h1.sub h2, c1.sub c2, fun p q _ => rfl, fun da db _ => rfl⟩
  case Mul =>
    refine ⟨_, _, h1.mul h2, c1.mul c2, fun p q _ => rfl, fun da db _ => ?_⟩
    show da * b + a * db = a * db + b * da
    ring
  case Div =>
    have hb0 : b ≠ 0 := fun e => h (by rw [e])
    have h3 : HasFDerivAt (fun p : ℝ × ℝ => p.2⁻¹) _ (a, b) := (hasDerivAt_inv hb0).comp_hasFDerivAt (a, b) h2
    refine ⟨_, _, h1.mul h3, c1.mul (c2.inv hb0), fun p q _ => ?_, fun da db _ => ?_⟩
    · show p / q = p * q⁻¹
      rw [div_eq_mul_inv]
    · show (da * b - a * db) / b ^ (2 : ℤ) = a * (-(b ^ 2)⁻¹ * db) + b⁻¹ * da
      have : b ^ (2 : ℤ) = b ^ 2 := by norm_cast
      rw [this]
      field_simp
      ring
  case Powf =>
    rcases h with h | ⟨n, hn, h⟩
    · refine ⟨_, _, h1.rpow h2 h, c1.rpow c2 (ne_of_gt h), fun p q _ => rfl, fun da db _ => ?_⟩
      show (if !(decide (da = 0)) then b * a ^ (b - 1) * da else 0) +
        (if !(decide (db = 0)) then Real.log a * a ^ b * db else 0) =
        b * a ^ (b - 1) * da + a ^ b * Real.log a * db
      by_cases e1 : da = 0 <;> by_cases e2 : db = 0 <;> simp [e1, e2] <;> ring
    · injection hn with hn
      have hbn : b = n := hb _ hn
      have hd : HasDerivAt (fun s : ℝ => s ^ (n : ℝ)) (n * a ^ ((n : ℝ) - 1)) a :=
        Real.hasDerivAt_rpow_const (h.imp id fun h => by exact_mod_cast h)
      have hc : ContDiffAt ℝ 2 (fun s : ℝ => s ^ (n : ℝ)) a := by
        rcases h with h | h
        · exact Real.contDiffAt_rpow_const_of_ne h
        · obtain ⟨k, rfl⟩ := Int.eq_ofNat_of_zero_le (by omega : 0 ≤ n)
          have : (fun s : ℝ => s ^ (((k : ℕ) : ℤ) : ℝ)) = fun s => s ^ k := by
            funext s
            rw [Int.cast_natCast, Real.rpow_natCast]
          rw [this]
          exact contDiffAt_id.pow k
      refine ⟨_, _, hd.comp_hasFDerivAt (a, b) h1, hc.comp (a, b) c1, fun p q hq => ?_, fun da db hdb => ?_⟩
      · rw [hq _ hn]; rfl
      · rw [hdb _ hn, hbn]
        show (if !(decide (da = 0)) then (n : ℝ) * a ^ ((n : ℝ) - 1) * da else 0) +
          (if !(decide ((0 : ℝ) = 0)) then Real.log a * a ^ (n : ℝ) * 0 else 0) = n * a ^ ((n : ℝ) - 1) * da
        by_cases e1 : da = 0 <;> simp [e1]

/-! ## Fréchet derivatives -/

section frechet
variable {E : Type} [NormedAddCommGroup E] [NormedSpace ℝ E]

/-- Fréchet derivatives at `x0`, evaluated in the directions `d i`. -/
def frechet {ι : Type} [Nonempty ι] (x0 : E) (d : ι → E) : Calculus E (E →L[ℝ] ℝ) ι x0 differentiable where
  Rel g L := HasFDerivAt g L x0
  ev L i := L (d i)
  z0 := 0
  cont g L h := h.continuousAt
  lit c := hasFDerivAt_const c x0
  ev_z0 _ := rfl
  un o g a ho hg hP := by
    by_cases habs : o = .Abs
    · subst habs
      have h0 : g x0 ≠ 0 := ((hP (Classical.arbitrary ι)).2 rfl).1
      have hd : HasFDerivAt (fun z => |g z|) ((SignType.sign (g x0) : ℝ) • a) x0 :=
        (hasDerivAt_abs h0).comp_hasFDerivAt x0 hg
      refine ⟨_, hd, fun i => ?_⟩
      have h1 : 0 ≤ g x0 * (g x0 + a (d i)) := ((hP i).2 rfl).2
      show (SignType.sign (g x0) : ℝ) * a (d i) = |g x0 + a (d i)| - |g x0|
      rcases lt_or_gt_of_ne h0 with hn | hp
      · rw [sign_neg hn, abs_of_neg hn, abs_of_nonpos (by nlinarith)]
        simp
      · rw [sign_pos hp, abs_of_pos hp, abs_of_nonneg (by nlinarith)]
        simp
    · obtain ⟨k, h1, hc2, h2⟩ := smooth_un ho habs (hP (Classical.arbitrary ι)).1
      exact ⟨k • a, h1.comp_hasFDerivAt x0 hg, fun _ => (h2 _).symm⟩
  bin o arg g a h b ho hg hh hlit hP := by
    have hb : ∀ c, arg = .lit c → h x0 = c := fun c hc => by rw [(hlit c hc).1]
    obtain ⟨φ, L, h1, hc2, h2, h3⟩ := smooth_bin ho (hP (Classical.arbitrary ι)).1 hb
    have hc := HasFDerivAt.comp (g := φ) (f := fun z => (g z, h z)) x0 h1 (hg.prodMk hh)
    have he : (fun z => zfun o (g z) (h z)) = φ ∘ fun z => (g z, h z) := by
      funext z
      exact h2 _ _ fun c hc => by rw [(hlit c hc).1]
    refine ⟨_, by rw [he]; exact hc, fun i => ?_⟩
    have e := h3 (a (d i)) (b (d i)) fun c hc => by rw [(hlit c hc).2]; rfl
    exact e.symm

/-! ## Piecewise linear models -/

theorem sq_isLittleO {E : Type} [NormedAddCommGroup E] : (fun d : E => ‖d‖ ^ 2) =o[𝓝 0] fun d => d :=
  isLittleO_norm_pow_id one_lt_two

/-- `g (x0 + d) = g x0 + δ d + O(‖d‖²)`. -/
structure Approx (x0 : E) (g δ : E → ℝ) : Prop where
  diff : (fun d => g (x0 + d) - g x0 - δ d) =O[𝓝 0] fun d => ‖d‖ ^ 2
  bound : δ =O[𝓝 0] fun d => d

theorem Approx.incr {x0 : E} {g δ : E → ℝ} (h : Approx x0 g δ) :
    (fun d => g (x0 + d) - g x0) =O[𝓝 0] fun d => d := by
  have := (h.diff.trans sq_isLittleO.isBigO).add h.bound
  refine this.congr_left fun d => ?_
  ring

theorem Approx.continuousAt {x0 : E} {g δ : E → ℝ} (h : Approx x0 g δ) : ContinuousAt g x0 := by
  have h1 : Tendsto (fun d => g (x0 + d) - g x0) (𝓝 0) (𝓝 0) := h.incr.trans_tendsto tendsto_id
  have h2 : Tendsto (fun d => g (x0 + d)) (𝓝 0) (𝓝 (g x0)) := by
    have := h1.add_const (g x0)
    simpa using this
  have h3 : Tendsto (fun z : E => z - x0) (𝓝 x0) (𝓝 0) := by
    have : Tendsto (fun z : E => z - x0) (𝓝 x0) (𝓝 (x0 - x0)) := tendsto_id.sub tendsto_const_nhds
    simpa using this
  have := h2.comp h3
  unfold ContinuousAt
  refine this.congr fun z => ?_
  simp

theorem Approx.comp {x0 : E} {g δ h ε : E → ℝ} (hg : Approx x0 g δ) (hh : Approx x0 h ε) {φ : ℝ × ℝ → ℝ}
    {L : ℝ × ℝ →L[ℝ] ℝ} (hc : ContDiffAt ℝ 2 φ (g x0, h x0)) (hφ : HasFDerivAt φ L (g x0, h x0)) :
    Approx x0 (fun z => φ (g z, h z)) fun d => L (δ d, ε d) := by
  have hu : (fun d => ((g (x0 + d) - g x0, h (x0 + d) - h x0) : ℝ × ℝ)) =O[𝓝 0] fun d => d :=
    hg.incr.prod_left hh.incr
  have hut : Tendsto (fun d => ((g (x0 + d) - g x0, h (x0 + d) - h x0) : ℝ × ℝ)) (𝓝 0) (𝓝 0) :=
    hu.trans_tendsto (tendsto_id (x := 𝓝 (0 : E)))
  have h1 := (quadratic_error hc hφ).comp_tendsto hut
  have h2 : (fun d => φ (g (x0 + d), h (x0 + d)) - φ (g x0, h x0) -
      L (g (x0 + d) - g x0, h (x0 + d) - h x0)) =O[𝓝 0] fun d => ‖d‖ ^ 2 := by
    refine IsBigO.trans ?_ (hu.norm_norm.pow 2)
    refine h1.congr_left fun d => ?_
    simp
  have h3 : (fun d => L (g (x0 + d) - g x0 - δ d, h (x0 + d) - h x0 - ε d)) =O[𝓝 0] fun d => ‖d‖ ^ 2 :=
    (L.isBigO_comp _ _).trans (hg.diff.prod_left hh.diff)
  refine ⟨?_, (L.isBigO_comp _ _).trans (hg.bound.prod_left hh.bound)⟩
  refine (h2.add h3).congr_left fun d => ?_
  have : L (g (x0 + d) - g x0 - δ d, h (x0 + d) - h x0 - ε d) =
      L (g (x0 + d) - g x0, h (x0 + d) - h x0) - L (δ d, ε d) := by
    rw [← map_sub]; rfl
  rw [this]
  ring

theorem Approx.abs {x0 : E} {g δ : E → ℝ} (hg : Approx x0 g δ) :
    Approx x0 (fun z => |g z|) fun d => |g x0 + δ d| - |g x0| := by
  refine ⟨?_, ?_⟩
  · refine (IsBigO.of_bound 1 (Eventually.of_forall fun d => ?_)).trans hg.diff
    rw [Real.norm_eq_abs, Real.norm_eq_abs, one_mul]
    have := abs_abs_sub_abs_le_abs_sub (g (x0 + d)) (g x0 + δ d)
    have e : |g (x0 + d)| - |g x0| - (|g x0 + δ d| - |g x0|) = |g (x0 + d)| - |g x0 + δ d| := by ring
    have e2 : g (x0 + d) - g x0 - δ d = g (x0 + d) - (g x0 + δ d) := by ring
    rw [e, e2]
    exact this
  · refine (IsBigO.of_bound 1 (Eventually.of_forall fun d => ?_)).trans hg.bound
    rw [Real.norm_eq_abs, Real.norm_eq_abs, one_mul]
    have := abs_abs_sub_abs_le_abs_sub (g x0 + δ d) (g x0)
    rwa [add_sub_cancel_left] at this

/-- Piecewise linear models at `x0`. -/
def model (x0 : E) : Calculus E (E → ℝ) E x0 piecewiseSmooth where
  Rel g δ := Approx x0 g δ
  ev δ d := δ d
  z0 := fun _ => 0
  cont g δ h := h.continuousAt
  lit c := ⟨by simpa using isBigO_zero _ _, isBigO_zero _ _⟩
  ev_z0 _ := rfl
  un o g a ho hg hP := by
    by_cases habs : o = .Abs
    · subst habs
      exact ⟨_, hg.abs, fun _ => rfl⟩
    · obtain ⟨k, h1, hc2, h2⟩ := smooth_un ho habs (hP 0)
      have hφ : HasFDerivAt (fun p : ℝ × ℝ => zfun o p.1 p.1) (k • ContinuousLinearMap.fst ℝ ℝ ℝ) (g x0, g x0) :=
        HasDerivAt.comp_hasFDerivAt (h₂ := fun s : ℝ => zfun o s s) (f := fun p : ℝ × ℝ => p.1) (g x0, g x0) h1
          hasFDerivAt_fst
      have hcφ : ContDiffAt ℝ 2 (fun p : ℝ × ℝ => zfun o p.1 p.1) (g x0, g x0) :=
        ContDiffAt.comp (g := fun s : ℝ => zfun o s s) (f := fun p : ℝ × ℝ => p.1) (g x0, g x0) hc2 contDiffAt_fst
      exact ⟨_, hg.comp hg hcφ hφ, fun d => (h2 _).symm⟩
  bin o arg g a h b ho hg hh hlit hP := by
    have hb : ∀ c, arg = .lit c → h x0 = c := fun c hc => by rw [(hlit c hc).1]
    obtain ⟨φ, L, h1, hc2, h2, h3⟩ := smooth_bin ho (hP 0) hb
    have he : (fun z => zfun o (g z) (h z)) = fun z => φ (g z, h z) := by
      funext z
      exact h2 _ _ fun c hc => by rw [(hlit c hc).1]
    refine ⟨_, by rw [he]; exact hg.comp hh hc2 h1, fun d => ?_⟩
    exact (h3 (a d) (b d) fun c hc => by rw [(hlit c hc).2]).symm

end frechet

/-! ## Conditions on executions -/

theorem Prog.Along.mono {P Q : OpCond} (hPQ : ∀ o arg a b, P o arg a b → Q o arg a b) {w : World ℝ} {p : Prog ℝ} :
    ∀ {env : List (AFloat ℝ)}, p.Along P w env → p.Along Q w env := by
  induction p with
  | ret _ => intro _ _; trivial
  | panic => intro _ _; trivial
  | op o a b k ih =>
    intro env h a' b' r h1 h2 har h3
    obtain ⟨k1, k2, k3⟩ := h a' b' r h1 h2 har h3
    exact ⟨hPQ _ _ _ _ k1, k2, ih _ _ k3⟩

theorem alongProgs.mono {P Q : OpCond} (hPQ : ∀ o arg a b, P o arg a b → Q o arg a b) {w : World ℝ} :
    ∀ {ps : List (List ℝ → Prog ℝ)} {env : List (AFloat ℝ)}, alongProgs P w ps env → alongProgs Q w ps env
  | [], _, _ => trivial
  | _ :: _, _, ⟨h1, h2, h3⟩ => ⟨h1, h2.mono hPQ, fun y hy => (h3 y hy).mono hPQ⟩

theorem get_values {env env' : List (AFloat ℝ)} (hv : env.map AFloat.v = env'.map AFloat.v)
    (hc : ∀ a ∈ env, a.ctx = none) {a : Arg ℝ} {a' : AFloat ℝ} (h : a.get env' = .ok a') :
    ∃ a'', a.get env = .ok a'' ∧ a''.v = a'.v ∧ a''.ctx = none := by
  cases a with
  | lit c => injection h with h; subst h; exact ⟨_, rfl, rfl, rfl⟩
  | var i =>
    unfold Arg.get at h
    rcases he : env'[i]? with _ | x
    · simp only [he] at h; cases h
    simp only [he] at h
    injection h with h
    subst h
    have h1 : (env.map AFloat.v)[i]? = some x.v := by rw [hv, List.getElem?_map, he]; rfl
    rw [List.getElem?_map] at h1
    rcases he2 : env[i]? with _ | y
    · rw [he2] at h1; cases h1
    · rw [he2] at h1
      injection h1 with h1
      exact ⟨y, by simp [Arg.get, he2], h1, hc y (List.mem_of_getElem? he2)⟩

/-- If `P` looks at values only, then the condition depends on the values of the inputs only. -/
theorem Prog.Along.values {P : OpCond} (hP : ∀ o arg (a a' : AFloat ℝ) (b b' : Option (AFloat ℝ)), a.v = a'.v →
    b.map AFloat.v = b'.map AFloat.v → P o arg a b → P o arg a' b') {w : World ℝ} {p : Prog ℝ} :
    ∀ {env env' : List (AFloat ℝ)}, env.map AFloat.v = env'.map AFloat.v → (∀ a ∈ env, a.ctx = none) →
      (∀ a ∈ env', a.ctx = none) → p.Along P w env → p.Along P w env' := by
  induction p with
  | ret _ => intros; trivial
  | panic => intros; trivial
  | op o a b k ih =>
    intro env env' hv hc hc' h a' b' r h1 h2 har h3
    obtain ⟨a'', g1, g2, g3⟩ := get_values hv hc h1
    obtain ⟨_, g1', _, g3'⟩ := get_values rfl hc' h1
    rw [h1] at g1'; injection g1' with g1'; subst g1'
    have hb : ∃ b'', Arg.getOpt env b = .ok b'' ∧ b''.map AFloat.v = b'.map AFloat.v ∧
        (∀ c, b'' = some c → c.ctx = none) ∧ ∀ c, b' = some c → c.ctx = none := by
      cases b with
      | none => injection h2 with h2; subst h2; exact ⟨none, rfl, rfl, by simp, by simp⟩
      | some b =>
        unfold Arg.getOpt at h2
        rcases hb : b.get env' with e | y
        · simp only [hb] at h2; cases h2
        simp only [hb] at h2
        injection h2 with h2
        subst h2
        obtain ⟨y', k1, k2, k3⟩ := get_values hv hc hb
        obtain ⟨_, l1, _, l3⟩ := get_values rfl hc' hb
        rw [hb] at l1; injection l1 with l1; subst l1
        refine ⟨some y', by simp only [Arg.getOpt, k1]; rfl, by simp [k2], ?_, ?_⟩
        · intro c hc; injection hc with hc; subst hc; exact k3
        · intro c hc; injection hc with hc; subst hc; exact l3
    obtain ⟨b'', g4, g5, g6, g7⟩ := hb
    have har' : arityOk o b'' = true := by
      cases b' <;> cases b''
      · exact har
      · cases g5
      · cases g5
      · exact har
    rw [fromOp_free w har g3' g7] at h3
    injection h3 with h3
    subst h3
    obtain ⟨k1, k2, k3⟩ := h a'' b'' _ g1 g4 har' (by rw [fromOp_free w har' g3 g6])
    have hval : opVal o a'' b'' = opVal o a' b' := by
      unfold opVal
      rw [← getD_v, ← getD_v, g5, g2]
    have hlen : env.length = env'.length := by
      have := congrArg List.length hv
      simpa using this
    rw [hlen] at k2 k3
    simp only [hval] at k2 k3
    refine ⟨hP _ _ _ _ _ _ g2 g5 k1, k2, ih _ _ ?_ ?_ ?_ k3⟩
    · simp [hv]
    · intro c hc1
      rcases List.mem_append.mp hc1 with h | h
      · exact hc c h
      · rw [List.mem_singleton] at h; rw [h]
    · intro c hc1
      rcases List.mem_append.mp hc1 with h | h
      · exact hc' c h
      · rw [List.mem_singleton] at h; rw [h]

theorem run_values {p : Prog ℝ} {env env' : List (AFloat ℝ)} {w : World ℝ}
    (hv : env.map AFloat.v = env'.map AFloat.v) (hc : ∀ a ∈ env, a.ctx = none) (hc' : ∀ a ∈ env', a.ctx = none)
    {y' : List (AFloat ℝ)} (h : (p.run env' w).1 = .ok y') :
    ∃ y, (p.run env w).1 = .ok y ∧ y.map AFloat.v = y'.map AFloat.v ∧ (∀ a ∈ y, a.ctx = none) ∧
      ∀ a ∈ y', a.ctx = none := by
  obtain ⟨r, h1, h2, h3⟩ := Prog.run_free p env w hc
  obtain ⟨r', h1', h2', h3'⟩ := Prog.run_free p env' w hc'
  rw [h1'] at h
  change r' = .ok y' at h
  subst h
  have h4 := Prog.runS_fst dualSh dualSh p (ss := env.map AFloat.dual) (ts := env'.map AFloat.dual)
    (forall₂_fst_iff.mpr (by rw [map_dual_fst, map_dual_fst, hv]))
  rw [h3, h3'] at h4
  cases r with
  | error e => cases h4
  | ok y =>
    refine ⟨y, by rw [h1], ?_, h2 y rfl, h2' y' rfl⟩
    simp only [map_ok_eq] at h4
    cases h4 with
    | ok h4 =>
      have := forall₂_fst_iff.mp h4
      rwa [map_dual_fst, map_dual_fst] at this

theorem alongProgs.values {P : OpCond} (hP : ∀ o arg (a a' : AFloat ℝ) (b b' : Option (AFloat ℝ)), a.v = a'.v →
    b.map AFloat.v = b'.map AFloat.v → P o arg a b → P o arg a' b') {w : World ℝ} :
    ∀ {ps : List (List ℝ → Prog ℝ)} {env env' : List (AFloat ℝ)}, env.map AFloat.v = env'.map AFloat.v →
      (∀ a ∈ env, a.ctx = none) → (∀ a ∈ env', a.ctx = none) → alongProgs P w ps env → alongProgs P w ps env'
  | [], _, _, _, _, _, _ => trivial
  | p :: ps, env, env', hv, hc, hc', ⟨⟨ε, he, h1⟩, h2, h3⟩ => by
      have hlen : env.length = env'.length := by
        have := congrArg List.length hv
        simpa using this
      have hget : ∀ i (h : i < env.length) (h' : i < env'.length), (env[i]).v = (env'[i]).v := by
        intro i h h'
        have := List.getElem_of_eq hv (i := i) (by simpa using h)
        simpa using this
      rw [hv] at h1 h2 h3
      refine ⟨⟨ε, he, fun xs hl hx => h1 xs (by omega) fun i k1 k2 => ?_⟩, h2.values hP hv hc hc', ?_⟩
      · rw [hget i k2 (by omega)]
        exact hx i k1 (by omega)
      · intro y' hy'
        obtain ⟨y, e1, e2, e3, e4⟩ := run_values hv hc hc' hy'
        exact (h3 y e1).values hP e2 e3 e4

/-! ## The inputs -/

theorem duals_ctx {n : Nat} (x dx : Fin n → ℝ) : ∀ a ∈ duals x dx, a.ctx = none := by
  intro a ha
  obtain ⟨i, rfl⟩ := List.mem_ofFn.mp ha
  rfl

theorem duals_v {n : Nat} (x dx : Fin n → ℝ) : (duals x dx).map AFloat.v = List.ofFn x := by
  rw [duals, List.map_ofFn]; rfl

theorem duals_zip {n : Nat} (x dx : Fin n → ℝ) :
    duals x dx = ((List.ofFn x).zip (List.ofFn dx)).map fun p => AFloat.new p.1 p.2 := by
  apply List.ext_getElem
  · simp [duals]
  · intro i h1 h2
    simp [duals]

/-- From a family of outputs to a vector function. -/
theorem ofFn_getElem {α β : Type} (Y : List α) (g : α → β) : List.ofFn (fun i : Fin Y.length => g Y[i]) = Y.map g := by
  apply List.ext_getElem
  · simp
  · intro i h1 h2; simp

theorem evalFloat_of_run {f : Func ℝ} {n : Nat} {z : Fin n → ℝ} {w : World ℝ} {ys : List (AFloat ℝ)}
    (h : runProgs f.progs (duals z 0) w = (.ok ys, w)) :
    (f.evalFloat (List.ofFn z) w).1 = .ok (ys.map AFloat.v) := by
  have e : (List.ofFn z).map (fun e => AFloat.new e (Flt.zero : ℝ)) = duals z 0 := by
    rw [duals, List.map_ofFn]; rfl
  unfold Func.evalFloat
  rw [e, Func.eval_eq, M.bind_ok h]
  rfl

theorem frechet_func {ι : Type} [Nonempty ι] {f : Func ℝ} {n : Nat} {x : Fin n → ℝ} (d : ι → Fin n → ℝ)
    {w : World ℝ} {y0 : List ℝ} (he : (f.evalFloat (List.ofFn x) w).1 = .ok y0)
    (hs : ∀ i, f.Along differentiable w (duals x (d i))) :
    ∃ (F : (Fin n → ℝ) → Fin y0.length → ℝ) (L : (Fin n → ℝ) →L[ℝ] (Fin y0.length → ℝ)),
      (∀ᶠ z in 𝓝 x, (f.evalFloat (List.ofFn z) w).1 = .ok (List.ofFn (F z))) ∧ List.ofFn (F x) = y0 ∧
      HasFDerivAt F L x ∧
      ∀ i, ∃ ys, f.eval (duals x (d i)) w = (.ok ys, w) ∧ ys.map AFloat.v = y0 ∧
        ys.map AFloat.dv = List.ofFn (L (d i)) := by
  let C := frechet x d
  let G : List (((Fin n → ℝ) → ℝ) × ((Fin n → ℝ) →L[ℝ] ℝ)) :=
    List.ofFn fun i => (fun z => z i, ContinuousLinearMap.proj i)
  have hG : ∀ q ∈ G, C.Rel q.1 q.2 := by
    intro q hq
    obtain ⟨i, rfl⟩ := List.mem_ofFn.mp hq
    exact hasFDerivAt_apply i x
  have hpt : ∀ i, G.map (C.pt i) = duals x (d i) := fun i => by
    rw [duals, List.map_ofFn]; rfl
  have hok : ∃ ys, (runProgs f.progs (duals x (d (Classical.arbitrary ι))) w).1 = .ok ys := by
    rw [Func.evalFloat_eq] at he
    obtain ⟨ys, h1, h2⟩ := Func.evalD_ok (dx := List.ofFn (d (Classical.arbitrary ι))) (by simp) he
    rw [← Func.eval_eq, duals_zip, Func.eval_new, h1]
    exact ⟨_, rfl⟩
  obtain ⟨ys, hys⟩ := hok
  obtain ⟨Y, y1, y2, y3⟩ := C.progs w f.progs G hG (fun i => by rw [hpt]; exact hs i)
    ⟨Classical.arbitrary ι, ys, by rw [hpt]; exact hys⟩
  have hev : ∀ᶠ z in 𝓝 x, (f.evalFloat (List.ofFn z) w).1 = .ok (Y.map fun q => q.1 z) := by
    filter_upwards [y3] with z hz
    obtain ⟨zs, k1, k2⟩ := hz (duals z 0) ⟨duals_ctx _ _, by rw [duals_v, List.map_ofFn]; rfl⟩
    rw [evalFloat_of_run k1, k2.2]
  have hx := hev.self_of_nhds
  rw [he] at hx
  injection hx with hx
  subst hx
  refine ⟨fun z i => (Y[i]'(by have := i.2; simpa using this)).1 z,
    ContinuousLinearMap.pi fun i => (Y[i]'(by have := i.2; simpa using this)).2, ?_, ?_, ?_, ?_⟩
  · filter_upwards [hev] with z hz
    rw [hz]
    congr 1
    apply List.ext_getElem
    · simp
    · intro i h1 h2; simp
  · apply List.ext_getElem
    · simp
    · intro i h1 h2; simp
  · exact hasFDerivAt_pi.mpr fun i => y1 _ (List.getElem_mem _)
  · intro i
    refine ⟨Y.map (C.pt i), by rw [Func.eval_eq, ← hpt, y2], ?_, ?_⟩
    · rw [List.map_map]; rfl
    · apply List.ext_getElem
      · simp
      · intro k h1 h2
        simp [Calculus.pt, AFloat.new]
        rfl

/-- A calculus of models, for whole functions. -/
theorem Calculus.func {n : Nat} {x : Fin n → ℝ}
    (C : Calculus (Fin n → ℝ) ((Fin n → ℝ) → ℝ) (Fin n → ℝ) x piecewiseSmooth) (hCev : ∀ δ d, C.ev δ d = δ d)
    (hproj : ∀ i, C.Rel (fun z => z i) fun d => d i) {f : Func ℝ} {w : World ℝ} {y0 : List ℝ}
    (he : (f.evalFloat (List.ofFn x) w).1 = .ok y0) (hs : f.Along piecewiseSmooth w (duals x 0)) :
    ∃ (F D : (Fin n → ℝ) → Fin y0.length → ℝ),
      (∀ᶠ z in 𝓝 x, (f.evalFloat (List.ofFn z) w).1 = .ok (List.ofFn (F z))) ∧ List.ofFn (F x) = y0 ∧
      (∀ d, ∃ ys, f.eval (duals x d) w = (.ok ys, w) ∧ ys.map AFloat.v = y0 ∧ ys.map AFloat.dv = List.ofFn (D d)) ∧
      ∀ i, C.Rel (fun z => F z i) fun d => D d i := by
  let G : List (((Fin n → ℝ) → ℝ) × ((Fin n → ℝ) → ℝ)) := List.ofFn fun i => (fun z => z i, fun d => d i)
  have hG : ∀ q ∈ G, C.Rel q.1 q.2 := by
    intro q hq
    obtain ⟨i, rfl⟩ := List.mem_ofFn.mp hq
    exact hproj i
  have hpt : ∀ d, G.map (C.pt d) = duals x d := fun d => by
    rw [duals, List.map_ofFn]
    congr 1
    funext i
    simp only [Function.comp, Calculus.pt, hCev]
  have hval : ∀ o arg (a a' : AFloat ℝ) (b b' : Option (AFloat ℝ)), a.v = a'.v →
      b.map AFloat.v = b'.map AFloat.v → piecewiseSmooth o arg a b → piecewiseSmooth o arg a' b' := by
    intro o arg a a' b b' h1 h2 h3
    unfold piecewiseSmooth at *
    rwa [← h1, ← h2]
  have hok : ∃ ys, (runProgs f.progs (duals x 0) w).1 = .ok ys := by
    have e : (List.ofFn x).map (fun e => AFloat.new e (Flt.zero : ℝ)) = duals x 0 := by
      rw [duals, List.map_ofFn]; rfl
    unfold Func.evalFloat at he
    rw [e, Func.eval_eq, M.bind_apply] at he
    rcases h : runProgs f.progs (duals x 0) w with ⟨e | ys, w'⟩
    · rw [h] at he; cases he
    · exact ⟨ys, rfl⟩
  obtain ⟨ys, hys⟩ := hok
  obtain ⟨Y, y1, y2, y3⟩ := C.progs w f.progs G hG (fun d => by
      rw [hpt]
      exact alongProgs.values hval (by rw [duals_v, duals_v]) (duals_ctx _ _) (duals_ctx _ _) hs)
    ⟨0, ys, by rw [hpt]; exact hys⟩
  have hev : ∀ᶠ z in 𝓝 x, (f.evalFloat (List.ofFn z) w).1 = .ok (Y.map fun q => q.1 z) := by
    filter_upwards [y3] with z hz
    obtain ⟨zs, k1, k2⟩ := hz (duals z 0) ⟨duals_ctx _ _, by rw [duals_v, List.map_ofFn]; rfl⟩
    rw [evalFloat_of_run k1, k2.2]
  have hx := hev.self_of_nhds
  rw [he] at hx
  injection hx with hx
  subst hx
  refine ⟨fun z i => (Y[i]'(by have := i.2; simpa using this)).1 z,
    fun d i => (Y[i]'(by have := i.2; simpa using this)).2 d, ?_, ?_, ?_, ?_⟩
  · filter_upwards [hev] with z hz
    rw [hz]
    congr 1
    apply List.ext_getElem
    · simp
    · intro i h1 h2; simp
  · apply List.ext_getElem
    · simp
    · intro i h1 h2; simp
  · intro d
    refine ⟨Y.map (C.pt d), by rw [Func.eval_eq, ← hpt, y2], by rw [List.map_map]; rfl, ?_⟩
    apply List.ext_getElem
    · simp
    · intro i h1 h2
      simp [Calculus.pt, AFloat.new, hCev]
  · intro i
    exact y1 _ (List.getElem_mem _)

theorem model_func {f : Func ℝ} {n : Nat} {x : Fin n → ℝ} {w : World ℝ} {y0 : List ℝ}
    (he : (f.evalFloat (List.ofFn x) w).1 = .ok y0) (hs : f.Along piecewiseSmooth w (duals x 0)) :
    ∃ (F D : (Fin n → ℝ) → Fin y0.length → ℝ),
      (∀ᶠ z in 𝓝 x, (f.evalFloat (List.ofFn z) w).1 = .ok (List.ofFn (F z))) ∧ List.ofFn (F x) = y0 ∧
      (∀ d, ∃ ys, f.eval (duals x d) w = (.ok ys, w) ∧ ys.map AFloat.v = y0 ∧ ys.map AFloat.dv = List.ofFn (D d)) ∧
      (fun d => F (x + d) - F x - D d) =O[𝓝 0] fun d => ‖d‖ ^ 2 := by
  have hproj : ∀ i, (model x).Rel (fun z => z i) fun d => d i := by
    intro i
    refine ⟨?_, (ContinuousLinearMap.proj (R := ℝ) (φ := fun _ : Fin n => ℝ) i).isBigO_id _⟩
    have : (fun d : Fin n → ℝ => (x + d) i - x i - d i) = fun _ => 0 := by funext d; simp
    show (fun d : Fin n → ℝ => (x + d) i - x i - d i) =O[𝓝 0] _
    rw [this]
    exact isBigO_zero _ _
  obtain ⟨F, D, h1, h2, h3, h4⟩ := (model x).func (fun _ _ => rfl) hproj he hs
  exact ⟨F, D, h1, h2, h3, isBigO_pi.mpr fun i => (h4 i).diff⟩

/-! ## Straight-line functions -/

theorem Prog.along_iff_each {P : OpCond} {w : World ℝ} {p : Prog ℝ} (hp : p.StraightLine) :
    ∀ {env : List (AFloat ℝ)}, p.Along P w env ↔ p.Each P w env := by
  induction p with
  | ret _ => exact Iff.rfl
  | panic => exact Iff.rfl
  | op o a b k ih =>
    intro env
    constructor
    · intro h a' b' r h1 h2 h3 h4
      obtain ⟨k1, -, k3⟩ := h a' b' r h1 h2 h3 h4
      exact ⟨k1, (ih _ _ (hp.2 _ _)).mp k3⟩
    · intro h a' b' r h1 h2 h3 h4
      obtain ⟨k1, k3⟩ := h a' b' r h1 h2 h3 h4
      exact ⟨k1, ⟨1, one_pos, fun v _ => hp.1 _ _ _⟩, (ih _ _ (hp.2 _ _)).mpr k3⟩

theorem along_iff_each {P : OpCond} {w : World ℝ} : ∀ {ps : List (List ℝ → Prog ℝ)},
    (∀ p ∈ ps, (∀ xs, (p xs).StraightLine) ∧ ∀ xs xs' : List ℝ, xs.length = xs'.length → p xs = p xs') →
    ∀ {env : List (AFloat ℝ)}, alongProgs P w ps env ↔ eachProgs P w ps env
  | [], _, _ => Iff.rfl
  | p :: ps, hp, env => by
    have h1 := hp p (by simp)
    have h2 := fun y => along_iff_each (P := P) (w := w) (ps := ps) (fun q hq => hp q (by simp [hq])) (env := y)
    constructor
    · rintro ⟨-, k1, k2⟩
      exact ⟨(Prog.along_iff_each (h1.1 _)).mp k1, fun y hy => (h2 y).mp (k2 y hy)⟩
    · rintro ⟨k1, k2⟩
      exact ⟨⟨1, one_pos, fun xs hl _ => h1.2 _ _ (by simpa using hl)⟩, (Prog.along_iff_each (h1.1 _)).mpr k1,
        fun y hy => (h2 y).mpr (k2 y hy)⟩

theorem Func.along_iff_each {P : OpCond} {w : World ℝ} {f : Func ℝ} (hf : f.StraightLine) {env : List (AFloat ℝ)} :
    f.Along P w env ↔ f.Each P w env := Adv.along_iff_each hf

theorem Func.Along.smooth_differentiable {w : World ℝ} {f : Func ℝ} {n : Nat} {x : Fin n → ℝ}
    (h : f.Along smooth w (duals x 0)) (d : Fin n → ℝ) : f.Along differentiable w (duals x d) := by
  refine alongProgs.mono ?_ (alongProgs.values (P := smooth) ?_ ?_ (duals_ctx x 0) (duals_ctx x d) h)
  · intro o arg a b h; exact ⟨h.1, fun e => absurd e h.2⟩
  · intro o arg a a' b b' h1 h2 h3
    refine ⟨?_, h3.2⟩
    rw [← h1, ← h2]; exact h3.1
  · rw [duals_v, duals_v]

/-! ## Unfolding of concrete executions -/

theorem Prog.each_op {P : OpCond} {w : World ℝ} {o : OpCode} {a : Arg ℝ} {b : Option (Arg ℝ)} {k : Nat → ℝ → Prog ℝ}
    {env : List (AFloat ℝ)} {a' : AFloat ℝ} {b' : Option (AFloat ℝ)} (ha : a.get env = .ok a')
    (hb : Arg.getOpt env b = .ok b') (har : arityOk o b' = true) (hca : a'.ctx = none)
    (hcb : ∀ c, b' = some c → c.ctx = none) :
    (Prog.op o a b k).Each P w env ↔ P o b a' b' ∧
      (k env.length (opVal o a' b')).Each P w (env ++ [⟨opVal o a' b', opDval o a' b', none⟩]) := by
  constructor
  · intro h
    exact h a' b' _ ha hb har (by rw [fromOp_free w har hca hcb])
  · intro h a2 b2 r h1 h2 h3 h4
    rw [ha] at h1; rw [hb] at h2
    injection h1 with h1; injection h2 with h2
    subst h1; subst h2
    rw [fromOp_free w har hca hcb] at h4
    injection h4 with h4
    subst h4
    exact h

theorem Prog.along_op {P : OpCond} {w : World ℝ} {o : OpCode} {a : Arg ℝ} {b : Option (Arg ℝ)} {k : Nat → ℝ → Prog ℝ}
    {env : List (AFloat ℝ)} {a' : AFloat ℝ} {b' : Option (AFloat ℝ)} (ha : a.get env = .ok a')
    (hb : Arg.getOpt env b = .ok b') (har : arityOk o b' = true) (hca : a'.ctx = none)
    (hcb : ∀ c, b' = some c → c.ctx = none) :
    (Prog.op o a b k).Along P w env ↔ P o b a' b' ∧
      (∃ ε > 0, ∀ v, |v - opVal o a' b'| < ε → k env.length v = k env.length (opVal o a' b')) ∧
      (k env.length (opVal o a' b')).Along P w (env ++ [⟨opVal o a' b', opDval o a' b', none⟩]) := by
  constructor
  · intro h
    exact h a' b' _ ha hb har (by rw [fromOp_free w har hca hcb])
  · intro h a2 b2 r h1 h2 h3 h4
    rw [ha] at h1; rw [hb] at h2
    injection h1 with h1; injection h2 with h2
    subst h1; subst h2
    rw [fromOp_free w har hca hcb] at h4
    injection h4 with h4
    subst h4
    exact h

end Adv
