import Verif.Proof.KernelRfl
import Verif.Proof.Limiting
import Verif.Props.Deriv
import Verif.Props.GeneralizedJacobian
import Mathlib.Analysis.Convex.Hull
import Mathlib.Analysis.Calculus.FDeriv.Pi

/-!
# Properties C60 and C61: generalized Jacobians and derivatives

`limitingJacobians` (`Spec/Limiting.lean`) is the Bouligand subdifferential: limits of derivatives at nearby points. Its
convex hull is Clarke's generalized Jacobian.
-/

namespace Adv.Props
open Adv Filter Topology

/-- The affine function of a matrix and a vector. -/
theorem affine_ofFn {G : DMat ℝ} {γ : List ℝ} {n m : ℕ} (h1 : G.nrows = m) (h2 : G.ncols = n) (d : Fin n → ℝ) :
    affine G γ (List.ofFn d) = List.ofFn (G.linear n m d + fun i : Fin m => γ.getD i 0) := by
  subst h1 h2
  apply List.ext_getElem
  · simp [affine]
  · intro i h1 h2
    simp only [affine, List.length_map, List.length_range] at h1
    simp only [affine, mv, sum_range_ofFn, List.getElem_map, List.getElem_range, List.getElem_ofFn, Pi.add_apply,
      DMat.linear_apply]

/-! ## C60 -/

/-- C60: if the generalized Jacobian of a function at `x` in direction 0 has multiplicity 0, then the function is
differentiable at `x`, the homogenous part is its Jacobian and the inhomogenous part vanishes. (The function may contain
abs anywhere, the other operations are executed inside of their domains; outputs and abs arguments are distinct
variables.) -/
theorem C60_jacobian {σ : Sched} (hσ : σ.Valid) (f : Func ℝ) {n : ℕ} {x : Fin n → ℝ} {w w' : World ℝ} {t : Tape ℝ}
    (hw : w.nextId < usizeMax) (ht : f.tape (List.ofFn x) w = (.ok t, w')) (hn : f.n = .ok n)
    (hs : f.Along piecewiseSmooth w (duals x 0)) (hz : t.switching.deps.Nodup) (hd : t.deps.Nodup) (bits : List UInt8)
    {R : GenJac ℝ} (e : generalizedJacobian σ f (List.ofFn x) (List.replicate n 0) bits none w = (.ok R, w'))
    (h0 : R.multiplicity = 0) :
    ∃ (m : ℕ) (F : (Fin n → ℝ) → Fin m → ℝ),
      (∀ᶠ z in 𝓝 x, (f.evalFloat (List.ofFn z) w).1 = .ok (List.ofFn (F z))) ∧
      R.homogenous.nrows = m ∧ R.homogenous.ncols = n ∧ HasFDerivAt F (R.homogenous.linear n m) x ∧
      R.inhomogenous = List.replicate m 0 := by
  obtain ⟨m, F, D, hF, -, hD, ho⟩ := C14_piecewise_linearization f hw ht hs
  have hspec := (Func.tape_spec f (List.ofFn x) w hw).2
  rw [ht] at hspec
  obtain ⟨_, -, hspec⟩ := hspec.ok_left
  have hni : t.numIndeps = n := by simp [Tape.numIndeps, hspec.indeps]
  have hrec : Recorded t := .func f _ w w' hw ht
  rw [gj_func f ht (by simpa using hn)] at e
  have e : generalizedJacobianTape σ t (List.replicate n 0) bits none = .ok R := by
    injection e with e _
  have hdx : (List.replicate n (0 : ℝ)).length = t.numIndeps := by simp [hni]
  obtain ⟨ε, hε, hnb⟩ := C20_neighbourhood_partial hσ hrec hz hd hdx bits e h0
  obtain ⟨R', e1, hp, -⟩ := gj_piece hσ hspec.wf (by rwa [← switching_deps hspec.wf]) hd hdx bits
  rw [e] at e1; injection e1 with e1; subst e1
  obtain ⟨-, -, k2, k3, -, k5, -⟩ := hp
  rw [(anfForm_shape t).b] at k2 k5
  rw [(anfForm_shape t).jmat.2, hni] at k3
  -- the model near 0
  have hloc : ∀ d : Fin n → ℝ, ‖d‖ ≤ ε → List.ofFn (D d) = affine R.homogenous R.inhomogenous (List.ofFn d) := by
    intro d hd'
    have h1 := hnb (List.ofFn d) (by simp [hni]) (by
      intro j hj
      rw [hni] at hj
      rw [getD_ofFn d hj]
      have : (List.replicate n (0 : ℝ)).getD j 0 = 0 := by
        rw [List.getD_eq_getElem?_getD, List.getElem?_replicate]; split <;> rfl
      rw [this, sub_zero]
      exact (norm_le_pi_norm d ⟨j, hj⟩).trans hd')
    rw [(hD d).1] at h1
    injection h1
  have hm : t.numDeps = m := by
    have := congrArg List.length (hloc 0 (by simpa using hε.le))
    simp only [List.length_ofFn, affine, List.length_map, List.length_range, k2] at this
    exact this.symm
  rw [hm] at k2 k5
  have hloc' : ∀ d : Fin n → ℝ, ‖d‖ ≤ ε →
      D d = R.homogenous.linear n m d + fun i : Fin m => R.inhomogenous.getD i 0 := by
    intro d hd'
    have := hloc d hd'
    rw [affine_ofFn k2 k3] at this
    exact List.ofFn_injective this
  have hD0 : D 0 = 0 := by
    have := ho.def (zero_lt_one' ℝ)
    have := this.self_of_nhds
    simpa using this
  have hγ : (fun i : Fin m => R.inhomogenous.getD i 0) = 0 := by
    have := hloc' 0 (by simpa using hε.le)
    rw [hD0, map_zero, zero_add] at this
    exact this.symm
  refine ⟨m, F, hF, k2, k3, ?_, ?_⟩
  · rw [hasFDerivAt_iff_isLittleO_nhds_zero]
    refine ho.congr' ?_ EventuallyEq.rfl
    filter_upwards [Metric.closedBall_mem_nhds (0 : Fin n → ℝ) hε] with d hd'
    rw [hloc' d (by simpa using hd'), hγ, add_zero]
  · apply List.ext_getElem
    · simp [k5]
    · intro i h1 h2
      have := congrFun hγ ⟨i, by omega⟩
      simpa [List.getD_eq_getElem?_getD, h1] using this

/-- Non-vacuity of C60: `|x|` at 2, where it is differentiable. -/
example {σ : Sched} (hσ : σ.Valid) :
    ∃ (w w' : World ℝ) (t : Tape ℝ) (R : GenJac ℝ), w.nextId < usizeMax ∧ absR.tape (List.ofFn ![2]) w = (.ok t, w') ∧
      absR.n = .ok 1 ∧ absR.Along piecewiseSmooth w (duals ![2] 0) ∧ t.switching.deps.Nodup ∧ t.deps.Nodup ∧
      generalizedJacobian σ absR (List.ofFn ![2]) (List.replicate 1 0) [] none w = (.ok R, w') ∧ R.multiplicity = 0 := by
  rcases ht : absR.tape (List.ofFn ![2]) HState.init.world with ⟨r, w'⟩
  let t : Tape ℝ := ⟨[0], [1], [⟨.Abs, 1, some 0, none⟩], [2, Flt.abs 2], true⟩
  have h1 : (absR.tape (List.ofFn ![2]) HState.init.world).1 = .ok t := by kernel_rfl
  rw [ht] at h1
  replace h1 : r = .ok t := h1
  subst h1
  have hrec : Recorded t := .func absR _ HState.init.world w' (by decide) ht
  obtain ⟨R, e, -, hm⟩ := gj_piece hσ hrec.proper.wf (by decide) (by decide) (dx := [0]) rfl []
  refine ⟨HState.init.world, w', t, R, by decide, ht, rfl, ?_, ?_, by decide, ?_, ?_⟩
  · rw [C01_straight_line absR_straight]
    unfold absR
    refine ⟨?_, fun _ _ => trivial⟩
    eachop
    · exec
    · trivial
  · rw [switching_deps hrec.proper.wf]; decide
  · rw [gj_func absR ht rfl]
    exact congrArg (·, w') e
  · have h2 : zHatV t [0] = [2 + 0] := by kernel_rfl
    rw [hm, h2, zerosBefore]
    show (Finset.filter _ (Finset.range 1)).card = 0
    simp

/-! ## C61 -/

section
variable {σ : Sched} {t : Tape ℝ} {D : (Fin t.numIndeps → ℝ) → Fin t.numDeps → ℝ}

/-- The piece selected by sign bits is the model wherever the signature fits. -/
theorem piece_fits (hσ : σ.Valid) (h : Recorded t) (hz : t.switching.deps.Nodup) (hd : t.deps.Nodup)
    (hD : ∀ d, t.firstOrderForward (List.ofFn d) = .ok (List.ofFn (D d))) (dx : Fin t.numIndeps → ℝ)
    (bits : List UInt8) :
    ∃ R, generalizedJacobianTape σ t (List.ofFn dx) bits none = .ok R ∧
      R.multiplicity = zerosBefore (zHatV t (List.ofFn dx)) t.numAbs ∧
      ∀ v ∈ Fitting t.numAbs (zAt t) (signature bits (zHatV t (List.ofFn dx))),
        D v = R.homogenous.linear t.numIndeps t.numDeps v + fun i : Fin t.numDeps => R.inhomogenous.getD i 0 := by
  have hwf := h.proper.wf
  rw [switching_deps hwf] at hz
  obtain ⟨R, e1, hp, hm⟩ := gj_piece hσ hwf hz hd (dx := List.ofFn dx) (by simp) bits
  refine ⟨R, e1, hm, fun v hv => ?_⟩
  have h1 := hD v
  rw [increment_eq hwf (by simp), ← piece_increment (anfForm_shape t) hp (zHatV_solves hwf (by simp))] at h1
  · obtain ⟨-, -, k2, k3, -, -, -⟩ := hp
    rw [(anfForm_shape t).b] at k2
    rw [(anfForm_shape t).jmat.2] at k3
    rw [affine_ofFn k2 k3] at h1
    injection h1 with h1
    exact (List.ofFn_injective h1).symm
  · intro i hi
    rw [zHatV_getD hi]
    exact sign_fits (signature_mul_self _ _ _) (hv i hi)

/-- The signature fits at the direction for which it was selected. -/
theorem fits_self (dx : Fin t.numIndeps → ℝ) (bits : List UInt8) :
    dx ∈ Fitting t.numAbs (zAt t) (signature bits (zHatV t (List.ofFn dx))) := by
  intro i hi
  have := signature_fits bits (zHatV t (List.ofFn dx)) i
  rw [zHatV_getD hi] at this
  rw [zAt, this]
  exact abs_nonneg _

/-- C61: some choice of the sign bits gives a limiting Jacobian of the piecewise linear model. -/
theorem C61_exists (hσ : σ.Valid) (h : Recorded t) (hz : t.switching.deps.Nodup) (hd : t.deps.Nodup)
    (hD : ∀ d, t.firstOrderForward (List.ofFn d) = .ok (List.ofFn (D d))) (dx : Fin t.numIndeps → ℝ) :
    ∃ bits R, generalizedJacobianTape σ t (List.ofFn dx) bits none = .ok R ∧
      R.homogenous.linear t.numIndeps t.numDeps ∈ limitingJacobians D dx := by
  have S := absSystem h.proper.wf hD
  obtain ⟨p, hp⟩ := S.exists_active dx
  have hin : dx ∈ Fitting t.numAbs (zAt t) (pattern p) := by
    have := closure_mono interior_subset hp
    rwa [(S.closed _).closure_eq] at this
  obtain ⟨bits, hb⟩ := exists_bits (zHatV t (List.ofFn dx)) t.numAbs p (fun i hi => by
    rw [zHatV_getD hi]; exact hin i hi)
  obtain ⟨R, e, -, hR⟩ := piece_fits hσ h hz hd hD dx bits
  have hfit : Fitting t.numAbs (zAt t) (signature bits (zHatV t (List.ofFn dx))) =
      Fitting t.numAbs (zAt t) (pattern p) := by
    ext v
    exact forall₂_congr fun i hi => by rw [hb i hi]
  rw [hfit] at hR
  exact ⟨bits, R, e, AbsSystem.mem_limiting hR hp⟩

/-- C61: every limiting Jacobian of the model is the result for some choice of the sign bits. -/
theorem C61_all (hσ : σ.Valid) (h : Recorded t) (hz : t.switching.deps.Nodup) (hd : t.deps.Nodup)
    (hD : ∀ d, t.firstOrderForward (List.ofFn d) = .ok (List.ofFn (D d))) (dx : Fin t.numIndeps → ℝ)
    {L : (Fin t.numIndeps → ℝ) →L[ℝ] (Fin t.numDeps → ℝ)} (hL : L ∈ limitingJacobians D dx) :
    ∃ bits R, generalizedJacobianTape σ t (List.ofFn dx) bits none = .ok R ∧
      R.homogenous.linear t.numIndeps t.numDeps = L := by
  have S := absSystem h.proper.wf hD
  obtain ⟨p, hp, hG⟩ := S.of_limiting hL
  have hin : dx ∈ Fitting t.numAbs (zAt t) (pattern p) := by
    have := closure_mono interior_subset hp
    rwa [(S.closed _).closure_eq] at this
  obtain ⟨bits, hb⟩ := exists_bits (zHatV t (List.ofFn dx)) t.numAbs p (fun i hi => by
    rw [zHatV_getD hi]; exact hin i hi)
  obtain ⟨R, e, -, hR⟩ := piece_fits hσ h hz hd hD dx bits
  have hfit : Fitting t.numAbs (zAt t) (signature bits (zHatV t (List.ofFn dx))) =
      Fitting t.numAbs (zAt t) (pattern p) := by
    ext v
    exact forall₂_congr fun i hi => by rw [hb i hi]
  rw [hfit] at hR
  exact ⟨bits, R, e, (hG _ _ hR).symm⟩

/-- C61, the full claim: whatever the sign bits, the result is a limiting Jacobian of the model. This is false
(`C61_inconsistent_signs_counterexample`) if several switching variables vanish; it holds if at most one does. -/
theorem C61_every_sign_partial (hσ : σ.Valid) (h : Recorded t) (hz : t.switching.deps.Nodup) (hd : t.deps.Nodup)
    (hD : ∀ d, t.firstOrderForward (List.ofFn d) = .ok (List.ofFn (D d))) (dx : Fin t.numIndeps → ℝ)
    (bits : List UInt8) {R : GenJac ℝ} (e : generalizedJacobianTape σ t (List.ofFn dx) bits none = .ok R)
    (h1 : R.multiplicity ≤ 1) : R.homogenous.linear t.numIndeps t.numDeps ∈ limitingJacobians D dx := by
  have S := absSystem h.proper.wf hD
  obtain ⟨R', e', hm, hR⟩ := piece_fits hσ h hz hd hD dx bits
  rw [e] at e'; injection e' with e'; subst e'
  refine AbsSystem.mem_limiting hR (S.active_of_simple ?_ (fun i => signature_mul_self _ _ _) (fits_self dx bits))
  rw [hm] at h1
  intro i hi j hj h2 h3
  refine Finset.card_le_one.mp h1 i ?_ j ?_ <;> rw [Finset.mem_filter, Finset.mem_range, zHatV_getD (by assumption)]
  · exact ⟨hi, h2⟩
  · exact ⟨hj, h3⟩

end

/-! ### A function with two kinks in the same place -/

section
variable {S : Type} [Flt S]

/-- `x ↦ |x| - |x + x|`. -/
def kinkF : Func S := Func.advFn 1 1 fun _ =>
  .op .Add (.var 0) (some (.var 0)) fun i _ => .op .Abs (.var 0) none fun j _ => .op .Abs (.var i) none fun k _ =>
  .op .Sub (.var j) (some (.var k)) fun r _ => .ret [.var r]

/-- Its tape. -/
def kinkTape (x : S) : Tape S :=
  ⟨[0], [4], [⟨.Add, 1, some 0, some 0⟩, ⟨.Abs, 2, some 0, none⟩, ⟨.Abs, 3, some 1, none⟩, ⟨.Sub, 4, some 2, some 3⟩],
    [x, Flt.add x x, Flt.abs x, Flt.abs (Flt.add x x), Flt.sub (Flt.abs x) (Flt.abs (Flt.add x x))], true⟩

theorem kinkTape_eq (x : S) : (kinkF.tape [x] HState.init.world).1 = .ok (kinkTape x) := by kernel_rfl

end

theorem kinkTape_recorded (x : ℝ) : Recorded (kinkTape x) := by
  rcases h : kinkF.tape [x] HState.init.world with ⟨r, w'⟩
  have h1 := kinkTape_eq x
  rw [h] at h1
  replace h1 : r = .ok (kinkTape x) := h1
  subst h1
  exact .func kinkF [x] HState.init.world w' (by decide) h

theorem kink_zHat (d : ℝ) : zHatV (kinkTape (0 : ℝ)) [d] = [d, d + d] := by
  have : zHatV (kinkTape (0 : ℝ)) [d] = [0 + d, Flt.add 0 0 + Flt.add d d] := by kernel_rfl
  simpa [LawfulFlt.add_eq] using this

/-- The piecewise linear model at 0 is `d ↦ |d| - |d + d|`. -/
theorem kink_forward (d : Fin 1 → ℝ) :
    (kinkTape (0 : ℝ)).firstOrderForward (List.ofFn d) = .ok (List.ofFn fun _ : Fin 1 => |d 0| - |d 0 + d 0|) := by
  have : (kinkTape (0 : ℝ)).firstOrderForward (List.ofFn d) = .ok [Flt.sub
      (Flt.sub (Flt.abs (Flt.add 0 (d 0))) (Flt.abs 0))
      (Flt.sub (Flt.abs (Flt.add (Flt.add 0 0) (Flt.add (d 0) (d 0)))) (Flt.abs (Flt.add 0 0)))] := by kernel_rfl
  simpa [LawfulFlt.add_eq, LawfulFlt.sub_eq, LawfulFlt.abs_eq] using this

theorem kink_result {σ : Sched} (hσ : σ.Valid) : ∃ R, generalizedJacobianTape σ (kinkTape (0 : ℝ)) [0] [1] none = .ok R ∧
    R.homogenous.get 0 0 = 3 := by
  have hwf := (kinkTape_recorded 0).proper.wf
  obtain ⟨R, e, ⟨U, hU, -, -, hG, -, -⟩, -⟩ := gj_piece hσ hwf (by decide) (by decide) (dx := [0]) rfl [1]
  have hb : (anfForm (kinkTape (0:ℝ))).b.length = 1 := rfl
  have ha : (anfForm (kinkTape (0:ℝ))).a.length = 2 := rfl
  have hn : (anfForm (kinkTape (0:ℝ))).jmat.ncols = 1 := rfl
  rw [ha, hb, kink_zHat] at hU
  rw [ha, hb, hn] at hG
  have hj : (anfForm (kinkTape (0:ℝ))).jmat.get 0 0 = Flt.sub 0 0 := by kernel_rfl
  have hz0 : (anfForm (kinkTape (0:ℝ))).zmat.get 0 0 = 1 := by kernel_rfl
  have hz1 : (anfForm (kinkTape (0:ℝ))).zmat.get 1 0 = Flt.add 1 1 := by kernel_rfl
  have hy0 : (anfForm (kinkTape (0:ℝ))).ymat.get 0 0 = Flt.sub 1 0 := by kernel_rfl
  have hy1 : (anfForm (kinkTape (0:ℝ))).ymat.get 0 1 = Flt.sub 0 1 := by kernel_rfl
  have hl0 : ∀ k < 2, ∀ j < 2, (anfForm (kinkTape (0:ℝ))).lmat.get k j = 0 := by
    intro k hk j hj
    interval_cases k <;> interval_cases j
    · have : (anfForm (kinkTape (0:ℝ))).lmat.get 0 0 = 0 := by kernel_rfl
      exact this
    · have : (anfForm (kinkTape (0:ℝ))).lmat.get 0 1 = 0 := by kernel_rfl
      exact this
    · have : (anfForm (kinkTape (0:ℝ))).lmat.get 1 0 = Flt.add 0 0 := by kernel_rfl
      simpa [LawfulFlt.add_eq] using this
    · have : (anfForm (kinkTape (0:ℝ))).lmat.get 1 1 = Flt.add 0 0 := by kernel_rfl
      simpa [LawfulFlt.add_eq] using this
  rw [LawfulFlt.sub_eq] at hj hy0 hy1
  rw [LawfulFlt.add_eq] at hz1
  have b0 : bitAt [1] 0 = true := by decide
  have b1 : bitAt [1] 1 = false := by decide
  have h0 := hU 0 (by omega) 0 (by omega)
  have h1 := hU 0 (by omega) 1 (by omega)
  simp [Finset.sum_range_succ, hl0, hy0, hy1, signature, zerosBefore, b0, b1, Finset.filter_singleton] at h0 h1
  refine ⟨R, e, ?_⟩
  rw [hG 0 (by omega) 0 (by omega), hj, Finset.sum_range_succ, Finset.sum_range_one, h0, h1, hz0, hz1]
  norm_num

/-- The slope 3 is not a convex combination of limiting Jacobians of `-|x|`. -/
theorem kink_not_limiting {R : GenJac ℝ} (hR : R.homogenous.get 0 0 = 3) : R.homogenous.linear 1 1 ∉
    convexHull ℝ (limitingJacobians (fun (d : Fin 1 → ℝ) (_ : Fin 1) => |d 0| - |d 0 + d 0|) 0) := by
  intro hin
  have hlip : LipschitzWith 1 (fun (d : Fin 1 → ℝ) (_ : Fin 1) => |d 0| - |d 0 + d 0|) := by
    refine LipschitzWith.of_dist_le_mul fun u v => ?_
    rw [NNReal.coe_one, one_mul, dist_pi_le_iff dist_nonneg]
    intro _
    refine le_trans ?_ (dist_le_pi_dist u v 0)
    rw [Real.dist_eq, Real.dist_eq, ← two_mul, ← two_mul, abs_mul, abs_mul, abs_two]
    have := abs_abs_sub_abs_le_abs_sub (u 0) (v 0)
    rw [abs_le] at this ⊢
    constructor <;> linarith [this.1, this.2]
  have hball : limitingJacobians (fun (d : Fin 1 → ℝ) (_ : Fin 1) => |d 0| - |d 0 + d 0|) 0 ⊆
      Metric.closedBall 0 1 := by
    rintro L ⟨u, -, -, hL⟩
    refine Metric.isClosed_closedBall.mem_of_tendsto hL (.of_forall fun k => ?_)
    rw [mem_closedBall_zero_iff]
    exact_mod_cast norm_fderiv_le_of_lipschitz ℝ hlip
  have h1 := convexHull_min hball (convex_closedBall _ _) hin
  replace h1 : ‖R.homogenous.linear 1 1‖ ≤ 1 := mem_closedBall_zero_iff.mp h1
  have h2 := (R.homogenous.linear 1 1).le_of_opNorm_le h1 1
  have h3 := (norm_le_pi_norm (R.homogenous.linear 1 1 1) 0).trans h2
  rw [DMat.linear_apply] at h3
  simp [hR] at h3

/-- C61 is false for arbitrary sign bits: at the kink of `x ↦ |x| - |2x| = -|x|` the bits 1, 0 select "positive" for
`x` and "negative" for `2x`. The result is the slope 3, which is not even a convex combination of limiting Jacobians
(they are 1 and -1). -/
theorem C61_inconsistent_signs_counterexample {σ : Sched} (hσ : σ.Valid) :
    ∃ (t : Tape ℝ) (D : (Fin t.numIndeps → ℝ) → Fin t.numDeps → ℝ) (R : GenJac ℝ),
      Recorded t ∧ t.switching.deps.Nodup ∧ t.deps.Nodup ∧
      (∀ d, t.firstOrderForward (List.ofFn d) = .ok (List.ofFn (D d))) ∧
      generalizedJacobianTape σ t (List.ofFn (0 : Fin t.numIndeps → ℝ)) [1] none = .ok R ∧
      R.homogenous.linear t.numIndeps t.numDeps ∉ convexHull ℝ (limitingJacobians D 0) := by
  obtain ⟨R, e, hR⟩ := kink_result hσ
  let D : (Fin 1 → ℝ) → Fin 1 → ℝ := fun d _ => |d 0| - |d 0 + d 0|
  refine ⟨kinkTape 0, D, R, kinkTape_recorded 0, ?_, ?_, kink_forward, ?_, fun hin => ?_⟩
  · rw [switching_deps (kinkTape_recorded 0).proper.wf]; decide
  · decide
  · have : List.ofFn (0 : Fin 1 → ℝ) = [0] := by simp
    exact this ▸ e
  · exact kink_not_limiting hR hin

/-- Non-vacuity of C61: the hypotheses hold for the tape above. -/
example : ∃ (t : Tape ℝ) (D : (Fin t.numIndeps → ℝ) → Fin t.numDeps → ℝ),
    Recorded t ∧ t.switching.deps.Nodup ∧ t.deps.Nodup ∧ 0 < t.numAbs ∧
      ∀ d, t.firstOrderForward (List.ofFn d) = .ok (List.ofFn (D d)) :=
  ⟨kinkTape 0, fun (d : Fin 1 → ℝ) _ => |d 0| - |d 0 + d 0|, kinkTape_recorded 0,
    by rw [switching_deps (kinkTape_recorded 0).proper.wf]; decide, by decide, by decide, kink_forward⟩

end Adv.Props
