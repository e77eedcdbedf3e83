import Verif.Props.Pieces
import Verif.Proof.SemiFunc

/-!
# Property C87: recorded functions are semismooth, and Newton's method with generalized Jacobians

The generalized Jacobians of a function with kinks are used in Newton's method. The inequality behind its fast convergence, and one
step of the method.
-/

namespace Adv.Props
open Adv Filter Topology

section
variable {σ : Sched} {n m : ℕ} {x : Fin n → ℝ} {w w' : World ℝ} {t : Tape ℝ}

/-- C87: the function is Lipschitz continuous near `x`. (It may contain abs anywhere, the other operations are executed inside of
their domains.) -/
theorem C87_lipschitz (f : Func ℝ) (hw : w.nextId < usizeMax) (ht : f.tape (List.ofFn x) w = (.ok t, w'))
    (hs : f.Along piecewiseSmooth w (duals x 0)) (hz : t.switching.deps.Nodup) (hd : t.deps.Nodup)
    {F : (Fin n → ℝ) → Fin m → ℝ} (hF : ∀ᶠ z in 𝓝 x, (f.evalFloat (List.ofFn z) w).1 = .ok (List.ofFn (F z))) :
    ∃ K, ∃ N ∈ 𝓝 x, LipschitzOnWith K F N := by
  have hsp := (Func.tape_spec f (List.ofFn x) w hw).2
  rw [ht] at hsp
  obtain ⟨_, -, hT⟩ := hsp.ok_left
  obtain ⟨ι, hι, P, -, -, hK, -⟩ := func_pieces Sched.seq_valid hT (by rwa [← switching_deps hT.wf]) hd hs hF
  exact hK

/-- C87: the function is semismooth at `x`: for every `ε`, at all `z` close to `x`, every limiting Jacobian `L` of the function at `z`
satisfies `‖F z - F x - L (z - x)‖ ≤ ε ‖z - x‖`. -/
theorem C87_semismooth (f : Func ℝ) (hw : w.nextId < usizeMax) (ht : f.tape (List.ofFn x) w = (.ok t, w'))
    (hs : f.Along piecewiseSmooth w (duals x 0)) (hz : t.switching.deps.Nodup) (hd : t.deps.Nodup)
    {F : (Fin n → ℝ) → Fin m → ℝ} (hF : ∀ᶠ z in 𝓝 x, (f.evalFloat (List.ofFn z) w).1 = .ok (List.ofFn (F z))) {ε : ℝ} (hε : 0 < ε) :
    ∀ᶠ z in 𝓝 x, ∀ L ∈ limitingJacobians F z, ‖F z - F x - L (z - x)‖ ≤ ε * ‖z - x‖ := by
  have hsp := (Func.tape_spec f (List.ofFn x) w hw).2
  rw [ht] at hsp
  obtain ⟨_, -, hT⟩ := hsp.ok_left
  obtain ⟨ι, hι, P, p1, p2, ⟨K, N, hN, hK⟩, -⟩ :=
    func_pieces Sched.seq_valid hT (by rwa [← switching_deps hT.wf]) hd hs hF
  refine selection_semismooth p1 p2 ?_ hε
  filter_upwards [eventually_mem_nhds_iff.mpr hN] with z hz using hK.continuousOn.continuousAt hz

/-- C87: the same for all elements of the Clarke Jacobian. -/
theorem C87_semismooth_clarke (f : Func ℝ) (hw : w.nextId < usizeMax) (ht : f.tape (List.ofFn x) w = (.ok t, w'))
    (hs : f.Along piecewiseSmooth w (duals x 0)) (hz : t.switching.deps.Nodup) (hd : t.deps.Nodup)
    {F : (Fin n → ℝ) → Fin m → ℝ} (hF : ∀ᶠ z in 𝓝 x, (f.evalFloat (List.ofFn z) w).1 = .ok (List.ofFn (F z))) {ε : ℝ} (hε : 0 < ε) :
    ∀ᶠ z in 𝓝 x, ∀ L ∈ convexHull ℝ (limitingJacobians F z), ‖F z - F x - L (z - x)‖ ≤ ε * ‖z - x‖ := by
  filter_upwards [C87_semismooth f hw ht hs hz hd hF hε] with z hz L hL
  have hconv : Convex ℝ {L : (Fin n → ℝ) →L[ℝ] (Fin m → ℝ) | ‖F z - F x - L (z - x)‖ ≤ ε * ‖z - x‖} := by
    intro A hA B hB a b ha hb hab
    show ‖F z - F x - (a • A + b • B) (z - x)‖ ≤ _
    have e : F z - F x - (a • A + b • B) (z - x) = a • (F z - F x - A (z - x)) + b • (F z - F x - B (z - x)) := by
      rw [_root_.add_apply, _root_.smul_apply, _root_.smul_apply, smul_sub a, smul_sub b]
      have : F z - F x = a • (F z - F x) + b • (F z - F x) := by rw [← add_smul, hab, one_smul]
      conv_lhs => rw [this]
      abel
    rw [e]
    calc _ ≤ ‖a • (F z - F x - A (z - x))‖ + ‖b • (F z - F x - B (z - x))‖ := norm_add_le _ _
      _ = a * ‖F z - F x - A (z - x)‖ + b * ‖F z - F x - B (z - x)‖ := by
        rw [norm_smul, norm_smul, Real.norm_of_nonneg ha, Real.norm_of_nonneg hb]
      _ ≤ a * (ε * ‖z - x‖) + b * (ε * ‖z - x‖) :=
        add_le_add (mul_le_mul_of_nonneg_left hA ha) (mul_le_mul_of_nonneg_left hB hb)
      _ = ε * ‖z - x‖ := by rw [← add_mul, hab, one_mul]
  exact convexHull_min (fun L hL => hz L hL) hconv hL

/-- C87: at all `z` close to `x`, the matrices that `generalized_jacobian` returns at `z` in direction 0 satisfy the inequality even
with a quadratic bound, for all sign bits and all multiplicities. (With several coinciding kinks such a matrix need not be a limiting
Jacobian, see `C75_inconsistent_signs_counterexample`.) -/
theorem C87_results (hσ : σ.Valid) (f : Func ℝ) (hn : f.n = .ok n) (hs : f.Along piecewiseSmooth w (duals x 0))
    {F : (Fin n → ℝ) → Fin m → ℝ} (hF : ∀ᶠ z in 𝓝 x, (f.evalFloat (List.ofFn z) w).1 = .ok (List.ofFn (F z))) :
    ∃ K : ℝ, 0 ≤ K ∧ ∀ᶠ z in 𝓝 x, ∀ (v v' : World ℝ) (t : Tape ℝ) (bits : List UInt8) (R : GenJac ℝ), v.nextId < usizeMax →
      f.tape (List.ofFn z) v = (.ok t, v') → t.switching.deps.Nodup → t.deps.Nodup →
      generalizedJacobian σ f (List.ofFn z) (List.replicate n 0) bits none v = (.ok R, v') →
      ‖F z - F x - R.homogenous.linear n m (z - x)‖ ≤ K * ‖z - x‖ ^ 2 := by
  obtain ⟨K, hK, hev⟩ := func_semismooth hσ hs hF
  refine ⟨K, hK, ?_⟩
  filter_upwards [hev] with z h v v' t bits R hv ht hz hd e
  have hsp := (Func.tape_spec f (List.ofFn z) v hv).2
  rw [ht] at hsp
  obtain ⟨_, -, hT⟩ := hsp.ok_left
  rw [gj_func f ht (by simpa using hn)] at e
  exact h t bits R hT (by rwa [← switching_deps hT.wf]) hd (congrArg Prod.fst e)

end

/-- `z'` is the result of a step of Newton's method from `z`: `z' = z - B F(z)` where `B` is an inverse, of norm at most `C`, of a
matrix that `generalized_jacobian` returns at `z` in direction 0 for some sign bits. -/
def NewtonStep (σ : Sched) (f : Func ℝ) {n : ℕ} (F : (Fin n → ℝ) → Fin n → ℝ) (C : ℝ) (z z' : Fin n → ℝ) : Prop :=
  ∃ (v v' : World ℝ) (t : Tape ℝ) (bits : List UInt8) (R : GenJac ℝ) (B : (Fin n → ℝ) →L[ℝ] (Fin n → ℝ)),
    v.nextId < usizeMax ∧ f.tape (List.ofFn z) v = (.ok t, v') ∧ t.switching.deps.Nodup ∧ t.deps.Nodup ∧
    generalizedJacobian σ f (List.ofFn z) (List.replicate n 0) bits none v = (.ok R, v') ∧
    (∀ u, B (R.homogenous.linear n n u) = u) ∧ ‖B‖ ≤ C ∧ z' = z - B (F z)

section
variable {σ : Sched} {n : ℕ} {x : Fin n → ℝ} {w : World ℝ}

/-- C87: a step of Newton's method. Let `x` be a zero of the function. For every bound `C` there is a constant `Q` such that a step
from any `z` close to `x` ends at a distance of at most `Q ‖z - x‖²` from `x`. -/
theorem C87_newton (hσ : σ.Valid) (f : Func ℝ) (hn : f.n = .ok n) (hs : f.Along piecewiseSmooth w (duals x 0))
    {F : (Fin n → ℝ) → Fin n → ℝ} (hF : ∀ᶠ z in 𝓝 x, (f.evalFloat (List.ofFn z) w).1 = .ok (List.ofFn (F z))) (h0 : F x = 0)
    (C : ℝ) : ∃ Q : ℝ, 0 ≤ Q ∧ ∀ᶠ z in 𝓝 x, ∀ z', NewtonStep σ f F C z z' → ‖z' - x‖ ≤ Q * ‖z - x‖ ^ 2 := by
  obtain ⟨K, hK, hev⟩ := C87_results hσ f hn hs hF
  refine ⟨|C| * K, by positivity, ?_⟩
  filter_upwards [hev] with z h z'
  rintro ⟨v, v', t, bits, R, B, hv, ht, hz, hd, e, hB, hBC, rfl⟩
  have h1 := h v v' t bits R hv ht hz hd e
  have e1 : z - B (F z) - x = -B (F z - F x - R.homogenous.linear n n (z - x)) := by
    rw [h0, sub_zero, map_sub, hB]; abel
  rw [e1, norm_neg]
  calc _ ≤ |C| * ‖F z - F x - R.homogenous.linear n n (z - x)‖ := B.le_of_opNorm_le (hBC.trans (le_abs_self C)) _
    _ ≤ |C| * (K * ‖z - x‖ ^ 2) := mul_le_mul_of_nonneg_left h1 (abs_nonneg C)
    _ = _ := by ring

/-- C87: Newton's method converges locally and quadratically. There are a ball around the zero `x` and a constant `Q` such that all
sequences of steps that start in the ball converge to `x`, and the distance to `x` is at most `Q` times the square of the previous
distance. -/
theorem C87_newton_converges (hσ : σ.Valid) (f : Func ℝ) (hn : f.n = .ok n) (hs : f.Along piecewiseSmooth w (duals x 0))
    {F : (Fin n → ℝ) → Fin n → ℝ} (hF : ∀ᶠ z in 𝓝 x, (f.evalFloat (List.ofFn z) w).1 = .ok (List.ofFn (F z))) (h0 : F x = 0)
    (C : ℝ) :
    ∃ δ > 0, ∃ Q : ℝ, ∀ z : ℕ → Fin n → ℝ, ‖z 0 - x‖ < δ → (∀ k, NewtonStep σ f F C (z k) (z (k + 1))) →
      Tendsto z atTop (𝓝 x) ∧ ∀ k, ‖z (k + 1) - x‖ ≤ Q * ‖z k - x‖ ^ 2 := by
  obtain ⟨Q, hQ, hev⟩ := C87_newton hσ f hn hs hF h0 C
  obtain ⟨δ, hδ, h⟩ := quadratic_converges hQ hev
  exact ⟨δ, hδ, Q, h⟩

end

/-- Non-vacuity of C87: for `|x|` the hypotheses hold at the zero 0 (take `c = 0`) and at every other point, for all sign bits. The
inverses are bounded by 1. -/
example {σ : Sched} (hσ : σ.Valid) (bits : List UInt8) (c : ℝ) :
    ∃ (w w' : World ℝ) (t : Tape ℝ) (F : (Fin 1 → ℝ) → Fin 1 → ℝ) (R : GenJac ℝ) (B : (Fin 1 → ℝ) →L[ℝ] (Fin 1 → ℝ)),
      w.nextId < usizeMax ∧ absR.tape (List.ofFn ![c]) w = (.ok t, w') ∧ absR.n = .ok 1 ∧
      absR.Along piecewiseSmooth w (duals ![c] 0) ∧ t.switching.deps.Nodup ∧ t.deps.Nodup ∧
      (∀ᶠ z in 𝓝 ![c], (absR.evalFloat (List.ofFn z) w).1 = .ok (List.ofFn (F z))) ∧ F ![0] = 0 ∧
      generalizedJacobian σ absR (List.ofFn ![c]) (List.replicate 1 0) bits none w = (.ok R, w') ∧
      (∀ u, B (R.homogenous.linear 1 1 u) = u) ∧ ‖B‖ ≤ 1 := by
  rcases ht : absR.tape (List.ofFn ![c]) HState.init.world with ⟨r, w'⟩
  let t : Tape ℝ := ⟨[0], [1], [⟨.Abs, 1, some 0, none⟩], [c, Flt.abs c], true⟩
  have h1 : (absR.tape (List.ofFn ![c]) HState.init.world).1 = .ok t := by kernel_rfl
  rw [ht] at h1
  replace h1 : r = .ok t := h1
  subst h1
  have hrec : Recorded t := .func absR _ HState.init.world w' (by decide) ht
  have hzi : (zIds t).Nodup := by show [0].Nodup; decide
  have hdi : t.deps.Nodup := by show [1].Nodup; decide
  obtain ⟨R, e, ⟨U, u1, -, -, u4, -⟩, -⟩ := gj_piece hσ hrec.proper.wf hzi hdi (dx := [0]) rfl bits
  have hsg : signature bits (zHatV t [0]) 0 = 1 ∨ signature bits (zHatV t [0]) 0 = -1 := by
    unfold signature; split_ifs <;> simp
  generalize signature bits (zHatV t [0]) = sg at u1 hsg
  have ea : (anfForm t).a.length = 1 := rfl
  have hj : (anfForm t).jmat.get 0 0 = 0 := by kernel_rfl
  have hy : (anfForm t).ymat.get 0 0 = 1 := by kernel_rfl
  have hl : (anfForm t).lmat.get 0 0 = 0 := by kernel_rfl
  have hzm : (anfForm t).zmat.get 0 0 = 1 := by kernel_rfl
  have q1 := u1 0 (by show 0 < 1; decide) 0 (by show 0 < 1; decide)
  have q2 := u4 0 (by show 0 < 1; decide) 0 (by show 0 < 1; decide)
  rw [ea, Finset.sum_range_one, hl, hy] at q1
  rw [ea, Finset.sum_range_one, hj, hzm, show U 0 0 = sg 0 by rw [q1]; ring] at q2
  refine ⟨HState.init.world, w', t, fun z _ => Flt.abs (z 0), R, sg 0 • ContinuousLinearMap.id ℝ _, by decide, ht, rfl, ?_, ?_,
    hdi, .of_forall fun z => ?_, ?_, ?_, fun u => ?_, ?_⟩
  · rw [C01_straight_line absR_straight]
    unfold absR
    refine ⟨?_, fun _ _ => trivial⟩
    eachop
    · exec
    · trivial
  · rw [switching_deps hrec.proper.wf]; exact hzi
  · kernel_rfl
  · funext i
    simp [LawfulFlt.abs_eq]
  · rw [gj_func absR ht rfl]
    exact congrArg (·, w') e
  · funext i
    have hi : i = 0 := Subsingleton.elim _ _
    subst hi
    show sg 0 * R.homogenous.linear 1 1 u 0 = u 0
    rw [DMat.linear_apply, Fin.sum_univ_one]
    show sg 0 * (R.homogenous.get 0 0 * u 0) = u 0
    rw [q2]
    rcases hsg with h | h <;> rw [h] <;> ring
  · refine ContinuousLinearMap.opNorm_le_bound _ zero_le_one fun u => ?_
    show ‖sg 0 • u‖ ≤ _
    rw [norm_smul, one_mul]
    rcases hsg with h | h <;> simp [h]

end Adv.Props
