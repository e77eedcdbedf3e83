import Verif.Props.ChainLimiting
import Verif.Props.Semismooth

/-!
# Property C88: Newton's method with the chain driver

C87 for `generalized_jacobian_chain`. It is enough that outputs and abs arguments are distinct variables in the tapes of the links;
nothing is assumed about a tape of the whole chain.
-/

namespace Adv.Props
open Adv Adv.Ckpt Filter Topology

section
variable {n m : ℕ} {chain : Func ℝ}

/-- C88: in direction 0 the chain driver returns a linear map, the inhomogeneity vanishes. -/
theorem C88_linear {σ : Sched} (hσ : σ.Valid) {est : Int → Int → Int} {capMax : Nat} {N : Option Nat} {s : Ckpt.World (World ℝ)}
    {x : List ℝ} {R : GenJac ℝ} (h : (generalizedJacobianChain σ est capMax chain x (List.replicate x.length 0) N s).1 = .ok R)
    {w : World ℝ} (hw : w.nextId < usizeMax)
    (hL : LinkTapes w (fun t => t.switching.deps.Nodup ∧ t.deps.Nodup) chain.flatten x) :
    R.homogenous.ncols = x.length ∧ R.inhomogenous = List.replicate R.homogenous.nrows 0 := by
  have hg := generalizedJacobianChain_any hσ h hw
  obtain ⟨-, i2, i3, -⟩ := gjList_ok hw _ _ _ R (by simp) hg
  obtain ⟨ys, -, -, y3⟩ := chain_increments hw chain.flatten x R (x.map fun _ => 0) (x.map fun a => (a, {0})) hg hL
    (by rw [List.map_map]; exact List.map_id _) (by
      refine List.forall₂_iff_get.mpr ⟨by simp, fun i h1 h2 => ?_⟩
      simp)
  refine ⟨i2, ?_⟩
  refine Eq.trans (List.ext_getElem (by simp [affine, i3]) fun i h1 h2 => ?_) y3
  have hz : mv R.homogenous (List.replicate x.length 0) i = 0 := by
    rw [mv]
    refine Finset.sum_eq_zero fun j _ => ?_
    simp [List.getD_eq_getElem?_getD, List.getElem?_replicate]
    right
    split_ifs <;> rfl
  simp [affine, hz, h1]

/-- C88: at all `z` close to `x`, every matrix that `generalized_jacobian_chain` returns at `z` in direction 0 satisfies the inequality
of C87, for every schedule, every number of checkpoints and all multiplicities. -/
theorem C88_results {x : Fin n → ℝ} {w : World ℝ} (hs : chain.Along piecewiseSmooth w (duals x 0))
    {F : (Fin n → ℝ) → Fin m → ℝ} (hF : ∀ᶠ z in 𝓝 x, (chain.evalFloat (List.ofFn z) w).1 = .ok (List.ofFn (F z))) :
    ∃ K : ℝ, 0 ≤ K ∧ ∀ᶠ z in 𝓝 x, ∀ (σ : Sched) (est : Int → Int → Int) (capMax : Nat) (N : Option Nat)
      (s : Ckpt.World (World ℝ)) (v : World ℝ) (R : GenJac ℝ), σ.Valid → v.nextId < usizeMax →
      LinkTapes v (fun t => t.switching.deps.Nodup ∧ t.deps.Nodup) chain.flatten (List.ofFn z) →
      (generalizedJacobianChain σ est capMax chain (List.ofFn z) (List.replicate n 0) N s).1 = .ok R →
      ‖F z - F x - R.homogenous.linear n m (z - x)‖ ≤ K * ‖z - x‖ ^ 2 := by
  obtain ⟨K, hK, hev⟩ := chain_semismooth hs hF
  refine ⟨K, hK, ?_⟩
  filter_upwards [hev] with z h σ est capMax N s v R hσ hv hL e
  exact h v R hv hL (generalizedJacobianChain_any hσ e hv)

end

/-- `z'` is the result of a step of Newton's method from `z`: `z' = z - B F(z)` where `B` is an inverse, of norm at most `C`, of a
matrix that `generalized_jacobian_chain` returns at `z` in direction 0. -/
def ChainNewtonStep (chain : Func ℝ) {n : ℕ} (F : (Fin n → ℝ) → Fin n → ℝ) (C : ℝ) (z z' : Fin n → ℝ) : Prop :=
  ∃ (σ : Sched) (est : Int → Int → Int) (capMax : Nat) (N : Option Nat) (s : Ckpt.World (World ℝ)) (v : World ℝ) (R : GenJac ℝ)
    (B : (Fin n → ℝ) →L[ℝ] (Fin n → ℝ)), σ.Valid ∧ v.nextId < usizeMax ∧
    LinkTapes v (fun t => t.switching.deps.Nodup ∧ t.deps.Nodup) chain.flatten (List.ofFn z) ∧
    (generalizedJacobianChain σ est capMax chain (List.ofFn z) (List.replicate n 0) N s).1 = .ok R ∧
    (∀ u, B (R.homogenous.linear n n u) = u) ∧ ‖B‖ ≤ C ∧ z' = z - B (F z)

section
variable {n : ℕ} {x : Fin n → ℝ} {w : World ℝ} {chain : Func ℝ}

/-- C88: a step of Newton's method. Let `x` be a zero of the chain. For every bound `C` there is a constant `Q` such that a step
from any `z` close to `x` ends at a distance of at most `Q ‖z - x‖²` from `x`. -/
theorem C88_newton (hs : chain.Along piecewiseSmooth w (duals x 0)) {F : (Fin n → ℝ) → Fin n → ℝ}
    (hF : ∀ᶠ z in 𝓝 x, (chain.evalFloat (List.ofFn z) w).1 = .ok (List.ofFn (F z))) (h0 : F x = 0) (C : ℝ) :
    ∃ Q : ℝ, 0 ≤ Q ∧ ∀ᶠ z in 𝓝 x, ∀ z', ChainNewtonStep chain F C z z' → ‖z' - x‖ ≤ Q * ‖z - x‖ ^ 2 := by
  obtain ⟨K, hK, hev⟩ := C88_results hs hF
  refine ⟨|C| * K, by positivity, ?_⟩
  filter_upwards [hev] with z h z'
  rintro ⟨σ, est, capMax, N, s, v, R, B, hσ, hv, hL, e, hB, hBC, rfl⟩
  have h1 := h σ est capMax N s v R hσ hv hL e
  have e1 : z - B (F z) - x = -B (F z - F x - R.homogenous.linear n n (z - x)) := by
    rw [h0, sub_zero, map_sub, hB]; abel
  rw [e1, norm_neg]
  calc _ ≤ |C| * ‖F z - F x - R.homogenous.linear n n (z - x)‖ := B.le_of_opNorm_le (hBC.trans (le_abs_self C)) _
    _ ≤ |C| * (K * ‖z - x‖ ^ 2) := mul_le_mul_of_nonneg_left h1 (abs_nonneg C)
    _ = _ := by ring

/-- C88: Newton's method with the chain driver converges locally and quadratically. The schedule, the number of checkpoints and the
state of the program may change from step to step. -/
theorem C88_newton_converges (hs : chain.Along piecewiseSmooth w (duals x 0)) {F : (Fin n → ℝ) → Fin n → ℝ}
    (hF : ∀ᶠ z in 𝓝 x, (chain.evalFloat (List.ofFn z) w).1 = .ok (List.ofFn (F z))) (h0 : F x = 0) (C : ℝ) :
    ∃ δ > 0, ∃ Q : ℝ, ∀ z : ℕ → Fin n → ℝ, ‖z 0 - x‖ < δ → (∀ k, ChainNewtonStep chain F C (z k) (z (k + 1))) →
      Tendsto z atTop (𝓝 x) ∧ ∀ k, ‖z (k + 1) - x‖ ≤ Q * ‖z k - x‖ ^ 2 := by
  obtain ⟨Q, hQ, hev⟩ := C88_newton hs hF h0 C
  obtain ⟨δ, hδ, h⟩ := quadratic_converges hQ hev
  exact ⟨δ, hδ, Q, h⟩

end

/-! ### A chain with two coinciding kinks -/

/-- `x ↦ ||x||`. -/
noncomputable def absAbsR : Func ℝ := .chain [absR, absR]

/-- The slopes of `|x|`, for every point, direction and sign bits. -/
theorem absR_slope {σ : Sched} (hσ : σ.Valid) {c d : ℝ} {bits : List UInt8} {R : GenJac ℝ}
    (h : (generalizedJacobian σ absR [c] [d] bits none HState.init.world).1 = .ok R) :
    R.homogenous.ncols = 1 ∧ R.homogenous.nrows = 1 ∧ (R.homogenous.get 0 0 = 1 ∨ R.homogenous.get 0 0 = -1) := by
  rcases ht : absR.tape [c] HState.init.world with ⟨r, w'⟩
  let t : Tape ℝ := ⟨[0], [1], [⟨.Abs, 1, some 0, none⟩], [c, Flt.abs c], true⟩
  have h1 : (absR.tape [c] HState.init.world).1 = .ok t := by kernel_rfl
  rw [ht] at h1
  replace h1 : r = .ok t := h1
  subst h1
  have hrec : Recorded t := .func absR _ HState.init.world w' (by decide) ht
  have hzi : (zIds t).Nodup := by show [0].Nodup; decide
  have hdi : t.deps.Nodup := by show [1].Nodup; decide
  obtain ⟨R', e, ⟨U, u1, u2, u3, u4, -⟩, -⟩ := gj_piece hσ hrec.proper.wf hzi hdi (dx := [d]) rfl bits
  rw [gj_func absR ht rfl] at h
  replace h : generalizedJacobianTape σ t [d] bits none = .ok R := h
  rw [h] at e
  have e' : R = R' := by injection e
  subst e'
  have hsg : signature bits (zHatV t [d]) 0 = 1 ∨ signature bits (zHatV t [d]) 0 = -1 := by
    unfold signature; split_ifs <;> simp
  generalize signature bits (zHatV t [d]) = sg at u1 hsg
  have ea : (anfForm t).a.length = 1 := rfl
  have hj : (anfForm t).jmat.get 0 0 = 0 := by kernel_rfl
  have hy : (anfForm t).ymat.get 0 0 = 1 := by kernel_rfl
  have hl : (anfForm t).lmat.get 0 0 = 0 := by kernel_rfl
  have hzm : (anfForm t).zmat.get 0 0 = 1 := by kernel_rfl
  have q1 := u1 0 (by show 0 < 1; decide) 0 (by show 0 < 1; decide)
  have q2 := u4 0 (by show 0 < 1; decide) 0 (by show 0 < 1; decide)
  rw [ea, Finset.sum_range_one, hl, hy] at q1
  rw [ea, Finset.sum_range_one, hj, hzm, show U 0 0 = sg 0 by rw [q1]; ring] at q2
  refine ⟨u3.trans rfl, u2.trans rfl, ?_⟩
  rw [q2]
  rcases hsg with h | h <;> rw [h] <;> norm_num

theorem absR_evalD (c d : ℝ) : ∃ e, absR.evalD [(c, d)] = .ok [(Flt.abs c, e)] := ⟨_, rfl⟩

theorem absR_value (c : ℝ) : (absR.evalFloat [c] HState.init.world).1 = .ok [Flt.abs c] := by kernel_rfl

theorem absR_eval {c d : ℝ} {ys : List (AFloat ℝ)} (h : (absR.eval [AFloat.new c d] HState.init.world).1 = .ok ys) :
    ∃ e, ys = [AFloat.new (Flt.abs c) e] := by
  obtain ⟨e, he⟩ := absR_evalD c d
  have h1 := congrArg Prod.fst (Func.eval_new absR [(c, d)] HState.init.world)
  rw [he] at h1
  have h2 := h.symm.trans h1
  exact ⟨e, by injection h2⟩

/-- Non-vacuity of C88: for `||x||` as a chain of two links, the hypotheses hold at the zero 0 (take `c = 0`), where both links have
a kink, and at every other point. The inverses are bounded by 1. -/
example (c : ℝ) : ∃ (w : World ℝ) (F : (Fin 1 → ℝ) → Fin 1 → ℝ) (z' : Fin 1 → ℝ), w.nextId < usizeMax ∧
      absAbsR.Along piecewiseSmooth w (duals ![c] 0) ∧
      (∀ᶠ z in 𝓝 ![c], (absAbsR.evalFloat (List.ofFn z) w).1 = .ok (List.ofFn (F z))) ∧ F ![0] = 0 ∧
      ChainNewtonStep absAbsR F 1 ![c] z' := by
  have hw : (HState.init : HState ℝ).world.nextId < usizeMax := by decide
  have h0 : List.ofFn ![c] = [c] := by simp
  have hfit : LinksFit HState.init.world absAbsR.flatten [c] :=
    linksFit_cons rfl (absR_value c) (linksFit_cons rfl (absR_value _) trivial)
  have hL : LinkTapes HState.init.world (fun t => t.switching.deps.Nodup ∧ t.deps.Nodup) absAbsR.flatten [c] := by
    have key : ∀ a t, (absR.tape [a] HState.init.world).1 = .ok t → t.switching.deps.Nodup ∧ t.deps.Nodup := by
      intro a t h
      have h1 : (absR.tape [a] HState.init.world).1 = .ok (⟨[0], [1], [⟨.Abs, 1, some 0, none⟩], [a, Flt.abs a], true⟩ : Tape ℝ) := by
        kernel_rfl
      rw [h1] at h
      have h2 := Except.ok.inj h
      subst h2
      exact ⟨by show [0].Nodup; decide, by show [1].Nodup; decide⟩
    refine ⟨key c, fun y hy => ?_⟩
    have h2 := Except.ok.inj ((absR_value c).symm.trans hy)
    subst h2
    exact ⟨key _, fun _ _ => trivial⟩
  obtain ⟨R, hR⟩ := gjList_total hw absAbsR.flatten [c] [0] rfl hfit
  have hdrv : (generalizedJacobianChain Sched.seq lowEst 10 absAbsR [c] [0] (some 2) ⟨HState.init.world, 0⟩).1 = .ok R := by
    rw [generalizedJacobianChain_eq Sched.seq_valid lowEst_sound (N := some 2) absAbsR _ _
      (show 2 + 1 < 2 ^ 64 by decide) (show 2 ≤ 2 by decide) (Or.inr (show (2 + 1) * 2 < 2 ^ 63 by decide))
      (show 2 ≤ 10 by decide) (show 1 + 2 ≤ 2 ^ 64 - 1 by decide) hw]
    exact hR
  have hpiece := C82_composition Sched.seq_valid hdrv rfl hw
  have hslope : R.homogenous.get 0 0 = 1 ∨ R.homogenous.get 0 0 = -1 := by
    change ChainPiece _ [absR, absR] [c] [0] R at hpiece
    cases hpiece with
    | @cons _ _ _ _ ys g1 R1 _ he hn hR1 hc =>
      obtain ⟨e, rfl⟩ := absR_eval he
      obtain ⟨a1, a2, a3⟩ := absR_slope Sched.seq_valid hR1
      cases hn with
      | @cons _ _ _ _ ys g2 R2 _ he hn hR2 hc2 =>
        obtain ⟨e2, rfl⟩ := absR_eval he
        obtain ⟨b1, b2, b3⟩ := absR_slope Sched.seq_valid hR2
        cases hn with
        | nil _ _ _ hr hcc hg hi hm =>
          have i1 := hg 0 Nat.zero_lt_one 0 Nat.zero_lt_one
          have hr1 : g2.homogenous.nrows = 1 := hr
          have hc1 : g2.homogenous.ncols = 1 := hcc
          have m2 := hc2.hom.get 0 (by rw [hr1]; decide) 0 (by rw [b1]; decide)
          rw [hc1, Finset.sum_range_one, i1] at m2
          have m1 := hc.hom.get 0 (by rw [hc2.hom.nrows, hr1]; decide) 0 (by rw [a1]; decide)
          rw [hc2.hom.ncols, b1, Finset.sum_range_one, m2] at m1
          rw [m1]
          rcases a3 with a | a <;> rcases b3 with b | b <;> rw [a, b] <;> norm_num
  generalize hs : R.homogenous.get 0 0 = s at hslope
  refine ⟨HState.init.world, fun z _ => Flt.abs (Flt.abs (z 0)), _, hw, ?_, .of_forall fun z => ?_, ?_, Sched.seq, lowEst, 10, some 2,
    ⟨HState.init.world, 0⟩, HState.init.world, R, s • ContinuousLinearMap.id ℝ _, Sched.seq_valid, hw, by rw [h0]; exact hL,
    by rw [h0]; exact hdrv, fun u => ?_, ?_, rfl⟩
  · have hst : absAbsR.StraightLine := by
      intro p hp
      simp only [absAbsR, Func.progs, Func.progsAll, List.append_nil, List.mem_append] at hp
      rcases hp with h | h <;> exact absR_straight p h
    rw [C01_straight_line hst]
    unfold absAbsR
    refine ⟨?_, fun y hy => ?_⟩
    · eachop
      · trivial
      · trivial
    · obtain ⟨e, rfl⟩ := absR_eval (c := c) (d := 0) hy
      refine ⟨?_, fun _ _ => trivial⟩
      eachop
      · trivial
      · trivial
  · kernel_rfl
  · funext i
    simp [LawfulFlt.abs_eq]
  · funext i
    have hi : i = 0 := Subsingleton.elim _ _
    subst hi
    show s * R.homogenous.linear 1 1 u 0 = u 0
    rw [DMat.linear_apply, Fin.sum_univ_one]
    show s * (R.homogenous.get 0 0 * u 0) = u 0
    rw [hs]
    rcases hslope with h | h <;> rw [h] <;> ring
  · refine ContinuousLinearMap.opNorm_le_bound _ zero_le_one fun u => ?_
    show ‖s • u‖ ≤ _
    rw [norm_smul, one_mul]
    rcases hslope with h | h <;> simp [h]

end Adv.Props
