import Verif.Props.Semismooth
import Verif.Proof.ResultsNear

/-!
# Property C89: Newton's method is well defined near a zero

Near a point where small changes do not change the control flow all recorded tapes have the same entries. The generalized Jacobians at
nearby points are close to generalized Jacobians at the point itself. If those at a zero are invertible, then Newton's method can be
carried out from every start near the zero, for all sign bits.
-/

namespace Adv.Props
open Adv Filter Topology

section
variable {σ : Sched} {n m : ℕ} {x : Fin n → ℝ} {w w' : World ℝ} {t : Tape ℝ}

/-- C89: at all points near `x` recording succeeds, in any state of the contexts, and gives a tape with the same independents,
dependents and operations. Its values are close to those at `x`. (The function may contain abs anywhere, also at a kink.) -/
theorem C89_structure (f : Func ℝ) (hw : w.nextId < usizeMax) (ht : f.tape (List.ofFn x) w = (.ok t, w'))
    (hs : f.Along piecewiseSmooth w (duals x 0)) {ε : ℝ} (hε : 0 < ε) :
    ∀ᶠ z in 𝓝 x, ∀ v : World ℝ, v.nextId < usizeMax → ∃ (u : Tape ℝ) (v' : World ℝ), f.tape (List.ofFn z) v = (.ok u, v') ∧
      u.indeps = t.indeps ∧ u.deps = t.deps ∧ u.ops = t.ops ∧ u.vals.length = t.vals.length ∧
      ∀ k, |u.vals.getD k 0 - t.vals.getD k 0| < ε := by
  obtain ⟨l, ds, hl, rfl, hev⟩ := recorded_near hw ht hs
  have hc : ∀ᶠ z in 𝓝 x, ∀ g ∈ {g | g ∈ l.vals}, |g z - g x| < ε := by
    refine (Filter.eventually_all_finite (List.finite_toSet l.vals)).mpr fun g hg => ?_
    filter_upwards [(hl.cont g hg).eventually (Metric.ball_mem_nhds _ hε)] with z hz
    rwa [Real.dist_eq] at hz
  filter_upwards [hev, hc] with z hz hz2 v hv
  obtain ⟨v', hv'⟩ := hz.2 v hv
  refine ⟨_, v', hv', rfl, rfl, rfl, by simp [tapeOn], fun k => ?_⟩
  simp only [tapeOn, List.getD_eq_getElem?_getD, List.getElem?_map]
  rcases hk : l.vals[k]? with _ | g
  · simpa using hε
  · exact hz2 g (List.mem_of_getElem? hk)

/-- C89: only finitely many matrices are returned at `x` when the sign bits vary. -/
theorem C89_finite (hσ : σ.Valid) (f : Func ℝ) (hn : f.n = .ok n) (hw : w.nextId < usizeMax)
    (ht : f.tape (List.ofFn x) w = (.ok t, w')) (hs : f.Along piecewiseSmooth w (duals x 0)) (hz : t.switching.deps.Nodup)
    (hd : t.deps.Nodup) (hm : t.numDeps = m) :
    {L : (Fin n → ℝ) →L[ℝ] (Fin m → ℝ) | ∃ bits R,
      generalizedJacobian σ f (List.ofFn x) (List.replicate n 0) bits none w = (.ok R, w') ∧ L = R.homogenous.linear n m}.Finite := by
  obtain ⟨l, ds, hl, rfl, hev⟩ := recorded_near hw ht hs
  have hwf := hev.mono fun z h => h.1
  rw [switching_deps hwf.self_of_nhds] at hz
  refine (results_near hσ hl hwf hz hd hm).1.subset ?_
  rintro L ⟨bits, R, e, rfl⟩
  rw [gj_func f ht (by simpa using hn)] at e
  exact ⟨bits, R, congrArg Prod.fst e, rfl⟩

/-- C89: the matrices are upper semicontinuous. For every `ε`, at all `z` close to `x`, every matrix that is returned at `z` in
direction 0 has a distance of at most `ε` from a matrix that is returned at `x` in direction 0, for other sign bits. -/
theorem C89_results (hσ : σ.Valid) (f : Func ℝ) (hn : f.n = .ok n) (hw : w.nextId < usizeMax)
    (ht : f.tape (List.ofFn x) w = (.ok t, w')) (hs : f.Along piecewiseSmooth w (duals x 0)) (hz : t.switching.deps.Nodup)
    (hd : t.deps.Nodup) (hm : t.numDeps = m) {ε : ℝ} (hε : 0 < ε) :
    ∀ᶠ z in 𝓝 x, ∀ (v v' : World ℝ) (bits : List UInt8) (R : GenJac ℝ), v.nextId < usizeMax →
      generalizedJacobian σ f (List.ofFn z) (List.replicate n 0) bits none v = (.ok R, v') →
      ∃ bits' R', generalizedJacobian σ f (List.ofFn x) (List.replicate n 0) bits' none w = (.ok R', w') ∧
        ‖R.homogenous.linear n m - R'.homogenous.linear n m‖ ≤ ε := by
  obtain ⟨l, ds, hl, rfl, hev⟩ := recorded_near hw ht hs
  have hwf := hev.mono fun z h => h.1
  rw [switching_deps hwf.self_of_nhds] at hz
  filter_upwards [(results_near hσ hl hwf hz hd hm).2 ε hε, hev] with z h1 h2 v v' bits R hv e
  obtain ⟨u', hu⟩ := h2.2 v hv
  rw [gj_func f hu (by simpa using hn)] at e
  obtain ⟨bits', R', e', h3⟩ := h1 bits R (congrArg Prod.fst e)
  refine ⟨bits', R', ?_, h3⟩
  rw [gj_func f ht (by simpa using hn), e']

end

section
variable {σ : Sched} {n : ℕ} {x : Fin n → ℝ} {w w' : World ℝ} {t : Tape ℝ}

/-- C89: Newton's method. Let `x` be a zero of the function and let all matrices that `generalized_jacobian` returns at `x` in direction 0
be invertible. There are a ball around `x` and a constant `Q` such that for every start `z₀` in the ball and all choices of sign bits in
all steps: the driver succeeds in every step, in any state of the contexts, the matrix is invertible, and the sequence of solutions of
`R (z' - z) = -F z` converges to `x`, where the distance to `x` is at most `Q` times the square of the previous distance. -/
theorem C89_newton (hσ : σ.Valid) (f : Func ℝ) (hn : f.n = .ok n) (hw : w.nextId < usizeMax)
    (ht : f.tape (List.ofFn x) w = (.ok t, w')) (hs : f.Along piecewiseSmooth w (duals x 0)) (hz : t.switching.deps.Nodup)
    (hd : t.deps.Nodup)
    {F : (Fin n → ℝ) → Fin n → ℝ} (hF : ∀ᶠ z in 𝓝 x, (f.evalFloat (List.ofFn z) w).1 = .ok (List.ofFn (F z))) (h0 : F x = 0)
    (hinv : ∀ bits R, generalizedJacobian σ f (List.ofFn x) (List.replicate n 0) bits none w = (.ok R, w') →
      IsUnit (R.homogenous.linear n n)) :
    ∃ δ > 0, ∃ Q : ℝ, ∀ z₀ : Fin n → ℝ, ‖z₀ - x‖ < δ → ∀ bits : ℕ → List UInt8,
      ∃ z : ℕ → Fin n → ℝ, z 0 = z₀ ∧
        (∀ k, ∃ R : GenJac ℝ,
          (∀ v : World ℝ, v.nextId < usizeMax → ∃ v',
            generalizedJacobian σ f (List.ofFn (z k)) (List.replicate n 0) (bits k) none v = (.ok R, v')) ∧
          IsUnit (R.homogenous.linear n n) ∧ R.homogenous.linear n n (z (k + 1) - z k) = -F (z k)) ∧
        Tendsto z atTop (𝓝 x) ∧ ∀ k, ‖z (k + 1) - x‖ ≤ Q * ‖z k - x‖ ^ 2 := by
  classical
  have hsp := (Func.tape_spec f (List.ofFn x) w hw).2
  rw [ht] at hsp
  obtain ⟨_, -, hT⟩ := hsp.ok_left
  have hm : t.numDeps = n := by
    have h1 := hF.self_of_nhds
    rw [Func.evalFloat_eq] at h1
    have h2 := hT.out.symm.trans h1
    have := congrArg List.length (Except.ok.inj h2)
    simpa [Tape.numDeps] using this
  obtain ⟨K, hK, hsemi⟩ := func_semismooth hσ hs hF
  obtain ⟨l, ds, hl, rfl, hev⟩ := recorded_near hw ht hs
  have hwf := hev.mono fun z h => h.1
  rw [switching_deps hwf.self_of_nhds] at hz
  obtain ⟨hfin, hnear⟩ := results_near hσ hl hwf hz hd hm
  obtain ⟨ε, hε, C, hC⟩ := units_near hfin (by
    rintro L ⟨bits, R, e, rfl⟩
    exact hinv bits R (by rw [gj_func f ht (by simpa using hn), e]))
  -- one step
  let Good : List UInt8 → (Fin n → ℝ) → (Fin n → ℝ) → Prop := fun bits z z' => ∃ R : GenJac ℝ,
    (∀ v : World ℝ, v.nextId < usizeMax → ∃ v',
      generalizedJacobian σ f (List.ofFn z) (List.replicate n 0) bits none v = (.ok R, v')) ∧
    IsUnit (R.homogenous.linear n n) ∧ R.homogenous.linear n n (z' - z) = -F z
  have hstep : ∀ᶠ z in 𝓝 x, (∀ bits, ∃ z', Good bits z z') ∧
      ∀ z', (z' = x ∨ ∃ bits, Good bits z z') → ‖z' - x‖ ≤ |C| * K * ‖z - x‖ ^ 2 := by
    filter_upwards [hsemi, hev, hnear ε hε] with z h1 h2 h3
    have hspz : TapeOf f (List.ofFn z) (tapeOn n l ds z) := by
      obtain ⟨v', hv'⟩ := h2.2 w hw
      have hsp := (Func.tape_spec f (List.ofFn z) w hw).2
      rw [hv'] at hsp
      exact hsp.ok_left.choose_spec.2
    have hzz : (zIds (tapeOn n l ds z)).Nodup := hz
    have hni : (tapeOn n l ds z).numIndeps = n := by simp [Tape.numIndeps, tapeOn]
    have key : ∀ bits R, generalizedJacobianTape σ (tapeOn n l ds z) (List.replicate n 0) bits none = .ok R →
        IsUnit (R.homogenous.linear n n) ∧ ‖Ring.inverse (R.homogenous.linear n n)‖ ≤ C := by
      intro bits R e
      obtain ⟨bits', R', e', h4⟩ := h3 bits R e
      exact hC _ ⟨bits', R', e', rfl⟩ _ h4
    constructor
    · intro bits
      obtain ⟨R, e, -⟩ := gj_piece hσ h2.1 hzz hd (dx := List.replicate n 0) (by simp [hni]) bits
      have hu := (key bits R e).1
      refine ⟨z - Ring.inverse (R.homogenous.linear n n) (F z), R, fun v hv => ?_, hu, ?_⟩
      · obtain ⟨v', hv'⟩ := h2.2 v hv
        exact ⟨v', by rw [gj_func f hv' (by simpa using hn), e]⟩
      · have := congrArg (fun L : (Fin n → ℝ) →L[ℝ] (Fin n → ℝ) => L (F z)) (Ring.mul_inverse_cancel _ hu)
        replace this : R.homogenous.linear n n (Ring.inverse (R.homogenous.linear n n) (F z)) = F z := this
        rw [sub_sub_cancel_left, map_neg, this]
    · rintro z' (rfl | ⟨bits, R, r1, r2, r3⟩)
      · rw [sub_self, norm_zero]; positivity
      · obtain ⟨v', hv'⟩ := h2.2 w hw
        obtain ⟨v'', e⟩ := r1 w hw
        rw [gj_func f hv' (by simpa using hn)] at e
        have e := congrArg Prod.fst e
        have hu := (key bits R e).2
        have hb := h1 _ bits R hspz hzz hd e
        have hB : ∀ u, Ring.inverse (R.homogenous.linear n n) (R.homogenous.linear n n u) = u := fun u =>
          congrArg (fun L : (Fin n → ℝ) →L[ℝ] (Fin n → ℝ) => L u) (Ring.inverse_mul_cancel _ r2)
        have e1 : z' - x = -Ring.inverse (R.homogenous.linear n n) (F z - F x - R.homogenous.linear n n (z - x)) := by
          have : z' - z = -Ring.inverse (R.homogenous.linear n n) (F z) := by rw [← map_neg, ← r3, hB]
          rw [h0, sub_zero, map_sub, hB]
          have e2 : z' - x = (z' - z) + (z - x) := by abel
          rw [e2, this]
          abel
        rw [e1, norm_neg]
        calc _ ≤ |C| * ‖F z - F x - R.homogenous.linear n n (z - x)‖ :=
              ContinuousLinearMap.le_of_opNorm_le _ (hu.trans (le_abs_self C)) _
          _ ≤ |C| * (K * ‖z - x‖ ^ 2) := mul_le_mul_of_nonneg_left hb (abs_nonneg C)
          _ = _ := by ring
  obtain ⟨δ1, hδ1, hball⟩ := Metric.eventually_nhds_iff.mp hstep
  set Q := |C| * K with hQd
  have hQ : 0 ≤ Q := by positivity
  obtain ⟨δ2, hδ2, hconv⟩ := quadratic_converges (Step := fun z z' => z' = x ∨ ∃ bits, Good bits z z') hQ (hstep.mono fun z h => h.2)
  refine ⟨min (min δ1 δ2) (1 / (Q + 1)), lt_min (lt_min hδ1 hδ2) (by positivity), Q, fun z₀ hz₀ bits => ?_⟩
  let next : ℕ → (Fin n → ℝ) → (Fin n → ℝ) := fun k z => if h : ∃ z', Good (bits k) z z' then h.choose else x
  let zs : ℕ → Fin n → ℝ := fun k => Nat.rec z₀ (fun k z => next k z) k
  have hzs : ∀ k, zs (k + 1) = next k (zs k) := fun k => rfl
  have hnext : ∀ k z, next k z = x ∨ ∃ b, Good b z (next k z) := by
    intro k z
    by_cases h : ∃ z', Good (bits k) z z'
    · right
      refine ⟨bits k, ?_⟩
      simp only [next, dif_pos h]
      exact h.choose_spec
    · left
      simp only [next, dif_neg h]
  obtain ⟨c1, c2⟩ := hconv zs (hz₀.trans_le ((min_le_left _ _).trans (min_le_right _ _))) fun k => hnext k (zs k)
  have hin : ∀ k, ‖zs k - x‖ < min (min δ1 δ2) (1 / (Q + 1)) := by
    intro k
    induction k with
    | zero => exact hz₀
    | succ k ih =>
      refine lt_of_le_of_lt (c2 k) (lt_of_le_of_lt ?_ ih)
      have h1 : ‖zs k - x‖ ≤ 1 / (Q + 1) := ih.le.trans (min_le_right _ _)
      have h2 : Q * ‖zs k - x‖ ≤ 1 := by
        calc _ ≤ Q * (1 / (Q + 1)) := mul_le_mul_of_nonneg_left h1 hQ
          _ ≤ 1 := by rw [mul_one_div, div_le_one (by positivity)]; linarith
      calc _ = Q * ‖zs k - x‖ * ‖zs k - x‖ := by ring
        _ ≤ 1 * ‖zs k - x‖ := mul_le_mul_of_nonneg_right h2 (norm_nonneg _)
        _ = _ := one_mul _
  refine ⟨zs, rfl, fun k => ?_, c1, c2⟩
  have hb := (hball (y := zs k) (by
    rw [dist_eq_norm]
    exact (hin k).trans_le ((min_le_left _ _).trans (min_le_left _ _)))).1 (bits k)
  have : Good (bits k) (zs k) (zs (k + 1)) := by
    rw [hzs]
    simp only [next, dif_pos hb]
    exact hb.choose_spec
  exact this

end

/-- Non-vacuity of C89: for `|x|` the hypotheses hold at the zero 0. The matrices that are returned there are 1 and -1. -/
theorem absR_newton {σ : Sched} (hσ : σ.Valid) :
    ∃ (w w' : World ℝ) (t : Tape ℝ) (F : (Fin 1 → ℝ) → Fin 1 → ℝ),
      w.nextId < usizeMax ∧ absR.tape (List.ofFn ![0]) w = (.ok t, w') ∧ absR.n = .ok 1 ∧ t.numDeps = 1 ∧
      absR.Along piecewiseSmooth w (duals ![0] 0) ∧ t.switching.deps.Nodup ∧ t.deps.Nodup ∧
      (∀ᶠ z in 𝓝 ![0], (absR.evalFloat (List.ofFn z) w).1 = .ok (List.ofFn (F z))) ∧ F ![0] = 0 ∧
      ∀ bits R, generalizedJacobian σ absR (List.ofFn ![0]) (List.replicate 1 0) bits none w = (.ok R, w') →
        IsUnit (R.homogenous.linear 1 1) := by
  rcases ht : absR.tape (List.ofFn ![0]) HState.init.world with ⟨r, w'⟩
  let t : Tape ℝ := ⟨[0], [1], [⟨.Abs, 1, some 0, none⟩], [0, Flt.abs 0], true⟩
  have h1 : (absR.tape (List.ofFn ![0]) HState.init.world).1 = .ok t := by kernel_rfl
  rw [ht] at h1
  replace h1 : r = .ok t := h1
  subst h1
  have hrec : Recorded t := .func absR _ HState.init.world w' (by decide) ht
  have hzi : (zIds t).Nodup := by show [0].Nodup; decide
  have hdi : t.deps.Nodup := by show [1].Nodup; decide
  refine ⟨HState.init.world, w', t, fun z _ => Flt.abs (z 0), by decide, ht, rfl, rfl, ?_, ?_,
    hdi, .of_forall fun z => ?_, ?_, fun bits R e => ?_⟩
  · rw [C01_straight_line absR_straight]
    unfold absR
    refine ⟨?_, fun _ _ => trivial⟩
    eachop
    · exec
    · trivial
  · rw [switching_deps hrec.proper.wf]; exact hzi
  · kernel_rfl
  · funext i
    simp [LawfulFlt.abs_eq]
  · rw [gj_func absR ht rfl] at e
    obtain ⟨R', e', ⟨U, u1, -, -, u4, -⟩, -⟩ := gj_piece hσ hrec.proper.wf hzi hdi (dx := List.replicate 1 0) rfl bits
    have : R = R' := Except.ok.inj ((congrArg Prod.fst e).symm.trans e')
    subst this
    have hsg : signature bits (zHatV t (List.replicate 1 0)) 0 = 1 ∨ signature bits (zHatV t (List.replicate 1 0)) 0 = -1 := by
      unfold signature; split_ifs <;> simp
    generalize signature bits (zHatV t (List.replicate 1 0)) = sg at u1 hsg
    have ea : (anfForm t).a.length = 1 := rfl
    have hj : (anfForm t).jmat.get 0 0 = 0 := by kernel_rfl
    have hy : (anfForm t).ymat.get 0 0 = 1 := by kernel_rfl
    have hl : (anfForm t).lmat.get 0 0 = 0 := by kernel_rfl
    have hzm : (anfForm t).zmat.get 0 0 = 1 := by kernel_rfl
    have q1 := u1 0 (by show 0 < 1; decide) 0 (by show 0 < 1; decide)
    have q2 := u4 0 (by show 0 < 1; decide) 0 (by show 0 < 1; decide)
    rw [ea, Finset.sum_range_one, hl, hy] at q1
    rw [ea, Finset.sum_range_one, hj, hzm, show U 0 0 = sg 0 by rw [q1]; ring] at q2
    have hsq : R.homogenous.linear 1 1 * R.homogenous.linear 1 1 = 1 := by
      ext u i
      have hi : i = 0 := Subsingleton.elim _ _
      subst hi
      show R.homogenous.linear 1 1 (R.homogenous.linear 1 1 _) 0 = _
      rw [DMat.linear_apply, Fin.sum_univ_one, DMat.linear_apply, Fin.sum_univ_one]
      show R.homogenous.get 0 0 * (R.homogenous.get 0 0 * _) = _
      rw [q2]
      rcases hsg with h | h <;> rw [h] <;> simp
    exact ⟨⟨_, _, hsq, hsq⟩, rfl⟩

example {σ : Sched} (hσ : σ.Valid) := absR_newton hσ

end Adv.Props
