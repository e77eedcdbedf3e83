import Verif.Props.ChainNewton
import Verif.Props.NewtonBall
import Verif.Proof.ChainNear

/-!
# Property C90: Newton's method with the chain driver is well defined near a zero

C89 for `generalized_jacobian_chain`. All conditions are conditions at the point `x` only.
-/

namespace Adv.Props
open Adv Adv.Ckpt Filter Topology

section
variable {σ : Sched} {n m : ℕ} {x : Fin n → ℝ} {w w' : World ℝ} {t : Tape ℝ} {chain : Func ℝ}

/-- C90: the conditions on the links of a chain that the theorems about the chain driver need hold at all points near `x` if they hold
at `x`: the links get vectors of the right length and return, and outputs and abs arguments are distinct variables in their tapes. -/
theorem C90_links (hw : w.nextId < usizeMax) (hs : chain.Along piecewiseSmooth w (duals x 0))
    (hfit : LinksFit w chain.flatten (List.ofFn x))
    (hL : LinkTapes w (fun t => t.switching.deps.Nodup ∧ t.deps.Nodup) chain.flatten (List.ofFn x)) :
    ∀ᶠ z in 𝓝 x, LinksFit w chain.flatten (List.ofFn z) ∧
      LinkTapes w (fun t => t.switching.deps.Nodup ∧ t.deps.Nodup) chain.flatten (List.ofFn z) :=
  chain_links_near hw hs hfit hL

/-- The matrix of the chain driver at points near `x` is a matrix of the driver for functions. -/
theorem chain_result_near (hσ : σ.Valid) (hn : chain.n = .ok n) (hw : w.nextId < usizeMax)
    (ht : chain.tape (List.ofFn x) w = (.ok t, w')) (hs : chain.Along piecewiseSmooth w (duals x 0))
    (hz : t.switching.deps.Nodup) (hd : t.deps.Nodup) (hm : t.numDeps = m) (hfit : LinksFit w chain.flatten (List.ofFn x))
    (hL : LinkTapes w (fun t => t.switching.deps.Nodup ∧ t.deps.Nodup) chain.flatten (List.ofFn x)) :
    ∀ᶠ z in 𝓝 x, ∃ (R R' : GenJac ℝ) (u : World ℝ), gjList w chain.flatten (List.ofFn z) (List.replicate n 0) = .ok R ∧
      generalizedJacobian σ chain (List.ofFn z) (List.replicate n 0) [0] none w = (.ok R', u) ∧
      R.homogenous.linear n m = R'.homogenous.linear n m := by
  obtain ⟨l, ds, hl, rfl, hev⟩ := recorded_near hw ht hs
  have hwf := hev.mono fun z h => h.1
  rw [switching_deps hwf.self_of_nhds] at hz
  filter_upwards [hev, C90_links hw hs hfit hL] with z h1 h2
  obtain ⟨u, hu⟩ := h1.2 w hw
  obtain ⟨R, hR⟩ := gjList_total hw chain.flatten (List.ofFn z) (List.replicate n 0) (by simp) h2.1
  obtain ⟨R', e, e1, e2, e3, e4, e5, e6, -⟩ := gjList_whole hw hw chain (by simp) hR h2.2 (t := tapeOn n l ds z) (by rw [hu])
    (by rw [switching_deps h1.1]; exact hz) hd
  have hni : (tapeOn n l ds z).numIndeps = n := by simp [Tape.numIndeps, tapeOn]
  have hnd : (tapeOn n l ds z).numDeps = m := hm
  rw [hni] at e3 e6
  rw [hnd] at e2 e5
  refine ⟨R, R', u, hR, ?_, linear_congr e4 e2 e3 e5 e6⟩
  rw [gj_func chain hu (by simpa using hn), generalizedJacobianTape_sched hσ Sched.seq_valid h1.1, e]

/-- C90: for every `ε`, at all `z` close to `x`, every matrix that the chain driver returns at `z` in direction 0 has a distance of at most
`ε` from a matrix that `generalized_jacobian` returns at `x` in direction 0 for the chain as a function and some sign bits. -/
theorem C90_results (hσ : σ.Valid) (hn : chain.n = .ok n) (hw : w.nextId < usizeMax)
    (ht : chain.tape (List.ofFn x) w = (.ok t, w')) (hs : chain.Along piecewiseSmooth w (duals x 0))
    (hz : t.switching.deps.Nodup) (hd : t.deps.Nodup) (hm : t.numDeps = m) (hfit : LinksFit w chain.flatten (List.ofFn x))
    (hL : LinkTapes w (fun t => t.switching.deps.Nodup ∧ t.deps.Nodup) chain.flatten (List.ofFn x)) {ε : ℝ} (hε : 0 < ε) :
    ∀ᶠ z in 𝓝 x, ∀ (τ : Sched) (est : Int → Int → Int) (capMax : Nat) (N : Option Nat) (s : Ckpt.World (World ℝ)) (R : GenJac ℝ),
      τ.Valid → (generalizedJacobianChain τ est capMax chain (List.ofFn z) (List.replicate n 0) N s).1 = .ok R →
      ∃ bits R', generalizedJacobian σ chain (List.ofFn x) (List.replicate n 0) bits none w = (.ok R', w') ∧
        ‖R.homogenous.linear n m - R'.homogenous.linear n m‖ ≤ ε := by
  filter_upwards [C89_results hσ chain hn hw ht hs hz hd hm hε, chain_result_near hσ hn hw ht hs hz hd hm hfit hL]
    with z h1 h2 τ est capMax N s R hτ e
  obtain ⟨R1, R2, u, e1, e2, e3⟩ := h2
  have hR : R = R1 := Except.ok.inj ((generalizedJacobianChain_any hτ e hw).symm.trans e1)
  subst hR
  obtain ⟨bits, R', e4, e5⟩ := h1 w u [0] R2 hw e2
  exact ⟨bits, R', e4, by rw [e3]; exact e5⟩

end

section
variable {σ : Sched} {n : ℕ} {x : Fin n → ℝ} {w w' : World ℝ} {t : Tape ℝ} {chain : Func ℝ}

/-- C90: Newton's method with the chain driver. Let `x` be a zero of the chain and let all matrices that `generalized_jacobian` returns
at `x` in direction 0 for the chain as a function be invertible. There are a ball around `x` and a constant `Q` such that from every start in
the ball: the chain driver succeeds in every step, with the same result `R` for every schedule, every number of checkpoints within the
limits of the machine words, and every state of the program, the matrix is invertible, and the sequence of solutions of
`R (z' - z) = -F z` converges to `x`, where the distance to `x` is at most `Q` times the square of the previous distance. -/
theorem C90_newton (hσ : σ.Valid) (hn : chain.n = .ok n) (hw : w.nextId < usizeMax)
    (ht : chain.tape (List.ofFn x) w = (.ok t, w')) (hs : chain.Along piecewiseSmooth w (duals x 0))
    (hz : t.switching.deps.Nodup) (hd : t.deps.Nodup) (hfit : LinksFit w chain.flatten (List.ofFn x))
    (hL : LinkTapes w (fun t => t.switching.deps.Nodup ∧ t.deps.Nodup) chain.flatten (List.ofFn x))
    {F : (Fin n → ℝ) → Fin n → ℝ} (hF : ∀ᶠ z in 𝓝 x, (chain.evalFloat (List.ofFn z) w).1 = .ok (List.ofFn (F z))) (h0 : F x = 0)
    (hinv : ∀ bits R, generalizedJacobian σ chain (List.ofFn x) (List.replicate n 0) bits none w = (.ok R, w') →
      IsUnit (R.homogenous.linear n n)) :
    ∃ δ > 0, ∃ Q : ℝ, ∀ z₀ : Fin n → ℝ, ‖z₀ - x‖ < δ →
      ∃ z : ℕ → Fin n → ℝ, z 0 = z₀ ∧
        (∀ k, ∃ R : GenJac ℝ,
          (∀ (τ : Sched) (est : Int → Int → Int) (capMax N : Nat) (s : Ckpt.World (World ℝ)), τ.Valid → SoundEst est →
            chain.len + 1 < 2 ^ 64 → 2 ≤ N → SizeOk chain.len N → N ≤ capMax → s.w.nextId + chain.len ≤ usizeMax →
            (generalizedJacobianChain τ est capMax chain (List.ofFn (z k)) (List.replicate n 0) (some N) s).1 = .ok R) ∧
          IsUnit (R.homogenous.linear n n) ∧ R.homogenous.linear n n (z (k + 1) - z k) = -F (z k)) ∧
        Tendsto z atTop (𝓝 x) ∧ ∀ k, ‖z (k + 1) - x‖ ≤ Q * ‖z k - x‖ ^ 2 := by
  have hsp := (Func.tape_spec chain (List.ofFn x) w hw).2
  rw [ht] at hsp
  obtain ⟨_, -, hT⟩ := hsp.ok_left
  have hm : t.numDeps = n := by
    have h1 := hF.self_of_nhds
    rw [Func.evalFloat_eq] at h1
    have := congrArg List.length (Except.ok.inj (hT.out.symm.trans h1))
    simpa [Tape.numDeps] using this
  obtain ⟨δ, hδ, Q, hnewton⟩ := C89_newton hσ chain hn hw ht hs hz hd hF h0 hinv
  obtain ⟨δ1, hδ1, hball⟩ := Metric.eventually_nhds_iff.mp (chain_result_near hσ hn hw ht hs hz hd hm hfit hL)
  refine ⟨min (min δ δ1) (1 / (|Q| + 1)), lt_min (lt_min hδ hδ1) (by positivity), Q, fun z₀ hz₀ => ?_⟩
  obtain ⟨z, z1, z2, z3, z4⟩ := hnewton z₀ (hz₀.trans_le ((min_le_left _ _).trans (min_le_left _ _))) fun _ => [0]
  have hin : ∀ k, ‖z k - x‖ < min (min δ δ1) (1 / (|Q| + 1)) := by
    intro k
    induction k with
    | zero => rw [z1]; exact hz₀
    | succ k ih =>
      refine lt_of_le_of_lt (z4 k) (lt_of_le_of_lt ?_ ih)
      have h1 : ‖z k - x‖ ≤ 1 / (|Q| + 1) := ih.le.trans (min_le_right _ _)
      have h2 : Q * ‖z k - x‖ ≤ 1 := by
        calc _ ≤ |Q| * ‖z k - x‖ := mul_le_mul_of_nonneg_right (le_abs_self Q) (norm_nonneg _)
          _ ≤ |Q| * (1 / (|Q| + 1)) := mul_le_mul_of_nonneg_left h1 (abs_nonneg Q)
          _ ≤ 1 := by rw [mul_one_div, div_le_one (by positivity)]; linarith
      calc _ = Q * ‖z k - x‖ * ‖z k - x‖ := by ring
        _ ≤ 1 * ‖z k - x‖ := mul_le_mul_of_nonneg_right h2 (norm_nonneg _)
        _ = _ := one_mul _
  refine ⟨z, z1, fun k => ?_, z3, z4⟩
  obtain ⟨R', r1, r2, r3⟩ := z2 k
  obtain ⟨R, R2, u, e1, e2, e3⟩ := hball (y := z k) (by
    rw [dist_eq_norm]
    exact (hin k).trans_le ((min_le_left _ _).trans (min_le_right _ _)))
  obtain ⟨v', hv'⟩ := r1 w hw
  have hR : R' = R2 := Except.ok.inj (congrArg Prod.fst (hv'.symm.trans e2))
  subst hR
  refine ⟨R, fun τ est capMax N s hτ hest q1 q2 q3 q4 q5 => ?_, by rw [e3]; exact r2, by rw [e3]; exact r3⟩
  rw [generalizedJacobianChain_eq hτ hest (N := some N) chain _ _ q1 q2 q3 q4 q5 hw, e1]

end

/-- Non-vacuity of C90: for `||x||` as a chain of two links the hypotheses hold at the zero 0, where both links have a kink. The matrices
that are returned there are 1 and -1. -/
theorem absAbsR_newton {σ : Sched} (hσ : σ.Valid) :
    ∃ (w w' : World ℝ) (t : Tape ℝ) (F : (Fin 1 → ℝ) → Fin 1 → ℝ),
      w.nextId < usizeMax ∧ absAbsR.tape (List.ofFn ![0]) w = (.ok t, w') ∧ absAbsR.n = .ok 1 ∧ t.numDeps = 1 ∧
      absAbsR.Along piecewiseSmooth w (duals ![0] 0) ∧ t.switching.deps.Nodup ∧ t.deps.Nodup ∧
      LinksFit w absAbsR.flatten (List.ofFn ![0]) ∧
      LinkTapes w (fun t => t.switching.deps.Nodup ∧ t.deps.Nodup) absAbsR.flatten (List.ofFn ![0]) ∧
      (∀ᶠ z in 𝓝 ![0], (absAbsR.evalFloat (List.ofFn z) w).1 = .ok (List.ofFn (F z))) ∧ F ![0] = 0 ∧
      ∀ bits R, generalizedJacobian σ absAbsR (List.ofFn ![0]) (List.replicate 1 0) bits none w = (.ok R, w') →
        IsUnit (R.homogenous.linear 1 1) := by
  have h0 : List.ofFn ![(0 : ℝ)] = [0] := by simp
  rcases ht : absAbsR.tape (List.ofFn ![0]) HState.init.world with ⟨r, w'⟩
  let t : Tape ℝ := ⟨[0], [2], [⟨.Abs, 1, some 0, none⟩, ⟨.Abs, 2, some 1, none⟩], [0, Flt.abs 0, Flt.abs (Flt.abs 0)], true⟩
  have h1 : (absAbsR.tape (List.ofFn ![0]) HState.init.world).1 = .ok t := by kernel_rfl
  rw [ht] at h1
  replace h1 : r = .ok t := h1
  subst h1
  have hrec : Recorded t := .func absAbsR _ HState.init.world w' (by decide) ht
  have hzi : (zIds t).Nodup := by show [0, 1].Nodup; decide
  have hdi : t.deps.Nodup := by show [2].Nodup; decide
  refine ⟨HState.init.world, w', t, fun z _ => Flt.abs (Flt.abs (z 0)), by decide, ht, rfl, rfl, ?_, ?_,
    hdi, ?_, ?_, .of_forall fun z => ?_, ?_, fun bits R e => ?_⟩
  · have hst : absAbsR.StraightLine := by
      intro p hp
      simp only [absAbsR, Func.progs, Func.progsAll, List.append_nil, List.mem_append] at hp
      rcases hp with h | h <;> exact absR_straight p h
    rw [C01_straight_line hst]
    unfold absAbsR
    refine ⟨?_, fun y hy => ?_⟩
    · eachop
      · trivial
      · trivial
    · obtain ⟨e, rfl⟩ := absR_eval (c := 0) (d := 0) hy
      refine ⟨?_, fun _ _ => trivial⟩
      eachop
      · trivial
      · trivial
  · rw [switching_deps hrec.proper.wf]; exact hzi
  · rw [h0]
    exact linksFit_cons rfl (absR_value 0) (linksFit_cons rfl (absR_value _) trivial)
  · rw [h0]
    have key : ∀ a t, (absR.tape [a] HState.init.world).1 = .ok t → t.switching.deps.Nodup ∧ t.deps.Nodup := by
      intro a t h
      have h1 : (absR.tape [a] HState.init.world).1 = .ok (⟨[0], [1], [⟨.Abs, 1, some 0, none⟩], [a, Flt.abs a], true⟩ : Tape ℝ) := by
        kernel_rfl
      rw [h1] at h
      have h2 := Except.ok.inj h
      subst h2
      exact ⟨by show [0].Nodup; decide, by show [1].Nodup; decide⟩
    refine ⟨key 0, fun y hy => ?_⟩
    have h2 := Except.ok.inj ((absR_value 0).symm.trans hy)
    subst h2
    exact ⟨key _, fun _ _ => trivial⟩
  · kernel_rfl
  · funext i
    simp [LawfulFlt.abs_eq]
  · rw [gj_func absAbsR ht rfl] at e
    obtain ⟨p, hp⟩ : ∃ p : Fin 2 → ℝ, ∀ k : Fin 2, signature bits (zHatV t (List.replicate 1 0)) k = p k := ⟨_, fun _ => rfl⟩
    have hpm : ∀ k, p k = 1 ∨ p k = -1 := by
      intro k
      rw [← hp k]
      unfold signature; split_ifs <;> simp
    have hlin : ∀ v, R.homogenous.linear 1 1 v 0 = p 1 * (p 0 * v 0) := by
      intro v
      let J : ℕ → ℝ := fun k => if k = 0 then v 0 else if k = 1 then p 0 * v 0 else if k = 2 then p 1 * (p 0 * v 0) else 0
      refine result_signed hσ hrec.proper.wf hzi hdi rfl (congrArg Prod.fst e) (sg := signature bits (zHatV t (List.replicate 1 0)))
        (fun _ _ => rfl) (v := v) (J := J) ?_ ?_ (m := 1) rfl 0
      · intro op hop
        rcases List.mem_cons.mp hop with rfl | hop
        · refine ⟨fun h => (by cases h), fun _ => ?_, fun h => absurd rfl h⟩
          exact congrArg (· * v 0) (hp 0).symm
        · rcases List.mem_cons.mp hop with rfl | hop
          · refine ⟨fun h => (by cases h), fun _ => ?_, fun h => absurd rfl h⟩
            exact congrArg (· * (p 0 * v 0)) (hp 1).symm
          · cases hop
      · intro k hk
        have k1 : k ≠ 1 := fun h => hk ⟨.Abs, 1, some 0, none⟩ (by decide) h.symm
        have k2 : k ≠ 2 := fun h => hk ⟨.Abs, 2, some 1, none⟩ (by decide) h.symm
        by_cases k0 : k = 0
        · subst k0
          have := scatterFn_get (xs := List.ofFn v) (f := fun _ => (0 : ℝ)) hrec.proper.wf.indeps_nodup (k := 0) Nat.zero_lt_one (by simp)
          refine Eq.trans ?_ this.symm
          simp [J]
        · rw [scatterFn_not_mem (by show k ∉ [0]; simpa using k0)]
          simp [J, k0, k1, k2]
    have hsq : R.homogenous.linear 1 1 * R.homogenous.linear 1 1 = 1 := by
      refine ContinuousLinearMap.ext fun v => funext fun i => ?_
      have hi : i = 0 := Subsingleton.elim _ _
      subst hi
      show R.homogenous.linear 1 1 (R.homogenous.linear 1 1 v) 0 = v 0
      rw [hlin, hlin]
      rcases hpm 0 with h | h <;> rcases hpm 1 with h' | h' <;> rw [h, h'] <;> ring
    exact ⟨⟨_, _, hsq, hsq⟩, rfl⟩

example {σ : Sched} (hσ : σ.Valid) := absAbsR_newton hσ

end Adv.Props
