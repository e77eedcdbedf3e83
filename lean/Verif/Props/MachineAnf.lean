import Verif.Proof.RoundForms
import Verif.Props.Machine
import Verif.Props.GeneralizedJacobian

/-!
# Properties C79 and C80: abs-normal forms and generalized Jacobians of machine numbers

As C78, for the drivers for piecewise smooth functions. Arguments of absolute values may vanish, the tapes may contain
repeated abs arguments and repeated outputs, and the loops may run on any number of threads.
-/

set_option linter.unusedSectionVars false

namespace Adv.Props
open Adv Filter Topology
open scoped Adv

/-! ## C79 -/

/-- C79 for tapes: the abs-normal form that a machine computes from a tape has the shape of the exact one, its entries are
finite, and their errors are at most `K u`. -/
theorem C79_tape {t : Tape ℝ} (h : Recorded t) (hd : t.InDomain) (C : ℝ) :
    ∃ F, (∀ σ : Sched, σ.Valid → (do absNormalTape σ (← AbsNormalTape.new t)) = .ok F) ∧
    ∃ K u₀, 0 < u₀ ∧ ∀ (S : Type) (val : S → Option ℝ) (A : Flt S) (u : ℝ) (t' : Tape S) (σ : Sched), Machine val A u →
      u ≤ u₀ → t.CloseM val (C * u) t' → t.SameExponentsM val t' → σ.Valid →
      ∃ F', (do absNormalTape σ (← AbsNormalTape.new t')) = .ok F' ∧ F.CloseM val (K * u) F' := by
  obtain ⟨F, h1, K, u₀, -, h2, h3⟩ := absNormalTape_machine h.proper.wf hd C
  exact ⟨F, h1, K, u₀, h2, fun S val A u t' σ hA hu ht he hσ =>
    h3 S val A u (t', σ) hA hu ⟨⟨ht.indeps, ht.deps, ht.ops, ht.vals⟩, he, hσ⟩⟩

/-- C79: as `C79_tape`, where the tape is recorded by the machine. -/
theorem C79_abs_normal (f : Func ℝ) {n : ℕ} {x : Fin n → ℝ} {w w' : World ℝ} {t : Tape ℝ} (hw : w.nextId < usizeMax)
    (ht : f.tape (List.ofFn x) w = (.ok t, w')) (hs : f.Along piecewiseSmooth w (duals x 0)) (C : ℝ) :
    ∃ F, (∀ σ : Sched, σ.Valid → (absNormal σ f (List.ofFn x) w).1 = .ok F) ∧
    ∃ K u₀, 0 < u₀ ∧ ∀ (S : Type) (val : S → Option ℝ) (A : Flt S) (u : ℝ) (g : Func S) (x' : Fin n → S) (v : World S)
      (σ : Sched), Machine val A u → u ≤ u₀ → f.Same val g → (∀ j, WithinM val (C * u) (x j) (x' j)) →
      v.nextId < usizeMax → σ.Valid → ∃ F', (absNormal σ g (List.ofFn x') v).1 = .ok F' ∧ F.CloseM val (K * u) F' := by
  obtain ⟨K1, u₁, h1, h2⟩ := C78_recording f hw ht hs C
  obtain ⟨F, k0, K, u₂, k1, k2⟩ := C79_tape (.func f _ w w' hw ht) (C65_domain f hw ht hs) K1
  refine ⟨F, fun σ hσ => ?_, K, min u₁ u₂, lt_min h1 k1, fun S val A u g x' v σ hA hu hg hx hv hσ => ?_⟩
  · unfold absNormal
    rw [M.bind_apply, ht]
    exact k0 σ hσ
  · obtain ⟨t', q1, q2, q3⟩ := h2 S val A u g x' v hA (hu.trans (min_le_left _ _)) hg hx hv
    obtain ⟨F', r1, r2⟩ := k2 S val A u t' σ hA (hu.trans (min_le_right _ _)) q2 q3 hσ
    refine ⟨F', ?_, r2⟩
    unfold absNormal
    rcases e : @Func.tape S A g (List.ofFn x') v with ⟨r, v'⟩
    rw [e] at q1
    replace q1 : r = .ok t' := q1
    subst q1
    rw [M.bind_apply, e]
    exact r1

/-! ## C80 -/

/-- C80 for tapes: if no sign bits are used (the multiplicity of the exact result is that of `next`, or zero), the
generalized Jacobian that a machine computes has the same shape and the same multiplicity, its entries are finite, and
their errors are at most `K u`. -/
theorem C80_tape {t : Tape ℝ} (h : Recorded t) (hd : t.InDomain) {dx : List ℝ} (hx : dx.length = t.numIndeps)
    (bits : List UInt8) {next : Option (GenJac ℝ)}
    (hs : ∀ N, next = some N → N.homogenous.ncols = t.numDeps ∧ N.inhomogenous.length = N.homogenous.nrows)
    {σ₀ : Sched} (hσ₀ : σ₀.Valid) {G : GenJac ℝ} (hG : generalizedJacobianTape σ₀ t dx bits next = .ok G)
    (hmul : G.multiplicity = (next.map GenJac.multiplicity).getD 0) (C : ℝ) :
    ∃ K u₀, 0 < u₀ ∧ ∀ (S : Type) (val : S → Option ℝ) (A : Flt S) (u : ℝ) (t' : Tape S) (dx' : List S)
      (next' : Option (GenJac S)) (σ : Sched), Machine val A u → u ≤ u₀ →
      t.CloseM val (C * u) t' → t.SameExponentsM val t' → List.Forall₂ (WithinM val (C * u)) dx dx' →
      Option.Rel (GenJac.CloseM val (C * u)) next next' → σ.Valid →
      ∃ G', generalizedJacobianTape σ t' dx' bits next' = .ok G' ∧ G.CloseM val (K * u) G' := by
  obtain ⟨K, u₀, -, h2, h3⟩ := generalizedJacobianTape_machine h.proper.wf hd hx bits hs hσ₀ hG hmul C
  exact ⟨K, u₀, h2, fun S val A u t' dx' next' σ hA hu ht he hdx hn hσ =>
    h3 S val A u (t', σ, dx', next') hA hu ⟨⟨ht.indeps, ht.deps, ht.ops, ht.vals⟩, he, hσ, hdx, hn⟩⟩

theorem GenJac.CloseM.mono {S : Type} {v : S → Option ℝ} {K K' u : ℝ} (hu : 0 ≤ u) (h : K ≤ K') {M : GenJac ℝ} {N : GenJac S}
    (hw : M.CloseM v (K * u) N) : M.CloseM v (K' * u) N :=
  ⟨hw.homogenous.mono hu h, forall₂_withinM_mono hu h hw.inhomogenous, hw.multiplicity⟩

theorem relMono {α β : Type} {R R' : α → β → Prop} (h : ∀ a b, R a b → R' a b) {x : Option α} {y : Option β}
    (hr : Option.Rel R x y) : Option.Rel R' x y := by
  cases hr with
  | some hab => exact .some (h _ _ hab)
  | none => exact .none

/-- C80: as `C80_tape`, where the tape is recorded by the machine. -/
theorem C80_generalized_jacobian (f : Func ℝ) {n : ℕ} {x dx : Fin n → ℝ} {w w' : World ℝ} {t : Tape ℝ} (hw : w.nextId < usizeMax)
    (ht : f.tape (List.ofFn x) w = (.ok t, w')) (hs : f.Along piecewiseSmooth w (duals x 0)) (bits : List UInt8)
    {next : Option (GenJac ℝ)}
    (hn : ∀ N, next = some N → N.homogenous.ncols = t.numDeps ∧ N.inhomogenous.length = N.homogenous.nrows)
    {σ₀ : Sched} (hσ₀ : σ₀.Valid) {G : GenJac ℝ}
    (hG : (generalizedJacobian σ₀ f (List.ofFn x) (List.ofFn dx) bits next w).1 = .ok G)
    (hmul : G.multiplicity = (next.map GenJac.multiplicity).getD 0) (C : ℝ) :
    ∃ K u₀, 0 < u₀ ∧ ∀ (S : Type) (val : S → Option ℝ) (A : Flt S) (u : ℝ) (g : Func S) (x' dx' : Fin n → S)
      (next' : Option (GenJac S)) (v : World S) (σ : Sched), Machine val A u → u ≤ u₀ → f.Same val g →
      (∀ j, WithinM val (C * u) (x j) (x' j)) → (∀ j, WithinM val (C * u) (dx j) (dx' j)) →
      Option.Rel (GenJac.CloseM val (C * u)) next next' → v.nextId < usizeMax → σ.Valid →
      ∃ G', (generalizedJacobian σ g (List.ofFn x') (List.ofFn dx') bits next' v).1 = .ok G' ∧ G.CloseM val (K * u) G' := by
  obtain ⟨K1, u₁, h1, h2⟩ := C78_recording f hw ht hs C
  have hfn : f.n = .ok n ∧ generalizedJacobianTape σ₀ t (List.ofFn dx) bits next = .ok G := by
    unfold generalizedJacobian at hG
    rcases e : f.n with _ | k
    · simp only [e] at hG; cases hG
    · by_cases hk : n = k
      · subst hk
        simp only [e, M.bind_apply, M.lift_apply, List.length_ofFn, assertR, decide_true, if_true, ht] at hG
        exact ⟨rfl, hG⟩
      · simp [e, M.bind_apply, M.lift_apply, assertR, hk] at hG
  have hni : t.numIndeps = n := by
    have h := (Func.tape_spec f (List.ofFn x) w hw).2
    rw [ht] at h
    obtain ⟨_, -, h⟩ := h.ok_left
    simp [Tape.numIndeps, h.indeps]
  obtain ⟨K, u₂, k1, k2⟩ := C80_tape (.func f _ w w' hw ht) (C65_domain f hw ht hs) (dx := List.ofFn dx) (by simp [hni]) bits
    hn hσ₀ hfn.2 hmul (max K1 C)
  refine ⟨K, min u₁ u₂, lt_min h1 k1, fun S val A u g x' dx' next' v σ hA hu hg hx hdx hnn hv hσ => ?_⟩
  obtain ⟨t', q1, q2, q3⟩ := h2 S val A u g x' v hA (hu.trans (min_le_left _ _)) hg hx hv
  have hc : C * u ≤ max K1 C * u := mul_le_mul_of_nonneg_right (le_max_right _ _) hA.nonneg
  obtain ⟨G', r1, r2⟩ := k2 S val A u t' (List.ofFn dx') next' σ hA (hu.trans (min_le_right _ _))
    (CloseM.mono (mul_le_mul_of_nonneg_right (le_max_left _ _) hA.nonneg) q2) q3
    (WithinM.monos hc (forall₂_ofFn hdx)) (relMono (fun _ _ h => GenJac.CloseM.mono hA.nonneg (le_max_right _ _) h) hnn) hσ
  refine ⟨G', ?_, r2⟩
  unfold generalizedJacobian
  rcases e : @Func.tape S A g (List.ofFn x') v with ⟨r, v'⟩
  rw [e] at q1
  replace q1 : r = .ok t' := q1
  subst q1
  have hgn : g.n = .ok n := hg.n_eq.trans hfn.1
  simp only [hgn, M.bind_apply, M.lift_apply, List.length_ofFn, assertR, decide_true, if_true, e]
  exact r1

/-! ## Non-vacuity and counterexample -/

/-- `||x| - 1|` for any numbers. -/
def nestFS (S : Type) (one : S) : Func S := Func.advFn 1 1 fun _ =>
  .op .Abs (.var 0) none fun i _ =>
  .op .Sub (.var i) (some (.lit one)) fun j _ =>
  .op .Abs (.var j) none fun k _ => .ret [.var k]

theorem nestFS_same {S : Type} {val : S → Option ℝ} {one : S} (h : val one = some 1) : (nestFS ℝ 1).Same val (nestFS S one) :=
  Func.Same.advFn 1 1 fun _ _ _ => .op _ (.var _) .none fun _ _ _ _ => .op _ (.var _) (.some (.lit h)) fun _ _ _ _ =>
    .op _ (.var _) .none fun _ _ _ _ => .ret (.cons (.var _) .nil)

/-- The tape of `||x| - 1|` at `x`. -/
noncomputable def nestTapeR (x : ℝ) : Tape ℝ :=
  ⟨[0], [4], [⟨.Abs, 1, some 0, none⟩, ⟨.Const, 2, none, none⟩, ⟨.Sub, 3, some 1, some 2⟩, ⟨.Abs, 4, some 3, none⟩],
    [x, Flt.abs x, 1, Flt.sub (Flt.abs x) 1, Flt.abs (Flt.sub (Flt.abs x) 1)], true⟩

theorem nestFS_tape (x : ℝ) : ∃ w', (nestFS ℝ 1).tape (List.ofFn ![x]) HState.init.world = (.ok (nestTapeR x), w') := by
  rcases ht : (nestFS ℝ 1).tape (List.ofFn ![x]) HState.init.world with ⟨r, w'⟩
  have h1 : ((nestFS ℝ 1).tape (List.ofFn ![x]) HState.init.world).1 = .ok (nestTapeR x) := by kernel_rfl
  rw [ht] at h1
  replace h1 : r = .ok (nestTapeR x) := h1
  exact ⟨w', by rw [h1]⟩

theorem nestFS_along (x : ℝ) (w : World ℝ) : (nestFS ℝ 1).Along piecewiseSmooth w (duals ![x] 0) := by
  rw [C01_straight_line (by straight nestFS)]
  unfold nestFS
  refine ⟨?_, fun _ _ => trivial⟩
  eachop
  · trivial
  eachop
  · trivial
  eachop
  · trivial
  · trivial

/-- Non-vacuity of C79: the abs-normal form of `||x| - 1|` at the kink `0`, recorded and computed by any machine. -/
example : ∃ (F : AbsNormalForm ℝ) (K u₀ : ℝ), 0 < u₀ ∧ ∀ (S : Type) (val : S → Option ℝ) (A : Flt S) (u : ℝ) (v : World S),
    Machine val A u → u ≤ u₀ → v.nextId < usizeMax →
    ∃ F', (absNormal Sched.seq (nestFS S A.one) [A.zero] v).1 = .ok F' ∧ F.CloseM val (K * u) F' := by
  obtain ⟨w', ht⟩ := nestFS_tape 0
  obtain ⟨F, -, K, u₀, k1, k2⟩ := C79_abs_normal _ (by decide) ht (nestFS_along 0 _) 0
  refine ⟨F, K, u₀, k1, fun S val A u v hA hu hv => ?_⟩
  exact k2 S val A u (nestFS S A.one) ![A.zero] v _ hA hu (nestFS_same hA.one) (fun j => by
    fin_cases j
    exact ⟨0, hA.zero, by simp⟩) hv Sched.seq_valid

/-- Non-vacuity of C80: at the kink `0` in the direction `1/2` of `||x| - 1|` no sign bits are used. -/
theorem nestFS_direction : ∃ G, (generalizedJacobian Sched.seq (nestFS ℝ 1) (List.ofFn ![0]) (List.ofFn ![1 / 2]) [] none
    HState.init.world).1 = .ok G ∧ G.multiplicity = 0 := by
  obtain ⟨w', ht⟩ := nestFS_tape 0
  obtain ⟨R, z, dz, h1, h2, h3, h4⟩ := C21_multiplicity Sched.seq_valid (.func _ _ _ w' (by decide) ht)
    (dx := List.ofFn ![1 / 2]) rfl []
  have e1 : (nestTapeR 0).switching.y = .ok [0, Flt.sub (Flt.abs 0) 1] := rfl
  have e2 : (nestTapeR 0).switching.firstOrderForward (List.ofFn ![1 / 2]) =
      .ok [1 / 2, Flt.sub (Flt.sub (Flt.abs (Flt.add 0 (1 / 2))) (Flt.abs 0)) 0] := rfl
  rw [e1] at h2
  rw [e2] at h3
  injection h2 with h2
  injection h3 with h3
  have hn : (nestFS ℝ 1).n = .ok 1 := rfl
  refine ⟨R, ?_, ?_⟩
  · unfold generalizedJacobian
    simp only [hn, M.bind_apply, M.lift_apply, List.length_ofFn, assertR, decide_true, if_true, ht]
    exact h1
  · rw [h4, ← h2, ← h3]
    simp only [List.zipWith_cons_cons, List.zipWith_nil_left, List.length_eq_zero_iff, List.filter_eq_nil_iff, List.mem_cons,
      List.not_mem_nil, or_false]
    rintro a (rfl | rfl)
    · norm_num
    · show ¬ decide (|(0 : ℝ)| - 1 + (|0 + 1 / 2| - |0| - 0) = 0) = true
      rw [decide_eq_true_iff]
      norm_num

/-- The machine finds the same piece, with small errors. -/
example : ∃ (G : GenJac ℝ) (K u₀ : ℝ), 0 < u₀ ∧ ∀ (S : Type) (val : S → Option ℝ) (A : Flt S) (u : ℝ) (h : S) (v : World S),
    Machine val A u → u ≤ u₀ → val h = some (1 / 2) → v.nextId < usizeMax →
    ∃ G', (generalizedJacobian Sched.seq (nestFS S A.one) [A.zero] [h] [] none v).1 = .ok G' ∧ G.CloseM val (K * u) G' := by
  obtain ⟨w', ht⟩ := nestFS_tape 0
  obtain ⟨G, hG, hm⟩ := nestFS_direction
  obtain ⟨K, u₀, k1, k2⟩ := C80_generalized_jacobian _ (by decide) ht (nestFS_along 0 _) [] (next := none)
    (fun _ h => by cases h) Sched.seq_valid hG hm 0
  refine ⟨G, K, u₀, k1, fun S val A u h v hA hu hh hv => ?_⟩
  exact k2 S val A u (nestFS S A.one) ![A.zero] ![h] none v _ hA hu (nestFS_same hA.one) (fun j => by
    fin_cases j
    exact ⟨0, hA.zero, by simp⟩) (fun j => by
    fin_cases j
    exact ⟨1 / 2, hh, by simp⟩) .none hv Sched.seq_valid

/-- `|x|`. -/
def absFS (S : Type) : Func S := Func.advFn 1 1 fun _ => .op .Abs (.var 0) none fun i _ => .ret [.var i]

/-- The tape of `|x|`. -/
noncomputable def absTapeR (x : ℝ) : Tape ℝ := ⟨[0], [1], [⟨.Abs, 1, some 0, none⟩], [x, Flt.abs x], true⟩

/-- The generalized Jacobian of `|x|` in the direction `0` without sign bits has the slope `1` for positive `x`, and `-1` at
zero. -/
theorem absFS_slope {x : ℝ} (hx : 0 ≤ x) : ∃ G,
    (generalizedJacobian Sched.seq (absFS ℝ) [x] [0] [] none HState.init.world).1 = .ok G ∧
      G.homogenous.get 0 0 = if x = 0 then -1 else 1 := by
  rcases ht : (absFS ℝ).tape [x] HState.init.world with ⟨r, w'⟩
  have h1 : ((absFS ℝ).tape [x] HState.init.world).1 = .ok (absTapeR x) := by kernel_rfl
  rw [ht] at h1
  replace h1 : r = .ok (absTapeR x) := h1
  subst h1
  obtain ⟨R, z, dz, q1, q2, q3, q4⟩ := C20_active_piece_partial Sched.seq_valid
    (.func _ _ _ w' (by decide) ht) (by simp [Tape.switching, absTapeR]) (by simp [absTapeR]) (dx := [0]) rfl []
  have e1 : (absTapeR x).switching.y = .ok [x] := rfl
  have e2 : ∀ d, (absTapeR x).switching.firstOrderForward [d] = .ok [d] := fun _ => rfl
  have e3 : ∀ d, (absTapeR x).firstOrderForward [d] = .ok [|x + d| - |x|] := fun _ => rfl
  rw [e1] at q2
  rw [e2] at q3
  injection q2 with q2
  injection q3 with q3
  subst q2 q3
  have key : ∀ d, 0 ≤ signature [] [x + 0] 0 * (x + d) → affine R.homogenous R.inhomogenous [d] = [|x + d| - |x|] := by
    intro d hd
    have := q4 [d] [d] rfl (e2 d) (fun i hi => by
      have : i = 0 := by
        have : (absTapeR x).numAbs = 1 := rfl
        omega
      subst this
      simpa using hd)
    rw [e3] at this
    exact (Except.ok.inj this).symm
  have hn : (absFS ℝ).n = .ok 1 := rfl
  have hgj : (generalizedJacobian Sched.seq (absFS ℝ) [x] [0] [] none HState.init.world).1 = .ok R := by
    unfold generalizedJacobian
    simp only [hn, M.bind_apply, M.lift_apply, List.length_singleton, assertR, decide_true, if_true, ht]
    exact q1
  obtain ⟨R', s1, s2, s3, -, -⟩ := C19_exact_at_dx_partial Sched.seq_valid (absFS ℝ) (dx := [0]) (by decide) ht hn rfl
    (by simp [Tape.switching, absTapeR]) (by simp [absTapeR]) []
  rw [s1] at hgj
  injection hgj with hgj
  subst hgj
  refine ⟨R', by rw [s1], ?_⟩
  have r1 : R'.homogenous.nrows = 1 := s2
  have r2 : R'.homogenous.ncols = 1 := s3
  have key2 : ∀ d, 0 ≤ signature [] [x] 0 * (x + d) →
      R'.homogenous.get 0 0 * d + R'.inhomogenous.getD 0 0 = |x + d| - |x| := by
    intro d hd
    have := key d (by simpa using hd)
    simpa [affine, mv, r1, r2] using this
  by_cases h0 : x = 0
  · subst h0
    have hs : signature [] [(0 : ℝ)] 0 = -1 := by simp [signature, bitAt]
    rw [hs] at key2
    have k1 := key2 0 (by norm_num)
    have k2 := key2 (-1) (by norm_num)
    norm_num at k1 k2
    rw [if_pos rfl]
    linarith
  · have hp : 0 < x := lt_of_le_of_ne hx (Ne.symm h0)
    have hs : signature [] [x] 0 = 1 := by simp [signature, hp, hp.le.not_gt]
    rw [hs] at key2
    have k1 := key2 0 (by simpa using hx)
    have k2 := key2 1 (by linarith)
    rw [abs_of_pos hp] at k1 k2
    rw [abs_of_pos (by linarith)] at k1 k2
    rw [if_neg h0]
    linarith

/-- C80 needs the condition on sign bits: at the kink of `|x|` an error in the input selects another piece, even in exact
arithmetic, and the error of the Jacobian is `2`. -/
theorem C80_kink_counterexample (K u₀ : ℝ) (hu : 0 < u₀) : ∃ (u x' : ℝ), Machine (some : ℝ → Option ℝ) exactFlt u ∧ u ≤ u₀ ∧
    |0 - x'| ≤ u ∧ ∃ G G', (generalizedJacobian Sched.seq (absFS ℝ) [0] [0] [] none HState.init.world).1 = .ok G ∧
      (generalizedJacobian Sched.seq (absFS ℝ) [x'] [0] [] none HState.init.world).1 = .ok G' ∧
      K * u < |G.homogenous.get 0 0 - G'.homogenous.get 0 0| := by
  have hpos : 0 < min u₀ (1 / (|K| + 1)) := lt_min hu (by positivity)
  obtain ⟨G, h1, h2⟩ := absFS_slope (le_refl (0 : ℝ))
  obtain ⟨G', k1, k2⟩ := absFS_slope hpos.le
  refine ⟨min u₀ (1 / (|K| + 1)), min u₀ (1 / (|K| + 1)), (exactFlt_rounded hpos.le).floating.machine, min_le_left _ _, ?_, G, G',
    h1, k1, ?_⟩
  · rw [zero_sub, abs_neg, abs_of_pos hpos]
  · rw [h2, k2, if_pos rfl, if_neg hpos.ne']
    have h3 : K * min u₀ (1 / (|K| + 1)) ≤ |K| * (1 / (|K| + 1)) :=
      mul_le_mul (le_abs_self K) (min_le_right _ _) hpos.le (abs_nonneg K)
    have h4 : |K| * (1 / (|K| + 1)) ≤ 1 := by
      rw [mul_one_div, div_le_one (by positivity)]; linarith
    have h5 : |(-1 : ℝ) - 1| = 2 := by norm_num
    rw [h5]
    linarith

end Adv.Props
