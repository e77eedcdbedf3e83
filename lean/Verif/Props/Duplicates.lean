import Verif.Proof.Duplicates
import Verif.Props.GeneralizedJacobian

/-!
# Variables registered as dependent more than once: C57

The exact behaviour of the reverse sweep and of everything built on it, without a condition on the dependents. These
theorems say precisely when C09, C12 and C17 hold.
-/

set_option linter.unusedSectionVars false
set_option linter.unusedSimpArgs false

namespace Adv.Props
open Adv
open scoped Adv
open Finset

variable {K : Type} [Field K] [LinearOrder K] [IsStrictOrderedRing K] [Flt K] [LawfulFlt K]

theorem forward_dot {t : Tape K} (hw : t.WF) (ha : t.AbsFree) {dx ybar : List K} (hx : dx.length = t.numIndeps)
    (hy : ybar.length = t.numDeps) :
    ∃ dy xbar, t.firstOrderForward dx = .ok dy ∧ t.firstOrderReverse ybar = .ok xbar ∧
      dot (lastSeeds t.deps ybar) dy = dot xbar dx := by
  classical
  refine ⟨_, _, Tape.forward_mat hw ha (Nat.le_of_eq hx.symm), Tape.reverse_mat_last hw ha (Nat.le_of_eq hy.symm), ?_⟩
  rw [dot_eq_sum (n := t.numDeps) (by simp [lastSeeds, Tape.numDeps]) (by simp),
    dot_eq_sum (n := t.numIndeps) (by simp) hx]
  have e1 : ∀ i ∈ range t.numDeps, (lastSeeds t.deps ybar).getD i 0 *
      ((List.range t.numDeps).map fun i => ∑ j ∈ range t.numIndeps, tmat t i j * dx.getD j 0).getD i 0 =
      ∑ j ∈ range t.numIndeps, (if Reregistered t.deps i then 0 else ybar.getD i 0) * tmat t i j * dx.getD j 0 := by
    intro i hi
    rw [Finset.mem_range] at hi
    have hi' : i < t.deps.length := hi
    rw [getD_map_range _ hi, Finset.mul_sum]
    apply Finset.sum_congr rfl
    intro j _
    simp [lastSeeds, hi', mul_assoc]
  rw [Finset.sum_congr rfl e1, Finset.sum_comm]
  apply Finset.sum_congr rfl
  intro j hj
  rw [getD_map_range _ (Finset.mem_range.mp hj), Finset.sum_mul]

/-- C57: for every recorded tape without abs, the reverse sweep is the adjoint of the forward sweep applied to the
seeds in which, for every variable, only the seed of its last registration is kept. -/
theorem C57_last_seed_wins {t : Tape K} (h : Recorded t) (ha : t.AbsFree) {dx ybar : List K}
    (hx : dx.length = t.numIndeps) (hy : ybar.length = t.numDeps) :
    ∃ dy xbar, t.firstOrderForward dx = .ok dy ∧ t.firstOrderReverse ybar = .ok xbar ∧
      dot (lastSeeds t.deps ybar) dy = dot xbar dx :=
  forward_dot h.proper.wf ha hx hy

/-- C57: exactly when C09 holds. The reverse sweep is the adjoint of the forward sweep if and only if every output that
is registered again later has derivative zero in all directions. -/
theorem C57_adjoint_iff {t : Tape K} (h : Recorded t) (ha : t.AbsFree) :
    (∀ dx ybar dy xbar : List K, dx.length = t.numIndeps → ybar.length = t.numDeps → t.firstOrderForward dx = .ok dy →
      t.firstOrderReverse ybar = .ok xbar → dot ybar dy = dot xbar dx) ↔
    ∀ i < t.numDeps, Reregistered t.deps i → ∀ dx dy : List K, dx.length = t.numIndeps →
      t.firstOrderForward dx = .ok dy → dy.getD i 0 = 0 := by
  classical
  constructor
  · intro hall i hi hr dx dy hx hdy
    have hyl : (eVec t.numDeps i : List K).length = t.numDeps := by simp [eVec]
    obtain ⟨dy', xbar, h1, h2, h3⟩ := C57_last_seed_wins h ha hx hyl
    obtain rfl : dy = dy' := by rw [h1] at hdy; injection hdy with hdy; exact hdy.symm
    have h4 := hall dx _ dy xbar hx hyl h1 h2
    have hdl : dy.length = t.numDeps := by
      rw [Tape.forward_mat h.proper.wf ha (Nat.le_of_eq hx.symm)] at h1
      injection h1 with h1
      rw [← h1]; simp
    rw [dot_eq_sum (n := t.numDeps) (by simp [lastSeeds, Tape.numDeps]) hdl, Finset.sum_eq_zero] at h3
    · rw [← h3, dot_eq_sum (n := t.numDeps) (by simp [eVec]) hdl, Finset.sum_eq_single i] at h4
      · rw [eVec_getD _ _ _ hi] at h4; simpa using h4
      · intro b hb hne; rw [eVec_getD _ _ _ (Finset.mem_range.mp hb)]; simp [hne]
      · intro hn; exact absurd (Finset.mem_range.mpr hi) hn
    · intro k hk
      rw [Finset.mem_range] at hk
      have hk' : k < t.deps.length := hk
      have e : (lastSeeds t.deps (eVec t.numDeps i : List K)).getD k 0 =
          if Reregistered t.deps k then 0 else (eVec t.numDeps i : List K).getD k 0 := by simp [lastSeeds, hk']
      rw [e, eVec_getD _ _ _ hk]
      by_cases hki : k = i
      · subst hki; simp [hr]
      · simp [hki]
  · intro hz dx ybar dy xbar hx hy hdy hxb
    obtain ⟨dy', xbar', h1, h2, h3⟩ := C57_last_seed_wins h ha hx hy
    obtain rfl : dy = dy' := by rw [h1] at hdy; injection hdy with hdy; exact hdy.symm
    obtain rfl : xbar = xbar' := by rw [h2] at hxb; injection hxb with hxb; exact hxb.symm
    have hdl : dy.length = t.numDeps := by
      rw [Tape.forward_mat h.proper.wf ha (Nat.le_of_eq hx.symm)] at h1
      injection h1 with h1
      rw [← h1]; simp
    rw [← h3, dot_eq_sum (n := t.numDeps) (Nat.le_of_eq hy.symm) hdl,
      dot_eq_sum (n := t.numDeps) (by simp [lastSeeds, Tape.numDeps]) hdl]
    apply Finset.sum_congr rfl
    intro i hi
    rw [Finset.mem_range] at hi
    have hi' : i < t.deps.length := hi
    by_cases hr : Reregistered t.deps i
    · rw [hz i hi hr dx dy hx h1]; simp
    · simp [lastSeeds, hi', hr]

/-- Both sides occur: `smoothTape` has no repeated dependents, `dupTape` registers an input twice. -/
example : Recorded smoothTape ∧ smoothTape.AbsFree ∧ (∀ i < smoothTape.numDeps, ¬ Reregistered smoothTape.deps i) ∧
    Recorded dupTape ∧ dupTape.AbsFree ∧ Reregistered dupTape.deps 0 ∧ dupTape.firstOrderForward [1] = .ok [1, 1] ∧
    dupTape.firstOrderReverse [7, 0] = .ok [0] ∧ dupTape.firstOrderReverse [7, 5] = .ok [5] :=
  ⟨smoothTape_recorded, smoothTape_absFree, fun _ hi => not_reregistered_of_nodup (by decide +kernel) hi,
    dupTape_recorded, by intro op hop; simp [dupTape] at hop, ⟨1, by decide, by decide, by decide⟩,
    by decide +kernel, by decide +kernel, by decide +kernel⟩

/-- C57: the reverse Jacobian of a recorded function is the forward Jacobian with the rows of all outputs that are
registered again later replaced by zero. -/
theorem C57_jacobian_reverse_rows {σ σ' : Sched} (hσ : σ.Valid) (hσ' : σ'.Valid) (f : Func K) {x : List K}
    {w w' w'' : World K} {t : Tape K} (hw : w.nextId < usizeMax) (e : f.tape x w = (.ok t, w'))
    (hn : f.n = .ok x.length) (hm : f.m = .ok t.numDeps) (ha : t.AbsFree) :
    ∃ J R, jacobianForward σ f x w'' = (.ok J, w'') ∧ jacobianReverse σ' t = .ok R ∧
      MatEq R (lastRows t.deps J) := by
  classical
  have h := (Func.tape_spec f x w hw).2
  rw [e] at h
  obtain ⟨_, -, h⟩ := h.ok_left
  have hni : t.numIndeps = x.length := by simp [Tape.numIndeps, h.indeps]
  refine ⟨DMat.ofFn t.numDeps x.length (tmat t), _, ?_, jacobianReverse_eq hσ' h.wf ha, rfl, hni, ?_⟩
  · rw [jacobianForward_eq hσ]
    congr 1
    unfold jfPure
    have h1 : assertR (decide (x.length = x.length)) = .ok () := by simp [assertR]
    simp only [hn, hm, bind_ok_eq, h1]
    by_cases h0 : x.length = 0
    · rw [if_pos h0, h0]
      show Except.ok _ = _
      congr 1
      exact (zeros_zero_cols _ _).symm
    · rw [if_neg h0, h.out, bind_ok_eq, if_pos (by simp [Tape.numDeps])]
      show Except.ok _ = _
      congr 1
      apply DMat.ofFn_congr
      intro i hi j hj
      obtain ⟨ys, k1, k2, -⟩ := h.forward_eval (Or.inl zeroTangent_of_lawful) (dx := eVec x.length j) (by simp [eVec])
      rw [← hni] at k2
      rw [Tape.forward_unit h.wf ha (by omega)] at k2
      injection k2 with k2
      simp only [jfEntry, k1, ← k2]
      simp [hi]
  · intro i hi j hj
    rw [DMat.ofFn_nrows] at hi
    rw [DMat.ofFn_ncols] at hj
    rw [DMat.ofFn_get hi hj]
    simp only [lastRows, jrEntry, Tape.reverse_unit_last h.wf ha hi]
    rw [DMat.ofFn_get hi (by omega), getD_map_range _ hj]

example : (dupF.tape [3] Demo.w0).1 = .ok dupTape ∧ Reregistered dupTape.deps 0 ∧ ¬ Reregistered dupTape.deps 1 ∧
    (jacobianForward Sched.seq dupF [3] Demo.w0).1.map DMat.toRows = .ok [[1], [1]] ∧
    (jacobianReverse Sched.seq dupTape).map DMat.toRows = .ok [[0], [1]] :=
  ⟨by decide +kernel, ⟨1, by decide, by decide, by decide⟩, by
    rintro ⟨k, hk, hl, -⟩
    have : dupTape.deps.length = 2 := rfl
    omega, by decide +kernel, by decide +kernel⟩

/-- C57: for a function without abs the generalized Jacobian is always the reverse Jacobian, bit strings are ignored and
there is no constant part. -/
theorem C57_smooth_generalized_jacobian {σ σ' : Sched} (hσ : σ.Valid) (hσ' : σ'.Valid) {t : Tape K} (h : Recorded t)
    (ha : t.AbsFree) {dx : List K} (hx : dx.length = t.numIndeps) (bits : List UInt8) :
    ∃ R, generalizedJacobianTape σ t dx bits none = .ok R ∧ jacobianReverse σ' t = .ok R.homogenous ∧
      R.inhomogenous = List.replicate t.numDeps 0 ∧ R.multiplicity = 0 := by
  classical
  have hwf := h.proper.wf
  have hs : t.numAbs = 0 := by
    by_contra hne
    exact (numAbs_pos_iff t).mp (Nat.pos_of_ne_zero hne) ha
  obtain ⟨U, -, e1⟩ := gj_none_core hσ hwf hx bits
  refine ⟨_, e1, ?_, ?_, ?_⟩
  · rw [jacobianReverse_eq hσ' hwf ha]
    congr 1
    unfold homOf
    apply DMat.ofFn_congr
    intro i hi j hj
    rw [hs, sum_identity hi]
    simp only [Finset.range_zero, Finset.sum_empty, add_zero]
    have hh : hops t = t.ops := by
      unfold hops
      conv_rhs => rw [← List.map_id t.ops]
      apply List.map_congr_left
      intro op ho
      simp [AbsNormalTape.hideAbs, ha op ho]
    rw [rmat_last (anfJ_wf hwf) (anfJ_absFree t) (by simpa using hi) (by simpa using hj)]
    simp only [lastRows, tMatD]
    rw [DMat.ofFn_get (by simpa using hi) (by simpa using hj)]
    have : tmat (anfJ (anfOf t)) i j = tmat t i j := by
      rw [anfJ_eq]
      unfold tmat viewOf
      simp only [hh]
    rw [this, jrEntry, Tape.reverse_unit_last hwf ha hi]
    simp [hj]
  · simp only [inhOf, hs, Finset.range_zero, Finset.sum_empty, add_zero, zero_add]
    rw [List.eq_replicate_iff]
    refine ⟨by simp, ?_⟩
    intro b hb
    obtain ⟨i, hi, rfl⟩ := List.mem_map.mp hb
    rw [List.mem_range] at hi
    rw [sum_identity hi, anfForm]
    simp only
    rw [getD_map_range _ hi, hs]
    simp
  · simp only [hs, zerosBefore, Finset.range_zero, Finset.filter_empty, Finset.card_empty]

example : Recorded dupTape ∧
    (generalizedJacobianTape Sched.seq dupTape [1] [] none).map (fun R => R.homogenous.toRows) = .ok [[0], [1]] ∧
    (jacobianReverse Sched.seq dupTape).map DMat.toRows = .ok [[0], [1]] :=
  ⟨dupTape_recorded, by decide +kernel, by decide +kernel⟩

/-- C57: products with the views of abs-normal tapes, without restriction: `mul_right` multiplies by the matrix of the
view; `mul_left` ignores all columns of its argument that belong to a dependent registered again later. -/
theorem C57_products {t : Tape K} (h : Recorded t) {at_ : AbsNormalTape K} (e : AbsNormalTape.new t = .ok at_)
    {V : Tape K} (hV : V ∈ views at_) :
    ∃ A : DMat K, A.nrows = Anf.nrows V ∧ A.ncols = Anf.ncols V ∧ ∀ σ : Sched, σ.Valid →
      (∀ B : DMat K, B.nrows = A.ncols → ∃ R, Anf.mulRight σ V B = .ok R ∧ IsMul R A B) ∧
      (∀ C : DMat K, C.ncols = A.nrows → ∃ R, Anf.mulLeft σ V C = .ok R ∧ IsMul R (lastCols V.deps C) A) := by
  classical
  cases anf_of_new h.proper.wf e
  obtain ⟨h1, h2⟩ := views_wf h.proper.wf hV
  refine ⟨tMatD V, rfl, rfl, fun σ hσ => ⟨?_, ?_⟩⟩
  · intro B hB
    refine ⟨_, Anf.mulRight_mat hσ h1 h2 hB.symm, hB.symm, rfl, rfl, ?_⟩
    intro i hi j hj
    rw [tMatD, DMat.ofFn_nrows] at hi
    rw [DMat.ofFn_get hi hj]
    apply Finset.sum_congr rfl
    intro k hk
    rw [tMatD, DMat.ofFn_get hi (Finset.mem_range.mp hk)]
  · intro C hC
    refine ⟨_, Anf.mulLeft_mat_last hσ h1 h2 hC, hC, rfl, rfl, ?_⟩
    intro i hi j hj
    rw [tMatD, DMat.ofFn_ncols] at hj
    change i < C.nrows at hi
    rw [DMat.ofFn_get hi hj]
    show _ = ∑ k ∈ range C.ncols, _
    rw [hC]
    apply Finset.sum_congr rfl
    intro k hk
    rw [tMatD, DMat.ofFn_get (Finset.mem_range.mp hk) hj]
    rfl

/-- In `twiceTape` the argument of the first abs operation is registered again by the second one. -/
example : Recorded twiceTape ∧ ∃ at_, AbsNormalTape.new twiceTape = .ok at_ ∧ Reregistered (anfZ at_).deps 0 ∧
    (Anf.mulLeft Sched.seq (anfZ at_) (DMat.ofFn 1 2 fun _ j => j + 5)).map DMat.toRows = .ok [[6, 0]] :=
  ⟨twiceTape_recorded, anfOf twiceTape, by decide +kernel, ⟨1, by decide, by decide, by decide⟩, by decide +kernel⟩

/-- C57: `row(i)` of a view is row `i` of its matrix, or zero if dependent `i` is registered again later. -/
theorem C57_row {σ : Sched} (hσ : σ.Valid) {t : Tape K} (h : Recorded t) {at_ : AbsNormalTape K}
    (e : AbsNormalTape.new t = .ok at_) {V : Tape K} (hV : V ∈ views at_) {i : Nat} (hi : i < Anf.nrows V) :
    ∃ A r, Anf.mulRight σ V (DMat.identity (Anf.ncols V)) = .ok A ∧ Anf.row σ V i = .ok r ∧ r.nrows = 1 ∧
      r.ncols = A.ncols ∧ ∀ j < A.ncols, r.get 0 j = (lastRows V.deps A).get i j := by
  classical
  cases anf_of_new h.proper.wf e
  obtain ⟨h1, h2⟩ := views_wf h.proper.wf hV
  unfold Anf.nrows at hi
  refine ⟨_, DMat.ofFn 1 V.numIndeps fun _ j => if Reregistered V.deps i then 0 else tmat V i j,
    Anf.mulRight_id hσ h1 h2, ?_, ?_, ?_, ?_⟩
  · unfold Anf.row
    rw [DMat.set, if_pos ⟨by exact Nat.one_pos, by exact hi⟩, bind_ok_eq, Anf.mulLeft_mat_last hσ h1 h2 rfl]
    congr 1
    apply DMat.ofFn_congr
    intro i' hi' j hj
    change i' < 1 at hi'
    obtain rfl : i' = 0 := by omega
    rw [Finset.sum_eq_single i]
    · simp only [DMat.zeros, LawfulFlt.one_eq]; split <;> simp
    · intro k hk hne
      rw [Finset.mem_range] at hk
      simp only [hne, and_false, if_false]
      rw [DMat.zeros, DMat.ofFn_get Nat.one_pos hk, LawfulFlt.zero_eq]; simp
    · intro hn; exact absurd (Finset.mem_range.mpr hi) hn
  · rfl
  · rfl
  · intro j hj
    rw [tMatD, DMat.ofFn_ncols] at hj
    rw [DMat.ofFn_get Nat.one_pos hj]
    simp only [lastRows, tMatD]
    rw [DMat.ofFn_get hi hj]

example : Recorded twiceTape ∧ anfZ (anfOf twiceTape) ∈ views (anfOf twiceTape) ∧
    (Anf.row Sched.seq (anfZ (anfOf twiceTape)) 0).map DMat.toRows = .ok [[0, 0]] ∧
    (Anf.row Sched.seq (anfZ (anfOf twiceTape)) 1).map DMat.toRows = .ok [[1, 0]] :=
  ⟨twiceTape_recorded, by simp [views], by decide +kernel, by decide +kernel⟩

/-- C57: what `generalized_jacobian_tape` computes for every recorded tape. Let `F` be the abs-normal form obtained from
the right products of the views; it describes the function exactly. The result is the affine piece, with the signature
of C21, of the form that arises from `F` by replacing by zero the rows of all matrices that belong to a dependent (for
`Z` and `L`: an abs argument) registered again later. -/
theorem C57_generalized_jacobian {σ σ' : Sched} (hσ : σ.Valid) (hσ' : σ'.Valid) {t : Tape K} (h : Recorded t)
    {at_ : AbsNormalTape K} (e : AbsNormalTape.new t = .ok at_) {dx : List K} (hx : dx.length = t.numIndeps)
    (bits : List UInt8) :
    ∃ R F z dz, generalizedJacobianTape σ t dx bits none = .ok R ∧
      Anf.mulRight σ' (anfZ at_) (DMat.identity t.numIndeps) = .ok F.zmat ∧
      Anf.mulRight σ' (anfL at_) (DMat.identity t.numAbs) = .ok F.lmat ∧
      Anf.mulRight σ' (anfJ at_) (DMat.identity t.numIndeps) = .ok F.jmat ∧
      Anf.mulRight σ' (anfY at_) (DMat.identity t.numAbs) = .ok F.ymat ∧
      (∀ dx' : List K, dx'.length = t.numIndeps → ∃ zhat, SwitchEq F dx' zhat ∧
        t.firstOrderForward dx' = .ok (F.increment dx' zhat)) ∧
      t.switching.y = .ok z ∧ t.switching.firstOrderForward dx = .ok dz ∧
      IsPiece { F with
          zmat := lastRows (anfZ at_).deps F.zmat, lmat := lastRows (anfL at_).deps F.lmat,
          jmat := lastRows (anfJ at_).deps F.jmat, ymat := lastRows (anfY at_).deps F.ymat }
        (signature bits (List.zipWith (· + ·) z dz)) R.homogenous R.inhomogenous := by
  have hwf := h.proper.wf
  cases anf_of_new hwf e
  obtain ⟨R, e1, hp, -⟩ := gj_piece_last hσ hwf hx bits
  obtain ⟨z, dz, s1, s2, s3⟩ := switching_forward hwf hx
  refine ⟨R, anfForm t, z, dz, e1, ?_, ?_, ?_, ?_, ?_, s1, s2, by rw [s3]; exact hp⟩
  · have := Anf.mulRight_id hσ' (anfZ_wf hwf) (anfZ_absFree t)
    rwa [Z_numIndeps] at this
  · have := Anf.mulRight_id hσ' (anfL_wf hwf) (anfL_absFree t)
    rwa [L_numIndeps] at this
  · have := Anf.mulRight_id hσ' (anfJ_wf hwf) (anfJ_absFree t)
    rwa [J_numIndeps] at this
  · have := Anf.mulRight_id hσ' (anfY_wf hwf) (anfY_absFree t)
    rwa [Y_numIndeps] at this
  · intro dx' hx'
    exact ⟨_, zHatV_solves hwf hx', increment_eq hwf hx'⟩

/-- `|x| + |x|` at (1, 1): the first abs operation loses its row of `Z`, so that the result has slope 1 instead of 2. -/
example : Recorded twiceTape ∧ AbsNormalTape.new twiceTape = .ok (anfOf twiceTape) ∧
    Reregistered (anfZ (anfOf twiceTape)).deps 0 ∧
    (generalizedJacobianTape Sched.seq twiceTape [1, 0] [] none).map (fun R => (R.homogenous.toRows, R.inhomogenous)) =
      .ok ([[1, 0]], [0]) :=
  ⟨twiceTape_recorded, by decide +kernel, ⟨1, by decide, by decide, by decide⟩, by decide +kernel⟩

end Adv.Props
