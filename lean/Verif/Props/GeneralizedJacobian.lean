import Verif.Proof.GenJacPiece
import Verif.Props.AbsNormal

/-!
# Generalized Jacobians: C19, C20, C21, C22, C23
-/

set_option linter.unusedSectionVars false
set_option linter.unusedSimpArgs false

namespace Adv.Props
open Adv
open scoped Adv

section field
variable {K : Type} [Field K] [LinearOrder K] [IsStrictOrderedRing K] [Flt K] [LawfulFlt K]

/-- `generalized_jacobian` of a function is that of its tape. -/
theorem gj_func {σ : Sched} (f : Func K) {x dx : List K} {w w' : World K} {t : Tape K}
    (e : f.tape x w = (.ok t, w')) (hn : f.n = .ok x.length) (bits : List UInt8) (next : Option (GenJac K)) :
    generalizedJacobian σ f x dx bits next w = (generalizedJacobianTape σ t dx bits next, w') := by
  have h1 : (M.lift f.n : M (World K) Nat) w = (.ok x.length, w) := by rw [M.lift_apply, hn]
  have h2 : (M.lift (assertR (decide (x.length = x.length))) : M (World K) Unit) w = (.ok (), w) := by
    simp [M.lift_apply, assertR]
  unfold generalizedJacobian
  rw [M.bind_ok h1, M.bind_ok h2, M.bind_ok e, M.lift_apply]

/-! ## C19

The full claim has no condition on the tape. It is false if a variable is the argument of two abs operations
or if a variable is returned twice, see `C19_repeated_argument_counterexample`. -/

/-- C19 for functions whose abs arguments are distinct variables and whose outputs are distinct variables. -/
theorem C19_exact_at_dx_partial {σ : Sched} (hσ : σ.Valid) (f : Func K) {x dx : List K} {w w' : World K}
    {t : Tape K} (hw : w.nextId < usizeMax) (e : f.tape x w = (.ok t, w')) (hn : f.n = .ok x.length)
    (hx : dx.length = x.length) (hz : t.switching.deps.Nodup) (hd : t.deps.Nodup) (bits : List UInt8) :
    ∃ R, generalizedJacobian σ f x dx bits none w = (.ok R, w') ∧ R.homogenous.nrows = t.numDeps ∧
      R.homogenous.ncols = x.length ∧ R.inhomogenous.length = t.numDeps ∧
      t.firstOrderForward dx = .ok (affine R.homogenous R.inhomogenous dx) := by
  have h := (Func.tape_spec f x w hw).2
  rw [e] at h
  obtain ⟨_, -, h⟩ := h.ok_left
  have hwf := h.wf
  have hni : t.numIndeps = x.length := by simp [Tape.numIndeps, h.indeps]
  have hdx : dx.length = t.numIndeps := by rw [hx, hni]
  rw [switching_deps hwf] at hz
  obtain ⟨R, e1, hp, -⟩ := gj_piece hσ hwf hz hd hdx bits
  have hp' := hp
  obtain ⟨U, -, k2, k3, -, k5, -⟩ := hp'
  rw [(anfForm_shape t).b] at k2 k5
  rw [(anfForm_shape t).jmat.2, hni] at k3
  refine ⟨R, by rw [gj_func f e hn, e1], k2, k3, k5, ?_⟩
  rw [piece_increment (anfForm_shape t) hp (zHatV_solves hwf hdx) (fun i _ => signature_fits _ _ _),
    increment_eq hwf hdx]

example : (nestF.tape [3] Demo.w0).1 = .ok nestTape ∧ nestF.n = .ok 1 ∧ nestTape.switching.deps.Nodup ∧
    nestTape.deps.Nodup ∧
    (generalizedJacobian Sched.seq nestF [3] [-7] [] none Demo.w0).1.map (fun R => R.homogenous.toRows) = .ok [[-1]] ∧
    (generalizedJacobian Sched.seq nestF [3] [-7] [] none Demo.w0).1.map (fun R => R.inhomogenous) = .ok [-6] ∧
    nestTape.firstOrderForward [-7] = .ok [1] :=
  ⟨nestTape_eq, by decide +kernel, by decide +kernel, by decide +kernel, by decide +kernel, by decide +kernel,
    by decide +kernel⟩

/-- C19 is false if a variable is the argument of two abs operations: for `(x, y) ↦ |x| + |x|` at `(1, 1)` and
`dx = (1, 0)` the increment is 2, but `G dx + γ = 1`. -/
theorem C19_repeated_argument_counterexample :
    ∃ R t, (generalizedJacobian Sched.seq twiceF [1, 1] [1, 0] [] none Demo.w0).1 = .ok R ∧
      (twiceF.tape [1, 1] Demo.w0).1 = .ok t ∧ t.firstOrderForward [1, 0] = .ok [2] ∧
      affine R.homogenous R.inhomogenous [1, 0] = [1] := by
  have h1 : (generalizedJacobian Sched.seq twiceF [1, 1] [1, 0] [] none Demo.w0).1.map
      (fun R => affine R.homogenous R.inhomogenous [1, 0]) = .ok [1] := by decide +kernel
  rcases h : (generalizedJacobian Sched.seq twiceF [1, 1] [1, 0] [] none Demo.w0).1 with _ | R
  · rw [h] at h1; cases h1
  · rw [h, map_ok_eq] at h1
    injection h1 with h1
    exact ⟨R, twiceTape, rfl, twiceTape_eq, by decide +kernel, h1⟩

/-! ## C20

As for C19, the full claim has no condition on the tape. -/

/-- C20 for tapes with distinct abs arguments and distinct outputs: `(G, γ)` describes the piecewise linear
model for all directions whose switching values are compatible with the chosen signature. -/
theorem C20_active_piece_partial {σ : Sched} (hσ : σ.Valid) {t : Tape K} (h : Recorded t)
    (hz : t.switching.deps.Nodup) (hd : t.deps.Nodup) {dx : List K} (hx : dx.length = t.numIndeps)
    (bits : List UInt8) :
    ∃ R z dz, generalizedJacobianTape σ t dx bits none = .ok R ∧ t.switching.y = .ok z ∧
      t.switching.firstOrderForward dx = .ok dz ∧
      ∀ dx' dz' : List K, dx'.length = t.numIndeps → t.switching.firstOrderForward dx' = .ok dz' →
        (∀ i < t.numAbs, 0 ≤ signature bits (List.zipWith (· + ·) z dz) i *
          (List.zipWith (· + ·) z dz').getD i 0) →
        t.firstOrderForward dx' = .ok (affine R.homogenous R.inhomogenous dx') := by
  have hwf := h.proper.wf
  rw [switching_deps hwf] at hz
  obtain ⟨R, e1, hp, -⟩ := gj_piece hσ hwf hz hd hx bits
  obtain ⟨z, dz, s1, s2, s3⟩ := switching_forward hwf hx
  refine ⟨R, z, dz, e1, s1, s2, ?_⟩
  intro dx' dz' hx' s2' hc
  obtain ⟨z', dz'', u1, u2, u3⟩ := switching_forward hwf hx'
  rw [s1] at u1; injection u1 with u1; subst u1
  rw [s2'] at u2; injection u2 with u2; subst u2
  rw [s3, u3] at hc
  rw [increment_eq hwf hx', piece_increment (anfForm_shape t) hp (zHatV_solves hwf hx')]
  intro i hi
  exact sign_fits (signature_mul_self _ _ _) (hc i hi)

/-- C20, second half: if the multiplicity is 0, it describes the model in a neighbourhood of `dx`. -/
theorem C20_neighbourhood_partial {σ : Sched} (hσ : σ.Valid) {t : Tape K} (h : Recorded t)
    (hz : t.switching.deps.Nodup) (hd : t.deps.Nodup) {dx : List K} (hx : dx.length = t.numIndeps)
    (bits : List UInt8) {R : GenJac K} (e : generalizedJacobianTape σ t dx bits none = .ok R)
    (h0 : R.multiplicity = 0) :
    ∃ ε : K, 0 < ε ∧ ∀ dx' : List K, dx'.length = t.numIndeps →
      (∀ j < t.numIndeps, |dx'.getD j 0 - dx.getD j 0| ≤ ε) →
      t.firstOrderForward dx' = .ok (affine R.homogenous R.inhomogenous dx') := by
  have hwf := h.proper.wf
  rw [switching_deps hwf] at hz
  obtain ⟨R', e1, hp, hm⟩ := gj_piece hσ hwf hz hd hx bits
  rw [e] at e1; injection e1 with e1; subst e1
  rw [h0] at hm
  have hne : ∀ i < t.numAbs, zHat t dx i ≠ 0 := by
    intro i hi hzero
    have : i ∈ (Finset.range t.numAbs).filter fun k => (zHatV t dx).getD k 0 = 0 := by
      rw [Finset.mem_filter]
      exact ⟨Finset.mem_range.mpr hi, by rw [zHatV_getD hi]; exact hzero⟩
    have := Finset.card_pos.mpr ⟨i, this⟩
    unfold zerosBefore at hm
    omega
  obtain ⟨ε, h1, h2⟩ := signs_locally_constant hwf hx hne
  refine ⟨ε, h1, fun dx' hx' hb => ?_⟩
  rw [increment_eq hwf hx', piece_increment (anfForm_shape t) hp (zHatV_solves hwf hx')]
  intro i hi
  apply sign_fits (signature_mul_self _ _ _)
  have h3 := h2 dx' hx' hb i hi
  rw [zHatV_getD hi]
  unfold signature
  rw [zHatV_getD hi]
  split
  · rename_i hn; linarith [neg_of_mul_pos_right h3 hn.le]
  · rename_i hn
    have hp : 0 < zHat t dx i := lt_of_le_of_ne (not_lt.mp hn) (Ne.symm (hne i hi))
    rw [if_pos hp, one_mul]
    exact (pos_of_mul_pos_right h3 hp.le).le

example : Recorded nestTape ∧ nestTape.switching.deps.Nodup ∧ nestTape.deps.Nodup ∧
    (generalizedJacobianTape Sched.seq nestTape [-7] [] none).map (fun R => R.multiplicity) = .ok 0 ∧
    (generalizedJacobianTape Sched.seq nestTape [-3] [1] none).map (fun R => R.multiplicity) = .ok 1 :=
  ⟨nestTape_recorded, by decide +kernel, by decide +kernel, by decide +kernel, by decide +kernel⟩

/-! ## C21 -/

/-- C21: for every recorded tape, the multiplicity is the number of switching variables that vanish at `dx`. -/
theorem C21_multiplicity {σ : Sched} (hσ : σ.Valid) {t : Tape K} (h : Recorded t) {dx : List K}
    (hx : dx.length = t.numIndeps) (bits : List UInt8) :
    ∃ R z dz, generalizedJacobianTape σ t dx bits none = .ok R ∧ t.switching.y = .ok z ∧
      t.switching.firstOrderForward dx = .ok dz ∧
      R.multiplicity = ((List.zipWith (· + ·) z dz).filter fun v => v = 0).length := by
  have hwf := h.proper.wf
  obtain ⟨U, -, e1⟩ := gj_none_core hσ hwf hx bits
  obtain ⟨z, dz, s1, s2, s3⟩ := switching_forward hwf hx
  refine ⟨_, z, dz, e1, s1, s2, ?_⟩
  rw [s3]
  show zerosBefore (zHatV t dx) t.numAbs = _
  have key : ∀ v : List K, zerosBefore v v.length = (v.filter fun v => v = 0).length := by
    intro v
    induction v using List.reverseRecOn with
    | nil => rfl
    | append_singleton v a ih =>
      have h1 : zerosBefore (v ++ [a]) v.length = zerosBefore v v.length := by
        unfold zerosBefore
        congr 1
        apply Finset.filter_congr
        intro k hk
        rw [Finset.mem_range] at hk
        rw [List.getD_append _ _ _ _ hk]
      have h2 : (v ++ [a]).getD v.length 0 = a := by simp
      rw [List.filter_append, List.length_append, List.length_append, ← ih, ← h1]
      unfold zerosBefore
      rw [List.length_singleton, Finset.range_add_one, Finset.filter_insert, h2]
      by_cases ha : a = 0 <;> simp [ha]
  have := key (zHatV t dx)
  rw [← this]
  simp [zHatV]

/-- C21: the switching variables that do not vanish use their own sign; the `q`-th vanishing one (counted from
0 in tape order) uses bit `q` of the sign bits, least significant bit of each byte first, and `-1` once the bits
are exhausted. For tapes with distinct abs arguments and outputs the result is the affine piece of the
abs-normal form with exactly this signature. -/
theorem C21_signature_partial {σ σ' : Sched} (hσ : σ.Valid) (hσ' : σ'.Valid) {t : Tape K} (h : Recorded t)
    (hz : t.switching.deps.Nodup) (hd : t.deps.Nodup) {dx : List K} (hx : dx.length = t.numIndeps)
    (bits : List UInt8) :
    ∃ R at_ F z dz, generalizedJacobianTape σ t dx bits none = .ok R ∧ AbsNormalTape.new t = .ok at_ ∧
      absNormalTape σ' at_ = .ok F ∧ t.switching.y = .ok z ∧ t.switching.firstOrderForward dx = .ok dz ∧
      IsPiece F (signature bits (List.zipWith (· + ·) z dz)) R.homogenous R.inhomogenous := by
  have hwf := h.proper.wf
  rw [switching_deps hwf] at hz
  obtain ⟨R, e1, hp, -⟩ := gj_piece hσ hwf hz hd hx bits
  obtain ⟨z, dz, s1, s2, s3⟩ := switching_forward hwf hx
  exact ⟨R, _, _, z, dz, e1, AbsNormalTape.new_eq hwf, absNormalTape_eq hσ' hwf hz hd, s1, s2, by rw [s3]; exact hp⟩

/-- Bits of an exhausted byte string are not set. -/
theorem C21_bits_exhausted (bytes : List UInt8) {q : Nat} (h : 8 * bytes.length ≤ q) : bitAt bytes q = false := by
  unfold bitAt
  rw [List.getD_eq_getElem?_getD, List.getElem?_eq_none (by omega)]
  simp

/-- At 3 with `dx = -3` the first switching variable of `||x| - 1|` vanishes, and its sign is the first bit:
the slope is -1 if it is set, otherwise 1. -/
example : Recorded nestTape ∧
    (generalizedJacobianTape Sched.seq nestTape [-3] [1] none).map (fun R => R.homogenous.toRows) = .ok [[-1]] ∧
    (generalizedJacobianTape Sched.seq nestTape [-3] [2] none).map (fun R => R.homogenous.toRows) = .ok [[1]] ∧
    (generalizedJacobianTape Sched.seq nestTape [-3] [] none).map (fun R => R.homogenous.toRows) = .ok [[1]] ∧
    bitAt [131, 199] 0 = true ∧ bitAt [131, 199] 2 = false ∧ bitAt [131, 199] 7 = true ∧ bitAt [131, 199] 8 = true :=
  ⟨nestTape_recorded, by decide +kernel, by decide +kernel, by decide +kernel, by decide, by decide, by decide,
    by decide⟩

/-! ## C22

The full claim does not require the outputs to be distinct variables. It is false otherwise, see
`C22_duplicate_outputs_counterexample`. -/

/-- C22 for functions with distinct outputs. -/
theorem C22_smooth_partial {σ σ' : Sched} (hσ : σ.Valid) (hσ' : σ'.Valid) (f : Func K) {x dx : List K}
    {w w' w'' : World K} {t : Tape K} (hw : w.nextId < usizeMax) (e : f.tape x w = (.ok t, w'))
    (hn : f.n = .ok x.length) (hm : f.m = .ok t.numDeps) (ha : t.AbsFree) (hd : t.deps.Nodup)
    (hx : dx.length = x.length) (bits : List UInt8) :
    ∃ R, generalizedJacobian σ f x dx bits none w = (.ok R, w') ∧
      jacobianForward σ' f x w'' = (.ok R.homogenous, w'') ∧
      R.inhomogenous = List.replicate t.numDeps 0 ∧ R.multiplicity = 0 := by
  have h := (Func.tape_spec f x w hw).2
  rw [e] at h
  obtain ⟨_, -, h⟩ := h.ok_left
  have hwf := h.wf
  have hni : t.numIndeps = x.length := by simp [Tape.numIndeps, h.indeps]
  have hdx : dx.length = t.numIndeps := by rw [hx, hni]
  have hs : t.numAbs = 0 := by
    by_contra hne
    exact (numAbs_pos_iff t).mp (Nat.pos_of_ne_zero hne) ha
  obtain ⟨U, -, e1⟩ := gj_none_core hσ hwf hdx bits
  obtain ⟨J, j1, j2, j3, j4⟩ := C12_forward_eq_reverse_partial hσ' hσ f (w'' := w'') hw e hn hm ha hd
  refine ⟨_, by rw [gj_func f e hn, e1], ?_, ?_, ?_⟩
  · rw [j1]
    congr 2
    have hr := jacobianReverse_eq hσ hwf ha
    rw [j2] at hr
    injection hr with hr
    rw [hr]
    unfold homOf
    apply DMat.ofFn_congr
    intro i hi j hj
    rw [hs, sum_identity hi]
    simp only [Finset.range_zero, Finset.sum_empty, add_zero]
    have hh : hops t = t.ops := by
      unfold hops
      conv_rhs => rw [← List.map_id t.ops]
      apply List.map_congr_left
      intro op ho
      simp [AbsNormalTape.hideAbs, ha op ho]
    rw [rmat_eq_tmat (anfJ_wf hwf) (anfJ_absFree t) (by simpa using hd) (by simpa using hi) (by simpa using hj)]
    have : tmat (anfJ (anfOf t)) i j = tmat t i j := by
      rw [anfJ_eq]
      unfold tmat viewOf
      simp only [hh]
    rw [this, jrEntry, Tape.reverse_unit hwf ha hd hi]
    have hj' : j < (List.range t.numIndeps).length := by simpa using hj
    simp [hj]
  · simp only [inhOf, hs, Finset.range_zero, Finset.sum_empty, add_zero, zero_add]
    rw [List.eq_replicate_iff]
    refine ⟨by simp, ?_⟩
    intro b hb
    obtain ⟨i, hi, rfl⟩ := List.mem_map.mp hb
    rw [List.mem_range] at hi
    rw [sum_identity hi, anfForm]
    simp only
    rw [getD_map_range _ hi, hs]
    simp
  · simp only [hs, zerosBefore, Finset.range_zero, Finset.filter_empty, Finset.card_empty]

example : (Demo.smoothF.tape [2, 3] Demo.w0).1 = .ok smoothTape ∧ smoothTape.AbsFree ∧ smoothTape.deps.Nodup ∧
    Demo.smoothF.n = .ok 2 ∧ Demo.smoothF.m = .ok smoothTape.numDeps ∧
    (generalizedJacobian Sched.seq Demo.smoothF [2, 3] [1, 1] [255] none Demo.w0).1.map
      (fun R => R.homogenous.toRows) = .ok [[3, 2], [0, -1]] :=
  ⟨by decide +kernel, smoothTape_absFree, by decide +kernel, by decide +kernel, by decide +kernel,
    by decide +kernel⟩

/-- C22 is false for a function that returns a variable twice: the Jacobian of `x ↦ (x, x)` is `(1, 1)ᵀ`, but
`generalized_jacobian` returns `(0, 1)ᵀ`. -/
theorem C22_duplicate_outputs_counterexample :
    (generalizedJacobian Sched.seq dupF [3] [1] [] none Demo.w0).1.map (fun R => R.homogenous.toRows) =
      .ok [[0], [1]] ∧
    (jacobianForward Sched.seq dupF [3] Demo.w0).1.map DMat.toRows = .ok [[1], [1]] := by decide +kernel

/-! ## C23 -/

/-- C23: `next` composes generalized Jacobians (for every recorded tape). -/
theorem C23_next_composes {σ σ' : Sched} (hσ : σ.Valid) (hσ' : σ'.Valid) {t : Tape K} (h : Recorded t)
    {dx : List K} (hx : dx.length = t.numIndeps) (bits : List UInt8) {next : GenJac K}
    (hG : next.homogenous.ncols = t.numDeps) (hγ : next.inhomogenous.length = next.homogenous.nrows) :
    ∃ R R', generalizedJacobianTape σ t dx bits none = .ok R ∧
      generalizedJacobianTape σ' t dx bits (some next) = .ok R' ∧
      IsMul R'.homogenous next.homogenous R.homogenous ∧
      R'.inhomogenous = (List.range next.homogenous.nrows).map (fun i =>
        next.inhomogenous.getD i 0 + mv next.homogenous R.inhomogenous i) ∧
      R'.multiplicity = R.multiplicity + next.multiplicity := by
  obtain ⟨R, R', h1, h2, h3, h4, h5, -⟩ := gj_comp hσ hσ' h.proper.wf hx bits hG hγ
  exact ⟨R, R', h1, h2, h3, h4, h5⟩

/-- C23: a `next` whose column count differs from the number of outputs panics. -/
theorem C23_bad_next_panics {σ : Sched} (hσ : σ.Valid) {t : Tape K} (h : Recorded t)
    (dx : List K) (bits : List UInt8) {next : GenJac K}
    (hG : next.homogenous.ncols ≠ t.numDeps) : ∃ err, generalizedJacobianTape σ t dx bits (some next) = .error err := by
  by_cases hx : dx.length = t.numIndeps
  · exact ⟨_, gj_bad_next hσ h.proper.wf hx bits hG⟩
  · refine ⟨.assertFailed, ?_⟩
    simp only [generalizedJacobianTape, hx, decide_false, assertR]; rfl

/-- With the wrong number of directions `generalized_jacobian` panics. -/
theorem C23_wrong_direction_panics {S : Type} [Flt S] (σ : Sched) (t : Tape S) {dx : List S}
    (hx : dx.length ≠ t.numIndeps) (bits : List UInt8) (next : Option (GenJac S)) :
    ∃ err, generalizedJacobianTape σ t dx bits next = .error err := by
  refine ⟨.assertFailed, ?_⟩
  simp only [generalizedJacobianTape, hx, decide_false, assertR]; rfl

example : Recorded nestTape ∧ (generalizedJacobianTape Sched.seq nestTape [-3] [1] (some ⟨DMat.ofFn 2 1
      (fun i _ => i + 2), [10, 20], 4⟩)).map (fun R => (R.homogenous.toRows, R.multiplicity)) = .ok ([[-2], [-3]], 5) ∧
    (generalizedJacobianTape Sched.seq nestTape [-3] [1] (some ⟨DMat.ofFn 2 1
      (fun i _ => i + 2), [10, 20], 4⟩)).map (fun R => R.inhomogenous) = .ok [2, 8] :=
  ⟨nestTape_recorded, by decide +kernel, by decide +kernel⟩

end field
end Adv.Props
