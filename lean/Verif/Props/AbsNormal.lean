import Verif.Proof.AnfExtra
import Verif.Props.Jacobian

/-!
# Abs-normal form: C13 (abs-normal products), C15, C16, C17, C18, C52
-/

set_option linter.unusedSectionVars false
set_option linter.unusedSimpArgs false

namespace Adv.Props
open Adv
open scoped Adv

/-- The four matrices of an abs-normal tape. -/
def views {S : Type} (at_ : AbsNormalTape S) : List (Tape S) := [anfZ at_, anfL at_, anfJ at_, anfY at_]

/-- `(x, y) ↦ |x| + |x|`: two abs operations with the same argument. -/
def twiceF : Func ℚ := Func.advFn 2 1 fun _ =>
  .op .Abs (.var 0) none fun i _ => .op .Abs (.var 0) none fun j _ =>
  .op .Add (.var i) (some (.var j)) fun k _ => .ret [.var k]

/-- `x ↦ ||x| - 1|`: nested abs operations. -/
def nestF : Func ℚ := Func.advFn 1 1 fun _ =>
  .op .Abs (.var 0) none fun i _ => .op .Sub (.var i) (some (.lit 1)) fun j _ =>
  .op .Abs (.var j) none fun k _ => .ret [.var k]

/-- The tape of `twiceF` at (1, 1). -/
def twiceTape : Tape ℚ :=
  ⟨[0, 1], [4], [⟨.Abs, 2, some 0, none⟩, ⟨.Abs, 3, some 0, none⟩, ⟨.Add, 4, some 2, some 3⟩], [1, 1, 1, 1, 2], true⟩

/-- The tape of `nestF` at 3. -/
def nestTape : Tape ℚ :=
  ⟨[0], [4], [⟨.Abs, 1, some 0, none⟩, ⟨.Const, 2, none, none⟩, ⟨.Sub, 3, some 1, some 2⟩, ⟨.Abs, 4, some 3, none⟩],
    [3, 3, 1, 2, 2], true⟩

theorem twiceTape_eq : (twiceF.tape [1, 1] Demo.w0).1 = .ok twiceTape := by decide +kernel
theorem nestTape_eq : (nestF.tape [3] Demo.w0).1 = .ok nestTape := by decide +kernel
theorem twiceTape_recorded : Recorded twiceTape := Recorded.of_func Demo.hw0 twiceTape_eq
theorem nestTape_recorded : Recorded nestTape := Recorded.of_func Demo.hw0 nestTape_eq

section generic
variable {S : Type} [Flt S]

theorem anf_of_new {t : Tape S} (h : t.WF) {at_ : AbsNormalTape S} (e : AbsNormalTape.new t = .ok at_) :
    at_ = anfOf t := by rw [AbsNormalTape.new_eq h] at e; injection e with e; exact e.symm

theorem views_wf {t : Tape S} (h : t.WF) {V : Tape S} (hV : V ∈ views (anfOf t)) : V.WF ∧ V.AbsFree := by
  simp only [views, List.mem_cons, List.not_mem_nil, or_false] at hV
  rcases hV with rfl | rfl | rfl | rfl
  · exact ⟨anfZ_wf h, anfZ_absFree t⟩
  · exact ⟨anfL_wf h, anfL_absFree t⟩
  · exact ⟨anfJ_wf h, anfJ_absFree t⟩
  · exact ⟨anfY_wf h, anfY_absFree t⟩

/-! ## C13, abs-normal products and drivers -/

/-- C13: products with the abs-normal matrices give the result of the sequential loop under every schedule. -/
theorem C13_products_schedule {σ : Sched} (hσ : σ.Valid) {t : Tape S} (h : Recorded t) {at_ : AbsNormalTape S}
    (e : AbsNormalTape.new t = .ok at_) {V : Tape S} (hV : V ∈ views at_) (B : DMat S) :
    Anf.mulRight σ V B = Anf.mulRight Sched.seq V B ∧ Anf.mulLeft σ V B = Anf.mulLeft Sched.seq V B := by
  cases anf_of_new h.proper.wf e
  obtain ⟨h1, h2⟩ := views_wf h.proper.wf hV
  exact ⟨Anf.mulRight_sched hσ Sched.seq_valid h1 B, Anf.mulLeft_sched hσ Sched.seq_valid h1 h2 B⟩

/-- C13: so do the drivers `abs_normal` and `generalized_jacobian`. -/
theorem C13_abs_drivers_schedule {σ : Sched} (hσ : σ.Valid) {t : Tape S} (h : Recorded t) :
    (do absNormalTape σ (← AbsNormalTape.new t)) = (do absNormalTape Sched.seq (← AbsNormalTape.new t)) ∧
    ∀ dx bits next, generalizedJacobianTape σ t dx bits next = generalizedJacobianTape Sched.seq t dx bits next := by
  have hw := h.proper.wf
  refine ⟨?_, fun dx bits next => generalizedJacobianTape_sched hσ Sched.seq_valid hw dx bits next⟩
  rw [AbsNormalTape.new_eq hw, bind_ok_eq, bind_ok_eq]
  exact absNormalTape_sched hσ Sched.seq_valid hw

example : Recorded demoTape ∧ ∃ at_, AbsNormalTape.new demoTape = .ok at_ ∧
    ((Anf.mulRight weirdSched (anfZ at_) (DMat.identity 2)).map DMat.toRows) =
    ((Anf.mulRight Sched.seq (anfZ at_) (DMat.identity 2)).map DMat.toRows) :=
  ⟨demoTape_recorded, anfOf demoTape, by decide +kernel, by decide +kernel⟩

/-! ## C52 -/

/-- C52: inputs then abs results, abs arguments then outputs. -/
theorem C52_shape {t : Tape S} (h : Recorded t) :
    ∃ at_, AbsNormalTape.new t = .ok at_ ∧
      at_.toTape.indeps = t.indeps ++ (t.ops.filter fun op => op.opcode = .Abs).map Operation.vid ∧
      at_.toTape.deps.map some = (t.ops.filter fun op => op.opcode = .Abs).map Operation.arg1 ++ t.deps.map some ∧
      at_.toTape.numIndeps = t.numIndeps + t.numAbs ∧ at_.toTape.numDeps = t.numAbs + t.numDeps ∧
      (anfZ at_).numIndeps = t.numIndeps ∧ (anfZ at_).numDeps = t.numAbs ∧
      (anfL at_).numIndeps = t.numAbs ∧ (anfL at_).numDeps = t.numAbs ∧
      (anfJ at_).numIndeps = t.numIndeps ∧ (anfJ at_).numDeps = t.numDeps ∧
      (anfY at_).numIndeps = t.numAbs ∧ (anfY at_).numDeps = t.numDeps := by
  have hw := h.proper.wf
  refine ⟨_, AbsNormalTape.new_eq hw, by rw [anfOf_toTape]; rfl, ?_, ?_, ?_, ?_⟩
  · rw [anfOf_toTape]
    show (zIds t ++ t.deps).map some = t.absOps.map Operation.arg1 ++ _
    rw [List.map_append]
    congr 1
    rw [zIds, List.map_map]
    apply List.map_congr_left
    intro op ho
    exact ((hw.abs_arg ho).1).symm
  · rw [anfOf_toTape]; simp [viewOf, Tape.numIndeps]
  · rw [anfOf_toTape]; simp [viewOf, Tape.numDeps]
  · rw [anfZ_eq, anfL_eq, anfJ_eq, anfY_eq]
    simp [viewOf, Tape.numIndeps, Tape.numDeps]

/-- C52: replaying the abs-normal tape at `(x, |z(x)|)` reproduces all values of the original tape at `x`. -/
theorem C52_replay {t : Tape S} (h : Recorded t) {x : List S} (hx : x.length = t.numIndeps) :
    ∃ t1 at_ at1 z, t.zeroOrder x = .ok t1 ∧ AbsNormalTape.new t = .ok at_ ∧ AbsNormalTape.new t1 = .ok at1 ∧
      at1.z = .ok z ∧ at_.toTape.zeroOrder (x ++ z.map Flt.abs) = .ok at1.toTape ∧ at1.toTape.vals = t1.vals := by
  obtain ⟨v, e, l, f, p⟩ := h.proper.zeroOrder hx
  exact ⟨_, _, _, _, e, AbsNormalTape.new_eq h.proper.wf, AbsNormalTape.new_eq p.wf, z_eq p.wf,
    toTape_replay h.proper hx e (z_eq p.wf), by rw [anfOf_toTape]; rfl⟩

/-- C52: the four matrices cannot be replayed. -/
theorem C52_views_readonly {t : Tape S} (h : Recorded t) {at_ : AbsNormalTape S} (e : AbsNormalTape.new t = .ok at_)
    {V : Tape S} (hV : V ∈ views at_) (x : List S) : ∃ err, V.zeroOrder x = .error err := by
  cases anf_of_new h.proper.wf e
  have hw := views_wf h.proper.wf hV
  by_cases hx : x.length = V.numIndeps
  · refine ⟨.noValuesMut, ?_⟩
    simp only [views, List.mem_cons, List.not_mem_nil, or_false] at hV
    rcases hV with rfl | rfl | rfl | rfl
    · rw [anfZ_eq] at *; exact view_readonly hw.1 hx
    · rw [anfL_eq] at *; exact view_readonly hw.1 hx
    · rw [anfJ_eq] at *; exact view_readonly hw.1 hx
    · rw [anfY_eq] at *; exact view_readonly hw.1 hx
  · refine ⟨.assertFailed, ?_⟩
    simp only [Tape.zeroOrder, hx, decide_false, assertR]; rfl

example : nestTape.numIndeps = 1 ∧ ∃ at_, AbsNormalTape.new nestTape = .ok at_ ∧
    at_.toTape.indeps = [0, 1, 4] ∧ at_.toTape.deps = [0, 3, 4] ∧
    (at_.toTape.zeroOrder [-5, 5, 4]).map Tape.vals = .ok [-5, 5, 1, 4, 4] ∧
    (nestTape.zeroOrder [-5]).map Tape.vals = .ok [-5, 5, 1, 4, 4] :=
  ⟨rfl, anfOf nestTape, by decide +kernel, by decide +kernel, by decide +kernel, by decide +kernel, by decide +kernel⟩

end generic

section field
variable {K : Type} [Field K] [LinearOrder K] [IsStrictOrderedRing K] [Flt K] [LawfulFlt K]

/-! ## C15

The full claim has no condition on the tape. It is false if two abs operations have the same argument or if
two outputs are the same variable, see `C15_repeated_argument_counterexample`. -/

/-- C15 for functions whose abs arguments are distinct variables and whose outputs are distinct variables. -/
theorem C15_piecewise_linear_model_partial {σ : Sched} (hσ : σ.Valid) (f : Func K) {x : List K} {w w' : World K}
    {t : Tape K} (hw : w.nextId < usizeMax) (e : f.tape x w = (.ok t, w'))
    (hz : t.switching.deps.Nodup) (hd : t.deps.Nodup) :
    ∃ F, absNormal σ f x w = (.ok F, w') ∧ F.Shape x.length t.numDeps t.numAbs ∧
      ∀ dx, dx.length = x.length → ∃ z dz, t.switching.y = .ok z ∧ t.switching.firstOrderForward dx = .ok dz ∧
        SwitchEq F dx (List.zipWith (· + ·) z dz) ∧
        (∀ zhat, SwitchEq F dx zhat → zhat = List.zipWith (· + ·) z dz) ∧
        t.firstOrderForward dx = .ok (F.increment dx (List.zipWith (· + ·) z dz)) := by
  have h := (Func.tape_spec f x w hw).2
  rw [e] at h
  obtain ⟨_, -, h⟩ := h.ok_left
  have hwf := h.wf
  have hni : t.numIndeps = x.length := by simp [Tape.numIndeps, h.indeps]
  rw [switching_deps hwf] at hz
  refine ⟨anfForm t, ?_, hni ▸ anfForm_shape t, ?_⟩
  · unfold absNormal
    rw [M.bind_ok e, M.lift_apply, AbsNormalTape.new_eq hwf, bind_ok_eq, absNormalTape_eq hσ hwf hz hd]
  · intro dx hdx
    have hdx' : dx.length = t.numIndeps := by rw [hdx, hni]
    obtain ⟨z, dz, h1, h2, h3⟩ := switching_forward hwf hdx'
    refine ⟨z, dz, h1, h2, ?_, ?_, ?_⟩
    · rw [h3]; exact zHatV_solves hwf hdx'
    · intro zhat hs; rw [h3]; exact switchEq_unique hwf hdx' hs
    · rw [h3]; exact increment_eq hwf hdx'

example : (nestF.tape [3] Demo.w0).1 = .ok nestTape ∧ nestTape.switching.deps.Nodup ∧ nestTape.deps.Nodup ∧
    (absNormal Sched.seq nestF [3] Demo.w0).1.map (fun F => [[F.a], F.zmat.toRows, F.lmat.toRows, [F.b],
      F.jmat.toRows, F.ymat.toRows]) = .ok [[[3, -1]], [[1], [0]], [[0, 0], [1, 0]], [[-2]], [[0]], [[0, 1]]] ∧
    nestTape.switching.y = .ok [3, 2] ∧ nestTape.switching.firstOrderForward [-7] = .ok [-7, 1] ∧
    nestTape.firstOrderForward [-7] = .ok [1] :=
  ⟨nestTape_eq, by decide +kernel, by decide +kernel, by decide +kernel, by decide +kernel, by decide +kernel,
    by decide +kernel⟩

/-- C15 is false if a variable is the argument of two abs operations. For `(x, y) ↦ |x| + |x|` at `(1, 1)`
and `dx = (1, 0)` the increment is 2, but the form predicts 1. -/
theorem C15_repeated_argument_counterexample :
    ∃ F zhat, (absNormal Sched.seq twiceF [1, 1] Demo.w0).1 = .ok F ∧ SwitchEq F [1, 0] zhat ∧
      F.increment [1, 0] zhat = [1] ∧
      (∃ t, (twiceF.tape [1, 1] Demo.w0).1 = .ok t ∧ t.firstOrderForward [1, 0] = .ok [2]) := by
  have h1 : (absNormal Sched.seq twiceF [1, 1] Demo.w0).1.map (fun F =>
      (decide (([1, 2] : List ℚ).length = F.a.length), decide (∀ i < F.a.length, ([1, 2] : List ℚ).getD i 0 =
        F.a.getD i 0 + mv F.zmat [1, 0] i + mv F.lmat (absV [1, 2]) i), F.increment [1, 0] [1, 2])) =
      .ok (true, true, [1]) := by decide +kernel
  rcases h : (absNormal Sched.seq twiceF [1, 1] Demo.w0).1 with _ | F
  · rw [h] at h1; cases h1
  · rw [h, map_ok_eq] at h1
    injection h1 with h1
    rw [Prod.mk.injEq, Prod.mk.injEq, decide_eq_true_eq, decide_eq_true_eq] at h1
    exact ⟨F, [1, 2], rfl, ⟨h1.1, h1.2.1⟩, h1.2.2, twiceTape, twiceTape_eq, by decide +kernel⟩

/-! ## C16 -/

/-- C16: `abs_normal` of a recorded tape does not panic and its `L` is strictly lower triangular. -/
theorem C16_L_strictly_lower {σ : Sched} (hσ : σ.Valid) {t : Tape K} (h : Recorded t) :
    ∃ at_ F, AbsNormalTape.new t = .ok at_ ∧ absNormalTape σ at_ = .ok F ∧
      F.Shape t.numIndeps t.numDeps t.numAbs ∧ StrictLower F.lmat := by
  obtain ⟨F, e, h1, h2⟩ := absNormalTape_total hσ h.proper.wf
  exact ⟨_, F, AbsNormalTape.new_eq h.proper.wf, e, h1, h2⟩

/-- C16: the matrix represented by the `L` view (by its right products) is strictly lower triangular. -/
theorem C16_L_view_strictly_lower {σ : Sched} (hσ : σ.Valid) {t : Tape K} (h : Recorded t) :
    ∃ at_ L, AbsNormalTape.new t = .ok at_ ∧ Anf.mulRight σ (anfL at_) (DMat.identity t.numAbs) = .ok L ∧
      StrictLower L := by
  have hw := h.proper.wf
  have e := Anf.mulRight_id hσ (anfL_wf hw) (anfL_absFree t)
  rw [L_numIndeps] at e
  refine ⟨_, _, AbsNormalTape.new_eq hw, e, ?_⟩
  intro i hi j hj hij
  rw [tMatD, DMat.ofFn_nrows, L_numDeps] at hi
  rw [tMatD, DMat.ofFn_ncols, L_numIndeps] at hj
  rw [tMatD, DMat.ofFn_get (by simpa using hi) (by simpa using hj)]
  exact tmat_L_tri hw i hi j hj hij

example : Recorded nestTape ∧ ((AbsNormalTape.new nestTape) >>= absNormalTape Sched.seq).map
    (fun F => F.lmat.toRows) = .ok [[0, 0], [1, 0]] := ⟨nestTape_recorded, by decide +kernel⟩

/-! ## C17

The full claim has no condition on the dependents of the view. It is false in general because of the reverse
sweep, see `C17_repeated_argument_counterexample`. -/

/-- C17, right products, without restriction: each view is a matrix and `mul_right` multiplies by it. -/
theorem C17_mul_right {t : Tape K} (h : Recorded t) {at_ : AbsNormalTape K} (e : AbsNormalTape.new t = .ok at_)
    {V : Tape K} (hV : V ∈ views at_) :
    ∃ A : DMat K, A.nrows = Anf.nrows V ∧ A.ncols = Anf.ncols V ∧
      ∀ σ : Sched, σ.Valid → ∀ B : DMat K, B.nrows = A.ncols → ∃ R, Anf.mulRight σ V B = .ok R ∧ IsMul R A B := by
  cases anf_of_new h.proper.wf e
  obtain ⟨h1, h2⟩ := views_wf h.proper.wf hV
  refine ⟨tMatD V, rfl, rfl, fun σ hσ B hB => ⟨_, Anf.mulRight_mat hσ h1 h2 hB.symm, hB.symm, rfl, rfl, ?_⟩⟩
  intro i hi j hj
  rw [tMatD, DMat.ofFn_nrows] at hi
  rw [DMat.ofFn_get hi hj]
  apply Finset.sum_congr rfl
  intro k hk
  rw [tMatD, DMat.ofFn_get hi (Finset.mem_range.mp hk)]

/-- C17 if the dependents of the view are distinct variables: both products use the same matrix. -/
theorem C17_products_partial {t : Tape K} (h : Recorded t) {at_ : AbsNormalTape K}
    (e : AbsNormalTape.new t = .ok at_) {V : Tape K} (hV : V ∈ views at_) (hnd : V.deps.Nodup) :
    ∃ A : DMat K, A.nrows = Anf.nrows V ∧ A.ncols = Anf.ncols V ∧ ∀ σ : Sched, σ.Valid →
      (∀ B : DMat K, B.nrows = A.ncols → ∃ R, Anf.mulRight σ V B = .ok R ∧ IsMul R A B) ∧
      (∀ C : DMat K, C.ncols = A.nrows → ∃ R, Anf.mulLeft σ V C = .ok R ∧ IsMul R C A) ∧
      Anf.mulRight σ V (DMat.identity A.ncols) = .ok A ∧ Anf.mulLeft σ V (DMat.identity A.nrows) = .ok A := by
  cases anf_of_new h.proper.wf e
  obtain ⟨h1, h2⟩ := views_wf h.proper.wf hV
  refine ⟨tMatD V, rfl, rfl, fun σ hσ => ⟨?_, ?_, Anf.mulRight_id hσ h1 h2, Anf.mulLeft_id hσ h1 h2 hnd⟩⟩
  · intro B hB
    refine ⟨_, Anf.mulRight_mat hσ h1 h2 hB.symm, hB.symm, rfl, rfl, ?_⟩
    intro i hi j hj
    rw [tMatD, DMat.ofFn_nrows] at hi
    rw [DMat.ofFn_get hi hj]
    apply Finset.sum_congr rfl
    intro k hk
    rw [tMatD, DMat.ofFn_get hi (Finset.mem_range.mp hk)]
  · intro C hC
    refine ⟨_, Anf.mulLeft_mat hσ h1 h2 hnd hC, hC, rfl, rfl, ?_⟩
    intro i hi j hj
    rw [tMatD, DMat.ofFn_ncols] at hj
    rw [DMat.ofFn_get hi hj, hC]
    apply Finset.sum_congr rfl
    intro k hk
    rw [tMatD, DMat.ofFn_get (Finset.mem_range.mp hk) hj]

/-- C17: arguments of the wrong shape panic (for any tape). -/
theorem C17_nonconforming_panics {S : Type} [Flt S] (σ : Sched) (V : Tape S) (B : DMat S) :
    (B.nrows ≠ Anf.ncols V → ∃ err, Anf.mulRight σ V B = .error err) ∧
    (B.ncols ≠ Anf.nrows V → ∃ err, Anf.mulLeft σ V B = .error err) :=
  ⟨fun h => ⟨_, Anf.mulRight_err (Ne.symm h)⟩, fun h => ⟨_, Anf.mulLeft_err h⟩⟩

example : Recorded nestTape ∧ ∃ at_, AbsNormalTape.new nestTape = .ok at_ ∧ (∀ V ∈ views at_, V.deps.Nodup) ∧
    (Anf.mulRight Sched.seq (anfL at_) (DMat.ofFn 2 1 fun i _ => i + 1)).map DMat.toRows = .ok [[0], [1]] ∧
    (Anf.mulLeft Sched.seq (anfL at_) (DMat.ofFn 1 2 fun _ j => j + 5)).map DMat.toRows = .ok [[6, 0]] :=
  ⟨nestTape_recorded, anfOf nestTape, by decide +kernel, by decide +kernel, by decide +kernel, by decide +kernel⟩

/-- C17 is false if a variable is the argument of two abs operations: the two products of `Z` with the
identity differ, so `abs_normal` depends on which one it selects. -/
theorem C17_repeated_argument_counterexample :
    Recorded twiceTape ∧ ∃ at_, AbsNormalTape.new twiceTape = .ok at_ ∧
      (Anf.mulRight Sched.seq (anfZ at_) (DMat.identity 2)).map DMat.toRows = .ok [[1, 0], [1, 0]] ∧
      (Anf.mulLeft Sched.seq (anfZ at_) (DMat.identity 2)).map DMat.toRows = .ok [[0, 0], [1, 0]] :=
  ⟨twiceTape_recorded, anfOf twiceTape, by decide +kernel, by decide +kernel, by decide +kernel⟩

/-! ## C18

The full claim also covers repeated dependents (false, as in C17) and `column` (false, see
`C18_column_panics`). -/

/-- C18 for rows of views with distinct dependents: `row(i)` is row `i` of the matrix of C17. -/
theorem C18_row_partial {σ : Sched} (hσ : σ.Valid) {t : Tape K} (h : Recorded t) {at_ : AbsNormalTape K}
    (e : AbsNormalTape.new t = .ok at_) {V : Tape K} (hV : V ∈ views at_) (hnd : V.deps.Nodup) {i : Nat}
    (hi : i < Anf.nrows V) :
    ∃ A r, Anf.mulRight σ V (DMat.identity (Anf.ncols V)) = .ok A ∧ Anf.row σ V i = .ok r ∧ r.nrows = 1 ∧
      r.ncols = A.ncols ∧ ∀ j < A.ncols, r.get 0 j = A.get i j := by
  cases anf_of_new h.proper.wf e
  obtain ⟨h1, h2⟩ := views_wf h.proper.wf hV
  unfold Anf.nrows at hi
  refine ⟨_, DMat.ofFn 1 V.numIndeps fun _ j => tmat V i j, Anf.mulRight_id hσ h1 h2, ?_, ?_, ?_, ?_⟩
  · unfold Anf.row
    rw [DMat.set, if_pos ⟨by exact Nat.one_pos, by exact hi⟩, bind_ok_eq, Anf.mulLeft_mat hσ h1 h2 hnd rfl]
    congr 1
    apply DMat.ofFn_congr
    intro i' hi' j hj
    change i' < 1 at hi'
    obtain rfl : i' = 0 := by omega
    rw [Finset.sum_eq_single i]
    · simp [DMat.zeros, LawfulFlt.one_eq]
    · intro k hk hne
      rw [Finset.mem_range] at hk
      simp only [hne, and_false, if_false]
      rw [DMat.zeros, DMat.ofFn_get Nat.one_pos hk, LawfulFlt.zero_eq, zero_mul]
    · intro hn; exact absurd (Finset.mem_range.mpr hi) hn
  · rfl
  · rfl
  · intro j hj
    rw [tMatD, DMat.ofFn_ncols] at hj
    rw [DMat.ofFn_get Nat.one_pos hj, tMatD, DMat.ofFn_get hi hj]

/-- C18: `row` panics for an index out of range. -/
theorem C18_row_out_of_range {S : Type} [Flt S] (σ : Sched) (V : Tape S) {i : Nat} (hi : ¬ i < Anf.nrows V) :
    ∃ err, Anf.row σ V i = .error err := by
  unfold Anf.row
  rw [DMat.set, if_neg (fun hc => hi hc.2)]
  exact ⟨_, rfl⟩

/-- C18 is false for columns: `column(i)` of a matrix with any number of columns other than 1 panics, whatever
the index. -/
theorem C18_column_panics {S : Type} [Flt S] (σ : Sched) (V : Tape S) (hn : Anf.ncols V ≠ 1) (i : Nat) :
    ∃ err, Anf.column σ V i = .error err := by
  unfold Anf.column
  rw [DMat.set]
  split
  · rw [bind_ok_eq]; exact ⟨_, Anf.mulRight_err hn⟩
  · exact ⟨_, rfl⟩

/-- C18: with exactly one column, `column(0)` is that column. -/
theorem C18_column_single {σ : Sched} (hσ : σ.Valid) {t : Tape K} (h : Recorded t) {at_ : AbsNormalTape K}
    (e : AbsNormalTape.new t = .ok at_) {V : Tape K} (hV : V ∈ views at_) (hn : Anf.ncols V = 1) :
    ∃ A, Anf.mulRight σ V (DMat.identity (Anf.ncols V)) = .ok A ∧ Anf.column σ V 0 = .ok A := by
  cases anf_of_new h.proper.wf e
  obtain ⟨h1, h2⟩ := views_wf h.proper.wf hV
  refine ⟨_, Anf.mulRight_id hσ h1 h2, ?_⟩
  unfold Anf.ncols at hn
  unfold Anf.column
  rw [hn, DMat.set, if_pos ⟨by exact Nat.one_pos, by exact Nat.one_pos⟩, bind_ok_eq, Anf.mulRight_mat hσ h1 h2 hn]
  congr 1
  unfold tMatD
  rw [hn]
  apply DMat.ofFn_congr
  intro i _ j hj
  change j < 1 at hj
  obtain rfl : j = 0 := by omega
  simp [LawfulFlt.one_eq]

example : Recorded demoTape ∧ ∃ at_, AbsNormalTape.new demoTape = .ok at_ ∧ Anf.ncols (anfZ at_) = 2 ∧
    (anfZ at_).deps.Nodup ∧ (Anf.row Sched.seq (anfZ at_) 0).map DMat.toRows = .ok [[-3, 2]] ∧
    (Anf.column Sched.seq (anfZ at_) 0).map DMat.toRows = .error .assertFailed ∧
    (Anf.column Sched.seq (anfY at_) 0).map DMat.toRows = .ok [[1], [1]] :=
  ⟨demoTape_recorded, anfOf demoTape, by decide +kernel, by decide +kernel, by decide +kernel, by decide +kernel,
    by decide +kernel, by decide +kernel⟩

end field
end Adv.Props
