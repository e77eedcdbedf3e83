import Verif.Proof.AnfMath

/-! # Products with the views, and the dense form -/

set_option linter.unusedSectionVars false
set_option linter.unusedSimpArgs false

namespace Adv
open scoped Adv
open Finset

variable {K : Type} [Field K] [LinearOrder K] [IsStrictOrderedRing K] [Flt K] [LawfulFlt K]

theorem getD_map_range (f : Nat → K) {n i : Nat} (h : i < n) (d : K) : ((List.range n).map f).getD i d = f i := by
  rw [getD_lt (by simpa using h)]; simp

namespace Anf

theorem mulRight_mat {σ : Sched} (hσ : σ.Valid) {t : Tape K} (h : t.WF) (ha : t.AbsFree) {B : DMat K}
    (hB : t.numIndeps = B.nrows) :
    mulRight σ t B = .ok (DMat.ofFn t.numDeps B.ncols fun i j =>
      ∑ k ∈ range t.numIndeps, tmat t i k * B.get k j) := by
  rw [mulRight_eq hσ h hB]
  congr 1
  apply DMat.ofFn_congr
  intro i hi j _
  unfold mrEntry
  rw [Tape.forward_mat h ha (by rw [colOf_length, hB])]
  simp only
  rw [getD_map_range _ hi]
  apply Finset.sum_congr rfl
  intro k hk
  rw [Finset.mem_range, hB] at hk
  rw [colOf, getD_map_range _ hk]

theorem mulLeft_mat {σ : Sched} (hσ : σ.Valid) {t : Tape K} (h : t.WF) (ha : t.AbsFree) (hnd : t.deps.Nodup)
    {C : DMat K} (hC : C.ncols = t.numDeps) :
    mulLeft σ t C = .ok (DMat.ofFn C.nrows t.numIndeps fun i j =>
      ∑ k ∈ range t.numDeps, C.get i k * tmat t k j) := by
  rw [mulLeft_eq hσ h ha hC]
  congr 1
  apply DMat.ofFn_congr
  intro i _ j hj
  unfold mlEntry
  rw [Tape.reverse_mat h ha hnd (by rw [rowOf_length, hC])]
  simp only
  rw [getD_map_range _ hj]
  apply Finset.sum_congr rfl
  intro k hk
  rw [Finset.mem_range, ← hC] at hk
  rw [rowOf, getD_map_range _ hk]

end Anf

/-- The matrix of a tape. -/
def tMatD (t : Tape K) : DMat K := DMat.ofFn t.numDeps t.numIndeps (tmat t)

theorem identity_get {n i j : Nat} (hi : i < n) (hj : j < n) :
    (DMat.identity n : DMat K).get i j = if i = j then 1 else 0 := by
  rw [DMat.identity, DMat.ofFn_get hi hj, LawfulFlt.one_eq, LawfulFlt.zero_eq]

theorem Anf.mulRight_id {σ : Sched} (hσ : σ.Valid) {t : Tape K} (h : t.WF) (ha : t.AbsFree) :
    Anf.mulRight σ t (DMat.identity t.numIndeps) = .ok (tMatD t) := by
  rw [Anf.mulRight_mat hσ h ha rfl]
  congr 1
  apply DMat.ofFn_congr
  intro i _ j hj
  change j < t.numIndeps at hj
  rw [Finset.sum_eq_single j]
  · rw [identity_get hj hj]; simp
  · intro k hk hne
    rw [identity_get (Finset.mem_range.mp hk) hj]; simp [hne]
  · intro hn; exact absurd (Finset.mem_range.mpr hj) hn

theorem Anf.mulLeft_id {σ : Sched} (hσ : σ.Valid) {t : Tape K} (h : t.WF) (ha : t.AbsFree) (hnd : t.deps.Nodup) :
    Anf.mulLeft σ t (DMat.identity t.numDeps) = .ok (tMatD t) := by
  rw [Anf.mulLeft_mat hσ h ha hnd rfl]
  congr 1
  apply DMat.ofFn_congr
  intro i hi j _
  change i < t.numDeps at hi
  rw [Finset.sum_eq_single i]
  · rw [identity_get hi hi]; simp
  · intro k hk hne
    rw [identity_get hi (Finset.mem_range.mp hk)]; simp [Ne.symm hne]
  · intro hn; exact absurd (Finset.mem_range.mpr hi) hn

theorem sumProd_eq (n : Nat) (f g : Nat → K) : DMat.sumProd n f g = ∑ k ∈ range n, f k * g k := by
  unfold DMat.sumProd
  induction n with
  | zero => simp [LawfulFlt.zero_eq]
  | succ n ih =>
    rw [List.range_succ, List.foldl_append, ih, Finset.sum_range_succ]
    simp [LawfulFlt.add_eq, LawfulFlt.mul_eq]

@[simp] theorem Z_deps (t : Tape K) : (anfZ (anfOf t)).deps = zIds t := by rw [anfZ_eq]; rfl
@[simp] theorem L_deps (t : Tape K) : (anfL (anfOf t)).deps = zIds t := by rw [anfL_eq]; rfl
@[simp] theorem J_deps (t : Tape K) : (anfJ (anfOf t)).deps = t.deps := by rw [anfJ_eq]; rfl
@[simp] theorem Y_deps (t : Tape K) : (anfY (anfOf t)).deps = t.deps := by rw [anfY_eq]; rfl
@[simp] theorem Z_numDeps (t : Tape K) : (anfZ (anfOf t)).numDeps = t.numAbs := by simp [Tape.numDeps]
@[simp] theorem L_numDeps (t : Tape K) : (anfL (anfOf t)).numDeps = t.numAbs := by simp [Tape.numDeps]
@[simp] theorem J_numDeps (t : Tape K) : (anfJ (anfOf t)).numDeps = t.numDeps := by simp [Tape.numDeps]
@[simp] theorem Y_numDeps (t : Tape K) : (anfY (anfOf t)).numDeps = t.numDeps := by simp [Tape.numDeps]
@[simp] theorem Z_numIndeps (t : Tape K) : (anfZ (anfOf t)).numIndeps = t.numIndeps := by rw [anfZ_eq]; rfl
@[simp] theorem L_numIndeps (t : Tape K) : (anfL (anfOf t)).numIndeps = t.numAbs := by
  rw [anfL_eq]; simp [viewOf, Tape.numIndeps]
@[simp] theorem J_numIndeps (t : Tape K) : (anfJ (anfOf t)).numIndeps = t.numIndeps := by rw [anfJ_eq]; rfl
@[simp] theorem Y_numIndeps (t : Tape K) : (anfY (anfOf t)).numIndeps = t.numAbs := by
  rw [anfY_eq]; simp [viewOf, Tape.numIndeps]

/-- The dense abs-normal form of a tape. -/
def anfForm (t : Tape K) : AbsNormalForm K :=
  { a := (List.range t.numAbs).map fun i =>
      zVal t i - ∑ k ∈ range t.numAbs, tmat (anfL (anfOf t)) i k * |zVal t k|
    zmat := tMatD (anfZ (anfOf t))
    lmat := tMatD (anfL (anfOf t))
    b := (List.range t.numDeps).map fun i =>
      -(∑ k ∈ range t.numAbs, tmat (anfY (anfOf t)) i k * |zVal t k|)
    jmat := tMatD (anfJ (anfOf t))
    ymat := tMatD (anfY (anfOf t)) }

theorem zVec_eq (t : Tape K) : (zIds t).map (fn t.vals) = (List.range t.numAbs).map (zVal t) := by
  rw [map_eq_range_map _ 0, zIds_length]; rfl

theorem vabs_range (n : Nat) (f : Nat → K) : vabs ((List.range n).map f) = (List.range n).map fun i => |f i| := by
  simp only [vabs, List.map_map]
  apply List.map_congr_left
  intro i _; simp [LawfulFlt.abs_eq]

theorem zipWith_range {α β γ : Type} (g : α → β → γ) (n : Nat) (f : Nat → α) (f' : Nat → β) :
    List.zipWith g ((List.range n).map f) ((List.range n).map f') = (List.range n).map fun i => g (f i) (f' i) := by
  rw [List.zipWith_map]
  apply List.ext_getElem
  · simp
  · intro i h1 h2; simp

theorem vsub_range (n : Nat) (f g : Nat → K) :
    vsub ((List.range n).map f) ((List.range n).map g) = .ok ((List.range n).map fun i => f i - g i) := by
  simp only [vsub, List.length_map, List.length_range, if_true, zipWith_range]
  simp only [LawfulFlt.sub_eq]

theorem vadd_range (n : Nat) (f g : Nat → K) :
    vadd ((List.range n).map f) ((List.range n).map g) = .ok ((List.range n).map fun i => f i + g i) := by
  simp only [vadd, List.length_map, List.length_range, if_true, zipWith_range]
  simp only [LawfulFlt.add_eq]

theorem vneg_range (n : Nat) (f : Nat → K) :
    vneg ((List.range n).map f) = (List.range n).map fun i => - f i := by
  simp only [vneg, List.map_map]
  apply List.map_congr_left
  intro i _; simp [LawfulFlt.neg_eq]

theorem mulVec_range (r c : Nat) (F : Nat → Nat → K) (v : Nat → K) :
    (DMat.ofFn r c F).mulVec ((List.range c).map v) =
      .ok ((List.range r).map fun i => ∑ k ∈ range c, F i k * v k) := by
  simp only [DMat.mulVec, DMat.ofFn_ncols, DMat.ofFn_nrows, List.length_map, List.length_range, if_true]
  congr 1
  apply List.map_congr_left
  intro i hi
  rw [List.mem_range] at hi
  rw [sumProd_eq]
  apply Finset.sum_congr rfl
  intro k hk
  rw [Finset.mem_range] at hk
  rw [DMat.ofFn_get hi hk, getD_map_range _ hk]

theorem neg_ofFn (r c : Nat) (F : Nat → Nat → K) : (DMat.ofFn r c F).neg = DMat.ofFn r c fun i j => - F i j := by
  unfold DMat.neg
  apply DMat.ofFn_congr
  intro i hi j hj
  rw [DMat.ofFn_get (r := r) (c := c) hi hj, LawfulFlt.neg_eq]

theorem absNormalTape_eq {σ : Sched} (hσ : σ.Valid) {t : Tape K} (h : t.WF) (hz : (zIds t).Nodup)
    (hd : t.deps.Nodup) : absNormalTape σ (anfOf t) = .ok (anfForm t) := by
  have eZ : Anf.dense (σ.at_ 0) (anfZ (anfOf t)) (anfOf t).n (anfOf t).s = .ok (tMatD (anfZ (anfOf t))) := by
    unfold Anf.dense
    split
    · have := Anf.mulRight_id (hσ.at_ 0) (anfZ_wf h) (anfZ_absFree t)
      rwa [Z_numIndeps] at this
    · have := Anf.mulLeft_id (hσ.at_ 0) (anfZ_wf h) (anfZ_absFree t) (by rwa [Z_deps])
      rwa [Z_numDeps] at this
  have eL : Anf.mulLeft (σ.at_ 1) (anfL (anfOf t)) (DMat.identity (anfOf t).s) = .ok (tMatD (anfL (anfOf t))) := by
    have := Anf.mulLeft_id (hσ.at_ 1) (anfL_wf h) (anfL_absFree t) (by rwa [L_deps])
    rwa [L_numDeps] at this
  have eJ : Anf.dense (σ.at_ 2) (anfJ (anfOf t)) (anfOf t).n (anfOf t).m = .ok (tMatD (anfJ (anfOf t))) := by
    unfold Anf.dense
    split
    · have := Anf.mulRight_id (hσ.at_ 2) (anfJ_wf h) (anfJ_absFree t)
      rwa [J_numIndeps] at this
    · have := Anf.mulLeft_id (hσ.at_ 2) (anfJ_wf h) (anfJ_absFree t) (by rwa [J_deps])
      rwa [J_numDeps] at this
  have eY : Anf.dense (σ.at_ 3) (anfY (anfOf t)) (anfOf t).s (anfOf t).m = .ok (tMatD (anfY (anfOf t))) := by
    unfold Anf.dense
    split
    · have := Anf.mulRight_id (hσ.at_ 3) (anfY_wf h) (anfY_absFree t)
      rwa [Y_numIndeps] at this
    · have := Anf.mulLeft_id (hσ.at_ 3) (anfY_wf h) (anfY_absFree t) (by rwa [Y_deps])
      rwa [Y_numDeps] at this
  have l1 : (tMatD (anfL (anfOf t))).mulVec ((List.range t.numAbs).map fun i => |zVal t i|) =
      .ok ((List.range t.numAbs).map fun i =>
        ∑ k ∈ range t.numAbs, tmat (anfL (anfOf t)) i k * |zVal t k|) := by
    have := mulVec_range (anfL (anfOf t)).numDeps (anfL (anfOf t)).numIndeps (tmat (anfL (anfOf t)))
      fun i => |zVal t i|
    rw [L_numDeps, L_numIndeps] at this
    unfold tMatD
    rwa [L_numDeps, L_numIndeps]
  have l2 : (tMatD (anfY (anfOf t))).neg.mulVec ((List.range t.numAbs).map fun i => |zVal t i|) =
      .ok ((List.range t.numDeps).map fun i =>
        ∑ k ∈ range t.numAbs, - tmat (anfY (anfOf t)) i k * |zVal t k|) := by
    unfold tMatD
    rw [Y_numDeps, Y_numIndeps, neg_ofFn, mulVec_range]
  unfold absNormalTape
  simp only [eZ, eL, eJ, eY, bind_ok_eq, z_eq h, zVec_eq, vabs_range, l1, vsub_range, l2]
  show Except.ok _ = _
  congr 1
  unfold anfForm
  congr 1
  apply List.map_congr_left
  intro i _
  rw [← Finset.sum_neg_distrib]
  apply Finset.sum_congr rfl
  intro k _; ring

theorem anfForm_shape (t : Tape K) : (anfForm t).Shape t.numIndeps t.numDeps t.numAbs :=
  ⟨by simp [anfForm], by simp [anfForm], ⟨by simp [anfForm, tMatD], by simp [anfForm, tMatD]⟩,
    ⟨by simp [anfForm, tMatD], by simp [anfForm, tMatD]⟩, ⟨by simp [anfForm, tMatD], by simp [anfForm, tMatD]⟩,
    ⟨by simp [anfForm, tMatD], by simp [anfForm, tMatD]⟩⟩

theorem mv_tMatD {t : Tape K} {v : List K} {i : Nat} (hi : i < t.numDeps) :
    mv (tMatD t) v i = ∑ j ∈ range t.numIndeps, tmat t i j * v.getD j 0 := by
  unfold mv
  apply Finset.sum_congr rfl
  intro j hj
  rw [tMatD, DMat.ofFn_get (c := t.numIndeps) hi (Finset.mem_range.mp hj)]

theorem absV_getD {v : List K} {i : Nat} : (absV v).getD i 0 = |v.getD i 0| := by
  simp only [absV, List.getD_eq_getElem?_getD, List.getElem?_map]
  rcases v[i]? with _ | x <;> simp

theorem switchEq_iff {t : Tape K} {dx zhat : List K} (hl : zhat.length = t.numAbs) :
    SwitchEq (anfForm t) dx zhat ↔ ∀ i < t.numAbs, zhat.getD i 0 = cVec t dx i +
      ∑ k ∈ range t.numAbs, tmat (anfL (anfOf t)) i k * |zhat.getD k 0| := by
  have hs := (anfForm_shape t).a
  have key : ∀ i < t.numAbs, (anfForm t).a.getD i 0 + mv (anfForm t).zmat dx i + mv (anfForm t).lmat (absV zhat) i =
      cVec t dx i + ∑ k ∈ range t.numAbs, tmat (anfL (anfOf t)) i k * |zhat.getD k 0| := by
    intro i hi
    show ((List.range t.numAbs).map _).getD i 0 + mv (tMatD _) _ _ + mv (tMatD _) _ _ = _
    rw [getD_map_range _ hi, mv_tMatD (by simpa using hi), mv_tMatD (by simpa using hi)]
    simp only [absV_getD, Z_numIndeps, L_numIndeps, cVec]
  constructor
  · intro h i hi
    rw [h.eq i (by rw [hs]; exact hi), key i hi]
  · intro h
    refine ⟨by rw [hs, hl], fun i hi => ?_⟩
    rw [hs] at hi
    rw [h i hi, key i hi]

/-- The solution of the switching equation. -/
def zHatV (t : Tape K) (dx : List K) : List K := (List.range t.numAbs).map (zHat t dx)

theorem zHatV_getD {t : Tape K} {dx : List K} {i : Nat} (hi : i < t.numAbs) :
    (zHatV t dx).getD i 0 = zHat t dx i := getD_map_range _ hi _

theorem zHatV_solves {t : Tape K} (h : t.WF) {dx : List K} (hx : dx.length = t.numIndeps) :
    SwitchEq (anfForm t) dx (zHatV t dx) := by
  rw [switchEq_iff (by simp [zHatV])]
  intro i hi
  rw [zHatV_getD hi, zHat_eq h hx i hi]
  congr 1
  apply Finset.sum_congr rfl
  intro k hk
  rw [zHatV_getD (Finset.mem_range.mp hk)]

theorem switchEq_unique {t : Tape K} (h : t.WF) {dx zhat : List K} (hx : dx.length = t.numIndeps)
    (hs : SwitchEq (anfForm t) dx zhat) : zhat = zHatV t dx := by
  have hl : zhat.length = t.numAbs := by rw [hs.length, (anfForm_shape t).a]
  have h1 := (switchEq_iff hl).mp hs
  have h2 := (switchEq_iff (by simp [zHatV])).mp (zHatV_solves h hx)
  have := fix_unique (tmat_L_tri h) h1 h2
  apply List.ext_getElem (by simp [zHatV, hl])
  intro i h3 h4
  rw [← getD_lt (d := 0), ← getD_lt (d := 0)]
  exact this i (by omega)

theorem forward_dy {t : Tape K} (h : t.WF) {dx : List K} (hx : dx.length = t.numIndeps) :
    t.firstOrderForward dx = .ok ((List.range t.numDeps).map fun i =>
      -(∑ k ∈ range t.numAbs, tmat (anfY (anfOf t)) i k * |zVal t k|) +
      ∑ j ∈ range t.numIndeps, tmat (anfJ (anfOf t)) i j * dx.getD j 0 +
      ∑ k ∈ range t.numAbs, tmat (anfY (anfOf t)) i k * |zHat t dx k|) := by
  rw [Tape.firstOrderForward_eq h (by rw [hx]; exact Nat.le_refl _), map_eq_range_map _ 0]
  congr 1
  apply List.map_congr_left
  intro i _
  rw [LawfulFlt.zero_eq]
  exact dy_eq h hx i

theorem increment_eq {t : Tape K} (h : t.WF) {dx : List K} (hx : dx.length = t.numIndeps) :
    t.firstOrderForward dx = .ok ((anfForm t).increment dx (zHatV t dx)) := by
  rw [forward_dy h hx]
  congr 1
  unfold AbsNormalForm.increment
  rw [(anfForm_shape t).b]
  apply List.map_congr_left
  intro i hi
  rw [List.mem_range] at hi
  show _ = ((List.range t.numDeps).map _).getD i 0 + mv (tMatD _) _ _ + mv (tMatD _) _ _
  rw [getD_map_range _ hi, mv_tMatD (by simpa using hi), mv_tMatD (by simpa using hi)]
  simp only [J_numIndeps, Y_numIndeps, absV_getD]
  congr 1
  apply Finset.sum_congr rfl
  intro k hk
  rw [zHatV_getD (Finset.mem_range.mp hk)]

/-- The tape of the switching variables. -/
theorem switching_deps {t : Tape K} (h : t.WF) : t.switching.deps = zIds t := by
  show t.absOps.filterMap Operation.arg1 = t.absOps.map Operation.a1
  have : ∀ l : List Operation, (∀ op ∈ l, op.arg1 = some op.a1) → l.filterMap Operation.arg1 = l.map Operation.a1 := by
    intro l
    induction l with
    | nil => intro _; rfl
    | cons o l ih =>
      intro hl
      rw [List.filterMap_cons, hl o (by simp), List.map_cons, ih (fun op ho => hl op (by simp [ho]))]
  exact this _ (fun op ho => (h.abs_arg ho).1)

theorem switching_wf {t : Tape K} (h : t.WF) : t.switching.WF :=
  ⟨h.indeps_lt, by rw [switching_deps h]; exact zIds_lt h, h.indeps_nodup, h.arity, h.vid_lt, h.args_lt,
    h.vid_fresh, h.sorted⟩

theorem switching_forward {t : Tape K} (h : t.WF) {dx : List K} (hx : dx.length = t.numIndeps) :
    ∃ z dz, t.switching.y = .ok z ∧ t.switching.firstOrderForward dx = .ok dz ∧
      List.zipWith (· + ·) z dz = zHatV t dx := by
  refine ⟨_, _, Tape.y_eq (switching_wf h), Tape.firstOrderForward_eq (switching_wf h) (by
    show t.indeps.length ≤ _; rw [hx]; exact Nat.le_refl _), ?_⟩
  rw [switching_deps h, map_eq_range_map _ 0, map_eq_range_map (zIds t) 0, zipWith_range, zIds_length]
  unfold zHatV
  apply List.map_congr_left
  intro i _
  rw [LawfulFlt.zero_eq]; rfl

end Adv
