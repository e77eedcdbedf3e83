import Verif.Proof.AnfForm

/-! # Triangularity of the computed `L`, replay of an abs-normal tape -/

set_option linter.unusedSectionVars false
set_option linter.unusedSimpArgs false

namespace Adv
open scoped Adv
open Finset

section field
variable {K : Type} [Field K] [LinearOrder K] [IsStrictOrderedRing K] [Flt K] [LawfulFlt K]

theorem scatterFn_support {ids : List Nat} {xs : List K} {f : Nat → K} {k : Nat} (hf : f k = 0)
    (h : scatterFn ids xs f k ≠ 0) : ∃ j, ∃ (hj : j < ids.length), ids[j] = k ∧ xs.getD j 0 ≠ 0 := by
  induction ids generalizing xs f with
  | nil => exact absurd hf (by simpa [scatterFn] using h)
  | cons i ids ih =>
    cases xs with
    | nil => exact absurd hf (by simpa [scatterFn] using h)
    | cons x xs =>
      rw [scatterFn] at h
      by_cases h0 : upd f i x k = 0
      · obtain ⟨j, hj, e, hx⟩ := ih h0 h
        exact ⟨j + 1, by simpa using hj, by simpa using e, by simpa using hx⟩
      · have : k = i := by
          by_contra hne
          rw [upd_ne hne] at h0; exact h0 hf
        subst this
        rw [upd_same] at h0
        exact ⟨0, by simp, rfl, by simpa using h0⟩

theorem ip_unit_right {n k : Nat} (hk : k < n) (f : Nat → K) : ip n f (unitFn k) = f k := by
  unfold ip unitFn
  rw [Finset.sum_eq_single k]
  · simp
  · intro b _ hne; rw [upd_ne hne, mul_zero]
  · intro hn; exact absurd (Finset.mem_range.mpr hk) hn

/-- The `L` computed by rows is strictly lower triangular, even if a variable is the argument of several
abs operations. -/
theorem mlEntry_L_tri {t : Tape K} (h : t.WF) {i k : Nat} (hi : i < t.numAbs) (hk : k < t.numAbs) (hik : i ≤ k) :
    Anf.mlEntry (anfL (anfOf t)) (DMat.identity t.numAbs) i k = 0 := by
  have hwf := anfL_wf h
  unfold Anf.mlEntry
  rw [Tape.firstOrderReverse_eq hwf (anfL_absFree t) (by
    rw [Anf.rowOf_length, L_deps, zIds_length]; exact Nat.le_refl _)]
  simp only
  have hI : (anfL (anfOf t)).indeps = wIds t := by rw [anfL_eq]; rfl
  have hO : (anfL (anfOf t)).ops = hops t := by rw [anfL_eq]; rfl
  have hV : (anfL (anfOf t)).vals = t.vals := by rw [anfL_eq]; rfl
  rw [hI, hO, hV, L_deps]
  set g := scatterFn (zIds t) (Anf.rowOf (DMat.identity t.numAbs : DMat K) i) (fun _ => (Flt.zero : K)) with hg
  have hkw : k < (wIds t).length := by simpa using hk
  rw [getD_lt (by simpa using hk), List.getElem_map]
  have hmem : (wIds t)[k] ∈ wIds t := List.getElem_mem hkw
  have hlt : (wIds t)[k] < t.vals.length := by
    have := hwf.indeps_lt _ (by rw [hI]; exact hmem)
    rwa [hV] at this
  rw [← ip_unit_right hlt (sweepR (fn t.vals) (hops t) g), sweepR_adjoint (by
    have := hwf.inB; rwa [hO, hV] at this) (hops_absFree t) (hops_ssa h) (by
      intro op hop
      have := hwf.vid_fresh op (by rwa [hO])
      rw [hI] at this
      rw [unitFn, upd_ne]
      intro e; exact this (e ▸ hmem))]
  unfold ip
  apply Finset.sum_eq_zero
  intro d _
  by_cases hd : g d = 0
  · rw [hd, zero_mul]
  · obtain ⟨j, hj, e, hx⟩ := scatterFn_support (by exact LawfulFlt.zero_eq) hd
    have hj' : j < t.numAbs := by simpa using hj
    have hij : j = i := by
      by_contra hne
      apply hx
      show ((List.range t.numAbs).map fun j => (DMat.identity t.numAbs : DMat K).get i j).getD j 0 = 0
      rw [getD_map_range _ hj', identity_get hi hj', if_neg (Ne.symm hne)]
    subst hij
    have : sweepF (fn t.vals) (hops t) (unitFn (wIds t)[k]) d = 0 := by
      apply ent_zero h
      have := zId_lt_wId h hi hk hik
      rwa [getD_lt hj, getD_lt hkw, e] at this
    rw [this, mul_zero]

theorem lmat_tri {σ : Sched} (hσ : σ.Valid) {t : Tape K} (h : t.WF) :
    ∃ Lm, Anf.mulLeft σ (anfL (anfOf t)) (DMat.identity t.numAbs) = .ok Lm ∧ Lm.nrows = t.numAbs ∧
      Lm.ncols = t.numAbs ∧ StrictLower Lm := by
  refine ⟨_, Anf.mulLeft_eq hσ (anfL_wf h) (anfL_absFree t) (by rw [L_numDeps]; rfl), rfl, by
    rw [DMat.ofFn_ncols, L_numIndeps], ?_⟩
  intro i hi j hj hij
  rw [DMat.ofFn_nrows] at hi
  change i < t.numAbs at hi
  rw [DMat.ofFn_ncols, L_numIndeps] at hj
  rw [DMat.ofFn_get (r := (DMat.identity t.numAbs : DMat K).nrows) hi (by rw [L_numIndeps]; exact hj)]
  exact mlEntry_L_tri h hi hj hij

theorem dense_shape {σ : Sched} (hσ : σ.Valid) {t : Tape K} (h : t.WF) (ha : t.AbsFree) {c r : Nat}
    (hc : t.numIndeps = c) (hr : t.numDeps = r) :
    ∃ A, Anf.dense σ t c r = .ok A ∧ A.nrows = r ∧ A.ncols = c := by
  unfold Anf.dense
  split
  · exact ⟨_, Anf.mulRight_eq hσ h hc, hr, rfl⟩
  · exact ⟨_, Anf.mulLeft_eq hσ h ha hr.symm, rfl, hc⟩

/-- `abs_normal` does not panic, and its `L` is strictly lower triangular. -/
theorem absNormalTape_total {σ : Sched} (hσ : σ.Valid) {t : Tape K} (h : t.WF) :
    ∃ F, absNormalTape σ (anfOf t) = .ok F ∧ F.Shape t.numIndeps t.numDeps t.numAbs ∧ StrictLower F.lmat := by
  obtain ⟨Lm, e1, l1, l2, hp⟩ := lmat_tri (hσ.at_ 1) h
  obtain ⟨Zm, e0, z1, z2⟩ := dense_shape (hσ.at_ 0) (anfZ_wf h) (anfZ_absFree t) (Z_numIndeps t) (Z_numDeps t)
  obtain ⟨Jm, e2, j1, j2⟩ := dense_shape (hσ.at_ 2) (anfJ_wf h) (anfJ_absFree t) (J_numIndeps t) (J_numDeps t)
  obtain ⟨Ym, e3, y1, y2⟩ := dense_shape (hσ.at_ 3) (anfY_wf h) (anfY_absFree t) (Y_numIndeps t) (Y_numDeps t)
  have hs : (anfOf t).s = t.numAbs := rfl
  have hn : (anfOf t).n = t.numIndeps := rfl
  have hm : (anfOf t).m = t.numDeps := rfl
  have m1 : ∀ (A : DMat K) (v : List K), A.ncols = v.length → ∃ u, A.mulVec v = .ok u ∧ u.length = A.nrows := by
    intro A v hv
    exact ⟨_, by rw [DMat.mulVec, if_pos hv], by simp⟩
  have hzl : (vabs (List.map (fn t.vals) (zIds t))).length = t.numAbs := by simp [vabs]
  obtain ⟨u1, f1, k1⟩ := m1 Lm (vabs (List.map (fn t.vals) (zIds t))) (by rw [l2, hzl])
  obtain ⟨u3, f3, k3⟩ := m1 Ym.neg (vabs (List.map (fn t.vals) (zIds t))) (by
    rw [hzl, DMat.neg, DMat.ofFn_ncols, y2])
  have f2 : vsub (List.map (fn t.vals) (zIds t)) u1 = .ok (List.zipWith Flt.sub (List.map (fn t.vals) (zIds t)) u1) := by
    rw [vsub, if_pos (by simp [k1, l1])]
  unfold absNormalTape
  simp only [hs, hn, hm, e0, e1, e2, e3, bind_ok_eq, z_eq h, f1, f2, f3]
  refine ⟨_, rfl, ⟨by simp [k1, l1], by simp [k3, DMat.neg, y1], ⟨z1, z2⟩, ⟨l1, l2⟩, ⟨j1, j2⟩, ⟨y1, y2⟩⟩, hp⟩

end field

section generic
variable {S : Type} [Flt S]

theorem scatterFn_append {α : Type} {ids ids' : List Nat} {xs xs' : List α} (hl : ids.length = xs.length)
    (f : Nat → α) : scatterFn (ids ++ ids') (xs ++ xs') f = scatterFn ids' xs' (scatterFn ids xs f) := by
  induction ids generalizing xs f with
  | nil =>
    cases xs with
    | nil => rfl
    | cons => simp at hl
  | cons i ids ih =>
    cases xs with
    | nil => simp at hl
    | cons x xs => simp only [List.cons_append, scatterFn]; exact ih (by simpa using hl) _

/-- Replaying the abs-normal tape at inputs and abs values gives the values of the original replay. -/
theorem replay_hidden {t : Tape S} (h : t.Proper) {f : Nat → S} :
    sweepZ (hops t) (scatterFn (wIds t) ((wIds t).map (sweepZ t.ops f)) f) = sweepZ t.ops f := by
  have hw := h.wf
  funext k
  induction k using Nat.strongRecOn with
  | _ k ih =>
    by_cases hop : ∃ op ∈ activeOps t.ops, op.vid = k
    · obtain ⟨op, hop, rfl⟩ := hop
      have hop' := (mem_activeOps.mp hop).1
      by_cases hab : op.opcode = .Abs
      · have hm : op ∈ t.absOps := mem_absOps.mpr ⟨hop', hab⟩
        have hmw : op.vid ∈ wIds t := List.mem_map.mpr ⟨op, hm, rfl⟩
        rw [sweepZ_other]
        · obtain ⟨i, hi, e⟩ := List.mem_iff_getElem.mp hmw
          rw [← e, scatterFn_get (wIds_nodup hw) hi (by simpa using hi)]
          simp
        · intro o ho e
          obtain ⟨h1, h2⟩ := mem_activeOps_hops.mp ho
          exact h2 (vid_inj hw h1 hop e ▸ hab)
      · have hh : op ∈ hops t := mem_hops hop' hab
        have hnw : op.vid ∉ wIds t := by
          intro hm
          obtain ⟨o, ho, e⟩ := List.mem_map.mp hm
          exact hab (vid_inj hw (absOps_active ho) hop e ▸ (mem_absOps.mp ho).2)
        by_cases hc : op.opcode.computes = true
        · have h1 := hw.ssa.a1_lt op hop hc
          have h2 := hw.ssa.a2_lt op hop hc
          rw [sweepZ_computes (hops_ssa hw) _ hh hc, ih _ h1, ih _ h2, ← sweepZ_computes hw.ssa _ hop' hc]
        · have hc' : op.opcode = .Const := by
            by_contra hne
            exact hc ((OpCode.computes_iff _).mpr ⟨(mem_activeOps.mp hop).2, hne⟩)
          rw [sweepZ_const (hops_ssa hw) _ hh hc', sweepZ_const hw.ssa _ hop' hc', scatterFn_not_mem hnw]
    · have hne : ∀ op ∈ activeOps t.ops, op.vid ≠ k := fun op ho e => hop ⟨op, ho, e⟩
      rw [sweepZ_other (fun o ho => hne o (mem_activeOps_hops.mp ho).1), sweepZ_other hne, scatterFn_not_mem]
      intro hm
      obtain ⟨o, ho, e⟩ := List.mem_map.mp hm
      exact hne o (absOps_active ho) e

theorem toTape_replay {t t1 : Tape S} (h : t.Proper) {x : List S} (hx : x.length = t.numIndeps)
    (e : t.zeroOrder x = .ok t1) {z : List S} (hz : (anfOf t1).z = .ok z) :
    (anfOf t).toTape.zeroOrder (x ++ z.map Flt.abs) = .ok (anfOf t1).toTape := by
  obtain ⟨v1, e1, l1, f1, p1⟩ := h.zeroOrder hx
  rw [e1] at e; injection e with e; subst e
  rw [z_eq p1.wf] at hz; injection hz with hz
  have hzz : zIds ({ t with vals := v1 } : Tape S) = zIds t := rfl
  rw [hzz] at hz
  simp only at hz
  have hzl : z.length = t.numAbs := by rw [← hz]; simp
  obtain ⟨v2, e2, l2, f2⟩ := Tape.zeroOrder_eq (full_wf h.wf) (x := x ++ z.map Flt.abs) (by
    rw [anfOf_toTape]; simp [viewOf, hx, hzl, Tape.numIndeps]) (by rw [anfOf_toTape]; exact h.mutable)
  rw [e2]
  have hwz : z.map Flt.abs = (wIds t).map (fn v1) := by
    rw [← hz, zIds, wIds, List.map_map, List.map_map, List.map_map]
    apply List.map_congr_left
    intro op ho
    obtain ⟨ho1, ho2⟩ := mem_absOps.mp ho
    have := sweepZ_computes h.wf.ssa (scatterFn t.indeps x (fn t.vals)) ho1 (by rw [ho2]; rfl)
    rw [← f1, ho2] at this
    simp only [Function.comp]
    rw [this]; rfl
  have hv : v2 = v1 := by
    apply fn_ext (by rw [l2, l1]; rfl)
    intro k _
    have hI : (anfOf t).toTape.indeps = t.indeps ++ wIds t := by rw [anfOf_toTape]; rfl
    have hO : (anfOf t).toTape.ops = hops t := by rw [anfOf_toTape]; rfl
    have hV : (anfOf t).toTape.vals = t.vals := by rw [anfOf_toTape]; rfl
    rw [f2, f1, hI, hO, hV, scatterFn_append hx.symm, hwz, f1, replay_hidden h]
  rw [hv]; rfl

theorem view_readonly {t : Tape S} {I D : List Nat} (hw : (viewOf t I D false).WF) {x : List S}
    (hx : x.length = I.length) : (viewOf t I D false).zeroOrder x = .error .noValuesMut := by
  obtain ⟨v1, e1, l1, f1⟩ := scatter_fn (xs := x) hw.indeps_lt (by show I.length ≤ _; omega)
  obtain ⟨v2, e2, l2, f2⟩ := sweepZ_fn (ops := (viewOf t I D false).ops) (v := v1) (by rw [l1]; exact hw.inB)
  have : (viewOf t I D false).numIndeps = I.length := rfl
  simp only [Tape.zeroOrder, this, hx, assertR, decide_true, if_true, bind_ok_eq, e1, e2]
  rfl

end generic
end Adv
