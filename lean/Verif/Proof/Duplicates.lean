import Verif.Proof.GenJacPiece
import Verif.Spec.Duplicates

/-! # The reverse sweep with repeated dependents -/

set_option linter.unusedSectionVars false

namespace Adv
open scoped Adv
open Finset

theorem Reregistered.cons_zero {k : Nat} {ids : List Nat} : Reregistered (k :: ids) 0 ↔ k ∈ ids := by
  constructor
  · rintro ⟨j, hj, hl, e⟩
    obtain ⟨j, rfl⟩ : ∃ i, j = i + 1 := ⟨j - 1, by omega⟩
    simp only [List.length_cons, List.getElem?_cons_succ, List.getElem?_cons_zero] at hl e
    exact List.mem_of_getElem? e
  · intro h
    obtain ⟨j, hj, rfl⟩ := List.mem_iff_getElem.mp h
    exact ⟨j + 1, by omega, by simpa using hj, by simp [hj]⟩

theorem Reregistered.cons_succ {k i : Nat} {ids : List Nat} :
    Reregistered (k :: ids) (i + 1) ↔ Reregistered ids i := by
  constructor
  · rintro ⟨j, hj, hl, e⟩
    obtain ⟨j, rfl⟩ : ∃ i, j = i + 1 := ⟨j - 1, by omega⟩
    exact ⟨j, by omega, by simpa using hl, by simpa using e⟩
  · rintro ⟨j, hj, hl, e⟩
    exact ⟨j + 1, by omega, by simpa using hl, by simpa using e⟩

theorem not_reregistered_of_nodup {ids : List Nat} (h : ids.Nodup) {i : Nat} (hi : i < ids.length) :
    ¬ Reregistered ids i := by
  rintro ⟨k, hk, hl, e⟩
  rw [List.getElem?_eq_getElem hl, List.getElem?_eq_getElem hi, Option.some_inj, h.getElem_inj_iff] at e
  omega

theorem nodup_of_not_reregistered {ids : List Nat} (h : ∀ i < ids.length, ¬ Reregistered ids i) : ids.Nodup := by
  induction ids with
  | nil => exact List.nodup_nil
  | cons k ids ih =>
    rw [List.nodup_cons]
    refine ⟨fun hk => h 0 (by simp) (Reregistered.cons_zero.mpr hk), ih fun i hi hr => ?_⟩
    exact h (i + 1) (by simpa using hi) (Reregistered.cons_succ.mpr hr)

variable {K : Type} [Field K] [LinearOrder K] [IsStrictOrderedRing K] [Flt K] [LawfulFlt K]

theorem scatterFn_overwrite {ids : List Nat} {k : Nat} (hk : k ∈ ids) {xs : List K} (hx : ids.length ≤ xs.length)
    (f : Nat → K) (x : K) : scatterFn ids xs (upd f k x) = scatterFn ids xs f := by
  induction ids generalizing xs f with
  | nil => simp at hk
  | cons i ids ih =>
    cases xs with
    | nil => simp at hx
    | cons y xs =>
      simp only [scatterFn]
      by_cases hi : k = i
      · subst hi
        congr 1
        funext j
        by_cases hj : j = k
        · subst hj; rw [upd_same, upd_same]
        · rw [upd_ne hj, upd_ne hj, upd_ne hj]
      · have hk' : k ∈ ids := by simpa [hi] using hk
        have : upd (upd f k x) i y = upd (upd f i y) k x := by
          funext j
          by_cases h1 : j = i <;> by_cases h2 : j = k
          · omega
          · subst h1; rw [upd_same, upd_ne h2, upd_same]
          · subst h2; rw [upd_ne h1, upd_same, upd_same]
          · rw [upd_ne h1, upd_ne h2, upd_ne h2, upd_ne h1]
        rw [this, ih hk' (by simpa using hx)]

theorem ip_scatter_last {n : Nat} {ids : List Nat} (hlt : ∀ i ∈ ids, i < n) {xs : List K}
    (hx : ids.length ≤ xs.length) {f g : Nat → K} (h0 : ∀ i ∈ ids, f i = 0) :
    ip n (scatterFn ids xs f) g = ip n f g + dot (lastSeeds ids xs) (ids.map g) := by
  classical
  induction ids generalizing xs f with
  | nil => simp [scatterFn, dot, lastSeeds]
  | cons k ids ih =>
    cases xs with
    | nil => simp at hx
    | cons x xs =>
      have hls : lastSeeds (k :: ids) (x :: xs) = (if k ∈ ids then 0 else x) :: lastSeeds ids xs := by
        unfold lastSeeds
        rw [List.length_cons, List.range_succ_eq_map, List.map_cons, List.map_map]
        simp only [Reregistered.cons_zero, List.getD_cons_zero]
        congr 1
        apply List.map_congr_left
        intro i _
        simp only [Function.comp, Nat.succ_eq_add_one, Reregistered.cons_succ, List.getD_cons_succ]
      have hx' : ids.length ≤ xs.length := by simpa using hx
      have hd : dot (lastSeeds (k :: ids) (x :: xs)) ((k :: ids).map g) =
          (if k ∈ ids then 0 else x) * g k + dot (lastSeeds ids xs) (ids.map g) := by
        rw [hls]; simp [dot]
      rw [hd, scatterFn]
      by_cases hk : k ∈ ids
      · rw [if_pos hk, scatterFn_overwrite hk hx', ih (fun i hi => hlt i (by simp [hi])) hx'
          (fun i hi => h0 i (by simp [hi]))]
        ring
      · rw [if_neg hk, ih (fun i hi => hlt i (by simp [hi])) hx' (by
          intro i hi
          have : i ≠ k := by rintro rfl; exact hk hi
          rw [upd_ne this]; exact h0 i (by simp [hi]))]
        have hk0 := h0 k (by simp)
        have e : upd f k x = upd f k (f k + x) := by rw [hk0, zero_add]
        rw [e, ip_upd_left (hlt k (by simp))]
        ring

open Classical in
/-- The reverse sweep multiplies the surviving seeds by the matrix of the tape. -/
theorem Tape.reverse_mat_last {t : Tape K} (h : t.WF) (ha : t.AbsFree) {ybar : List K}
    (hy : t.numDeps ≤ ybar.length) :
    t.firstOrderReverse ybar = .ok ((List.range t.numIndeps).map fun j =>
      ∑ i ∈ range t.numDeps, (if Reregistered t.deps i then 0 else ybar.getD i 0) * tmat t i j) := by
  rw [Tape.firstOrderReverse_eq h ha hy]
  congr 1
  rw [map_eq_range_map _ 0]
  apply List.map_congr_left
  intro j hj
  rw [List.mem_range] at hj
  have hjl : t.indeps.getD j 0 < t.vals.length := by
    rw [getD_lt hj]; exact h.indeps_lt _ (List.getElem_mem hj)
  have key := sweepR_adjoint (v := fn t.vals) (n := t.vals.length) h.inB ha h.ssa
    (f := unitFn (t.indeps.getD j 0)) (g := scatterFn t.deps ybar (fun _ => Flt.zero)) (by
      intro op hop
      have := h.vid_fresh op hop
      rw [unitFn, upd_ne]
      rintro e
      rw [getD_lt hj] at e
      exact this (e ▸ List.getElem_mem hj))
  rw [ip_unitFn hjl, ip_scatter_last h.deps_lt hy (fun _ _ => LawfulFlt.zero_eq)] at key
  simp only [LawfulFlt.zero_eq, ip_zero_left, zero_add] at key
  simp only [LawfulFlt.zero_eq]
  rw [key, dot_eq_sum (n := t.numDeps) (by simp [lastSeeds, Tape.numDeps]) (by simp [Tape.numDeps])]
  apply Finset.sum_congr rfl
  intro i hi
  rw [Finset.mem_range] at hi
  have hi' : i < t.deps.length := hi
  simp [tmat, hi', lastSeeds]

open Classical in
theorem Tape.reverse_unit_last {t : Tape K} (h : t.WF) (ha : t.AbsFree) {i : Nat} (hi : i < t.numDeps) :
    t.firstOrderReverse (eVec t.numDeps i) =
      .ok ((List.range t.numIndeps).map fun j => if Reregistered t.deps i then 0 else tmat t i j) := by
  rw [Tape.reverse_mat_last h ha (by simp [eVec])]
  congr 1
  apply List.map_congr_left
  intro j _
  rw [Finset.sum_eq_single i]
  · rw [eVec_getD _ _ _ hi]; split <;> simp
  · intro b hb hne; rw [eVec_getD _ _ _ (Finset.mem_range.mp hb)]; simp [hne]
  · intro h; exact absurd (Finset.mem_range.mpr hi) h

open Classical in
theorem Anf.mulLeft_mat_last {σ : Sched} (hσ : σ.Valid) {t : Tape K} (h : t.WF) (ha : t.AbsFree)
    {C : DMat K} (hC : C.ncols = t.numDeps) :
    Anf.mulLeft σ t C = .ok (DMat.ofFn C.nrows t.numIndeps fun i j =>
      ∑ k ∈ range t.numDeps, (if Reregistered t.deps k then 0 else C.get i k) * tmat t k j) := by
  rw [mulLeft_eq hσ h ha hC]
  congr 1
  apply DMat.ofFn_congr
  intro i _ j hj
  unfold mlEntry
  rw [Tape.reverse_mat_last h ha (by rw [rowOf_length, hC])]
  simp only
  rw [getD_map_range _ hj]
  apply Finset.sum_congr rfl
  intro k hk
  rw [Finset.mem_range, ← hC] at hk
  rw [rowOf, getD_map_range _ hk]

open Classical in
theorem rmat_last {t : Tape K} (h : t.WF) (ha : t.AbsFree) {k j : Nat} (hk : k < t.numDeps) (hj : j < t.numIndeps) :
    rmat t k j = (lastRows t.deps (tMatD t)).get k j := by
  have h1 := Anf.mulLeft_eq Sched.seq_valid h ha (C := DMat.identity t.numDeps) rfl
  rw [Anf.mulLeft_mat_last Sched.seq_valid h ha rfl] at h1
  injection h1 with h1
  have := congrArg (fun A => DMat.get A k j) h1
  rw [DMat.ofFn_get (r := (DMat.identity t.numDeps : DMat K).nrows) hk hj,
    DMat.ofFn_get (r := (DMat.identity t.numDeps : DMat K).nrows) hk hj] at this
  unfold rmat
  have e : (lastRows t.deps (tMatD t)).get k j = if Reregistered t.deps k then 0 else tmat t k j := by
    show (if Reregistered t.deps k then 0 else (DMat.ofFn t.numDeps t.numIndeps (tmat t)).get k j) = _
    rw [DMat.ofFn_get hk hj]
  rw [← this, e, Finset.sum_eq_single k]
  · rw [identity_get hk hk]; split <;> simp
  · intro b hb hne
    rw [identity_get hk (Finset.mem_range.mp hb)]
    have : ¬ k = b := fun e => hne e.symm
    simp [this]
  · intro hn; exact absurd (Finset.mem_range.mpr hk) hn

/-- The form whose pieces `generalized_jacobian_tape` computes. -/
noncomputable def lastForm (t : Tape K) : AbsNormalForm K :=
  { anfForm t with
    zmat := lastRows (anfZ (anfOf t)).deps (anfForm t).zmat
    lmat := lastRows (anfL (anfOf t)).deps (anfForm t).lmat
    jmat := lastRows (anfJ (anfOf t)).deps (anfForm t).jmat
    ymat := lastRows (anfY (anfOf t)).deps (anfForm t).ymat }

theorem gj_piece_last {σ : Sched} (hσ : σ.Valid) {t : Tape K} (h : t.WF) {dx : List K} (hx : dx.length = t.numIndeps)
    (bits : List UInt8) :
    ∃ R, generalizedJacobianTape σ t dx bits none = .ok R ∧
      IsPiece (lastForm t) (signature bits (zHatV t dx)) R.homogenous R.inhomogenous ∧
      R.multiplicity = zerosBefore (zHatV t dx) t.numAbs := by
  obtain ⟨U, hU, e1⟩ := gj_none_core hσ h hx bits
  have eb : (lastForm t).b.length = t.numDeps := (anfForm_shape t).b
  have ea : (lastForm t).a.length = t.numAbs := (anfForm_shape t).a
  have ej : (lastForm t).jmat.ncols = t.numIndeps := (anfForm_shape t).jmat.2
  refine ⟨_, e1, ⟨U, ?_, ?_, ?_, ?_, ?_, ?_⟩, rfl⟩
  · intro i hi j hj
    rw [eb] at hi
    rw [ea] at hj ⊢
    rw [hU i hi j hj, sum_identity hi, ← add_mul]
    congr 1
    rw [rmat_last (anfY_wf h) (anfY_absFree t) (by simpa using hi) (by simpa using hj)]
    congr 1
    apply Finset.sum_congr rfl
    intro k hk
    rw [Finset.mem_range] at hk
    rw [rmat_last (anfL_wf h) (anfL_absFree t) (by simpa using hk) (by simpa using hj)]
    rfl
  · rw [eb]; rfl
  · rw [ej]; rfl
  · intro i hi j hj
    rw [eb] at hi
    rw [ej] at hj
    rw [ea]
    simp only [homOf]
    rw [DMat.ofFn_get hi hj, sum_identity hi,
      rmat_last (anfJ_wf h) (anfJ_absFree t) (by simpa using hi) (by simpa using hj)]
    congr 1
    apply Finset.sum_congr rfl
    intro k hk
    rw [Finset.mem_range] at hk
    rw [rmat_last (anfZ_wf h) (anfZ_absFree t) (by simpa using hk) (by simpa using hj)]
    rfl
  · rw [eb]; simp [inhOf]
  · intro i hi
    rw [eb] at hi
    rw [ea]
    simp only [inhOf]
    rw [getD_map_range _ hi, sum_identity hi, zero_add]
    rfl

end Adv
