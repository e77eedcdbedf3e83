import Verif.Proof.Linear
import Verif.Proof.Parallel
import Verif.Spec.Jacobian

/-! # The matrix of an abs-free tape -/

set_option linter.unusedSectionVars false
set_option linter.unusedSimpArgs false

namespace Adv
open scoped Adv
open Finset

variable {K : Type} [Field K] [LinearOrder K] [IsStrictOrderedRing K] [Flt K] [LawfulFlt K]

theorem getD_lt {α : Type} {l : List α} {d : α} {i : Nat} (h : i < l.length) : l.getD i d = l[i] := by
  simp [List.getD_eq_getElem?_getD, h]

/-- The `k`-th unit vector as a function. -/
def unitFn (k : Nat) : Nat → K := upd (fun _ => 0) k 1

/-- Entry `(i, j)` of the matrix of a tape. -/
def tmat (t : Tape K) (i j : Nat) : K :=
  sweepF (fn t.vals) t.ops (unitFn (t.indeps.getD j 0)) (t.deps.getD i 0)

theorem sweepF_zero {v : Nat → K} {ops : List Operation} (h : ∀ op ∈ ops, op.opcode ≠ .Abs) :
    sweepF v ops (fun _ => 0) = fun _ => 0 := by
  have := sweepF_comb (v := v) h 0 0 (fun _ => 0) (fun _ => 0)
  simpa using this

theorem sweepF_sum {v : Nat → K} {ops : List Operation} (h : ∀ op ∈ ops, op.opcode ≠ .Abs) (n : Nat)
    (c : Nat → K) (F : Nat → Nat → K) :
    sweepF v ops (fun k => ∑ j ∈ range n, c j * F j k) =
      fun k => ∑ j ∈ range n, c j * sweepF v ops (F j) k := by
  induction n with
  | zero => simp only [Finset.range_zero, Finset.sum_empty]; exact sweepF_zero h
  | succ n ih =>
    have e : (fun k => ∑ j ∈ range (n + 1), c j * F j k) =
        fun k => 1 * (fun k => ∑ j ∈ range n, c j * F j k) k + c n * F n k := by
      funext k; rw [Finset.sum_range_succ, one_mul]
    rw [e, sweepF_comb h, ih]
    funext k
    rw [Finset.sum_range_succ, one_mul]

theorem scatterFn_sum {ids : List Nat} (hnd : ids.Nodup) {xs : List K} (hx : ids.length ≤ xs.length) :
    scatterFn ids xs (fun _ => 0) =
      fun k => ∑ j ∈ range ids.length, xs.getD j 0 * unitFn (ids.getD j 0) k := by
  funext k
  by_cases hk : k ∈ ids
  · obtain ⟨j, hj, rfl⟩ := List.mem_iff_getElem.mp hk
    rw [scatterFn_get hnd hj (by omega), Finset.sum_eq_single j]
    · rw [getD_lt hj, getD_lt (by omega : j < xs.length)]
      simp [unitFn]
    · intro b hb hne
      rw [Finset.mem_range] at hb
      rw [getD_lt hb, unitFn, upd_ne, mul_zero]
      intro h
      exact hne ((hnd.getElem_inj_iff).mp h).symm
    · intro h; exact absurd (Finset.mem_range.mpr hj) h
  · rw [scatterFn_not_mem hk]
    symm
    apply Finset.sum_eq_zero
    intro j hj
    rw [Finset.mem_range] at hj
    rw [getD_lt hj, unitFn, upd_ne, mul_zero]
    rintro rfl; exact hk (List.getElem_mem hj)

theorem map_eq_range_map {α β : Type} (l : List α) (d : α) (f : α → β) :
    l.map f = (List.range l.length).map fun i => f (l.getD i d) := by
  apply List.ext_getElem (by simp)
  intro i h1 h2
  simp only [List.length_map] at h1
  simp [h1]

/-- The forward sweep of an abs-free tape multiplies by its matrix. -/
theorem Tape.forward_mat {t : Tape K} (h : t.WF) (ha : t.AbsFree) {dx : List K} (hx : t.numIndeps ≤ dx.length) :
    t.firstOrderForward dx = .ok ((List.range t.numDeps).map fun i =>
      ∑ j ∈ range t.numIndeps, tmat t i j * dx.getD j 0) := by
  rw [Tape.firstOrderForward_eq h hx]
  congr 1
  rw [map_eq_range_map _ 0]
  apply List.map_congr_left
  intro i _
  simp only [LawfulFlt.zero_eq]
  rw [scatterFn_sum h.indeps_nodup hx, sweepF_sum ha]
  apply Finset.sum_congr rfl
  intro j _
  rw [mul_comm]; rfl

theorem ip_unitFn {n k : Nat} (hk : k < n) (f : Nat → K) : ip n f (unitFn k) = f k := by
  unfold ip
  rw [Finset.sum_eq_single k]
  · simp [unitFn]
  · intro b _ hne; simp [unitFn, upd_ne hne]
  · intro h; exact absurd (Finset.mem_range.mpr hk) h

theorem dot_eq_sum {a b : List K} {n : Nat} (ha : n ≤ a.length) (hb : b.length = n) :
    dot a b = ∑ i ∈ range n, a.getD i 0 * b.getD i 0 := by
  induction b generalizing a n with
  | nil => simp at hb; subst hb; simp [dot]
  | cons y b ih =>
    cases a with
    | nil => simp at hb ha; omega
    | cons x a =>
      obtain ⟨n, rfl⟩ : ∃ k, n = k + 1 := ⟨b.length, by simpa using hb.symm⟩
      have := ih (a := a) (n := n) (by simpa using ha) (by simpa using hb)
      rw [Finset.sum_range_succ']
      simp only [List.getD_cons_succ, List.getD_cons_zero, ← this]
      simp [dot, add_comm]

/-- The reverse sweep multiplies by its matrix from the left, if the dependents are distinct. -/
theorem Tape.reverse_mat {t : Tape K} (h : t.WF) (ha : t.AbsFree) (hnd : t.deps.Nodup) {ybar : List K}
    (hy : t.numDeps ≤ ybar.length) :
    t.firstOrderReverse ybar = .ok ((List.range t.numIndeps).map fun j =>
      ∑ i ∈ range t.numDeps, ybar.getD i 0 * tmat t i j) := by
  rw [Tape.firstOrderReverse_eq h ha hy]
  congr 1
  rw [map_eq_range_map _ 0]
  apply List.map_congr_left
  intro j hj
  rw [List.mem_range] at hj
  have hjl : t.indeps.getD j 0 < t.vals.length := by
    rw [getD_lt hj]; exact h.indeps_lt _ (List.getElem_mem hj)
  have key := sweepR_adjoint (v := fn t.vals) (n := t.vals.length) h.inB ha h.ssa
    (f := unitFn (t.indeps.getD j 0)) (g := scatterFn t.deps ybar (fun _ => Flt.zero)) (by
      intro op hop
      have := h.vid_fresh op hop
      rw [unitFn, upd_ne]
      rintro e
      rw [getD_lt hj] at e
      exact this (e ▸ List.getElem_mem hj))
  rw [ip_unitFn hjl, ip_scatter hnd h.deps_lt (fun _ _ => LawfulFlt.zero_eq)] at key
  simp only [LawfulFlt.zero_eq, ip_zero_left, zero_add] at key
  simp only [LawfulFlt.zero_eq]
  rw [key, dot_eq_sum hy (by simp [Tape.numDeps])]
  apply Finset.sum_congr rfl
  intro i hi
  rw [Finset.mem_range] at hi
  have hi' : i < t.deps.length := hi
  simp [tmat, hi']

theorem eVec_getD (n j k : Nat) (hk : k < n) : (eVec n j : List K).getD k 0 = if k = j then 1 else 0 := by
  simp [eVec, hk, LawfulFlt.one_eq, LawfulFlt.zero_eq]

/-- Columns of the matrix. -/
theorem Tape.forward_unit {t : Tape K} (h : t.WF) (ha : t.AbsFree) {j : Nat} (hj : j < t.numIndeps) :
    t.firstOrderForward (eVec t.numIndeps j) = .ok ((List.range t.numDeps).map fun i => tmat t i j) := by
  rw [Tape.forward_mat h ha (by simp [eVec])]
  congr 1
  apply List.map_congr_left
  intro i _
  rw [Finset.sum_eq_single j]
  · rw [eVec_getD _ _ _ hj]; simp
  · intro b hb hne; rw [eVec_getD _ _ _ (Finset.mem_range.mp hb)]; simp [hne]
  · intro h; exact absurd (Finset.mem_range.mpr hj) h

/-- Rows of the matrix. -/
theorem Tape.reverse_unit {t : Tape K} (h : t.WF) (ha : t.AbsFree) (hnd : t.deps.Nodup) {i : Nat}
    (hi : i < t.numDeps) :
    t.firstOrderReverse (eVec t.numDeps i) = .ok ((List.range t.numIndeps).map fun j => tmat t i j) := by
  rw [Tape.reverse_mat h ha hnd (by simp [eVec])]
  congr 1
  apply List.map_congr_left
  intro j _
  rw [Finset.sum_eq_single i]
  · rw [eVec_getD _ _ _ hi]; simp
  · intro b hb hne; rw [eVec_getD _ _ _ (Finset.mem_range.mp hb)]; simp [hne]
  · intro h; exact absurd (Finset.mem_range.mpr hi) h

end Adv
