import Verif.Proof.Jacobian
import Verif.Proof.TapeMatrix
import Verif.Props.Linear

/-!
# Jacobian drivers: C10 (`jacobian_reverse`), C12, C13
-/

set_option linter.unusedSectionVars false
set_option linter.unusedSimpArgs false

namespace Adv.Props
open Adv
open scoped Adv

section generic
variable {S : Type} [Flt S]

/-! ## C13 -/

/-- C13: `jacobian_forward` gives the result of the sequential loop under every schedule (and does not
change the process state). -/
theorem C13_jacobian_forward_schedule {σ : Sched} (hσ : σ.Valid) (f : Func S) (x : List S) (w : World S) :
    jacobianForward σ f x w = jacobianForward Sched.seq f x w ∧ (jacobianForward σ f x w).2 = w := by
  rw [jacobianForward_eq hσ, jacobianForward_eq Sched.seq_valid]
  exact ⟨rfl, rfl⟩

/-- C13: `jacobian_reverse` of a recorded tape gives the result of the sequential loop under every
schedule. -/
theorem C13_jacobian_reverse_schedule {σ : Sched} (hσ : σ.Valid) {t : Tape S} (h : Recorded t) :
    jacobianReverse σ t = jacobianReverse Sched.seq t := by
  have hw := h.proper.wf
  by_cases ha : t.AbsFree
  · rw [jacobianReverse_eq hσ hw ha, jacobianReverse_eq Sched.seq_valid hw ha]
  · rcases Nat.eq_zero_or_pos t.numDeps with h0 | h0
    · rw [jacobianReverse_none hσ h0, jacobianReverse_none Sched.seq_valid h0]
    · rw [jacobianReverse_err hσ (fun ybar hy => reverse_abs_error hw ha (Nat.le_of_eq hy.symm)) h0,
        jacobianReverse_err Sched.seq_valid (fun ybar hy => reverse_abs_error hw ha (Nat.le_of_eq hy.symm)) h0]

/-- A schedule that computes the items backwards, combines them from the right and inserts identities. -/
def weirdSched : Sched := fun _ n =>
  (List.range n).foldr (fun k t => .node true (.node true t .empty) (.leaf k)) .empty

theorem weirdSched_valid : weirdSched.Valid := by
  intro p n
  have : ∀ l : List Nat, ((l.foldr (fun k t => RTree.node true (.node true t .empty) (.leaf k)) .empty).items).Perm l := by
    intro l
    induction l with
    | nil => exact List.Perm.refl _
    | cons k l ih =>
      simp only [List.foldr_cons, RTree.items, List.append_nil]
      exact (List.perm_append_comm).trans (List.Perm.cons k ih)
  exact this _

/-- A different order of evaluation and combination, the same matrix. -/
example : weirdSched.Valid ∧ (weirdSched [] 2).items = [1, 0] ∧
    ((jacobianForward weirdSched Demo.smoothF [2, 3] Demo.w0).1.map DMat.toRows) = .ok [[3, 2], [0, -1]] ∧
    ((jacobianReverse weirdSched smoothTape).map DMat.toRows) = .ok [[3, 2], [0, -1]] :=
  ⟨weirdSched_valid, by decide, by decide +kernel, by decide +kernel⟩

/-! ## C10, second half -/

/-- C10: `jacobian_reverse` of a recorded tape panics if and only if the tape contains an abs operation and
has a dependent. -/
theorem C10_jacobian_reverse_panics_iff_abs {σ : Sched} (hσ : σ.Valid) {t : Tape S} (h : Recorded t) :
    (∃ e, jacobianReverse σ t = .error e) ↔ 0 < t.numAbs ∧ 0 < t.numDeps := by
  have hw := h.proper.wf
  rw [numAbs_pos_iff]
  constructor
  · rintro ⟨e, he⟩
    refine ⟨?_, ?_⟩
    · intro ha; rw [jacobianReverse_eq hσ hw ha] at he; cases he
    · rcases Nat.eq_zero_or_pos t.numDeps with h0 | h0
      · rw [jacobianReverse_none hσ h0] at he; cases he
      · exact h0
  · rintro ⟨ha, h0⟩
    exact ⟨_, jacobianReverse_err hσ (fun ybar hy => reverse_abs_error hw ha (Nat.le_of_eq hy.symm)) h0⟩

example : Recorded demoTape ∧ 0 < demoTape.numAbs ∧ 0 < demoTape.numDeps :=
  ⟨demoTape_recorded, by decide +kernel, by decide +kernel⟩

end generic

section field
variable {K : Type} [Field K] [LinearOrder K] [IsStrictOrderedRing K] [Flt K] [LawfulFlt K]

/-! ## C12

The full claim has no condition on the dependents. It is false for a function that returns the same
variable twice, because of the reverse sweep (`C09_duplicate_dependents_counterexample`). -/

/-- C12 for functions whose outputs are pairwise distinct variables: the reverse Jacobian of the tape
recorded at `x` is the forward Jacobian at `x`. -/
theorem C12_forward_eq_reverse_partial {σ σ' : Sched} (hσ : σ.Valid) (hσ' : σ'.Valid) (f : Func K) {x : List K}
    {w w' w'' : World K} {t : Tape K} (hw : w.nextId < usizeMax) (e : f.tape x w = (.ok t, w'))
    (hn : f.n = .ok x.length) (hm : f.m = .ok t.numDeps) (ha : t.AbsFree) (hnd : t.deps.Nodup) :
    ∃ J, jacobianForward σ f x w'' = (.ok J, w'') ∧ jacobianReverse σ' t = .ok J ∧
      J.nrows = t.numDeps ∧ J.ncols = x.length := by
  have h := (Func.tape_spec f x w hw).2
  rw [e] at h
  obtain ⟨_, -, h⟩ := h.ok_left
  have hni : t.numIndeps = x.length := by simp [Tape.numIndeps, h.indeps]
  refine ⟨_, ?_, jacobianReverse_eq hσ' h.wf ha, rfl, hni⟩
  rw [jacobianForward_eq hσ]
  congr 1
  unfold jfPure
  have h1 : assertR (decide (x.length = x.length)) = .ok () := by simp [assertR]
  simp only [hn, hm, bind_ok_eq, h1]
  by_cases h0 : x.length = 0
  · rw [if_pos h0, hni, h0]
    show Except.ok _ = _
    congr 1
    exact (zeros_zero_cols _ _).symm
  · rw [if_neg h0, h.out, bind_ok_eq, if_pos (by simp [Tape.numDeps])]
    show Except.ok _ = _
    congr 1
    rw [hni]
    apply DMat.ofFn_congr
    intro i hi j hj
    obtain ⟨ys, k1, k2, -⟩ := h.forward_eval (Or.inl zeroTangent_of_lawful) (dx := eVec x.length j) (by simp [eVec])
    rw [← hni] at k2
    rw [Tape.forward_unit h.wf ha (by omega)] at k2
    injection k2 with k2
    simp only [jfEntry, jrEntry, k1, ← k2, Tape.reverse_unit h.wf ha hnd hi]
    simp [hi, hj, hni]

example : ∃ t, (Demo.smoothF.tape [2, 3] Demo.w0).1 = .ok t ∧
    t.AbsFree ∧ t.deps.Nodup ∧ Demo.smoothF.n = .ok 2 ∧ Demo.smoothF.m = .ok t.numDeps := by
  exact ⟨smoothTape, by decide +kernel, smoothTape_absFree, by decide +kernel,
    by decide +kernel, by decide +kernel⟩

/-- C12 is false for a function that returns the same variable twice: here the Jacobian is `(1, 1)ᵀ` but
`jacobian_reverse` returns `(0, 1)ᵀ`. -/
theorem C12_duplicate_outputs_counterexample :
    (jacobianForward Sched.seq dupF [3] Demo.w0).1.map DMat.toRows = .ok [[1], [1]] ∧
    (dupF.tape [3] Demo.w0).1 = .ok dupTape ∧
    (jacobianReverse Sched.seq dupTape).map DMat.toRows = .ok [[0], [1]] := by decide +kernel

end field
end Adv.Props
