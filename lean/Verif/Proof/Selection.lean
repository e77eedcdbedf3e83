import Verif.Proof.Duplicates
import Verif.Proof.Probe

/-!
# Selection derivatives

What `generalized_jacobian_tape` computes for the direction zero: every abs is replaced by plus or minus its argument,
depending on the sign of the argument, and only the last registration of a dependent counts.
-/

set_option linter.unusedSectionVars false

namespace Adv
open Finset
open scoped Adv

variable {K : Type} [Field K] [LinearOrder K] [IsStrictOrderedRing K] [Flt K] [LawfulFlt K]

/-- Derivatives of the selection that the values determine. -/
def selSh : Shadow K K where
  cst _ := 0
  op o a b p q := if o = .Abs then pieceSign a * p else ffun o a b p q

theorem selSh_closed : (selSh : Shadow K K).ConstClosed := by
  intro o a b hc
  show (if o = .Abs then pieceSign a * 0 else ffun o a b 0 0) = 0
  have h0 : ffun o a b (0 : K) 0 = 0 := by
    have := Props.zeroTangent_of_lawful (K := K) o a b hc
    rwa [LawfulFlt.zero_eq] at this
  rw [h0]
  split_ifs <;> simp

theorem scatterFn_zeros (ids : List Nat) (n : Nat) (k : Nat) :
    scatterFn ids (List.replicate n (0 : K)) (fun _ => 0) k = 0 := by
  have key : ∀ (ids : List Nat) (n : Nat) (f : Nat → K), (∀ k, f k = 0) → ∀ k, scatterFn ids (List.replicate n (0 : K)) f k = 0 := by
    intro ids
    induction ids with
    | nil => intro n f hf k; cases n <;> exact hf k
    | cons i ids ih =>
      intro n f hf k
      cases n with
      | zero => exact hf k
      | succ n =>
        rw [List.replicate_succ, scatterFn]
        refine ih n _ (fun j => ?_) k
        by_cases hj : j = i
        · subst hj; rw [upd_same]
        · rw [upd_ne hj]; exact hf j
  exact key ids n _ (fun _ => rfl) k

/-- A solution for the selection is a solution for probes in the direction zero. -/
theorem Solves.probe {t : Tape K} {I : Nat → K} (hI : Solves selSh I t.ops (fn t.vals)) :
    Solves probeSh (fun k => ((0 : K), I k)) t.ops (fn t.vals) := by
  intro op hop
  refine ⟨fun hc => ?_, fun hc => ?_⟩
  · beta_reduce; rw [(hI op hop).1 hc]; rfl
  · have h0 : ffun op.opcode (fn t.vals op.a1) (fn t.vals op.a2) (0 : K) 0 = 0 := by
      have := Props.zeroTangent_of_lawful (K := K) op.opcode (fn t.vals op.a1) (fn t.vals op.a2) hc
      rwa [LawfulFlt.zero_eq] at this
    beta_reduce
    rw [(hI op hop).2 hc]
    simp only [selSh, probeSh, h0, add_zero]
    congr 1
    split_ifs
    · rw [mul_add, pieceSign_mul]; ring
    · rfl

theorem lastForm_shape (t : Tape K) : (lastForm t).Shape t.numIndeps t.numDeps t.numAbs :=
  let h := anfForm_shape t
  ⟨h.a, h.b, ⟨h.zmat.1, h.zmat.2⟩, ⟨h.lmat.1, h.lmat.2⟩, ⟨h.jmat.1, h.jmat.2⟩, ⟨h.ymat.1, h.ymat.2⟩⟩

open Classical in
/-- The piece that is computed for a tape on which the arguments of abs are distinct, in the direction zero. -/
theorem selection_tape {t : Tape K} (h : t.WF) (hn : (zIds t).Nodup) {m : Nat} {v : List K} (hv : v.length = t.numIndeps)
    {I : Nat → K} (hI : Solves selSh I t.ops (fn t.vals))
    (h0 : ∀ k, (∀ op ∈ activeOps t.ops, op.vid ≠ k) → I k = scatterFn t.indeps v (fun _ => 0) k) {G : DMat K} {γ : List K}
    (hp : IsPiece (lastForm t) (signature [0] (zHatV t (List.replicate m 0))) G γ) {i : Nat} (hi : i < t.numDeps) :
    mv G v i + γ.getD i 0 = if Reregistered t.deps i then (lastForm t).b.getD i 0 else I (t.deps.getD i 0) := by
  have h0' : ∀ k, (∀ op ∈ activeOps t.ops, op.vid ≠ k) →
      ((0 : K), I k) = (scatterFn t.indeps (List.replicate m 0) (fun _ => 0) k, scatterFn t.indeps v (fun _ => 0) k) := by
    intro k hk
    rw [scatterFn_zeros, h0 k hk]
  have hz := probe_zeta h hv hI.probe h0'
  have hr := probe_row h hv hI.probe h0' hi
  have el : ∀ (A : DMat K) (a b : Nat), a < t.numAbs → (lastRows (zIds t) A).get a b = A.get a b := by
    intro A a b ha
    exact if_neg (not_reregistered_of_nodup hn (by rw [zIds, List.length_map]; exact ha))
  rw [piece_eval (lastForm_shape t) hp (ζ := fun k => zVal t k + I ((zIds t).getD k 0)) (by
    intro k hk
    rw [hz k hk]
    congr 1
    · congr 1
      unfold mv
      apply Finset.sum_congr rfl
      intro j _
      show _ = (lastRows (anfZ (anfOf t)).deps (anfForm t).zmat).get k j * _
      rw [Z_deps, el _ _ _ hk]
    · apply Finset.sum_congr rfl
      intro j _
      show _ = (lastRows (anfL (anfOf t)).deps (anfForm t).lmat).get k j * _
      rw [L_deps, el _ _ _ hk]) i hi]
  by_cases hre : Reregistered t.deps i
  · rw [if_pos hre]
    have e1 : mv (lastForm t).jmat v i = 0 := by
      unfold mv
      apply Finset.sum_eq_zero
      intro j _
      have : (lastForm t).jmat.get i j = 0 := if_pos (by rwa [J_deps])
      rw [this, zero_mul]
    have e2 : ∑ k ∈ range t.numAbs, (lastForm t).ymat.get i k *
        (signature [0] (zHatV t (List.replicate m 0)) k * (zVal t k + I ((zIds t).getD k 0))) = 0 := by
      apply Finset.sum_eq_zero
      intro j _
      have : (lastForm t).ymat.get i j = 0 := if_pos (by rwa [Y_deps])
      rw [this, zero_mul]
    rw [e1, e2, add_zero, add_zero]
  · rw [if_neg hre]
    refine Eq.trans ?_ hr.symm
    congr 1
    · congr 1
      unfold mv
      apply Finset.sum_congr rfl
      intro j _
      have : (lastForm t).jmat.get i j = (anfForm t).jmat.get i j := if_neg (by rwa [J_deps])
      rw [this]
    · apply Finset.sum_congr rfl
      intro j _
      have : (lastForm t).ymat.get i j = (anfForm t).ymat.get i j := if_neg (by rwa [Y_deps])
      rw [this]

open Classical in
/-- The matrix that is computed for the direction zero. -/
theorem TapeOf.selection {f : Func K} {x : List K} {t : Tape K} (h : TapeOf f x t) (hn : (zIds t).Nodup) {m : Nat}
    {v : List K} (hv : v.length = x.length) {G : DMat K} {γ : List K}
    (hp : IsPiece (lastForm t) (signature [0] (zHatV t (List.replicate m 0))) G γ) {ys : List (K × K)}
    (hy : f.evalS selSh (x.zip v) = .ok ys) :
    ys.length = t.numDeps ∧ ∀ i < t.numDeps, mv G v i = if Reregistered t.deps i then 0 else (ys.getD i (0, 0)).2 := by
  have hni : t.numIndeps = x.length := by simp [Tape.numIndeps, h.indeps]
  obtain ⟨I, hI, h0⟩ := exists_solves selSh h.wf.ssa (fn t.vals) fun k => scatterFn t.indeps v (fun _ => (0 : K)) k
  obtain ⟨ys', y1, y2, y3⟩ := h.shadow _ selSh I (x.zip v) (Or.inl selSh_closed) hI
    (by rw [List.map_fst_zip]; simp [hv]) (by
      intro k s hs
      obtain ⟨hk, hs'⟩ := List.getElem?_eq_some_iff.mp hs
      have hk' : k < x.length := by simp only [List.length_zip] at hk; omega
      have hki : k < t.indeps.length := by rw [← Tape.numIndeps, hni]; exact hk'
      have hid : t.indeps[k] = k := by simp [h.indeps]
      have hne : ∀ op ∈ activeOps t.ops, op.vid ≠ k := by
        intro op hop he
        exact h.wf.vid_fresh op hop (by rw [he, h.indeps]; simpa using hk')
      have g2 := scatterFn_get (xs := v) (f := fun _ => (0 : K)) h.wf.indeps_nodup hki (by omega)
      rw [hid] at g2
      rw [h0 k hne, g2, ← hs']
      simp)
  rw [hy] at y1
  injection y1 with y1
  subst y1
  have hlen : ys.length = t.numDeps := by
    have := congrArg List.length y3
    simpa [Tape.numDeps] using this
  refine ⟨hlen, fun i hi => ?_⟩
  have hI0 : Solves selSh (fun _ => (0 : K)) t.ops (fn t.vals) := by
    intro op hop
    exact ⟨fun _ => rfl, fun hc => (selSh_closed op.opcode _ _ hc).symm⟩
  have e1 := selection_tape h.wf hn (by omega) hI h0 hp hi
  have e2 := selection_tape h.wf hn (v := List.replicate t.numIndeps 0) (by simp) hI0
    (fun k _ => (scatterFn_zeros _ _ _).symm) hp hi
  have e3 : mv G (List.replicate t.numIndeps 0) i = 0 := by
    unfold mv
    apply Finset.sum_eq_zero
    intro j _
    have : (List.replicate t.numIndeps (0 : K)).getD j 0 = 0 := by
      simp only [List.getD_eq_getElem?_getD, List.getElem?_replicate]
      split_ifs <;> rfl
    rw [this, mul_zero]
  rw [e3, zero_add] at e2
  rw [e2] at e1
  have e4 : (ys.getD i (0, 0)).2 = I (t.deps.getD i 0) := by
    have h5 : (ys.map Prod.snd).getD i 0 = (t.deps.map I).getD i 0 := by rw [y3]
    have hi1 : i < ys.length := by omega
    have hi2 : i < t.deps.length := hi
    simpa [List.getD_eq_getElem?_getD, hi1, hi2] using h5
  rw [e4]
  split_ifs at e1 ⊢ with hre
  · linarith
  · linarith

end Adv
