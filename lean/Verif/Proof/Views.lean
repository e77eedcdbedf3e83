import Verif.Proof.Sweeps
import Verif.Proof.Parallel
import Verif.Model.GeneralizedJacobian
import Mathlib.Data.List.Nodup

/-! # Abs-normal tapes and their views -/

set_option linter.unusedSectionVars false
set_option linter.unusedSimpArgs false

namespace Adv
open scoped Adv

variable {S : Type} [Flt S]

/-- The abs-normal tape of a tape whose abs operations have an operand. -/
def anfOf (t : Tape S) : AbsNormalTape S :=
  { inner := t
    indeps := t.indeps ++ t.absOps.map Operation.vid
    deps := t.absOps.map Operation.a1 ++ t.deps
    n := t.numIndeps
    m := t.numDeps
    s := t.numAbs }

theorem mem_absOps {t : Tape S} {op : Operation} : op ∈ t.absOps ↔ op ∈ t.ops ∧ op.opcode = .Abs := by
  simp [Tape.absOps]

theorem absOps_length (t : Tape S) : t.absOps.length = t.numAbs := rfl

theorem absOps_active {t : Tape S} {op : Operation} (h : op ∈ t.absOps) : op ∈ activeOps t.ops := by
  rw [mem_absOps] at h; rw [mem_activeOps]; exact ⟨h.1, by simp [h.2]⟩

theorem absOps_sublist (t : Tape S) : t.absOps.Sublist (activeOps t.ops) := by
  have : t.absOps = (activeOps t.ops).filter (fun op => op.opcode = .Abs) := by
    unfold Tape.absOps activeOps
    rw [List.filter_filter]
    apply List.filter_congr
    intro op _
    by_cases h : op.opcode = .Abs <;> simp [h]
  rw [this]; exact List.filter_sublist

theorem Tape.WF.abs_arg {t : Tape S} (h : t.WF) {op : Operation} (ho : op ∈ t.absOps) :
    op.arg1 = some op.a1 ∧ op.a2 = op.a1 ∧ op.a1 < op.vid ∧ op.vid < t.vals.length := by
  have ha := absOps_active ho
  have hin := h.inB op (mem_absOps.mp ho).1
  have hopc := (mem_absOps.mp ho).2
  rcases hin.cases with h0 | ⟨h0, h1⟩ | ⟨h0, h1, h2, h3, h4, h5⟩ | ⟨h0, h1, h2, h3, h3', h4⟩
  · rw [h0] at hopc; cases hopc
  · rw [h0] at hopc; cases hopc
  · rw [hopc] at h0; simp [OpCode.isBinary] at h0
  · exact ⟨h2, h3', h.args_lt op ha _ (by simp [Operation.args, h2]), h1⟩

theorem mapM_ok_eq {α β : Type} {f : α → Res β} {g : α → β} {l : List α} (h : ∀ a ∈ l, f a = .ok (g a)) :
    l.mapM f = .ok (l.map g) := by
  induction l with
  | nil => rfl
  | cons a l ih =>
    rw [List.mapM_cons, h a (by simp), bind_ok_eq, ih (fun b hb => h b (by simp [hb])), bind_ok_eq]; rfl

theorem AbsNormalTape.new_eq {t : Tape S} (h : t.WF) : AbsNormalTape.new t = .ok (anfOf t) := by
  unfold AbsNormalTape.new
  rw [mapM_ok_eq (g := Operation.a1) (fun op ho => by rw [(h.abs_arg ho).1]; rfl)]
  rfl

/-- The operations of an abs-normal tape. -/
def hops (t : Tape S) : List Operation := t.ops.map AbsNormalTape.hideAbs

theorem activeOps_hops (t : Tape S) :
    activeOps (hops t) = (activeOps t.ops).filter (fun op => op.opcode ≠ .Abs) := by
  unfold hops
  induction t.ops with
  | nil => rfl
  | cons op ops ih =>
    rw [List.map_cons]
    by_cases h1 : op.opcode = .Abs
    · have e : AbsNormalTape.hideAbs op = Operation.nop := by simp [AbsNormalTape.hideAbs, h1]
      rw [e]
      have : activeOps (op :: ops) = op :: activeOps ops := by simp [activeOps, h1]
      rw [this]
      have : activeOps (Operation.nop :: List.map AbsNormalTape.hideAbs ops) =
        activeOps (List.map AbsNormalTape.hideAbs ops) := by simp [activeOps, Operation.nop]
      rw [this, ih]; simp [h1]
    · have e : AbsNormalTape.hideAbs op = op := by simp [AbsNormalTape.hideAbs, h1]
      rw [e]
      by_cases h2 : op.opcode = .Nop
      · have : activeOps (op :: ops) = activeOps ops := by simp [activeOps, h2]
        rw [this]
        have : activeOps (op :: List.map AbsNormalTape.hideAbs ops) =
          activeOps (List.map AbsNormalTape.hideAbs ops) := by simp [activeOps, h2]
        rw [this, ih]
      · rw [activeOps_cons h2, activeOps_cons h2, ih]; simp [h1]

theorem mem_activeOps_hops {t : Tape S} {op : Operation} :
    op ∈ activeOps (hops t) ↔ op ∈ activeOps t.ops ∧ op.opcode ≠ .Abs := by
  rw [activeOps_hops]; simp

theorem hops_absFree (t : Tape S) : ∀ op ∈ hops t, op.opcode ≠ .Abs := by
  intro op hop
  unfold hops at hop
  obtain ⟨o, -, rfl⟩ := List.mem_map.mp hop
  unfold AbsNormalTape.hideAbs
  split
  · simp [Operation.nop]
  · assumption

theorem mem_hops {t : Tape S} {op : Operation} (h : op ∈ t.ops) (hn : op.opcode ≠ .Abs) : op ∈ hops t := by
  unfold hops
  exact List.mem_map.mpr ⟨op, h, by simp [AbsNormalTape.hideAbs, hn]⟩

/-- A view: some of the independents and dependents of an abs-normal tape. -/
def viewOf (t : Tape S) (I D : List Nat) (mu : Bool) : Tape S :=
  { indeps := I, deps := D, ops := hops t, vals := t.vals, mutable := mu }

theorem vid_inj {t : Tape S} (h : t.WF) {o o' : Operation} (h1 : o ∈ activeOps t.ops) (h2 : o' ∈ activeOps t.ops)
    (e : o.vid = o'.vid) : o = o' := by
  have hs : ((activeOps t.ops).map Operation.vid).Nodup := h.sorted.imp (fun hlt => Nat.ne_of_lt hlt)
  exact List.inj_on_of_nodup_map hs h1 h2 e

theorem viewOf_wf {t : Tape S} (h : t.WF) {I D : List Nat} {mu : Bool}
    (hI : ∀ i ∈ I, i ∈ t.indeps ∨ i ∈ t.absOps.map Operation.vid) (hn : I.Nodup)
    (hD : ∀ i ∈ D, i < t.vals.length) : (viewOf t I D mu).WF := by
  refine ⟨?_, hD, hn, ?_, ?_, ?_, ?_, ?_⟩
  · intro i hi
    rcases hI i hi with h1 | h1
    · exact h.indeps_lt i h1
    · obtain ⟨op, ho, rfl⟩ := List.mem_map.mp h1
      exact (h.abs_arg ho).2.2.2
  · intro op ho; exact h.arity op (mem_activeOps_hops.mp ho).1
  · intro op ho; exact h.vid_lt op (mem_activeOps_hops.mp ho).1
  · intro op ho; exact h.args_lt op (mem_activeOps_hops.mp ho).1
  · intro op ho hmem
    obtain ⟨h1, h2⟩ := mem_activeOps_hops.mp ho
    rcases hI _ hmem with h3 | h3
    · exact h.vid_fresh op h1 h3
    · obtain ⟨op', ho', e⟩ := List.mem_map.mp h3
      have := vid_inj h (absOps_active ho') h1 e
      exact h2 (this ▸ (mem_absOps.mp ho').2)
  · show ((activeOps (hops t)).map Operation.vid).Pairwise (· < ·)
    rw [activeOps_hops]
    exact h.sorted.sublist (List.filter_sublist.map _)

theorem viewOf_absFree (t : Tape S) (I D : List Nat) (mu : Bool) : (viewOf t I D mu).AbsFree := hops_absFree t

/-- Value ids of the abs results. -/
def wIds (t : Tape S) : List Nat := t.absOps.map Operation.vid
/-- Value ids of the abs arguments (switching variables). -/
def zIds (t : Tape S) : List Nat := t.absOps.map Operation.a1

@[simp] theorem wIds_length (t : Tape S) : (wIds t).length = t.numAbs := by simp [wIds, absOps_length]
@[simp] theorem zIds_length (t : Tape S) : (zIds t).length = t.numAbs := by simp [zIds, absOps_length]

theorem wIds_sorted {t : Tape S} (h : t.WF) : (wIds t).Pairwise (· < ·) :=
  h.sorted.sublist ((absOps_sublist t).map _)

theorem wIds_nodup {t : Tape S} (h : t.WF) : (wIds t).Nodup := (wIds_sorted h).imp (fun h => Nat.ne_of_lt h)

theorem zIds_lt {t : Tape S} (h : t.WF) : ∀ i ∈ zIds t, i < t.vals.length := by
  intro i hi
  obtain ⟨op, ho, rfl⟩ := List.mem_map.mp hi
  have := h.abs_arg ho; omega

theorem indeps_wIds_nodup {t : Tape S} (h : t.WF) : (t.indeps ++ wIds t).Nodup := by
  rw [List.nodup_append]
  refine ⟨h.indeps_nodup, wIds_nodup h, ?_⟩
  rintro a ha b hb rfl
  obtain ⟨op, ho, rfl⟩ := List.mem_map.mp hb
  exact h.vid_fresh op (absOps_active ho) ha

theorem anfOf_toTape (t : Tape S) :
    (anfOf t).toTape = viewOf t (t.indeps ++ wIds t) (zIds t ++ t.deps) t.mutable := rfl

theorem anfZ_eq (t : Tape S) : anfZ (anfOf t) = viewOf t t.indeps (zIds t) false := by
  simp only [anfZ, anfMatrix, takeL, anfOf, viewOf, AbsNormalTape.toTape, hops, Tape.numIndeps,
    List.take_left', ← absOps_length]
  rw [List.take_left' (by simp)]; rfl

theorem anfL_eq (t : Tape S) : anfL (anfOf t) = viewOf t (wIds t) (zIds t) false := by
  simp only [anfL, anfMatrix, takeL, skipL, anfOf, viewOf, AbsNormalTape.toTape, hops, Tape.numIndeps,
    List.drop_left', ← absOps_length]
  rw [List.take_left' (by simp)]; rfl

theorem anfJ_eq (t : Tape S) : anfJ (anfOf t) = viewOf t t.indeps t.deps false := by
  simp only [anfJ, anfMatrix, takeL, skipL, anfOf, viewOf, AbsNormalTape.toTape, hops, Tape.numIndeps,
    List.take_left', ← absOps_length]
  rw [List.drop_left' (by simp)]

theorem anfY_eq (t : Tape S) : anfY (anfOf t) = viewOf t (wIds t) t.deps false := by
  simp only [anfY, anfMatrix, skipL, anfOf, viewOf, AbsNormalTape.toTape, hops, Tape.numIndeps,
    List.drop_left', ← absOps_length]
  rw [List.drop_left' (by simp)]; rfl

theorem full_wf {t : Tape S} (h : t.WF) : ((anfOf t).toTape).WF := by
  rw [anfOf_toTape]
  refine viewOf_wf h ?_ (indeps_wIds_nodup h) ?_
  · intro i hi; exact List.mem_append.mp hi
  · intro i hi
    rcases List.mem_append.mp hi with h1 | h1
    · exact zIds_lt h i h1
    · exact h.deps_lt i h1

theorem anfZ_wf {t : Tape S} (h : t.WF) : (anfZ (anfOf t)).WF := by
  rw [anfZ_eq]; exact viewOf_wf h (fun _ h => Or.inl h) h.indeps_nodup (zIds_lt h)
theorem anfL_wf {t : Tape S} (h : t.WF) : (anfL (anfOf t)).WF := by
  rw [anfL_eq]; exact viewOf_wf h (fun _ h => Or.inr h) (wIds_nodup h) (zIds_lt h)
theorem anfJ_wf {t : Tape S} (h : t.WF) : (anfJ (anfOf t)).WF := by
  rw [anfJ_eq]; exact viewOf_wf h (fun _ h => Or.inl h) h.indeps_nodup h.deps_lt
theorem anfY_wf {t : Tape S} (h : t.WF) : (anfY (anfOf t)).WF := by
  rw [anfY_eq]; exact viewOf_wf h (fun _ h => Or.inr h) (wIds_nodup h) h.deps_lt

theorem anfZ_absFree (t : Tape S) : (anfZ (anfOf t)).AbsFree := hops_absFree t
theorem anfL_absFree (t : Tape S) : (anfL (anfOf t)).AbsFree := hops_absFree t
theorem anfJ_absFree (t : Tape S) : (anfJ (anfOf t)).AbsFree := hops_absFree t
theorem anfY_absFree (t : Tape S) : (anfY (anfOf t)).AbsFree := hops_absFree t

theorem hops_ssa {t : Tape S} (h : t.WF) : SSA (hops t) := (full_wf h).ssa

theorem z_eq {t : Tape S} (h : t.WF) : (anfOf t).z = .ok ((zIds t).map (fn t.vals)) := by
  unfold AbsNormalTape.z zIds
  rw [List.map_map]
  apply mapM_ok_eq
  intro op ho
  have ha := h.abs_arg ho
  show (unwrap op.arg1 >>= _) = _
  rw [ha.1]
  exact getR_fn (show op.a1 < t.vals.length by omega)

/-! ## Products -/

namespace Anf

/-- Column `j` of a matrix. -/
def colOf (B : DMat S) (j : Nat) : List S := (List.range B.nrows).map fun i => B.get i j
/-- Row `i` of a matrix. -/
def rowOf (B : DMat S) (i : Nat) : List S := (List.range B.ncols).map fun j => B.get i j

@[simp] theorem colOf_length (B : DMat S) (j : Nat) : (colOf B j).length = B.nrows := by simp [colOf]
@[simp] theorem rowOf_length (B : DMat S) (j : Nat) : (rowOf B j).length = B.ncols := by simp [rowOf]

theorem copyColumn_eq {A : DMat S} {c : Nat × DMat S} {F : Nat → Nat → S} {m n : Nat} (hm : A.nrows = m)
    (hn : A.ncols = n) (hj : c.1 < n) (h1 : c.2.nrows = m) (h2 : c.2.ncols = 1)
    (hF : ∀ i < m, F i c.1 = c.2.get i 0) :
    copyColumn A c.1 c.2 = .ok (A.over (fun i j => decide (i < m ∧ j = c.1)) F) := by
  unfold copyColumn DMat.over
  rw [if_pos (by omega), if_pos ⟨by omega, h2⟩]
  congr 2
  funext i j
  by_cases h : j = c.1 ∧ i < A.nrows
  · obtain ⟨rfl, h3⟩ := h
    have : i < m := by omega
    simp [h3, this, hF i this]
  · have : ¬ (i < m ∧ j = c.1) := by rintro ⟨h3, h4⟩; exact h ⟨h4, by omega⟩
    simp [h, this]

theorem copyRow_eq {A : DMat S} {c : Nat × DMat S} {F : Nat → Nat → S} {m n : Nat} (hm : A.nrows = m)
    (hn : A.ncols = n) (hj : c.1 < m) (h1 : c.2.nrows = 1) (h2 : c.2.ncols = n)
    (hF : ∀ j < n, F c.1 j = c.2.get 0 j) :
    copyRow A c.1 c.2 = .ok (A.over (fun i j => decide (j < n ∧ i = c.1)) F) := by
  unfold copyRow DMat.over
  rw [if_pos (by omega), if_pos ⟨h1, by omega⟩]
  congr 2
  funext i j
  by_cases h : i = c.1 ∧ j < A.ncols
  · obtain ⟨rfl, h3⟩ := h
    have : j < n := by omega
    simp [h3, this, hF j this]
  · have : ¬ (j < n ∧ i = c.1) := by rintro ⟨h3, h4⟩; exact h ⟨h4, by omega⟩
    simp [h, this]

theorem mulRightCol_eq {t : Tape S} {B : DMat S} {j : Nat} (hj : j < B.ncols) {dy : List S}
    (h : t.firstOrderForward (colOf B j) = .ok dy) (hl : dy.length = t.numDeps) :
    mulRightCol t B j = .ok [(j, DMat.ofFn t.numDeps 1 fun i _ => dy.getD i Flt.zero)] := by
  unfold mulRightCol
  rw [fill_vec (g := fun i => B.get i j) (fun i hi => by simp [DMat.idx, hi, hj]), bind_ok_eq]
  change (t.firstOrderForward (colOf B j) >>= _) = _
  rw [h, bind_ok_eq]
  rw [foldlM_over (fun i i' j' => decide (i' = i ∧ j' = 0)) (fun i _ => dy.getD i Flt.zero) (r := t.numDeps)
    (c := 1) ?_ _ rfl rfl, bind_ok_eq]
  · show Except.ok _ = _
    congr 2
    rw [Prod.mk.injEq]
    refine ⟨rfl, ?_⟩
    apply DMat.zeros_over
    intro i j
    simp only [List.any_eq_true, List.mem_range, decide_eq_true_eq, hl]
    constructor
    · rintro ⟨k, h1, rfl, rfl⟩; exact ⟨h1, by omega⟩
    · rintro ⟨h1, h2⟩; exact ⟨i, h1, rfl, by omega⟩
  · intro A i hi h1 h2
    rw [List.mem_range] at hi
    have hg : getR dy i = .ok (dy.getD i Flt.zero) := by
      rw [getR, List.getD_eq_getElem?_getD]; simp [hi]
    rw [hg, bind_ok_eq]
    exact DMat.set_over (F := fun i _ => dy.getD i Flt.zero) (by omega) (by omega)

theorem mulLeftRow_eq {t : Tape S} {C : DMat S} {i : Nat} (hi : i < C.nrows) {dx : List S}
    (h : t.firstOrderReverse (rowOf C i) = .ok dx) (hl : dx.length = t.numIndeps) :
    mulLeftRow t C i = .ok [(i, DMat.ofFn 1 t.numIndeps fun _ j => dx.getD j Flt.zero)] := by
  unfold mulLeftRow
  rw [fill_vec (g := fun j => C.get i j) (fun j hj => by simp [DMat.idx, hi, hj]), bind_ok_eq]
  change (t.firstOrderReverse (rowOf C i) >>= _) = _
  rw [h, bind_ok_eq]
  rw [foldlM_over (fun j i' j' => decide (i' = 0 ∧ j' = j)) (fun _ j => dx.getD j Flt.zero) (r := 1)
    (c := t.numIndeps) ?_ _ rfl rfl, bind_ok_eq]
  · show Except.ok _ = _
    congr 2
    rw [Prod.mk.injEq]
    refine ⟨rfl, ?_⟩
    apply DMat.zeros_over
    intro i j
    simp only [List.any_eq_true, List.mem_range, decide_eq_true_eq, hl]
    constructor
    · rintro ⟨k, h1, rfl, rfl⟩; exact ⟨by omega, h1⟩
    · rintro ⟨h1, h2⟩; exact ⟨j, h2, by omega, rfl⟩
  · intro A j hj h1 h2
    rw [List.mem_range] at hj
    have hg : getR dx j = .ok (dx.getD j Flt.zero) := by
      rw [getR, List.getD_eq_getElem?_getD]; simp [hj]
    rw [hg, bind_ok_eq]
    exact DMat.set_over (F := fun _ j => dx.getD j Flt.zero) (by omega) (by omega)

/-- Entry of a right product. -/
def mrEntry (t : Tape S) (B : DMat S) (i j : Nat) : S :=
  match t.firstOrderForward (colOf B j) with
  | .ok dy => dy.getD i Flt.zero
  | .error _ => Flt.zero

/-- Entry of a left product. -/
def mlEntry (t : Tape S) (C : DMat S) (i j : Nat) : S :=
  match t.firstOrderReverse (rowOf C i) with
  | .ok dx => dx.getD j Flt.zero
  | .error _ => Flt.zero

theorem mulRight_eq {σ : Sched} (hσ : σ.Valid) {t : Tape S} (h : t.WF) {B : DMat S} (hB : t.numIndeps = B.nrows) :
    mulRight σ t B = .ok (DMat.ofFn t.numDeps B.ncols (mrEntry t B)) := by
  have hf : ∀ j, ∃ dy, t.firstOrderForward (colOf B j) = .ok dy ∧ dy.length = t.numDeps := fun j =>
    ⟨_, Tape.firstOrderForward_eq h (by rw [colOf_length, ← hB]; exact Nat.le_refl _), by simp [Tape.numDeps]⟩
  unfold mulRight ncols nrows
  rw [hB]
  simp only [decide_true, assertR, if_true, bind_ok_eq]
  rw [RTree.run_ok (g := fun j => [(j, DMat.ofFn t.numDeps 1 fun i _ => mrEntry t B i j)]) _ (by
    intro j hj
    obtain ⟨dy, h1, h2⟩ := hf j
    rw [mulRightCol_eq ((hσ.mem (p := [])).mp hj) h1 h2]
    simp [mrEntry, h1]), bind_ok_eq]
  rw [foldlM_over (fun c i j => decide (i < t.numDeps ∧ j = c.1)) (mrEntry t B) (r := t.numDeps) (c := B.ncols)
    ?_ (DMat.zeros t.numDeps B.ncols) rfl rfl]
  · congr 1
    apply DMat.zeros_over
    intro i j
    simp only [List.any_eq_true, List.mem_flatMap, decide_eq_true_eq, hσ.mem, List.mem_singleton]
    constructor
    · rintro ⟨c, ⟨k, h1, rfl⟩, h2, rfl⟩; exact ⟨h2, h1⟩
    · rintro ⟨h1, h2⟩; exact ⟨_, ⟨j, h2, rfl⟩, h1, rfl⟩
  · intro A c hc h1 h2
    simp only [List.mem_flatMap, hσ.mem, List.mem_singleton] at hc
    obtain ⟨j, hj, rfl⟩ := hc
    exact copyColumn_eq (c := (j, _)) h1 h2 hj rfl rfl (fun i hi => by rw [DMat.ofFn_get hi (by omega)])

theorem mulLeft_eq {σ : Sched} (hσ : σ.Valid) {t : Tape S} (h : t.WF) (ha : t.AbsFree) {C : DMat S}
    (hC : C.ncols = t.numDeps) :
    mulLeft σ t C = .ok (DMat.ofFn C.nrows t.numIndeps (mlEntry t C)) := by
  have hf : ∀ i, ∃ dx, t.firstOrderReverse (rowOf C i) = .ok dx ∧ dx.length = t.numIndeps := fun i =>
    ⟨_, Tape.firstOrderReverse_eq h ha (by rw [rowOf_length, hC]; exact Nat.le_refl _), by simp [Tape.numIndeps]⟩
  unfold mulLeft ncols nrows
  rw [hC]
  simp only [decide_true, assertR, if_true, bind_ok_eq]
  rw [RTree.run_ok (g := fun i => [(i, DMat.ofFn 1 t.numIndeps fun _ j => mlEntry t C i j)]) _ (by
    intro i hi
    obtain ⟨dy, h1, h2⟩ := hf i
    rw [mulLeftRow_eq ((hσ.mem (p := [])).mp hi) h1 h2]
    simp [mlEntry, h1]), bind_ok_eq]
  rw [foldlM_over (fun c i j => decide (j < t.numIndeps ∧ i = c.1)) (mlEntry t C) (r := C.nrows)
    (c := t.numIndeps) ?_ (DMat.zeros C.nrows t.numIndeps) rfl rfl]
  · congr 1
    apply DMat.zeros_over
    intro i j
    simp only [List.any_eq_true, List.mem_flatMap, decide_eq_true_eq, hσ.mem, List.mem_singleton]
    constructor
    · rintro ⟨c, ⟨k, h1, rfl⟩, h2, rfl⟩; exact ⟨h1, h2⟩
    · rintro ⟨h1, h2⟩; exact ⟨_, ⟨i, h1, rfl⟩, h2, rfl⟩
  · intro A c hc h1 h2
    simp only [List.mem_flatMap, hσ.mem, List.mem_singleton] at hc
    obtain ⟨j, hj, rfl⟩ := hc
    exact copyRow_eq (c := (j, _)) h1 h2 hj rfl rfl (fun i hi => by rw [DMat.ofFn_get (by omega) hi])

theorem mulRight_err {σ : Sched} {t : Tape S} {B : DMat S} (hB : t.numIndeps ≠ B.nrows) :
    mulRight σ t B = .error .assertFailed := by
  simp only [mulRight, ncols, hB, decide_false, assertR]; rfl

theorem mulLeft_err {σ : Sched} {t : Tape S} {C : DMat S} (hC : C.ncols ≠ t.numDeps) :
    mulLeft σ t C = .error .assertFailed := by
  simp only [mulLeft, nrows, hC, decide_false, assertR]; rfl

end Anf
end Adv

namespace Adv
variable {S : Type} [Flt S]

/-! ## Schedule independence -/

theorem Anf.mulRight_sched {σ σ' : Sched} (hσ : σ.Valid) (hσ' : σ'.Valid) {t : Tape S} (h : t.WF) (B : DMat S) :
    Anf.mulRight σ t B = Anf.mulRight σ' t B := by
  by_cases hB : t.numIndeps = B.nrows
  · rw [Anf.mulRight_eq hσ h hB, Anf.mulRight_eq hσ' h hB]
  · rw [Anf.mulRight_err hB, Anf.mulRight_err hB]

theorem Anf.mulLeft_sched {σ σ' : Sched} (hσ : σ.Valid) (hσ' : σ'.Valid) {t : Tape S} (h : t.WF) (ha : t.AbsFree)
    (C : DMat S) : Anf.mulLeft σ t C = Anf.mulLeft σ' t C := by
  by_cases hC : C.ncols = t.numDeps
  · rw [Anf.mulLeft_eq hσ h ha hC, Anf.mulLeft_eq hσ' h ha hC]
  · rw [Anf.mulLeft_err hC, Anf.mulLeft_err hC]

theorem Anf.dense_sched {σ σ' : Sched} (hσ : σ.Valid) (hσ' : σ'.Valid) {t : Tape S} (h : t.WF) (ha : t.AbsFree)
    (c r : Nat) : Anf.dense σ t c r = Anf.dense σ' t c r := by
  unfold Anf.dense
  rw [Anf.mulRight_sched hσ hσ' h, Anf.mulLeft_sched hσ hσ' h ha]

theorem absNormalTape_sched {σ σ' : Sched} (hσ : σ.Valid) (hσ' : σ'.Valid) {t : Tape S} (h : t.WF) :
    absNormalTape σ (anfOf t) = absNormalTape σ' (anfOf t) := by
  unfold absNormalTape
  simp only [Anf.dense_sched (hσ.at_ 0) (hσ'.at_ 0) (anfZ_wf h) (anfZ_absFree t),
    Anf.mulLeft_sched (hσ.at_ 1) (hσ'.at_ 1) (anfL_wf h) (anfL_absFree t),
    Anf.dense_sched (hσ.at_ 2) (hσ'.at_ 2) (anfJ_wf h) (anfJ_absFree t),
    Anf.dense_sched (hσ.at_ 3) (hσ'.at_ 3) (anfY_wf h) (anfY_absFree t)]

theorem dzLoop_sched {σ σ' : Sched} (hσ : σ.Valid) (hσ' : σ'.Valid) {t : Tape S} (h : t.WF) (dzt : List S)
    (k : Nat) (dz : List S) : dzLoop σ t dzt k dz = dzLoop σ' t dzt k dz := by
  induction k generalizing dz with
  | zero => rfl
  | succ k ih => simp only [dzLoop, ih, Anf.mulRight_sched (hσ.at_ k) (hσ'.at_ k) h]

theorem uLoop_sched {σ σ' : Sched} (hσ : σ.Valid) (hσ' : σ'.Valid) {t : Tape S} (h : t.WF) (ha : t.AbsFree)
    (ys : DMat S) (r s : Nat) (sigma : List S) (k : Nat) (u : DMat S) :
    uLoop σ t ys r s sigma k u = uLoop σ' t ys r s sigma k u := by
  induction k generalizing u with
  | zero => rfl
  | succ k ih => simp only [uLoop, ih, Anf.mulLeft_sched (hσ.at_ k) (hσ'.at_ k) h ha]

theorem generalizedJacobianTape_sched {σ σ' : Sched} (hσ : σ.Valid) (hσ' : σ'.Valid) {t : Tape S} (h : t.WF)
    (dx : List S) (bits : List UInt8) (next : Option (GenJac S)) :
    generalizedJacobianTape σ t dx bits next = generalizedJacobianTape σ' t dx bits next := by
  unfold generalizedJacobianTape
  simp only [AbsNormalTape.new_eq h, bind_ok_eq,
    Anf.mulRight_sched (hσ.at_ 0) (hσ'.at_ 0) (anfL_wf h),
    Anf.mulRight_sched (hσ.at_ 1) (hσ'.at_ 1) (anfY_wf h),
    Anf.mulRight_sched (hσ.at_ 2) (hσ'.at_ 2) (anfZ_wf h),
    dzLoop_sched (hσ.at_ 3) (hσ'.at_ 3) (anfL_wf h),
    Anf.mulLeft_sched (hσ.at_ 4) (hσ'.at_ 4) (anfY_wf h) (anfY_absFree t),
    uLoop_sched (hσ.at_ 5) (hσ'.at_ 5) (anfL_wf h) (anfL_absFree t),
    Anf.mulLeft_sched (hσ.at_ 6) (hσ'.at_ 6) (anfJ_wf h) (anfJ_absFree t),
    Anf.mulLeft_sched (hσ.at_ 7) (hσ'.at_ 7) (anfZ_wf h) (anfZ_absFree t)]

end Adv
