import Verif.Proof.Views
import Verif.Proof.TapeMatrix
import Verif.Spec.AbsNormal
import Mathlib.Data.List.GetD

/-! # The equations of the abs-normal form -/

set_option linter.unusedSectionVars false
set_option linter.unusedSimpArgs false

namespace Adv
open scoped Adv
open Finset

variable {K : Type} [Field K] [LinearOrder K] [IsStrictOrderedRing K] [Flt K] [LawfulFlt K]

/-! ## Strictly triangular fixed points -/

theorem tri_sum_congr {s : Nat} {L : Nat → Nat → K} (hL : ∀ i < s, ∀ k < s, i ≤ k → L i k = 0) {p q : Nat → K}
    {i : Nat} (hi : i < s) (h : ∀ k < i, p k = q k) :
    ∑ k ∈ range s, L i k * p k = ∑ k ∈ range s, L i k * q k := by
  apply Finset.sum_congr rfl
  intro k hk
  rw [Finset.mem_range] at hk
  by_cases hki : k < i
  · rw [h k hki]
  · rw [hL i hi k hk (by omega)]; ring

theorem fix_unique {s : Nat} {L : Nat → Nat → K} (hL : ∀ i < s, ∀ k < s, i ≤ k → L i k = 0) {c p q : Nat → K}
    (hp : ∀ i < s, p i = c i + ∑ k ∈ range s, L i k * |p k|)
    (hq : ∀ i < s, q i = c i + ∑ k ∈ range s, L i k * |q k|) : ∀ i < s, p i = q i := by
  intro i
  induction i using Nat.strongRecOn with
  | _ i ih =>
    intro hi
    rw [hp i hi, hq i hi, tri_sum_congr hL (q := fun k => |q k|) hi]
    intro k hk
    rw [ih k hk (by omega)]

theorem fix_step {s : Nat} {L : Nat → Nat → K} (hL : ∀ i < s, ∀ k < s, i ≤ k → L i k = 0) {c p q : Nat → K}
    (hq : ∀ i < s, q i = c i + ∑ k ∈ range s, L i k * |q k|) {N : Nat} (h : ∀ i < N, i < s → p i = q i) :
    ∀ i < N + 1, i < s → c i + ∑ k ∈ range s, L i k * |p k| = q i := by
  intro i hi his
  rw [hq i his, tri_sum_congr hL (p := fun k => |p k|) (q := fun k => |q k|) his]
  intro k hk
  rw [h k (by omega) (by omega)]

/-! ## Sweeps over the hidden operations -/

/-- Derivative of value `d` with respect to value `k`, abs results being held fixed. -/
def ent (t : Tape K) (d k : Nat) : K := sweepF (fn t.vals) (hops t) (unitFn k) d

theorem sweepF_support {v : Nat → K} {ops : List Operation} (hs : SSA ops) (ha : ∀ op ∈ ops, op.opcode ≠ .Abs)
    {f : Nat → K} {N : Nat} (h : ∀ k < N, f k = 0) : ∀ k < N, sweepF v ops f k = 0 := by
  intro k
  induction k using Nat.strongRecOn with
  | _ k ih =>
    intro hk
    by_cases hop : ∃ op ∈ activeOps ops, op.vid = k
    · obtain ⟨op, hop, rfl⟩ := hop
      have hop' := (mem_activeOps.mp hop).1
      by_cases hc : op.opcode.computes = true
      · have h1 := hs.a1_lt op hop hc
        have h2 := hs.a2_lt op hop hc
        rw [sweepF_computes hs _ hop' hc, ffun_linear (ha op hop') hc, ih _ h1 (by omega), ih _ h2 (by omega)]
        ring
      · have hc' : op.opcode = .Const := by
          by_contra hne
          exact hc ((OpCode.computes_iff _).mpr ⟨(mem_activeOps.mp hop).2, hne⟩)
        rw [sweepF_const hs _ hop' hc', LawfulFlt.zero_eq]
    · rw [sweepF_other (by intro op ho e; exact hop ⟨op, ho, e⟩), h k hk]

theorem ent_zero {t : Tape K} (h : t.WF) {d k : Nat} (hlt : d < k) : ent t d k = 0 := by
  unfold ent
  apply sweepF_support (N := k) (hops_ssa h) (hops_absFree t) _ d hlt
  intro j hj
  rw [unitFn, upd_ne (by omega)]

/-- The equations that first order sweeps with increments `dx` of the inputs solve at all operations but abs. -/
structure HiddenSolution (t : Tape K) (dx : List K) (p : Nat → K) : Prop where
  const : ∀ op ∈ t.ops, op.opcode = .Const → p op.vid = 0
  op : ∀ op ∈ t.ops, op.opcode ≠ .Abs → op.opcode.computes = true →
    p op.vid = ffun op.opcode (fn t.vals op.a1) (fn t.vals op.a2) (p op.a1) (p op.a2)
  other : ∀ k, (∀ op ∈ activeOps t.ops, op.vid ≠ k) → p k = scatterFn t.indeps dx (fun _ => 0) k

theorem hiddenSolution_sweepF {t : Tape K} (h : t.WF) (dx : List K) :
    HiddenSolution t dx (sweepF (fn t.vals) t.ops (scatterFn t.indeps dx (fun _ => 0))) where
  const op hop hc := by rw [sweepF_const h.ssa _ hop hc, LawfulFlt.zero_eq]
  op op hop _ hc := sweepF_computes h.ssa _ hop hc
  other _ hk := sweepF_other hk _

/-- A solution also solves the hidden tape, started with the increments of the abs results. -/
theorem hidden_sweep {t : Tape K} (h : t.WF) {dx : List K} (hx : dx.length = t.indeps.length) {p : Nat → K}
    (hp : HiddenSolution t dx p) :
    sweepF (fn t.vals) (hops t) (scatterFn (t.indeps ++ wIds t) (dx ++ (wIds t).map p) (fun _ => 0)) = p := by
  set g := scatterFn (t.indeps ++ wIds t) (dx ++ (wIds t).map p) (fun _ => 0) with hg
  have hnd := indeps_wIds_nodup h
  have hgw : ∀ k ∈ wIds t, g k = p k := by
    intro k hk
    obtain ⟨i, hi, rfl⟩ := List.mem_iff_getElem.mp hk
    have := scatterFn_get (f := fun _ => (0 : K)) (xs := dx ++ (wIds t).map p) (k := t.indeps.length + i) hnd
      (by simp [hi]; simpa using hi) (by simp [hx]; simpa using hi)
    rw [List.getElem_append_right (by omega), List.getElem_append_right (by omega)] at this
    simpa [hx] using this
  have hgi : ∀ k ∈ t.indeps, g k = scatterFn t.indeps dx (fun _ => 0) k := by
    intro k hk
    obtain ⟨i, hi, rfl⟩ := List.mem_iff_getElem.mp hk
    have := scatterFn_get (f := fun _ => (0 : K)) (xs := dx ++ (wIds t).map p) (k := i) hnd
      (by simp; omega) (by simp [hx]; omega)
    rw [List.getElem_append_left hi, List.getElem_append_left (by omega)] at this
    rw [hg, this, scatterFn_get h.indeps_nodup hi (by omega)]
  funext k
  induction k using Nat.strongRecOn with
  | _ k ih =>
    by_cases hop : ∃ op ∈ activeOps t.ops, op.vid = k
    · obtain ⟨op, hop, rfl⟩ := hop
      have hop' := (mem_activeOps.mp hop).1
      by_cases hab : op.opcode = .Abs
      · have hw : op ∈ t.absOps := mem_absOps.mpr ⟨hop', hab⟩
        rw [sweepF_other, hgw _ (List.mem_map.mpr ⟨op, hw, rfl⟩)]
        intro o ho e
        obtain ⟨h1, h2⟩ := mem_activeOps_hops.mp ho
        exact h2 (vid_inj h h1 hop e ▸ hab)
      · have hh : op ∈ hops t := mem_hops hop' hab
        by_cases hc : op.opcode.computes = true
        · have h1 := h.ssa.a1_lt op hop hc
          have h2 := h.ssa.a2_lt op hop hc
          rw [sweepF_computes (hops_ssa h) _ hh hc, ih _ h1, ih _ h2, hp.op op hop' hab hc]
        · have hc' : op.opcode = .Const := by
            by_contra hne
            exact hc ((OpCode.computes_iff _).mpr ⟨(mem_activeOps.mp hop).2, hne⟩)
          rw [sweepF_const (hops_ssa h) _ hh hc', hp.const op hop' hc', LawfulFlt.zero_eq]
    · have hne : ∀ op ∈ activeOps t.ops, op.vid ≠ k := fun op ho e => hop ⟨op, ho, e⟩
      rw [sweepF_other (fun o ho => hne o (mem_activeOps_hops.mp ho).1), hp.other k hne]
      by_cases hk : k ∈ t.indeps
      · exact hgi k hk
      · rw [hg, scatterFn_not_mem hk, scatterFn_not_mem]
        rw [List.mem_append, not_or]
        refine ⟨hk, fun hw => ?_⟩
        obtain ⟨op, ho, e⟩ := List.mem_map.mp hw
        exact hne op (absOps_active ho) e

/-- Values of a solution in terms of those of the inputs and of the abs results. -/
theorem hidden_split {t : Tape K} (h : t.WF) {dx : List K} (hx : dx.length = t.indeps.length) {p : Nat → K}
    (hp : HiddenSolution t dx p) (d : Nat) :
    p d = ∑ j ∈ range t.numIndeps, ent t d (t.indeps.getD j 0) * dx.getD j 0 +
      ∑ k ∈ range t.numAbs, ent t d ((wIds t).getD k 0) * p ((wIds t).getD k 0) := by
  have key := congrFun (hidden_sweep h hx hp) d
  conv_lhs => rw [← key]
  rw [scatterFn_sum (indeps_wIds_nodup h) (by simp [hx]), sweepF_sum (hops_absFree t)]
  simp only [List.length_append, wIds_length]
  rw [Finset.sum_range_add]
  congr 1
  · apply Finset.sum_congr rfl
    intro j hj
    rw [Finset.mem_range] at hj
    rw [List.getD_append _ _ _ _ (by omega), List.getD_append _ _ _ _ hj, mul_comm]; rfl
  · apply Finset.sum_congr rfl
    intro k hk
    rw [Finset.mem_range] at hk
    rw [List.getD_append_right _ _ _ _ (by omega), List.getD_append_right _ _ _ _ (by omega), hx,
      Nat.add_sub_cancel_left, mul_comm]
    have hkl : k < (wIds t).length := by simpa using hk
    rw [getD_lt hkl, getD_lt (l := List.map _ _) (by simpa using hk), List.getElem_map]
    rfl

/-- Increments of all values in terms of those of the inputs and of the abs results. -/
theorem sweep_split {t : Tape K} (h : t.WF) {dx : List K} (hx : dx.length = t.indeps.length) (d : Nat) :
    let dv := sweepF (fn t.vals) t.ops (scatterFn t.indeps dx (fun _ => 0))
    dv d = ∑ j ∈ range t.numIndeps, ent t d (t.indeps.getD j 0) * dx.getD j 0 +
      ∑ k ∈ range t.numAbs, ent t d ((wIds t).getD k 0) * dv ((wIds t).getD k 0) :=
  hidden_split h hx (hiddenSolution_sweepF h dx) d

theorem zId_eq {t : Tape K} {i : Nat} (hi : i < t.numAbs) :
    ∃ op ∈ t.absOps, (zIds t).getD i 0 = op.a1 ∧ (wIds t).getD i 0 = op.vid := by
  have hl : i < t.absOps.length := by rw [absOps_length]; exact hi
  refine ⟨t.absOps[i], List.getElem_mem hl, ?_, ?_⟩
  · simp [zIds, hl]
  · simp [wIds, hl]

theorem zId_lt_wId {t : Tape K} (h : t.WF) {i k : Nat} (hi : i < t.numAbs) (hk : k < t.numAbs) (hik : i ≤ k) :
    (zIds t).getD i 0 < (wIds t).getD k 0 := by
  obtain ⟨op, ho, e1, e2⟩ := zId_eq hi
  have h1 := (h.abs_arg ho).2.2.1
  rcases Nat.eq_or_lt_of_le hik with rfl | hlt
  · omega
  · have hs := wIds_sorted h
    have := List.pairwise_iff_getElem.mp hs i k (by simpa using hi) (by simpa using hk) hlt
    rw [← getD_lt (d := 0) (by simpa using hi), ← getD_lt (d := 0) (by simpa using hk)] at this
    omega

theorem abs_incr {t : Tape K} (h : t.WF) (dx : List K) {i : Nat} (hi : i < t.numAbs) :
    let dv := sweepF (fn t.vals) t.ops (scatterFn t.indeps dx (fun _ => 0))
    dv ((wIds t).getD i 0) = |fn t.vals ((zIds t).getD i 0) + dv ((zIds t).getD i 0)| -
      |fn t.vals ((zIds t).getD i 0)| := by
  intro dv
  obtain ⟨op, ho, e1, e2⟩ := zId_eq hi
  obtain ⟨h1, h2⟩ := mem_absOps.mp ho
  rw [e1, e2]
  show sweepF (fn t.vals) t.ops _ op.vid = _
  rw [sweepF_computes h.ssa _ h1 (by rw [h2]; rfl), h2]
  simp only [ffun, LawfulFlt.sub_eq, LawfulFlt.abs_eq, LawfulFlt.add_eq]
  rfl

/-! ## Matrices of the views -/

theorem tmat_Z (t : Tape K) (i j : Nat) :
    tmat (anfZ (anfOf t)) i j = ent t ((zIds t).getD i 0) (t.indeps.getD j 0) := by rw [anfZ_eq]; rfl
theorem tmat_L (t : Tape K) (i j : Nat) :
    tmat (anfL (anfOf t)) i j = ent t ((zIds t).getD i 0) ((wIds t).getD j 0) := by rw [anfL_eq]; rfl
theorem tmat_J (t : Tape K) (i j : Nat) :
    tmat (anfJ (anfOf t)) i j = ent t (t.deps.getD i 0) (t.indeps.getD j 0) := by rw [anfJ_eq]; rfl
theorem tmat_Y (t : Tape K) (i j : Nat) :
    tmat (anfY (anfOf t)) i j = ent t (t.deps.getD i 0) ((wIds t).getD j 0) := by rw [anfY_eq]; rfl

/-- Strict triangularity of `L`. -/
theorem tmat_L_tri {t : Tape K} (h : t.WF) : ∀ i < t.numAbs, ∀ k < t.numAbs, i ≤ k →
    tmat (anfL (anfOf t)) i k = 0 := by
  intro i hi k hk hik
  rw [tmat_L]; exact ent_zero h (zId_lt_wId h hi hk hik)

/-- Switching value after the increment. -/
def zHat (t : Tape K) (dx : List K) (i : Nat) : K :=
  fn t.vals ((zIds t).getD i 0) +
    sweepF (fn t.vals) t.ops (scatterFn t.indeps dx (fun _ => 0)) ((zIds t).getD i 0)

/-- Switching value. -/
def zVal (t : Tape K) (i : Nat) : K := fn t.vals ((zIds t).getD i 0)

/-- `a + Z dx`. -/
def cVec (t : Tape K) (dx : List K) (i : Nat) : K :=
  zVal t i - ∑ k ∈ range t.numAbs, tmat (anfL (anfOf t)) i k * |zVal t k| +
    ∑ j ∈ range t.numIndeps, tmat (anfZ (anfOf t)) i j * dx.getD j 0

theorem zHat_eq {t : Tape K} (h : t.WF) {dx : List K} (hx : dx.length = t.indeps.length) :
    ∀ i < t.numAbs, zHat t dx i = cVec t dx i +
      ∑ k ∈ range t.numAbs, tmat (anfL (anfOf t)) i k * |zHat t dx k| := by
  intro i hi
  unfold zHat cVec
  rw [sweep_split h hx]
  have e : ∑ k ∈ range t.numAbs, ent t ((zIds t).getD i 0) ((wIds t).getD k 0) *
      sweepF (fn t.vals) t.ops (scatterFn t.indeps dx (fun _ => 0)) ((wIds t).getD k 0) =
      ∑ k ∈ range t.numAbs, tmat (anfL (anfOf t)) i k * |zHat t dx k| -
      ∑ k ∈ range t.numAbs, tmat (anfL (anfOf t)) i k * |zVal t k| := by
    rw [← Finset.sum_sub_distrib]
    apply Finset.sum_congr rfl
    intro k hk
    rw [abs_incr h dx (Finset.mem_range.mp hk), tmat_L, zHat, zVal]; ring
  rw [e]
  simp only [tmat_Z]
  unfold zHat zVal
  ring

/-- The increment of the outputs. -/
theorem dy_eq {t : Tape K} (h : t.WF) {dx : List K} (hx : dx.length = t.indeps.length) (i : Nat) :
    sweepF (fn t.vals) t.ops (scatterFn t.indeps dx (fun _ => 0)) (t.deps.getD i 0) =
      -(∑ k ∈ range t.numAbs, tmat (anfY (anfOf t)) i k * |zVal t k|) +
      ∑ j ∈ range t.numIndeps, tmat (anfJ (anfOf t)) i j * dx.getD j 0 +
      ∑ k ∈ range t.numAbs, tmat (anfY (anfOf t)) i k * |zHat t dx k| := by
  rw [sweep_split h hx]
  have e : ∑ k ∈ range t.numAbs, ent t (t.deps.getD i 0) ((wIds t).getD k 0) *
      sweepF (fn t.vals) t.ops (scatterFn t.indeps dx (fun _ => 0)) ((wIds t).getD k 0) =
      ∑ k ∈ range t.numAbs, tmat (anfY (anfOf t)) i k * |zHat t dx k| -
      ∑ k ∈ range t.numAbs, tmat (anfY (anfOf t)) i k * |zVal t k| := by
    rw [← Finset.sum_sub_distrib]
    apply Finset.sum_congr rfl
    intro k hk
    rw [abs_incr h dx (Finset.mem_range.mp hk), tmat_Y, zHat, zVal]; ring
  rw [e]
  simp only [tmat_J]
  ring

end Adv
