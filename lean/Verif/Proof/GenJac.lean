import Verif.Proof.AnfExtra
import Verif.Spec.GenJac
import Mathlib.Data.Nat.Bitwise

/-! # Generalized Jacobian: the loops and the result in closed form -/

set_option linter.unusedSectionVars false
set_option linter.unusedSimpArgs false

namespace Adv
open scoped Adv
open Finset

variable {K : Type} [Field K] [LinearOrder K] [IsStrictOrderedRing K] [Flt K] [LawfulFlt K]

/-! ## The matrix of left products -/

/-- Index of the last occurrence. -/
def lastIdx (p : Nat) : List Nat → Nat
  | [] => 0
  | _ :: l => if p ∈ l then lastIdx p l + 1 else 0

theorem lastIdx_lt {p : Nat} {l : List Nat} (h : p ∈ l) : lastIdx p l < l.length := by
  induction l with
  | nil => simp at h
  | cons i l ih =>
    rw [lastIdx]
    split
    · rename_i hp; have := ih hp; simp; omega
    · simp

theorem scatterFn_last {ids : List Nat} {xs : List K} (hl : ids.length ≤ xs.length) (f : Nat → K) (p : Nat) :
    scatterFn ids xs f p = if p ∈ ids then xs.getD (lastIdx p ids) 0 else f p := by
  induction ids generalizing xs f with
  | nil => simp [scatterFn]
  | cons i ids ih =>
    cases xs with
    | nil => simp at hl
    | cons x xs =>
      rw [scatterFn, ih (by simpa using hl)]
      by_cases hp : p ∈ ids
      · simp [hp, lastIdx]
      · by_cases hpi : p = i
        · subst hpi; simp [hp, lastIdx]
        · simp [hp, hpi, upd_ne hpi]

/-- Unit row. -/
def eRow (n k : Nat) : List K := (List.range n).map fun j => if k = j then 1 else 0

theorem scatterFn_expand {ids : List Nat} {xs : List K} (hl : ids.length ≤ xs.length) (p : Nat) :
    scatterFn ids xs (fun _ => 0) p =
      ∑ k ∈ range ids.length, xs.getD k 0 * scatterFn ids (eRow ids.length k) (fun _ => 0) p := by
  rw [scatterFn_last hl]
  by_cases hp : p ∈ ids
  · have hlt := lastIdx_lt hp
    rw [if_pos hp, Finset.sum_eq_single (lastIdx p ids)]
    · rw [scatterFn_last (by simp [eRow]), if_pos hp, eRow, getD_map_range _ hlt]; simp
    · intro b hb hne
      rw [scatterFn_last (by simp [eRow]), if_pos hp, eRow, getD_map_range _ hlt, if_neg hne, mul_zero]
    · intro hn; exact absurd (Finset.mem_range.mpr hlt) hn
  · rw [if_neg hp]
    symm
    apply Finset.sum_eq_zero
    intro k _
    rw [scatterFn_last (by simp [eRow]), if_neg hp, mul_zero]

/-- The matrix by which `mul_left` multiplies. -/
def rmat (t : Tape K) (k j : Nat) : K := Anf.mlEntry t (DMat.identity t.numDeps) k j

theorem mlEntry_ip {t : Tape K} (h : t.WF) (ha : t.AbsFree) {C : DMat K} (hC : C.ncols = t.numDeps) {i j : Nat}
    (hj : j < t.numIndeps) :
    Anf.mlEntry t C i j = ip t.vals.length (scatterFn t.deps (Anf.rowOf C i) (fun _ => 0))
      (sweepF (fn t.vals) t.ops (unitFn (t.indeps.getD j 0))) := by
  have hj' : j < t.indeps.length := hj
  unfold Anf.mlEntry
  rw [Tape.firstOrderReverse_eq h ha (by rw [Anf.rowOf_length, hC]; exact Nat.le_refl _)]
  simp only
  rw [getD_lt (by simpa using hj'), List.getElem_map, getD_lt hj']
  have hmem : t.indeps[j] ∈ t.indeps := List.getElem_mem hj'
  rw [← ip_unit_right (h.indeps_lt _ hmem) (sweepR _ _ _), sweepR_adjoint h.inB ha h.ssa (by
      intro op hop
      rw [unitFn, upd_ne]
      intro e; exact h.vid_fresh op hop (e ▸ hmem)), LawfulFlt.zero_eq]

theorem rowOf_identity {n k : Nat} (hk : k < n) : Anf.rowOf (DMat.identity n : DMat K) k = eRow n k := by
  unfold Anf.rowOf eRow
  apply List.map_congr_left
  intro j hj
  rw [List.mem_range] at hj
  rw [identity_get hk hj]

theorem mlEntry_lin {t : Tape K} (h : t.WF) (ha : t.AbsFree) {C : DMat K} (hC : C.ncols = t.numDeps) {i j : Nat}
    (hj : j < t.numIndeps) :
    Anf.mlEntry t C i j = ∑ k ∈ range t.numDeps, C.get i k * rmat t k j := by
  have e : ∀ k ∈ range t.numDeps, C.get i k * rmat t k j = C.get i k *
      ip t.vals.length (scatterFn t.deps (eRow t.deps.length k) (fun _ => 0))
      (sweepF (fn t.vals) t.ops (unitFn (t.indeps.getD j 0))) := by
    intro k hk
    rw [rmat, mlEntry_ip h ha rfl hj, rowOf_identity (Finset.mem_range.mp hk)]; rfl
  rw [Finset.sum_congr rfl e, mlEntry_ip h ha hC hj]
  unfold ip
  simp only [Finset.mul_sum]
  rw [Finset.sum_comm]
  apply Finset.sum_congr rfl
  intro p _
  rw [scatterFn_expand (by rw [Anf.rowOf_length, hC]; exact Nat.le_refl _), Finset.sum_mul]
  apply Finset.sum_congr rfl
  intro k hk
  rw [Finset.mem_range] at hk
  rw [Anf.rowOf, getD_map_range _ (by rw [hC]; exact hk)]
  ring

theorem Anf.mulLeft_rmat {σ : Sched} (hσ : σ.Valid) {t : Tape K} (h : t.WF) (ha : t.AbsFree)
    {r c : Nat} (F : Nat → Nat → K) (hc : t.numDeps = c) :
    Anf.mulLeft σ t (DMat.ofFn r c F) = .ok (DMat.ofFn r t.numIndeps fun i j =>
      ∑ k ∈ range c, F i k * rmat t k j) := by
  subst hc
  rw [Anf.mulLeft_eq hσ h ha rfl]
  congr 1
  apply DMat.ofFn_congr
  intro i hi j hj
  change i < r at hi
  rw [mlEntry_lin h ha rfl hj]
  apply Finset.sum_congr rfl
  intro k hk
  rw [DMat.ofFn_get hi (Finset.mem_range.mp hk)]

theorem Anf.mulLeft_rmat' {σ : Sched} (hσ : σ.Valid) {t : Tape K} (h : t.WF) (ha : t.AbsFree) {C : DMat K}
    (hC : C.ncols = t.numDeps) :
    Anf.mulLeft σ t C = .ok (DMat.ofFn C.nrows t.numIndeps fun i j =>
      ∑ k ∈ range t.numDeps, C.get i k * rmat t k j) := by
  rw [Anf.mulLeft_eq hσ h ha hC]
  congr 1
  apply DMat.ofFn_congr
  intro i hi j hj
  rw [mlEntry_lin h ha hC hj]

theorem rmat_eq_tmat {t : Tape K} (h : t.WF) (ha : t.AbsFree) (hnd : t.deps.Nodup) {k j : Nat} (hk : k < t.numDeps)
    (hj : j < t.numIndeps) : rmat t k j = tmat t k j := by
  have h1 := Anf.mulLeft_eq Sched.seq_valid h ha (C := DMat.identity t.numDeps) rfl
  rw [Anf.mulLeft_id Sched.seq_valid h ha hnd] at h1
  injection h1 with h1
  have := congrArg (fun A => DMat.get A k j) h1
  rw [tMatD, DMat.ofFn_get hk hj, DMat.ofFn_get (r := (DMat.identity t.numDeps : DMat K).nrows) hk hj] at this
  exact this.symm

theorem rmat_L_tri {t : Tape K} (h : t.WF) : ∀ i < t.numAbs, ∀ k < t.numAbs, i ≤ k →
    rmat (anfL (anfOf t)) i k = 0 := by
  intro i hi k hk hik
  have := mlEntry_L_tri h hi hk hik
  rwa [← L_numDeps t] at this

/-! ## The iteration for the switching values -/

theorem toVec_ofFn (r : Nat) (F : Nat → Nat → K) :
    (DMat.ofFn r 1 F).toVec = .ok ((List.range r).map fun i => F i 0) := by
  rw [DMat.toVec, if_pos (DMat.ofFn_ncols ..)]
  congr 1
  apply List.map_congr_left
  intro i hi
  rw [List.mem_range] at hi
  rw [DMat.ofFn_nrows] at hi
  rw [DMat.ofFn_get hi Nat.one_pos]

theorem mulRight_vec {σ : Sched} (hσ : σ.Valid) {t : Tape K} (h : t.WF) (ha : t.AbsFree) {v : List K}
    (hv : v.length = t.numIndeps) :
    Anf.mulRight σ t (DMat.ofVec v) = .ok (DMat.ofFn t.numDeps 1 fun i _ =>
      ∑ k ∈ range t.numIndeps, tmat t i k * v.getD k 0) := by
  rw [Anf.mulRight_mat hσ h ha (by exact hv.symm)]
  congr 1
  apply DMat.ofFn_congr
  intro i _ j hj
  change j < 1 at hj
  apply Finset.sum_congr rfl
  intro k hk
  rw [Finset.mem_range] at hk
  rw [DMat.ofVec, DMat.ofFn_get (by omega) hj, LawfulFlt.zero_eq]

theorem vbeq_range (n : Nat) (f g : Nat → K) :
    vbeq ((List.range n).map f) ((List.range n).map g) = true ↔ ∀ i < n, f i = g i := by
  unfold vbeq
  rw [zipWith_range]
  simp [LawfulFlt.eq_iff]

theorem dzLoop_eq {σ : Sched} (hσ : σ.Valid) {t : Tape K} (h : t.WF) {dx : List K} (hx : dx.length = t.numIndeps)
    (k : Nat) (p : Nat → K) (hp : ∀ i < t.numAbs - k, i < t.numAbs → p i = zHat t dx i) :
    dzLoop σ (anfL (anfOf t)) ((List.range t.numAbs).map (cVec t dx)) k ((List.range t.numAbs).map p) =
      .ok (zHatV t dx) := by
  have hL := tmat_L_tri h
  have hq := zHat_eq h hx
  induction k generalizing p with
  | zero =>
    rw [dzLoop, zHatV]
    congr 1
    apply List.map_congr_left
    intro i hi
    rw [List.mem_range] at hi
    exact hp i (by omega) hi
  | succ k ih =>
    rw [dzLoop, vabs_range, mulRight_vec (hσ.at_ k) (anfL_wf h) (anfL_absFree t) (by simp), bind_ok_eq,
      toVec_ofFn, bind_ok_eq, L_numDeps, L_numIndeps, vadd_range, bind_ok_eq]
    have e : ((List.range t.numAbs).map fun i => cVec t dx i + ∑ k ∈ range t.numAbs, tmat (anfL (anfOf t)) i k *
        ((List.range t.numAbs).map fun i => |p i|).getD k 0) =
        (List.range t.numAbs).map fun i => cVec t dx i + ∑ k ∈ range t.numAbs, tmat (anfL (anfOf t)) i k * |p k| := by
      apply List.map_congr_left
      intro i _
      congr 1
      apply Finset.sum_congr rfl
      intro k hk
      rw [getD_map_range _ (Finset.mem_range.mp hk)]
    rw [e]
    by_cases hb : vbeq ((List.range t.numAbs).map fun i => cVec t dx i + ∑ k ∈ range t.numAbs,
        tmat (anfL (anfOf t)) i k * |p k|) ((List.range t.numAbs).map p) = true
    · rw [if_pos hb]
      rw [vbeq_range] at hb
      show Except.ok _ = _
      congr 1
      apply List.map_congr_left
      intro i hi
      rw [List.mem_range] at hi
      rw [hb i hi]
      exact fix_unique hL (fun i hi => (hb i hi).symm) hq i hi
    · rw [if_neg hb]
      apply ih
      intro i hi his
      exact fix_step hL hq hp i (by omega) his

/-! ## The signature -/

theorem bitNext_eq (bytes : List UInt8) (q : Nat) :
    bitNext bytes (min q (8 * bytes.length)) = (bitAt bytes q, min (q + 1) (8 * bytes.length)) := by
  unfold bitNext bitAt
  by_cases hq : q < 8 * bytes.length
  · rw [Nat.min_eq_left (by omega), Nat.min_eq_left (by omega)]
    have hlt : q / 8 < bytes.length := by omega
    rw [List.getElem?_eq_getElem hlt]
    simp only [Prod.mk.injEq, and_true]
    rw [getD_lt hlt, Nat.one_shiftLeft, Nat.and_two_pow]
    cases (bytes[q / 8]).toNat.testBit (q % 8) <;> simp
  · have h8 : 8 * bytes.length / 8 = bytes.length := by omega
    rw [Nat.min_eq_right (by omega), Nat.min_eq_right (by omega), h8]
    rw [List.getElem?_eq_none (Nat.le_refl _)]
    simp only [Prod.mk.injEq, and_true]
    rw [List.getD_eq_getElem?_getD, List.getElem?_eq_none (by omega)]
    simp

theorem sigma_foldl (bytes : List UInt8) (z : Nat → K) (s : Nat) :
    ((List.range s).map z).foldl (sigmaStep bytes) ([], 0, 0) =
      ((List.range s).map (fun i => if z i < 0 then -1 else if 0 < z i then 1 else
          if bitAt bytes #{k ∈ range i | z k = 0} then 1 else -1),
        #{k ∈ range s | z k = 0}, min #{k ∈ range s | z k = 0} (8 * bytes.length)) := by
  induction s with
  | zero => simp
  | succ s ih =>
    rw [List.range_succ, List.map_append, List.foldl_append, ih]
    simp only [List.map_cons, List.map_nil, List.foldl_cons, List.foldl_nil, sigmaStep, LawfulFlt.zero_eq,
      LawfulFlt.one_eq, LawfulFlt.neg_eq, LawfulFlt.lt_iff, List.map_append]
    rw [Finset.range_add_one, Finset.filter_insert]
    by_cases h1 : z s < 0
    · simp [h1, h1.ne]
    · by_cases h2 : 0 < z s
      · simp [h1, h2, h2.ne']
      · have h0 : z s = 0 := le_antisymm (not_lt.mp h2) (not_lt.mp h1)
        rw [bitNext_eq]
        simp [h0]

theorem sigmaLoop_eq (bytes : List UInt8) (z : Nat → K) (s : Nat) :
    sigmaLoop bytes s ((List.range s).map z) = .ok ((List.range s).map (signature bytes ((List.range s).map z)),
      zerosBefore ((List.range s).map z) s) := by
  have hg : (List.range s).mapM (getR ((List.range s).map z)) = .ok ((List.range s).map z) := by
    apply mapM_ok_eq
    intro i hi
    rw [List.mem_range] at hi
    simp [getR, hi]
  have hz : ∀ i ≤ s, zerosBefore ((List.range s).map z) i = #{k ∈ range i | z k = 0} := by
    intro i hi
    unfold zerosBefore
    congr 1
    apply Finset.filter_congr
    intro k hk
    rw [Finset.mem_range] at hk
    rw [getD_map_range _ (by omega)]
  rw [sigmaLoop, hg, bind_ok_eq, sigma_foldl, hz s (Nat.le_refl _)]
  show Except.ok _ = _
  congr 2
  apply List.map_congr_left
  intro i hi
  rw [List.mem_range] at hi
  rw [signature, getD_map_range _ hi, hz i (by omega)]

/-! ## The iteration for `U` -/

theorem scaleCols_eq (r s : Nat) (F : Nat → Nat → K) (sg : Nat → K) :
    scaleCols (DMat.ofFn r s F) r s ((List.range s).map sg) = .ok (DMat.ofFn r s fun i j => F i j * sg j) := by
  rw [scaleCols, if_pos (Or.inr (Or.inr ⟨Nat.le_refl _, Nat.le_refl _, by simp⟩))]
  congr 1
  unfold DMat.ofFn
  congr 1
  funext i j
  by_cases h : i < r ∧ j < s
  · simp only [h, and_self, if_true]
    rw [getD_map_range _ h.2, LawfulFlt.mul_eq]
  · simp only [h, if_false]

theorem add_ofFn (r s : Nat) (F G : Nat → Nat → K) :
    (DMat.ofFn r s F).add (DMat.ofFn r s G) = .ok (DMat.ofFn r s fun i j => F i j + G i j) := by
  rw [DMat.add, if_pos ⟨rfl, rfl⟩]
  congr 1
  apply DMat.ofFn_congr
  intro i hi j hj
  rw [DMat.ofFn_get (r := r) (c := s) hi hj, DMat.ofFn_get (r := r) (c := s) hi hj, LawfulFlt.add_eq]

theorem beq_ofFn (r s : Nat) (F G : Nat → Nat → K) :
    (DMat.ofFn r s F).beq (DMat.ofFn r s G) = true ↔ ∀ i < r, ∀ j < s, F i j = G i j := by
  unfold DMat.beq
  simp only [DMat.ofFn_nrows, DMat.ofFn_ncols, beq_self_eq_true, Bool.true_and, List.all_eq_true, List.mem_range,
    LawfulFlt.eq_iff]
  constructor
  · intro h i hi j hj
    have := h i hi j hj
    rwa [DMat.ofFn_get hi hj, DMat.ofFn_get hi hj] at this
  · intro h i hi j hj
    rw [DMat.ofFn_get hi hj, DMat.ofFn_get hi hj]
    exact h i hi j hj

theorem uLoop_eq {σ : Sched} (hσ : σ.Valid) {t : Tape K} (h : t.WF) (r : Nat) (Y : Nat → Nat → K) (sg : Nat → K)
    (k : Nat) (u : Nat → Nat → K)
    (hu : ∀ i < r, ∀ j < t.numAbs, k ≤ j + 1 →
      (∑ l ∈ range t.numAbs, u i l * rmat (anfL (anfOf t)) l j) * sg j + Y i j = u i j) :
    ∃ U, uLoop σ (anfL (anfOf t)) (DMat.ofFn r t.numAbs Y) r t.numAbs ((List.range t.numAbs).map sg) k
        (DMat.ofFn r t.numAbs u) = .ok (DMat.ofFn r t.numAbs U) ∧
      ∀ i < r, ∀ j < t.numAbs, U i j = (∑ l ∈ range t.numAbs, U i l * rmat (anfL (anfOf t)) l j) * sg j + Y i j := by
  have hL := rmat_L_tri h
  induction k generalizing u with
  | zero => exact ⟨u, rfl, fun i hi j hj => (hu i hi j hj (by omega)).symm⟩
  | succ k ih =>
    rw [uLoop, Anf.mulLeft_rmat (hσ.at_ k) (anfL_wf h) (anfL_absFree t) u (L_numDeps t), bind_ok_eq, L_numIndeps,
      scaleCols_eq, bind_ok_eq, add_ofFn, bind_ok_eq]
    by_cases hb : DMat.beq (DMat.ofFn r t.numAbs fun i j => (∑ l ∈ range t.numAbs, u i l *
        rmat (anfL (anfOf t)) l j) * sg j + Y i j) (DMat.ofFn r t.numAbs u) = true
    · rw [if_pos hb]
      rw [beq_ofFn] at hb
      refine ⟨_, rfl, fun i hi j hj => ?_⟩
      congr 2
      apply Finset.sum_congr rfl
      intro l hl
      rw [hb i hi l (Finset.mem_range.mp hl)]
    · rw [if_neg hb]
      apply ih
      intro i hi j hj hkj
      congr 2
      apply Finset.sum_congr rfl
      intro l hl
      rw [Finset.mem_range] at hl
      by_cases hlj : l ≤ j
      · rw [hL l hl j hj hlj, mul_zero, mul_zero]
      · rw [hu i hi l hl (by omega)]

/-- The linear fixed point equation has at most one solution. -/
theorem u_unique {s : Nat} {L : Nat → Nat → K} (hL : ∀ i < s, ∀ k < s, i ≤ k → L i k = 0) {c sg p q : Nat → K}
    (hp : ∀ j < s, p j = (∑ l ∈ range s, p l * L l j) * sg j + c j)
    (hq : ∀ j < s, q j = (∑ l ∈ range s, q l * L l j) * sg j + c j) : ∀ j < s, p j = q j := by
  have key : ∀ d j, j < s → s ≤ j + d → p j = q j := by
    intro d
    induction d with
    | zero => intro j h1 h2; omega
    | succ d ih =>
      intro j hj hd
      rw [hp j hj, hq j hj]
      congr 2
      apply Finset.sum_congr rfl
      intro l hl
      rw [Finset.mem_range] at hl
      by_cases hlj : l ≤ j
      · rw [hL l hl j hj hlj, mul_zero, mul_zero]
      · rw [ih l hl (by omega)]
  intro j hj
  exact key s j hj (by omega)

/-! ## The result -/

/-- `U` of the generalized Jacobian: `U = (U L + g2 Y) Σ`. -/
def IsU (t : Tape K) (r : Nat) (g2 : Nat → Nat → K) (sg : Nat → K) (U : Nat → Nat → K) : Prop :=
  ∀ i < r, ∀ j < t.numAbs, U i j = (∑ l ∈ range t.numAbs, U i l * rmat (anfL (anfOf t)) l j) * sg j +
    (∑ k ∈ range t.numDeps, g2 i k * rmat (anfY (anfOf t)) k j) * sg j

/-- The homogenous part. -/
def homOf (t : Tape K) (r : Nat) (g2 U : Nat → Nat → K) : DMat K :=
  DMat.ofFn r t.numIndeps fun i j => ∑ k ∈ range t.numDeps, g2 i k * rmat (anfJ (anfOf t)) k j +
    ∑ k ∈ range t.numAbs, U i k * rmat (anfZ (anfOf t)) k j

/-- The inhomogenous part. -/
def inhOf (t : Tape K) (r : Nat) (g2 : Nat → Nat → K) (γ2 : Nat → K) (U : Nat → Nat → K) : List K :=
  (List.range r).map fun i => γ2 i + ∑ k ∈ range t.numDeps, g2 i k * (anfForm t).b.getD k 0 +
    ∑ k ∈ range t.numAbs, U i k * (anfForm t).a.getD k 0

theorem gj_core {σ : Sched} (hσ : σ.Valid) {t : Tape K} (h : t.WF) {dx : List K} (hx : dx.length = t.numIndeps)
    (bits : List UInt8) {G2 : DMat K} (hG : G2.ncols = t.numDeps) {γ2 : List K} (hγ : γ2.length = G2.nrows)
    (mult2 : Nat) :
    ∃ U, IsU t G2.nrows G2.get (signature bits (zHatV t dx)) U ∧
      generalizedJacobianTape σ t dx bits (some ⟨G2, γ2, mult2⟩) =
        .ok ⟨homOf t G2.nrows G2.get U, inhOf t G2.nrows G2.get (fun i => γ2.getD i 0) U,
          zerosBefore (zHatV t dx) t.numAbs + mult2⟩ := by
  set r := G2.nrows with hr
  set g2 := G2.get with hg2
  have hγ' : γ2 = (List.range r).map fun i => γ2.getD i 0 := by
    have := map_eq_range_map γ2 0 id
    rw [List.map_id, hγ] at this
    exact this
  have hz : (anfOf t).z = .ok ((List.range t.numAbs).map (zVal t)) := by rw [z_eq h, zVec_eq]
  have gv : ∀ (V : Tape K) (i : Nat) (f : Nat → K), ∑ k ∈ range t.numAbs, tmat V i k *
      ((List.range t.numAbs).map f).getD k 0 = ∑ k ∈ range t.numAbs, tmat V i k * f k := by
    intro V i f
    apply Finset.sum_congr rfl
    intro k hk
    rw [getD_map_range _ (Finset.mem_range.mp hk)]
  obtain ⟨U, eU, hU⟩ := uLoop_eq (hσ.at_ 5) h r
    (fun i j => (∑ k ∈ range t.numDeps, g2 i k * rmat (anfY (anfOf t)) k j) * signature bits (zHatV t dx) j)
    (signature bits (zHatV t dx)) t.numAbs
    (fun i j => (∑ k ∈ range t.numDeps, g2 i k * rmat (anfY (anfOf t)) k j) * signature bits (zHatV t dx) j) (by
      intro i hi j hj hkj
      rw [Finset.sum_eq_zero, zero_mul, zero_add]
      intro l hl
      rw [Finset.mem_range] at hl
      rw [rmat_L_tri h l hl j hj (by omega), mul_zero])
  refine ⟨U, hU, ?_⟩
  have hsl : sigmaLoop bits t.numAbs (zHatV t dx) = .ok ((List.range t.numAbs).map (signature bits (zHatV t dx)),
      zerosBefore (zHatV t dx) t.numAbs) := sigmaLoop_eq bits (zHat t dx) t.numAbs
  have e1 : assertR (decide (dx.length = t.numIndeps)) = .ok () := by simp [assertR, hx]
  have eL : Anf.mulRight (σ.at_ 0) (anfL (anfOf t)) (DMat.ofVec ((List.range t.numAbs).map fun i => |zVal t i|)) =
      .ok (DMat.ofFn t.numAbs 1 fun i _ => ∑ k ∈ range t.numAbs, tmat (anfL (anfOf t)) i k * |zVal t k|) := by
    rw [mulRight_vec (hσ.at_ 0) (anfL_wf h) (anfL_absFree t) (by simp), L_numDeps, L_numIndeps]
    simp only [gv]
  have eY : Anf.mulRight (σ.at_ 1) (anfY (anfOf t)) (DMat.ofVec ((List.range t.numAbs).map fun i => |zVal t i|)) =
      .ok (DMat.ofFn t.numDeps 1 fun i _ => ∑ k ∈ range t.numAbs, tmat (anfY (anfOf t)) i k * |zVal t k|) := by
    rw [mulRight_vec (hσ.at_ 1) (anfY_wf h) (anfY_absFree t) (by simp), Y_numDeps, Y_numIndeps]
    simp only [gv]
  have eZ : Anf.mulRight (σ.at_ 2) (anfZ (anfOf t)) (DMat.ofVec dx) =
      .ok (DMat.ofFn t.numAbs 1 fun i _ => ∑ k ∈ range t.numIndeps, tmat (anfZ (anfOf t)) i k * dx.getD k 0) := by
    rw [mulRight_vec (hσ.at_ 2) (anfZ_wf h) (anfZ_absFree t) (by simpa using hx), Z_numDeps, Z_numIndeps]
  have ec : ((List.range t.numAbs).map fun i => zVal t i - ∑ k ∈ range t.numAbs, tmat (anfL (anfOf t)) i k * |zVal t k| +
      ∑ k ∈ range t.numIndeps, tmat (anfZ (anfOf t)) i k * dx.getD k 0) = (List.range t.numAbs).map (cVec t dx) := rfl
  have edz := dzLoop_eq (hσ.at_ 3) h hx t.numAbs (cVec t dx) (by intro i hi; omega)
  have eYl := Anf.mulLeft_rmat' (hσ.at_ 4) (anfY_wf h) (anfY_absFree t) (C := G2) (by rw [hG, Y_numDeps])
  have eJl := Anf.mulLeft_rmat' (hσ.at_ 6) (anfJ_wf h) (anfJ_absFree t) (C := G2) (by rw [hG, J_numDeps])
  have eZl := Anf.mulLeft_rmat (hσ.at_ 7) (anfZ_wf h) (anfZ_absFree t) (r := r) U (Z_numDeps t)
  rw [Y_numIndeps, Y_numDeps] at eYl
  rw [J_numIndeps, J_numDeps] at eJl
  rw [Z_numIndeps] at eZl
  have eM : ∀ v : Nat → K, G2.mulVec ((List.range t.numDeps).map v) =
      .ok ((List.range r).map fun i => ∑ k ∈ range t.numDeps, g2 i k * v k) := by
    intro v
    rw [DMat.mulVec, if_pos (by simp [hG])]
    congr 1
    apply List.map_congr_left
    intro i _
    rw [sumProd_eq, hG]
    apply Finset.sum_congr rfl
    intro k hk
    rw [getD_map_range _ (Finset.mem_range.mp hk)]
  unfold generalizedJacobianTape
  simp only [← hr, ← hg2, eM, e1, bind_ok_eq, AbsNormalTape.new_eq h, hz, vabs_range, eL, toVec_ofFn, vsub_range, eY, vneg_range,
    eZ, vadd_range, ec, edz, hsl, eYl, DMat.ofFn_nrows, scaleCols_eq, eU, eJl, eZl, add_ofFn, mulVec_range]
  rw [hγ']
  simp only [vadd_range, bind_ok_eq]
  show Except.ok _ = _
  congr 1
  unfold homOf inhOf
  congr 1
  apply List.map_congr_left
  intro i _
  congr 1
  · congr 1
    · rw [← hγ']
    apply Finset.sum_congr rfl
    intro k hk
    rw [anfForm, getD_map_range _ (Finset.mem_range.mp hk)]
  · apply Finset.sum_congr rfl
    intro k hk
    rw [anfForm, getD_map_range _ (Finset.mem_range.mp hk)]

end Adv
