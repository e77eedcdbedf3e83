import Mathlib.Analysis.Calculus.Deriv.Comp
import Mathlib.Analysis.Calculus.Deriv.Inv
import Mathlib.Analysis.Calculus.FDeriv.Add
import Mathlib.Analysis.Calculus.FDeriv.Mul
import Mathlib.Analysis.Calculus.FDeriv.Pow
import Mathlib.Analysis.Calculus.FDeriv.Pi
import Mathlib.Analysis.Calculus.LocalExtr.Basic
import Verif.Proof.FwHalf
import Verif.Spec.Real

/-! # The derivative of `zero_order` in the Floyd-Warshall example -/

set_option linter.unusedSectionVars false

namespace Adv.Fw
open Finset Filter Topology
open scoped Adv

/-- A coordinate. -/
noncomputable def coord (L i : Nat) : (Fin L → ℝ) →L[ℝ] ℝ := if h : i < L then ContinuousLinearMap.proj ⟨i, h⟩ else 0

theorem ofFn_getD {L : Nat} (e : Fin L → ℝ) (i : Nat) : (List.ofFn e).getD i 0 = coord L i e := by
  unfold coord
  split_ifs with h
  · simp [List.getD_eq_getElem?_getD, h]
  · simp [List.getD_eq_getElem?_getD, h]

theorem ofFn_eq {L : Nat} (e : Fin L → ℝ) : List.ofFn e = (List.range L).map fun i => coord L i e := by
  apply List.ext_getElem (by simp)
  intro i h1 h2
  have hi : i < L := by simpa using h1
  simp [coord, hi]

/-- The derivative of the limited quota. -/
theorem clamp_deriv {lo hi p : ℝ} (hle : lo ≤ hi) (h1 : p ≠ lo) (h2 : p ≠ hi) :
    HasDerivAt (fun s => min (max s lo) hi) (if lo < p ∧ p < hi then 1 else 0) p := by
  rcases lt_or_gt_of_ne h1 with h | h
  · rw [if_neg (by intro h'; linarith [h'.1])]
    refine (hasDerivAt_const p lo).congr_of_eventuallyEq ?_
    filter_upwards [eventually_lt_nhds h] with s hs
    rw [max_eq_right hs.le, min_eq_left hle]
  · rcases lt_or_gt_of_ne h2 with h' | h'
    · rw [if_pos ⟨h, h'⟩]
      refine (hasDerivAt_id p).congr_of_eventuallyEq ?_
      filter_upwards [eventually_gt_nhds h, eventually_lt_nhds h'] with s hs hs'
      rw [max_eq_left hs.le, min_eq_left hs'.le, id]
    · rw [if_neg (by intro h''; linarith [h''.2])]
      refine (hasDerivAt_const p hi).congr_of_eventuallyEq ?_
      filter_upwards [eventually_gt_nhds h, eventually_gt_nhds h'] with s hs hs'
      rw [max_eq_left hs.le, min_eq_right hs'.le]

/-- The derivative of the quota. -/
noncomputable def quotaD (N : Net ℝ) (e : Edge) (p : ℝ) : ℝ :=
  if e.topBottom then if N.lo < p ∧ p < N.hi then 1 else 0 else -if N.lo < p ∧ p < N.hi then 1 else 0

theorem quota_deriv {N : Net ℝ} (hle : N.lo ≤ N.hi) (ed : Edge) {e0 : Fin N.lights → ℝ}
    (h1 : coord N.lights ed.light e0 ≠ N.lo) (h2 : coord N.lights ed.light e0 ≠ N.hi) :
    HasFDerivAt (fun e => N.quota (List.ofFn e) ed) (quotaD N ed (coord N.lights ed.light e0) • coord N.lights ed.light) e0 := by
  have hc := (coord N.lights ed.light).hasFDerivAt (x := e0)
  simp only [Net.quota, ofFn_getD, quotaD]
  split_ifs with ht hr hr
  · have := (clamp_deriv hle h1 h2).comp_hasFDerivAt e0 hc
    rwa [if_pos hr] at this
  · have := (clamp_deriv hle h1 h2).comp_hasFDerivAt e0 hc
    rwa [if_neg hr] at this
  · have := ((clamp_deriv hle h1 h2).const_sub 1).comp_hasFDerivAt e0 hc
    rwa [if_pos hr] at this
  · have := ((clamp_deriv hle h1 h2).const_sub 1).comp_hasFDerivAt e0 hc
    rwa [if_neg hr] at this

theorem quota_pos {N : Net ℝ} (hlo : 0 < N.lo) (hhi : N.hi < 1) (hle : N.lo ≤ N.hi) (params : List ℝ) (e : Edge) :
    0 < N.quota params e := by
  unfold Net.quota
  split_ifs
  · exact lt_min (hlo.trans_le (le_max_right _ _)) (hlo.trans_le hle)
  · have := min_le_right (max (params.getD e.light 0) N.lo) N.hi
    linarith

/-- The derivative of the weights. -/
noncomputable def weightD (N : Net ℝ) (e0 : Fin N.lights → ℝ) (i j : Nat) : (Fin N.lights → ℝ) →L[ℝ] ℝ :=
  match N.edges.reverse.find? fun e => decide (e.joins i j) with
  | some ed => (-quotaD N ed (coord N.lights ed.light e0) / N.quota (List.ofFn e0) ed ^ 2) • coord N.lights ed.light
  | none => 0

theorem weight_deriv {N : Net ℝ} (hlo : 0 < N.lo) (hhi : N.hi < 1) (hle : N.lo ≤ N.hi)
    {e0 : Fin N.lights → ℝ} (hk : ∀ e ∈ N.edges, (List.ofFn e0).getD e.light 0 ≠ N.lo ∧ (List.ofFn e0).getD e.light 0 ≠ N.hi)
    (i j : Nat) : HasFDerivAt (fun e => N.weight (List.ofFn e) i j) (weightD N e0 i j) e0 := by
  unfold Net.weight weightD
  rcases hf : N.edges.reverse.find? fun e => decide (e.joins i j) with _ | ed
  · simp only [hf]
    exact hasFDerivAt_const _ _
  · simp only [hf]
    obtain ⟨h1, h2⟩ := hk ed (List.mem_reverse.mp (List.mem_of_find?_eq_some hf))
    rw [ofFn_getD] at h1 h2
    have hq := quota_deriv hle ed h1 h2
    have hne := (quota_pos hlo hhi hle (List.ofFn e0) ed).ne'
    have := ((hasDerivAt_inv hne).const_add 1).comp_hasFDerivAt e0 hq
    rw [smul_smul] at this
    have e1 : (fun e : Fin N.lights → ℝ => 1 + 1 / N.quota (List.ofFn e) ed) =
        (fun x => 1 + x⁻¹) ∘ fun e => N.quota (List.ofFn e) ed := by
      funext e; simp
    have e2 : -quotaD N ed (coord N.lights ed.light e0) / N.quota (List.ofFn e0) ed ^ 2 =
        -(N.quota (List.ofFn e0) ed ^ 2)⁻¹ * quotaD N ed (coord N.lights ed.light e0) := by
      field_simp
    rw [e1, e2]
    exact this

theorem weightD_apply {N : Net ℝ} (hN : N.Ok) (hle : N.lo ≤ N.hi) {e0 : Fin N.lights → ℝ}
    (hk : ∀ e ∈ N.edges, (List.ofFn e0).getD e.light 0 ≠ N.lo ∧ (List.ofFn e0).getD e.light 0 ≠ N.hi)
    (v : Fin N.lights → ℝ) {i j : Nat} (hi : i < N.n) (hj : j < N.n) :
    weightD N e0 i j v = dWeight N (fun i => coord N.lights i e0) (fun i => coord N.lights i v) i j := by
  rw [dWeight, initS_eq hN _ hi hj, weightD]
  rcases hf : N.edges.reverse.find? fun e => decide (e.joins i j) with _ | ed
  · simp only [hf]
    split_ifs <;> rfl
  · simp only [hf]
    obtain ⟨h1, h2⟩ := hk ed (List.mem_reverse.mp (List.mem_of_find?_eq_some hf))
    rw [ofFn_getD] at h1 h2
    set p := coord N.lights ed.light e0 with hp
    set f := coord N.lights ed.light v with hf'
    have hl : (lightS selSh N.lo N.hi (p, f)).1 =
        (min (max p N.lo) N.hi, (if N.lo < p ∧ p < N.hi then 1 else 0) * f) := by
      apply Prod.ext
      · simp only [lightS, mnS_fst, mxS_fst, lit]
      · have h0 : ∀ c : ℝ, (selSh : Shadow ℝ ℝ).cst c = 0 := fun _ => rfl
        simp only [lightS, mnS_sel, mxS_sel, mxS_fst, lit, h0]
        rcases lt_or_gt_of_ne h1 with h | h
        · rw [max_eq_right h.le, if_neg (not_lt.mpr hle), if_neg (not_lt.mpr h.le), if_neg fun h' => by linarith [h'.1], zero_mul]
        · rw [max_eq_left h.le, if_pos h]
          rcases lt_or_gt_of_ne h2 with h' | h'
          · rw [if_neg (not_lt.mpr h'.le), if_pos ⟨h, h'⟩, one_mul]
          · rw [if_pos h', if_neg fun h'' => by linarith [h''.2], zero_mul]
    have hl2 : (lightS selSh N.lo N.hi (p, f)).2 =
        (1 - min (max p N.lo) N.hi, -((if N.lo < p ∧ p < N.hi then 1 else 0) * f)) := by
      have : (lightS selSh N.lo N.hi (p, f)).2 = bin selSh .Sub (lit selSh Flt.one) (lightS selSh N.lo N.hi (p, f)).1 := rfl
      rw [this, hl]
      simp [bin, lit, zfun, selSh, ffun, LawfulFlt.sub_eq, LawfulFlt.one_eq]
    have hE : (edgeS selSh N (fun i => (coord N.lights i e0, coord N.lights i v)) ed).2 =
        -(quotaD N ed p * f) / N.quota (List.ofFn e0) ed ^ 2 := by
      have hq : (if ed.topBottom then (lightS selSh N.lo N.hi (p, f)).1 else (lightS selSh N.lo N.hi (p, f)).2) =
          (N.quota (List.ofFn e0) ed, quotaD N ed p * f) := by
        rw [hl, hl2]
        unfold Net.quota quotaD
        rw [ofFn_getD, ← hp]
        by_cases ht : ed.topBottom = true
        · simp only [ht, if_true]
        · simp only [ht, Bool.false_eq_true, if_false, neg_mul]
      have e1 : edgeS selSh N (fun i => (coord N.lights i e0, coord N.lights i v)) ed =
          bin selSh .Add (lit selSh Flt.one) (bin selSh .Div (lit selSh Flt.one)
            (if ed.topBottom then (lightS selSh N.lo N.hi (p, f)).1 else (lightS selSh N.lo N.hi (p, f)).2)) := rfl
      rw [e1, hq, add_sel]
      simp [bin, lit, zfun, selSh, ffun, LawfulFlt.sub_eq, LawfulFlt.one_eq, LawfulFlt.div_eq, LawfulFlt.mul_eq,
        LawfulFlt.powi_eq]
    rw [hE]
    simp only [ContinuousLinearMap.smul_apply, smul_eq_mul]
    ring

theorem probe_apply {L : Nat} (wt : Nat → Nat → ℝ) (P : Nat → Nat → (Fin L → ℝ) →L[ℝ] ℝ) (k i j : Nat) (v : Fin L → ℝ) :
    probe wt P k i j v = probe wt (fun i j => P i j v) k i j := by
  induction k generalizing i j with
  | zero => rfl
  | succ k ih =>
    simp only [probe]
    split_ifs
    · rw [ContinuousLinearMap.add_apply, ih, ih]
    · exact ih i j

/-- Steps that change nothing. -/
theorem after_skip {K : Type} [Field K] [LinearOrder K] [IsStrictOrderedRing K] {wt : Nat → Nat → K} (h : ∀ i j, 0 ≤ wt i j)
    (hd : ∀ i, wt i i = 0) {k i j : Nat} (hs : i = k ∨ j = k ∨ i = j) :
    after wt k i j ≤ after wt k i k + after wt k k j := by
  have hnn : ∀ k i j, 0 ≤ after wt k i j := by
    intro k
    induction k with
    | zero => exact h
    | succ k ih => exact fun i j => le_min (ih _ _) (add_nonneg (ih _ _) (ih _ _))
  have hdd : ∀ k i, after wt k i i = 0 := by
    intro k
    induction k with
    | zero => exact hd
    | succ k ih => intro i; rw [after, ih]; exact min_eq_left (add_nonneg (hnn _ _ _) (hnn _ _ _))
  rcases hs with rfl | rfl | rfl
  · rw [hdd, zero_add]
  · rw [hdd, add_zero]
  · rw [hdd]; exact add_nonneg (hnn _ _ _) (hnn _ _ _)

/-- The derivative of the algorithm. -/
theorem after_deriv {L n : Nat} {W : (Fin L → ℝ) → Nat → Nat → ℝ} (hW : ∀ e i j, 0 ≤ W e i j) (hd : ∀ e i, W e i i = 0)
    {P : Nat → Nat → (Fin L → ℝ) →L[ℝ] ℝ} {e0 : Fin L → ℝ} (h0 : ∀ i j, HasFDerivAt (fun e => W e i j) (P i j) e0)
    (ht : ∀ k < n, ∀ i < n, ∀ j < n, i ≠ k → j ≠ k → i ≠ j → after (W e0) k i j ≠ after (W e0) k i k + after (W e0) k k j)
    {k : Nat} (hk : k ≤ n) : ∀ i < n, ∀ j < n,
      HasFDerivAt (fun e => after (W e) k i j) (probe (W e0) P k i j) e0 := by
  induction k with
  | zero => intro i _ j _; exact h0 i j
  | succ k ih =>
    intro i hi j hj
    have ih := ih (by omega)
    have hk' : k < n := by omega
    have ha := ih i hi j hj
    have hb := (ih i hi k hk').add (ih k hk' j hj)
    simp only [after, probe]
    by_cases hs : i = k ∨ j = k ∨ i = j
    · rw [if_neg (not_lt.mpr (after_skip (hW e0) (hd e0) hs))]
      refine ha.congr_of_eventuallyEq (Eventually.of_forall fun e => ?_)
      exact min_eq_left (after_skip (hW e) (hd e) hs)
    · have hne := ht k hk' i hi j hj (fun h => hs (Or.inl h)) (fun h => hs (Or.inr (Or.inl h))) (fun h => hs (Or.inr (Or.inr h)))
      rcases lt_or_gt_of_ne hne with h | h
      · rw [if_neg (not_lt.mpr h.le)]
        refine ha.congr_of_eventuallyEq ?_
        filter_upwards [ha.continuousAt.eventually_lt hb.continuousAt h] with e he
        exact min_eq_left he.le
      · rw [if_pos h]
        refine hb.congr_of_eventuallyEq ?_
        filter_upwards [hb.continuousAt.eventually_lt ha.continuousAt h] with e he
        exact min_eq_right he.le

/-- The value of `zero_order`. -/
noncomputable def total (N : Net ℝ) (e : Fin N.lights → ℝ) : ℝ :=
  ((exitPairs N.exits).map fun p => after (N.weight (List.ofFn e)) N.n p.1 p.2 ^ 2).sum

/-- The derivative of `zero_order`. -/
noncomputable def totalD (N : Net ℝ) (e0 : Fin N.lights → ℝ) : (Fin N.lights → ℝ) →L[ℝ] ℝ :=
  ((exitPairs N.exits).map fun p => (2 * after (N.weight (List.ofFn e0)) N.n p.1 p.2) •
    probe (N.weight (List.ofFn e0)) (weightD N e0) N.n p.1 p.2).sum

theorem total_deriv {N : Net ℝ} (hN : N.Ok) (hlo : 0 < N.lo) (hhi : N.hi < 1) (hle : N.lo ≤ N.hi) (hinf : 0 ≤ N.inf)
    {e0 : Fin N.lights → ℝ} (hg : N.Generic (List.ofFn e0)) : HasFDerivAt (total N) (totalD N e0) e0 := by
  have hA := after_deriv (n := N.n) (W := fun e => N.weight (List.ofFn e)) (P := weightD N e0) (e0 := e0)
    (fun e => weight_nonneg hlo hhi (hlo.trans_le hle) hinf _) (fun e => weight_diag hN _)
    (weight_deriv hlo hhi hle hg.kink) hg.tie le_rfl
  unfold total totalD
  have key : ∀ ps : List (Nat × Nat), (∀ p ∈ ps, p.1 < N.n ∧ p.2 < N.n) →
      HasFDerivAt (fun e : Fin N.lights → ℝ => (ps.map fun p => after (N.weight (List.ofFn e)) N.n p.1 p.2 ^ 2).sum)
        (ps.map fun p => (2 * after (N.weight (List.ofFn e0)) N.n p.1 p.2) •
          probe (N.weight (List.ofFn e0)) (weightD N e0) N.n p.1 p.2).sum e0 := by
    intro ps
    induction ps with
    | nil => intro _; simpa using hasFDerivAt_const (0 : ℝ) e0
    | cons p ps ih =>
      intro hp
      obtain ⟨h1, h2⟩ := hp p (by simp)
      simp only [List.map_cons, List.sum_cons]
      refine HasFDerivAt.add ?_ (ih fun q hq => hp q (by simp [hq]))
      have := (hA p.1 h1 p.2 h2).pow 2
      simpa using this
  exact key _ fun p hp => exitPairs_lt hN.exits hp

theorem totalD_apply {N : Net ℝ} (hN : N.Ok) (hle : N.lo ≤ N.hi) {e0 : Fin N.lights → ℝ}
    (hk : ∀ e ∈ N.edges, (List.ofFn e0).getD e.light 0 ≠ N.lo ∧ (List.ofFn e0).getD e.light 0 ≠ N.hi)
    (v : Fin N.lights → ℝ) : totalD N e0 v = sumD N ((List.range N.lights).map fun i => coord N.lights i e0)
      (dWeight N (fun i => coord N.lights i e0) fun i => coord N.lights i v) := by
  rw [← ofFn_eq]
  unfold totalD sumD
  have key : ∀ ps : List (Nat × Nat), (∀ p ∈ ps, p.1 < N.n ∧ p.2 < N.n) →
      (ps.map fun p => (2 * after (N.weight (List.ofFn e0)) N.n p.1 p.2) •
          probe (N.weight (List.ofFn e0)) (weightD N e0) N.n p.1 p.2).sum v =
      (ps.map fun p => 2 * after (N.weight (List.ofFn e0)) N.n p.1 p.2 * probe (N.weight (List.ofFn e0))
        (dWeight N (fun i => coord N.lights i e0) fun i => coord N.lights i v) N.n p.1 p.2).sum := by
    intro ps
    induction ps with
    | nil => intro _; simp
    | cons p ps ih =>
      intro hp
      obtain ⟨h1, h2⟩ := hp p (by simp)
      simp only [List.map_cons, List.sum_cons, ContinuousLinearMap.add_apply, ContinuousLinearMap.smul_apply, smul_eq_mul]
      rw [ih fun q hq => hp q (by simp [hq]), probe_apply,
        probe_congr _ (fun i hi j hj => weightD_apply hN hle hk v hi hj) le_rfl _ h1 _ h2]
  exact key _ fun p hp => exitPairs_lt hN.exits hp

theorem after_le_probe (W0 W : Nat → Nat → ℝ) (k i j : Nat) : after W k i j ≤ probe W0 W k i j := by
  induction k generalizing i j with
  | zero => exact le_rfl
  | succ k ih =>
    simp only [after, probe]
    split_ifs
    · exact (min_le_right _ _).trans (add_le_add (ih _ _) (ih _ _))
    · exact (min_le_left _ _).trans (ih _ _)

theorem probe_self (W : Nat → Nat → ℝ) (k i j : Nat) : probe W W k i j = after W k i j := by
  induction k generalizing i j with
  | zero => rfl
  | succ k ih =>
    simp only [after, probe, ih]
    split_ifs with h
    · exact (min_eq_right h.le).symm
    · exact (min_eq_left (not_lt.mp h)).symm

theorem probe_deriv {L : Nat} {W0 : Nat → Nat → ℝ} {W : (Fin L → ℝ) → Nat → Nat → ℝ}
    {P : Nat → Nat → (Fin L → ℝ) →L[ℝ] ℝ} {e0 : Fin L → ℝ} (h0 : ∀ i j, HasFDerivAt (fun e => W e i j) (P i j) e0)
    (k i j : Nat) : HasFDerivAt (fun e => probe W0 (W e) k i j) (probe W0 P k i j) e0 := by
  induction k generalizing i j with
  | zero => exact h0 i j
  | succ k ih =>
    simp only [probe]
    split_ifs
    · exact (ih _ _).add (ih _ _)
    · exact ih _ _

/-- The sum of the squared times for the ways that are the fastest ones for the parameters `e0`. -/
noncomputable def fixedTotal (N : Net ℝ) (e0 e : Fin N.lights → ℝ) : ℝ :=
  ((exitPairs N.exits).map fun p => probe (N.weight (List.ofFn e0)) (N.weight (List.ofFn e)) N.n p.1 p.2 ^ 2).sum

theorem fixedTotal_self (N : Net ℝ) (e0 : Fin N.lights → ℝ) : fixedTotal N e0 e0 = total N e0 := by
  unfold fixedTotal total
  simp only [probe_self]

theorem total_le_fixed {N : Net ℝ} (hlo : 0 < N.lo) (hhi : N.hi < 1) (hle : N.lo ≤ N.hi) (hinf : 0 ≤ N.inf)
    (e0 e : Fin N.lights → ℝ) : total N e ≤ fixedTotal N e0 e := by
  refine List.sum_le_sum fun p _ => ?_
  exact pow_le_pow_left₀ (after_nonneg (weight_nonneg hlo hhi (hlo.trans_le hle) hinf _) _ _ _) (after_le_probe _ _ _ _ _) 2

theorem fixedTotal_deriv {N : Net ℝ} (hlo : 0 < N.lo) (hhi : N.hi < 1) (hle : N.lo ≤ N.hi) {e0 : Fin N.lights → ℝ}
    (hk : ∀ e ∈ N.edges, (List.ofFn e0).getD e.light 0 ≠ N.lo ∧ (List.ofFn e0).getD e.light 0 ≠ N.hi) :
    HasFDerivAt (fixedTotal N e0) (totalD N e0) e0 := by
  unfold fixedTotal totalD
  induction exitPairs N.exits with
  | nil => simpa using hasFDerivAt_const (0 : ℝ) e0
  | cons p ps ih =>
    simp only [List.map_cons, List.sum_cons]
    refine HasFDerivAt.add ?_ ih
    have := (probe_deriv (W0 := N.weight (List.ofFn e0)) (W := fun e => N.weight (List.ofFn e))
      (weight_deriv hlo hhi hle hk) N.n p.1 p.2).pow 2
    simpa [probe_self] using this

/-- Where `zero_order` is differentiable, this is its derivative. -/
theorem total_unique {N : Net ℝ} (hlo : 0 < N.lo) (hhi : N.hi < 1) (hle : N.lo ≤ N.hi) (hinf : 0 ≤ N.inf)
    {e0 : Fin N.lights → ℝ}
    (hk : ∀ e ∈ N.edges, (List.ofFn e0).getD e.light 0 ≠ N.lo ∧ (List.ofFn e0).getD e.light 0 ≠ N.hi)
    {D : (Fin N.lights → ℝ) →L[ℝ] ℝ} (hD : HasFDerivAt (total N) D e0) : D = totalD N e0 := by
  have h := hD.sub (fixedTotal_deriv hlo hhi hle hk)
  have hm : IsLocalMax (total N - fixedTotal N e0) e0 := by
    refine Eventually.of_forall fun e => ?_
    simp only [Pi.sub_apply, fixedTotal_self, sub_self]
    exact sub_nonpos.mpr (total_le_fixed hlo hhi hle hinf e0 e)
  exact sub_eq_zero.mp (hm.hasFDerivAt_eq_zero h)

/-- `zero_order` computes `total`. -/
theorem zeroOrder_total {N : Net ℝ} (hN : N.Ok) (hlo : 0 < N.lo) (hhi : N.hi < 1) (hle : N.lo ≤ N.hi) (hinf : 0 ≤ N.inf)
    {tapes : Tape ℝ × Tape ℝ} (ht : Recorded N tapes) (e : Fin N.lights → ℝ) {w : World ℝ} (hw : w.nextId + N.n ≤ usizeMax) :
    (zeroOrder N tapes (List.ofFn e) w).1 = .ok (total N e) := by
  obtain ⟨w', e1, -⟩ := zeroOrder_eval (sh := selSh) hN ht (fun i => (coord N.lights i e, 0)) hw
  rw [ofFn_eq, e1, badS_fst]
  unfold total
  refine congrArg (fun l : List ℝ => Except.ok l.sum) ?_
  apply List.map_congr_left
  intro p hp
  obtain ⟨h1, h2⟩ := exitPairs_lt hN.exits hp
  have := foldl_sel (n := N.n) (wt := N.weight (List.ofFn e)) (P := fun i j => (initS selSh N (fun i => (coord N.lights i e, 0)) (i * N.n + j)).2)
    (H := initS selSh N fun i => (coord N.lights i e, 0))
    (weight_nonneg hlo hhi (hlo.trans_le hle) hinf _) (weight_diag hN _)
    (fun i hi j hj => Prod.ext (initS_fst hN _ (fun i _ => ofFn_getD e i) hi hj) rfl) le_rfl _ h1 _ h2
  show (distS selSh N (fun i => (coord N.lights i e, 0)) N.n (p.1 * N.n + p.2)).1 ^ 2 = _
  rw [distS, this]

end Adv.Fw
