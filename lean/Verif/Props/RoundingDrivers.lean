import Verif.Proof.Jacobian
import Verif.Props.Rounding

/-!
# C65: Jacobian matrices in rounded arithmetic
-/

set_option linter.unusedSectionVars false

namespace Adv.Props
open Adv Filter Topology
open scoped Adv

/-- Finitely many bounds have a common bound. -/
theorem common_bound {Q : ℕ → ℝ → ℝ → Prop} (hQ : ∀ i K K' u u', K ≤ K' → u' ≤ u → Q i K u → Q i K' u') :
    ∀ m : ℕ, (∀ i < m, ∃ K u, 0 < u ∧ Q i K u) → ∃ K u, 0 < u ∧ ∀ i < m, Q i K u
  | 0, _ => ⟨0, 1, one_pos, fun i hi => absurd hi (by omega)⟩
  | m + 1, h => by
    obtain ⟨K, u, h1, h2⟩ := common_bound hQ m fun i hi => h i (by omega)
    obtain ⟨K', u', h3, h4⟩ := h m (by omega)
    refine ⟨max K K', min u u', lt_min h1 h3, fun i hi => ?_⟩
    rcases Nat.lt_succ_iff_lt_or_eq.mp hi with hi | rfl
    · exact hQ _ _ _ _ _ (le_max_left _ _) (min_le_left _ _) (h2 i hi)
    · exact hQ _ _ _ _ _ (le_max_right _ _) (min_le_right _ _) h4

theorem Within.getD {δ : ℝ} {xs ys : List ℝ} (h : Within δ xs ys) {i : ℕ} (hi : i < xs.length) (d d' : ℝ) :
    |xs.getD i d - ys.getD i d'| ≤ δ := by
  have hl := h.length_eq
  rw [List.getD_eq_getElem _ _ hi, List.getD_eq_getElem _ _ (hl ▸ hi)]
  exact h.get hi (hl ▸ hi)

theorem Within.rfl_of {δ : ℝ} (h : 0 ≤ δ) (xs : List ℝ) : Within δ xs xs :=
  List.forall₂_same.mpr fun x _ => by simpa using h

theorem eVec_rounded {A : Flt ℝ} {u : ℝ} (hA : Floating A u) (n j : ℕ) : @eVec ℝ A n j = @eVec ℝ exactFlt n j := by
  unfold eVec
  rw [hA.zero, hA.one]
  rfl

theorem Close.wf {δ : ℝ} {t t' : Tape ℝ} (h : t.Close δ t') (hw : t.WF) : t'.WF := by
  have hl : t'.vals.length = t.vals.length := h.vals.length_eq.symm
  constructor
  · rw [h.indeps, hl]; exact hw.indeps_lt
  · rw [h.deps, hl]; exact hw.deps_lt
  · rw [h.indeps]; exact hw.indeps_nodup
  · rw [h.ops]; exact hw.arity
  · rw [h.ops, hl]; exact hw.vid_lt
  · rw [h.ops]; exact hw.args_lt
  · rw [h.ops, h.indeps]; exact hw.vid_fresh
  · rw [h.ops]; exact hw.sorted

/-- C65 for `jacobian_reverse`: a Jacobian matrix that is recorded and computed entirely in the arithmetic `A` has the same
size as the exact one, and its entries differ by at most `K u`. -/
theorem C65_jacobian_reverse (f : Func ℝ) {n : ℕ} {x : Fin n → ℝ} {w w' : World ℝ} {t : Tape ℝ} (hw : w.nextId < usizeMax)
    (ht : f.tape (List.ofFn x) w = (.ok t, w')) (hs : f.Along piecewiseSmooth w (duals x 0))
    (ha : t.AbsFree) (C : ℝ) :
    ∃ J : DMat ℝ, (∀ σ : Sched, σ.Valid → jacobianReverse σ t = .ok J) ∧
    ∃ K u₀, 0 < u₀ ∧ ∀ (A : Flt ℝ) (u : ℝ) (x' : Fin n → ℝ) (σ : Sched), Floating A u → u ≤ u₀ → (∀ j, |x j - x' j| ≤ C * u) →
      σ.Valid → ∃ t' J', (@Func.tape ℝ A f (List.ofFn x') w).1 = .ok t' ∧ @jacobianReverse ℝ A σ t' = .ok J' ∧
        J'.nrows = J.nrows ∧ J'.ncols = J.ncols ∧ ∀ i < J.nrows, ∀ j < J.ncols, |J.get i j - J'.get i j| ≤ K * u := by
  have hrec : Recorded t := .func f _ w w' hw ht
  have hwf := hrec.proper.wf
  refine ⟨DMat.ofFn t.numDeps t.numIndeps (jrEntry t), fun σ hσ => jacobianReverse_eq hσ hwf ha, ?_⟩
  have hrev : ∀ i, ∃ xbar, t.firstOrderReverse (eVec t.numDeps i) = .ok xbar ∧ xbar.length = t.numIndeps :=
    fun i => ⟨_, Tape.firstOrderReverse_eq hwf ha (by rw [eVec_length]; exact Nat.le_refl _), by simp [Tape.numIndeps]⟩
  choose xb h1 h2 using hrev
  obtain ⟨K0, u₁, q1, q2⟩ := C65_recording f hw ht hs C
  obtain ⟨K, u₀, k1, k2⟩ := common_bound (Q := fun i K u₀ => ∀ (A : Flt ℝ) (u : ℝ) (t' : Tape ℝ), Floating A u → u ≤ u₀ →
      t.Close (max K0 0 * u) t' → t.SameExponents t' → ∃ xbar', @Tape.firstOrderReverse ℝ A t' (@eVec ℝ exactFlt t.numDeps i) = .ok xbar' ∧
      Within (K * u) (xb i) xbar')
    (fun i K K' u u' hK hu h A v t' hA hv ht' hse => by
      obtain ⟨xbar', r1, r2⟩ := h A v t' hA (hv.trans hu) ht' hse
      exact ⟨xbar', r1, Within.mono (mul_le_mul_of_nonneg_right hK hA.nonneg) r2⟩)
    t.numDeps (fun i _ => by
      obtain ⟨K, u₀, r1, r2⟩ := C65_reverse hrec ha (C65_domain f hw ht hs) (h1 i) (by rw [eVec_length]) (max K0 0)
      refine ⟨K, u₀, r1, fun A u t' hA hu ht' hse => ?_⟩
      exact r2 A u t' _ hA hu ht' hse (Within.rfl_of (mul_nonneg (le_max_right _ _) hA.nonneg) _))
  refine ⟨K, min u₁ u₀, lt_min q1 k1, fun A u x' σ hA hu hx hσ => ?_⟩
  obtain ⟨t', r1, r2, r3⟩ := q2 A u x' hA (hu.trans (min_le_left _ _)) hx
  have hc : t.Close (max K0 0 * u) t' := Close.mono (mul_le_mul_of_nonneg_right (le_max_left _ _) hA.nonneg) r2
  have hm : t'.numDeps = t.numDeps := by unfold Tape.numDeps; rw [r2.deps]
  have hn : t'.numIndeps = t.numIndeps := by unfold Tape.numIndeps; rw [r2.indeps]
  have ha' : t'.AbsFree := by unfold Tape.AbsFree; rw [r2.ops]; exact ha
  refine ⟨t', _, r1, @jacobianReverse_eq ℝ A σ hσ t' (Close.wf r2 hwf) ha', hm, hn, fun i hi j hj => ?_⟩
  replace hi : i < t.numDeps := hi
  replace hj : j < t.numIndeps := hj
  obtain ⟨xbar', p1, p2⟩ := k2 i hi A u t' hA (hu.trans (min_le_right _ _)) hc r3
  have e1 : (@DMat.ofFn ℝ exactFlt t.numDeps t.numIndeps (@jrEntry ℝ exactFlt t)).get i j = (xb i).getD j 0 := by
    simp only [DMat.ofFn, hi, hj, and_self, if_true]
    unfold jrEntry
    rw [h1]
    rfl
  have e2 : (@DMat.ofFn ℝ A t'.numDeps t'.numIndeps (@jrEntry ℝ A t')).get i j = xbar'.getD j A.zero := by
    have : @Tape.firstOrderReverse ℝ A t' (@eVec ℝ A t'.numDeps i) = .ok xbar' := by rw [eVec_rounded hA, hm]; exact p1
    simp only [DMat.ofFn, hm, hn, hi, hj, and_self, if_true]
    unfold jrEntry
    rw [this]
  rw [e1, e2]
  exact Within.getD p2 (by rw [h2]; exact hj) _ _

/-- Non-vacuity: `exp (x y) / x` at `(2, 3)`. -/
example : ∃ (J : DMat ℝ) (K u₀ : ℝ) (w : World ℝ), 0 < u₀ ∧ J.nrows = 1 ∧ J.ncols = 2 ∧
    ∀ (A : Flt ℝ) (u : ℝ), Floating A u → u ≤ u₀ → ∃ t' J', (@Func.tape ℝ A expF [2, 3] w).1 = .ok t' ∧
      @jacobianReverse ℝ A Sched.seq t' = .ok J' ∧ ∀ i < 1, ∀ j < 2, |J.get i j - J'.get i j| ≤ K * u := by
  obtain ⟨w, w', h1, h2, h3, h4, h5, h6, -⟩ := expF_example
  obtain ⟨J, k1, K, u₀, k2, k3⟩ := C65_jacobian_reverse expF h1 h2 h3 h5 0
  have hJ := k1 _ Sched.seq_valid
  rw [jacobianReverse_eq Sched.seq_valid h4.proper.wf h5] at hJ
  have e1 : J.nrows = 1 := by rw [← Except.ok.inj hJ]; rfl
  have e2 : J.ncols = 2 := by rw [← Except.ok.inj hJ]; rfl
  refine ⟨J, K, u₀, w, k2, e1, e2, fun A u hA hu => ?_⟩
  obtain ⟨t', J', q1, q2, -, -, q3⟩ := k3 A u ![2, 3] _ hA hu (fun j => by simp) Sched.seq_valid
  rw [e1, e2] at q3
  exact ⟨t', J', q1, q2, q3⟩

/-- C65 for `jacobian_forward`: the matrix computed in the arithmetic `A` differs from the derivative of the function by at
most `K u`. -/
theorem C65_jacobian_forward (f : Func ℝ) {n : ℕ} {x : Fin n → ℝ} {w : World ℝ} {y : List ℝ}
    (he : (f.evalFloat (List.ofFn x) w).1 = .ok y) (hs : f.Along smooth w (duals x 0)) (hn : f.n = .ok n)
    (hm : f.m = .ok y.length) (C : ℝ) :
    ∃ (F : (Fin n → ℝ) → Fin y.length → ℝ) (L : (Fin n → ℝ) →L[ℝ] (Fin y.length → ℝ)),
      (∀ᶠ z in 𝓝 x, (f.evalFloat (List.ofFn z) w).1 = .ok (List.ofFn (F z))) ∧ HasFDerivAt F L x ∧
      ∃ K u₀, 0 < u₀ ∧ ∀ (A : Flt ℝ) (u : ℝ) (x' : Fin n → ℝ) (w' : World ℝ) (σ : Sched), Floating A u → u ≤ u₀ →
        (∀ j, |x j - x' j| ≤ C * u) → σ.Valid →
        ∃ J, @jacobianForward ℝ A σ f (List.ofFn x') w' = (.ok J, w') ∧ J.nrows = y.length ∧ J.ncols = n ∧
          ∀ (i : Fin y.length) (j : Fin n), |L (Pi.single j 1) i - J.get i j| ≤ K * u := by
  obtain ⟨F, L, h1, h2, h3⟩ := C65_derivative f he hs (max C 0)
  refine ⟨F, L, h1, h2, ?_⟩
  obtain ⟨K, u₀, k1, k2⟩ := common_bound (Q := fun j K u₀ => ∀ hj : j < n, ∀ (A : Flt ℝ) (u : ℝ) (x' : Fin n → ℝ)
      (w' : World ℝ), Floating A u → u ≤ u₀ → (∀ j, |x j - x' j| ≤ max C 0 * u) →
      ∃ ys', @Func.eval ℝ A f (duals x' (Pi.single ⟨j, hj⟩ 1)) w' = (.ok ys', w') ∧
        Within (K * u) (List.ofFn (L (Pi.single ⟨j, hj⟩ 1))) (ys'.map AFloat.dv))
    (fun j K K' u u' hK hu h hj A v x' w' hA hv hx => by
      obtain ⟨ys', r1, r2⟩ := h hj A v x' w' hA (hv.trans hu) hx
      exact ⟨ys', r1, Within.mono (mul_le_mul_of_nonneg_right hK hA.nonneg) r2⟩)
    n (fun j hj => by
      obtain ⟨K, u₀, r1, r2⟩ := h3 (Pi.single ⟨j, hj⟩ 1)
      refine ⟨K, u₀, r1, fun _ A u x' w' hA hu hx => ?_⟩
      obtain ⟨ys', p1, -, p2⟩ := r2 A u x' (Pi.single ⟨j, hj⟩ 1) w' hA hu fun k =>
        ⟨hx k, by simpa using mul_nonneg (le_max_right C 0) hA.nonneg⟩
      exact ⟨ys', p1, p2⟩)
  refine ⟨K, u₀, k1, fun A u x' w' σ hA hu hx hσ => ?_⟩
  replace hx : ∀ j, |x j - x' j| ≤ max C 0 * u := fun j =>
    (hx j).trans (mul_le_mul_of_nonneg_right (le_max_left _ _) hA.nonneg)
  have hcol : ∀ j (hj : j < n), ∃ ys' : List (ℝ × ℝ), @Func.evalD ℝ A f ((List.ofFn x').zip (@eVec ℝ A n j)) = .ok ys' ∧
      Within (K * u) (List.ofFn (L (Pi.single ⟨j, hj⟩ 1))) (ys'.map Prod.snd) := by
    intro j hj
    obtain ⟨ys', p1, p2⟩ := k2 j hj hj A u x' w' hA hu hx
    have e : duals x' (Pi.single ⟨j, hj⟩ 1) =
        ((List.ofFn x').zip (@eVec ℝ A n j)).map fun p => AFloat.new p.1 p.2 := by
      rw [eVec_rounded hA]
      apply List.ext_getElem
      · simp [duals, eVec]
      · intro k q1 q2
        simp [duals, eVec, Pi.single_apply, Fin.ext_iff]
        rfl
    rw [e, @Func.eval_new ℝ A] at p1
    have p3 := congrArg Prod.fst p1
    rcases h : @Func.evalD ℝ A f ((List.ofFn x').zip (@eVec ℝ A n j)) with e | ys
    · rw [h] at p3; cases p3
    · rw [h] at p3
      refine ⟨ys, rfl, ?_⟩
      rw [← Except.ok.inj p3, List.map_map] at p2
      exact p2
  rw [@jacobianForward_eq ℝ A σ hσ]
  have h5 : assertR (decide ((List.ofFn x').length = n)) = .ok () := by simp [assertR]
  by_cases h0 : n = 0
  · refine ⟨@DMat.zeros ℝ A y.length 0, ?_, rfl, h0.symm, fun i j => absurd j.isLt (by omega)⟩
    unfold jfPure
    simp only [hn, hm, bind_ok_eq, h5, if_pos h0]
    rfl
  · have hy : ∃ y', @Func.evalV ℝ A f (List.ofFn x') = .ok y' ∧ y'.length = y.length := by
      obtain ⟨ys', p1, p2⟩ := hcol 0 (by omega)
      have h := @Func.evalD_fst ℝ A f ((List.ofFn x').zip (@eVec ℝ A n 0))
      rw [List.map_fst_zip (by simp [eVec]), p1] at h
      refine ⟨_, h.symm, ?_⟩
      have := p2.length_eq
      simpa using this.symm
    obtain ⟨y', y1, y2⟩ := hy
    refine ⟨@DMat.ofFn ℝ A y.length n (@jfEntry ℝ A f n (List.ofFn x')), ?_, rfl, rfl, fun i j => ?_⟩
    · unfold jfPure
      simp only [hn, hm, bind_ok_eq, h5, if_neg h0, y1, if_pos y2.ge]
      rfl
    · obtain ⟨ys', p1, p2⟩ := hcol j j.isLt
      have e : (@DMat.ofFn ℝ A y.length n (@jfEntry ℝ A f n (List.ofFn x'))).get i j =
          (ys'.map Prod.snd).getD i A.zero := by
        simp only [DMat.ofFn, i.isLt, j.isLt, and_self, if_true]
        unfold jfEntry
        rw [p1]
      rw [e]
      have := Within.getD p2 (i := i) (by simp) 0 A.zero
      rwa [List.getD_eq_getElem _ _ (by simp), List.getElem_ofFn] at this

/-- Non-vacuity: `exp (x y) / x` at `(2, 3)`. -/
example (w : World ℝ) : ∃ y, (expF.evalFloat (List.ofFn ![2, 3]) w).1 = .ok y ∧ expF.n = .ok 2 ∧ expF.m = .ok y.length ∧
    expF.Along smooth w (duals ![2, 3] 0) := by
  refine ⟨[Real.exp (2 * 3) / 2], ?_, rfl, rfl, ?_⟩
  · unfold expF
    exec
    rfl
  · rw [C01_straight_line expF_straight]
    unfold expF
    refine ⟨?_, fun _ _ => trivial⟩
    eachop
    · exec
    eachop
    · exec
    eachop
    · exec
    · trivial

end Adv.Props
