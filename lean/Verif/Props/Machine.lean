import Verif.Proof.Ieee
import Verif.Props.RoundingDrivers

/-!
# Property C78: with machine numbers, results are finite and accurate

As C65, for numbers of any type `S` in place of real numbers: user code `f` over the reals has a counterpart `g` over the
numbers of the machine, which does the same operations with the same literals and branches in the same way. There may be
infinities, NaNs and signed zeros. Inside of the domains of the operations, no special values arise for small unit
roundoffs, and the errors are proportional to the unit roundoff.
-/

set_option linter.unusedSectionVars false

namespace Adv.Props
open Adv Filter Topology
open scoped Adv

/-- C78, evaluation: values and derivatives are finite, with errors of at most `K u`. `K` and `u₀` depend neither on the
machine nor on the numbers. -/
theorem C78_evaluation (f : Func ℝ) {n : ℕ} {x : Fin n → ℝ} (dx : Fin n → ℝ) {w : World ℝ} {ys : List (AFloat ℝ)}
    (he : (f.eval (duals x dx) w).1 = .ok ys) (hs : f.Along piecewiseSmooth w (duals x 0)) (C : ℝ) :
    ∃ K u₀, 0 < u₀ ∧ ∀ (S : Type) (val : S → Option ℝ) (A : Flt S) (u : ℝ) (g : Func S) (x' dx' : Fin n → S) (w' : World S),
      Machine val A u → u ≤ u₀ → f.Same val g →
      (∀ j, WithinM val (C * u) (x j) (x' j) ∧ WithinM val (C * u) (dx j) (dx' j)) →
      ∃ ys', @Func.eval S A g (List.ofFn fun j => AFloat.new (x' j) (dx' j)) w' = (.ok ys', w') ∧
        List.Forall₂ (fun y y' => WithinM val (K * u) y.v y'.v ∧ WithinM val (K * u) y.dv y'.dv) ys ys' := by
  obtain ⟨K, u₀, -, h2, h3⟩ := eval_machine dx hs C
  refine ⟨K, u₀, h2, fun S val A u g x' dx' w' hA hu hg hx => ?_⟩
  have hzip : duals x dx = (List.ofFn fun j => (x j, dx j)).map fun p => AFloat.new p.1 p.2 := by
    rw [List.map_ofFn]; rfl
  have hzip' : (List.ofFn fun j => AFloat.new (x' j) (dx' j)) =
      (List.ofFn fun j => (x' j, dx' j)).map fun p => AFloat.new p.1 p.2 := by
    rw [List.map_ofFn]; rfl
  have h4 := h3 S val A u g x' dx' hA hu hg hx
  rw [hzip, @Func.eval_new ℝ exactFlt] at he
  rcases hd : @Func.evalD ℝ exactFlt f (List.ofFn fun j => (x j, dx j)) with e | zs
  · rw [hd] at he; cases he
  rw [hd] at he h4
  injection he with he
  obtain ⟨zs', k1, k2⟩ := h4.ok_left
  refine ⟨zs'.map fun p => AFloat.new p.1 p.2, ?_, ?_⟩
  · rw [hzip', @Func.eval_new S A, k1]; rfl
  · subst he
    rw [List.forall₂_map_left_iff, List.forall₂_map_right_iff]
    exact k2

/-- C78 for derivatives: the computed derivative of a function that is smooth at `x` is finite and differs by at most `K u`
from the directional derivative. -/
theorem C78_derivative (f : Func ℝ) {n : ℕ} {x : Fin n → ℝ} {w : World ℝ} {y : List ℝ}
    (he : (f.evalFloat (List.ofFn x) w).1 = .ok y) (hs : f.Along smooth w (duals x 0)) (C : ℝ) :
    ∃ (F : (Fin n → ℝ) → Fin y.length → ℝ) (L : (Fin n → ℝ) →L[ℝ] (Fin y.length → ℝ)),
      (∀ᶠ z in 𝓝 x, (f.evalFloat (List.ofFn z) w).1 = .ok (List.ofFn (F z))) ∧ HasFDerivAt F L x ∧
      ∀ dx, ∃ K u₀, 0 < u₀ ∧ ∀ (S : Type) (val : S → Option ℝ) (A : Flt S) (u : ℝ) (g : Func S) (x' dx' : Fin n → S)
        (w' : World S), Machine val A u → u ≤ u₀ → f.Same val g →
        (∀ j, WithinM val (C * u) (x j) (x' j) ∧ WithinM val (C * u) (dx j) (dx' j)) →
        ∃ ys', @Func.eval S A g (List.ofFn fun j => AFloat.new (x' j) (dx' j)) w' = (.ok ys', w') ∧
          List.Forall₂ (WithinM val (K * u)) (List.ofFn (F x)) (ys'.map AFloat.v) ∧
          List.Forall₂ (WithinM val (K * u)) (List.ofFn (L dx)) (ys'.map AFloat.dv) := by
  obtain ⟨F, L, h1, h2, h3⟩ := C01_smooth f he hs
  refine ⟨F, L, h1, h2, fun dx => ?_⟩
  obtain ⟨ys, k1, k2, k3⟩ := h3 dx
  have hs' : f.Along piecewiseSmooth w (duals x 0) := alongProgs.mono (fun o arg a b h => h.1) hs
  obtain ⟨K, u₀, q1, q2⟩ := C78_evaluation f dx (by rw [k1]) hs' C
  refine ⟨K, u₀, q1, fun S val A u g x' dx' w' hA hu hg hx => ?_⟩
  obtain ⟨ys', r1, r2⟩ := q2 S val A u g x' dx' w' hA hu hg hx
  refine ⟨ys', r1, ?_, ?_⟩
  · rw [← k2, List.forall₂_map_left_iff, List.forall₂_map_right_iff]
    exact r2.imp fun _ _ h => h.1
  · rw [← k3, List.forall₂_map_left_iff, List.forall₂_map_right_iff]
    exact r2.imp fun _ _ h => h.2

/-! ## Recordings and sweeps -/

/-- C78, recording: the tape has the same independents, dependents and operations as the exact one; its values are finite,
and their errors are at most `K u`; powers with a base that is not positive have the exact exponents. -/
theorem C78_recording (f : Func ℝ) {n : ℕ} {x : Fin n → ℝ} {w w' : World ℝ} {t : Tape ℝ} (hw : w.nextId < usizeMax)
    (ht : f.tape (List.ofFn x) w = (.ok t, w')) (hs : f.Along piecewiseSmooth w (duals x 0)) (C : ℝ) :
    ∃ K u₀, 0 < u₀ ∧ ∀ (S : Type) (val : S → Option ℝ) (A : Flt S) (u : ℝ) (g : Func S) (x' : Fin n → S) (v : World S),
      Machine val A u → u ≤ u₀ → f.Same val g → (∀ j, WithinM val (C * u) (x j) (x' j)) → v.nextId < usizeMax →
      ∃ t', (@Func.tape S A g (List.ofFn x') v).1 = .ok t' ∧ t.CloseM val (K * u) t' ∧ t.SameExponentsM val t' := by
  obtain ⟨K, u₀, -, h2, h3⟩ := tape_machine hs C
  refine ⟨K, u₀, h2, fun S val A u g x' v hA hu hg hx hv => ?_⟩
  have h4 := h3 S val A u g x' w v hA hu hg hx hw hv
  rw [ht] at h4
  obtain ⟨t', k1, k2, k3⟩ := h4.ok_left
  refine ⟨t', k1, ⟨k2.indeps, k2.deps, k2.ops, ?_, k2.vals⟩, k3.exponents⟩
  have s1 := (@Func.tape_spec ℝ exactFlt f (List.ofFn x) w hw).2
  have s2 := (@Func.tape_spec S A g (List.ofFn x') v hv).2
  rw [ht] at s1
  rw [k1] at s2
  obtain ⟨_, -, s1⟩ := s1.ok_left
  obtain ⟨_, -, s2⟩ := s2.ok_left
  exact (@TapeOf.mutable S A _ _ _ s2).trans (@TapeOf.mutable ℝ exactFlt _ _ _ s1).symm

/-- C78, `zero_order`: replaying a tape. The operations are inside of their domains at the new point, and powers with a base
that is not positive there have the exact exponents. -/
theorem C78_replay {t t₁ : Tape ℝ} (h : Recorded t) {x : List ℝ} (hz : t.zeroOrder x = .ok t₁) (hd : t₁.InDomain) (C : ℝ) :
    ∃ K u₀, 0 < u₀ ∧ ∀ (S : Type) (val : S → Option ℝ) (A : Flt S) (u : ℝ) (t' : Tape S) (x' : List S), Machine val A u →
      u ≤ u₀ → t.CloseM val (C * u) t' → t₁.SameExponentsM val t' → List.Forall₂ (WithinM val (C * u)) x x' →
      ∃ t₁', @Tape.zeroOrder S A t' x' = .ok t₁' ∧ t₁.CloseM val (K * u) t₁' ∧ t₁.SameExponentsM val t₁' := by
  have hmut := h.proper.mutable
  obtain ⟨K, u₀, -, h2, h3⟩ := replay_machine h.proper.wf hmut hz hd C
  refine ⟨K, u₀, h2, fun S val A u t' x' hA hu ht hse hx => ?_⟩
  obtain ⟨t₁', k1, k2, k3, k4⟩ := h3 S val A u (t', x') hA hu
    ⟨⟨⟨ht.indeps, ht.deps, ht.ops, ht.vals⟩, ht.mutable.trans hmut, hse⟩, hx⟩
  refine ⟨t₁', k1, ⟨k2.indeps, k2.deps, k2.ops, ?_, k2.vals⟩, k4⟩
  rw [k3]
  have hx0 : x.length = t.indeps.length := by
    by_contra hne
    simp [Tape.zeroOrder, Tape.numIndeps, assertR, hne] at hz
    cases hz
  obtain ⟨v, e, -⟩ := @Tape.zeroOrder_eq ℝ exactFlt t h.proper.wf x hx0 hmut
  rw [e] at hz
  injection hz with hz
  rw [← hz]
  exact hmut.symm

/-- C78, `first_order_forward`. -/
theorem C78_forward {t : Tape ℝ} (h : Recorded t) (hd : t.InDomain) {dx dy : List ℝ}
    (he : t.firstOrderForward dx = .ok dy) (hx : dx.length = t.numIndeps) (C : ℝ) :
    ∃ K u₀, 0 < u₀ ∧ ∀ (S : Type) (val : S → Option ℝ) (A : Flt S) (u : ℝ) (t' : Tape S) (dx' : List S), Machine val A u →
      u ≤ u₀ → t.CloseM val (C * u) t' → t.SameExponentsM val t' → List.Forall₂ (WithinM val (C * u)) dx dx' →
      ∃ dy', @Tape.firstOrderForward S A t' dx' = .ok dy' ∧ List.Forall₂ (WithinM val (K * u)) dy dy' := by
  obtain ⟨K, u₀, -, h2, h3⟩ := forward_machine h.proper.wf hd hx C
  refine ⟨K, u₀, h2, fun S val A u t' dx' hA hu ht hse hx => ?_⟩
  obtain ⟨y, y', k1, k2, k3⟩ := h3 S val A u (t', dx') hA hu ⟨⟨⟨ht.indeps, ht.deps, ht.ops, ht.vals⟩, hse⟩, hx⟩
  rw [he] at k1
  injection k1 with k1
  subst k1
  exact ⟨y', k2, k3⟩

/-- C78, `first_order_reverse`. -/
theorem C78_reverse {t : Tape ℝ} (h : Recorded t) (ha : t.AbsFree) (hd : t.InDomain) {ybar xbar : List ℝ}
    (he : t.firstOrderReverse ybar = .ok xbar) (hy : ybar.length = t.numDeps) (C : ℝ) :
    ∃ K u₀, 0 < u₀ ∧ ∀ (S : Type) (val : S → Option ℝ) (A : Flt S) (u : ℝ) (t' : Tape S) (ybar' : List S), Machine val A u →
      u ≤ u₀ → t.CloseM val (C * u) t' → t.SameExponentsM val t' → List.Forall₂ (WithinM val (C * u)) ybar ybar' →
      ∃ xbar', @Tape.firstOrderReverse S A t' ybar' = .ok xbar' ∧ List.Forall₂ (WithinM val (K * u)) xbar xbar' := by
  obtain ⟨K, u₀, -, h2, h3⟩ := reverse_machine h.proper.wf ha hd hy C
  refine ⟨K, u₀, h2, fun S val A u t' dx' hA hu ht hse hx => ?_⟩
  obtain ⟨y, y', k1, k2, k3⟩ := h3 S val A u (t', dx') hA hu ⟨⟨⟨ht.indeps, ht.deps, ht.ops, ht.vals⟩, hse⟩, hx⟩
  rw [he] at k1
  injection k1 with k1
  subst k1
  exact ⟨y', k2, k3⟩

theorem WithinM.monos {S : Type} {val : S → Option ℝ} {δ ε : ℝ} (h : δ ≤ ε) {xs : List ℝ} {ys : List S}
    (hw : List.Forall₂ (WithinM val δ) xs ys) : List.Forall₂ (WithinM val ε) xs ys := hw.imp fun _ _ h1 => h1.mono h

theorem CloseM.mono {S : Type} {val : S → Option ℝ} {δ ε : ℝ} (h : δ ≤ ε) {t : Tape ℝ} {t' : Tape S}
    (hc : t.CloseM val δ t') : t.CloseM val ε t' :=
  ⟨hc.indeps, hc.deps, hc.ops, hc.mutable, WithinM.monos h hc.vals⟩

/-- C78, recording and reverse sweep together: adjoints that are computed entirely by the machine. -/
theorem C78_adjoint (f : Func ℝ) {n : ℕ} {x : Fin n → ℝ} {w w' : World ℝ} {t : Tape ℝ} (hw : w.nextId < usizeMax)
    (ht : f.tape (List.ofFn x) w = (.ok t, w')) (hs : f.Along piecewiseSmooth w (duals x 0))
    (ha : t.AbsFree) {ybar xbar : List ℝ}
    (he : t.firstOrderReverse ybar = .ok xbar) (hy : ybar.length = t.numDeps) (C : ℝ) :
    ∃ K u₀, 0 < u₀ ∧ ∀ (S : Type) (val : S → Option ℝ) (A : Flt S) (u : ℝ) (g : Func S) (x' : Fin n → S) (ybar' : List S)
      (v : World S), Machine val A u → u ≤ u₀ → f.Same val g → (∀ j, WithinM val (C * u) (x j) (x' j)) →
      List.Forall₂ (WithinM val (C * u)) ybar ybar' → v.nextId < usizeMax →
      ∃ t' xbar', (@Func.tape S A g (List.ofFn x') v).1 = .ok t' ∧ @Tape.firstOrderReverse S A t' ybar' = .ok xbar' ∧
        List.Forall₂ (WithinM val (K * u)) xbar xbar' := by
  obtain ⟨K1, u₁, h1, h2⟩ := C78_recording f hw ht hs C
  obtain ⟨K2, u₂, k1, k2⟩ := C78_reverse (.func f _ w w' hw ht) ha (C65_domain f hw ht hs) he hy (max K1 C)
  refine ⟨K2, min u₁ u₂, lt_min h1 k1, fun S val A u g x' ybar' v hA hu hg hx hyb hv => ?_⟩
  obtain ⟨t', q1, q2, q5⟩ := h2 S val A u g x' v hA (hu.trans (min_le_left _ _)) hg hx hv
  obtain ⟨xbar', q3, q4⟩ := k2 S val A u t' ybar' hA (hu.trans (min_le_right _ _))
    (CloseM.mono (mul_le_mul_of_nonneg_right (le_max_left _ _) hA.nonneg) q2) q5
    (WithinM.monos (mul_le_mul_of_nonneg_right (le_max_right _ _) hA.nonneg) hyb)
  exact ⟨t', xbar', q1, q3, q4⟩

/-! ## Jacobian matrices -/

theorem eVec_machine {S : Type} {val : S → Option ℝ} {A : Flt S} {u δ : ℝ} (hA : Machine val A u) (h0 : 0 ≤ δ) (n j : ℕ) :
    List.Forall₂ (WithinM val δ) (@eVec ℝ exactFlt n j) (@eVec S A n j) := by
  unfold eVec
  rw [List.forall₂_map_left_iff, List.forall₂_map_right_iff, List.forall₂_same]
  intro k _
  by_cases hk : k = j
  · simp only [hk, if_true]; exact ⟨1, hA.one, by show |(1 : ℝ) - 1| ≤ δ; simpa using h0⟩
  · simp only [hk]; exact withinM_zero hA h0

theorem WithinM.getD {S : Type} {val : S → Option ℝ} {δ : ℝ} {xs : List ℝ} {ys : List S}
    (h : List.Forall₂ (WithinM val δ) xs ys) {i : ℕ} (hi : i < xs.length) (d : ℝ) (d' : S) :
    WithinM val δ (xs.getD i d) (ys.getD i d') := by
  have hl := h.length_eq
  rw [List.getD_eq_getElem _ _ hi, List.getD_eq_getElem _ _ (hl ▸ hi)]
  exact h.get hi (hl ▸ hi)

/-- C78 for `jacobian_reverse`: a Jacobian matrix that is recorded and computed entirely by the machine has the same size as
the exact one, its entries are finite, and their errors are at most `K u`. -/
theorem C78_jacobian_reverse (f : Func ℝ) {n : ℕ} {x : Fin n → ℝ} {w w' : World ℝ} {t : Tape ℝ} (hw : w.nextId < usizeMax)
    (ht : f.tape (List.ofFn x) w = (.ok t, w')) (hs : f.Along piecewiseSmooth w (duals x 0))
    (ha : t.AbsFree) (C : ℝ) :
    ∃ J : DMat ℝ, (∀ σ : Sched, σ.Valid → jacobianReverse σ t = .ok J) ∧
    ∃ K u₀, 0 < u₀ ∧ ∀ (S : Type) (val : S → Option ℝ) (A : Flt S) (u : ℝ) (g : Func S) (x' : Fin n → S) (v : World S)
      (σ : Sched), Machine val A u → u ≤ u₀ → f.Same val g → (∀ j, WithinM val (C * u) (x j) (x' j)) →
      v.nextId < usizeMax → σ.Valid →
      ∃ t' J', (@Func.tape S A g (List.ofFn x') v).1 = .ok t' ∧ @jacobianReverse S A σ t' = .ok J' ∧
        J'.nrows = J.nrows ∧ J'.ncols = J.ncols ∧ ∀ i < J.nrows, ∀ j < J.ncols, WithinM val (K * u) (J.get i j) (J'.get i j) := by
  have hrec : Recorded t := .func f _ w w' hw ht
  have hwf := hrec.proper.wf
  refine ⟨DMat.ofFn t.numDeps t.numIndeps (jrEntry t), fun σ hσ => jacobianReverse_eq hσ hwf ha, ?_⟩
  have hrev : ∀ i, ∃ xbar, t.firstOrderReverse (eVec t.numDeps i) = .ok xbar ∧ xbar.length = t.numIndeps :=
    fun i => ⟨_, Tape.firstOrderReverse_eq hwf ha (by rw [eVec_length]; exact Nat.le_refl _), by simp [Tape.numIndeps]⟩
  choose xb h1 h2 using hrev
  obtain ⟨K0, u₁, q1, q2⟩ := C78_recording f hw ht hs C
  obtain ⟨K, u₀, k1, k2⟩ := common_bound (Q := fun i K u₀ => ∀ (S : Type) (val : S → Option ℝ) (A : Flt S) (u : ℝ) (t' : Tape S),
      Machine val A u → u ≤ u₀ →
      t.CloseM val (max K0 0 * u) t' → t.SameExponentsM val t' → ∃ xbar', @Tape.firstOrderReverse S A t' (@eVec S A t.numDeps i) = .ok xbar' ∧
      List.Forall₂ (WithinM val (K * u)) (xb i) xbar')
    (fun i K K' u u' hK hu h S val A v t' hA hv ht' hse => by
      obtain ⟨xbar', r1, r2⟩ := h S val A v t' hA (hv.trans hu) ht' hse
      exact ⟨xbar', r1, WithinM.monos (mul_le_mul_of_nonneg_right hK hA.nonneg) r2⟩)
    t.numDeps (fun i _ => by
      obtain ⟨K, u₀, r1, r2⟩ := C78_reverse hrec ha (C65_domain f hw ht hs) (h1 i) (by rw [eVec_length]) (max K0 0)
      refine ⟨K, u₀, r1, fun S val A u t' hA hu ht' hse => ?_⟩
      exact r2 S val A u t' _ hA hu ht' hse (eVec_machine hA (mul_nonneg (le_max_right _ _) hA.nonneg) _ _))
  refine ⟨K, min u₁ u₀, lt_min q1 k1, fun S val A u g x' v σ hA hu hg hx hv hσ => ?_⟩
  obtain ⟨t', r1, r2, r3⟩ := q2 S val A u g x' v hA (hu.trans (min_le_left _ _)) hg hx hv
  have hc : t.CloseM val (max K0 0 * u) t' := CloseM.mono (mul_le_mul_of_nonneg_right (le_max_left _ _) hA.nonneg) r2
  have hm : t'.numDeps = t.numDeps := by unfold Tape.numDeps; rw [r2.deps]
  have hn : t'.numIndeps = t.numIndeps := by unfold Tape.numIndeps; rw [r2.indeps]
  have ha' : t'.AbsFree := by unfold Tape.AbsFree; rw [r2.ops]; exact ha
  have hwf' : t'.WF := RelT.wf (Q := WithinM val (K0 * u)) ⟨r2.indeps, r2.deps, r2.ops, r2.vals⟩ hwf
  refine ⟨t', _, r1, @jacobianReverse_eq S A σ hσ t' hwf' ha', hm, hn, fun i hi j hj => ?_⟩
  replace hi : i < t.numDeps := hi
  replace hj : j < t.numIndeps := hj
  obtain ⟨xbar', p1, p2⟩ := k2 i hi S val A u t' hA (hu.trans (min_le_right _ _)) hc r3
  have e1 : (@DMat.ofFn ℝ exactFlt t.numDeps t.numIndeps (@jrEntry ℝ exactFlt t)).get i j = (xb i).getD j 0 := by
    simp only [DMat.ofFn, hi, hj, and_self, if_true]
    unfold jrEntry
    rw [h1]
    rfl
  have e2 : (@DMat.ofFn S A t'.numDeps t'.numIndeps (@jrEntry S A t')).get i j = xbar'.getD j A.zero := by
    have : @Tape.firstOrderReverse S A t' (@eVec S A t'.numDeps i) = .ok xbar' := by rw [hm]; exact p1
    simp only [DMat.ofFn, hm, hn, hi, hj, and_self, if_true]
    unfold jrEntry
    rw [this]
  rw [e1, e2]
  exact WithinM.getD p2 (by rw [h2]; exact hj) _ _

/-- C78 for `jacobian_forward`: the entries of the computed matrix are finite and differ from the derivative of the
function by at most `K u`. -/
theorem C78_jacobian_forward (f : Func ℝ) {n : ℕ} {x : Fin n → ℝ} {w : World ℝ} {y : List ℝ}
    (he : (f.evalFloat (List.ofFn x) w).1 = .ok y) (hs : f.Along smooth w (duals x 0)) (hn : f.n = .ok n)
    (hm : f.m = .ok y.length) (C : ℝ) :
    ∃ (F : (Fin n → ℝ) → Fin y.length → ℝ) (L : (Fin n → ℝ) →L[ℝ] (Fin y.length → ℝ)),
      (∀ᶠ z in 𝓝 x, (f.evalFloat (List.ofFn z) w).1 = .ok (List.ofFn (F z))) ∧ HasFDerivAt F L x ∧
      ∃ K u₀, 0 < u₀ ∧ ∀ (S : Type) (val : S → Option ℝ) (A : Flt S) (u : ℝ) (g : Func S) (x' : Fin n → S) (w' : World S)
        (σ : Sched), Machine val A u → u ≤ u₀ → f.Same val g → (∀ j, WithinM val (C * u) (x j) (x' j)) → σ.Valid →
        ∃ J, @jacobianForward S A σ g (List.ofFn x') w' = (.ok J, w') ∧ J.nrows = y.length ∧ J.ncols = n ∧
          ∀ (i : Fin y.length) (j : Fin n), WithinM val (K * u) (L (Pi.single j 1) i) (J.get i j) := by
  obtain ⟨F, L, h1, h2, h3⟩ := C78_derivative f he hs (max C 0)
  refine ⟨F, L, h1, h2, ?_⟩
  obtain ⟨K, u₀, k1, k2⟩ := common_bound (Q := fun j K u₀ => ∀ hj : j < n, ∀ (S : Type) (val : S → Option ℝ) (A : Flt S)
      (u : ℝ) (g : Func S) (x' : Fin n → S) (w' : World S), Machine val A u → u ≤ u₀ → f.Same val g →
      (∀ j, WithinM val (max C 0 * u) (x j) (x' j)) →
      ∃ ys', @Func.eval S A g (List.ofFn fun k => AFloat.new (x' k) (if k.1 = j then A.one else A.zero)) w' = (.ok ys', w') ∧
        List.Forall₂ (WithinM val (K * u)) (List.ofFn (L (Pi.single ⟨j, hj⟩ 1))) (ys'.map AFloat.dv))
    (fun j K K' u u' hK hu h hj S val A v g x' w' hA hv hg hx => by
      obtain ⟨ys', r1, r2⟩ := h hj S val A v g x' w' hA (hv.trans hu) hg hx
      exact ⟨ys', r1, WithinM.monos (mul_le_mul_of_nonneg_right hK hA.nonneg) r2⟩)
    n (fun j hj => by
      obtain ⟨K, u₀, r1, r2⟩ := h3 (Pi.single ⟨j, hj⟩ 1)
      refine ⟨K, u₀, r1, fun _ S val A u g x' w' hA hu hg hx => ?_⟩
      have h0 : 0 ≤ max C 0 * u := mul_nonneg (le_max_right C 0) hA.nonneg
      obtain ⟨ys', p1, -, p2⟩ := r2 S val A u g x' (fun k => if k.1 = j then A.one else A.zero) w' hA hu hg fun k => by
        refine ⟨hx k, ?_⟩
        by_cases hk : k.1 = j
        · have : k = ⟨j, hj⟩ := Fin.ext hk
          subst this
          rw [Pi.single_eq_same, if_pos rfl]
          exact ⟨1, hA.one, by simpa using h0⟩
        · rw [Pi.single_eq_of_ne (fun e => hk (congrArg Fin.val e)), if_neg hk]
          exact withinM_zero hA h0
      exact ⟨ys', p1, p2⟩)
  refine ⟨K, u₀, k1, fun S val A u g x' w' σ hA hu hg hx hσ => ?_⟩
  replace hx : ∀ j, WithinM val (max C 0 * u) (x j) (x' j) := fun j =>
    (hx j).mono (mul_le_mul_of_nonneg_right (le_max_left _ _) hA.nonneg)
  rw [← hg.n_eq] at hn
  rw [← hg.m_eq] at hm
  have hcol : ∀ j (hj : j < n), ∃ ys' : List (S × S), @Func.evalD S A g ((List.ofFn x').zip (@eVec S A n j)) = .ok ys' ∧
      List.Forall₂ (WithinM val (K * u)) (List.ofFn (L (Pi.single ⟨j, hj⟩ 1))) (ys'.map Prod.snd) := by
    intro j hj
    obtain ⟨ys', p1, p2⟩ := k2 j hj hj S val A u g x' w' hA hu hg hx
    have e : (List.ofFn fun k => AFloat.new (x' k) (if k.1 = j then A.one else A.zero)) =
        ((List.ofFn x').zip (@eVec S A n j)).map fun p => AFloat.new p.1 p.2 := by
      apply List.ext_getElem
      · simp [eVec]
      · intro k q1 q2
        simp [eVec]
    rw [e, @Func.eval_new S A] at p1
    have p3 := congrArg Prod.fst p1
    rcases h : @Func.evalD S A g ((List.ofFn x').zip (@eVec S A n j)) with e | ys
    · rw [h] at p3; cases p3
    · rw [h] at p3
      refine ⟨ys, rfl, ?_⟩
      rw [← Except.ok.inj p3, List.map_map] at p2
      exact p2
  rw [@jacobianForward_eq S A σ hσ]
  have h5 : assertR (decide ((List.ofFn x').length = n)) = .ok () := by simp [assertR]
  by_cases h0 : n = 0
  · refine ⟨@DMat.zeros S A y.length 0, ?_, rfl, h0.symm, fun i j => absurd j.isLt (by omega)⟩
    unfold jfPure
    simp only [hn, hm, bind_ok_eq, h5, if_pos h0]
    rfl
  · have hy : ∃ y', @Func.evalV S A g (List.ofFn x') = .ok y' ∧ y'.length = y.length := by
      obtain ⟨ys', p1, p2⟩ := hcol 0 (by omega)
      have h := @Func.evalD_fst S A g ((List.ofFn x').zip (@eVec S A n 0))
      rw [List.map_fst_zip (by simp [eVec]), p1] at h
      refine ⟨_, h.symm, ?_⟩
      have := p2.length_eq
      simpa using this.symm
    obtain ⟨y', y1, y2⟩ := hy
    refine ⟨@DMat.ofFn S A y.length n (@jfEntry S A g n (List.ofFn x')), ?_, rfl, rfl, fun i j => ?_⟩
    · unfold jfPure
      simp only [hn, hm, bind_ok_eq, h5, if_neg h0, y1, if_pos y2.ge]
      rfl
    · obtain ⟨ys', p1, p2⟩ := hcol j j.isLt
      have e : (@DMat.ofFn S A y.length n (@jfEntry S A g n (List.ofFn x'))).get i j =
          (ys'.map Prod.snd).getD i A.zero := by
        simp only [DMat.ofFn, i.isLt, j.isLt, and_self, if_true]
        unfold jfEntry
        rw [p1]
      rw [e]
      have := WithinM.getD p2 (i := i) (by simp) 0 A.zero
      rwa [List.getD_eq_getElem _ _ (by simp), List.getElem_ofFn] at this

/-! ## IEEE 754 -/

/-- C78: double and single precision, with infinities, NaN and signed zeros, are machine arithmetics. -/
theorem C78_ieee_is_machine : Machine Ieee.val Ieee.f64 ((2 : ℝ)⁻¹ ^ 53) ∧ Machine Ieee.val Ieee.f32 ((2 : ℝ)⁻¹ ^ 24) :=
  ⟨Ieee.flt_machine (by norm_num) (by norm_num) (by norm_num), Ieee.flt_machine (by norm_num) (by norm_num) (by norm_num)⟩

/-- C78 for IEEE 754 formats: with rounded inputs, no infinities or NaNs arise, and the errors are at most `K 2⁻ᵖ`. -/
theorem C78_ieee (f : Func ℝ) (g : Func Ieee) (hg : f.Same Ieee.val g) {n : ℕ} {x : Fin n → ℝ} (dx : Fin n → ℝ)
    {w : World ℝ} {ys : List (AFloat ℝ)} (he : (f.eval (duals x dx) w).1 = .ok ys)
    (hs : f.Along piecewiseSmooth w (duals x 0)) :
    ∃ (K : ℝ) (p₀ : ℕ), ∀ p ≥ p₀, ∀ (emin emax : ℤ) (w' : World Ieee), emin ≤ -p → p + 1 < emax →
      ∃ ys', @Func.eval Ieee (Ieee.flt p emin emax) g (List.ofFn fun j =>
          AFloat.new (Ieee.rd p emin emax false (x j)) (Ieee.rd p emin emax false (dx j))) w' = (.ok ys', w') ∧
        List.Forall₂ (fun y y' => WithinM Ieee.val (K * 2⁻¹ ^ p) y.v y'.v ∧ WithinM Ieee.val (K * 2⁻¹ ^ p) y.dv y'.dv) ys ys' := by
  obtain ⟨C, hC⟩ : ∃ C : ℝ, ∀ j, |x j| ≤ C ∧ |dx j| ≤ C :=
    ⟨‖x‖ + ‖dx‖, fun j => ⟨(norm_le_pi_norm x j).trans (le_add_of_nonneg_right (norm_nonneg _)),
      (norm_le_pi_norm dx j).trans (le_add_of_nonneg_left (norm_nonneg _))⟩⟩
  obtain ⟨K, u₀, h1, h2⟩ := C78_evaluation f dx he hs (C + 1)
  have h3 : Tendsto (fun p : ℕ => (2 : ℝ)⁻¹ ^ p) atTop (𝓝 0) := tendsto_pow_atTop_nhds_zero_of_lt_one (by norm_num) (by norm_num)
  have h4 : Tendsto (fun p : ℕ => C * (2 : ℝ)⁻¹ ^ p) atTop (𝓝 0) := by simpa using h3.const_mul C
  obtain ⟨p₀, hp⟩ := eventually_atTop.mp ((h3.eventually (ge_mem_nhds h1)).and (h4.eventually (ge_mem_nhds one_pos)))
  refine ⟨K, max p₀ 1, fun p hpp emin emax w' hmin hmax => ?_⟩
  have hin : ∀ a : ℝ, |a| ≤ C → WithinM Ieee.val ((C + 1) * 2⁻¹ ^ p) a (Ieee.rd p emin emax false a) := by
    intro a ha
    obtain ⟨z, k1, k2⟩ := Ieee.rd_computes hmin hmax false a
      ((mul_le_mul_of_nonneg_right ha (by positivity)).trans (hp p (le_of_max_le_left hpp)).2)
    refine ⟨z, k1, ?_⟩
    rw [abs_sub_comm, mul_comm]
    exact k2.trans (mul_le_mul_of_nonneg_left (by linarith) (by positivity))
  exact h2 Ieee Ieee.val _ _ g _ _ w' (Ieee.flt_machine (le_of_max_le_right hpp) hmin hmax) (hp p (le_of_max_le_left hpp)).1
    hg fun j => ⟨hin _ (hC j).1, hin _ (hC j).2⟩

/-- `exp (x y) / x` for any numbers. -/
def expFS (S : Type) : Func S := Func.advFn 2 1 fun _ =>
  (.op .Mul (.var 0) (some (.var 1)) fun i _ =>
   .op .Exp (.var i) none fun j _ =>
   .op .Div (.var j) (some (.var 0)) fun k _ => .ret [.var k])

theorem expFS_same {S : Type} (val : S → Option ℝ) : expF.Same val (expFS S) :=
  Func.Same.advFn 2 1 fun _ _ _ => .op _ (.var _) (.some (.var _)) fun _ _ _ _ => .op _ (.var _) .none fun _ _ _ _ =>
    .op _ (.var _) (.some (.var _)) fun _ _ _ _ => .ret (.cons (.var _) .nil)

/-- Non-vacuity of the theorems: the Jacobian matrix of `exp (x y) / x` at `(2, 3)`, on any machine. -/
example : ∃ (J : DMat ℝ) (K u₀ : ℝ), 0 < u₀ ∧ J.nrows = 1 ∧ J.ncols = 2 ∧
    ∀ (S : Type) (val : S → Option ℝ) (A : Flt S) (u : ℝ) (a b : S) (v : World S), Machine val A u → u ≤ u₀ →
      val a = some 2 → val b = some 3 → v.nextId < usizeMax → ∃ t' J', (@Func.tape S A (expFS S) [a, b] v).1 = .ok t' ∧
      @jacobianReverse S A Sched.seq t' = .ok J' ∧ ∀ i < 1, ∀ j < 2, WithinM val (K * u) (J.get i j) (J'.get i j) := by
  obtain ⟨w, w', h1, h2, h3, h4, h5, h6, -⟩ := expF_example
  obtain ⟨J, k1, K, u₀, k2, k3⟩ := C78_jacobian_reverse expF h1 h2 h3 h5 0
  have hJ := k1 _ Sched.seq_valid
  rw [jacobianReverse_eq Sched.seq_valid h4.proper.wf h5] at hJ
  have e1 : J.nrows = 1 := by rw [← Except.ok.inj hJ]; rfl
  have e2 : J.ncols = 2 := by rw [← Except.ok.inj hJ]; rfl
  refine ⟨J, K, u₀, k2, e1, e2, fun S val A u a b v hA hu ha hb hv => ?_⟩
  obtain ⟨t', J', q1, q2, -, -, q3⟩ := k3 S val A u (expFS S) ![a, b] v _ hA hu (expFS_same val) (fun j => by
    fin_cases j
    · exact ⟨2, ha, by simp⟩
    · exact ⟨3, hb, by simp⟩) hv Sched.seq_valid
  rw [e1, e2] at q3
  exact ⟨t', J', q1, q2, q3⟩

/-- Code with a branch and literals: `x ↦ if x < 1 { x * 2 } else { x * x }`. -/
noncomputable def litBranchR : Func ℝ := Func.advFn 1 1 fun xs =>
  if Flt.lt (xs.headD Flt.zero) (Flt.one : ℝ) then .op .Mul (.var 0) (some (.lit 2)) fun i _ => .ret [.var i]
  else .op .Mul (.var 0) (some (.var 0)) fun i _ => .ret [.var i]

/-- The same code for IEEE numbers. -/
noncomputable def litBranchI : Func Ieee := Func.advFn 1 1 fun xs =>
  if Ieee.f64.lt (xs.headD Ieee.f64.zero) Ieee.f64.one then .op .Mul (.var 0) (some (.lit (.num false 2))) fun i _ => .ret [.var i]
  else .op .Mul (.var 0) (some (.var 0)) fun i _ => .ret [.var i]

/-- Non-vacuity: the same code with literals and branches. -/
example : litBranchR.Same Ieee.val litBranchI := by
  refine Func.Same.advFn 1 1 fun xs xs' h => ?_
  have e : Ieee.f64.lt (xs'.headD Ieee.f64.zero) Ieee.f64.one = Flt.lt (xs.headD Flt.zero) (Flt.one : ℝ) := by
    cases h with
    | nil => rfl
    | @cons x s _ _ hx _ =>
      rcases s with _ | _ | ⟨s, y⟩
      · cases hx
      · cases hx
      · injection hx with hx; subst hx; rfl
  simp only [e]
  split
  · exact .op _ (.var _) (.some (.lit rfl)) fun _ _ _ _ => .ret (.cons (.var _) .nil)
  · exact .op _ (.var _) (.some (.var _)) fun _ _ _ _ => .ret (.cons (.var _) .nil)

/-- Special values do arise outside of the domains: `1 / 0`, `ln (-1)`, `∞ - ∞`, `0 ∞`; and `-0 = 0`. -/
example : Ieee.f64.div (.num false 1) (.num true 0) = .inf true ∧ Ieee.f64.ln (.num false (-1)) = .nan ∧
    Ieee.f64.sub (.inf false) (.inf false) = .nan ∧ Ieee.f64.mul (.num false 0) (.inf true) = .nan ∧
    Ieee.f64.eq (.num true 0) (.num false 0) = true ∧ Ieee.f64.eq .nan .nan = false := by
  refine ⟨?_, ?_, rfl, ?_, ?_, rfl⟩
  · show Ieee.div _ _ _ _ _ = _
    simp [Ieee.div, Ieee.sgn]
  · show (if ((-1 : ℝ) < 0) then Ieee.nan else _) = _
    rw [if_pos (by norm_num)]
  · show Ieee.mul _ _ _ _ _ = _
    simp [Ieee.mul]
  · show decide ((0 : ℝ) = 0) = true
    simp

/-- `1 / x` for any numbers. -/
def recipS (S : Type) (one : S) : Func S := Func.advFn 1 1 fun _ =>
  .op .Div (.lit one) (some (.var 0)) fun i _ => .ret [.var i]

/-- C78 needs the condition on domains: at `x = 0`, `1 / x` has no finite value, in any precision. -/
theorem C78_domain_counterexample (p : ℕ) (emin emax : ℤ) (w : World Ieee) :
    ∃ ys', (@Func.eval Ieee (Ieee.flt p emin emax) (recipS Ieee (.num false 1))
      [AFloat.new (.num false 0) (.num false 1)] w).1 = .ok ys' ∧ ys'.map (fun a => Ieee.val a.v) = [none] := by
  refine ⟨[AFloat.new (Ieee.div p emin emax (.num false 1) (.num false 0)) _], rfl, ?_⟩
  simp [AFloat.new, Ieee.div, Ieee.val]

end Adv.Props
