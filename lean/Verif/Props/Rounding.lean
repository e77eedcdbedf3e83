import Verif.Proof.KernelRfl
import Verif.Proof.Binary
import Verif.Proof.RoundUniform
import Verif.Props.SecondOrder

/-!
# Property C65: rounding errors are proportional to the unit roundoff

The same code runs in an arithmetic `A` whose operations have relative errors up to `u` (`Floating A u`), on inputs that
are only accurate up to `C u`. For `u → 0`, everything that is computed differs by at most `K u` from the exact result.
-/

namespace Adv.Props
open Adv Filter Topology

/-! ## Evaluation -/

/-- C65, evaluation: values and derivatives. `K` and `u₀` do not depend on the arithmetic. -/
theorem C65_evaluation (f : Func ℝ) {n : ℕ} {x : Fin n → ℝ} (dx : Fin n → ℝ) {w : World ℝ} {ys : List (AFloat ℝ)}
    (he : (f.eval (duals x dx) w).1 = .ok ys) (hs : f.Along piecewiseSmooth w (duals x 0)) (C : ℝ) :
    ∃ K u₀, 0 < u₀ ∧ ∀ (A : Flt ℝ) (u : ℝ) (x' dx' : Fin n → ℝ) (w' : World ℝ), Floating A u → u ≤ u₀ →
      (∀ j, |x j - x' j| ≤ C * u ∧ |dx j - dx' j| ≤ C * u) →
      ∃ ys', @Func.eval ℝ A f (duals x' dx') w' = (.ok ys', w') ∧ WithinD (K * u) ys ys' := by
  obtain ⟨K, u₀, -, h2, h3⟩ := eval_uniform dx hs C
  refine ⟨K, u₀, h2, fun A u x' dx' w' hA hu hx => ?_⟩
  have hzip : ∀ x dx : Fin n → ℝ, duals x dx = (List.ofFn fun j => (x j, dx j)).map fun p => AFloat.new p.1 p.2 := by
    intro x dx; rw [List.map_ofFn]; rfl
  have h4 := h3 A u x' dx' hA hu hx
  rw [hzip, @Func.eval_new ℝ exactFlt] at he
  rcases hd : @Func.evalD ℝ exactFlt f (List.ofFn fun j => (x j, dx j)) with e | zs
  · rw [hd] at he; cases he
  rw [hd] at he h4
  injection he with he
  obtain ⟨zs', k1, k2⟩ := h4.ok_left
  refine ⟨zs'.map fun p => AFloat.new p.1 p.2, ?_, ?_⟩
  · rw [hzip, @Func.eval_new ℝ A, k1]; rfl
  · subst he
    unfold WithinD
    rw [List.forall₂_map_left_iff, List.forall₂_map_right_iff]
    exact k2

/-- Non-vacuity: `|sin |x||` at its kink. -/
example (w : World ℝ) : (sinAbsR.eval (duals ![0] ![-1]) w).1 = .ok [AFloat.new 0 (Real.sin 0 + 1)] ∧
    sinAbsR.Along piecewiseSmooth w (duals ![0] 0) := by
  refine ⟨?_, sinAbsR_along w⟩
  unfold sinAbsR
  exec
  norm_num [Flt.sin, Flt.cos]

/-- C65 for derivatives: the computed derivative of a function that is smooth at `x` differs by at most `K u` from the
directional derivative of the function. -/
theorem C65_derivative (f : Func ℝ) {n : ℕ} {x : Fin n → ℝ} {w : World ℝ} {y : List ℝ}
    (he : (f.evalFloat (List.ofFn x) w).1 = .ok y) (hs : f.Along smooth w (duals x 0)) (C : ℝ) :
    ∃ (F : (Fin n → ℝ) → Fin y.length → ℝ) (L : (Fin n → ℝ) →L[ℝ] (Fin y.length → ℝ)),
      (∀ᶠ z in 𝓝 x, (f.evalFloat (List.ofFn z) w).1 = .ok (List.ofFn (F z))) ∧ HasFDerivAt F L x ∧
      ∀ dx, ∃ K u₀, 0 < u₀ ∧ ∀ (A : Flt ℝ) (u : ℝ) (x' dx' : Fin n → ℝ) (w' : World ℝ), Floating A u → u ≤ u₀ →
        (∀ j, |x j - x' j| ≤ C * u ∧ |dx j - dx' j| ≤ C * u) →
        ∃ ys', @Func.eval ℝ A f (duals x' dx') w' = (.ok ys', w') ∧
          Within (K * u) (List.ofFn (F x)) (ys'.map AFloat.v) ∧ Within (K * u) (List.ofFn (L dx)) (ys'.map AFloat.dv) := by
  obtain ⟨F, L, h1, h2, h3⟩ := C01_smooth f he hs
  refine ⟨F, L, h1, h2, fun dx => ?_⟩
  obtain ⟨ys, k1, k2, k3⟩ := h3 dx
  have hs' : f.Along piecewiseSmooth w (duals x 0) := alongProgs.mono (fun o arg a b h => h.1) hs
  obtain ⟨K, u₀, q1, q2⟩ := C65_evaluation f dx (by rw [k1]) hs' C
  refine ⟨K, u₀, q1, fun A u x' dx' w' hA hu hx => ?_⟩
  obtain ⟨ys', r1, r2⟩ := q2 A u x' dx' w' hA hu hx
  refine ⟨ys', r1, ?_, ?_⟩
  · rw [← k2]
    unfold Within
    rw [List.forall₂_map_left_iff, List.forall₂_map_right_iff]
    exact r2.imp fun _ _ h => h.1
  · rw [← k3]
    unfold Within
    rw [List.forall₂_map_left_iff, List.forall₂_map_right_iff]
    exact r2.imp fun _ _ h => h.2

/-! ## Recordings and sweeps -/

/-- C65, recording: a tape recorded in the arithmetic `A` has the same independents, dependents and operations as the
exact one, and its values differ by at most `K u`; powers with a base that is not positive have the exact exponents. -/
theorem C65_recording (f : Func ℝ) {n : ℕ} {x : Fin n → ℝ} {w w' : World ℝ} {t : Tape ℝ} (hw : w.nextId < usizeMax)
    (ht : f.tape (List.ofFn x) w = (.ok t, w')) (hs : f.Along piecewiseSmooth w (duals x 0)) (C : ℝ) :
    ∃ K u₀, 0 < u₀ ∧ ∀ (A : Flt ℝ) (u : ℝ) (x' : Fin n → ℝ), Floating A u → u ≤ u₀ → (∀ j, |x j - x' j| ≤ C * u) →
      ∃ t', (@Func.tape ℝ A f (List.ofFn x') w).1 = .ok t' ∧ t.Close (K * u) t' ∧ t.SameExponents t' := by
  obtain ⟨K, u₀, -, h2, h3⟩ := tape_uniform hs C
  refine ⟨K, u₀, h2, fun A u x' hA hu hx => ?_⟩
  have h4 := h3 A u x' w hA hu hx hw
  rw [ht] at h4
  obtain ⟨t', k1, k2, k3⟩ := h4.ok_left
  refine ⟨t', k1, ⟨k2.indeps, k2.deps, k2.ops, ?_, k2.vals⟩, k3.exponents.same⟩
  have s1 := (@Func.tape_spec ℝ exactFlt f (List.ofFn x) w hw).2
  have s2 := (@Func.tape_spec ℝ A f (List.ofFn x') w hw).2
  rw [ht] at s1
  rw [k1] at s2
  obtain ⟨_, -, s1⟩ := s1.ok_left
  obtain ⟨_, -, s2⟩ := s2.ok_left
  exact (@TapeOf.mutable ℝ A _ _ _ s2).trans (@TapeOf.mutable ℝ exactFlt _ _ _ s1).symm

/-- C65: the condition on the domains that the following theorems have holds for all recordings of code whose operations are
inside of their domains. -/
theorem C65_domain (f : Func ℝ) {n : ℕ} {x : Fin n → ℝ} {w w' : World ℝ} {t : Tape ℝ} (hw : w.nextId < usizeMax)
    (ht : f.tape (List.ofFn x) w = (.ok t, w')) (hs : f.Along piecewiseSmooth w (duals x 0)) : t.InDomain :=
  Func.tape_inDomain hw ht hs

/-- C65, `zero_order`: replaying a tape. The operations are inside of their domains at the new point, and powers with a base
that is not positive there have the exact exponents. -/
theorem C65_replay {t t₁ : Tape ℝ} (h : Recorded t) {x : List ℝ} (hz : t.zeroOrder x = .ok t₁) (hd : t₁.InDomain) (C : ℝ) :
    ∃ K u₀, 0 < u₀ ∧ ∀ (A : Flt ℝ) (u : ℝ) (t' : Tape ℝ) (x' : List ℝ), Floating A u → u ≤ u₀ →
      t.Close (C * u) t' → t₁.SameExponents t' → Within (C * u) x x' →
      ∃ t₁', @Tape.zeroOrder ℝ A t' x' = .ok t₁' ∧ t₁.Close (K * u) t₁' ∧ t₁.SameExponents t₁' := by
  have hwf := h.proper.wf
  have hmut := h.proper.mutable
  obtain ⟨K, u₀, -, h2, h3⟩ := replay_uniform hwf hmut hz hd C
  refine ⟨K, u₀, h2, fun A u t' x' hA hu ht hse hx => ?_⟩
  have hw' : t'.WF := RelT.wf (Q := Dist (C * u)) ⟨ht.indeps, ht.deps, ht.ops, ht.vals⟩ hwf
  have hx0 : x.length = t.indeps.length := by
    by_contra hne
    simp [Tape.zeroOrder, Tape.numIndeps, assertR, hne] at hz
    cases hz
  obtain ⟨v, e, -⟩ := @Tape.zeroOrder_eq ℝ exactFlt t hwf x hx0 hmut
  rw [e] at hz
  injection hz with hz
  have ho : t'.ops = t₁.ops := by rw [← hz]; exact ht.ops
  have hm : t'.mutable = true := ht.mutable.trans hmut
  obtain ⟨t₁', k1, k2, k3⟩ := h3 A u (t', x') hA hu
    ⟨⟨⟨ht.indeps, ht.deps, ht.ops, ht.vals⟩, hm, hse.machine hw' ho⟩, hx⟩
  refine ⟨t₁', k1, ⟨k2.indeps, k2.deps, k2.ops, ?_, k2.vals⟩, k3.same⟩
  obtain ⟨v', e', -⟩ := @Tape.zeroOrder_eq ℝ A t' hw' x'
    (by rw [ht.indeps, ← hx.length_eq, hx0]) hm
  rw [e'] at k1
  injection k1 with k1
  rw [← hz, ← k1]
  exact ht.mutable

/-- C65, `first_order_forward`. -/
theorem C65_forward {t : Tape ℝ} (h : Recorded t) (hd : t.InDomain) {dx dy : List ℝ}
    (he : t.firstOrderForward dx = .ok dy) (hx : dx.length = t.numIndeps) (C : ℝ) :
    ∃ K u₀, 0 < u₀ ∧ ∀ (A : Flt ℝ) (u : ℝ) (t' : Tape ℝ) (dx' : List ℝ), Floating A u → u ≤ u₀ →
      t.Close (C * u) t' → t.SameExponents t' → Within (C * u) dx dx' →
      ∃ dy', @Tape.firstOrderForward ℝ A t' dx' = .ok dy' ∧ Within (K * u) dy dy' := by
  have hwf := h.proper.wf
  obtain ⟨K, u₀, -, h2, h3⟩ := forward_uniform hwf hd hx C
  refine ⟨K, u₀, h2, fun A u t' dx' hA hu ht hse hx => ?_⟩
  have hw' : t'.WF := RelT.wf (Q := Dist (C * u)) ⟨ht.indeps, ht.deps, ht.ops, ht.vals⟩ hwf
  obtain ⟨y, y', k1, k2, k3⟩ := h3 A u (t', dx') hA hu
    ⟨⟨⟨ht.indeps, ht.deps, ht.ops, ht.vals⟩, hse.machine hw' ht.ops⟩, hx⟩
  rw [he] at k1
  injection k1 with k1
  subst k1
  exact ⟨y', k2, k3⟩

/-- C65, `first_order_reverse`. -/
theorem C65_reverse {t : Tape ℝ} (h : Recorded t) (ha : t.AbsFree) (hd : t.InDomain) {ybar xbar : List ℝ}
    (he : t.firstOrderReverse ybar = .ok xbar) (hy : ybar.length = t.numDeps) (C : ℝ) :
    ∃ K u₀, 0 < u₀ ∧ ∀ (A : Flt ℝ) (u : ℝ) (t' : Tape ℝ) (ybar' : List ℝ), Floating A u → u ≤ u₀ →
      t.Close (C * u) t' → t.SameExponents t' → Within (C * u) ybar ybar' →
      ∃ xbar', @Tape.firstOrderReverse ℝ A t' ybar' = .ok xbar' ∧ Within (K * u) xbar xbar' := by
  have hwf := h.proper.wf
  obtain ⟨K, u₀, -, h2, h3⟩ := reverse_uniform hwf ha hd hy C
  refine ⟨K, u₀, h2, fun A u t' dx' hA hu ht hse hx => ?_⟩
  have hw' : t'.WF := RelT.wf (Q := Dist (C * u)) ⟨ht.indeps, ht.deps, ht.ops, ht.vals⟩ hwf
  obtain ⟨y, y', k1, k2, k3⟩ := h3 A u (t', dx') hA hu
    ⟨⟨⟨ht.indeps, ht.deps, ht.ops, ht.vals⟩, hse.machine hw' ht.ops⟩, hx⟩
  rw [he] at k1
  injection k1 with k1
  subst k1
  exact ⟨y', k2, k3⟩

theorem Within.mono {δ ε : ℝ} (h : δ ≤ ε) {xs ys : List ℝ} (hw : Within δ xs ys) : Within ε xs ys :=
  hw.imp fun _ _ h1 => h1.trans h

theorem Close.mono {δ ε : ℝ} (h : δ ≤ ε) {t t' : Tape ℝ} (hc : t.Close δ t') : t.Close ε t' :=
  ⟨hc.indeps, hc.deps, hc.ops, hc.mutable, Within.mono h hc.vals⟩

/-- C65, recording and reverse sweep together: adjoints that are computed entirely in the arithmetic `A`. -/
theorem C65_adjoint (f : Func ℝ) {n : ℕ} {x : Fin n → ℝ} {w w' : World ℝ} {t : Tape ℝ} (hw : w.nextId < usizeMax)
    (ht : f.tape (List.ofFn x) w = (.ok t, w')) (hs : f.Along piecewiseSmooth w (duals x 0))
    (ha : t.AbsFree) {ybar xbar : List ℝ}
    (he : t.firstOrderReverse ybar = .ok xbar) (hy : ybar.length = t.numDeps) (C : ℝ) :
    ∃ K u₀, 0 < u₀ ∧ ∀ (A : Flt ℝ) (u : ℝ) (x' : Fin n → ℝ) (ybar' : List ℝ), Floating A u → u ≤ u₀ →
      (∀ j, |x j - x' j| ≤ C * u) → Within (C * u) ybar ybar' →
      ∃ t' xbar', (@Func.tape ℝ A f (List.ofFn x') w).1 = .ok t' ∧ @Tape.firstOrderReverse ℝ A t' ybar' = .ok xbar' ∧
        Within (K * u) xbar xbar' := by
  obtain ⟨K1, u₁, h1, h2⟩ := C65_recording f hw ht hs C
  obtain ⟨K2, u₂, k1, k2⟩ := C65_reverse (.func f _ w w' hw ht) ha (C65_domain f hw ht hs) he hy (max K1 C)
  refine ⟨K2, min u₁ u₂, lt_min h1 k1, fun A u x' ybar' hA hu hx hyb => ?_⟩
  obtain ⟨t', q1, q2, q5⟩ := h2 A u x' hA (hu.trans (min_le_left _ _)) hx
  obtain ⟨xbar', q3, q4⟩ := k2 A u t' ybar' hA (hu.trans (min_le_right _ _))
    (Close.mono (mul_le_mul_of_nonneg_right (le_max_left _ _) hA.nonneg) q2) q5
    (Within.mono (mul_le_mul_of_nonneg_right (le_max_right _ _) hA.nonneg) hyb)
  exact ⟨t', xbar', q1, q3, q4⟩

/-- The tape of `exp (x y) / x` at `(2, 3)`. -/
noncomputable def expTape : Tape ℝ :=
  ⟨[0, 1], [4], [⟨.Mul, 2, some 0, some 1⟩, ⟨.Exp, 3, some 2, none⟩, ⟨.Div, 4, some 3, some 0⟩],
    [2, 3, Flt.mul 2 3, Flt.exp (Flt.mul 2 3), Flt.div (Flt.exp (Flt.mul 2 3)) 2], true⟩

/-- Non-vacuity of `C65_derivative`, `C65_recording` and the theorems on sweeps: `exp (x y) / x` at `(2, 3)`. -/
theorem expF_example : ∃ (w w' : World ℝ), w.nextId < usizeMax ∧ expF.tape (List.ofFn ![2, 3]) w = (.ok expTape, w') ∧
    expF.Along piecewiseSmooth w (duals ![2, 3] 0) ∧ Recorded expTape ∧ expTape.AbsFree ∧ expTape.InDomain ∧
    expTape.zeroOrder [2, 3] = .ok expTape ∧ (∃ dy, expTape.firstOrderForward [1, 0] = .ok dy) ∧
    ∃ xbar, expTape.firstOrderReverse [1] = .ok xbar := by
  rcases ht : expF.tape (List.ofFn ![2, 3]) HState.init.world with ⟨r, w'⟩
  have h1 : (expF.tape (List.ofFn ![2, 3]) HState.init.world).1 = .ok expTape := by kernel_rfl
  rw [ht] at h1
  replace h1 : r = .ok expTape := h1
  subst h1
  have hrec : Recorded expTape := .func expF _ HState.init.world w' (by decide) ht
  have ha : expTape.AbsFree := by
    intro op hop
    simp only [expTape, List.mem_cons, List.not_mem_nil, or_false] at hop
    rcases hop with rfl | rfl | rfl <;> simp
  refine ⟨HState.init.world, w', by decide, ht, ?_, hrec, ha, ?_, ?_, ?_, ?_⟩
  · rw [C01_straight_line expF_straight]
    unfold expF
    refine ⟨?_, fun _ _ => trivial⟩
    eachop
    · exec
    eachop
    · exec
    eachop
    · exec
    · trivial
  · intro op hop a b
    simp only [expTape, List.mem_cons, List.not_mem_nil, or_false] at hop
    rcases hop with rfl | rfl | rfl
    · intro _ _; trivial
    · intro _ _; trivial
    · rintro ⟨⟩ ⟨⟩
      show expTape.vals.getD 0 0 ≠ 0
      simp [expTape]
  · rfl
  · exact ⟨_, Tape.firstOrderForward_eq hrec.proper.wf (by decide)⟩
  · exact ⟨_, Tape.firstOrderReverse_eq hrec.proper.wf ha (by decide)⟩

/-- `x ^ 3`. -/
noncomputable def cubeF : Func ℝ := Func.advFn 1 1 fun _ => .op .Powf (.var 0) (some (.lit 3)) fun i _ => .ret [.var i]

/-- The tape of `x ^ 3` at `-2`. -/
noncomputable def cubeTape : Tape ℝ :=
  ⟨[0], [2], [⟨.Const, 1, none, none⟩, ⟨.Powf, 2, some 0, some 1⟩], [-2, 3, Flt.powf (-2) 3], true⟩

theorem cubeF_along (w : World ℝ) : cubeF.Along piecewiseSmooth w (duals ![-2] 0) := by
  rw [C01_straight_line (by straight cubeF)]
  unfold cubeF
  refine ⟨?_, fun _ _ => trivial⟩
  eachop
  · exact .inr ⟨3, by norm_num, .inl (by exec)⟩
  · trivial

/-- Non-vacuity for integer powers of negative numbers: adjoints of `x ^ 3` at `-2`. -/
example : ∃ w : World ℝ, ∃ (xbar : List ℝ) (K u₀ : ℝ), 0 < u₀ ∧ cubeTape.firstOrderReverse [1] = .ok xbar ∧
    ∀ (A : Flt ℝ) (u : ℝ), Floating A u → u ≤ u₀ → ∃ t' xbar', (@Func.tape ℝ A cubeF [-2] w).1 = .ok t' ∧
      @Tape.firstOrderReverse ℝ A t' [1] = .ok xbar' ∧ Within (K * u) xbar xbar' := by
  rcases ht : cubeF.tape (List.ofFn ![-2]) HState.init.world with ⟨r, w'⟩
  have h1 : (cubeF.tape (List.ofFn ![-2]) HState.init.world).1 = .ok cubeTape := by kernel_rfl
  rw [ht] at h1
  replace h1 : r = .ok cubeTape := h1
  subst h1
  have hrec : Recorded cubeTape := .func cubeF _ HState.init.world w' (by decide) ht
  have ha : cubeTape.AbsFree := by
    intro op hop
    simp only [cubeTape, List.mem_cons, List.not_mem_nil, or_false] at hop
    rcases hop with rfl | rfl <;> simp
  have he := Tape.firstOrderReverse_eq hrec.proper.wf ha (ybar := [1]) (by decide)
  obtain ⟨K, u₀, k1, k2⟩ := C65_adjoint cubeF (by decide) ht (cubeF_along _) ha he rfl 0
  refine ⟨HState.init.world, _, K, u₀, k1, he, fun A u hA hu => ?_⟩
  exact k2 A u ![-2] [1] hA hu (fun j => by simp) (by simp [Within])

/-! ## Binary floating point arithmetic -/

/-- C65 for binary floating point numbers with `p` digits, correct rounding and unlimited exponents: with rounded
inputs, the errors of values and derivatives are at most `K 2⁻ᵖ`. -/
theorem C65_binary (f : Func ℝ) {n : ℕ} {x : Fin n → ℝ} (dx : Fin n → ℝ) {w : World ℝ} {ys : List (AFloat ℝ)}
    (he : (f.eval (duals x dx) w).1 = .ok ys) (hs : f.Along piecewiseSmooth w (duals x 0)) :
    ∃ (K : ℝ) (p₀ : ℕ), ∀ p ≥ p₀, ∃ ys', @Func.eval ℝ (binaryFlt p) f (duals (fun j => fl p (x j)) fun j => fl p (dx j)) w =
      (.ok ys', w) ∧ WithinD (K * 2⁻¹ ^ p) ys ys' := by
  obtain ⟨C, hC⟩ : ∃ C : ℝ, ∀ j, |x j| ≤ C ∧ |dx j| ≤ C :=
    ⟨‖x‖ + ‖dx‖, fun j => ⟨(norm_le_pi_norm x j).trans (le_add_of_nonneg_right (norm_nonneg _)),
      (norm_le_pi_norm dx j).trans (le_add_of_nonneg_left (norm_nonneg _))⟩⟩
  obtain ⟨K, u₀, h1, h2⟩ := C65_evaluation f dx he hs C
  have h3 : Tendsto (fun p : ℕ => (2 : ℝ)⁻¹ ^ p) atTop (𝓝 0) := tendsto_pow_atTop_nhds_zero_of_lt_one (by norm_num) (by norm_num)
  obtain ⟨p₀, hp⟩ := eventually_atTop.mp (h3.eventually (ge_mem_nhds h1))
  refine ⟨K, max p₀ 1, fun p hpp => ?_⟩
  have hin : ∀ a : ℝ, |a| ≤ C → |a - fl p a| ≤ C * 2⁻¹ ^ p := by
    intro a ha
    rw [abs_sub_comm, mul_comm]
    exact (fl_error p a).trans (mul_le_mul_of_nonneg_left ha (by positivity))
  exact h2 (binaryFlt p) _ _ _ w (binaryFlt_rounded (le_of_max_le_right hpp)).floating (hp p (le_of_max_le_left hpp))
    fun j => ⟨hin _ (hC j).1, hin _ (hC j).2⟩

/-- C65: `binaryFlt p` is one of the arithmetics of the other theorems, its unit roundoff is `2⁻ᵖ`. -/
theorem C65_binary_is_rounded {p : ℕ} (hp : 1 ≤ p) : Floating (binaryFlt p) ((2 : ℝ)⁻¹ ^ p) :=
  (binaryFlt_rounded hp).floating

/-- C65 with underflow and overflow: floating point numbers with `p` digits and bounded exponents, for any results of
operations that overflow. The bound and the number of digits from which on it holds depend on the program and the point
only. -/
theorem C65_ieee (f : Func ℝ) {n : ℕ} {x : Fin n → ℝ} (dx : Fin n → ℝ) {w : World ℝ} {ys : List (AFloat ℝ)}
    (he : (f.eval (duals x dx) w).1 = .ok ys) (hs : f.Along piecewiseSmooth w (duals x 0)) :
    ∃ (K : ℝ) (p₀ : ℕ), ∀ p ≥ p₀, ∀ (emin emax : ℤ) (ovf : ℝ → ℝ), emin ≤ -p → p + 1 < emax →
      ∃ ys', @Func.eval ℝ (ieeeFlt p emin emax ovf) f
        (duals (fun j => flB p emin emax ovf (x j)) fun j => flB p emin emax ovf (dx j)) w = (.ok ys', w) ∧
        WithinD (K * 2⁻¹ ^ p) ys ys' := by
  obtain ⟨C, hC⟩ : ∃ C : ℝ, ∀ j, |x j| ≤ C ∧ |dx j| ≤ C :=
    ⟨‖x‖ + ‖dx‖, fun j => ⟨(norm_le_pi_norm x j).trans (le_add_of_nonneg_right (norm_nonneg _)),
      (norm_le_pi_norm dx j).trans (le_add_of_nonneg_left (norm_nonneg _))⟩⟩
  obtain ⟨K, u₀, h1, h2⟩ := C65_evaluation f dx he hs (C + 1)
  have h3 : Tendsto (fun p : ℕ => (2 : ℝ)⁻¹ ^ p) atTop (𝓝 0) := tendsto_pow_atTop_nhds_zero_of_lt_one (by norm_num) (by norm_num)
  have h4 : Tendsto (fun p : ℕ => C * (2 : ℝ)⁻¹ ^ p) atTop (𝓝 0) := by simpa using h3.const_mul C
  obtain ⟨p₀, hp⟩ := eventually_atTop.mp ((h3.eventually (ge_mem_nhds h1)).and (h4.eventually (ge_mem_nhds one_pos)))
  refine ⟨K, max p₀ 1, fun p hpp emin emax ovf hmin hmax => ?_⟩
  have hin : ∀ a : ℝ, |a| ≤ C → |a - flB p emin emax ovf a| ≤ (C + 1) * 2⁻¹ ^ p := by
    intro a ha
    rw [abs_sub_comm, mul_comm]
    refine (flB_error hmin hmax a ?_).trans (mul_le_mul_of_nonneg_left (by linarith) (by positivity))
    exact (mul_le_mul_of_nonneg_right ha (by positivity)).trans (hp p (le_of_max_le_left hpp)).2
  exact h2 _ _ _ _ w (ieeeFlt_floating (le_of_max_le_right hpp) hmin hmax) (hp p (le_of_max_le_left hpp)).1
    fun j => ⟨hin _ (hC j).1, hin _ (hC j).2⟩

/-- C65: double and single precision are arithmetics of the other theorems. -/
theorem C65_ieee_is_floating (ovf : ℝ → ℝ) : Floating (ieeeFlt 53 (-1074) 1024 ovf) ((2 : ℝ)⁻¹ ^ 53) ∧
    Floating (ieeeFlt 24 (-149) 128 ovf) ((2 : ℝ)⁻¹ ^ 24) :=
  ⟨ieeeFlt_floating (by norm_num) (by norm_num) (by norm_num), ieeeFlt_floating (by norm_num) (by norm_num) (by norm_num)⟩

/-- Non-vacuity: these arithmetics do underflow and overflow, so that they are no arithmetics with small relative errors. -/
example (ovf : ℝ → ℝ) : flB 53 (-1074) 1024 ovf (2 ^ (-1076 : ℤ)) = 0 ∧ flB 53 (-1074) 1024 ovf (2 ^ (1024 : ℤ)) = ovf (2 ^ (1024 : ℤ)) := by
  have h1 : Int.log 2 |(2 : ℝ) ^ (-1076 : ℤ)| = -1076 := by
    rw [abs_of_pos (by positivity)]
    exact_mod_cast Int.log_zpow (R := ℝ) (b := 2) (by norm_num) (-1076)
  have h2 : Int.log 2 |(2 : ℝ) ^ (1024 : ℤ)| = 1024 := by
    rw [abs_of_pos (by positivity)]
    exact_mod_cast Int.log_zpow (R := ℝ) (b := 2) (by norm_num) 1024
  constructor
  · unfold flB
    simp only [h1]
    have e : min (((53 : ℕ) : ℤ) - 1 - -1076) (- -1074) = 1074 := by norm_num
    rw [e, ← zpow_add₀ (by norm_num)]
    have : round ((2 : ℝ) ^ (-1076 + 1074 : ℤ)) = 0 := by
      rw [round_eq_zero_iff]; norm_num
    rw [this, Int.cast_zero, zero_mul, if_neg]
    rw [abs_zero, not_le]; positivity
  · unfold flB
    simp only [h2]
    have e : min (((53 : ℕ) : ℤ) - 1 - 1024) (- -1074) = -972 := by norm_num
    rw [e, ← zpow_add₀ (by norm_num)]
    have : round ((2 : ℝ) ^ (1024 + -972 : ℤ)) = 2 ^ 52 := by
      have : (2 : ℝ) ^ (1024 + -972 : ℤ) = ((2 ^ 52 : ℤ) : ℝ) := by norm_num
      rw [this, round_intCast]
    rw [this, if_pos]
    rw [abs_of_pos (by positivity)]
    have e2 : ((2 ^ 52 : ℤ) : ℝ) = 2 ^ (52 : ℤ) := by norm_num
    rw [e2, ← zpow_add₀ (by norm_num)]
    exact le_of_eq (by norm_num)

/-- The exact arithmetic is one of these arithmetics, too. -/
example : Floating exactFlt 0 := exactFlt_floating

/-! ## Branches -/

open Classical in
/-- `1` where `x > 1`, otherwise `0`. -/
noncomputable def stepF65 : Func ℝ := Func.advFn 1 1 fun xs => if xs.headD 0 > 1 then .ret [.lit 1] else .ret [.lit 0]

/-- C65 needs a condition on the control flow: at a point where small changes of the input select another branch, the
error is not small. -/
theorem C65_branch_counterexample (K u₀ : ℝ) (hu : 0 < u₀) : ∃ (A : Flt ℝ) (u : ℝ) (x' : ℝ), Rounded A u ∧ u ≤ u₀ ∧
    |1 - x'| ≤ u ∧ ∀ w, ∃ y y', stepF65.evalFloat [1] w = (.ok [y], w) ∧ @Func.evalFloat ℝ A stepF65 [x'] w = (.ok [y'], w) ∧
      K * u < |y - y'| := by
  have h3 : Tendsto (fun p : ℕ => (2 : ℝ)⁻¹ ^ p) atTop (𝓝 0) := tendsto_pow_atTop_nhds_zero_of_lt_one (by norm_num) (by norm_num)
  have h4 : Tendsto (fun p : ℕ => K * (2 : ℝ)⁻¹ ^ p) atTop (𝓝 0) := by simpa using h3.const_mul K
  obtain ⟨p, ⟨hp1, hp2⟩, hp3⟩ := (((h3.eventually (ge_mem_nhds hu)).and (h4.eventually (gt_mem_nhds one_pos))).and
    (eventually_ge_atTop 1)).exists
  refine ⟨binaryFlt p, (2 : ℝ)⁻¹ ^ p, 1 + (2 : ℝ)⁻¹ ^ p, binaryFlt_rounded hp3, hp1, ?_, fun w => ⟨0, 1, ?_, ?_, ?_⟩⟩
  · rw [sub_add_cancel_left, abs_neg, abs_of_nonneg (by positivity)]
  · unfold stepF65
    exec
    rfl
  · unfold stepF65
    simp [Func.evalFloat, Func.advFn, Func.eval, Prog.assertLen, AFloat.new, Prog.run, Arg.get, M.bind_apply, M.lift_apply,
      M.pure_apply]
    rfl
  · simpa using hp2

end Adv.Props
