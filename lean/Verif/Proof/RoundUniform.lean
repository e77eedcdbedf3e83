import Verif.Proof.RoundSweeps
import Verif.Proof.Relabel
import Verif.Proof.Binary

/-!
# Uniform bounds for rounding errors
-/

set_option linter.unusedSectionVars false

namespace Adv
open scoped Adv Topology
open Filter Asymptotics

theorem piecewiseSmooth_dx {w : World ℝ} {f : Func ℝ} {n : Nat} {x dx dx' : Fin n → ℝ}
    (h : f.Along piecewiseSmooth w (duals x dx)) : f.Along piecewiseSmooth w (duals x dx') := by
  refine alongProgs.values ?_ (by rw [duals_v, duals_v]) (duals_ctx _ _) (duals_ctx _ _) h
  intro o arg a a' b b' h1 h2 h3
  unfold piecewiseSmooth at *
  rwa [← h1, ← h2]

theorem Func.Sames.forall₂ {S : Type} {val : S → Option ℝ} : ∀ {fs : List (Func ℝ)} {gs : List (Func S)},
    Func.Sames val fs gs → List.Forall₂ (Func.Same val) fs gs
  | [], _, h => by cases h; exact .nil
  | f :: fs, _, h => by
      cases h with
      | cons h hs => exact .cons h hs.forall₂

theorem forall₂_append {α β : Type} {R : α → β → Prop} : ∀ {l l' : List α} {m m' : List β}, List.Forall₂ R l m →
    List.Forall₂ R l' m' → List.Forall₂ R (l ++ l') (m ++ m')
  | [], _, [], _, _, h => h
  | _ :: _, _, _ :: _, _, .cons h hs, h' => .cons h (forall₂_append hs h')

/-- The programs of the same function. -/
def SameProgs {S : Type} (val : S → Option ℝ) (ps : List (List ℝ → Prog ℝ)) (ps' : List (List S → Prog S)) : Prop :=
  List.Forall₂ (fun p p' => ∀ xs xs', List.Forall₂ (fun x s => val s = some x) xs xs' → (p xs).Same val (p' xs')) ps ps'

mutual
theorem Func.Same.progs {S : Type} {val : S → Option ℝ} : ∀ {f : Func ℝ} {g : Func S}, f.Same val g →
    SameProgs val f.progs g.progs
  | .simple _ _ _, _, h => by
      cases h with
      | simple n m h => exact .cons h .nil
  | .chain fs, _, h => by
      cases h with
      | chain h => exact Func.Sames.progs h
theorem Func.Sames.progs {S : Type} {val : S → Option ℝ} : ∀ {fs : List (Func ℝ)} {gs : List (Func S)}, Func.Sames val fs gs →
    SameProgs val (Func.progsAll fs) (Func.progsAll gs)
  | [], _, h => by cases h; exact .nil
  | f :: fs, _, h => by
      cases h with
      | cons h hs => exact forall₂_append h.progs hs.progs
end

mutual
theorem Func.Same.n_eq {S : Type} {val : S → Option ℝ} : ∀ {f : Func ℝ} {g : Func S}, f.Same val g → g.n = f.n
  | .simple _ _ _, _, h => by cases h; rfl
  | .chain fs, _, h => by
      cases h with
      | chain h => rw [Func.n, Func.n]; exact Func.Sames.n_eq h
theorem Func.Sames.n_eq {S : Type} {val : S → Option ℝ} : ∀ {fs : List (Func ℝ)} {gs : List (Func S)}, Func.Sames val fs gs →
    Func.nFirst gs = Func.nFirst fs
  | [], _, h => by cases h; rw [Func.nFirst, Func.nFirst]
  | f :: fs, _, h => by
      cases h with
      | cons h hs => rw [Func.nFirst, Func.nFirst]; exact h.n_eq
end

mutual
theorem Func.Same.m_eq {S : Type} {val : S → Option ℝ} : ∀ {f : Func ℝ} {g : Func S}, f.Same val g → g.m = f.m
  | .simple _ _ _, _, h => by cases h; rfl
  | .chain fs, _, h => by
      cases h with
      | chain h => rw [Func.m, Func.m]; exact Func.Sames.m_eq h
theorem Func.Sames.m_eq {S : Type} {val : S → Option ℝ} : ∀ {fs : List (Func ℝ)} {gs : List (Func S)}, Func.Sames val fs gs →
    Func.mLast gs = Func.mLast fs
  | [], _, h => by cases h; rw [Func.mLast, Func.mLast]
  | [f], _, h => by
      cases h with
      | cons h hs => cases hs; rw [Func.mLast, Func.mLast]; exact h.m_eq
  | f :: f' :: fs, _, h => by
      cases h with
      | cons h hs =>
        have ih := Func.Sames.m_eq hs
        cases hs with
        | cons h' hs' => rw [Func.mLast, Func.mLast]; exact ih
end

/-- Evaluations in machine arithmetics follow the exact evaluation. -/
theorem along2_machine {w : World ℝ} {f : Func ℝ} {n : Nat} {x : Fin n → ℝ} (dx : Fin n → ℝ)
    (h : f.Along piecewiseSmooth w (duals x 0)) (C : ℝ) :
    ∃ K u₀, 0 ≤ K ∧ 0 < u₀ ∧ ∀ (S : Type) (val : S → Option ℝ) (A : Flt S) (u : ℝ)
      (b : Func S × (Fin n → S) × (Fin n → S)), Machine val A u → u ≤ u₀ →
      (f.Same val b.1 ∧ ∀ j, WithinM val (C * u) (x j) (b.2.1 j) ∧ WithinM val (C * u) (dx j) (b.2.2 j)) →
      along2Progs exactFlt A (WithinM val (K * u)) (OpFact val) f.progs b.1.progs (List.ofFn fun j => (x j, dx j))
        (List.ofFn fun j => (b.2.1 j, b.2.2 j)) := by
  refine machine_uniform (β := fun S => Func S × (Fin n → S) × (Fin n → S))
    (cond := fun S val u b => f.Same val b.1 ∧
      ∀ j, WithinM val (C * u) (x j) (b.2.1 j) ∧ WithinM val (C * u) (dx j) (b.2.2 j))
    (concl := fun K S val A u b => along2Progs exactFlt A (WithinM val (K * u)) (OpFact val) f.progs b.1.progs
      (List.ofFn fun j => (x j, dx j)) (List.ofFn fun j => (b.2.1 j, b.2.2 j))) ?_
  intro ι l S val A u b F hb
  obtain ⟨K, hK, hev⟩ := F.progs w f.progs (fun i => (b i).1.progs) (Eventually.of_forall fun i => (hb i).1.progs)
    (List.ofFn fun j => (((x j, dx j), fun i => ((b i).2.1 j, (b i).2.2 j)) : Fam S)) (by
    intro q hq
    obtain ⟨j, rfl⟩ := List.mem_ofFn.mp hq
    exact ⟨WithinM.near fun i => ((hb i).2 j).1, WithinM.near fun i => ((hb i).2 j).2⟩) (by
    rw [List.map_ofFn]
    exact piecewiseSmooth_dx (dx' := dx) h)
  refine ⟨K, hK, hev.mono fun i hi => ?_⟩
  rw [List.map_ofFn, List.map_ofFn] at hi
  exact hi

theorem withinM_zero {S : Type} {val : S → Option ℝ} {A : Flt S} {u δ : ℝ} (hA : Machine val A u) (h : 0 ≤ δ) :
    WithinM val δ exactFlt.zero A.zero := ⟨0, hA.zero, by show |(0 : ℝ) - 0| ≤ δ; simpa using h⟩

theorem forall₂_ofFn {α β : Type} {R : α → β → Prop} {n : Nat} {f : Fin n → α} {g : Fin n → β} (h : ∀ j, R (f j) (g j)) :
    List.Forall₂ R (List.ofFn f) (List.ofFn g) :=
  forall₂_getElem (by simp) fun k h1 h2 => by simpa using h _

theorem eval_machine {w : World ℝ} {f : Func ℝ} {n : Nat} {x : Fin n → ℝ} (dx : Fin n → ℝ)
    (h : f.Along piecewiseSmooth w (duals x 0)) (C : ℝ) :
    ∃ K u₀, 0 ≤ K ∧ 0 < u₀ ∧ ∀ (S : Type) (val : S → Option ℝ) (A : Flt S) (u : ℝ) (g : Func S) (x' dx' : Fin n → S),
      Machine val A u → u ≤ u₀ → f.Same val g →
      (∀ j, WithinM val (C * u) (x j) (x' j) ∧ WithinM val (C * u) (dx j) (dx' j)) →
      ResRel (List.Forall₂ (RelP (WithinM val (K * u)))) (@Func.evalD ℝ exactFlt f (List.ofFn fun j => (x j, dx j)))
        (@Func.evalD S A g (List.ofFn fun j => (x' j, dx' j))) := by
  obtain ⟨K, u₀, hK, hu, hb⟩ := along2_machine dx h C
  refine ⟨max K C, u₀, le_max_of_le_left hK, hu, fun S val A u g x' dx' hA hle hg hx => ?_⟩
  have h0 := hA.nonneg
  have m1 : K * u ≤ max K C * u := mul_le_mul_of_nonneg_right (le_max_left _ _) h0
  have m2 : C * u ≤ max K C * u := mul_le_mul_of_nonneg_right (le_max_right _ _) h0
  have hpos : 0 ≤ max K C * u := mul_nonneg (le_max_of_le_left hK) h0
  exact runProgsS_rel (I := exactFlt) (J := A) (withinM_zero hA hpos) f.progs
    (forall₂_ofFn (R := RelP (WithinM val (max K C * u))) (f := fun j => (x j, dx j)) (g := fun j => (x' j, dx' j))
      fun j => ⟨(hx j).1.mono m2, (hx j).2.mono m2⟩)
    (along2Progs.mono (fun s t h => h.mono m1) _ (hb S val A u (g, x', dx') hA hle ⟨hg, hx⟩))

theorem tape_machine {w : World ℝ} {f : Func ℝ} {n : Nat} {x : Fin n → ℝ}
    (h : f.Along piecewiseSmooth w (duals x 0)) (C : ℝ) :
    ∃ K u₀, 0 ≤ K ∧ 0 < u₀ ∧ ∀ (S : Type) (val : S → Option ℝ) (A : Flt S) (u : ℝ) (g : Func S) (x' : Fin n → S)
      (w₁ : World ℝ) (w₂ : World S), Machine val A u → u ≤ u₀ → f.Same val g →
      (∀ j, WithinM val (C * u) (x j) (x' j)) → w₁.nextId < usizeMax → w₂.nextId < usizeMax →
      ResRel (fun t t' => RelT (WithinM val (K * u)) t t' ∧ Facts (OpFact val) t.ops t.vals t'.vals)
        (@Func.tape ℝ exactFlt f (List.ofFn x) w₁).1 (@Func.tape S A g (List.ofFn x') w₂).1 := by
  obtain ⟨K, u₀, hK, hu, hb⟩ := along2_machine 0 h (max C 0)
  refine ⟨max K C, u₀, le_max_of_le_left hK, hu, fun S val A u g x' w₁ w₂ hA hle hg hx hw hw2 => ?_⟩
  have h0 := hA.nonneg
  have m1 : K * u ≤ max K C * u := mul_le_mul_of_nonneg_right (le_max_left _ _) h0
  have m2 : C * u ≤ max K C * u := mul_le_mul_of_nonneg_right (le_max_right _ _) h0
  have m3 : C * u ≤ max C 0 * u := mul_le_mul_of_nonneg_right (le_max_left _ _) h0
  have hpos : 0 ≤ max K C * u := mul_nonneg (le_max_of_le_left hK) h0
  rw [@Func.tape_world S A g (List.ofFn x') w₂ ⟨w₁.nextId, fun _ => none⟩ hw2 hw]
  refine Func.tape_rel (I := exactFlt) (J := A) (withinM_zero hA hpos) f
    (forall₂_ofFn fun j => (hx j).mono m2) hw rfl ?_
  have h3 := along2Progs.mono (R := WithinM val (max K C * u)) (fun s t h => h.mono m1) _
    (hb S val A u (g, x', fun _ => A.zero) hA hle ⟨hg, fun j => ⟨(hx j).mono m3,
      withinM_zero hA (mul_nonneg (le_max_right C 0) h0)⟩⟩)
  rw [List.map_ofFn, List.map_ofFn]
  exact h3

theorem RelT.wf {S T : Type} {Q : S → T → Prop} {t : Tape S} {t' : Tape T} (h : RelT Q t t') (hw : t.WF) : t'.WF := by
  obtain ⟨w1, w2, w3, w4, w5, w6, w7, w8⟩ := hw
  have hl := h.vals.length_eq
  obtain ⟨h1, h2, h3, -⟩ := h
  exact ⟨by rw [h1, ← hl]; exact w1, by rw [h2, ← hl]; exact w2, by rw [h1]; exact w3, by rw [h3]; exact w4,
    by rw [h3, ← hl]; exact w5, by rw [h3]; exact w6, by rw [h1, h3]; exact w7, by rw [h3]; exact w8⟩

/-- Facts about operands in terms of tapes. -/
theorem Facts.inDomain {S : Type} {val : S → Option ℝ} {t : Tape ℝ} {t' : Tape S}
    (h : Facts (OpFact val) t.ops t.vals t'.vals) : t.InDomain := by
  intro op hop a b ha hb
  by_cases hc : op.opcode.computes = true
  · have e1 : op.a1 = a := by simp [Operation.a1, ha]
    have e2 : op.a2 = b := by simp [Operation.a2, e1, hb]
    obtain ⟨x, y, h1, h2, h3⟩ := h op hop hc
    rw [e1] at h1
    rw [e2] at h2
    have g1 : t.vals.getD a 0 = x := by simp [List.getD_eq_getElem?_getD, h1]
    have g2 : t.vals.getD b 0 = y := by simp [List.getD_eq_getElem?_getD, h2]
    rw [g1, g2]
    rcases h3 with h3 | ⟨b', -, h4, ⟨hp, n, h5, h6⟩, -⟩
    · unfold OpFact Dom at h3
      rcases ho : op.opcode <;> simp only [ho] at h3 ⊢
      case Powf => exact .inl h3
      all_goals exact h3
    · rw [hp]
      rw [e2] at h4
      exact .inr ⟨h4, n, h5, h6⟩
  · rcases ho : op.opcode <;> first | trivial | (rw [ho] at hc; exact absurd rfl hc)

theorem Facts.exponents {S : Type} {val : S → Option ℝ} {t : Tape ℝ} {t' : Tape S}
    (h : Facts (OpFact val) t.ops t.vals t'.vals) : t.SameExponentsM val t' := by
  intro op hop a b hp ha hb hle
  have e1 : op.a1 = a := by simp [Operation.a1, ha]
  have e2 : op.a2 = b := by simp [Operation.a2, hb]
  obtain ⟨x, y, h1, h2, h3⟩ := h op hop (by rw [hp]; rfl)
  rw [e1] at h1
  rw [e2] at h2 h3
  have g1 : t.vals.getD a 0 = x := by simp [List.getD_eq_getElem?_getD, h1]
  have g2 : t.vals.getD b 0 = y := by simp [List.getD_eq_getElem?_getD, h2]
  rw [g1] at hle
  rw [g2]
  rcases h3 with h3 | ⟨b', h4, -, h5⟩
  · rw [hp] at h3
    exact absurd h3 (not_lt.mpr hle)
  · exact ⟨b', h4, h5.2⟩

theorem Ariths.exact_vals {ι : Type*} {l : Filter ι} {S : ι → Type} {val : ∀ i, S i → Option ℝ} (A : ∀ i, Flt (S i))
    {t : Tape ℝ} (hw : t.WF) {T : ∀ i, Tape (S i)} (h : ∀ i, t.SameExponentsM (val i) (T i)) :
    ExactOn l val t.Exps (fn t.vals) fun i => @fn (S i) (A i) (T i).vals :=
  fun _ hk => Eventually.of_forall fun i => (h i).exact (A i) hw hk

theorem forward_machine {t : Tape ℝ} (hw : t.WF) (hd : t.InDomain) {dx : List ℝ} (hx : dx.length = t.indeps.length) (C : ℝ) :
    ∃ K u₀, 0 ≤ K ∧ 0 < u₀ ∧ ∀ (S : Type) (val : S → Option ℝ) (A : Flt S) (u : ℝ) (b : Tape S × List S),
      Machine val A u → u ≤ u₀ →
      ((RelT (WithinM val (C * u)) t b.1 ∧ t.SameExponentsM val b.1) ∧ List.Forall₂ (WithinM val (C * u)) dx b.2) →
      ∃ y y', @Tape.firstOrderForward ℝ exactFlt t dx = .ok y ∧ @Tape.firstOrderForward S A b.1 b.2 = .ok y' ∧
        List.Forall₂ (WithinM val (K * u)) y y' := by
  refine machine_uniform (β := fun S => Tape S × List S)
    (cond := fun S val u b => (RelT (WithinM val (C * u)) t b.1 ∧ t.SameExponentsM val b.1) ∧
      List.Forall₂ (WithinM val (C * u)) dx b.2)
    (concl := fun K S val A u b => ∃ y y', @Tape.firstOrderForward ℝ exactFlt t dx = .ok y ∧
      @Tape.firstOrderForward S A b.1 b.2 = .ok y' ∧ List.Forall₂ (WithinM val (K * u)) y y') ?_
  intro ι l S val A u b F hb
  have hv : NearF l val u (fn t.vals) fun i => @fn (S i) (A i) (b i).1.vals := F.near_fn fun i => (hb i).1.1.vals
  have hs : NearF l val u (scatterFn t.indeps dx fun _ => (Flt.zero : ℝ)) fun i =>
      scatterFn t.indeps (b i).2 fun _ => (A i).zero :=
    NearF.scatter A t.indeps dx (fun i => (hb i).2.length_eq.symm) (F.near_within fun i => (hb i).2) (fun _ => F.near_zero)
  obtain ⟨K, hK, hev⟩ := F.within_map (F.near_sweepF hv (Ariths.exact_vals A hw fun i => (hb i).1.2) t.ops
    (fun op hop hc => hd.op hw hop hc) (fun op hop hc => hd.exps_vid hw hop hc) hs
    (fun k hk => Eventually.of_forall fun i => by
      rw [scatterFn_not_mem (hd.exps_indeps hw hk)]; exact (F.machine i).zero)
    (fun k hk => by rw [scatterFn_not_mem (hd.exps_indeps hw hk)]; rfl)) t.deps
  refine ⟨K, hK, hev.mono fun i hi => ⟨_, _, Tape.firstOrderForward_eq hw hx.ge, ?_, hi⟩⟩
  have := @Tape.firstOrderForward_eq (S i) (A i) (b i).1 ((hb i).1.1.wf hw) (b i).2 (by
    rw [(hb i).1.1.indeps, ← (hb i).2.length_eq, hx])
  rw [this, (hb i).1.1.deps, (hb i).1.1.ops, (hb i).1.1.indeps]

theorem reverse_machine {t : Tape ℝ} (hw : t.WF) (ha : t.AbsFree) (hd : t.InDomain) {ybar : List ℝ}
    (hx : ybar.length = t.deps.length) (C : ℝ) :
    ∃ K u₀, 0 ≤ K ∧ 0 < u₀ ∧ ∀ (S : Type) (val : S → Option ℝ) (A : Flt S) (u : ℝ) (b : Tape S × List S),
      Machine val A u → u ≤ u₀ →
      ((RelT (WithinM val (C * u)) t b.1 ∧ t.SameExponentsM val b.1) ∧ List.Forall₂ (WithinM val (C * u)) ybar b.2) →
      ∃ y y', @Tape.firstOrderReverse ℝ exactFlt t ybar = .ok y ∧ @Tape.firstOrderReverse S A b.1 b.2 = .ok y' ∧
        List.Forall₂ (WithinM val (K * u)) y y' := by
  refine machine_uniform (β := fun S => Tape S × List S)
    (cond := fun S val u b => (RelT (WithinM val (C * u)) t b.1 ∧ t.SameExponentsM val b.1) ∧
      List.Forall₂ (WithinM val (C * u)) ybar b.2)
    (concl := fun K S val A u b => ∃ y y', @Tape.firstOrderReverse ℝ exactFlt t ybar = .ok y ∧
      @Tape.firstOrderReverse S A b.1 b.2 = .ok y' ∧ List.Forall₂ (WithinM val (K * u)) y y') ?_
  intro ι l S val A u b F hb
  have hv : NearF l val u (fn t.vals) fun i => @fn (S i) (A i) (b i).1.vals := F.near_fn fun i => (hb i).1.1.vals
  have hs : NearF l val u (scatterFn t.deps ybar fun _ => (Flt.zero : ℝ)) fun i =>
      scatterFn t.deps (b i).2 fun _ => (A i).zero :=
    NearF.scatter A t.deps ybar (fun i => (hb i).2.length_eq.symm) (F.near_within fun i => (hb i).2) (fun _ => F.near_zero)
  obtain ⟨K, hK, hev⟩ := F.within_map_off (F.near_sweepR hv (Ariths.exact_vals A hw fun i => (hb i).1.2) t.ops
    (fun op hop hc => hd.op hw hop hc) (fun op hop hc => hd.exps_vid hw hop hc) (fun k _ => hs k)) t.indeps
    (fun k hk he => hd.exps_indeps hw he hk)
  refine ⟨K, hK, hev.mono fun i hi => ⟨_, _, Tape.firstOrderReverse_eq hw ha hx.ge, ?_, hi⟩⟩
  have := @Tape.firstOrderReverse_eq (S i) (A i) (b i).1 ((hb i).1.1.wf hw) (by
    unfold Tape.AbsFree; rw [(hb i).1.1.ops]; exact ha) (b i).2 (by
    rw [(hb i).1.1.deps, ← (hb i).2.length_eq, hx])
  rw [this, (hb i).1.1.deps, (hb i).1.1.ops, (hb i).1.1.indeps]

theorem replay_machine {t t₁ : Tape ℝ} (hw : t.WF) (hm : t.mutable = true) {x : List ℝ}
    (hz : t.zeroOrder x = .ok t₁) (hd : t₁.InDomain) (C : ℝ) :
    ∃ K u₀, 0 ≤ K ∧ 0 < u₀ ∧ ∀ (S : Type) (val : S → Option ℝ) (A : Flt S) (u : ℝ) (b : Tape S × List S),
      Machine val A u → u ≤ u₀ →
      ((RelT (WithinM val (C * u)) t b.1 ∧ b.1.mutable = true ∧ t₁.SameExponentsM val b.1) ∧
        List.Forall₂ (WithinM val (C * u)) x b.2) →
      ∃ t₁', @Tape.zeroOrder S A b.1 b.2 = .ok t₁' ∧ RelT (WithinM val (K * u)) t₁ t₁' ∧ t₁'.mutable = true ∧
        t₁.SameExponentsM val t₁' := by
  have hx : x.length = t.indeps.length := by
    by_contra hne
    simp [Tape.zeroOrder, Tape.numIndeps, assertR, hne] at hz
    cases hz
  obtain ⟨v, e1, hl, hv1⟩ := Tape.zeroOrder_eq hw hx hm
  rw [e1] at hz
  injection hz with hz
  subst hz
  refine machine_uniform (β := fun S => Tape S × List S)
    (cond := fun S val u b => (RelT (WithinM val (C * u)) t b.1 ∧ b.1.mutable = true ∧
      Tape.SameExponentsM val { t with vals := v } b.1) ∧ List.Forall₂ (WithinM val (C * u)) x b.2)
    (concl := fun K S val A u b => ∃ t₁', @Tape.zeroOrder S A b.1 b.2 = .ok t₁' ∧
      RelT (WithinM val (K * u)) { t with vals := v } t₁' ∧ t₁'.mutable = true ∧
      Tape.SameExponentsM val { t with vals := v } t₁') ?_
  intro ι l S val A u b F hb
  have hv : NearF l val u (fn t.vals) fun i => @fn (S i) (A i) (b i).1.vals := F.near_fn fun i => (hb i).1.1.vals
  have hs : NearF l val u (scatterFn t.indeps x (fn t.vals)) fun i =>
      scatterFn t.indeps (b i).2 (@fn (S i) (A i) (b i).1.vals) :=
    NearF.scatter A t.indeps x (fun i => (hb i).2.length_eq.symm) (F.near_within fun i => (hb i).2) hv
  have hw1 := hw.withVals hl
  have hkeep : ∀ k, Tape.Exps { t with vals := v } k → ∀ op ∈ t.ops, op.opcode.computes = true → op.vid ≠ k :=
    fun k hk op hop hc e => hd.exps_vid hw1 hop hc (e ▸ hk)
  have hsame : ∀ {S : Type} (B : Flt S) (T : Tape S) (y : List S) (k : Nat), Tape.Exps { t with vals := v } k →
      @sweepZ S B t.ops (scatterFn t.indeps y (@fn S B T.vals)) k = @fn S B T.vals k := by
    intro S B T y k hk
    rw [sweepZ_keep B hw.ssa _ (hkeep k hk), scatterFn_not_mem (hd.exps_indeps hw1 hk)]
  obtain ⟨K, hK, hev⟩ := F.within_map (F.near_sweepZ (E := Tape.Exps { t with vals := v }) hw.ssa hs (fun k hk =>
    Eventually.of_forall fun i => by
      have h1 := (hb i).1.2.2.exact (A i) hw1 hk
      rw [hv1, hsame _ t _ k hk] at h1
      rw [scatterFn_not_mem (hd.exps_indeps hw1 hk), scatterFn_not_mem (hd.exps_indeps hw1 hk)]
      exact h1) (fun op hop hc => hd.exps_vid hw1 hop hc) (fun op hop hc => by
    rw [← hv1]; exact hd.op hw1 hop hc)) (List.range v.length)
  refine ⟨K, hK, hev.mono fun i hi => ?_⟩
  obtain ⟨v', k1, k2, k3⟩ := @Tape.zeroOrder_eq (S i) (A i) (b i).1 ((hb i).1.1.wf hw) (b i).2 (by
    rw [(hb i).1.1.indeps, ← (hb i).2.length_eq, hx]) (hb i).1.2.1
  have hexp : Tape.SameExponentsM (val i) { t with vals := v } { (b i).1 with vals := v' } := by
    intro op hop a c hp ha hc hle
    obtain ⟨s, h1, h2⟩ := (hb i).1.2.2 op hop a c hp ha hc hle
    have hk : Tape.Exps { t with vals := v } c := ⟨op, hop, hp, by simp [Operation.a2, hc], by
      rw [fn_getD]; simpa [Operation.a1, ha] using hle⟩
    have h3 := hsame (A i) (b i).1 (b i).2 c hk
    rw [(hb i).1.1.ops, (hb i).1.1.indeps] at k3
    rw [← k3] at h3
    have hlt : c < (b i).1.vals.length := (List.getElem?_eq_some_iff.mp h1).1
    have hlt' : c < v'.length := by rw [k2]; exact hlt
    refine ⟨s, ?_, h2⟩
    show v'[c]? = some s
    simp only [fn, h1, List.getElem?_eq_getElem hlt', Option.getD_some] at h3
    rw [List.getElem?_eq_getElem hlt', h3]
  refine ⟨_, k1, ⟨(hb i).1.1.indeps, (hb i).1.1.deps, (hb i).1.1.ops, ?_⟩, (hb i).1.2.1, hexp⟩
  have hlen : v'.length = v.length := by rw [k2, hl, (hb i).1.1.vals.length_eq]
  rw [← hv1] at hi
  rw [(hb i).1.1.ops, (hb i).1.1.indeps] at k3
  rw [← k3] at hi
  have e : ∀ {S : Type} (K : Flt S) (v : List S), (List.range v.length).map (@fn S K v) = v := by
    intro S K v
    apply List.ext_getElem
    · simp
    · intro k h1 h2; simp [fn, h2]
  rw [e] at hi
  rw [← hlen, e] at hi
  exact hi

/-! ## Functions made by `adv_fn` -/

theorem Prog.Same.assertLen {S : Type} {val : S → Option ℝ} (m : ℕ) {p : Prog ℝ} {p' : Prog S} (h : p.Same val p') :
    (p.assertLen m).Same val (p'.assertLen m) := by
  induction h with
  | @ret outs outs' h =>
    unfold Prog.assertLen
    rw [h.length_eq]
    split
    · exact .ret h
    · exact .panic
  | op o ha hb hk ih => exact .op o ha hb fun n v s e => ih n v s e
  | panic => exact .panic

theorem Func.Same.advFn {S : Type} {val : S → Option ℝ} (n m : ℕ) {p : List ℝ → Prog ℝ} {p' : List S → Prog S}
    (h : ∀ xs xs', List.Forall₂ (fun x s => val s = some x) xs xs' → (p xs).Same val (p' xs')) :
    (Func.advFn n m p).Same val (Func.advFn n m p') := by
  refine .simple n m fun xs xs' hx => ?_
  rw [hx.length_eq]
  split
  · exact (h xs xs' hx).assertLen m
  · exact .panic

/-! ## Numbers with unlimited range -/

theorem Computes.machine {u r s : ℝ} (h : Computes u r s) : ComputesM u (some r) s := fun hs => ⟨r, rfl, h hs⟩

theorem Floating.machine {A : Flt ℝ} {u : ℝ} (h : Floating A u) : Machine some A u where
  zero := by rw [h.zero]
  one := by rw [h.one]
  eq := by rintro a b x y ⟨⟩ ⟨⟩; exact h.eq _ _
  lt := by rintro a b x y ⟨⟩ ⟨⟩; exact h.lt _ _
  add := by rintro a b x y ⟨⟩ ⟨⟩; exact (h.add _ _).machine
  sub := by rintro a b x y ⟨⟩ ⟨⟩; exact (h.sub _ _).machine
  mul := by rintro a b x y ⟨⟩ ⟨⟩; exact (h.mul _ _).machine
  div := by rintro a b x y ⟨⟩ ⟨⟩ h1; exact (h.div _ _ h1).machine
  neg := by rintro a x ⟨⟩; exact (h.neg _).machine
  abs := by rintro a x ⟨⟩; exact (h.abs _).machine
  sqrt := by rintro a x ⟨⟩ h1; exact (h.sqrt _ h1).machine
  sin := by rintro a x ⟨⟩; exact (h.sin _).machine
  cos := by rintro a x ⟨⟩; exact (h.cos _).machine
  tan := by rintro a x ⟨⟩ h1; exact (h.tan _ h1).machine
  exp := by rintro a x ⟨⟩; exact (h.exp _).machine
  ln := by rintro a x ⟨⟩ h1; exact (h.ln _ h1).machine
  asin := by rintro a x ⟨⟩ h1 h2; exact (h.asin _ h1 h2).machine
  acos := by rintro a x ⟨⟩ h1 h2; exact (h.acos _ h1 h2).machine
  atan := by rintro a x ⟨⟩; exact (h.atan _).machine
  powf := by rintro a b x y ⟨⟩ ⟨⟩ h1; exact (h.powf _ _ h1).machine
  powf_int := by rintro a b x n ⟨⟩ ⟨⟩ h1; exact (h.powf_int _ _ h1).machine
  powi := by rintro a x n ⟨⟩ h1; exact (h.powi _ _ h1).machine
  pred := by rintro b n ⟨⟩ h1; rw [h.one, h.pred _ h1]

theorem ArithBy.nonneg {A : Flt ℝ} {u : ℝ} (h : Floating A u) : 0 ≤ u := h.machine.nonneg

theorem Arg.same_some (a : Arg ℝ) : a.Same some a := by
  cases a with
  | var k => exact .var k
  | lit c => exact .lit rfl

theorem Arg.sames_some : ∀ l : List (Arg ℝ), List.Forall₂ (Arg.Same some) l l
  | [] => .nil
  | a :: l => .cons a.same_some (sames_some l)

theorem Prog.same_some (p : Prog ℝ) : p.Same some p := by
  induction p with
  | ret outs => exact .ret (Arg.sames_some outs)
  | panic => exact .panic
  | op o a b k ih =>
    refine .op o a.same_some ?_ ?_
    · cases b with
      | none => exact .none
      | some b => exact .some b.same_some
    · rintro n v s ⟨⟩; exact ih n _

mutual
theorem Func.same_some : ∀ f : Func ℝ, f.Same some f
  | .simple n m p => .simple n m fun xs xs' h => by
      have : xs = xs' := by
        induction h with
        | nil => rfl
        | cons h _ ih => injection h with h; rw [h, ih]
      rw [this]
      exact Prog.same_some _
  | .chain fs => .chain (Func.sames_some fs)
theorem Func.sames_some : ∀ fs : List (Func ℝ), Func.Sames some fs fs
  | [] => .nil
  | f :: fs => .cons (Func.same_some f) (Func.sames_some fs)
end

/-- Distance. -/
def Dist (δ : ℝ) (a b : ℝ) : Prop := |a - b| ≤ δ

theorem withinM_some {δ : ℝ} : WithinM (some : ℝ → Option ℝ) δ = Dist δ := by
  funext x s
  apply propext
  constructor
  · rintro ⟨r, ⟨⟩, h⟩; exact h
  · intro h; exact ⟨s, rfl, h⟩

theorem within_withinM {δ : ℝ} {xs ys : List ℝ} : List.Forall₂ (WithinM (some : ℝ → Option ℝ) δ) xs ys ↔ Within δ xs ys := by
  rw [withinM_some]; rfl

theorem dist_self {δ : ℝ} (h : 0 ≤ δ) (c : ℝ) : Dist δ c c := by
  unfold Dist; rw [sub_self, abs_zero]; exact h

theorem eval_uniform {w : World ℝ} {f : Func ℝ} {n : Nat} {x : Fin n → ℝ} (dx : Fin n → ℝ)
    (h : f.Along piecewiseSmooth w (duals x 0)) (C : ℝ) :
    ∃ K u₀, 0 ≤ K ∧ 0 < u₀ ∧ ∀ (A : Flt ℝ) (u : ℝ) (x' dx' : Fin n → ℝ), Floating A u → u ≤ u₀ →
      (∀ j, |x j - x' j| ≤ C * u ∧ |dx j - dx' j| ≤ C * u) →
      ResRel (List.Forall₂ (RelP (Dist (K * u)))) (@Func.evalD ℝ exactFlt f (List.ofFn fun j => (x j, dx j)))
        (@Func.evalD ℝ A f (List.ofFn fun j => (x' j, dx' j))) := by
  obtain ⟨K, u₀, hK, hu, hb⟩ := eval_machine dx h C
  refine ⟨K, u₀, hK, hu, fun A u x' dx' hA hle hx => ?_⟩
  rw [← withinM_some]
  exact hb ℝ some A u f x' dx' hA.machine hle f.same_some (fun j => by rw [withinM_some]; exact hx j)

theorem tape_uniform {w : World ℝ} {f : Func ℝ} {n : Nat} {x : Fin n → ℝ}
    (h : f.Along piecewiseSmooth w (duals x 0)) (C : ℝ) :
    ∃ K u₀, 0 ≤ K ∧ 0 < u₀ ∧ ∀ (A : Flt ℝ) (u : ℝ) (x' : Fin n → ℝ) (w₁ : World ℝ), Floating A u → u ≤ u₀ →
      (∀ j, |x j - x' j| ≤ C * u) → w₁.nextId < usizeMax →
      ResRel (fun t t' => RelT (Dist (K * u)) t t' ∧ Facts (OpFact some) t.ops t.vals t'.vals)
        (@Func.tape ℝ exactFlt f (List.ofFn x) w₁).1 (@Func.tape ℝ A f (List.ofFn x') w₁).1 := by
  obtain ⟨K, u₀, hK, hu, hb⟩ := tape_machine h C
  refine ⟨K, u₀, hK, hu, fun A u x' w₁ hA hle hx hw => ?_⟩
  rw [← withinM_some]
  exact hb ℝ some A u f x' w₁ w₁ hA.machine hle f.same_some (fun j => by rw [withinM_some]; exact hx j) hw hw

theorem forward_uniform {t : Tape ℝ} (hw : t.WF) (hd : t.InDomain) {dx : List ℝ} (hx : dx.length = t.indeps.length) (C : ℝ) :
    ∃ K u₀, 0 ≤ K ∧ 0 < u₀ ∧ ∀ (A : Flt ℝ) (u : ℝ) (b : Tape ℝ × List ℝ), Floating A u → u ≤ u₀ →
      ((RelT (Dist (C * u)) t b.1 ∧ t.SameExponentsM some b.1) ∧ Within (C * u) dx b.2) →
      ∃ y y', @Tape.firstOrderForward ℝ exactFlt t dx = .ok y ∧ @Tape.firstOrderForward ℝ A b.1 b.2 = .ok y' ∧ Within (K * u) y y' := by
  obtain ⟨K, u₀, hK, hu, hb⟩ := forward_machine hw hd hx C
  refine ⟨K, u₀, hK, hu, fun A u b hA hle hx => ?_⟩
  have := hb ℝ some A u b hA.machine hle (by rw [within_withinM, withinM_some]; exact hx)
  simpa only [within_withinM] using this

theorem reverse_uniform {t : Tape ℝ} (hw : t.WF) (ha : t.AbsFree) (hd : t.InDomain) {ybar : List ℝ}
    (hx : ybar.length = t.deps.length) (C : ℝ) :
    ∃ K u₀, 0 ≤ K ∧ 0 < u₀ ∧ ∀ (A : Flt ℝ) (u : ℝ) (b : Tape ℝ × List ℝ), Floating A u → u ≤ u₀ →
      ((RelT (Dist (C * u)) t b.1 ∧ t.SameExponentsM some b.1) ∧ Within (C * u) ybar b.2) →
      ∃ y y', @Tape.firstOrderReverse ℝ exactFlt t ybar = .ok y ∧ @Tape.firstOrderReverse ℝ A b.1 b.2 = .ok y' ∧ Within (K * u) y y' := by
  obtain ⟨K, u₀, hK, hu, hb⟩ := reverse_machine hw ha hd hx C
  refine ⟨K, u₀, hK, hu, fun A u b hA hle hx => ?_⟩
  have := hb ℝ some A u b hA.machine hle (by rw [within_withinM, withinM_some]; exact hx)
  simpa only [within_withinM] using this

theorem replay_uniform {t t₁ : Tape ℝ} (hw : t.WF) (hm : t.mutable = true) {x : List ℝ}
    (hz : t.zeroOrder x = .ok t₁) (hd : t₁.InDomain) (C : ℝ) :
    ∃ K u₀, 0 ≤ K ∧ 0 < u₀ ∧ ∀ (A : Flt ℝ) (u : ℝ) (b : Tape ℝ × List ℝ), Floating A u → u ≤ u₀ →
      ((RelT (Dist (C * u)) t b.1 ∧ b.1.mutable = true ∧ t₁.SameExponentsM some b.1) ∧ Within (C * u) x b.2) →
      ∃ t₁', @Tape.zeroOrder ℝ A b.1 b.2 = .ok t₁' ∧ RelT (Dist (K * u)) t₁ t₁' ∧ t₁.SameExponentsM some t₁' := by
  obtain ⟨K, u₀, hK, hu, hb⟩ := replay_machine hw hm hz hd C
  refine ⟨K, u₀, hK, hu, fun A u b hA hle hx => ?_⟩
  obtain ⟨t', h1, h2, -, h3⟩ := hb ℝ some A u b hA.machine hle (by rw [within_withinM, withinM_some]; exact hx)
  exact ⟨t', h1, by rwa [withinM_some] at h2, h3⟩

/-- Exact arithmetic has any unit roundoff. -/
theorem exactFlt_rounded {u : ℝ} (hu : 0 ≤ u) : Rounded exactFlt u := by
  have key : ∀ r, Approximates u r r := fun r => by
    unfold Approximates
    rw [sub_self, abs_zero]
    exact mul_nonneg hu (abs_nonneg _)
  exact {
    zero := rfl
    one := rfl
    eq := fun _ _ => decide_eq_true_iff
    lt := fun _ _ => decide_eq_true_iff
    add := fun _ _ => key _
    sub := fun _ _ => key _
    mul := fun _ _ => key _
    div := fun _ _ _ => key _
    neg := fun _ => key _
    abs := fun _ => key _
    sqrt := fun _ _ => key _
    sin := fun _ => key _
    cos := fun _ => key _
    tan := fun _ _ => key _
    exp := fun _ => key _
    ln := fun _ _ => key _
    asin := fun _ _ _ => key _
    acos := fun _ _ _ => key _
    atan := fun _ => key _
    powf := fun _ _ _ => key _
    powf_int := fun a n _ => by
      have : Flt.powf a (n : ℝ) = a ^ n := Real.rpow_intCast a n
      rw [this]; exact key _
    powi := fun _ _ _ => key _
    pred := fun _ _ => rfl }

theorem exactFlt_floating : Floating exactFlt 0 := (exactFlt_rounded (le_refl _)).floating

/-- The operations of a recording are inside of their domains if those of the code are. -/
theorem Func.tape_inDomain {f : Func ℝ} {n : Nat} {x : Fin n → ℝ} {w w' : World ℝ} {t : Tape ℝ} (hw : w.nextId < usizeMax)
    (ht : f.tape (List.ofFn x) w = (.ok t, w')) (h : f.Along piecewiseSmooth w (duals x 0)) : t.InDomain := by
  obtain ⟨K, u₀, -, h2, h3⟩ := tape_uniform h 0
  have h4 := h3 exactFlt 0 x w exactFlt_floating h2.le (fun j => by simp) hw
  rw [ht] at h4
  obtain ⟨t', -, -, k⟩ := h4.ok_left
  exact k.inDomain

theorem Tape.SameExponentsM.same {t t' : Tape ℝ} (h : t.SameExponentsM some t') : t.SameExponents t' := by
  intro op hop a b hp ha hb hle
  obtain ⟨s, h1, h2⟩ := h op hop a b hp ha hb hle
  rw [List.getD_eq_getElem?_getD, h1]
  exact Option.some.inj h2

theorem Tape.SameExponents.machine {t t' : Tape ℝ} (h : t.SameExponents t') (hw : t'.WF) (ho : t'.ops = t.ops) :
    t.SameExponentsM some t' := by
  intro op hop a b hp ha hb hle
  have h1 := h op hop a b hp ha hb hle
  have hl : b < t'.vals.length := by
    rw [← ho] at hop
    have hop' : op ∈ activeOps t'.ops := List.mem_filter.mpr ⟨hop, by rw [hp]; decide⟩
    exact (hw.args_lt op hop' b (by simp [Operation.args, hb])).trans (hw.vid_lt op hop')
  refine ⟨t'.vals[b], List.getElem?_eq_getElem hl, ?_⟩
  rw [← h1]
  simp [List.getD_eq_getElem?_getD, List.getElem?_eq_getElem hl]

end Adv
