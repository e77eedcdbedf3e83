import Verif.Proof.RoundGenJac
import Verif.Spec.MachineForms

/-!
# Uniform error bounds for abs-normal forms and generalized Jacobians
-/

set_option linter.unusedSectionVars false

namespace Adv
open scoped Adv Topology
open Filter Asymptotics

section family
variable {ι : Type*} {l : Filter ι} {S : ι → Type} {val : ∀ i, S i → Option ℝ} [A : ∀ i, Flt (S i)] {u : ι → ℝ}

theorem bound_range {P : ℕ → ℝ → ι → Prop} (mono : ∀ m K K' i, K ≤ K' → P m K i → P m K' i) :
    ∀ n, (∀ m < n, ∃ K, 0 ≤ K ∧ ∀ᶠ i in l, P m K i) → ∃ K, 0 ≤ K ∧ ∀ᶠ i in l, ∀ m < n, P m K i
  | 0, _ => ⟨0, le_refl _, Eventually.of_forall fun _ _ h => absurd h (Nat.not_lt_zero _)⟩
  | n + 1, h => by
      obtain ⟨K, hK, h1⟩ := bound_range mono n fun m hm => h m (by omega)
      obtain ⟨K', hK', h2⟩ := h n (by omega)
      refine ⟨max K K', le_max_of_le_left hK, ?_⟩
      filter_upwards [h1, h2] with i k1 k2 m hm
      rcases Nat.lt_succ_iff_lt_or_eq.mp hm with h | rfl
      · exact mono _ _ _ _ (le_max_left _ _) (k1 m h)
      · exact mono _ _ _ _ (le_max_right _ _) k2

theorem withinM_mono {S : Type} {v : S → Option ℝ} {K K' u x : ℝ} (hu : 0 ≤ u) (h : K ≤ K') {s : S}
    (hw : WithinM v (K * u) x s) : WithinM v (K' * u) x s := hw.mono (mul_le_mul_of_nonneg_right h hu)

theorem NearV.bound (h0 : ∀ i, 0 ≤ u i) {n : Nat} {xs : List ℝ} {X : ∀ i, List (S i)} (h : NearV l val u n xs X) :
    ∃ K, 0 ≤ K ∧ ∀ᶠ i in l, List.Forall₂ (WithinM (val i) (K * u i)) xs (X i) := by
  obtain ⟨K, hK, hev⟩ := bound_range (P := fun m K i => WithinM (val i) (K * u i) (xs[m]?.getD 0) ((X i)[m]?.getD (A i).zero))
    (fun m K K' i hK hw => withinM_mono (h0 i) hK hw) n fun m _ => (h.near m).bound h0
  refine ⟨K, hK, hev.mono fun i hi => List.forall₂_iff_get.mpr ⟨by rw [h.len, h.lens], fun m h1 h2 => ?_⟩⟩
  have := hi m (by rw [← h.len]; exact h1)
  simpa [h1, h2] using this

theorem NearM.bound (h0 : ∀ i, 0 ≤ u i) {r c : Nat} {M : DMat ℝ} {N : ∀ i, DMat (S i)} (h : NearM l val u r c M N) :
    ∃ K, 0 ≤ K ∧ ∀ᶠ i in l, M.CloseM (val i) (K * u i) (N i) := by
  obtain ⟨K, hK, hev⟩ := bound_range (P := fun m K i => ∀ j < c, WithinM (val i) (K * u i) (M.get m j) ((N i).get m j))
    (fun m K K' i hK hw j hj => withinM_mono (h0 i) hK (hw j hj)) r fun m hm =>
      bound_range (P := fun j K i => WithinM (val i) (K * u i) (M.get m j) ((N i).get m j))
        (fun m K K' i hK hw => withinM_mono (h0 i) hK hw) c fun j hj => (h.near m j hm hj).bound h0
  refine ⟨K, hK, hev.mono fun i hi => ⟨by rw [h.nrows, h.nrowss], by rw [h.ncols, h.ncolss], fun a ha b hb => ?_⟩⟩
  exact hi a (by rw [← h.nrows]; exact ha) b (by rw [← h.ncols]; exact hb)

theorem forall₂_withinM_mono {S : Type} {v : S → Option ℝ} {K K' u : ℝ} (hu : 0 ≤ u) (h : K ≤ K') {xs : List ℝ} {ys : List S}
    (hw : List.Forall₂ (WithinM v (K * u)) xs ys) : List.Forall₂ (WithinM v (K' * u)) xs ys :=
  hw.imp fun _ _ h1 => withinM_mono hu h h1

theorem DMat.CloseM.mono {S : Type} {v : S → Option ℝ} {K K' u : ℝ} (hu : 0 ≤ u) (h : K ≤ K') {M : DMat ℝ} {N : DMat S}
    (hw : M.CloseM v (K * u) N) : M.CloseM v (K' * u) N :=
  ⟨hw.nrows, hw.ncols, fun i hi j hj => withinM_mono hu h (hw.get i hi j hj)⟩

theorem NearForm.bound (h0 : ∀ i, 0 ≤ u i) {n m s : Nat} {F : AbsNormalForm ℝ} {G : ∀ i, AbsNormalForm (S i)}
    (h : NearForm l val u n m s F G) : ∃ K, 0 ≤ K ∧ ∀ᶠ i in l, F.CloseM (val i) (K * u i) (G i) := by
  obtain ⟨K1, p1, h1⟩ := h.a.bound h0
  obtain ⟨K2, p2, h2⟩ := h.zmat.bound h0
  obtain ⟨K3, p3, h3⟩ := h.lmat.bound h0
  obtain ⟨K4, p4, h4⟩ := h.b.bound h0
  obtain ⟨K5, p5, h5⟩ := h.jmat.bound h0
  obtain ⟨K6, p6, h6⟩ := h.ymat.bound h0
  refine ⟨K1 + K2 + K3 + K4 + K5 + K6, by positivity, ?_⟩
  filter_upwards [h1, h2, h3, h4, h5, h6] with i k1 k2 k3 k4 k5 k6
  exact ⟨forall₂_withinM_mono (h0 i) (by linarith) k1, k2.mono (h0 i) (by linarith), k3.mono (h0 i) (by linarith),
    forall₂_withinM_mono (h0 i) (by linarith) k4, k5.mono (h0 i) (by linarith), k6.mono (h0 i) (by linarith)⟩

theorem NearGen.bound (h0 : ∀ i, 0 ≤ u i) {r c : Nat} {F : GenJac ℝ} {G : ∀ i, GenJac (S i)}
    (h : NearGen l val u r c F G) : ∃ K, 0 ≤ K ∧ ∀ᶠ i in l, F.CloseM (val i) (K * u i) (G i) := by
  obtain ⟨K1, p1, h1⟩ := h.homogenous.bound h0
  obtain ⟨K2, p2, h2⟩ := h.inhomogenous.bound h0
  refine ⟨K1 + K2, by positivity, ?_⟩
  filter_upwards [h1, h2, h.multiplicity] with i k1 k2 k3
  exact ⟨k1.mono (h0 i) (by linarith), forall₂_withinM_mono (h0 i) (by linarith) k2, k3⟩

namespace Ariths
variable (F : Ariths l val A u)
include F

theorem nearT_of {t : Tape ℝ} {T : ∀ i, Tape (S i)} {C : ℝ} (h : ∀ i, RelT (WithinM (val i) (C * u i)) t (T i))
    (he : ∀ i, t.SameExponentsM (val i) (T i)) : NearT l val u t T :=
  ⟨fun i => (h i).indeps, fun i => (h i).deps, fun i => (h i).ops, fun i => (h i).vals.length_eq.symm,
    F.near_fn fun i => (h i).vals, he⟩

theorem nearV_of {n : Nat} {xs : List ℝ} {X : ∀ i, List (S i)} {C : ℝ} (hn : xs.length = n)
    (h : ∀ i, List.Forall₂ (WithinM (val i) (C * u i)) xs (X i)) : NearV l val u n xs X :=
  ⟨hn, fun i => (h i).length_eq.symm.trans hn, F.near_within h⟩

omit F in
theorem nearM_of {r c : Nat} {M : DMat ℝ} {N : ∀ i, DMat (S i)} {C : ℝ} (hr : M.nrows = r) (hc : M.ncols = c)
    (h : ∀ i, M.CloseM (val i) (C * u i) (N i)) : NearM l val u r c M N :=
  ⟨hr, hc, fun i => (h i).nrows.trans hr, fun i => (h i).ncols.trans hc, fun i j hi hj =>
    WithinM.near (C := C) fun k => (h k).get i (hr ▸ hi) j (hc ▸ hj)⟩

theorem nearGen_of {r c : Nat} {G : GenJac ℝ} {G' : ∀ i, GenJac (S i)} {C : ℝ} (hr : G.homogenous.nrows = r)
    (hc : G.homogenous.ncols = c) (hi : G.inhomogenous.length = r) (h : ∀ i, G.CloseM (val i) (C * u i) (G' i)) :
    NearGen l val u r c G G' :=
  ⟨nearM_of hr hc fun i => (h i).homogenous, F.nearV_of hi fun i => (h i).inhomogenous,
    Eventually.of_forall fun i => (h i).multiplicity⟩

theorem nearGen_id (m : Nat) : NearGen l val u m m (nextOr m none) fun i => nextOr (S := S i) m none := by
  refine ⟨F.identity_near m, ⟨List.length_replicate, fun _ => List.length_replicate, fun k => ?_⟩,
    Eventually.of_forall fun _ => rfl⟩
  by_cases hk : k < m
  · simp only [nextOr, Option.getD_none, List.getElem?_replicate, hk, if_true, Option.getD_some]; exact F.near_zero
  · simp only [nextOr, Option.getD_none, List.getElem?_replicate, hk, if_false]; exact F.near_zero

end Ariths
end family

/-- Abs-normal forms of tapes. -/
theorem absNormalTape_machine {t : Tape ℝ} (hw : t.WF) (hd : t.InDomain) (C : ℝ) :
    ∃ F, (∀ σ : Sched, σ.Valid → (AbsNormalTape.new t >>= absNormalTape σ) = .ok F) ∧
    ∃ K u₀, 0 ≤ K ∧ 0 < u₀ ∧ ∀ (S : Type) (val : S → Option ℝ) (A : Flt S) (u : ℝ) (b : Tape S × Sched), Machine val A u →
      u ≤ u₀ → (RelT (WithinM val (C * u)) t b.1 ∧ t.SameExponentsM val b.1 ∧ b.2.Valid) →
      ∃ F', (@AbsNormalTape.new S b.1 >>= @absNormalTape S A b.2) = .ok F' ∧ F.CloseM val (K * u) F' := by
  have hex : ∃ F, absNormalTape Sched.seq (anfOf t) = .ok F := by
    have F0 : Ariths (pure () : Filter Unit) (fun _ => (some : ℝ → Option ℝ)) (fun _ => exactFlt) (fun _ => 0) :=
      ⟨fun _ => exactFlt_floating.machine, tendsto_const_nhds⟩
    obtain ⟨a, -, h, -⟩ := F0.absNormalTape_near (A := fun _ => exactFlt) (T := fun _ => t) hw hd
      (F0.nearT_of (A := fun _ => exactFlt) (C := 0) (fun _ => ⟨rfl, rfl, rfl, List.forall₂_same.mpr fun x _ =>
        ⟨x, rfl, by simp⟩⟩) fun _ => Tape.SameExponents.machine (fun _ _ _ _ _ _ _ _ => rfl) hw rfl)
      Sched.seq_valid fun _ => Sched.seq_valid
    exact ⟨a, h⟩
  obtain ⟨F, hF⟩ := hex
  refine ⟨F, fun σ hσ => ?_, ?_⟩
  · rw [AbsNormalTape.new_eq hw, bind_ok_eq, absNormalTape_sched hσ Sched.seq_valid hw, hF]
  · refine machine_uniform (β := fun S => Tape S × Sched)
      (cond := fun S val u b => RelT (WithinM val (C * u)) t b.1 ∧ t.SameExponentsM val b.1 ∧ b.2.Valid)
      (concl := fun K S val A u b => ∃ F', (@AbsNormalTape.new S b.1 >>= @absNormalTape S A b.2) = .ok F' ∧
        F.CloseM val (K * u) F') ?_
    intro ι l S val A u b Fa hb
    obtain ⟨a, G, h1, h2, h3⟩ := Fa.absNormalTape_near (A := A) (T := fun i => (b i).1) hw hd
      (Fa.nearT_of (A := A) (C := C) (fun i => (hb i).1) fun i => (hb i).2.1) Sched.seq_valid (τ := fun i => (b i).2)
      fun i => (hb i).2.2
    rw [hF] at h1
    injection h1 with h1
    subst h1
    obtain ⟨K, hK, hev⟩ := h3.bound fun i => (Fa.machine i).nonneg
    refine ⟨K, hK, hev.mono fun i hi => ⟨G i, ?_, hi⟩⟩
    rw [AbsNormalTape.new_eq ((hb i).1.wf hw), bind_ok_eq]
    exact h2 i

/-- Generalized Jacobians of tapes. -/
theorem generalizedJacobianTape_machine {t : Tape ℝ} (hw : t.WF) (hd : t.InDomain) {dx : List ℝ}
    (hx : dx.length = t.numIndeps) (bits : List UInt8) {next : Option (GenJac ℝ)}
    (hs : ∀ N, next = some N → N.homogenous.ncols = t.numDeps ∧ N.inhomogenous.length = N.homogenous.nrows)
    {σ₀ : Sched} (hσ₀ : σ₀.Valid) {G : GenJac ℝ} (hG : generalizedJacobianTape σ₀ t dx bits next = .ok G)
    (hmul : G.multiplicity = (next.map GenJac.multiplicity).getD 0) (C : ℝ) :
    ∃ K u₀, 0 ≤ K ∧ 0 < u₀ ∧ ∀ (S : Type) (val : S → Option ℝ) (A : Flt S) (u : ℝ)
      (b : Tape S × Sched × List S × Option (GenJac S)), Machine val A u → u ≤ u₀ →
      (RelT (WithinM val (C * u)) t b.1 ∧ t.SameExponentsM val b.1 ∧ b.2.1.Valid ∧
        List.Forall₂ (WithinM val (C * u)) dx b.2.2.1 ∧ Option.Rel (GenJac.CloseM val (C * u)) next b.2.2.2) →
      ∃ G', @generalizedJacobianTape S A b.2.1 b.1 b.2.2.1 bits b.2.2.2 = .ok G' ∧ G.CloseM val (K * u) G' := by
  refine machine_uniform (β := fun S => Tape S × Sched × List S × Option (GenJac S))
    (cond := fun S val u b => RelT (WithinM val (C * u)) t b.1 ∧ t.SameExponentsM val b.1 ∧ b.2.1.Valid ∧
        List.Forall₂ (WithinM val (C * u)) dx b.2.2.1 ∧ Option.Rel (GenJac.CloseM val (C * u)) next b.2.2.2)
    (concl := fun K S val A u b => ∃ G', @generalizedJacobianTape S A b.2.1 b.1 b.2.2.1 bits b.2.2.2 = .ok G' ∧
      G.CloseM val (K * u) G') ?_
  intro ι l S val A u b F hb
  have hT := F.nearT_of (A := A) (C := C) (fun i => (hb i).1) fun i => (hb i).2.1
  have hN : NearGen l val u (nextOr t.numDeps next).homogenous.nrows t.numDeps (nextOr t.numDeps next)
      fun i => nextOr (b i).1.numDeps (b i).2.2.2 := by
    have hnd : ∀ i, (b i).1.numDeps = t.numDeps := hT.numDeps
    simp only [hnd]
    cases next with
    | none =>
      have : ∀ i, (b i).2.2.2 = none := fun i => by
        have := (hb i).2.2.2.2
        cases h : (b i).2.2.2 with
        | none => rfl
        | some _ => rw [h] at this; cases this
      simp only [this]
      exact F.nearGen_id _
    | some N =>
      have : ∀ i, ∃ N', (b i).2.2.2 = some N' ∧ N.CloseM (val i) (C * u i) N' := fun i => by
        have := (hb i).2.2.2.2
        cases h : (b i).2.2.2 with
        | none => rw [h] at this; cases this
        | some N' => rw [h] at this; cases this with | some h => exact ⟨N', rfl, h⟩
      choose N' h1 h2 using this
      simp only [h1]
      exact F.nearGen_of rfl (hs N rfl).1 (hs N rfl).2 h2
  rw [generalizedJacobianTape_core] at hG
  have hmul' : G.multiplicity = (nextOr t.numDeps next).multiplicity := by
    rw [hmul]; cases next <;> rfl
  obtain ⟨a, G', h1, h2, h3⟩ := F.gjCore_near (T := fun i => (b i).1) hw hd hT
    (F.nearV_of (A := A) hx fun i => (hb i).2.2.2.1) bits hN hσ₀ (τ := fun i => (b i).2.1) (fun i => (hb i).2.2.1) hG hmul'
  rw [hG] at h1
  injection h1 with h1
  subst h1
  obtain ⟨K, hK, hev⟩ := h3.bound fun i => (F.machine i).nonneg
  refine ⟨K, hK, hev.mono fun i hi => ⟨G' i, ?_, hi⟩⟩
  rw [generalizedJacobianTape_core]
  exact h2 i

end Adv
