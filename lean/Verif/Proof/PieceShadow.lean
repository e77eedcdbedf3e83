import Verif.Proof.Pieces
import Verif.Proof.Probe

/-!
# The smooth pieces of user code

A shadow evaluation computes, for every choice of the signs of the abs arguments that vanish, the smooth function that results and
its derivative.
-/

namespace Adv
open Filter Topology

variable {E : Type} [NormedAddCommGroup E] [NormedSpace ℝ E]

/-- The sign of an abs argument; where it vanishes, it is chosen. -/
noncomputable def chosen (x0 : E) (s : (E → ℝ) → Bool) (g : E → ℝ) : ℝ :=
  if 0 < g x0 then 1 else if g x0 < 0 then -1 else if s g then 1 else -1

omit [NormedAddCommGroup E] [NormedSpace ℝ E] in
theorem chosen_mul_self (x0 : E) (s : (E → ℝ) → Bool) (g : E → ℝ) : chosen x0 s g * chosen x0 s g = 1 := by
  unfold chosen; split_ifs <;> norm_num

omit [NormedAddCommGroup E] [NormedSpace ℝ E] in
theorem chosen_fits (x0 : E) (s : (E → ℝ) → Bool) (g : E → ℝ) : chosen x0 s g * g x0 = |g x0| := by
  unfold chosen
  split_ifs with h1 h2 h3
  · rw [one_mul, abs_of_pos h1]
  · rw [neg_one_mul, abs_of_neg h2]
  all_goals
    have : g x0 = 0 := le_antisymm (not_lt.mp h1) (not_lt.mp h2)
    simp [this]

/-- Values, pieces and derivatives of the pieces. -/
abbrev PieceA (E : Type) := (((E → ℝ) → Bool) → E → ℝ) × (((E → ℝ) → Bool) → E → ℝ)

/-- The shadow. -/
noncomputable def pieceSh (x0 : E) : Shadow ℝ ((E → ℝ) × PieceA E) where
  cst c := (fun _ => c, fun _ _ => c, fun _ _ => 0)
  op o a b p q := (fun z => zfun o (p.1 z) (q.1 z),
    fun s z => if o = .Abs then chosen x0 s p.1 * p.2.1 s z else zfun o (p.2.1 s z) (q.2.1 s z),
    fun s v => if o = .Abs then chosen x0 s p.1 * p.2.2 s v else ffun o a b (p.2.2 s v) (q.2.2 s v))

omit [NormedAddCommGroup E] [NormedSpace ℝ E] in
theorem pieceSh_closed (x0 : E) : (pieceSh x0).ConstClosed := by
  intro o a b hc
  have h0 : ffun o a b (0 : ℝ) 0 = 0 := by
    have := Props.zeroTangent_of_lawful (K := ℝ) o a b hc
    rwa [LawfulFlt.zero_eq] at this
  show ((fun _ => zfun o a b), (fun s _ => if o = .Abs then chosen x0 s (fun _ => a) * a else zfun o a b),
    (fun s _ => if o = .Abs then chosen x0 s (fun _ => a) * 0 else ffun o a b 0 0)) = ((fun _ => zfun o a b), (fun _ _ => zfun o a b), fun _ _ => 0)
  refine Prod.ext rfl (Prod.ext ?_ ?_)
  · funext s z
    show (if o = .Abs then chosen x0 s (fun _ => a) * a else zfun o a b) = zfun o a b
    by_cases h : o = .Abs
    · subst h
      rw [if_pos rfl]
      exact chosen_fits x0 s fun _ => a
    · rw [if_neg h]
  · funext s z
    show (if o = .Abs then chosen x0 s (fun _ => a) * 0 else ffun o a b 0 0) = 0
    rw [h0, mul_zero]
    split_ifs <;> rfl

/-- The second component is smooth and the third its derivative; the first is the piece for the signs of the finitely many
functions in `S`. -/
structure PieceGood (x0 : E) (q : (E → ℝ) × PieceA E) : Prop where
  lip : ∃ K, ∃ s ∈ 𝓝 x0, LipschitzOnWith K q.1 s
  sel : ∃ S : Finset (E → ℝ), (∀ h ∈ S, ContinuousAt h x0) ∧
    (∀ s s' : (E → ℝ) → Bool, (∀ h ∈ S, s h = s' h) → q.2.1 s = q.2.1 s') ∧
    ∀ s z, (∀ h ∈ S, chosen x0 s h * h z = |h z|) → q.2.1 s z = q.1 z
  smooth : ∀ s, ContDiffAt ℝ 1 (q.2.1 s) x0 ∧ q.2.1 s x0 = q.1 x0
  deriv : ∀ s, ∃ L : E →L[ℝ] ℝ, HasFDerivAt (q.2.1 s) L x0 ∧ ∀ v, q.2.2 s v = L v

omit [NormedAddCommGroup E] [NormedSpace ℝ E] in
theorem chosen_congr {x0 : E} {s s' : (E → ℝ) → Bool} {g : E → ℝ} (h : s g = s' g) : chosen x0 s g = chosen x0 s' g := by
  unfold chosen; rw [h]

omit [NormedSpace ℝ E] in
theorem continuousAt_of_lip {g : E → ℝ} {x0 : E} (h : ∃ K, ∃ s ∈ 𝓝 x0, LipschitzOnWith K g s) : ContinuousAt g x0 := by
  obtain ⟨K, s, hs, hg⟩ := h
  exact hg.continuousOn.continuousAt hs

theorem PieceGood.cont {x0 : E} {q : (E → ℝ) × PieceA E} (h : PieceGood x0 q) : ContinuousAt q.1 x0 := continuousAt_of_lip h.lip

theorem PieceGood.abs {x0 : E} {p : (E → ℝ) × PieceA E} (hp : PieceGood x0 p) (a b : ℝ) :
    PieceGood x0 ((pieceSh x0).op .Abs a b p p) := by
  classical
  obtain ⟨S, s1, s2, s3⟩ := hp.sel
  obtain ⟨K, N, hN, hK⟩ := hp.lip
  refine ⟨⟨1 * K, N, hN, (lipschitzWith_one_norm (E := ℝ)).comp_lipschitzOnWith hK⟩, ⟨insert p.1 S, ?_, ?_, ?_⟩, ?_, ?_⟩
  · intro h hh
    rcases Finset.mem_insert.mp hh with rfl | hh
    · exact hp.cont
    · exact s1 h hh
  · intro s s' hs
    funext z
    show chosen x0 s p.1 * p.2.1 s z = chosen x0 s' p.1 * p.2.1 s' z
    rw [chosen_congr (hs p.1 (Finset.mem_insert_self _ _)),
      s2 s s' fun h hh => hs h (Finset.mem_insert_of_mem hh)]
  · intro s z hs
    show chosen x0 s p.1 * p.2.1 s z = |p.1 z|
    rw [s3 s z fun h hh => hs h (Finset.mem_insert_of_mem hh)]
    exact hs p.1 (Finset.mem_insert_self _ _)
  · intro s
    refine ⟨?_, ?_⟩
    · show ContDiffAt ℝ 1 (fun z => chosen x0 s p.1 * p.2.1 s z) x0
      exact contDiffAt_const.mul (hp.smooth s).1
    · show chosen x0 s p.1 * p.2.1 s x0 = |p.1 x0|
      rw [(hp.smooth s).2, chosen_fits]
  · intro s
    obtain ⟨L, h1, h2⟩ := hp.deriv s
    refine ⟨chosen x0 s p.1 • L, ?_, fun v => ?_⟩
    · show HasFDerivAt (fun z => chosen x0 s p.1 * p.2.1 s z) _ x0
      exact h1.const_mul _
    · show chosen x0 s p.1 * p.2.2 s v = _
      rw [h2]
      rfl

/-- Smooth operations. -/
theorem PieceGood.comp {x0 : E} {o : OpCode} (ho : o ≠ .Abs) {p q : (E → ℝ) × PieceA E} (hp : PieceGood x0 p) (hq : PieceGood x0 q)
    {φ : ℝ × ℝ → ℝ} {M : ℝ × ℝ →L[ℝ] ℝ} (hφ : HasFDerivAt φ M (p.1 x0, q.1 x0)) (hc : ContDiffAt ℝ 2 φ (p.1 x0, q.1 x0))
    (hz : ∀ z, zfun o (p.1 z) (q.1 z) = φ (p.1 z, q.1 z))
    (hz' : ∀ s z, zfun o (p.2.1 s z) (q.2.1 s z) = φ (p.2.1 s z, q.2.1 s z))
    (hf : ∀ s v, ffun o (p.1 x0) (q.1 x0) (p.2.2 s v) (q.2.2 s v) = M (p.2.2 s v, q.2.2 s v)) :
    PieceGood x0 ((pieceSh x0).op o (p.1 x0) (q.1 x0) p q) := by
  classical
  obtain ⟨S, s1, s2, s3⟩ := hp.sel
  obtain ⟨T, t1, t2, t3⟩ := hq.sel
  have e1 : ∀ s, ((pieceSh x0).op o (p.1 x0) (q.1 x0) p q).2.1 s = fun z => φ (p.2.1 s z, q.2.1 s z) := by
    intro s
    funext z
    show (if o = .Abs then _ else _) = _
    rw [if_neg ho, hz']
  have e0 : ((pieceSh x0).op o (p.1 x0) (q.1 x0) p q).1 = fun z => φ (p.1 z, q.1 z) := funext hz
  refine ⟨?_, ⟨S ∪ T, ?_, ?_, ?_⟩, ?_, ?_⟩
  · rw [e0]
    obtain ⟨K1, N1, hN1, hK1⟩ := hp.lip
    obtain ⟨K2, N2, hN2, hK2⟩ := hq.lip
    obtain ⟨K, N, hN, hK⟩ := (hc.of_le (m := 1) (by norm_num)).exists_lipschitzOnWith
    refine ⟨K * max K1 K2, N1 ∩ N2 ∩ {z | (p.1 z, q.1 z) ∈ N}, ?_, ?_⟩
    · exact inter_mem (inter_mem hN1 hN2) ((hp.cont.prodMk hq.cont).preimage_mem_nhds hN)
    · exact hK.comp ((hK1.mono fun z hz => hz.1.1).prodMk (hK2.mono fun z hz => hz.1.2)) fun z hz => hz.2
  · intro h hh
    rcases Finset.mem_union.mp hh with hh | hh
    · exact s1 h hh
    · exact t1 h hh
  · intro s s' hs
    rw [e1, e1, s2 s s' fun h hh => hs h (Finset.mem_union_left _ hh), t2 s s' fun h hh => hs h (Finset.mem_union_right _ hh)]
  · intro s z hs
    rw [e1, e0]
    show φ (p.2.1 s z, q.2.1 s z) = φ (p.1 z, q.1 z)
    rw [s3 s z fun h hh => hs h (Finset.mem_union_left _ hh), t3 s z fun h hh => hs h (Finset.mem_union_right _ hh)]
  · intro s
    rw [e1, e0]
    refine ⟨?_, by show φ (p.2.1 s x0, q.2.1 s x0) = φ (p.1 x0, q.1 x0); rw [(hp.smooth s).2, (hq.smooth s).2]⟩
    have hc' : ContDiffAt ℝ 1 φ (p.2.1 s x0, q.2.1 s x0) := by
      rw [(hp.smooth s).2, (hq.smooth s).2]; exact hc.of_le (by norm_num)
    exact ContDiffAt.comp (g := φ) (f := fun z => (p.2.1 s z, q.2.1 s z)) x0 hc' ((hp.smooth s).1.prodMk (hq.smooth s).1)
  · intro s
    obtain ⟨L, l1, l2⟩ := hp.deriv s
    obtain ⟨N, n1, n2⟩ := hq.deriv s
    refine ⟨M.comp (L.prod N), ?_, fun v => ?_⟩
    · rw [e1]
      have hφ' : HasFDerivAt φ M (p.2.1 s x0, q.2.1 s x0) := by rw [(hp.smooth s).2, (hq.smooth s).2]; exact hφ
      exact HasFDerivAt.comp (g := φ) (f := fun z => (p.2.1 s z, q.2.1 s z)) x0 hφ' (l1.prodMk n1)
    · show (if o = .Abs then _ else _) = _
      rw [if_neg ho, hf, l2, n2]
      rfl

/-- Pieces of user code. -/
noncomputable def pieceCalc (x0 : E) : NearCalc E (PieceA E) x0 where
  sh := pieceSh x0
  Good := PieceGood x0
  cst_fst _ := rfl
  op_fst _ _ _ _ _ := rfl
  cont _ h := h.cont
  lit c := {
    lip := ⟨0, Set.univ, univ_mem, (LipschitzWith.const c).lipschitzOnWith⟩
    sel := ⟨∅, by simp, fun _ _ _ => rfl, fun _ _ _ => rfl⟩
    smooth := fun _ => ⟨contDiffAt_const, rfl⟩
    deriv := fun _ => ⟨0, hasFDerivAt_const c x0, fun _ => rfl⟩ }
  un o p ho hp hs := by
    by_cases habs : o = .Abs
    · subst habs
      exact hp.abs _ _
    · obtain ⟨k, h1, hc2, h2⟩ := smooth_un ho habs hs
      have hφ : HasFDerivAt (fun r : ℝ × ℝ => zfun o r.1 r.1) (k • ContinuousLinearMap.fst ℝ ℝ ℝ) (p.1 x0, p.1 x0) :=
        HasDerivAt.comp_hasFDerivAt (h₂ := fun s : ℝ => zfun o s s) (f := fun r : ℝ × ℝ => r.1) (p.1 x0, p.1 x0) h1
          hasFDerivAt_fst
      have hcφ : ContDiffAt ℝ 2 (fun r : ℝ × ℝ => zfun o r.1 r.1) (p.1 x0, p.1 x0) :=
        ContDiffAt.comp (g := fun s : ℝ => zfun o s s) (f := fun r : ℝ × ℝ => r.1) (p.1 x0, p.1 x0) hc2 contDiffAt_fst
      exact hp.comp habs hp hφ hcφ (fun _ => rfl) (fun _ _ => rfl) fun s v => h2 _
  bin o arg p q ho hp hq hlit hs := by
    have habs : o ≠ .Abs := by rintro rfl; cases ho
    have hb : ∀ c, arg = .lit c → q.1 x0 = c := fun c hc => by rw [hlit c hc]; rfl
    obtain ⟨φ, M, h1, hc2, h2, h3⟩ := smooth_bin ho hs hb
    refine hp.comp habs hq h1 hc2 (fun z => h2 _ _ fun c hc => by rw [hlit c hc]; rfl)
      (fun s z => h2 _ _ fun c hc => by rw [hlit c hc]; rfl) fun s v => h3 _ _ fun c hc => by rw [hlit c hc]; rfl

end Adv
