import Verif.Proof.TapeNear
import Mathlib.Analysis.Normed.Ring.Units
import Mathlib.Analysis.Normed.Operator.Mul

/-!
# Generalized Jacobians near a point

The matrices that are returned at points near `x` are close to matrices that are returned at `x`.
-/

namespace Adv
open Filter Topology

/-- The result in direction 0 from a solution of the system of increments with the signs that were selected. -/
theorem result_signed {σ : Sched} (hσ : σ.Valid) {t : Tape ℝ} (h : t.WF) (hz : (zIds t).Nodup) (hd : t.deps.Nodup) {bits : List UInt8}
    {n : ℕ} (hni : t.numIndeps = n) {R : GenJac ℝ} (e : generalizedJacobianTape σ t (List.replicate n 0) bits none = .ok R)
    {sg : ℕ → ℝ} (hsg : ∀ k < t.numAbs, signature bits (zHatV t (List.replicate n 0)) k = sg k)
    {v : Fin n → ℝ} {J : ℕ → ℝ}
    (hJ : ∀ op ∈ t.ops, (op.opcode = .Const → J op.vid = 0) ∧ (op.opcode = .Abs → J op.vid = sg ((wIds t).idxOf op.vid) * J op.a1) ∧
      (op.opcode ≠ .Abs → op.opcode.computes = true → J op.vid = ffun op.opcode (fn t.vals op.a1) (fn t.vals op.a2) (J op.a1) (J op.a2)))
    (hJ0 : ∀ k, (∀ op ∈ activeOps t.ops, op.vid ≠ k) → J k = scatterFn t.indeps (List.ofFn v) (fun _ => 0) k) {m : ℕ}
    (hm : t.numDeps = m) (i : Fin m) : R.homogenous.linear n m v i = J (t.deps.getD i 0) := by
  obtain ⟨R', e1, e2, -⟩ := gj_piece hσ h hz hd (dx := List.replicate n 0) (by simp [hni]) bits
  rw [e] at e1
  injection e1 with e1
  subst e1
  have hwn : (wIds t).Nodup := (List.nodup_append.mp (indeps_wIds_nodup h)).2.1
  have hS : HiddenSolution t (List.ofFn v) J :=
    ⟨fun op ho hc => (hJ op ho).1 hc, fun op ho ha hc => (hJ op ho).2.2 ha hc, hJ0⟩
  have a1 : affine R.homogenous R.inhomogenous (List.ofFn v) = t.deps.map J := by
    refine hidden_tape h (by simp [hni]) hS (fun k hk => ?_) e2
    obtain ⟨op, ho, w1, w2⟩ := zId_eq hk
    have hidx : (wIds t).idxOf op.vid = k := by
      have hw : k < (wIds t).length := by rw [wIds_length]; exact hk
      rw [← w2, List.getD_eq_getElem _ _ hw]
      exact List.Nodup.idxOf_getElem hwn k hw
    rw [w2, w1, (hJ op (mem_absOps.mp ho).1).2.1 (mem_absOps.mp ho).2, hidx, mul_add, (signature_zeros h bits hk n).2, hsg k hk]
    ring
  have a0 : affine R.homogenous R.inhomogenous (List.replicate n 0) = t.deps.map fun _ => 0 := by
    refine hidden_tape h (by simp [hni]) (p := fun _ => 0) ⟨fun _ _ _ => rfl, fun op ho ha hc => ?_, fun k hk => ?_⟩
      (fun k hk => ?_) e2
    · have := Props.zeroTangent_of_lawful (K := ℝ) op.opcode (fn t.vals op.a1) (fn t.vals op.a2) hc
      rw [LawfulFlt.zero_eq] at this
      exact this.symm
    · rw [scatterFn_zeros]
    · rw [add_zero, (signature_zeros h bits hk n).2, sub_self]
  obtain ⟨U, -, r1, r2, -⟩ := e2
  have hsh := anfForm_shape t
  rw [hsh.b, hm] at r1
  rw [hsh.jmat.2, hni] at r2
  have q := linear_affine r1 r2 (by rw [a0, List.map_const', ← hm]; rfl) v i
  rw [← q, a1]
  have hi : i.val < t.deps.length := by have := i.2; have := hm; unfold Tape.numDeps at this; omega
  simp [List.getD_eq_getElem?_getD, hi]

/-- Matrices with close entries. -/
theorem clm_close {n m : ℕ} {L M : (Fin n → ℝ) →L[ℝ] (Fin m → ℝ)} {δ : ℝ} (hδ : 0 ≤ δ)
    (h : ∀ (j : Fin n) (i : Fin m), |L (fun k => if j = k then 1 else 0) i - M (fun k => if j = k then 1 else 0) i| ≤ δ) :
    ‖L - M‖ ≤ n * δ := by
  refine ContinuousLinearMap.opNorm_le_bound _ (by positivity) fun v => ?_
  rw [pi_norm_le_iff_of_nonneg (by positivity)]
  intro i
  have e := congrFun (LinearMap.pi_apply_eq_sum_univ ((L - M : (Fin n → ℝ) →L[ℝ] (Fin m → ℝ)) : (Fin n → ℝ) →ₗ[ℝ] (Fin m → ℝ)) v) i
  have e' : (L - M) v i = ∑ j : Fin n, v j * (L (fun k => if j = k then 1 else 0) i - M (fun k => if j = k then 1 else 0) i) := by
    refine Eq.trans e ?_
    rw [Finset.sum_apply]
    rfl
  rw [e', Real.norm_eq_abs]
  calc _ ≤ ∑ j : Fin n, |v j * (L (fun k => if j = k then 1 else 0) i - M (fun k => if j = k then 1 else 0) i)| :=
        Finset.abs_sum_le_sum_abs _ _
    _ ≤ ∑ _j : Fin n, ‖v‖ * δ := by
        refine Finset.sum_le_sum fun j _ => ?_
        rw [abs_mul]
        exact mul_le_mul (norm_le_pi_norm v j) (h j i) (abs_nonneg _) (norm_nonneg _)
    _ = n * δ * ‖v‖ := by
        rw [Finset.sum_const, Finset.card_univ, Fintype.card_fin, nsmul_eq_mul]; ring

section
variable {n : ℕ} {x : Fin n → ℝ} {l : Layout ((Fin n → ℝ) → ℝ)} {ds : List ℕ}

/-- The tape at `z`. -/
def tapeOn (n : ℕ) (l : Layout ((Fin n → ℝ) → ℝ)) (ds : List ℕ) (z : Fin n → ℝ) : Tape ℝ :=
  ⟨List.range n, ds, l.ops, l.vals.map fun g => g z, true⟩

theorem fn_tapeOn (z : Fin n → ℝ) (k : ℕ) : fn (tapeOn n l ds z).vals k = l.vals.getD k 0 z := by
  unfold fn tapeOn
  rw [List.getElem?_map, List.getD_eq_getElem?_getD]
  cases l.vals[k]? with
  | none => exact LawfulFlt.zero_eq
  | some g => rfl

theorem fn_tapeOn_cont (hl : LayoutNear x l) (k : ℕ) : ContinuousAt (fun z => fn (tapeOn n l ds z).vals k) x := by
  have e : (fun z => fn (tapeOn n l ds z).vals k) = l.vals.getD k 0 := funext fun z => fn_tapeOn z k
  rw [e, List.getD_eq_getElem?_getD]
  rcases h : l.vals[k]? with _ | g
  · exact continuousAt_const
  · exact hl.cont g (List.mem_of_getElem? h)

/-- The increments with fixed signs are continuous. -/
theorem signed_cont (hl : LayoutNear x l) (hssa : SSA l.ops) {sg init : ℕ → ℝ} {J : (Fin n → ℝ) → ℕ → ℝ}
    (hJ : ∀ z, (∀ op ∈ l.ops, (op.opcode = .Const → J z op.vid = 0) ∧ (op.opcode = .Abs → J z op.vid = sg op.vid * J z op.a1) ∧
      (op.opcode ≠ .Abs → op.opcode.computes = true → J z op.vid =
        ffun op.opcode (fn (tapeOn n l ds z).vals op.a1) (fn (tapeOn n l ds z).vals op.a2) (J z op.a1) (J z op.a2))) ∧
      ∀ k, (∀ op ∈ activeOps l.ops, op.vid ≠ k) → J z k = init k) (k : ℕ) : ContinuousAt (fun z => J z k) x := by
  induction k using Nat.strongRecOn with
  | _ k ih =>
    by_cases hex : ∃ op ∈ activeOps l.ops, op.vid = k
    · obtain ⟨op, ho, rfl⟩ := hex
      have ho' := (mem_activeOps.mp ho).1
      by_cases hc : op.opcode.computes = true
      · have m1 := ih _ (hssa.a1_lt op ho hc)
        have m2 := ih _ (hssa.a2_lt op ho hc)
        by_cases ha : op.opcode = .Abs
        · have e : (fun z => J z op.vid) = fun z => sg op.vid * J z op.a1 := funext fun z => ((hJ z).1 op ho').2.1 ha
          rw [e]
          exact continuousAt_const.mul m1
        · have e : (fun z => J z op.vid) = fun z => ffun op.opcode (l.vals.getD op.a1 0 z) (l.vals.getD op.a2 0 z) (J z op.a1) (J z op.a2) :=
            funext fun z => by rw [((hJ z).1 op ho').2.2 ha hc, fn_tapeOn, fn_tapeOn]
          rw [e]
          exact hl.incr op ho' hc ha (fun z => J z op.a1) (fun z => J z op.a2) m1 m2 (fun he => by rw [he]) fun c hc1 hc2 hc3 =>
            funext fun z => by rw [← hc3]; exact ((hJ z).1 c hc1).1 hc2
      · have hc' : op.opcode = .Const := by
          by_contra hne
          exact hc ((OpCode.computes_iff _).mpr ⟨(mem_activeOps.mp ho).2, hne⟩)
        have e : (fun z => J z op.vid) = fun _ => 0 := funext fun z => ((hJ z).1 op ho').1 hc'
        rw [e]
        exact continuousAt_const
    · have hk : ∀ op ∈ activeOps l.ops, op.vid ≠ k := fun op ho e => hex ⟨op, ho, e⟩
      have e : (fun z => J z k) = fun _ => init k := funext fun z => (hJ z).2 k hk
      rw [e]
      exact continuousAt_const

/-- The matrices near `x` are close to matrices at `x`, and there are only finitely many at `x`. -/
theorem results_near {σ : Sched} (hσ : σ.Valid) {m : ℕ} (hl : LayoutNear x l) (hwf : ∀ᶠ z in 𝓝 x, (tapeOn n l ds z).WF)
    (hz : (zIds (tapeOn n l ds x)).Nodup) (hd : ds.Nodup) (hm : ds.length = m) :
    {L : (Fin n → ℝ) →L[ℝ] (Fin m → ℝ) | ∃ bits R, generalizedJacobianTape σ (tapeOn n l ds x) (List.replicate n 0) bits none = .ok R ∧
      L = R.homogenous.linear n m}.Finite ∧
    ∀ ε > 0, ∀ᶠ z in 𝓝 x, ∀ bits R, generalizedJacobianTape σ (tapeOn n l ds z) (List.replicate n 0) bits none = .ok R →
      ∃ bits' R', generalizedJacobianTape σ (tapeOn n l ds x) (List.replicate n 0) bits' none = .ok R' ∧
        ‖R.homogenous.linear n m - R'.homogenous.linear n m‖ ≤ ε := by
  classical
  have hwx := hwf.self_of_nhds
  set s := (tapeOn n l ds x).numAbs with hs
  have hni : ∀ z, (tapeOn n l ds z).numIndeps = n := fun z => by simp [Tape.numIndeps, tapeOn]
  -- the increments
  have hJex : ∀ (p : Fin s → Bool) (j : Fin n) (z : Fin n → ℝ), ∃ J : ℕ → ℝ, _ := fun p j z =>
    exists_signed hwx.ssa (fn (tapeOn n l ds z).vals) (fun vid => pattern p ((wIds (tapeOn n l ds x)).idxOf vid))
      (scatterFn (List.range n) (List.ofFn fun k : Fin n => if j = k then (1 : ℝ) else 0) fun _ => 0)
  choose J hJ using hJex
  have hcont : ∀ p j k, ContinuousAt (fun z => J p j z k) x := fun p j k => signed_cont (ds := ds) (J := J p j)
    (sg := fun vid => pattern p ((wIds (tapeOn n l ds x)).idxOf vid)) hl hwx.ssa (hJ p j) k
  have hres : ∀ z, (tapeOn n l ds z).WF → ∀ (p : Fin s → Bool) bits R,
      generalizedJacobianTape σ (tapeOn n l ds z) (List.replicate n 0) bits none = .ok R →
      (∀ k < s, signature bits (zHatV (tapeOn n l ds z) (List.replicate n 0)) k = pattern p k) → ∀ (j : Fin n) (i : Fin m),
      R.homogenous.linear n m (fun k => if j = k then 1 else 0) i = J p j z (ds.getD i 0) := by
    intro z hw p bits R e hsg j i
    exact result_signed hσ hw hz hd (hni z) e (sg := pattern p) hsg (J := J p j z) (hJ p j z).1 (hJ p j z).2 hm i
  have hpat : ∀ z, (tapeOn n l ds z).WF → ∀ bits, ∃ p : Fin s → Bool,
      ∀ k < s, signature bits (zHatV (tapeOn n l ds z) (List.replicate n 0)) k = pattern p k := by
    intro z hw bits
    refine ⟨fun k => decide (signature bits (zHatV (tapeOn n l ds z) (List.replicate n 0)) k = 1), fun k hk => ?_⟩
    have h1 : signature bits (zHatV (tapeOn n l ds z) (List.replicate n 0)) k = 1 ∨
        signature bits (zHatV (tapeOn n l ds z) (List.replicate n 0)) k = -1 := by
      unfold signature; split_ifs <;> simp
    unfold pattern
    rw [dif_pos hk]
    rcases h1 with h1 | h1 <;> simp only [h1] <;> norm_num
  constructor
  · have hfin : (⋃ p : Fin s → Bool, {L : (Fin n → ℝ) →L[ℝ] (Fin m → ℝ) | ∀ (j : Fin n) (i : Fin m),
        L (fun k => if j = k then 1 else 0) i = J p j x (ds.getD i 0)}).Finite := by
      refine Set.finite_iUnion fun p => Set.Subsingleton.finite fun L hL M hM => ?_
      have := clm_close (L := L) (M := M) le_rfl fun j i => by rw [hL j i, hM j i, sub_self, abs_zero]
      rw [mul_zero] at this
      exact sub_eq_zero.mp (norm_le_zero_iff.mp this)
    refine hfin.subset ?_
    rintro L ⟨bits, R, e, rfl⟩
    obtain ⟨p, hp⟩ := hpat x hwx bits
    exact Set.mem_iUnion.mpr ⟨p, fun j i => hres x hwx p bits R e hp j i⟩
  · intro ε hε
    set δ := ε / (n + 1) with hδ
    have hδ0 : 0 < δ := by positivity
    have hclose : ∀ᶠ z in 𝓝 x, ∀ q : (Fin s → Bool) × Fin n × Fin m, |J q.1 q.2.1 z (ds.getD q.2.2 0) - J q.1 q.2.1 x (ds.getD q.2.2 0)| < δ := by
      refine Filter.eventually_all.mpr fun q => ?_
      filter_upwards [(hcont q.1 q.2.1 (ds.getD q.2.2 0)).eventually (Metric.ball_mem_nhds _ hδ0)] with z hz
      rwa [Real.dist_eq] at hz
    have hsign : ∀ᶠ z in 𝓝 x, ∀ k : Fin s, (0 < zVal (tapeOn n l ds x) k → 0 < zVal (tapeOn n l ds z) k) ∧
        (zVal (tapeOn n l ds x) k < 0 → zVal (tapeOn n l ds z) k < 0) := by
      refine Filter.eventually_all.mpr fun k => ?_
      have hc : ContinuousAt (fun z => zVal (tapeOn n l ds z) k) x := fn_tapeOn_cont hl _
      rcases lt_trichotomy (zVal (tapeOn n l ds x) k) 0 with h | h | h
      · filter_upwards [hc.eventually (gt_mem_nhds h)] with z hz using ⟨fun h' => absurd h' h.asymm, fun _ => hz⟩
      · exact .of_forall fun z => ⟨fun h' => absurd h h'.ne', fun h' => absurd h h'.ne⟩
      · filter_upwards [hc.eventually (lt_mem_nhds h)] with z hz using ⟨fun _ => hz, fun h' => absurd h' h.asymm⟩
    filter_upwards [hclose, hsign, hwf] with z h1 h2 hw bits R e
    obtain ⟨p, hp⟩ := hpat z hw bits
    have hfit : ∀ k < s, 0 ≤ pattern p k * (zHatV (tapeOn n l ds x) (List.replicate n 0)).getD k 0 := by
      intro k hk
      rw [zHatV_getD hk, zHat_zeros hwx]
      obtain ⟨s1, s2⟩ := signature_zeros hw bits (k := k) hk n
      rw [hp k hk] at s1 s2
      have h3 := h2 ⟨k, hk⟩
      rcases lt_trichotomy (zVal (tapeOn n l ds x) k) 0 with h | h | h
      · have h4 := h3.2 h
        rw [abs_of_neg h4] at s2
        have : pattern p k = -1 := by
          have : (pattern p k + 1) * zVal (tapeOn n l ds z) k = 0 := by linarith
          rcases mul_eq_zero.mp this with h5 | h5
          · linarith
          · exact absurd h5 h4.ne
        rw [this]; linarith
      · rw [h, mul_zero]
      · have h4 := h3.1 h
        rw [abs_of_pos h4] at s2
        have : pattern p k = 1 := by
          have : (pattern p k - 1) * zVal (tapeOn n l ds z) k = 0 := by linarith
          rcases mul_eq_zero.mp this with h5 | h5
          · linarith
          · exact absurd h5 h4.ne'
        rw [this]; linarith
    obtain ⟨bits', hb⟩ := exists_bits _ s p hfit
    obtain ⟨R', e', -⟩ := gj_piece hσ hwx hz hd (dx := List.replicate n 0) (by simp [hni]) bits'
    refine ⟨bits', R', e', ?_⟩
    refine (clm_close hδ0.le fun j i => ?_).trans ?_
    · rw [hres z hw p bits R e hp j i, hres x hwx p bits' R' e' hb j i]
      exact (h1 (p, j, i)).le
    · rw [hδ, ← mul_div_assoc, div_le_iff₀ (by positivity)]
      nlinarith

end

/-- The tapes near a point, recorded in any state. -/
theorem recorded_near {n : ℕ} {x : Fin n → ℝ} {f : Func ℝ} {w w' : World ℝ} {t : Tape ℝ} (hw : w.nextId < usizeMax)
    (ht : f.tape (List.ofFn x) w = (.ok t, w')) (hs : f.Along piecewiseSmooth w (duals x 0)) :
    ∃ (l : Layout ((Fin n → ℝ) → ℝ)) (ds : List ℕ), LayoutNear x l ∧ t = tapeOn n l ds x ∧
      ∀ᶠ z in 𝓝 x, (tapeOn n l ds z).WF ∧
        ∀ v : World ℝ, v.nextId < usizeMax → ∃ v', f.tape (List.ofFn z) v = (.ok (tapeOn n l ds z), v') := by
  have hspec : ∀ (z : Fin n → ℝ) (v v' : World ℝ) (u : Tape ℝ), v.nextId < usizeMax → f.tape (List.ofFn z) v = (.ok u, v') →
      TapeOf f (List.ofFn z) u := by
    intro z v v' u hv hu
    have hsp := (Func.tape_spec f (List.ofFn z) v hv).2
    rw [hu] at hsp
    exact hsp.ok_left.choose_spec.2
  have hT := hspec x w w' t hw ht
  have hF : (f.evalFloat (List.ofFn x) w).1 = .ok (List.ofFn fun i : Fin t.deps.length => fn t.vals (t.deps[i])) := by
    rw [Func.evalFloat_eq]
    refine hT.out.trans ?_
    congr 1
    apply List.ext_getElem
    · simp
    · intro i h1 h2
      simp
  obtain ⟨l, ds, hl, -, hev⟩ := tape_near hs hF
  have htape : ∀ (z : Fin n → ℝ), f.layoutTape (List.ofFn z) = some (tapeOn n l ds z) → ∀ v : World ℝ, v.nextId < usizeMax →
      ∃ v', f.tape (List.ofFn z) v = (.ok (tapeOn n l ds z), v') := by
    intro z hz v hv
    have h1 := Func.tape_layout f (List.ofFn z) v hv
    rw [hz] at h1
    rcases h2 : f.tape (List.ofFn z) v with ⟨_ | u, v'⟩
    · rw [h2] at h1; cases h1
    · rw [h2] at h1
      injection h1 with h1
      exact ⟨v', by rw [← h1]⟩
  refine ⟨l, ds, hl, ?_, ?_⟩
  · obtain ⟨v', hv'⟩ := htape x hev.self_of_nhds w hw
    rw [ht] at hv'
    exact Except.ok.inj (congrArg Prod.fst hv')
  · filter_upwards [hev] with z hz
    obtain ⟨v', hv'⟩ := htape z hz w hw
    exact ⟨(hspec z w v' _ hw hv').wf, htape z hz⟩

/-- Operators near finitely many invertible ones are invertible, and their inverses are bounded. -/
theorem units_near {E : Type} [NormedAddCommGroup E] [NormedSpace ℝ E] [CompleteSpace E] {S : Set (E →L[ℝ] E)} (hS : S.Finite)
    (hu : ∀ L ∈ S, IsUnit L) : ∃ ε > 0, ∃ C : ℝ, ∀ L ∈ S, ∀ M : E →L[ℝ] E, ‖M - L‖ ≤ ε → IsUnit M ∧ ‖Ring.inverse M‖ ≤ C := by
  obtain ⟨C, hC⟩ := (hS.image fun L => ‖Ring.inverse L‖).bddAbove
  have h1 : ∀ L ∈ S, ∃ ε > 0, ∀ M : E →L[ℝ] E, ‖M - L‖ ≤ ε → IsUnit M ∧ ‖Ring.inverse M‖ ≤ C + 1 := by
    intro L hL
    obtain ⟨u, rfl⟩ := hu L hL
    have hc := (NormedRing.inverse_continuousAt u).norm
    have hlt : ‖Ring.inverse (u : E →L[ℝ] E)‖ < C + 1 := by
      have : ‖Ring.inverse (u : E →L[ℝ] E)‖ ≤ C := hC (Set.mem_image_of_mem (fun L => ‖Ring.inverse L‖) hL)
      linarith
    have hev : ∀ᶠ M in 𝓝 (u : E →L[ℝ] E), IsUnit M ∧ ‖Ring.inverse M‖ < C + 1 :=
      (show ∀ᶠ M in 𝓝 (u : E →L[ℝ] E), IsUnit M from Units.nhds u).and (hc.eventually (gt_mem_nhds hlt))
    obtain ⟨ε, he, hb⟩ := Metric.eventually_nhds_iff.mp hev
    refine ⟨ε / 2, by positivity, fun M hM => ?_⟩
    have := hb (y := M) (by rw [dist_eq_norm]; linarith)
    exact ⟨this.1, this.2.le⟩
  choose! ε he hb using h1
  rcases S.eq_empty_or_nonempty with rfl | hne
  · exact ⟨1, one_pos, 0, fun L hL => absurd hL (Set.notMem_empty L)⟩
  · obtain ⟨L0, hL0, hmin⟩ := Set.exists_min_image S ε hS hne
    exact ⟨ε L0, he L0 hL0, C + 1, fun L hL M hM => hb L hL M (hM.trans (hmin L hL))⟩

end Adv
