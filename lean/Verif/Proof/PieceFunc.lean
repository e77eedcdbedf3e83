import Verif.Proof.PieceShadow
import Verif.Proof.Selection
import Verif.Proof.Limiting

/-!
# The smooth pieces of a recorded function

They are those that `generalized_jacobian` selects in direction 0.
-/

namespace Adv
open Filter Topology

/-- The inputs of a shadow evaluation of the pieces. -/
noncomputable def pieceInit {n : ℕ} (t : Tape ℝ) (k : ℕ) : ((Fin n → ℝ) → ℝ) × PieceA (Fin n → ℝ) :=
  if h : k < n then (fun z => z ⟨k, h⟩, fun _ z => z ⟨k, h⟩, fun _ v => v ⟨k, h⟩)
  else (fun _ => fn t.vals k, fun _ _ => fn t.vals k, fun _ _ => 0)

section tape
variable {n : ℕ} {x : Fin n → ℝ} {f : Func ℝ} {t : Tape ℝ} {I : ℕ → ((Fin n → ℝ) → ℝ) × PieceA (Fin n → ℝ)}

/-- The functions have the values of the tape. -/
theorem piece_vals (h : TapeOf f (List.ofFn x) t) (hI : Solves (pieceSh x) I t.ops (fn t.vals))
    (h0 : ∀ k, (∀ op ∈ activeOps t.ops, op.vid ≠ k) → I k = pieceInit t k) (k : ℕ) : (I k).1 x = fn t.vals k := by
  induction k using Nat.strongRecOn with
  | _ k ih =>
    by_cases hop : ∃ op ∈ activeOps t.ops, op.vid = k
    · obtain ⟨op, hop, rfl⟩ := hop
      have hop' := (mem_activeOps.mp hop).1
      by_cases hc : op.opcode.computes = true
      · rw [(hI op hop').2 hc]
        show zfun _ ((I op.a1).1 x) ((I op.a2).1 x) = _
        rw [ih _ (h.wf.ssa.a1_lt op hop hc), ih _ (h.wf.ssa.a2_lt op hop hc)]
        exact ((Tape.consistent_iff h.wf).mp h.consistent op hop' hc).symm
      · have hc' : op.opcode = .Const := by
          by_contra hne
          exact hc ((OpCode.computes_iff _).mpr ⟨(mem_activeOps.mp hop).2, hne⟩)
        rw [(hI op hop').1 hc']
        rfl
    · rw [h0 k fun op ho e => hop ⟨op, ho, e⟩]
      unfold pieceInit
      split_ifs with hk
      · obtain ⟨l, hl⟩ := h.vals
        show x ⟨k, hk⟩ = fn t.vals k
        unfold fn
        rw [← hl, List.getElem?_append_left (by simpa using hk)]
        simp [hk]
      · rfl

/-- The derivatives of the pieces solve the equations of the tape apart from those of abs. -/
theorem piece_hidden (h : TapeOf f (List.ofFn x) t) (hI : Solves (pieceSh x) I t.ops (fn t.vals))
    (h0 : ∀ k, (∀ op ∈ activeOps t.ops, op.vid ≠ k) → I k = pieceInit t k) (s : ((Fin n → ℝ) → ℝ) → Bool) (v : Fin n → ℝ) :
    HiddenSolution t (List.ofFn v) fun k => (I k).2.2 s v := by
  constructor
  · intro op hop hc
    rw [(hI op hop).1 hc]
    rfl
  · intro op hop ha hc
    rw [(hI op hop).2 hc]
    show (if op.opcode = .Abs then _ else _) = _
    rw [if_neg ha]
  · intro k hk
    rw [h0 k hk]
    have hi : t.indeps = List.range n := by rw [h.indeps, List.length_ofFn]
    unfold pieceInit
    split_ifs with hkn
    · have hki : k < t.indeps.length := by rw [hi]; simpa using hkn
      have hid : t.indeps[k] = k := by simp [hi]
      have g := scatterFn_get (xs := List.ofFn v) (f := fun _ => (0 : ℝ)) h.wf.indeps_nodup hki (by simpa using hkn)
      rw [hid] at g
      rw [g]
      simp
    · rw [scatterFn_not_mem (by rw [hi]; simpa using hkn)]

/-- Without increments, the switching values are those of the tape. -/
theorem zHat_zeros {t : Tape ℝ} (h : t.WF) (m i : ℕ) : zHat t (List.replicate m 0) i = zVal t i := by
  obtain ⟨J, hJ, hJ0⟩ := exists_solves selSh h.ssa (fn t.vals) fun _ => (0 : ℝ)
  have := probe_fst h hJ.probe (dx := List.replicate m 0) (fun k _ => by rw [scatterFn_zeros]) ((zIds t).getD i 0)
  unfold zHat zVal
  rw [← this, add_zero]

/-- Every choice of signs belongs to some sign bits, for which the result is the derivative of the piece. -/
theorem piece_bits {σ : Sched} (hσ : σ.Valid) (h : TapeOf f (List.ofFn x) t) (hz : (zIds t).Nodup) (hd : t.deps.Nodup)
    (hI : Solves (pieceSh x) I t.ops (fn t.vals))
    (h0 : ∀ k, (∀ op ∈ activeOps t.ops, op.vid ≠ k) → I k = pieceInit t k) (s : ((Fin n → ℝ) → ℝ) → Bool) :
    ∃ bits R, generalizedJacobianTape σ t (List.replicate n 0) bits none = .ok R ∧ R.homogenous.nrows = t.numDeps ∧
      R.homogenous.ncols = n ∧
      ∀ v, affine R.homogenous R.inhomogenous (List.ofFn v) = t.deps.map fun d => (I d).2.2 s v := by
  classical
  have hni : t.numIndeps = n := by simp [Tape.numIndeps, h.indeps]
  let sg : ℕ → ℝ := fun i => chosen x s (I ((zIds t).getD i 0)).1
  have hsg : ∀ i, sg i * zVal t i = |zVal t i| := by
    intro i
    have := chosen_fits x s (I ((zIds t).getD i 0)).1
    rw [piece_vals h hI h0] at this
    exact this
  have hpat : ∀ i < t.numAbs, pattern (s := t.numAbs) (fun i => decide (sg i = 1)) i = sg i := by
    intro i hi
    unfold pattern
    rw [dif_pos hi]
    have : sg i = 1 ∨ sg i = -1 := mul_self_eq_one_iff.mp (chosen_mul_self _ _ _)
    rcases this with e | e
    · simp [e]
    · simp only [e]; norm_num
  obtain ⟨bits, hb⟩ := exists_bits (zHatV t (List.replicate n 0)) t.numAbs (fun i => decide (sg i = 1)) (by
    intro i hi
    rw [hpat i hi, zHatV_getD hi, zHat_zeros h.wf, hsg]
    exact abs_nonneg _)
  obtain ⟨R, e1, e2, -⟩ := gj_piece hσ h.wf hz hd (dx := List.replicate n 0) (by simp [hni]) bits
  have hsh := anfForm_shape t
  refine ⟨bits, R, e1, ?_, ?_, fun v => ?_⟩
  · obtain ⟨U, -, q, -⟩ := e2
    rw [q, hsh.b]
  · obtain ⟨U, -, -, q, -⟩ := e2
    rw [q, hsh.jmat.2, hni]
  refine hidden_tape h.wf (by simp [hni]) (piece_hidden h hI h0 s v) (fun k hk => ?_) e2
  rw [hb k hk, hpat k hk, mul_add, hsg]
  obtain ⟨op, ho, w1, w2⟩ := zId_eq hk
  obtain ⟨k1, k2⟩ := mem_absOps.mp ho
  show (I ((wIds t).getD k 0)).2.2 s v = |zVal t k| + chosen x s (I ((zIds t).getD k 0)).1 * (I ((zIds t).getD k 0)).2.2 s v - |zVal t k|
  rw [w2, (hI op k1).2 (by rw [k2]; rfl), w1]
  show (if op.opcode = .Abs then chosen x s (I op.a1).1 * (I op.a1).2.2 s v else _) = _
  rw [if_pos k2]
  ring

end tape

/-- Near a point a function that was recorded there is a selection of finitely many smooth functions, whose derivatives are
results in direction 0. -/
theorem func_pieces {σ : Sched} (hσ : σ.Valid) {n m : ℕ} {x : Fin n → ℝ} {f : Func ℝ} {t : Tape ℝ} {w : World ℝ}
    (h : TapeOf f (List.ofFn x) t) (hz : (zIds t).Nodup) (hd : t.deps.Nodup) (hs : f.Along piecewiseSmooth w (duals x 0))
    {F : (Fin n → ℝ) → Fin m → ℝ} (hF : ∀ᶠ z in 𝓝 x, (f.evalFloat (List.ofFn z) w).1 = .ok (List.ofFn (F z))) :
    ∃ (ι : Type) (_ : Finite ι) (P : ι → (Fin n → ℝ) → Fin m → ℝ), (∀ i, ContDiffAt ℝ 1 (P i) x ∧ P i x = F x) ∧
      (∀ᶠ z in 𝓝 x, ∃ i, F z = P i z) ∧ (∃ K, ∃ N ∈ 𝓝 x, LipschitzOnWith K F N) ∧
      ∀ i, ∃ bits R, generalizedJacobianTape σ t (List.replicate n 0) bits none = .ok R ∧
        R.homogenous.linear n m = fderiv ℝ (P i) x := by
  classical
  obtain ⟨I, hI, h0⟩ := exists_solves (pieceSh x) h.wf.ssa (fn t.vals) (pieceInit t)
  have hI0 : ∀ k (hk : k < n), I k = (fun z => z ⟨k, hk⟩, fun _ z => z ⟨k, hk⟩, fun _ v => v ⟨k, hk⟩) := by
    intro k hk
    rw [h0 k (by
      intro op hop he
      exact h.wf.vid_fresh op hop (by rw [he, h.indeps]; simpa using hk)), pieceInit, dif_pos hk]
  let G : List (((Fin n → ℝ) → ℝ) × PieceA (Fin n → ℝ)) := List.ofFn fun i : Fin n => I i
  have hGood : ∀ q ∈ G, (pieceCalc x).Good q := by
    intro q hq
    obtain ⟨i, rfl⟩ := List.mem_ofFn.mp hq
    show PieceGood x (I i)
    rw [hI0 i i.2]
    exact {
      lip := ⟨1, Set.univ, univ_mem, (LipschitzWith.eval i).lipschitzOnWith⟩
      sel := ⟨∅, by simp, fun _ _ _ => rfl, fun _ _ _ => rfl⟩
      smooth := fun _ => ⟨(contDiff_apply ℝ ℝ i).contDiffAt, rfl⟩
      deriv := fun _ => ⟨ContinuousLinearMap.proj i, hasFDerivAt_apply i x, fun _ => rfl⟩ }
  have hover : ∀ z, Calculus.Over G z (duals z 0) := by
    intro z
    refine ⟨duals_ctx _ _, ?_⟩
    rw [duals_v, List.map_ofFn]
    congr 1
    funext i
    show z i = (I i).1 z
    rw [hI0 i i.2]
  obtain ⟨ys, y1, y2, y3⟩ := h.shadow _ (pieceSh x) I (G.map (NearCalc.tag x)) (Or.inl (pieceSh_closed x)) hI
    (by
      rw [List.map_map, List.map_ofFn]
      congr 1
      funext i
      show (I i).1 x = x i
      rw [hI0 i i.2]) (by
      intro k s hs
      rw [List.getElem?_map] at hs
      by_cases hk : k < n
      · rw [List.getElem?_ofFn] at hs
        simp only [hk, dif_pos, Option.map_some] at hs
        injection hs with hs
        rw [← hs]
        rfl
      · rw [List.getElem?_eq_none (by simpa [G] using hk)] at hs
        cases hs)
  obtain ⟨Y, rfl, g1, g2⟩ := (pieceCalc x).progs w f.progs G (duals x 0) ys hGood (hover x) hs y1
  have hY : Y = t.deps.map I := by
    rw [List.map_map] at y3
    simpa [NearCalc.tag, Function.comp_def] using y3
  subst hY
  have hev : ∀ᶠ z in 𝓝 x, (f.evalFloat (List.ofFn z) w).1 = .ok (t.deps.map fun d => (I d).1 z) := by
    filter_upwards [g2] with z hz
    obtain ⟨zs, k1, k2⟩ := hz (duals z 0) (hover z)
    rw [evalFloat_of_run k1, k2.2, List.map_map]
    rfl
  have hm : t.numDeps = m := by
    have e1 := hF.self_of_nhds
    rw [hev.self_of_nhds] at e1
    injection e1 with e1
    simpa [Tape.numDeps] using congrArg List.length e1
  subst hm
  let d : Fin t.numDeps → ℕ := fun i => t.deps[i]
  have hdeps : ∀ (g : ℕ → ℝ), t.deps.map g = List.ofFn fun i => g (d i) := by
    intro g
    apply List.ext_getElem
    · simp [Tape.numDeps]
    · intro i h1 h2; simp [d]
  have hFd : ∀ᶠ z in 𝓝 x, ∀ i, F z i = (I (d i)).1 z := by
    filter_upwards [hF, hev] with z k1 k2
    rw [k1] at k2
    injection k2 with k2
    rw [hdeps] at k2
    exact fun i => congrFun (List.ofFn_injective k2) i
  have hgd : ∀ i, PieceGood x (I (d i)) := fun i => g1 _ (List.mem_map_of_mem (List.getElem_mem _))
  choose S s1 s2 s3 using fun i => (hgd i).sel
  let U : Finset ((Fin n → ℝ) → ℝ) := Finset.univ.biUnion S
  have hSU : ∀ i, ∀ g ∈ S i, g ∈ U := fun i g hg => Finset.mem_biUnion.mpr ⟨i, Finset.mem_univ i, hg⟩
  have hUc : ∀ g ∈ U, ContinuousAt g x := by
    intro g hg
    obtain ⟨i, -, hg⟩ := Finset.mem_biUnion.mp hg
    exact s1 i g hg
  let ext : (U → Bool) → ((Fin n → ℝ) → ℝ) → Bool := fun b g => if hg : g ∈ U then b ⟨g, hg⟩ else false
  refine ⟨U → Bool, inferInstance, fun b z i => (I (d i)).2.1 (ext b) z, fun b => ?_, ?_, ?_, fun b => ?_⟩
  · refine ⟨contDiffAt_pi.mpr fun i => ((hgd i).smooth (ext b)).1, funext fun i => ?_⟩
    rw [hFd.self_of_nhds i]
    exact ((hgd i).smooth (ext b)).2
  · have hsign : ∀ᶠ z in 𝓝 x, ∀ g ∈ U, (0 < g x → 0 < g z) ∧ (g x < 0 → g z < 0) := by
      rw [Filter.eventually_all_finset]
      intro g hg
      refine Filter.Eventually.and ?_ ?_
      · by_cases hp : 0 < g x
        · filter_upwards [(hUc g hg).eventually (lt_mem_nhds hp)] with z hz _ using hz
        · exact .of_forall fun z hz => absurd hz hp
      · by_cases hp : g x < 0
        · filter_upwards [(hUc g hg).eventually (gt_mem_nhds hp)] with z hz _ using hz
        · exact .of_forall fun z hz => absurd hz hp
    filter_upwards [hFd, hsign] with z hz1 hz2
    refine ⟨fun g => decide (0 ≤ g.1 z), ?_⟩
    funext i
    rw [hz1 i]
    refine (s3 i _ z fun g hg => ?_).symm
    have hgU := hSU i g hg
    obtain ⟨p1, p2⟩ := hz2 g hgU
    unfold chosen
    simp only [ext, dif_pos hgU, decide_eq_true_eq]
    split_ifs with q1 q2 q3
    · rw [one_mul, abs_of_pos (p1 q1)]
    · rw [neg_one_mul, abs_of_neg (p2 q2)]
    · rw [one_mul, abs_of_nonneg q3]
    · rw [neg_one_mul, abs_of_neg (not_le.mp q3)]
  · choose K N hN hK using fun i => (hgd i).lip
    refine ⟨Finset.univ.sup K, {z | ∀ i, F z i = (I (d i)).1 z} ∩ ⋂ i, N i, inter_mem hFd (iInter_mem.mpr hN), ?_⟩
    intro u hu v hv
    rw [edist_pi_le_iff]
    intro i
    rw [hu.1 i, hv.1 i]
    refine (hK i (Set.mem_iInter.mp hu.2 i) (Set.mem_iInter.mp hv.2 i)).trans ?_
    gcongr
    exact Finset.le_sup (f := K) (Finset.mem_univ i)
  · obtain ⟨bits, R, e1, e2, e3, e4⟩ := piece_bits hσ h hz hd hI h0 (ext b)
    refine ⟨bits, R, e1, ?_⟩
    choose L l1 l2 using fun i => (hgd i).deriv (ext b)
    have hfd : HasFDerivAt (fun z i => (I (d i)).2.1 (ext b) z) (ContinuousLinearMap.pi L) x := hasFDerivAt_pi.mpr l1
    rw [hfd.fderiv]
    have hrow : ∀ (v : Fin n → ℝ) (i : Fin t.numDeps), R.homogenous.linear n t.numDeps v i + R.inhomogenous.getD i 0 = L i v := by
      intro v i
      have h1 := e4 v
      rw [hdeps] at h1
      have h2 := congrArg (fun l => l.getD i.val 0) h1
      simp only [affine, e2] at h2
      rw [getD_map_range _ i.2, getD_ofFn _ i.2] at h2
      rw [← l2 i v, ← h2, DMat.linear_apply, mv, e3, sum_range_ofFn]
    ext v i
    have h1 := hrow 0 i
    have h2 := hrow v i
    rw [map_zero, map_zero, Pi.zero_apply, zero_add] at h1
    rw [h1, add_zero] at h2
    exact h2

end Adv
