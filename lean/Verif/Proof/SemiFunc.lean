import Verif.Proof.SemiShadow
import Verif.Proof.Chain
import Verif.Proof.Probe

/-!
# All results of `generalized_jacobian` near a point

For arbitrary sign bits, also contradictory ones, the result at a point applied to a vector is among the increments of `setSh`.
-/

namespace Adv
open Filter Topology

section tape
variable {n : ℕ} {f : Func ℝ} {t : Tape ℝ}

/-- A solution of the equations of a tape with given signs at the abs operations. -/
theorem exists_signed {ops : List Operation} (hs : SSA ops) (v : ℕ → ℝ) (sg : ℕ → ℝ) (init : ℕ → ℝ) :
    ∃ J : ℕ → ℝ, (∀ op ∈ ops, (op.opcode = .Const → J op.vid = 0) ∧
      (op.opcode = .Abs → J op.vid = sg op.vid * J op.a1) ∧
      (op.opcode ≠ .Abs → op.opcode.computes = true → J op.vid = ffun op.opcode (v op.a1) (v op.a2) (J op.a1) (J op.a2))) ∧
      ∀ k, (∀ op ∈ activeOps ops, op.vid ≠ k) → J k = init k := by
  let g : Operation → (ℕ → ℝ) → Option ℝ := fun op f =>
    if op.opcode = .Abs then some (sg op.vid * f op.a1)
    else if op.opcode.computes then some (ffun op.opcode (v op.a1) (v op.a2) (f op.a1) (f op.a2))
    else if op.opcode = .Const then some 0 else none
  have hg : LocalG g := by
    constructor
    · intro op f f' h1 h2; simp only [g, h1, h2]
    · intro op f h; simp [g, h, OpCode.computes, OpCode.isBinary, OpCode.isUnary]
  have hw : ∀ op (f : ℕ → ℝ), op.opcode.computes = false → ∀ f', g op f = g op f' := by
    intro op f hc f'
    have : op.opcode ≠ .Abs := by intro h; rw [h] at hc; cases hc
    simp [g, hc, this]
  refine ⟨sweepG g ops init, fun op hop => ⟨fun hc => ?_, fun hc => ?_, fun ha hc => ?_⟩, fun k hk => sweepG_other hg hk init⟩
  · rw [sweepG_eq hg hs hw init hop (by rw [hc]; decide)]
    simp [g, hc, OpCode.computes, OpCode.isBinary, OpCode.isUnary]
  · rw [sweepG_eq hg hs hw init hop (by rw [hc]; decide)]
    simp [g, hc]
  · rw [sweepG_eq hg hs hw init hop ((OpCode.computes_iff _).mp hc).1]
    simp [g, hc, ha]

/-- The signs that are selected in direction 0 fit to the switching values. -/
theorem signature_zeros (h : t.WF) (bits : List UInt8) {k : ℕ} (hk : k < t.numAbs) (m : ℕ) :
    signature bits (zHatV t (List.replicate m 0)) k * signature bits (zHatV t (List.replicate m 0)) k = 1 ∧
      signature bits (zHatV t (List.replicate m 0)) k * zVal t k = |zVal t k| := by
  have e : (zHatV t (List.replicate m 0)).getD k 0 = zVal t k := by rw [zHatV_getD hk, zHat_zeros h]
  unfold signature
  rw [e]
  split_ifs with h1 h2 h3
  · exact ⟨by norm_num, by rw [abs_of_neg h1, neg_one_mul]⟩
  · exact ⟨by norm_num, by rw [abs_of_pos h2, one_mul]⟩
  all_goals
    have : zVal t k = 0 := le_antisymm (not_lt.mp h2) (not_lt.mp h1)
    exact ⟨by norm_num, by simp [this]⟩

/-- The entries of `v` are among the increments. -/
abbrev Among (v : List ℝ) (ss : List (ℝ × Set ℝ)) : Prop := List.Forall₂ (fun d s => d ∈ s.2) v ss

/-- The result in direction 0 applied to a vector. -/
theorem tape_increments {σ : Sched} (hσ : σ.Valid) {x : List ℝ} (h : TapeOf f x t) (hz : (zIds t).Nodup) (hd : t.deps.Nodup)
    (bits : List UInt8) {v : List ℝ} {ss : List (ℝ × Set ℝ)} (hss : ss.map Prod.fst = x) (hv : Among v ss) {R : GenJac ℝ}
    (e : generalizedJacobianTape σ t (List.replicate x.length 0) bits none = .ok R) :
    ∃ ys, f.evalS setSh ss = .ok ys ∧ Among (affine R.homogenous R.inhomogenous v) ys ∧
      affine R.homogenous R.inhomogenous (List.replicate x.length 0) = List.replicate t.numDeps 0 ∧
      R.homogenous.nrows = t.numDeps ∧ R.homogenous.ncols = x.length := by
  classical
  set n := x.length with hn
  have hni : t.numIndeps = n := by simp [Tape.numIndeps, h.indeps, hn]
  have hvs : v.length = ss.length := hv.length_eq
  have hsn : ss.length = n := by rw [hn, ← hss, List.length_map]
  obtain ⟨R', e1, e2, -⟩ := gj_piece hσ h.wf hz hd (dx := List.replicate n 0) (by simp [hni]) bits
  rw [e] at e1
  injection e1 with e1
  subst e1
  set sg := signature bits (zHatV t (List.replicate n 0)) with hsg
  have hi : t.indeps = List.range n := h.indeps
  have hwn : (wIds t).Nodup := by
    have := indeps_wIds_nodup h.wf
    exact (List.nodup_append.mp this).2.1
  let init : ℕ → ℝ := scatterFn t.indeps v fun _ => 0
  obtain ⟨J, hJ, hJ0⟩ := exists_signed h.wf.ssa (fn t.vals) (fun vid => sg ((wIds t).idxOf vid)) init
  obtain ⟨I, hI, hI0⟩ := exists_solves setSh h.wf.ssa (fn t.vals) fun k => (ss.getD k (0, {0})).2
  -- the signs of an abs operation
  have hop : ∀ op ∈ t.absOps, ∃ k < t.numAbs, (zIds t).getD k 0 = op.a1 ∧ (wIds t).getD k 0 = op.vid ∧
      (wIds t).idxOf op.vid = k := by
    intro op hop
    obtain ⟨k, hk, hke⟩ := List.getElem_of_mem hop
    have hw : k < (wIds t).length := by simpa [wIds] using hk
    have hwk : (wIds t)[k] = op.vid := by simp [wIds, hke]
    refine ⟨k, hk, ?_, ?_, ?_⟩
    · simp [zIds, hk, hke]
    · simp [wIds, hk, hke]
    · rw [← hwk]
      exact List.Nodup.idxOf_getElem hwn k hw
  have hin : ∀ k, init k ∈ (ss.getD k (0, {0})).2 := by
    intro k
    by_cases hk : k < n
    · have hki : k < t.indeps.length := by rw [hi]; simpa using hk
      have hid : t.indeps[k] = k := by simp [hi]
      have g := scatterFn_get (xs := v) (f := fun _ => (0 : ℝ)) h.wf.indeps_nodup hki (by omega)
      rw [hid] at g
      show scatterFn t.indeps v (fun _ => 0) k ∈ _
      rw [g, List.getD_eq_getElem _ _ (by omega)]
      exact List.Forall₂.get hv (by omega) (by omega)
    · show scatterFn t.indeps v (fun _ => 0) k ∈ _
      rw [scatterFn_not_mem (by rw [hi]; simpa using hk), List.getD_eq_default _ _ (by omega)]
      rfl
  have hfresh : ∀ k, k < n → ∀ op ∈ activeOps t.ops, op.vid ≠ k := by
    intro k hk op hop he
    exact h.wf.vid_fresh op hop (by rw [he, hi]; simpa using hk)
  -- membership
  have hmem : ∀ k, J k ∈ I k := by
    intro k
    induction k using Nat.strongRecOn with
    | _ k ih =>
      by_cases hex : ∃ op ∈ activeOps t.ops, op.vid = k
      · obtain ⟨op, ho, rfl⟩ := hex
        have ho' := (mem_activeOps.mp ho).1
        by_cases hc : op.opcode.computes = true
        · rw [(hI op ho').2 hc]
          have m1 := ih _ (h.wf.ssa.a1_lt op ho hc)
          have m2 := ih _ (h.wf.ssa.a2_lt op ho hc)
          by_cases ha : op.opcode = .Abs
          · show J op.vid ∈ (if op.opcode = .Abs then {d | ∃ s : ℝ, s * s = 1 ∧ s * fn t.vals op.a1 = |fn t.vals op.a1| ∧
              ∃ d1 ∈ I op.a1, d = s * d1} else {d | ∃ d1 ∈ I op.a1, ∃ d2 ∈ I op.a2,
                d = ffun op.opcode (fn t.vals op.a1) (fn t.vals op.a2) d1 d2} : Set ℝ)
            rw [if_pos ha]
            obtain ⟨j, j1, j2, j3, j4⟩ := hop op (mem_absOps.mpr ⟨ho', ha⟩)
            obtain ⟨s1, s2⟩ := signature_zeros h.wf bits j1 n
            have hv : zVal t j = fn t.vals op.a1 := by unfold zVal; rw [j2]
            rw [hv] at s2
            refine ⟨sg j, s1, s2, J op.a1, m1, ?_⟩
            rw [(hJ op ho').2.1 ha, j4]
          · show J op.vid ∈ (if op.opcode = .Abs then {d | ∃ s : ℝ, s * s = 1 ∧ s * fn t.vals op.a1 = |fn t.vals op.a1| ∧
              ∃ d1 ∈ I op.a1, d = s * d1} else {d | ∃ d1 ∈ I op.a1, ∃ d2 ∈ I op.a2,
                d = ffun op.opcode (fn t.vals op.a1) (fn t.vals op.a2) d1 d2} : Set ℝ)
            rw [if_neg ha]
            exact ⟨_, m1, _, m2, (hJ op ho').2.2 ha hc⟩
        · have hc' : op.opcode = .Const := by
            by_contra hne
            exact hc ((OpCode.computes_iff _).mpr ⟨(mem_activeOps.mp ho).2, hne⟩)
          rw [(hI op ho').1 hc', (hJ op ho').1 hc']
          rfl
      · have hk : ∀ op ∈ activeOps t.ops, op.vid ≠ k := fun op ho e => hex ⟨op, ho, e⟩
        rw [hI0 k hk, hJ0 k hk]
        exact hin k
  -- the piece
  have hS : HiddenSolution t v J :=
    ⟨fun op ho hc => (hJ op ho).1 hc, fun op ho ha hc => (hJ op ho).2.2 ha hc, hJ0⟩
  have a1 : affine R.homogenous R.inhomogenous v = t.deps.map J := by
    refine hidden_tape h.wf (by omega) hS (sg := sg) (fun k hk => ?_) e2
    obtain ⟨op, ho, w1, w2⟩ := zId_eq hk
    obtain ⟨j, j1, j2, j3, j4⟩ := hop op ho
    have hkj : k = j := by
      rw [← j4, ← w2]
      have hw : k < (wIds t).length := by rw [wIds_length]; exact hk
      rw [List.getD_eq_getElem _ _ hw]
      exact (List.Nodup.idxOf_getElem hwn k hw).symm
    subst hkj
    rw [w2, w1, (hJ op (mem_absOps.mp ho).1).2.1 (mem_absOps.mp ho).2, j4, mul_add, (signature_zeros h.wf bits hk n).2]
    ring
  have a0 : affine R.homogenous R.inhomogenous (List.replicate n 0) = t.deps.map fun _ => 0 := by
    refine hidden_tape h.wf (by simp [hni]) (p := fun _ => 0) ⟨fun _ _ _ => rfl, fun op ho ha hc => ?_, fun k hk => ?_⟩ (sg := sg)
      (fun k hk => ?_) e2
    · have := Props.zeroTangent_of_lawful (K := ℝ) op.opcode (fn t.vals op.a1) (fn t.vals op.a2) hc
      rw [LawfulFlt.zero_eq] at this
      exact this.symm
    · rw [scatterFn_zeros]
    · rw [add_zero, (signature_zeros h.wf bits hk n).2, sub_self]
  obtain ⟨U, -, r1, r2, -⟩ := e2
  have hsh := anfForm_shape t
  rw [hsh.b] at r1
  rw [hsh.jmat.2, hni] at r2
  obtain ⟨ys, y1, y2, y3⟩ := h.shadow _ setSh I ss (Or.inl setSh_closed) hI hss (by
      intro k s hs
      have hk : k < n := by
        by_contra hk
        rw [List.getElem?_eq_none (by omega)] at hs
        cases hs
      rw [hI0 k (hfresh k hk), List.getD_eq_getElem?_getD, hs]
      rfl)
  refine ⟨ys, y1, ?_, by rw [a0]; simp [Tape.numDeps, List.map_const'], r1, r2⟩
  have hl : ys.length = t.deps.length := by
    have := congrArg List.length y3
    simpa using this
  rw [a1]
  refine List.forall₂_iff_get.mpr ⟨by simp [hl], fun i h1 h2 => ?_⟩
  have hid : i < t.deps.length := by omega
  have : (ys[i]).2 = I (t.deps[i]) := by
    have := congrArg (fun l => l[i]?) y3
    simpa [h2, hid] using this
  simp only [List.get_eq_getElem, List.getElem_map, this]
  exact hmem _

theorem among_ofFn (z v : Fin n → ℝ) : Among (List.ofFn v) (List.ofFn fun i => (z i, ({v i} : Set ℝ))) := by
  refine List.forall₂_iff_get.mpr ⟨by simp, fun i h1 h2 => ?_⟩
  simp

/-- The linear part of a result without inhomogeneity. -/
theorem linear_affine {G : DMat ℝ} {γ : List ℝ} {m : ℕ} (hr : G.nrows = m) (hc : G.ncols = n)
    (h0 : affine G γ (List.replicate n 0) = List.replicate m 0) (v : Fin n → ℝ) (i : Fin m) :
    (affine G γ (List.ofFn v)).getD i 0 = G.linear n m v i := by
  have q0 := congrArg (fun l => l.getD i.val 0) h0
  simp only [affine, hr] at q0 ⊢
  rw [getD_map_range _ i.2] at q0 ⊢
  have z0 : mv G (List.replicate n 0) i = 0 := by
    rw [mv]
    refine Finset.sum_eq_zero fun j _ => ?_
    simp [List.getD_eq_getElem?_getD, List.getElem?_replicate]
    right
    split_ifs <;> rfl
  have z1 : (List.replicate m (0 : ℝ)).getD i.val 0 = 0 := by simp
  rw [z0, zero_add, z1] at q0
  rw [q0, add_zero, DMat.linear_apply, mv, hc, sum_range_ofFn]

end tape

theorem semi_input {n : ℕ} (x : Fin n → ℝ) (i : Fin n) : SemiGood x (fun z => z i, fun z => {z i - x i}) where
  cont := (continuous_apply i).continuousAt
  lip := ⟨1, zero_le_one, .of_forall fun z => by rw [one_mul]; exact norm_le_pi_norm (z - x) i⟩
  semi := ⟨0, le_rfl, .of_forall fun z d hd => by
    rw [Set.mem_singleton_iff.mp hd]
    show |z i - x i - (z i - x i)| ≤ _
    simp⟩

/-- At all points near `x`, the increments for all signs approximate the difference of the values. -/
theorem func_increments {n m : ℕ} {x : Fin n → ℝ} {f : Func ℝ} {w : World ℝ}
    (hs : f.Along piecewiseSmooth w (duals x 0))
    {F : (Fin n → ℝ) → Fin m → ℝ} (hF : ∀ᶠ z in 𝓝 x, (f.evalFloat (List.ofFn z) w).1 = .ok (List.ofFn (F z))) :
    ∃ K : ℝ, 0 ≤ K ∧ ∀ᶠ z in 𝓝 x, ∀ ys, f.evalS setSh (List.ofFn fun i => (z i, {(z - x) i})) = .ok ys → ∀ ds, Among ds ys →
      ds.length = m ∧ ∀ i : Fin m, |F z i - F x i - ds.getD i 0| ≤ K * ‖z - x‖ ^ 2 := by
  classical
  let G : List (((Fin n → ℝ) → ℝ) × ((Fin n → ℝ) → Set ℝ)) := List.ofFn fun i : Fin n => (fun z => z i, fun z => {z i - x i})
  have hGood : ∀ q ∈ G, (semiCalc x).Good q := by
    intro q hq
    obtain ⟨i, rfl⟩ := List.mem_ofFn.mp hq
    exact semi_input x i
  have hover : ∀ z, Calculus.Over G z (duals z 0) := by
    intro z
    refine ⟨duals_ctx _ _, ?_⟩
    rw [duals_v, List.map_ofFn]
    rfl
  have hfst : (G.map (NearCalc.tag x)).map Prod.fst = List.ofFn x := by
    rw [List.map_map, List.map_ofFn]
    rfl
  obtain ⟨Y', hY'⟩ : ∃ Y', runProgsS (semiCalc x).sh f.progs (G.map (NearCalc.tag x)) = .ok Y' := by
    have h1 := Func.evalS_fst (semiCalc x).sh f (G.map (NearCalc.tag x))
    have h2 := hF.self_of_nhds
    rw [Func.evalFloat_eq] at h2
    replace h2 : f.evalV (List.ofFn x) = _ := h2
    rw [hfst, h2] at h1
    unfold Func.evalS at h1
    rcases hr : runProgsS (semiCalc x).sh f.progs (G.map (NearCalc.tag x)) with e | Y'
    · rw [hr] at h1; cases h1
    · exact ⟨Y', rfl⟩
  obtain ⟨Y, rfl, g1, -⟩ := (semiCalc x).progs w f.progs G (duals x 0) Y' hGood (hover x) hs hY'
  have hat := (semiHom x).progs w f.progs G (duals x 0) Y hGood (hover x) hs hY'
  have hval : ∀ᶠ z in 𝓝 x, (Y.map fun q => q.1 z) = List.ofFn (F z) := by
    filter_upwards [hat, hF] with z k1 k2
    have h1 := Func.evalS_fst setSh f (G.map ((semiHom x).at_ z))
    unfold Func.evalS at h1
    have e1 : (G.map ((semiHom x).at_ z)).map Prod.fst = List.ofFn z := by
      rw [List.map_map, List.map_ofFn]; rfl
    rw [Func.evalFloat_eq] at k2
    replace k2 : f.evalV (List.ofFn z) = _ := k2
    rw [e1, k2, show runProgsS setSh f.progs (G.map ((semiHom x).at_ z)) = _ from k1] at h1
    have h2 : (Y.map ((semiHom x).at_ z)).map Prod.fst = List.ofFn (F z) := by
      injection h1
    rw [← h2, List.map_map]
    rfl
  have hlen : Y.length = m := by
    have := congrArg List.length hval.self_of_nhds
    simpa using this
  have hFi : ∀ᶠ z in 𝓝 x, ∀ i : Fin m, F z i = (Y[i.val]'(by rw [hlen]; exact i.2)).1 z := by
    filter_upwards [hval] with z hz i
    have hiY : i.val < Y.length := by rw [hlen]; exact i.2
    have := congrArg (fun l => l[i.val]?) hz
    simp only [List.getElem?_map, List.getElem?_eq_getElem hiY, Option.map_some, List.getElem?_ofFn, i.2, dif_pos] at this
    injection this with this
    exact this.symm
  choose K hK0 hK using fun i : Fin m => (g1 _ (List.getElem_mem (by rw [hlen]; exact i.2) : Y[i.val] ∈ Y)).semi
  have hsemi := Filter.eventually_all.mpr hK
  have hKs : ∀ i, K i ≤ ∑ j, K j := fun i => Finset.single_le_sum (fun j _ => hK0 j) (Finset.mem_univ i)
  have hKn : 0 ≤ ∑ j, K j := Finset.sum_nonneg fun j _ => hK0 j
  refine ⟨∑ j, K j, hKn, ?_⟩
  filter_upwards [hat, hFi, hsemi, hval] with z k1 k2 k3 k4 ys y1 ds hds
  have e1 : (G.map ((semiHom x).at_ z)) = List.ofFn fun i => (z i, {(z - x) i}) := by
    rw [List.map_ofFn]; rfl
  have k1' : f.evalS setSh (List.ofFn fun i => (z i, {(z - x) i})) = .ok (Y.map ((semiHom x).at_ z)) := by
    rw [← e1]; exact k1
  rw [y1] at k1'
  injection k1' with hys
  subst hys
  have hl : ds.length = m := by rw [hds.length_eq, List.length_map, hlen]
  refine ⟨hl, fun i => ?_⟩
  have hiY : i.val < Y.length := by rw [hlen]; exact i.2
  have hid : i.val < ds.length := by rw [hl]; exact i.2
  have hmem := List.Forall₂.get hds hid (by simpa using hiY)
  simp only [List.get_eq_getElem, List.getElem_map] at hmem
  have := k3 i _ hmem
  rw [k2 i, hFi.self_of_nhds i, List.getD_eq_getElem _ _ hid]
  exact this.trans (mul_le_mul_of_nonneg_right (hKs i) (by positivity))

/-- The same for a matrix. -/
theorem increments_linear {n m : ℕ} {z x : Fin n → ℝ} {Fz Fx : Fin m → ℝ} {G : DMat ℝ} {γ : List ℝ} {K : ℝ} (hK : 0 ≤ K)
    (hc : G.ncols = n) (h0 : affine G γ (List.replicate n 0) = List.replicate G.nrows 0)
    (h : (affine G γ (List.ofFn (z - x))).length = m ∧
      ∀ i : Fin m, |Fz i - Fx i - (affine G γ (List.ofFn (z - x))).getD i 0| ≤ K * ‖z - x‖ ^ 2) :
    ‖Fz - Fx - G.linear n m (z - x)‖ ≤ K * ‖z - x‖ ^ 2 := by
  have hm : G.nrows = m := by have := h.1; simpa [affine] using this
  rw [hm] at h0
  rw [pi_norm_le_iff_of_nonneg (by positivity)]
  intro i
  show |Fz i - Fx i - G.linear n m (z - x) i| ≤ _
  rw [← linear_affine hm hc h0]
  exact h.2 i

/-- At all points near `x`, the results for all sign bits approximate the difference of the values. -/
theorem func_semismooth {σ : Sched} (hσ : σ.Valid) {n m : ℕ} {x : Fin n → ℝ} {f : Func ℝ} {w : World ℝ}
    (hs : f.Along piecewiseSmooth w (duals x 0))
    {F : (Fin n → ℝ) → Fin m → ℝ} (hF : ∀ᶠ z in 𝓝 x, (f.evalFloat (List.ofFn z) w).1 = .ok (List.ofFn (F z))) :
    ∃ K : ℝ, 0 ≤ K ∧ ∀ᶠ z in 𝓝 x, ∀ (t : Tape ℝ) (bits : List UInt8) (R : GenJac ℝ), TapeOf f (List.ofFn z) t → (zIds t).Nodup → t.deps.Nodup →
      generalizedJacobianTape σ t (List.replicate n 0) bits none = .ok R →
      ‖F z - F x - R.homogenous.linear n m (z - x)‖ ≤ K * ‖z - x‖ ^ 2 := by
  obtain ⟨K, hK, hev⟩ := func_increments hs hF
  refine ⟨K, hK, ?_⟩
  filter_upwards [hev] with z h t bits R hT hz hd e
  obtain ⟨ys, y1, y2, y3, y4, y5⟩ := tape_increments hσ hT hz hd bits (v := List.ofFn (z - x))
    (ss := List.ofFn fun i => (z i, {(z - x) i})) (by rw [List.map_ofFn]; rfl) (among_ofFn _ _) (by rwa [List.length_ofFn])
  rw [List.length_ofFn] at y3 y5
  exact increments_linear hK y5 (by rw [y3, y4]) (h ys y1 _ y2)

/-! ## Chains -/

/-- The result of the chain driver in direction 0 applied to a vector. -/
theorem chain_increments {w : World ℝ} (hw : w.nextId < usizeMax) : ∀ (fs : List (Func ℝ)) (x : List ℝ) (R : GenJac ℝ)
    (v : List ℝ) (ss : List (ℝ × Set ℝ)), gjList w fs x (List.replicate x.length 0) = .ok R →
    LinkTapes w (fun t => t.switching.deps.Nodup ∧ t.deps.Nodup) fs x → ss.map Prod.fst = x → Among v ss →
    ∃ ys, runProgsS setSh (Func.progsAll fs) ss = .ok ys ∧ Among (affine R.homogenous R.inhomogenous v) ys ∧
      affine R.homogenous R.inhomogenous (List.replicate x.length 0) = List.replicate R.homogenous.nrows 0
  | [], x, R, v, ss, h, _, hss, hv => by
      injection h with h
      subst h
      have hl : v.length = x.length := by rw [hv.length_eq, ← hss, List.length_map]
      refine ⟨ss, rfl, ?_, ?_⟩
      · unfold chainIdentity
        rw [affine_identity _ _ hl]
        exact hv
      · unfold chainIdentity
        rw [affine_identity _ _ (by simp)]
        rfl
  | f :: fs, x, R', v, ss, h, hL, hss, hv => by
      rw [gjList] at h
      rcases hy : f.evalD (x.zip (List.replicate x.length 0)) with e | ys
      · rw [hy] at h; cases h
      rw [hy, bind_ok_eq] at h
      rcases hg : gjList w fs (ys.map Prod.fst) (ys.map Prod.snd) with e | g
      · rw [hg] at h; cases h
      rw [hg, bind_ok_eq] at h
      obtain ⟨i1, i2, i3, -⟩ := gjList_ok hw fs _ _ g (by simp) hg
      rw [List.length_map] at i2
      obtain ⟨R, t, k1, k2, k3, k4, k5, k6, k7, k8⟩ := gjPure_ok hw (by simp) hy i2 i3 h
      have hev : (f.evalFloat x w).1 = .ok (ys.map Prod.fst) := by
        rw [Func.evalFloat_eq]
        have := Func.evalD_fst f (x.zip (List.replicate x.length 0))
        rw [hy, List.map_fst_zip (by simp)] at this
        exact this.symm
      obtain ⟨n1, n2⟩ := hL.1 t k1
      rcases ht : f.tape x w with ⟨r, w'⟩
      rw [ht] at k1
      replace k1 : r = .ok t := k1
      subst k1
      have hs := (Func.tape_spec f x w hw).2
      rw [ht] at hs
      obtain ⟨_, -, hT⟩ := hs.ok_left
      rw [Props.gj_func f ht k2] at k3
      obtain ⟨zs, z1, z2, z3, z4, z5⟩ := tape_increments Sched.seq_valid hT (by rwa [← switching_deps hT.wf]) n2 [0] hss hv k3
      have hdv : ys.map Prod.snd = List.replicate (ys.map Prod.fst).length 0 := by
        rw [← k8 n1 n2, z3, List.length_map, ← k5, z4]
      rw [hdv] at hg
      have hzf : zs.map Prod.fst = ys.map Prod.fst := by
        have q := Func.evalS_fst setSh f ss
        rw [z1, hss] at q
        rw [Func.evalFloat_eq] at hev
        replace hev : f.evalV x = _ := hev
        rw [hev] at q
        injection q
      obtain ⟨us, u1, u2, u3⟩ := chain_increments hw fs _ g _ zs hg (hL.2 _ hev) hzf z2
      refine ⟨us, ?_, by rw [affine_comp k4]; exact u2, ?_⟩
      · rw [Func.progsAll, runProgsS_append]
        rw [show runProgsS setSh f.progs ss = .ok zs from z1]
        exact u1
      · rw [affine_comp k4, z3, ← z4, k5, k4.hom.nrows]
        rw [List.length_map] at u3
        exact u3

/-- At all points near `x`, the results of the chain driver approximate the difference of the values. -/
theorem chain_semismooth {n m : ℕ} {x : Fin n → ℝ} {f : Func ℝ} {w : World ℝ}
    (hs : f.Along piecewiseSmooth w (duals x 0))
    {F : (Fin n → ℝ) → Fin m → ℝ} (hF : ∀ᶠ z in 𝓝 x, (f.evalFloat (List.ofFn z) w).1 = .ok (List.ofFn (F z))) :
    ∃ K : ℝ, 0 ≤ K ∧ ∀ᶠ z in 𝓝 x, ∀ (v : World ℝ) (R : GenJac ℝ), v.nextId < usizeMax →
      LinkTapes v (fun t => t.switching.deps.Nodup ∧ t.deps.Nodup) f.flatten (List.ofFn z) →
      gjList v f.flatten (List.ofFn z) (List.replicate n 0) = .ok R →
      ‖F z - F x - R.homogenous.linear n m (z - x)‖ ≤ K * ‖z - x‖ ^ 2 := by
  obtain ⟨K, hK, hev⟩ := func_increments hs hF
  refine ⟨K, hK, ?_⟩
  filter_upwards [hev] with z h v R hv hL e
  obtain ⟨-, i2, -, -⟩ := gjList_ok hv _ _ _ R (by simp) e
  rw [List.length_ofFn] at i2
  obtain ⟨ys, y1, y2, y3⟩ := chain_increments hv f.flatten (List.ofFn z) R (List.ofFn (z - x))
    (List.ofFn fun i => (z i, {(z - x) i})) (by rwa [List.length_ofFn]) hL (by rw [List.map_ofFn]; rfl) (among_ofFn _ _)
  rw [List.length_ofFn] at y3
  rw [Func.progs_flatten] at y1
  exact increments_linear hK i2 y3 (h ys y1 _ y2)

/-! ## Iterations with a quadratic bound -/

/-- Sequences whose steps satisfy a quadratic bound converge. -/
theorem quadratic_converges {E : Type} [NormedAddCommGroup E] {x : E} {Step : E → E → Prop} {Q : ℝ} (hQ : 0 ≤ Q)
    (hev : ∀ᶠ z in 𝓝 x, ∀ z', Step z z' → ‖z' - x‖ ≤ Q * ‖z - x‖ ^ 2) :
    ∃ δ > 0, ∀ z : ℕ → E, ‖z 0 - x‖ < δ → (∀ k, Step (z k) (z (k + 1))) →
      Tendsto z atTop (𝓝 x) ∧ ∀ k, ‖z (k + 1) - x‖ ≤ Q * ‖z k - x‖ ^ 2 := by
  obtain ⟨δ, hδ, hb⟩ := Metric.eventually_nhds_iff.mp hev
  have hQ1 : 0 < 2 * (Q + 1) := by positivity
  refine ⟨min δ (1 / (2 * (Q + 1))), lt_min hδ (by positivity), fun z hz0 hstep => ?_⟩
  have hk : ∀ k, ‖z k - x‖ ≤ (1 / 2) ^ k * ‖z 0 - x‖ ∧ ‖z (k + 1) - x‖ ≤ Q * ‖z k - x‖ ^ 2 := by
    have step : ∀ k, ‖z k - x‖ ≤ (1 / 2) ^ k * ‖z 0 - x‖ → ‖z (k + 1) - x‖ ≤ Q * ‖z k - x‖ ^ 2 ∧
        ‖z (k + 1) - x‖ ≤ (1 / 2) ^ (k + 1) * ‖z 0 - x‖ := by
      intro k ih
      have h1 : ‖z k - x‖ < min δ (1 / (2 * (Q + 1))) :=
        (ih.trans (mul_le_of_le_one_left (norm_nonneg _) (pow_le_one₀ (by norm_num) (by norm_num)))).trans_lt hz0
      have h2 := hb (by rw [dist_eq_norm]; exact h1.trans_le (min_le_left _ _)) _ (hstep k)
      have h3 : Q * ‖z k - x‖ ≤ 1 / 2 := by
        have h4 : (Q + 1) * ‖z k - x‖ ≤ (Q + 1) * (1 / (2 * (Q + 1))) :=
          mul_le_mul_of_nonneg_left (h1.le.trans (min_le_right _ _)) (by positivity)
        have h5 : (Q + 1) * (1 / (2 * (Q + 1))) = 1 / 2 := by field_simp
        nlinarith [norm_nonneg (z k - x)]
      refine ⟨h2, h2.trans ?_⟩
      calc Q * ‖z k - x‖ ^ 2 = (Q * ‖z k - x‖) * ‖z k - x‖ := by ring
        _ ≤ 1 / 2 * ((1 / 2) ^ k * ‖z 0 - x‖) := mul_le_mul h3 ih (norm_nonneg _) (by norm_num)
        _ = _ := by ring
    have first : ∀ k, ‖z k - x‖ ≤ (1 / 2) ^ k * ‖z 0 - x‖ := by
      intro k
      induction k with
      | zero => simp
      | succ k ih => exact (step k ih).2
    exact fun k => ⟨first k, (step k (first k)).1⟩
  refine ⟨?_, fun k => (hk k).2⟩
  rw [tendsto_iff_norm_sub_tendsto_zero]
  have h3 : Tendsto (fun k : ℕ => (1 / 2 : ℝ) ^ k * ‖z 0 - x‖) atTop (𝓝 (0 * ‖z 0 - x‖)) :=
    (tendsto_pow_atTop_nhds_zero_of_lt_one (by norm_num) (by norm_num)).mul_const _
  rw [zero_mul] at h3
  exact squeeze_zero (fun _ => norm_nonneg _) (fun k => (hk k).1) h3

end Adv
