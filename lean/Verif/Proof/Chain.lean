import Verif.Model.Chain
import Verif.Spec.Chain
import Verif.Props.GeneralizedJacobian
import Verif.Proof.Ckpt

/-! # Generalized Jacobians of chains: the checkpointed sweep is a fold over the links -/

set_option linter.unusedSectionVars false

namespace Adv
open scoped Adv

section generic
variable {S : Type} [Flt S]

/-- The result of `generalized_jacobian` in world `w0`. -/
def gjPure (w0 : World S) (f : Func S) (x dx : List S) (g : GenJac S) : Res (GenJac S) := do
  let n ← f.n
  assertR (x.length = n)
  let t ← (f.tape x w0).1
  generalizedJacobianTape Sched.seq t dx [0] (some g)

def fwdPure (chain : Func S) (s : Nat × List S × List S) : Res (Nat × List S × List S) := do
  let f ← chain.nth s.1
  let ys ← f.evalD (s.2.1.zip s.2.2)
  return (s.1 + 1, ys.map Prod.fst, ys.map Prod.snd)

def revPure (w0 : World S) (chain : Func S) (s : Nat × List S × List S) (g : GenJac S) : Res (GenJac S) := do
  let f ← chain.nth s.1
  gjPure w0 f s.2.1 s.2.2 g

/-- The fold over the list of links. -/
def gjList (w0 : World S) : List (Func S) → List S → List S → Res (GenJac S)
  | [], x, dx => .ok (chainIdentity (0, x, dx))
  | f :: fs, x, dx => do
      let ys ← f.evalD (x.zip dx)
      let g ← gjList w0 fs (ys.map Prod.fst) (ys.map Prod.snd)
      gjPure w0 f x dx g

theorem revFold_gjList (w0 : World S) (chain : Func S) : ∀ (fs : List (Func S)) (idx : Nat) (x dx : List S),
    chain.flatten.drop idx = fs →
    Ckpt.revFold (fwdPure chain) (revPure w0 chain) (fun s => .ok (chainIdentity s)) fs.length (idx, x, dx) =
      gjList w0 fs x dx
  | [], idx, x, dx, h => rfl
  | f :: fs, idx, x, dx, h => by
      have hn : chain.nth idx = .ok f := by
        have : chain.flatten[idx]? = some f := by
          rw [← List.head?_drop, h]; rfl
        unfold Func.nth
        rw [this]; rfl
      have hd : chain.flatten.drop (idx + 1) = fs := by
        rw [← List.tail_drop, h]; rfl
      rw [List.length_cons, Ckpt.revFold, gjList]
      unfold fwdPure
      simp only [hn, bind_ok_eq]
      rcases f.evalD (x.zip dx) with e | ys
      · rfl
      · simp only [bind_ok_eq]
        show (Ckpt.revFold _ _ _ fs.length (idx + 1, _, _) >>= _) = _
        have ih := revFold_gjList w0 chain fs (idx + 1) (ys.map Prod.fst) (ys.map Prod.snd) hd
        unfold fwdPure at ih
        rw [ih]
        unfold revPure
        simp only [hn, bind_ok_eq]

theorem chainForward_eq (chain : Func S) (s : Nat × List S × List S) (w : World S) :
    chainForward chain s w = (fwdPure chain s, w) := by
  unfold chainForward fwdPure
  rcases hn : chain.nth s.1 with e | f
  · rfl
  · have h := Func.eval_new f (s.2.1.zip s.2.2) w
    simp only [bind_ok_eq]
    rw [Ckpt.lift_ok_bind]
    rcases hd : f.evalD (s.2.1.zip s.2.2) with e | ys
    · rw [hd] at h
      rw [M.bind_error h]; rfl
    · rw [hd] at h
      rw [M.bind_ok h]
      simp [AFloat.new, Function.comp_def]

theorem generalizedJacobian_eq {σ : Sched} (hσ : σ.Valid) (f : Func S) (x dx : List S) (g : GenJac S)
    {w w0 : World S} (hw : w.nextId < usizeMax) (hw0 : w0.nextId < usizeMax) :
    (generalizedJacobian σ f x dx [0] (some g) w).1 = gjPure w0 f x dx g ∧
    ∀ y, gjPure w0 f x dx g = .ok y →
      (generalizedJacobian σ f x dx [0] (some g) w).2 = w.afterTape := by
  unfold generalizedJacobian gjPure
  rcases hn : f.n with e | n
  · exact ⟨rfl, fun y h => by cases h⟩
  · rw [Ckpt.lift_ok_bind]
    simp only [bind_ok_eq]
    by_cases hx : x.length = n
    · have ha : assertR (decide (x.length = n)) = .ok () := by simp [assertR, hx]
      rw [ha]
      rw [Ckpt.lift_ok_bind]
      simp only [bind_ok_eq]
      have h1 := Func.tape_spec f x w hw
      have h2 := Func.tape_world f x hw hw0
      rw [← h2]
      rcases ht : f.tape x w with ⟨e | t, w'⟩
      · rw [M.bind_error ht]
        exact ⟨rfl, fun y h => by cases h⟩
      · rw [ht] at h1
        obtain ⟨_, -, h3⟩ := h1.2.ok_left
        rw [M.bind_ok ht]
        simp only [bind_ok_eq, M.lift_apply]
        exact ⟨generalizedJacobianTape_sched hσ Sched.seq_valid h3.wf dx [0] (some g), fun y _ => h1.1⟩
    · have ha : assertR (decide (x.length = n)) = .error .assertFailed := by simp [assertR, hx]
      rw [ha]
      exact ⟨rfl, fun y h => by cases h⟩

theorem chainReverse_eq {σ : Sched} (hσ : σ.Valid) (chain : Func S) (s : Nat × List S × List S) (g : GenJac S)
    {w w0 : World S} (hw : w.nextId < usizeMax) (hw0 : w0.nextId < usizeMax) :
    (chainReverse σ chain s g w).1 = revPure w0 chain s g ∧
    ∀ y, revPure w0 chain s g = .ok y → (chainReverse σ chain s g w).2 = w.afterTape := by
  unfold chainReverse revPure
  rcases hn : chain.nth s.1 with e | f
  · exact ⟨rfl, fun y h => by cases h⟩
  · rw [Ckpt.lift_ok_bind]
    simp only [bind_ok_eq]
    exact generalizedJacobian_eq (hσ.at_ _) f _ _ g hw hw0

theorem afterTape_nextId {w : World S} (hw : w.nextId < usizeMax) : w.afterTape.nextId = w.nextId + 1 := by
  unfold usizeMax at hw
  have : (w.nextId + 1) % 2 ^ 64 = w.nextId + 1 := Nat.mod_eq_of_lt (by omega)
  unfold World.afterTape World.setCell
  exact this

/-- The checkpointed chain driver is the fold over the links, for every number of checkpoints. -/
theorem generalizedJacobianChain_eq {σ : Sched} (hσ : σ.Valid) {est : Int → Int → Int} (hest : Ckpt.SoundEst est)
    {capMax : Nat} (chain : Func S) (x dx : List S) {N : Option Nat} (hn : chain.len + 1 < 2 ^ 64)
    (hN : 2 ≤ N.getD chain.len) (hsz : Ckpt.SizeOk chain.len (N.getD chain.len)) (hcap : N.getD chain.len ≤ capMax)
    {s : Ckpt.World (World S)} (hw : s.w.nextId + chain.len ≤ usizeMax) {w0 : World S}
    (hw0 : w0.nextId < usizeMax) :
    (generalizedJacobianChain σ est capMax chain x dx N s).1 = gjList w0 chain.flatten x dx := by
  have key := Ckpt.reverseSequence_fold hest (J := fun k (w : World S) => w.nextId + min k chain.len ≤ usizeMax)
    (forward := chainForward chain) (reverse := chainReverse σ chain) (identity := fun s => pure (chainIdentity s))
    (fwd := fwdPure chain) (rev := revPure w0 chain) (idn := fun s => .ok (chainIdentity s))
    (x0 := (0, x, dx)) hn hsz hN hcap
    (fun k i x w _ _ hJ => by rw [chainForward_eq]; exact ⟨rfl, fun _ _ => hJ⟩)
    (fun x w _ hJ => ⟨rfl, fun _ _ => by
      show w.nextId + _ ≤ _
      rw [Nat.min_self]
      rw [Nat.min_eq_right (by omega)] at hJ
      exact hJ⟩)
    (fun r st x' right w hr _ _ _ hJ => by
      rw [Nat.min_eq_left (by omega)] at hJ
      obtain ⟨h1, h2⟩ := chainReverse_eq hσ chain st right (w := w) (by omega) hw0
      refine ⟨h1, fun y hy => ?_⟩
      rw [h2 y hy, afterTape_nextId (by omega), Nat.min_eq_left (by omega)]
      omega)
    (s := s) (by
      show s.w.nextId + _ ≤ _
      rw [Nat.min_eq_right (by omega)]; exact hw)
  unfold generalizedJacobianChain
  rw [key.1]
  exact revFold_gjList w0 chain chain.flatten 0 x dx rfl

end generic

section field
variable {K : Type} [Field K] [LinearOrder K] [IsStrictOrderedRing K] [Flt K] [LawfulFlt K]

/-- What a successful step of the fold looks like. -/
theorem gjPure_ok {w0 : World K} (hw0 : w0.nextId < usizeMax) {f : Func K} {x dx : List K} {g R' : GenJac K}
    {ys : List (K × K)} (hl : dx.length = x.length) (hy : f.evalD (x.zip dx) = .ok ys)
    (hg : g.homogenous.ncols = ys.length) (hγ : g.inhomogenous.length = g.homogenous.nrows)
    (h : gjPure w0 f x dx g = .ok R') :
    ∃ R t, (f.tape x w0).1 = .ok t ∧ f.n = .ok x.length ∧
      (generalizedJacobian Sched.seq f x dx [0] none w0).1 = .ok R ∧ IsComp R' g R ∧
      R.homogenous.nrows = ys.length ∧ R.homogenous.ncols = x.length ∧ R.inhomogenous.length = ys.length ∧
      (t.switching.deps.Nodup → t.deps.Nodup → affine R.homogenous R.inhomogenous dx = ys.map Prod.snd) := by
  unfold gjPure at h
  rcases hn : f.n with e | n
  · rw [hn] at h; cases h
  rw [hn, bind_ok_eq] at h
  by_cases hx : x.length = n
  swap
  · have ha : assertR (decide (x.length = n)) = .error .assertFailed := by simp [assertR, hx]
    rw [ha] at h; cases h
  subst hx
  have ha : assertR (decide (x.length = x.length)) = .ok () := by simp [assertR]
  rw [ha, bind_ok_eq] at h
  rcases ht : f.tape x w0 with ⟨e | t, w1⟩
  · rw [ht] at h; cases h
  rw [ht] at h
  simp only [bind_ok_eq] at h
  have hs := Func.tape_spec f x w0 hw0
  rw [ht] at hs
  obtain ⟨_, -, hT⟩ := hs.2.ok_left
  have hni : t.numIndeps = x.length := by simp [Tape.numIndeps, hT.indeps]
  obtain ⟨ys', e1, e2, e3⟩ := hT.forward_eval (Or.inl Props.zeroTangent_of_lawful) hl
  rw [hy] at e1
  injection e1 with e1
  subst e1
  have hnd : t.numDeps = ys.length := by
    have h4 := Tape.y_eq hT.wf
    rw [e3] at h4
    injection h4 with h4
    have := congrArg List.length h4
    simpa [Tape.numDeps] using this.symm
  obtain ⟨R, R'', c1, c2, c3, c4, c5, c6, c7, c8⟩ := gj_comp Sched.seq_valid Sched.seq_valid hT.wf
    (dx := dx) (by omega) [0] (next := g) (by omega) hγ
  rw [h] at c2
  injection c2 with c2
  subst c2
  have c1' : (generalizedJacobian Sched.seq f x dx [0] none w0) = (.ok R, w1) := by
    rw [Props.gj_func f ht hn, c1]
  refine ⟨R, t, rfl, rfl, by rw [c1'], ⟨c3, c4, c5⟩, by omega, by omega, by omega, fun h1 h2 => ?_⟩
  obtain ⟨R2, d1, -, -, -, d2⟩ := Props.C19_exact_at_dx_partial Sched.seq_valid f hw0 ht hn hl h1 h2 [0]
  rw [c1'] at d1
  injection d1 with d1 _
  injection d1 with d1
  subst d1
  rw [e2] at d2
  injection d2 with d2
  exact d2.symm

theorem mv_congr_comp {A B C : DMat K} (h : IsMul C A B) {v : List K} {i : Nat} (hi : i < A.nrows) :
    mv C v i = ∑ k ∈ Finset.range A.ncols, A.get i k * mv B v k := by
  unfold mv
  rw [h.ncols]
  have : ∀ j ∈ Finset.range B.ncols, C.get i j * v.getD j 0 =
      ∑ k ∈ Finset.range A.ncols, A.get i k * (B.get k j * v.getD j 0) := by
    intro j hj
    rw [h.get i hi j (Finset.mem_range.mp hj), Finset.sum_mul]
    exact Finset.sum_congr rfl fun k _ => by ring
  rw [Finset.sum_congr rfl this, Finset.sum_comm]
  exact Finset.sum_congr rfl fun k _ => by rw [Finset.mul_sum]

/-- Composition of affine maps. -/
theorem affine_comp {R' g R : GenJac K} (h : IsComp R' g R) (dx : List K) :
    affine R'.homogenous R'.inhomogenous dx =
      affine g.homogenous g.inhomogenous (affine R.homogenous R.inhomogenous dx) := by
  unfold affine
  rw [h.hom.nrows]
  apply List.map_congr_left
  intro i hi
  rw [List.mem_range] at hi
  rw [mv_congr_comp h.hom hi, h.inh]
  have e : ((List.range g.homogenous.nrows).map fun i =>
      g.inhomogenous.getD i 0 + mv g.homogenous R.inhomogenous i).getD i 0 =
      g.inhomogenous.getD i 0 + mv g.homogenous R.inhomogenous i := by
    simp [List.getD_eq_getElem?_getD, hi]
  rw [e]
  have e2 : mv g.homogenous ((List.range R.homogenous.nrows).map fun i =>
      mv R.homogenous dx i + R.inhomogenous.getD i 0) i =
      ∑ k ∈ Finset.range g.homogenous.ncols, g.homogenous.get i k * mv R.homogenous dx k +
      mv g.homogenous R.inhomogenous i := by
    unfold mv
    rw [← Finset.sum_add_distrib]
    apply Finset.sum_congr rfl
    intro k hk
    rw [Finset.mem_range, h.hom.inner] at hk
    simp [List.getD_eq_getElem?_getD, hk]
    ring
  rw [e2]
  ring

/-- The identity piece. -/
theorem affine_identity (n : Nat) (dx : List K) (hl : dx.length = n) :
    affine (DMat.identity n : DMat K) (List.replicate n Flt.zero) dx = dx := by
  subst hl
  apply List.ext_getElem
  · simp [affine, DMat.identity, DMat.ofFn]
  · intro i h1 h2
    simp only [affine, List.getElem_map, List.getElem_range]
    have : mv (DMat.identity dx.length : DMat K) dx i = dx.getD i 0 := by
      unfold mv
      exact sum_identity (f := fun j => dx.getD j 0) h2
    rw [this]
    simp [List.getD_eq_getElem?_getD, h2, LawfulFlt.zero_eq]

theorem gjList_ok {w0 : World K} (hw0 : w0.nextId < usizeMax) : ∀ (fs : List (Func K)) (x dx : List K)
    (R : GenJac K), dx.length = x.length → gjList w0 fs x dx = .ok R →
    ChainPiece w0 fs x dx R ∧ R.homogenous.ncols = x.length ∧ R.inhomogenous.length = R.homogenous.nrows ∧
    (LinkTapes w0 (fun t => t.switching.deps.Nodup ∧ t.deps.Nodup) fs x →
      ∃ zs, Func.evalAll fs ((x.zip dx).map fun p => AFloat.new p.1 p.2) w0 = (.ok zs, w0) ∧
        affine R.homogenous R.inhomogenous dx = zs.map AFloat.dv)
  | [], x, dx, R, hl, h => by
      injection h with h
      subst h
      refine ⟨.nil x dx _ rfl rfl ?_ ?_ rfl, rfl, by simp [chainIdentity, DMat.identity, DMat.ofFn], fun _ => ?_⟩
      · intro i hi j hj
        simp [chainIdentity, DMat.identity, DMat.ofFn, hi, hj, LawfulFlt.zero_eq, LawfulFlt.one_eq]
      · simp [chainIdentity, LawfulFlt.zero_eq]
      · refine ⟨_, rfl, ?_⟩
        unfold chainIdentity
        rw [affine_identity _ _ hl]
        simp [Function.comp_def, AFloat.new]
        rw [List.map_snd_zip]; omega
  | f :: fs, x, dx, R', hl, h => by
      rw [gjList] at h
      rcases hy : f.evalD (x.zip dx) with e | ys
      · rw [hy] at h; cases h
      rw [hy, bind_ok_eq] at h
      rcases hg : gjList w0 fs (ys.map Prod.fst) (ys.map Prod.snd) with e | g
      · rw [hg] at h; cases h
      rw [hg, bind_ok_eq] at h
      obtain ⟨i1, i2, i3, i4⟩ := gjList_ok hw0 fs _ _ g (by simp) hg
      rw [List.length_map] at i2
      obtain ⟨R, t, k1, k2, k3, k4, k5, k6, k7, k8⟩ := gjPure_ok hw0 hl hy i2 i3 h
      have hev : f.eval ((x.zip dx).map fun p => AFloat.new p.1 p.2) w0 =
          (.ok (ys.map fun p => AFloat.new p.1 p.2), w0) := by
        rw [Func.eval_new, hy]; rfl
      have e1 : (ys.map fun p => AFloat.new p.1 p.2).map AFloat.v = ys.map Prod.fst := by
        simp [Function.comp_def, AFloat.new]
      have e2 : (ys.map fun p => AFloat.new p.1 p.2).map AFloat.dv = ys.map Prod.snd := by
        simp [Function.comp_def, AFloat.new]
      refine ⟨.cons (ys := ys.map fun p => AFloat.new p.1 p.2) (by rw [hev]) (by rw [e1, e2]; exact i1) k3 k4, by rw [k4.hom.ncols, k6], by
        rw [k4.inh, k4.hom.nrows]; simp, fun hL => ?_⟩
      have hv : (f.evalFloat x w0).1 = .ok (ys.map Prod.fst) := by
        rw [Func.evalFloat_eq]
        have := Func.evalD_fst f (x.zip dx)
        rw [hy, List.map_fst_zip (by omega)] at this
        exact this.symm
      obtain ⟨zs, z1, z2⟩ := i4 (hL.2 _ hv)
      obtain ⟨n1, n2⟩ := hL.1 t k1
      refine ⟨zs, ?_, ?_⟩
      · rw [Func.evalAll, M.bind_ok hev]
        rw [← z1]
        congr 1
        rw [List.zip_map']
        simp
      · rw [affine_comp k4, k8 n1 n2, z2]

/-- The fold does not panic if the chain can be evaluated. -/
theorem gjList_total {w0 : World K} (hw0 : w0.nextId < usizeMax) : ∀ (fs : List (Func K)) (x dx : List K),
    dx.length = x.length → LinksFit w0 fs x → ∃ R, gjList w0 fs x dx = .ok R
  | [], x, dx, _, _ => ⟨_, rfl⟩
  | f :: fs, x, dx, hl, hfit => by
      obtain ⟨hn, y, hfl, hfit⟩ := hfit
      rw [Func.evalFloat_eq] at hfl
      obtain ⟨ds, hd, hds⟩ := Func.evalD_ok hl hfl
      rw [gjList, hd, bind_ok_eq]
      obtain ⟨g, hg⟩ := gjList_total hw0 fs (ds.map Prod.fst) (ds.map Prod.snd) (by simp) (by rw [hds]; exact hfit)
      rw [hg, bind_ok_eq]
      obtain ⟨i1, i2, i3, -⟩ := gjList_ok hw0 fs _ _ g (by simp) hg
      have hs := Func.tape_spec f x w0 hw0
      rw [show f.evalV x = .ok y from hfl] at hs
      rcases ht : f.tape x w0 with ⟨e | t, w1⟩
      · rw [ht] at hs
        cases hs.2
      rw [ht] at hs
      obtain ⟨_, -, hT⟩ := hs.2.ok_left
      have hni : t.numIndeps = x.length := by simp [Tape.numIndeps, hT.indeps]
      obtain ⟨ys', e1, e2, e3⟩ := hT.forward_eval (Or.inl Props.zeroTangent_of_lawful) hl
      rw [hd] at e1
      injection e1 with e1
      subst e1
      have hnd : t.numDeps = ds.length := by
        have h4 := Tape.y_eq hT.wf
        rw [e3] at h4
        injection h4 with h4
        have := congrArg List.length h4
        simpa [Tape.numDeps] using this.symm
      rw [List.length_map] at i2
      obtain ⟨_, R, -, c2, -⟩ := gj_comp Sched.seq_valid Sched.seq_valid hT.wf (dx := dx) (by omega) [0]
        (next := g) (by omega) i3
      refine ⟨R, ?_⟩
      unfold gjPure
      rw [hn, bind_ok_eq, show assertR (decide (x.length = x.length)) = .ok () by simp [assertR], bind_ok_eq, ht]
      exact c2

end field

end Adv
