import Verif.Proof.RoundChain
import Verif.Props.Checkpointing

/-!
# Property C80 for chains: the checkpointed driver on a machine
-/

set_option linter.unusedSectionVars false

namespace Adv.Props
open Adv Adv.Ckpt
open scoped Adv

/-- C80 for chains: if no sign bits are used (the multiplicity of the exact result is zero), the chain driver of a machine
returns a generalized Jacobian of the same shape and of multiplicity zero, its entries are finite, and their errors are at
most `K u`. The machine may use any number of checkpoints, any sound estimate, any schedule and any state of the registry,
and none of them needs to be that of the exact driver. -/
theorem C80_chain (fs : List (Func ℝ)) {n : ℕ} {x dx : Fin n → ℝ} {w : World ℝ} (hw : w.nextId < usizeMax)
    (hs : (Func.chain fs).Along piecewiseSmooth w (duals x 0)) (hn : (Func.chain fs).len + 1 < 2 ^ 64)
    {σ₀ : Sched} (hσ₀ : σ₀.Valid) {est₀ : Int → Int → Int} (hest₀ : SoundEst est₀) {cap₀ N₀ : ℕ} (hN₀ : 2 ≤ N₀)
    (hsz₀ : SizeOk (Func.chain fs).len N₀) (hcap₀ : N₀ ≤ cap₀) {s₀ : Ckpt.World (World ℝ)}
    (hw₀ : s₀.w.nextId + (Func.chain fs).len ≤ usizeMax) {G : GenJac ℝ}
    (hG : (generalizedJacobianChain σ₀ est₀ cap₀ (.chain fs) (List.ofFn x) (List.ofFn dx) (some N₀) s₀).1 = .ok G)
    (hmul : G.multiplicity = 0) (C : ℝ) :
    ∃ K u₀, 0 < u₀ ∧ ∀ (S : Type) (val : S → Option ℝ) (A : Flt S) (u : ℝ) (gs : List (Func S)) (x' dx' : Fin n → S)
      (s : Ckpt.World (World S)) (σ : Sched) (est : Int → Int → Int) (cap N : ℕ), Machine val A u → u ≤ u₀ →
      (Func.chain fs).Same val (.chain gs) → (∀ j, WithinM val (C * u) (x j) (x' j)) →
      (∀ j, WithinM val (C * u) (dx j) (dx' j)) → s.w.nextId + (Func.chain fs).len ≤ usizeMax → σ.Valid → SoundEst est →
      2 ≤ N → SizeOk (Func.chain fs).len N → N ≤ cap →
      ∃ G', (generalizedJacobianChain σ est cap (.chain gs) (List.ofFn x') (List.ofFn dx') (some N) s).1 = .ok G' ∧
        G.CloseM val (K * u) G' := by
  rw [generalizedJacobianChain_eq hσ₀ hest₀ (N := some N₀) _ _ _ hn hN₀ hsz₀ hcap₀ hw₀ hw] at hG
  have hs' : (Func.chain (Func.chain fs).flatten).Along piecewiseSmooth w (duals x 0) := by
    unfold Func.Along at hs ⊢
    rw [← Func.progs_flatten] at hs
    rwa [Func.progs]
  obtain ⟨K, u₀, h1, h2⟩ := gjList_machine hw _ (Func.flatten_simple _) x dx hs' hG hmul C
  refine ⟨K, u₀, h1, fun S val A u gs x' dx' s σ est cap N hA hu hgs hx hdx hws hσ hest hN hsz hcap => ?_⟩
  have hl := hgs.flatten
  have hlen : (Func.chain gs).len = (Func.chain fs).len := hl.length_eq.symm
  have hv : (HState.init : HState S).world.nextId < usizeMax := show 1 < 2 ^ 64 - 1 by decide
  rw [generalizedJacobianChain_eq hσ hest (N := some N) _ _ _ (by rw [hlen]; exact hn) hN (by rw [hlen]; exact hsz) hcap
    (by rw [hlen]; exact hws) hv]
  exact h2 S val A u _ x' dx' _ hA hu hl hx hdx hv

/-! ## Non-vacuity -/

theorem absFS_same {S : Type} {val : S → Option ℝ} : (absFS ℝ).Same val (absFS S) :=
  Func.Same.advFn 1 1 fun _ _ _ => .op _ (.var _) .none fun _ _ _ _ => .ret (.cons (.var _) .nil)

/-- `||x| - 1|` followed by `|x|`, as nested chains. -/
def foldFS (S : Type) (one : S) : List (Func S) := [nestFS S one, .chain [absFS S]]

theorem nestFS_straight : (nestFS ℝ 1).StraightLine := by straight nestFS
theorem absFS_straight : (absFS ℝ).StraightLine := by straight absFS

theorem foldFS_straight : (Func.chain (foldFS ℝ 1)).StraightLine := by
  intro p hp
  simp only [foldFS, Func.progs, Func.progsAll, List.append_nil, List.mem_append] at hp
  rcases hp with h | h
  · exact nestFS_straight p h
  · exact absFS_straight p h

theorem nestFS_evalD (v d : ℝ) : (nestFS ℝ 1).evalD [(v, d)] =
    .ok [(|(|v| - 1)|, |(|v| - 1 + (|v + d| - |v| - 0))| - |(|v| - 1)|)] := by kernel_rfl

theorem foldFS_along (x : ℝ) (w : World ℝ) : (Func.chain (foldFS ℝ 1)).Along piecewiseSmooth w (duals ![x] 0) := by
  rw [C01_straight_line foldFS_straight]
  unfold foldFS
  refine ⟨?_, fun y hy => ⟨?_, fun _ _ => trivial⟩⟩
  · eachop
    · trivial
    eachop
    · trivial
    eachop
    · trivial
    · trivial
  · have h := congrArg Prod.fst (Func.eval_new (nestFS ℝ 1) [(x, 0)] w)
    rw [nestFS_evalD] at h
    have h2 := h.symm.trans hy
    injection h2 with h2
    subst h2
    eachop
    · trivial
    · trivial

/-- The multiplicity of a link with a known tape. -/
theorem link_multiplicity {f : Func ℝ} {x dx : List ℝ} {w : World ℝ} {t : Tape ℝ} {z dz : List ℝ} {G : GenJac ℝ}
    (hw : w.nextId < usizeMax) (ht : (f.tape x w).1 = .ok t) (hd : dx.length = t.numIndeps)
    (hz : t.switching.y = .ok z) (hdz : t.switching.firstOrderForward dx = .ok dz) (bits : List UInt8)
    (hG : (generalizedJacobian Sched.seq f x dx bits none w).1 = .ok G)
    (h0 : ∀ v ∈ List.zipWith (· + ·) z dz, v ≠ 0) : G.multiplicity = 0 := by
  rcases e : f.tape x w with ⟨r, w'⟩
  rw [e] at ht
  replace ht : r = .ok t := ht
  subst ht
  obtain ⟨R, z', dz', h1, h2, h3, h4⟩ := C21_multiplicity Sched.seq_valid (.func _ _ _ w' hw e) hd bits
  rw [hz] at h2
  rw [hdz] at h3
  injection h2 with h2
  injection h3 with h3
  subst h2 h3
  unfold generalizedJacobian at hG
  rcases en : f.n with _ | k
  · simp only [en] at hG; cases hG
  by_cases hk : x.length = k
  · subst hk
    simp only [en, M.bind_apply, M.lift_apply, assertR, decide_true, if_true, e] at hG
    rw [h1] at hG
    injection hG with hG
    subst hG
    rw [h4, List.length_eq_zero_iff, List.filter_eq_nil_iff]
    intro v hv
    simpa using h0 v hv
  · simp [en, M.bind_apply, M.lift_apply, assertR, hk] at hG

theorem absFS_evalD (v d : ℝ) : (absFS ℝ).evalD [(v, d)] = .ok [(|v|, |v + d| - |v|)] := by kernel_rfl

theorem gjList_multiplicity {w : World ℝ} (hw : w.nextId < usizeMax) {f : Func ℝ} {fs : List (Func ℝ)} {x dx : List ℝ}
    {ys : List (ℝ × ℝ)} {G : GenJac ℝ} (hl : dx.length = x.length) (hy : f.evalD (x.zip dx) = .ok ys)
    (hG : gjList w (f :: fs) x dx = .ok G) :
    ∃ g R, gjList w fs (ys.map Prod.fst) (ys.map Prod.snd) = .ok g ∧
      (generalizedJacobian Sched.seq f x dx [0] none w).1 = .ok R ∧ G.multiplicity = R.multiplicity + g.multiplicity := by
  rw [gjList, hy, bind_ok_eq] at hG
  rcases hg : gjList w fs (ys.map Prod.fst) (ys.map Prod.snd) with e | g
  · rw [hg] at hG; cases hG
  rw [hg, bind_ok_eq] at hG
  obtain ⟨-, i2, i3, -⟩ := gjList_ok hw fs _ _ g (by simp) hg
  rw [List.length_map] at i2
  obtain ⟨R, t, -, -, k3, k4, -⟩ := gjPure_ok hw hl hy i2 i3 hG
  exact ⟨g, R, rfl, k3, k4.mult⟩

theorem foldFS_fit (w : World ℝ) (v : ℝ) : LinksFit w [nestFS ℝ 1, absFS ℝ] [v] := by
  refine ⟨rfl, [|(|v| - 1)|], ?_, rfl, [|(|(|v| - 1)|)|], ?_, trivial⟩
  · kernel_rfl
  · kernel_rfl

theorem nestFS_tape1 (x : ℝ) : ((nestFS ℝ 1).tape [x] HState.init.world).1 = .ok (nestTapeR x) := by kernel_rfl
theorem absFS_tape1 (x : ℝ) : ((absFS ℝ).tape [x] HState.init.world).1 = .ok (absTapeR x) := by kernel_rfl

theorem absFS_multiplicity {v d : ℝ} (hw : (HState.init : HState ℝ).world.nextId < usizeMax) (h : v + d ≠ 0) {g : GenJac ℝ}
    (hg : gjList HState.init.world [absFS ℝ] [v] [d] = .ok g) : g.multiplicity = 0 := by
  obtain ⟨g', R', l1, l2, l3⟩ := gjList_multiplicity hw (show [d].length = [v].length from rfl) (absFS_evalD v d) hg
  have h2 : R'.multiplicity = 0 := by
    refine link_multiplicity hw (absFS_tape1 v) rfl (z := [v]) (dz := [d]) rfl rfl _ l2 ?_
    simp only [List.zipWith_cons_cons, List.zipWith_nil_left, List.mem_cons, List.not_mem_nil, or_false]
    rintro a rfl
    exact h
  have h3 : g'.multiplicity = 0 := by
    have l4 := congrArg (Except.map GenJac.multiplicity) l1
    exact (Except.ok.inj l4).symm
  omega

/-- In the direction `1/2` at the kink `0`, the chain uses no sign bits. -/
theorem foldFS_direction : ∃ G, (generalizedJacobianChain Sched.seq lowEst 10 (.chain (foldFS ℝ 1)) (List.ofFn ![0])
    (List.ofFn ![1 / 2]) (some 2) ⟨HState.init.world, 0⟩).1 = .ok G ∧ G.multiplicity = 0 := by
  have hw : (HState.init : HState ℝ).world.nextId < usizeMax := show 1 < 2 ^ 64 - 1 by decide
  rw [generalizedJacobianChain_eq Sched.seq_valid lowEst_sound (N := some 2) (.chain (foldFS ℝ 1)) _ _
      (show 2 + 1 < 2 ^ 64 by decide) (show 2 ≤ 2 by decide) (Or.inr (show (2 + 1) * 2 < 2 ^ 63 by decide))
      (show 2 ≤ 10 by decide) (show 1 + 2 ≤ 2 ^ 64 - 1 by decide) hw]
  have e : (Func.chain (foldFS ℝ 1)).flatten = [nestFS ℝ 1, absFS ℝ] := rfl
  rw [e]
  simp only [List.ofFn_succ, List.ofFn_zero, Matrix.cons_val_zero]
  obtain ⟨G, hG⟩ := gjList_total hw [nestFS ℝ 1, absFS ℝ] [0] [1 / 2] rfl (foldFS_fit _ 0)
  refine ⟨G, hG, ?_⟩
  obtain ⟨g, R, k1, k2, k3⟩ := gjList_multiplicity hw (show ([1 / 2] : List ℝ).length = 1 from rfl)
    (nestFS_evalD 0 (1 / 2)) hG
  simp only [List.map_cons, List.map_nil] at k1
  have hne : |(|(0 : ℝ)| - 1)| + (|(|(0 : ℝ)| - 1 + (|0 + 1 / 2| - |(0 : ℝ)| - 0))| - |(|(0 : ℝ)| - 1)|) ≠ 0 := by norm_num
  have hg := absFS_multiplicity hw hne k1
  have h1 : R.multiplicity = 0 := by
    refine link_multiplicity hw (nestFS_tape1 0) rfl
      (z := [0, Flt.sub (Flt.abs 0) 1]) (dz := [1 / 2, Flt.sub (Flt.sub (Flt.abs (Flt.add 0 (1 / 2))) (Flt.abs 0)) 0])
      rfl rfl _ k2 ?_
    simp only [List.zipWith_cons_cons, List.zipWith_nil_left, List.mem_cons, List.not_mem_nil, or_false]
    rintro a (rfl | rfl)
    · norm_num
    · show |(0 : ℝ)| - 1 + (|0 + 1 / 2| - |0| - 0) ≠ 0
      norm_num
  omega

/-- Non-vacuity of `C80_chain`. -/
example : ∃ (G : GenJac ℝ) (K u₀ : ℝ), 0 < u₀ ∧ ∀ (S : Type) (val : S → Option ℝ) (A : Flt S) (u : ℝ) (h : S),
    Machine val A u → u ≤ u₀ → val h = some (1 / 2) →
    ∃ G', (generalizedJacobianChain Sched.seq lowEst 10 (.chain (foldFS S A.one)) [A.zero] [h] (some 3)
      ⟨HState.init.world, 0⟩).1 = .ok G' ∧ G.CloseM val (K * u) G' := by
  obtain ⟨G, hG, hm⟩ := foldFS_direction
  obtain ⟨K, u₀, k1, k2⟩ := C80_chain (foldFS ℝ 1) (w := HState.init.world) (show 1 < 2 ^ 64 - 1 by decide) (foldFS_along 0 _)
    (show 2 + 1 < 2 ^ 64 by decide) Sched.seq_valid lowEst_sound (show 2 ≤ 2 by decide)
    (Or.inr (show (2 + 1) * 2 < 2 ^ 63 by decide)) (show 2 ≤ 10 by decide) (show 1 + 2 ≤ 2 ^ 64 - 1 by decide) hG hm 0
  refine ⟨G, K, u₀, k1, fun S val A u h hA hu hh => ?_⟩
  exact k2 S val A u (foldFS S A.one) ![A.zero] ![h] _ _ _ 10 3 hA hu
    (.chain (.cons (nestFS_same hA.one) (.cons (.chain (.cons absFS_same .nil)) .nil)))
    (fun j => by fin_cases j; exact ⟨0, hA.zero, by simp⟩) (fun j => by fin_cases j; exact ⟨1 / 2, hh, by simp⟩)
    (show 1 + 2 ≤ 2 ^ 64 - 1 by decide) Sched.seq_valid lowEst_sound (by decide) (Or.inr (show (2 + 1) * 3 < 2 ^ 63 by decide))
    (by decide)

end Adv.Props
