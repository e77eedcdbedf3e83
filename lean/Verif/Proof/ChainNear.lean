import Verif.Proof.ResultsNear
import Verif.Spec.Chain

/-!
# The tapes of the links of a chain near a point
-/

namespace Adv
open Filter Topology

section
variable {X A : Type} [NormedAddCommGroup X] [NormedSpace ℝ X] {x0 : X}

theorem alongProgs_append {P : OpCond} {w : World ℝ} : ∀ {ps qs : List (List ℝ → Prog ℝ)} {env : List (AFloat ℝ)},
    alongProgs P w (ps ++ qs) env →
    alongProgs P w ps env ∧ ∀ ys, runProgs ps env w = (.ok ys, w) → (∀ a ∈ env, a.ctx = none) → alongProgs P w qs ys
  | [], qs, env, h => ⟨trivial, fun ys hy _ => by
      have : env = ys := Except.ok.inj (congrArg Prod.fst hy)
      rw [← this]; exact h⟩
  | p :: ps, qs, env, h => by
      obtain ⟨h1, h2, h3⟩ := h
      refine ⟨⟨h1, h2, fun y hy => (alongProgs_append (h3 y hy)).1⟩, fun ys hy hc => ?_⟩
      obtain ⟨r, r1, r2, -⟩ := Prog.run_free (p (env.map AFloat.v)) env w hc
      rw [runProgs, M.bind_apply, r1] at hy
      cases r with
      | error e => cases congrArg Prod.fst hy
      | ok y => exact (alongProgs_append (h3 y (by rw [r1]))).2 ys hy (r2 y rfl)

/-- The tape of a function of continuous inputs. -/
theorem tape_family (C : NearCalc X A x0) {f : Func ℝ} {w : World ℝ} {G : List ((X → ℝ) × A)} {env0 : List (AFloat ℝ)}
    {Y : List ((X → ℝ) × A)} (hG : ∀ q ∈ G, C.Good q) (ho : Calculus.Over G x0 env0) (hs : alongProgs piecewiseSmooth w f.progs env0)
    (hr : runProgsS C.sh f.progs (G.map (NearCalc.tag x0)) = .ok (Y.map (NearCalc.tag x0))) (hY : ∀ q ∈ Y, C.Good q) :
    ∃ (l : Layout (X → ℝ)) (ds : List ℕ),
      ∀ᶠ z in 𝓝 x0, f.layoutTape (G.map fun q => q.1 z) = some ⟨List.range G.length, ds, l.ops, l.vals.map fun g => g z, true⟩ := by
  classical
  let H : List (((X → ℝ) × A) × Option ℕ) := G.zipIdx.map fun p => (p.1, some p.2)
  let l0 : Layout (X → ℝ) := ⟨G.map Prod.fst, []⟩
  have hHf : H.map Prod.fst = G := by
    simp only [H, List.map_map]
    exact List.zipIdx_map_fst 0 G
  obtain ⟨W, l1, w1, w2, w3, w4, w5⟩ := layout_progs C w f.progs H l0 env0 Y (by rwa [hHf]) (by rwa [hHf]) hs (by rwa [hHf]) (by
      intro h hh k hk
      obtain ⟨⟨q, i⟩, hq, rfl⟩ := List.mem_map.mp hh
      injection hk with hk
      subst hk
      have := List.mem_zipIdx_iff_getElem?.mp hq
      show (G.map Prod.fst)[i]? = _
      rw [List.getElem?_map, this]; rfl) ⟨by
        intro g hg
        obtain ⟨q, hq, rfl⟩ := List.mem_map.mp hg
        exact C.cont q (hG q hq), fun op hop => (by cases hop), fun op hop => (by cases hop)⟩
  obtain ⟨ds, l2, d1, d2, d3⟩ := places_near W l1 (fun h hh => C.cont _ (hY _ (by rw [← w1]; exact List.mem_map_of_mem hh))) w3 w2
  refine ⟨l2, ds, ?_⟩
  filter_upwards [w5] with z hz
  have e1 : (G.map fun q => q.1 z).zipIdx.map (fun p => (p.1, some p.2)) = H.map (nodeAt z) := by
    apply List.ext_getElem
    · simp [H]
    · intro i h1 h2
      simp [H, nodeAt]
  have e2 : (⟨G.map fun q => q.1 z, []⟩ : Layout ℝ) = l0.at_ z := by
    simp only [l0, Layout.at_, List.map_map]
    rfl
  unfold Func.layoutTape
  rw [e1, e2, Func.layout_eq, hz]
  simp only [Option.bind_eq_bind, Option.bind_some, d3, List.length_map]
  rfl

/-- The links near a point. -/
theorem links_near (C : NearCalc X A x0) {w : World ℝ} (hw : w.nextId < usizeMax) : ∀ (fs : List (Func ℝ)) (G : List ((X → ℝ) × A))
    (env0 : List (AFloat ℝ)), (∀ q ∈ G, C.Good q) → Calculus.Over G x0 env0 → alongProgs piecewiseSmooth w (Func.progsAll fs) env0 →
    LinksFit w fs (G.map fun q => q.1 x0) → LinkTapes w (fun t => t.switching.deps.Nodup ∧ t.deps.Nodup) fs (G.map fun q => q.1 x0) →
    ∀ᶠ z in 𝓝 x0, LinksFit w fs (G.map fun q => q.1 z) ∧
      LinkTapes w (fun t => t.switching.deps.Nodup ∧ t.deps.Nodup) fs (G.map fun q => q.1 z)
  | [], _, _, _, _, _, _, _ => .of_forall fun _ => ⟨trivial, trivial⟩
  | f :: fs, G, env0, hG, ho, hal, hfit, hL => by
      rw [Func.progsAll] at hal
      obtain ⟨hal1, hal2⟩ := alongProgs_append hal
      obtain ⟨hn, y, hy, hfit'⟩ := hfit
      have hfst : (G.map (NearCalc.tag x0)).map Prod.fst = G.map fun q => q.1 x0 := by rw [List.map_map]; rfl
      obtain ⟨Y', hY'⟩ : ∃ Y', runProgsS C.sh f.progs (G.map (NearCalc.tag x0)) = .ok Y' := by
        have h1 := Func.evalS_fst C.sh f (G.map (NearCalc.tag x0))
        have h2 := hy
        rw [Func.evalFloat_eq] at h2
        replace h2 : f.evalV (G.map fun q => q.1 x0) = _ := h2
        rw [hfst, h2] at h1
        unfold Func.evalS at h1
        rcases hr : runProgsS C.sh f.progs (G.map (NearCalc.tag x0)) with e | Y'
        · rw [hr] at h1; cases h1
        · exact ⟨Y', rfl⟩
      obtain ⟨Y, rfl, g1, g2⟩ := C.progs w f.progs _ env0 Y' hG ho hal1 hY'
      obtain ⟨ys, s1, s2⟩ := g2.self_of_nhds env0 ho
      obtain ⟨l, ds, hl⟩ := tape_family C hG ho hal1 hY' g1
      -- the values
      have hval : ∀ z, (∀ env, Calculus.Over G z env → ∃ ys, runProgs f.progs env w = (.ok ys, w) ∧ Calculus.Over Y z ys) →
          (f.evalFloat (G.map fun q => q.1 z) w).1 = .ok (Y.map fun q => q.1 z) := by
        intro z hz
        obtain ⟨ys, e1, e2⟩ := hz ((G.map fun q => q.1 z).map fun e => AFloat.new e Flt.zero) ⟨by
          intro a ha
          obtain ⟨c, -, rfl⟩ := List.mem_map.mp ha
          rfl, by rw [List.map_map]; exact List.map_id _⟩
        unfold Func.evalFloat
        rw [M.bind_apply, Func.eval_eq, e1]
        exact congrArg Except.ok e2.2
      have hyY : y = Y.map fun q => q.1 x0 := Except.ok.inj (hy.symm.trans (hval x0 g2.self_of_nhds))
      have htape : ∀ z, f.layoutTape (G.map fun q => q.1 z) = some ⟨List.range G.length, ds, l.ops, l.vals.map fun g => g z, true⟩ →
          ∀ t, (f.tape (G.map fun q => q.1 z) w).1 = .ok t → t = ⟨List.range G.length, ds, l.ops, l.vals.map fun g => g z, true⟩ ∧ t.WF := by
        intro z hz t ht
        have h1 := Func.tape_layout f (G.map fun q => q.1 z) w hw
        rw [hz, ht] at h1
        injection h1 with h1
        refine ⟨h1, ?_⟩
        have hsp := (Func.tape_spec f (G.map fun q => q.1 z) w hw).2
        rcases h2 : f.tape (G.map fun q => q.1 z) w with ⟨r, w'⟩
        rw [h2] at ht hsp
        replace ht : r = .ok t := ht
        subst ht
        exact hsp.ok_left.choose_spec.2.wf
      have hx : ∃ t, (f.tape (G.map fun q => q.1 x0) w).1 = .ok t := by
        have h1 := Func.tape_layout f (G.map fun q => q.1 x0) w hw
        rw [hl.self_of_nhds] at h1
        rcases h2 : (f.tape (G.map fun q => q.1 x0) w).1 with _ | u
        · rw [h2] at h1; cases h1
        · exact ⟨u, h2⟩
      obtain ⟨t0, ht0⟩ := hx
      obtain ⟨hn1, hn2⟩ := hL.1 t0 ht0
      obtain ⟨q1, q2⟩ := htape x0 hl.self_of_nhds t0 ht0
      rw [switching_deps q2] at hn1
      have ih := links_near C hw fs Y ys g1 s2 (hal2 ys s1 ho.1) (by rw [← hyY]; exact hfit') (by rw [← hyY]; exact hL.2 y hy)
      filter_upwards [ih, hl, g2] with z h1 h2 h3
      have hv := hval z h3
      refine ⟨⟨by simpa using hn, _, hv, h1.1⟩, ⟨fun t ht => ?_, fun y' hy' => ?_⟩⟩
      · obtain ⟨r1, r2⟩ := htape z h2 t ht
        rw [switching_deps r2]
        subst r1
        subst q1
        exact ⟨hn1, hn2⟩
      · have : y' = Y.map fun q => q.1 z := Except.ok.inj (hy'.symm.trans hv)
        rw [this]
        exact h1.2

end

/-- The links of a chain near a point. -/
theorem chain_links_near {n : ℕ} {x : Fin n → ℝ} {f : Func ℝ} {w : World ℝ} (hw : w.nextId < usizeMax)
    (hs : f.Along piecewiseSmooth w (duals x 0)) (hfit : LinksFit w f.flatten (List.ofFn x))
    (hL : LinkTapes w (fun t => t.switching.deps.Nodup ∧ t.deps.Nodup) f.flatten (List.ofFn x)) :
    ∀ᶠ z in 𝓝 x, LinksFit w f.flatten (List.ofFn z) ∧
      LinkTapes w (fun t => t.switching.deps.Nodup ∧ t.deps.Nodup) f.flatten (List.ofFn z) := by
  let G : List (((Fin n → ℝ) → ℝ) × ((Fin n → ℝ) → Set ℝ)) := List.ofFn fun i : Fin n => (fun z => z i, fun z => {z i - x i})
  have e : ∀ z : Fin n → ℝ, (G.map fun q => q.1 z) = List.ofFn z := by
    intro z
    simp only [G, List.map_ofFn]
    rfl
  have := links_near (semiCalc x) hw f.flatten G (duals x 0) (by
      intro q hq
      obtain ⟨i, rfl⟩ := List.mem_ofFn.mp hq
      exact semi_input x i) ⟨duals_ctx _ _, by rw [duals_v, e]⟩ (by rw [Func.progs_flatten]; exact hs) (by rwa [e]) (by rwa [e])
  simpa only [e] using this

end Adv
