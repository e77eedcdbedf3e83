import Verif.Proof.FloydWarshall
import Verif.Proof.KernelRfl
import Verif.Spec.DemoFw

/-!
# C68: what the Floyd-Warshall example computes

`zero_order` replays one tape for the weights, one for every step of the algorithm, and one for the sum of squares.
-/

set_option linter.unusedSectionVars false

namespace Adv.Props
open Adv Adv.Fw
open scoped Adv

section any
variable {S : Type} [Flt S]

/-- C68: the tapes for the weights and the sum can be recorded, and `zero_order` computes, in any arithmetic, what
running the algorithm on plain numbers computes. -/
theorem C68_tapes {N : Net S} (hN : N.Ok) {w0 : World S} (hw0 : w0.nextId + 2 ≤ usizeMax) :
    ∃ tapes w1, record N w0 = (.ok tapes, w1) ∧ ∀ (params : List S), params.length = N.lights →
      ∀ w : World S, w.nextId + N.n ≤ usizeMax → ∃ y w', zeroOrder N tapes params w = (.ok y, w') ∧
        (Func.chain (init N :: (List.range N.n).map (step N.n) ++ [badness N.n N.exits])).evalFloat params w = (.ok [y], w) := by
  obtain ⟨tapes, w1, e, ht, -⟩ := record_ok hN hw0
  refine ⟨tapes, w1, e, fun params hp w hw => ?_⟩
  have hpar : params = (List.range N.lights).map fun i => ((params.getD i Flt.zero), ()).1 := by
    apply List.ext_getElem (by simp [hp])
    intro i h1 h2
    simp [h1]
  obtain ⟨w', e1, -⟩ := zeroOrder_eval (sh := unitSh) hN ht (fun i => (params.getD i Flt.zero, ())) hw
  rw [← hpar] at e1
  refine ⟨_, w', e1, ?_⟩
  have he := chain_eval (sh := unitSh) hN fun i => (params.getD i Flt.zero, ())
  have := evalV_of_evalS he
  rw [map_fst_eq, ← hpar] at this
  rw [Func.evalFloat_eq, this]
  rfl

theorem triangle_ok : Demo.triangle.Ok := by
  refine ⟨?_, ?_, ?_⟩ <;> simp only [Demo.triangle] <;> decide

example : Demo.triangle.Ok ∧ Demo.w0.nextId + 2 ≤ usizeMax ∧ Demo.w0.nextId + Demo.triangle.n ≤ usizeMax ∧
    ((record Demo.triangle >>= fun t => zeroOrder Demo.triangle t [1 / 4, 1 / 8]) Demo.w0).1 = .ok (968 / 9) ∧
    ((Func.chain [init Demo.triangle, step 3 0, step 3 1, step 3 2, badness 3 [0, 2]]).evalFloat [1 / 4, 1 / 8] Demo.w0).1 =
      .ok [968 / 9] :=
  ⟨triangle_ok, by decide, by decide, by decide +kernel, by decide +kernel⟩

end any

section field
variable {K : Type} [Field K] [LinearOrder K] [IsStrictOrderedRing K] [Flt K] [LawfulFlt K]

/-- C68: `zero_order` returns the sum of the squares of the times of the fastest walks between exits. -/
theorem C68_shortest_paths {N : Net K} (hN : N.Ok) (hlo : 0 < N.lo) (hhi : N.hi < 1) (hle : N.lo ≤ N.hi) (hinf : 0 ≤ N.inf)
    {w0 w1 w : World K} (hw0 : w0.nextId + 2 ≤ usizeMax) {tapes : Tape K × Tape K} (ht : record N w0 = (.ok tapes, w1))
    {params : List K} (hp : params.length = N.lights) (hw : w.nextId + N.n ≤ usizeMax) :
    ∃ dist w', Shortest N.n (N.weight params) dist ∧
      zeroOrder N tapes params w = (.ok ((exitPairs N.exits).map fun p => dist p.1 p.2 ^ 2).sum, w') := by
  have hpar : params = (List.range N.lights).map fun i => ((params.getD i 0), ()).1 := by
    apply List.ext_getElem (by simp [hp])
    intro i h1 h2
    simp [h1]
  obtain ⟨w', e1, -⟩ := zeroOrder_eval (sh := unitSh) hN (recorded_of_record hN hw0 ht) (fun i => (params.getD i 0, ())) hw
  rw [← hpar, badS_fst] at e1
  exact ⟨_, w', distS_shortest (sh := unitSh) (weight_nonneg hlo hhi (hlo.trans_le hle) hinf params)
    (fun i hi j hj => initS_fst hN _ (fun _ _ => rfl) hi hj) (weight_diag hN params), e1⟩

/-- From node 0 to node 2 directly: 9, by way of node 1: 22/3. -/
example : Demo.triangle.Ok ∧ 0 < Demo.triangle.lo ∧ Demo.triangle.hi < 1 ∧ Demo.triangle.lo ≤ Demo.triangle.hi ∧
    0 ≤ Demo.triangle.inf ∧ Demo.triangle.weight [1 / 4, 1 / 8] 0 2 = 9 ∧
    Demo.triangle.weight [1 / 4, 1 / 8] 0 1 + Demo.triangle.weight [1 / 4, 1 / 8] 1 2 = 22 / 3 ∧
    ((exitPairs Demo.triangle.exits).map fun p => (if p.1 = p.2 then 0 else 22 / 3 : ℚ) ^ 2).sum = 968 / 9 :=
  ⟨triangle_ok, by decide +kernel, by decide +kernel, by decide +kernel, by decide +kernel, by decide +kernel,
    by decide +kernel, by decide +kernel⟩

/-- C68: for the network of the example, whatever the traffic lights are: `zero_order` returns the sum of the squares of
the times of the fastest routes along roads between exits. -/
theorem C68_network {w0 w1 w : World K} (hw0 : w0.nextId + 2 ≤ usizeMax) {tapes : Tape K × Tape K}
    (ht : record (network (1 / 100) (99 / 100) 10000) w0 = (.ok tapes, w1)) {params : List K} (hp : params.length = 6)
    (hw : w.nextId + 23 ≤ usizeMax) :
    ∃ (dist : Nat → Nat → K) (w' : World K),
      (∀ i < 23, ∀ j < 23, IsLeast {c | Route (network (1 / 100) (99 / 100) 10000) params i j c} (dist i j)) ∧
      zeroOrder (network (1 / 100) (99 / 100) 10000) tapes params w =
        (.ok ((exitPairs [0, 1, 2, 6, 9, 13, 16, 20, 21, 22]).map fun p => dist p.1 p.2 ^ 2).sum, w') := by
  obtain ⟨dist, w', h1, h2⟩ := C68_shortest_paths (network_ok _ _ _) (by simp [network]) (by simp [network]; norm_num)
    (by simp [network]; norm_num) (by simp [network]) hw0 ht hp hw
  exact ⟨dist, w', network_routes h1, h2⟩

/-- The weights of the network at the start of the optimisation; the recordings exist. -/
example : (network (1 / 100) (99 / 100) 10000 : Net ℚ).weight (List.replicate 6 (1 / 2)) 0 3 = 3 ∧
    (network (1 / 100) (99 / 100) 10000 : Net ℚ).weight (List.replicate 6 (1 / 2)) 0 4 = 10000 ∧
    ∃ tapes w1, record (network (1 / 100) (99 / 100) 10000 : Net ℚ) Demo.w0 = (.ok tapes, w1) := by
  refine ⟨by decide +kernel, by decide +kernel, ?_⟩
  obtain ⟨t, w, h, -⟩ := record_ok (network_ok (1 / 100 : ℚ) (99 / 100) 10000) (w := Demo.w0) (by decide)
  exact ⟨t, w, h⟩

end field

end Adv.Props
