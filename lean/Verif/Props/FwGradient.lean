import Verif.Proof.FwGeneric
import Verif.Props.FloydWarshall

/-!
# C69: the gradient in the Floyd-Warshall example

The claim: `calculate_gradient` returns the gradient of `zero_order`, at all parameters where no light is at the end of its
range and the algorithm never compares two ways that take the same time. This is false: the weight of every edge is
registered as a dependent twice, the second registration overwrites the seed of the first (C57), and the result is one
half of the gradient.
-/

set_option linter.unusedSectionVars false

namespace Adv.Props
open Adv Adv.Fw Ckpt
open scoped Adv

/-- `g`, a column, is the gradient of `Z` divided by `k`; the claim is `k = 1`, what is true is `k = 2`. -/
def GradientTimes (k : ℝ) (N : Net ℝ) (e0 : Fin N.lights → ℝ) (Z : (Fin N.lights → ℝ) → ℝ) (g : DMat ℝ) : Prop :=
  g.nrows = N.lights ∧ g.ncols = 1 ∧ ∃ D : (Fin N.lights → ℝ) →L[ℝ] ℝ, HasFDerivAt Z D e0 ∧
    ∀ v, D v = k * ∑ j : Fin N.lights, g.get j 0 * v j

/-- C69, what is true with ties: the result of `calculate_gradient` is one half of the gradient of a function that is
nowhere less than `zero_order` and equal to it at the parameters; for every schedule, every sound estimate and every state
with enough identifiers left. -/
theorem C69_half_with_ties_partial {N : Net ℝ} (hN : N.Ok) (hlo : 0 < N.lo) (hhi : N.hi < 1) (hle : N.lo ≤ N.hi)
    (hinf : 0 ≤ N.inf) {w0 w1 : World ℝ} (hw0 : w0.nextId + 2 ≤ usizeMax) {tapes : Tape ℝ × Tape ℝ}
    (ht : record N w0 = (.ok tapes, w1)) {e0 : Fin N.lights → ℝ}
    (hk : ∀ e ∈ N.edges, (List.ofFn e0).getD e.light 0 ≠ N.lo ∧ (List.ofFn e0).getD e.light 0 ≠ N.hi) {σ : Sched}
    (hσ : σ.Valid) {est : Int → Int → Int} (hest : SoundEst est) {capMax : Nat} (hn : 2 ≤ N.n) (hcap : N.n ≤ capMax)
    (hsz : SizeOk (N.n + 2) N.n) (hlt : N.n + 3 < 2 ^ 64) {s : Ckpt.World (World ℝ)}
    (hw : s.w.nextId + (revCost (N.n + 3) (N.n - 1) + (N.n + 2)) ≤ usizeMax) :
    ∃ (Z Y : (Fin N.lights → ℝ) → ℝ) (g : DMat ℝ) (s' : Ckpt.World (World ℝ)),
      (∀ e w, w.nextId + N.n ≤ usizeMax → (zeroOrder N tapes (List.ofFn e) w).1 = .ok (Z e)) ∧
      calculateGradient σ est capMax N tapes (List.ofFn e0) s = (.ok g, s') ∧ (∀ e, Z e ≤ Y e) ∧ Z e0 = Y e0 ∧
      GradientTimes 2 N e0 Y g := by
  obtain ⟨l0, l1⟩ := record_tapes hN hw0 ht
  obtain ⟨g, s', h1, -, h2, h3, h4⟩ := calculateGradient_lin hN l0 l1 (fun i => coord N.lights i e0) hσ hest hn hcap hsz hlt hw
  refine ⟨total N, fixedTotal N e0, g, s', fun e w hw => zeroOrder_total hN hlo hhi hle hinf (recorded_of_record hN hw0 ht) e hw,
    by rw [ofFn_eq]; exact h1, total_le_fixed hlo hhi hle hinf e0, (fixedTotal_self N e0).symm, h2, h3, totalD N e0,
    fixedTotal_deriv hlo hhi hle hk, fun v => ?_⟩
  rw [totalD_apply hN hle hk, lin_half hN hlo hhi hle hinf, ← h4, Finset.sum_range]
  congr 1
  refine Finset.sum_congr rfl fun j _ => ?_
  simp [coord]

/-- C69, what is true: `calculate_gradient` returns one half of the gradient of `zero_order` wherever the latter is
differentiable. Missing from the claim: the factor is 2 instead of 1. -/
theorem C69_half_partial {N : Net ℝ} (hN : N.Ok) (hlo : 0 < N.lo) (hhi : N.hi < 1) (hle : N.lo ≤ N.hi)
    (hinf : 0 ≤ N.inf) {w0 w1 : World ℝ} (hw0 : w0.nextId + 2 ≤ usizeMax) {tapes : Tape ℝ × Tape ℝ}
    (ht : record N w0 = (.ok tapes, w1)) {e0 : Fin N.lights → ℝ}
    (hk : ∀ e ∈ N.edges, (List.ofFn e0).getD e.light 0 ≠ N.lo ∧ (List.ofFn e0).getD e.light 0 ≠ N.hi) {σ : Sched}
    (hσ : σ.Valid) {est : Int → Int → Int} (hest : SoundEst est) {capMax : Nat} (hn : 2 ≤ N.n) (hcap : N.n ≤ capMax)
    (hsz : SizeOk (N.n + 2) N.n) (hlt : N.n + 3 < 2 ^ 64) {s : Ckpt.World (World ℝ)}
    (hw : s.w.nextId + (revCost (N.n + 3) (N.n - 1) + (N.n + 2)) ≤ usizeMax) :
    ∃ (Z : (Fin N.lights → ℝ) → ℝ) (g : DMat ℝ) (s' : Ckpt.World (World ℝ)),
      (∀ e w, w.nextId + N.n ≤ usizeMax → (zeroOrder N tapes (List.ofFn e) w).1 = .ok (Z e)) ∧
      calculateGradient σ est capMax N tapes (List.ofFn e0) s = (.ok g, s') ∧
      (DifferentiableAt ℝ Z e0 → GradientTimes 2 N e0 Z g) := by
  obtain ⟨Z, Y, g, s', hZ, h1, h2, h3, h4, h5, D, h6, h7⟩ :=
    C69_half_with_ties_partial hN hlo hhi hle hinf hw0 ht hk hσ hest hn hcap hsz hlt hw
  refine ⟨Z, g, s', hZ, h1, fun ⟨D', hd⟩ => ⟨h4, h5, D, ?_, h7⟩⟩
  have hm : IsLocalMax (Z - Y) e0 := Filter.Eventually.of_forall fun e => by
    simp only [Pi.sub_apply, h3, sub_self]
    exact sub_nonpos.mpr (h2 e)
  rw [← sub_eq_zero.mp (hm.hasFDerivAt_eq_zero (hd.sub h6))]
  exact hd

/-- C69: without ties `zero_order` is differentiable, and `calculate_gradient` returns one half of its gradient. -/
theorem C69_half_gradient_partial {N : Net ℝ} (hN : N.Ok) (hlo : 0 < N.lo) (hhi : N.hi < 1) (hle : N.lo ≤ N.hi)
    (hinf : 0 ≤ N.inf) {w0 w1 : World ℝ} (hw0 : w0.nextId + 2 ≤ usizeMax) {tapes : Tape ℝ × Tape ℝ}
    (ht : record N w0 = (.ok tapes, w1)) {e0 : Fin N.lights → ℝ} (hg : N.Generic (List.ofFn e0)) {σ : Sched} (hσ : σ.Valid)
    {est : Int → Int → Int} (hest : SoundEst est) {capMax : Nat} (hn : 2 ≤ N.n) (hcap : N.n ≤ capMax)
    (hsz : SizeOk (N.n + 2) N.n) (hlt : N.n + 3 < 2 ^ 64) {s : Ckpt.World (World ℝ)}
    (hw : s.w.nextId + (revCost (N.n + 3) (N.n - 1) + (N.n + 2)) ≤ usizeMax) :
    ∃ (Z : (Fin N.lights → ℝ) → ℝ) (g : DMat ℝ) (s' : Ckpt.World (World ℝ)),
      (∀ e w, w.nextId + N.n ≤ usizeMax → (zeroOrder N tapes (List.ofFn e) w).1 = .ok (Z e)) ∧
      calculateGradient σ est capMax N tapes (List.ofFn e0) s = (.ok g, s') ∧ GradientTimes 2 N e0 Z g := by
  obtain ⟨Z, g, s', hZ, h1, h2⟩ := C69_half_partial hN hlo hhi hle hinf hw0 ht hg.kink hσ hest hn hcap hsz hlt hw
  refine ⟨Z, g, s', hZ, h1, h2 ?_⟩
  have : Z = total N := by
    funext e
    have h1 := hZ e ⟨0, fun _ => none⟩ (by show 0 + N.n ≤ 2 ^ 64 - 1; omega)
    rw [zeroOrder_total hN hlo hhi hle hinf (recorded_of_record hN hw0 ht) e (by show 0 + N.n ≤ 2 ^ 64 - 1; omega)] at h1
    exact (Except.ok.inj h1).symm
  rw [this]
  exact (total_deriv hN hlo hhi hle hinf hg).differentiableAt

/-- The network of the example with the values of the example. -/
def exampleNet : Net ℚ := network (1 / 100) (99 / 100) 10000

/-- Six lights. -/
def exampleLights : List ℚ := [1 / 3, 1 / 2, 1 / 2, 1 / 2, 1 / 2, 2 / 3]

theorem example_generic : exampleNet.Generic exampleLights :=
  generic_of_tab (L := 2) (t := table 2 exampleNet exampleLights) (by norm_num) (by decide +kernel) (by decide +kernel)
    (by decide +kernel) (by decide +kernel) (by decide +kernel)

theorem triangle_generic : Demo.triangle.Generic [1 / 4, 1 / 8] :=
  generic_of_tab (L := 3) (t := table 3 Demo.triangle [1 / 4, 1 / 8]) (by norm_num) (by decide +kernel) (by decide +kernel)
    (by decide +kernel) (by decide +kernel) (by decide +kernel)

theorem road_generic : Demo.road.Generic [1 / 4] :=
  generic_of_tab (L := 1) (t := table 1 Demo.road [1 / 4]) (by norm_num) (by decide +kernel) (by decide +kernel)
    (by decide +kernel) (by decide +kernel) (by decide +kernel)

theorem one_sound : SoundEst fun _ _ => 1 := fun _ _ _ _ _ _ _ ht _ => Int.ofNat_le.mpr ht

/-- The hypotheses hold for the network of the example: it is recorded, and there are lights at which it is
differentiable. -/
example : exampleNet.toReal.Ok ∧ 0 < exampleNet.toReal.lo ∧ exampleNet.toReal.hi < 1 ∧
    exampleNet.toReal.lo ≤ exampleNet.toReal.hi ∧ 0 ≤ exampleNet.toReal.inf ∧
    (∃ tapes w1, record exampleNet.toReal (HState.init : HState ℝ).world = (.ok tapes, w1)) ∧
    (∃ e0 : Fin exampleNet.toReal.lights → ℝ, exampleNet.toReal.Generic (List.ofFn e0)) ∧ Sched.seq.Valid ∧
    SoundEst (fun _ _ => 1) ∧ 2 ≤ exampleNet.toReal.n ∧ SizeOk (exampleNet.toReal.n + 2) exampleNet.toReal.n ∧
    exampleNet.toReal.n + 3 < 2 ^ 64 ∧ (HState.init : HState ℝ).world.nextId +
      (revCost (exampleNet.toReal.n + 3) (exampleNet.toReal.n - 1) + (exampleNet.toReal.n + 2)) ≤ usizeMax := by
  refine ⟨(network_ok _ _ _).toReal, ?_, ?_, ?_, ?_, ?_, ?_, Sched.seq_valid, one_sound, ?_, ?_, ?_, ?_⟩
  · simp [exampleNet, network, Net.toReal]
  · simp only [exampleNet, network, Net.toReal]; norm_num
  · simp only [exampleNet, network, Net.toReal]; norm_num
  · simp [exampleNet, network, Net.toReal]
  · obtain ⟨t, w, h, -⟩ := record_ok (S := ℝ) (network_ok _ _ _ : exampleNet.Ok).toReal (w := (HState.init : HState ℝ).world)
      (by decide +kernel)
    exact ⟨t, w, h⟩
  · have := example_generic.toReal
    refine ⟨fun i => (exampleLights.map fun x : ℚ => (x : ℝ)).get (i.cast rfl), ?_⟩
    have e : List.ofFn (n := exampleNet.toReal.lights) (fun i => (exampleLights.map fun x : ℚ => (x : ℝ)).get (i.cast rfl)) =
        exampleLights.map fun x : ℚ => (x : ℝ) := List.ofFn_get (exampleLights.map fun x : ℚ => (x : ℝ))
    rw [e]
    exact this
  · decide
  · unfold SizeOk; decide
  · decide
  · decide +kernel

theorem road_ok : Demo.road.Ok := by refine ⟨?_, ?_, ?_⟩ <;> simp only [Demo.road] <;> decide

/-- The parameters with which the optimisation of the example starts: no light is at the end of its range, but there are
ties. -/
example : (∀ e ∈ exampleNet.edges, (List.replicate 6 (1 / 2)).getD e.light 0 ≠ exampleNet.lo ∧
    (List.replicate 6 (1 / 2)).getD e.light 0 ≠ exampleNet.hi) ∧ ¬exampleNet.Generic (List.replicate 6 (1 / 2)) := by
  refine ⟨by decide +kernel, fun h => h.tie 11 (by decide) 3 (by decide) 12 (by decide) (by decide) (by decide) (by decide) ?_⟩
  decide +kernel

/-- The full claim of C69. -/
def GradientClaim : Prop :=
  ∀ (N : Net ℝ), N.Ok → 0 < N.lo → N.hi < 1 → N.lo ≤ N.hi → 0 ≤ N.inf → 2 ≤ N.n → N.n < 100 →
    ∀ e0 : Fin N.lights → ℝ, N.Generic (List.ofFn e0) → ∀ (tapes : Tape ℝ × Tape ℝ) (w0 w1 : World ℝ),
    w0.nextId + 2 ≤ usizeMax → record N w0 = (.ok tapes, w1) →
    ∀ Z : (Fin N.lights → ℝ) → ℝ, (∀ e w, w.nextId + N.n ≤ usizeMax → (zeroOrder N tapes (List.ofFn e) w).1 = .ok (Z e)) →
    ∀ (s s' : Ckpt.World (World ℝ)) (g : DMat ℝ),
      calculateGradient Sched.seq (fun _ _ => 1) 100 N tapes (List.ofFn e0) s = (.ok g, s') → GradientTimes 1 N e0 Z g

theorem road_weight : Demo.road.toReal.weight (List.ofFn fun _ : Fin Demo.road.toReal.lights => 1 / 4) =
    fun i j => if Edge.joins ⟨0, 1, 0, true⟩ i j then 5 else if i = j then 0 else 10000 := by
  funext i j
  by_cases h : Edge.joins ⟨0, 1, 0, true⟩ i j
  · simp [Net.weight, Net.quota, Demo.road, Net.toReal, h]
    norm_num
  · simp [Net.weight, Demo.road, Net.toReal, h]

theorem road_weightD (i j : Nat) : weightD Demo.road.toReal (fun _ => 1 / 4) i j (fun _ => 1) =
    if Edge.joins ⟨0, 1, 0, true⟩ i j then -16 else 0 := by
  rw [weightD_eq]
  have hl : 0 < Demo.road.toReal.lights := by decide
  by_cases h : Edge.joins ⟨0, 1, 0, true⟩ i j
  · have e : (Demo.road.toReal.edges.reverse.find? fun e => decide (e.joins i j)) = some ⟨0, 1, 0, true⟩ := by
      simp [Demo.road, Net.toReal, h]
    simp only [e, coord_const _ _ hl]
    simp [quotaD, Net.quota, Demo.road, Net.toReal, h]
    norm_num
  · have e : (Demo.road.toReal.edges.reverse.find? fun e => decide (e.joins i j)) = none := by
      simp [Demo.road, Net.toReal, h]
    simp only [e, h, if_false]

theorem road_total : totalD Demo.road.toReal (fun _ => 1 / 4) (fun _ => 1) = -320 := by
  have e : exitPairs Demo.road.toReal.exits = [(0, 0), (0, 1), (1, 0), (1, 1)] := rfl
  rw [totalD_eq, e, road_weight]
  have e1 : weightD Demo.road.toReal (fun _ => 1 / 4) 0 1 (fun _ => 1) = -16 := by rw [road_weightD, if_pos (by decide)]
  have e2 : weightD Demo.road.toReal (fun _ => 1 / 4) 1 0 (fun _ => 1) = -16 := by rw [road_weightD, if_pos (by decide)]
  simp [show Demo.road.toReal.n = 2 from rfl, probe, after, Edge.joins]
  rw [one_div] at e1 e2
  rw [e1, e2]
  norm_num

/-- C69: the claim is false, one road with one traffic light is a counterexample. -/
theorem C69_counterexample : ¬GradientClaim := by
  intro h
  have hN : Demo.road.toReal.Ok := road_ok.toReal
  have hlo : 0 < Demo.road.toReal.lo := by simp [Demo.road, Net.toReal]
  have hhi : Demo.road.toReal.hi < 1 := by simp only [Demo.road, Net.toReal]; norm_num
  have hle : Demo.road.toReal.lo ≤ Demo.road.toReal.hi := by simp only [Demo.road, Net.toReal]; norm_num
  have hinf : 0 ≤ Demo.road.toReal.inf := by simp [Demo.road, Net.toReal]
  have hg : Demo.road.toReal.Generic (List.ofFn fun _ : Fin Demo.road.toReal.lights => 1 / 4) := by
    have := road_generic.toReal
    have e : (List.ofFn fun _ : Fin Demo.road.toReal.lights => (1 / 4 : ℝ)) = [1 / 4].map fun x : ℚ => (x : ℝ) := by
      rw [show (List.ofFn fun _ : Fin Demo.road.toReal.lights => (1 / 4 : ℝ)) = [1 / 4] from rfl]
      simp
    rw [e]
    exact this
  obtain ⟨tapes, w1, e, -⟩ := record_ok (S := ℝ) hN (w := (HState.init : HState ℝ).world) (by decide +kernel)
  obtain ⟨Z, g, s', hZ, hc, -, -, D, hD, hk⟩ := C69_half_gradient_partial hN hlo hhi hle hinf (by decide +kernel) e hg
    Sched.seq_valid one_sound (capMax := 100) (by decide) (by decide) (by unfold SizeOk; decide) (by decide)
    (s := ⟨(HState.init : HState ℝ).world, 0⟩) (by decide +kernel)
  obtain ⟨-, -, D', hD', hk'⟩ := h _ hN hlo hhi hle hinf (by decide) (by decide) _ hg tapes _ w1 (by decide +kernel) e Z hZ _ s' g hc
  have hDt : D = totalD Demo.road.toReal (fun _ => 1 / 4) := by
    have : Z = total Demo.road.toReal := by
      funext e'
      have h1 := hZ e' (HState.init : HState ℝ).world (by decide +kernel)
      have h2 := zeroOrder_total hN hlo hhi hle hinf (recorded_of_record hN (by decide +kernel) e) e'
        (w := (HState.init : HState ℝ).world) (by decide +kernel)
      rw [h1] at h2
      exact Except.ok.inj h2
    rw [this] at hD
    exact hD.unique (total_deriv hN hlo hhi hle hinf hg)
  have e1 := hk fun _ => 1
  have e2 := hk' fun _ => 1
  rw [hD'.unique hD, hDt, road_total] at e2
  rw [hDt, road_total] at e1
  linarith

/-- What is computed for one road: `-160`, where the derivative is `-320`. -/
example : (match (record Demo.road Demo.w0).1 with
    | .ok t => (calculateGradient Sched.seq (fun _ _ => 1) 100 Demo.road t [1 / 4] ⟨Demo.w0, 0⟩).1.map
        fun g : DMat ℚ => (g.nrows, g.ncols, g.get 0 0)
    | .error e => .error e) = .ok (1, 1, -160) := by
  decide +kernel

end Adv.Props
