import Verif.Proof.FwOptimise
import Verif.Props.FwGradient

/-!
# C71: the optimisation in the Floyd-Warshall example

`examples/floyd_warshall.rs` minimises the sum of squared distances between the exits by gradient descent. The statements
hold for every network, every schedule of the parallel loops, every stopping rule and every number of iterations.
-/

set_option linter.unusedSectionVars false

namespace Adv.Props
open Adv.Fw Adv.Ckpt
open scoped Adv

section field
variable {K : Type} [Field K] [LinearOrder K] [IsStrictOrderedRing K] [Flt K] [LawfulFlt K]

/-- C71: the optimisation does not panic as long as context ids last. The printed errors are the square roots of
the values of `zero_order` at the points that it visits: that of the first point is printed twice (if there is an
iteration), that of the last point is not printed. At most `n` iterations are done, and fewer only if the stopping rule
holds for the last gradient. -/
theorem C71_run {N : Net K} (hN : N.Ok) {est : Int → Int → Int} (hest : SoundEst est) (hn : 2 ≤ N.n) {capMax : Nat}
    (hcap : N.n ≤ capMax) (hsz : SizeOk (N.n + 2) N.n) (hlt : N.n + 3 < 2 ^ 64) {σ : Sched} (hσ : σ.Valid)
    {σs : Nat → Sched} (hσs : ∀ n, (σs n).Valid) (nextStep : List K → List K → DMat K → DMat K → K) (stop : DMat K → Bool)
    {x : List K} (hx : x.length = N.lights) (st : K) (n : Nat) {s : Ckpt.World (World K)}
    (hw : s.w.nextId + (2 + (n + 1) * (N.n + (revCost (N.n + 3) (N.n - 1) + (N.n + 2)))) ≤ usizeMax) :
    ∃ (tapes : Tape K × Tape K) (w1 : World K) (o : Opt K) (s' : Ckpt.World (World K)) (p : Nat → List K) (E : Nat → K),
      record N s.w = (.ok tapes, w1) ∧ optimise σ σs est capMax N nextStep stop x st n s = (.ok o, s') ∧
      p 0 = x ∧ p o.iterations = o.params ∧
      (∀ k ≤ o.iterations, (p k).length = N.lights ∧
        ∀ w : World K, w.nextId + N.n ≤ usizeMax → (zeroOrder N tapes (p k) w).1 = .ok (E k)) ∧
      o.printed = (E 0 :: (List.range o.iterations).map E).map Flt.sqrt ∧
      o.iterations ≤ n ∧ (o.iterations < n → stop o.g = true) := by
  obtain ⟨tapes, w1, e, h, hP⟩ := optimise_ok hN hest hn hcap hsz hlt hσ hσs nextStep stop hx st n (s := s) hw
  obtain ⟨o, s', k1, k2, ⟨p, q1, q2, q3, q4⟩, k4, k5⟩ := hP
    (fun o => ∃ p : Nat → List K, p 0 = x ∧ p o.iterations = o.params ∧ (∀ k ≤ o.iterations, (p k).length = N.lights) ∧
      o.printed = Flt.sqrt (valueAt N x) :: (List.range o.iterations).map fun k => Flt.sqrt (valueAt N (p k)))
    (by
      intro o h1 _ h3 h4 _
      exact ⟨fun _ => x, rfl, h1.symm, fun _ _ => hx, by rw [h4, h3]; rfl⟩)
    (by
      rintro o o' ⟨p, q1, q2, q3, q4⟩ _ hi' hnx _
      refine ⟨fun k => if k ≤ o.iterations then p k else o'.params, ?_, ?_, ?_, ?_⟩
      · simpa using q1
      · simp [hnx.iterations]
      · intro k _
        by_cases hk' : k ≤ o.iterations
        · simpa [hk'] using q3 k hk'
        · simpa [hk'] using hi'.len
      · rw [hnx.printed, q4, hnx.iterations, List.range_succ, List.map_append, List.cons_append]
        congr 2
        · apply List.map_congr_left
          intro k hk
          have := List.mem_range.mp hk
          simp [this.le]
        · simp [q2])
  refine ⟨tapes, w1, o, s', p, fun k => valueAt N (p k), e, k1, q1, q2, fun k hk => ⟨q3 k hk, fun w hw => ?_⟩, ?_, k4, k5⟩
  · obtain ⟨w', e', -⟩ := h.value (q3 k hk) hw
    rw [e']
  · rw [q4, ← q1, List.map_cons, List.map_map]; rfl

/-- One road, one light, two iterations of the size 1/1000 and 1/2000. -/
example : ∃ o s', optimise Sched.seq (fun _ => Sched.seq) (fun _ _ => 1) 100 Demo.road (fun _ _ _ _ => 1 / 2000) (fun _ => false)
    [1 / 4] (1 / 1000 : ℚ) 2 ⟨Demo.w0, 0⟩ = (.ok o, s') ∧ o.printed.length = 3 ∧ o.printed[0]? = o.printed[1]? := by
  obtain ⟨tapes, w1, o, s', p, E, -, e, -, -, -, h1, h2, h3⟩ := C71_run road_ok one_sound (by decide) (capMax := 100) (by decide)
    (by unfold SizeOk; decide) (by decide) Sched.seq_valid (fun _ => Sched.seq_valid) (fun _ _ _ _ => 1 / 2000)
    (fun _ => false) (x := [1 / 4]) rfl (1 / 1000) 2 (s := ⟨Demo.w0, 0⟩) (by decide +kernel)
  have : o.iterations = 2 := by
    rcases Nat.lt_or_ge o.iterations 2 with h | h
    · exact absurd (h3 h) (by simp)
    · omega
  rw [this] at h1
  exact ⟨o, s', e, by rw [h1]; rfl, by rw [h1]; rfl⟩

end field

/-! ## Real numbers -/

theorem foldl_add_sum (f : Nat → ℝ) (n : Nat) (a : ℝ) : (List.range n).foldl (fun s i => s +ᶠ f i) a = a + ∑ i : Fin n, f i := by
  induction n generalizing a with
  | zero => simp
  | succ n ih => rw [List.range_succ, List.foldl_append, ih, Fin.sum_univ_castSucc]; simp [LawfulFlt.add_eq, add_assoc]

theorem barzilai_eq {L : Nat} (p p' g g' : Fin L → ℝ) {G G' : DMat ℝ} (hg : ∀ j : Fin L, G.get j 0 = g j)
    (hg' : ∀ j : Fin L, G'.get j 0 = g' j) :
    Nn.barzilai (List.ofFn p) (List.ofFn p') G G' =
      |∑ i, (p' i - p i) * (g' i - g i)| / ∑ i, (g' i - g i) ^ 2 := by
  unfold Nn.barzilai
  simp only [List.length_ofFn, LawfulFlt.div_eq, LawfulFlt.abs_eq, LawfulFlt.mul_eq, LawfulFlt.sub_eq]
  rw [foldl_add_sum (fun i => ((List.ofFn p').getD i Flt.zero - (List.ofFn p).getD i Flt.zero) * (G'.get i 0 - G.get i 0)),
    foldl_add_sum (fun i => (G'.get i 0 - G.get i 0) * (G'.get i 0 - G.get i 0))]
  simp only [LawfulFlt.zero_eq, zero_add, hg, hg', pow_two]
  congr 2
  refine Finset.sum_congr rfl fun i _ => ?_
  simp

/-- C71: the points that the optimisation visits are those of gradient descent with the step size of Barzilai and Borwein,
where the first step is half as long as the step size of the example says (the gradients of the example are halves, but the
following step sizes make up for it). `G` is the gradient of the error wherever no light is at the end of its range and
the error is differentiable. -/
theorem C71_descent {N : Net ℝ} (hN : N.Ok) (hlo : 0 < N.lo) (hhi : N.hi < 1) (hle : N.lo ≤ N.hi) (hinf : 0 ≤ N.inf)
    (hn : 2 ≤ N.n) (hsz : SizeOk (N.n + 2) N.n) (hlt : N.n + 3 < 2 ^ 64)
    (hbudget : revCost (N.n + 3) (N.n - 1) + (N.n + 2) ≤ usizeMax) :
    ∃ (Z : (Fin N.lights → ℝ) → ℝ) (G : (Fin N.lights → ℝ) → Fin N.lights → ℝ),
      (∀ (w0 w1 : World ℝ) tapes, w0.nextId + 2 ≤ usizeMax → record N w0 = (.ok tapes, w1) →
        ∀ (e : Fin N.lights → ℝ) (w : World ℝ), w.nextId + N.n ≤ usizeMax → (zeroOrder N tapes (List.ofFn e) w).1 = .ok (Z e)) ∧
      (∀ e : Fin N.lights → ℝ, (∀ ed ∈ N.edges, (List.ofFn e).getD ed.light 0 ≠ N.lo ∧ (List.ofFn e).getD ed.light 0 ≠ N.hi) →
        DifferentiableAt ℝ Z e → ∃ D : (Fin N.lights → ℝ) →L[ℝ] ℝ, HasFDerivAt Z D e ∧ ∀ v, D v = ∑ j, G e j * v j) ∧
      ∀ {est : Int → Int → Int} (_ : SoundEst est) {capMax : Nat} (_ : N.n ≤ capMax) {σ : Sched} (_ : σ.Valid)
        {σs : Nat → Sched} (_ : ∀ n, (σs n).Valid) (stop : DMat ℝ → Bool) (p0 : Fin N.lights → ℝ) (st : ℝ) (n : Nat)
        {s : Ckpt.World (World ℝ)}
        (_ : s.w.nextId + (2 + (n + 1) * (N.n + (revCost (N.n + 3) (N.n - 1) + (N.n + 2)))) ≤ usizeMax),
        ∃ (o : Opt ℝ) (s' : Ckpt.World (World ℝ)),
          optimise σ σs est capMax N Nn.barzilai stop (List.ofFn p0) st n s = (.ok o, s') ∧
          o.params = List.ofFn (Descent.after G p0 (st / 2) o.iterations).point ∧
          o.g.nrows = N.lights ∧ o.g.ncols = 1 ∧
          (∀ j : Fin N.lights, o.g.get j 0 = (Descent.after G p0 (st / 2) o.iterations).grad j / 2) ∧
          o.iterations ≤ n ∧ (o.iterations < n → stop o.g = true) := by
  refine ⟨total N, fun e j => 2 * slope N (List.ofFn e) j, ?_, ?_, ?_⟩
  · intro w0 w1 tapes hw0 ht e w hw
    exact zeroOrder_total hN hlo hhi hle hinf (recorded_of_record hN hw0 ht) e hw
  · intro e hk hd
    have h0 : (⟨0, fun _ => none⟩ : World ℝ).nextId + 2 ≤ usizeMax := by show 0 + 2 ≤ 2 ^ 64 - 1; decide
    obtain ⟨tapes, w1, ht, hr, -⟩ := record_ok hN h0
    obtain ⟨l0, l1⟩ := record_tapes hN h0 ht
    have hset : Setup N tapes (fun _ _ => 1) N.n := ⟨hN, hr, l0, l1, one_sound, hn, le_refl _, hsz, hlt⟩
    have hb : (⟨⟨0, fun _ => none⟩, 0⟩ : Ckpt.World (World ℝ)).w.nextId + (revCost (N.n + 3) (N.n - 1) + (N.n + 2)) ≤ usizeMax := by
      simpa using hbudget
    obtain ⟨Z, g, s', hZ, h1, h2⟩ := C69_half_partial hN hlo hhi hle hinf h0 ht hk Sched.seq_valid one_sound hn (le_refl _)
      hsz hlt hb
    have hZt : Z = total N := by
      funext e'
      have h1 := hZ e' ⟨0, fun _ => none⟩ (by show 0 + N.n ≤ 2 ^ 64 - 1; omega)
      rw [zeroOrder_total hN hlo hhi hle hinf hr e' (by show 0 + N.n ≤ 2 ^ 64 - 1; omega)] at h1
      exact (Except.ok.inj h1).symm
    obtain ⟨-, -, D, hD, hv⟩ := h2 (hZt ▸ hd)
    obtain ⟨g', s'', k1, -, -, -, k2⟩ := hset.gradient Sched.seq_valid (x := List.ofFn e) (by simp) hb
    rw [h1] at k1
    have hgg : g = g' := by injection k1 with k1 _; exact Except.ok.inj k1
    subst hgg
    refine ⟨D, hZt ▸ hD, fun v => ?_⟩
    rw [hv, Finset.mul_sum]
    refine Finset.sum_congr rfl fun j _ => ?_
    rw [k2 j j.isLt]; ring
  · intro est hest capMax hcap σ hσ σs hσs stop p0 st n s hw
    obtain ⟨tapes, w1, e, h, hP⟩ := optimise_ok hN hest hn hcap hsz hlt hσ hσs Nn.barzilai stop (x := List.ofFn p0) (by simp)
      st n (s := s) hw
    set G : (Fin N.lights → ℝ) → Fin N.lights → ℝ := fun e j => 2 * slope N (List.ofFn e) j with hG
    set D := Descent.after G p0 (st / 2) with hD
    have grad : ∀ {o : Opt ℝ} {q : Fin N.lights → ℝ}, Inv N o → o.params = List.ofFn q →
        ∀ j : Fin N.lights, o.g.get j 0 = G q j / 2 := by
      intro o q hi hq j
      rw [hi.grad j j.isLt, hq, hG]
      simp
    obtain ⟨o, s', k1, k2, ⟨q1, q2, -⟩, k4, k5⟩ := hP
      (fun o => o.params = List.ofFn (D o.iterations).point ∧ (∀ j : Fin N.lights, o.g.get j 0 = (D o.iterations).grad j / 2) ∧
        o.step = 2 * (D o.iterations).step)
      (by
        intro o h1 h2 h3 _ hi
        refine ⟨by rw [h3, h1]; rfl, fun j => ?_, by rw [h3, h2, hD]; simp only [Descent.after]; ring⟩
        rw [grad hi h1 j, h3]
        rfl)
      (by
        rintro o o' ⟨h1, h2, h3⟩ hi hi' hnx _
        have hp : o'.params = List.ofFn (D o'.iterations).point := by
          rw [hnx.params, hnx.iterations]
          apply List.ext_getElem (by simp)
          intro i q1 q2
          have hi : i < N.lights := by simpa using q1
          rw [List.getElem_map, List.getElem_range, List.getElem_ofFn, h1, h3, h2 ⟨i, hi⟩]
          show _ = (D o.iterations).point ⟨i, hi⟩ - (D o.iterations).step * (D o.iterations).grad ⟨i, hi⟩
          simp only [List.getD_eq_getElem?_getD, List.getElem?_ofFn, hi, dite_true, Option.getD_some]
          ring
        have hg : ∀ j : Fin N.lights, o'.g.get j 0 = (D o'.iterations).grad j / 2 := by
          intro j
          rw [grad hi' hp j, hnx.iterations, hD]
          rfl
        refine ⟨hp, hg, ?_⟩
        rw [hnx.step, h1, hp, barzilai_eq _ _ _ _ h2 hg, hnx.iterations]
        show _ = 2 * ((D o.iterations).next G).step
        have e1 : ∀ i, (D (o.iterations + 1)).point i = (D o.iterations).point i - (D o.iterations).step * (D o.iterations).grad i :=
          fun i => rfl
        have e2 : ∀ i, (D (o.iterations + 1)).grad i =
            G (fun i => (D o.iterations).point i - (D o.iterations).step * (D o.iterations).grad i) i := fun i => rfl
        simp only [e1, e2, Descent.next]
        generalize G _ = γ
        rw [show (∑ i, ((D o.iterations).point i - (D o.iterations).step * (D o.iterations).grad i - (D o.iterations).point i) *
            (γ i / 2 - (D o.iterations).grad i / 2)) = (∑ i, ((D o.iterations).point i - (D o.iterations).step *
            (D o.iterations).grad i - (D o.iterations).point i) * (γ i - (D o.iterations).grad i)) / 2 from by
          rw [Finset.sum_div]; exact Finset.sum_congr rfl fun i _ => by ring,
          show (∑ i, (γ i / 2 - (D o.iterations).grad i / 2) ^ 2) = (∑ i, (γ i - (D o.iterations).grad i) ^ 2) / 4 from by
          rw [Finset.sum_div]; exact Finset.sum_congr rfl fun i _ => by ring, abs_div]
        rw [show |(2 : ℝ)| = 2 from abs_two]
        generalize (∑ i, (γ i - (D o.iterations).grad i) ^ 2) = b
        generalize |∑ i, ((D o.iterations).point i - (D o.iterations).step *
            (D o.iterations).grad i - (D o.iterations).point i) * (γ i - (D o.iterations).grad i)| = a
        rcases eq_or_ne b 0 with rfl | hb
        · simp
        · field_simp
          norm_num)
    exact ⟨o, s', k1, q1, k2.nrows, k2.ncols, q2, k4, k5⟩

/-- The hypotheses hold for the network of the example, and there are lights at which `G` is the gradient. -/
example : exampleNet.toReal.Ok ∧ 0 < exampleNet.toReal.lo ∧ exampleNet.toReal.hi < 1 ∧
    exampleNet.toReal.lo ≤ exampleNet.toReal.hi ∧ 0 ≤ exampleNet.toReal.inf ∧ 2 ≤ exampleNet.toReal.n ∧
    SizeOk (exampleNet.toReal.n + 2) exampleNet.toReal.n ∧ exampleNet.toReal.n + 3 < 2 ^ 64 ∧
    revCost (exampleNet.toReal.n + 3) (exampleNet.toReal.n - 1) + (exampleNet.toReal.n + 2) ≤ usizeMax ∧
    ∃ l : List ℚ, l.length = exampleNet.lights ∧ exampleNet.toReal.Generic (l.map fun x : ℚ => (x : ℝ)) := by
  refine ⟨(network_ok _ _ _).toReal, ?_, ?_, ?_, ?_, ?_, ?_, ?_, ?_, exampleLights, rfl, example_generic.toReal⟩
  · simp [exampleNet, network, Net.toReal]
  · simp only [exampleNet, network, Net.toReal]; norm_num
  · simp only [exampleNet, network, Net.toReal]; norm_num
  · simp [exampleNet, network, Net.toReal]
  · decide
  · unfold SizeOk; decide
  · decide
  · decide +kernel

/-- C71: the optimisation of the example, from the start of the process: with the network, the initial parameters and the
initial step of the example it does not panic within the first 10^17 iterations. -/
theorem C71_network {est : Int → Int → Int} (hest : SoundEst est) {σ : Sched} (hσ : σ.Valid) {σs : Nat → Sched}
    (hσs : ∀ n, (σs n).Valid) (stop : DMat ℝ → Bool) {n : Nat} (hn : n ≤ 10 ^ 17) :
    ∃ o s', optimise σ σs est 23 (network (1 / 100) (99 / 100) 10000) Nn.barzilai stop (List.replicate 6 (1 / 2)) (1 / 100000 : ℝ) n
      ⟨(HState.init : HState ℝ).world, 0⟩ = (.ok o, s') ∧ o.params.length = 6 ∧
      o.iterations ≤ n ∧ (o.iterations < n → stop o.g = true) := by
  have hc : revCost (23 + 3) (23 - 1) + (23 + 2) = 53 := by decide +kernel
  have h0 : (⟨(HState.init : HState ℝ).world, 0⟩ : Ckpt.World (World ℝ)).w.nextId ≤ 1 := by decide +kernel
  obtain ⟨_, _, o, s', p, _, -, e, -, h2, h3, -, h4, h5⟩ := C71_run (network_ok (1 / 100 : ℝ) (99 / 100) 10000) hest
    (by show 2 ≤ 23; decide) (capMax := 23) (le_refl _) (by unfold SizeOk; decide) (by show 23 + 3 < 2 ^ 64; decide) hσ hσs
    Nn.barzilai stop (x := List.replicate 6 (1 / 2)) rfl (1 / 100000) n (s := ⟨(HState.init : HState ℝ).world, 0⟩) (by
      show _ + (2 + (n + 1) * (23 + (revCost (23 + 3) (23 - 1) + (23 + 2)))) ≤ 2 ^ 64 - 1
      rw [hc]
      omega)
  exact ⟨o, s', e, by rw [← h2, (h3 _ (le_refl _)).1]; rfl, h4, h5⟩

example : SoundEst (fun _ _ => 1) ∧ Sched.seq.Valid ∧ 1000 ≤ 10 ^ 17 := ⟨one_sound, Sched.seq_valid, by norm_num⟩

end Adv.Props
