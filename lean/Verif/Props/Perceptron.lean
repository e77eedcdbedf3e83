import Mathlib.Algebra.Order.Chebyshev
import Verif.Proof.NnDeriv
import Verif.Proof.NnTrain
import Verif.Props.Replay

/-!
# C70: the perceptron example

`examples/perceptron.rs` records the error of a network once, with all parameters zero, and trains the network on the
replayed tape. The statements hold for every schedule of the parallel loops, every step size rule, every stopping rule and
every number of iterations.
-/

set_option linter.unusedSectionVars false

namespace Adv.Props
open Adv.Nn
open scoped Adv

/-! ## Any arithmetic -/

section any
variable {S : Type} [Flt S]

/-- C70: recording succeeds from every state of the process and leaves no context behind; the tape has nine inputs, one
output and no abs. -/
theorem C70_record {w : World S} (hw : w.nextId < usizeMax) :
    ∃ t, record w = (.ok t, w.afterTape) ∧ t.numIndeps = 9 ∧ t.numDeps = 1 ∧ t.AbsFree := by
  obtain ⟨t, h1, h2⟩ := record_ok hw
  exact ⟨t, h1, h2.indeps, h2.deps, h2.abs⟩

/-- C70: in any arithmetic, the training does not panic; after it, `params` has nine entries, `g` is what `gradient`
gives on a tape recorded at `params`, and the error printed last is the value of `xor_error` on plain numbers. At most `n`
iterations have been done, and fewer only if the stopping rule held. -/
theorem C70_training_total {σ : Sched} (hσ : σ.Valid) {σs : Nat → Sched} (hσs : ∀ n, (σs n).Valid)
    (nextStep : List S → List S → DMat S → DMat S → S) (stop : DMat S → Bool) {x : List S} (hx : x.length = 9)
    {w : World S} (hw : w.nextId < usizeMax) (n : Nat) :
    ∃ s, train σ σs nextStep stop x n w = (.ok s, w.afterTape) ∧ s.params.length = 9 ∧
      (∃ t1 J, func.tape s.params w = (.ok t1, w.afterTape) ∧ jacobianReverse σ t1 = .ok J ∧
        s.g.nrows = J.ncols ∧ s.g.ncols = J.nrows ∧ ∀ i j, s.g.get i j = J.get j i) ∧
      ((s.error = none ∧ s.params = x) ∨ ∃ e, s.error = some e ∧ func.evalFloat s.params w = (.ok [e], w)) ∧
      s.iterations ≤ n ∧ (s.iterations < n → stop s.g = true) := by
  obtain ⟨t, h1, h2, h3⟩ := train_ok hσ hσs nextStep stop hx hw n
  obtain ⟨s, k1, k2, -, k3, k4⟩ := h3 (fun _ => True) (fun _ _ _ _ _ => trivial) fun _ _ _ _ _ _ _ => trivial
  refine ⟨s, k1, k2.len, ?_, ?_, k3, k4⟩
  · obtain ⟨t1, q1, q2⟩ := k2.grad
    obtain ⟨t1', q3, q4⟩ := C58_replay_is_rerecording func func_straight (x1 := s.params) (by simpa using k2.len) hw hw h2
    rw [q1] at q3
    injection q3 with q3
    subst q3
    obtain ⟨t1', q5, -, -, -, q6⟩ := gradient_ok hσ h1 (fun _ _ => rfl) k2.len
    rw [q1] at q5
    injection q5 with q5
    subst q5
    exact ⟨t1, _, q4, q6, by rw [q2]; rfl, by rw [q2]; rfl, fun i j => by rw [q2]; rfl⟩
  · rcases k2.err with ⟨a, b, -⟩ | ⟨e, a, b⟩
    · exact .inl ⟨a, b⟩
    · exact .inr ⟨e, a, by rw [Func.evalFloat_eq, b]⟩

end any

/-! ## Real numbers -/

theorem func_loss (p : Fin 9 → ℝ) : func.evalV (List.ofFn p) = .ok [loss p] := by
  have := Fw.evalV_of_evalS (func_eval (sh := dualSh) (pt p 0))
  rw [pt_fst] at this
  rw [this, List.map_singleton, (err_jet p 0).val]

/-- C70: on real numbers the recorded function is the sum of squared differences to the exclusive or. -/
theorem C70_error (p : Fin 9 → ℝ) (w : World ℝ) : func.evalFloat (List.ofFn p) w = (.ok [loss p], w) := by
  rw [Func.evalFloat_eq, func_loss]

/-- With all parameters zero (where the tape is recorded), every output is 1/2 and the error is 1. -/
example : loss 0 = 1 := by
  norm_num [loss_eq, out, logistic]

/-- C70: the network evaluated at the end is `out`. -/
theorem C70_output (p : Fin 9 → ℝ) (a b : ℝ) (w : World ℝ) :
    (network a b).evalFloat (List.ofFn p) w = (.ok [out p a b], w) := by
  have := Fw.evalV_of_evalS (network_eval (sh := dualSh) a b (pt p 0))
  rw [pt_fst] at this
  rw [Func.evalFloat_eq, this, List.map_singleton, (mlp_jet p 0 a b).val]

theorem ofFn_single {n : Nat} (j : Fin n) : List.ofFn (Pi.single j 1 : Fin n → ℝ) = eVec n j := by
  apply List.ext_getElem
  · simp [eVec]
  · intro k q1 q2
    simp [eVec, Pi.single_apply, Fin.ext_iff, LawfulFlt.one_eq, LawfulFlt.zero_eq]

theorem ofFn_get {m n i j : Nat} {f : Nat → Nat → ℝ} (hi : i < m) (hj : j < n) : (DMat.ofFn m n f).get i j = f i j := by
  simp [DMat.ofFn, hi, hj]

theorem jfPure_ok {f : Func ℝ} {n m : Nat} {x y : List ℝ} (hn : f.n = .ok n) (hm : f.m = .ok m) (hx : x.length = n)
    (hy : f.evalV x = .ok y) (hl : m ≤ y.length) (h0 : n ≠ 0) : jfPure f x = .ok (DMat.ofFn m n (jfEntry f n x)) := by
  have h5 : assertR (decide (x.length = n)) = .ok () := by simp [assertR, hx]
  unfold jfPure
  simp only [hn, hm, bind_ok_eq, h5, hy, if_neg h0, if_pos hl]
  rfl

theorem col_gradient {t t1 : Tape ℝ} {w w' : World ℝ} (hw : w.nextId < usizeMax) (e : record w = (.ok t, w')) (h : Rec t)
    (p : Fin 9 → ℝ) (h1 : t.zeroOrder (List.ofFn p) = .ok t1) : IsGradient p (col t1) := by
  obtain ⟨J, j1, j2, j3, j4⟩ := C12_replayed_partial (w'' := w) Sched.seq_valid Sched.seq_valid func func_straight
    (x1 := List.ofFn p) (by simp) hw e (by simp [func, Func.n]) (by rw [h.deps]; rfl) h.abs h.nodup
  obtain ⟨t1', q1, -, -, -, q2⟩ := gradient_ok Sched.seq_valid h (fun _ _ => rfl) (x := List.ofFn p) (by simp)
  rw [h1] at q1
  injection q1 with q1
  subst q1
  rw [h1, bind_ok_eq, q2] at j2
  injection j2 with j2
  have hy := func_loss p
  rw [jacobianForward_eq Sched.seq_valid] at j1
  have j1 := congrArg Prod.fst j1
  rw [jfPure_ok rfl rfl (by simp) hy (le_refl _) (by decide)] at j1
  have hJ : J = DMat.ofFn 1 9 (jfEntry func 9 (List.ofFn p)) := (Except.ok.inj j1).symm
  have hent : ∀ j : Fin 9, (col t1).get j 0 = fderiv ℝ loss p (Pi.single j 1) := by
    intro j
    show (DMat.ofFn 1 9 (jrEntry t1)).get 0 j = _
    rw [j2, hJ, ← (err_jet p (Pi.single j 1)).der]
    have : jfEntry func 9 (List.ofFn p) 0 j = (errS dualSh (pt p (Pi.single j 1))).2 := by
      unfold jfEntry
      rw [← ofFn_single, ofFn_zip]
      have := func_eval (sh := dualSh) (pt p (Pi.single j 1))
      have e : func.evalD ((List.range 9).map (pt p (Pi.single j 1))) = .ok [errS dualSh (pt p (Pi.single j 1))] := this
      rw [e]
      rfl
    rw [ofFn_get (by omega) j.isLt, this]
  refine ⟨rfl, rfl, fderiv ℝ loss p, (err_jet p 0).diff.hasFDerivAt, fun v => ?_⟩
  conv_lhs => rw [show v = ∑ j, v j • (Pi.single j 1 : Fin 9 → ℝ) from by
    simpa using (Finset.univ_sum_single v).symm.trans (by
      refine Finset.sum_congr rfl fun j _ => ?_
      rw [← Pi.single_smul, smul_eq_mul, mul_one])]
  rw [map_sum]
  refine Finset.sum_congr rfl fun j _ => ?_
  rw [map_smul, smul_eq_mul, hent j, mul_comm]

/-- C70: `gradient` returns the gradient of the error, at every point, on a tape recorded at another point. -/
theorem C70_gradient {σ : Sched} (hσ : σ.Valid) {w w' : World ℝ} {t : Tape ℝ} (hw : w.nextId < usizeMax)
    (e : record w = (.ok t, w')) (p : Fin 9 → ℝ) :
    ∃ t1 g, gradient σ t (List.ofFn p) = .ok (t1, g) ∧ IsGradient p g := by
  obtain ⟨t', h1, h2⟩ := record_ok hw
  rw [e] at h1
  injection h1 with h1 _
  injection h1 with h1
  subst h1
  obtain ⟨t1, q1, -, -, q2, -⟩ := gradient_ok hσ h2 (fun _ _ => rfl) (x := List.ofFn p) (by simp)
  exact ⟨t1, _, q2, col_gradient hw e h2 p q1⟩

/-- Exchange of the inputs. -/
def exchange : Equiv.Perm (Fin 9) := Equiv.swap 0 1 * Equiv.swap 2 3

theorem out_exchange (p : Fin 9 → ℝ) (x y : ℝ) : out (fun i => p (exchange i)) x y = out p y x := by
  have e : exchange 0 = 1 ∧ exchange 1 = 0 ∧ exchange 2 = 3 ∧ exchange 3 = 2 ∧ exchange 4 = 4 ∧ exchange 5 = 5 ∧
      exchange 6 = 6 ∧ exchange 7 = 7 ∧ exchange 8 = 8 := by decide
  obtain ⟨h0, h1, h2, h3, h4, h5, h6, h7, h8⟩ := e
  simp only [out, h0, h1, h2, h3, h4, h5, h6, h7, h8]
  rw [add_comm (x * p 1), add_comm (x * p 3)]

theorem loss_exchange (p : Fin 9 → ℝ) : loss (fun i => p (exchange i)) = loss p := by
  simp only [loss_eq, out_exchange]
  ring

theorem gradient_symmetric {p : Fin 9 → ℝ} {g : DMat ℝ} (hg : IsGradient p g) (hp : Symmetric p) :
    g.get 0 0 = g.get 1 0 ∧ g.get 2 0 = g.get 3 0 := by
  obtain ⟨-, -, L, h1, h2⟩ := hg
  let T : (Fin 9 → ℝ) →L[ℝ] (Fin 9 → ℝ) := ContinuousLinearMap.pi fun i => ContinuousLinearMap.proj (exchange i)
  have hT : ∀ q, T q = fun i => q (exchange i) := fun q => rfl
  have hTp : T p = p := by
    rw [hT]
    funext i
    have : ∀ i : Fin 9, exchange i = i ∨ (i = 0 ∧ exchange i = 1) ∨ (i = 1 ∧ exchange i = 0) ∨ (i = 2 ∧ exchange i = 3) ∨
        (i = 3 ∧ exchange i = 2) := by decide
    rcases this i with h | ⟨h, h'⟩ | ⟨h, h'⟩ | ⟨h, h'⟩ | ⟨h, h'⟩
    · rw [h]
    · rw [h', h]; exact hp.1.symm
    · rw [h', h]; exact hp.1
    · rw [h', h]; exact hp.2.symm
    · rw [h', h]; exact hp.2
  have h3 : HasFDerivAt (fun q => loss (T q)) (L.comp T) p := by
    have : HasFDerivAt loss L (T p) := by rw [hTp]; exact h1
    exact this.comp p T.hasFDerivAt
  have h4 : (fun q => loss (T q)) = loss := by funext q; rw [hT]; exact loss_exchange q
  rw [h4] at h3
  have h5 := h3.unique h1
  have key : ∀ j : Fin 9, L (Pi.single j 1) = g.get j 0 := by
    intro j
    rw [h2, Finset.sum_eq_single j]
    · simp
    · intro b _ hb; simp [hb]
    · simp
  have hs : ∀ j : Fin 9, T (Pi.single (exchange j) 1) = Pi.single j 1 := by
    intro j
    rw [hT]
    funext i
    simp only [Pi.single_apply, EmbeddingLike.apply_eq_iff_eq]
  have h6 : ∀ j : Fin 9, g.get j 0 = g.get (exchange j) 0 := by
    intro j
    rw [← key, ← key, ← hs j]
    exact congrArg (fun M : (Fin 9 → ℝ) →L[ℝ] ℝ => M (Pi.single (exchange j) 1)) h5
  exact ⟨h6 0, h6 2⟩

/-- C70: throughout the training `g` is the gradient of the error at `params`, and the printed error is the error at
`params`. If the network treats its inputs alike at the start, it does so throughout. -/
theorem C70_training {σ : Sched} (hσ : σ.Valid) {σs : Nat → Sched} (hσs : ∀ n, (σs n).Valid)
    (nextStep : List ℝ → List ℝ → DMat ℝ → DMat ℝ → ℝ) (stop : DMat ℝ → Bool) (p0 : Fin 9 → ℝ)
    {w : World ℝ} (hw : w.nextId < usizeMax) (n : Nat) :
    ∃ s p, train σ σs nextStep stop (List.ofFn p0) n w = (.ok s, w.afterTape) ∧ s.params = List.ofFn p ∧
      IsGradient p s.g ∧ (s.error = some (loss p) ∨ s.error = none ∧ p = p0) ∧ (Symmetric p0 → Symmetric p) ∧
      s.iterations ≤ n ∧ (s.iterations < n → stop s.g = true) := by
  obtain ⟨t, h1, h2, h3⟩ := train_ok hσ hσs nextStep stop (x := List.ofFn p0) (by simp) hw n
  obtain ⟨s, k1, k2, ⟨p, k5, k6⟩, k3, k4⟩ := h3
    (fun s => ∃ p, s.params = List.ofFn p ∧ (Symmetric p0 → Symmetric p))
    (fun s hs _ _ _ => ⟨p0, hs, id⟩) (by
      rintro s s' ⟨p, hp, hsym⟩ hs hs' hn -
      obtain ⟨t1, q1, q2⟩ := hs.grad
      rw [hp] at q1
      have hg := col_gradient hw h2 h1 p q1
      rw [← q2] at hg
      refine ⟨fun i => p i - s.step * s.g.get i 0, ?_, fun h0 => ?_⟩
      · rw [hn.params, hp]
        apply List.ext_getElem (by simp)
        intro i a b
        have hi : i < 9 := by simpa using a
        rw [List.getElem_map, List.getElem_range, List.getElem_ofFn, List.getD_eq_getElem?_getD,
          List.getElem?_ofFn, dif_pos hi]
        rfl
      · obtain ⟨a, b⟩ := gradient_symmetric hg (hsym h0)
        exact ⟨by simp only [(hsym h0).1]; exact congrArg (fun x => p 1 - s.step * x) a,
          by simp only [(hsym h0).2]; exact congrArg (fun x => p 3 - s.step * x) b⟩)
  obtain ⟨t1, q1, q2⟩ := k2.grad
  rw [k5] at q1
  refine ⟨s, p, k1, k5, by rw [q2]; exact col_gradient hw h2 h1 p q1, ?_, k6, k3, k4⟩
  rcases k2.err with ⟨a, b, -⟩ | ⟨e, a, b⟩
  · rw [k5] at b
    exact .inr ⟨a, List.ofFn_injective b⟩
  · rw [k5, func_loss] at b
    rw [a]
    left
    simpa using (Except.ok.inj b).symm

/-- The initial parameters of the example. -/
noncomputable def startP : Fin 9 → ℝ := ![-1, -1, 1, 1, 0, 0, 1, 1, 0]

theorem start_eq : (start : List ℝ) = List.ofFn startP := by
  simp [start, startP, List.ofFn_succ, LawfulFlt.one_eq, LawfulFlt.zero_eq, LawfulFlt.neg_eq]

/-- The example starts with equal weights; a loop without stopping rule does `n` iterations. -/
example (w : World ℝ) (hw : w.nextId < usizeMax) (n : Nat) : Symmetric startP ∧
    ∃ s, train Sched.seq (fun _ => Sched.seq) barzilai (fun _ => false) start n w = (.ok s, w.afterTape) ∧ s.iterations = n := by
  refine ⟨by simp [Nn.Symmetric, startP], ?_⟩
  obtain ⟨s, p, h1, -, -, -, -, h2, h3⟩ := C70_training Sched.seq_valid (fun _ => Sched.seq_valid) barzilai (fun _ => false)
    startP hw n
  refine ⟨s, by rw [start_eq]; exact h1, ?_⟩
  by_contra h
  exact absurd (h3 (by omega)) (by simp)

/-- C70, consequence for the example: whatever step sizes are used and whenever the training is stopped, the trained network
does not distinguish the inputs `(0, 1)` and `(1, 0)`. -/
theorem C70_trained_outputs {σ : Sched} (hσ : σ.Valid) {σs : Nat → Sched} (hσs : ∀ n, (σs n).Valid)
    (nextStep : List ℝ → List ℝ → DMat ℝ → DMat ℝ → ℝ) (stop : DMat ℝ → Bool)
    {w : World ℝ} (hw : w.nextId < usizeMax) (n : Nat) :
    ∃ s y, train σ σs nextStep stop start n w = (.ok s, w.afterTape) ∧
      (network 0 1).evalFloat s.params w = (.ok [y], w) ∧ (network 1 0).evalFloat s.params w = (.ok [y], w) := by
  obtain ⟨s, p, h1, h2, -, -, h3, -, -⟩ := C70_training hσ hσs nextStep stop startP hw n
  obtain ⟨a, b⟩ := h3 (by simp [Nn.Symmetric, startP])
  refine ⟨s, out p 0 1, by rw [start_eq]; exact h1, by rw [h2, C70_output], ?_⟩
  have : out p 1 0 = out p 0 1 := by simp only [out, a, b]; ring_nf
  rw [h2, C70_output, this]

/-- C70: when the loop ends because the norm of `g` is at most `ε`, the error has no direction with slope above `ε`. -/
theorem C70_exit {σ : Sched} (hσ : σ.Valid) {σs : Nat → Sched} (hσs : ∀ n, (σs n).Valid)
    (nextStep : List ℝ → List ℝ → DMat ℝ → DMat ℝ → ℝ) (ε : ℝ) (p0 : Fin 9 → ℝ)
    {w w' : World ℝ} (hw : w.nextId < usizeMax) (n : Nat) {s : State ℝ}
    (h : train σ σs nextStep (fun g => decide (Real.sqrt (∑ i : Fin 9, g.get i 0 ^ 2) ≤ ε)) (List.ofFn p0) n w = (.ok s, w'))
    (hn : s.iterations < n) :
    ∃ (p : Fin 9 → ℝ) (L : (Fin 9 → ℝ) →L[ℝ] ℝ), s.params = List.ofFn p ∧ HasFDerivAt loss L p ∧
      ∀ v, |L v| ≤ ε * Real.sqrt (∑ i, v i ^ 2) := by
  obtain ⟨s', p, h1, h2, ⟨-, -, L, h3, h4⟩, -, -, -, h5⟩ := C70_training hσ hσs nextStep
    (fun g => decide (Real.sqrt (∑ i : Fin 9, g.get i 0 ^ 2) ≤ ε)) p0 hw n
  rw [h] at h1
  obtain rfl : s = s' := Except.ok.inj (congrArg Prod.fst h1)
  refine ⟨p, L, h2, h3, fun v => ?_⟩
  have h5 := of_decide_eq_true (h5 hn)
  have hcs := Finset.sum_mul_sq_le_sq_mul_sq Finset.univ (fun i : Fin 9 => s.g.get i 0) v
  rw [h4 v]
  calc |∑ i : Fin 9, s.g.get i 0 * v i| ≤ Real.sqrt ((∑ i : Fin 9, s.g.get i 0 ^ 2) * ∑ i, v i ^ 2) := Real.abs_le_sqrt hcs
    _ = Real.sqrt (∑ i : Fin 9, s.g.get i 0 ^ 2) * Real.sqrt (∑ i, v i ^ 2) := Real.sqrt_mul (Finset.sum_nonneg fun _ _ => sq_nonneg _) _
    _ ≤ ε * Real.sqrt (∑ i, v i ^ 2) := mul_le_mul_of_nonneg_right h5 (Real.sqrt_nonneg _)

/-- The hypotheses of `C70_exit` hold for a large `ε`. -/
example (w : World ℝ) (hw : w.nextId < usizeMax) : ∃ (ε : ℝ) (s : State ℝ),
    train Sched.seq (fun _ => Sched.seq) barzilai (fun g => decide (Real.sqrt (∑ i : Fin 9, g.get i 0 ^ 2) ≤ ε)) start 1 w =
      (.ok s, w.afterTape) ∧ s.iterations < 1 := by
  obtain ⟨t, h1, h2⟩ := record_ok hw
  obtain ⟨s, e1, -, -, -, e5⟩ := enter_ok Sched.seq_valid h2 (x := start) rfl
  refine ⟨Real.sqrt (∑ i : Fin 9, s.g.get i 0 ^ 2), s, ?_, by omega⟩
  rw [train, M.bind_ok h1, e1, bind_ok_eq, loop, if_pos (by simp)]
  rfl

theorem foldl_sum (u : Nat → ℝ) (n : Nat) :
    (List.range n).foldl (fun s i => s +ᶠ u i *ᶠ u i) (Flt.zero : ℝ) = ∑ i ∈ Finset.range n, u i * u i := by
  induction n with
  | zero => rfl
  | succ n ih => rw [List.range_succ, List.foldl_append, ih, Finset.sum_range_succ]; rfl

theorem barzilai_nonneg (p p' : List ℝ) (g g' : DMat ℝ) : 0 ≤ barzilai p p' g g' := by
  show 0 ≤ |_| / _
  beta_reduce
  rw [foldl_sum]
  exact div_nonneg (abs_nonneg _) (Finset.sum_nonneg fun _ _ => mul_self_nonneg _)

/-- C70: every iteration with the step size of the example goes into a direction in which the error does not increase to
first order. -/
theorem C70_descent {σ : Sched} (hσ : σ.Valid) {σs : Nat → Sched} (hσs : ∀ n, (σs n).Valid) (stop : DMat ℝ → Bool)
    (p0 : Fin 9 → ℝ) {w : World ℝ} (hw : w.nextId < usizeMax) (n : Nat) :
    ∃ s p s' p', train σ σs barzilai stop (List.ofFn p0) n w = (.ok s, w.afterTape) ∧ s.params = List.ofFn p ∧
      body σ barzilai s = .ok s' ∧ s'.params = List.ofFn p' ∧ 0 ≤ s.step ∧
      ∃ L : (Fin 9 → ℝ) →L[ℝ] ℝ, HasFDerivAt loss L p ∧ L (p' - p) = -(s.step * ∑ i : Fin 9, s.g.get i 0 ^ 2) := by
  obtain ⟨t, h1, h2, h3⟩ := train_ok hσ hσs barzilai stop (x := List.ofFn p0) (by simp) hw n
  obtain ⟨s, k1, k2, k3, -, -⟩ := h3 (fun s => 0 ≤ s.step)
    (fun s _ h _ _ => by rw [h]; exact zero_le_one (α := ℝ)) (fun s s' _ _ _ hn _ => by rw [hn.step]; exact barzilai_nonneg _ _ _ _)
  obtain ⟨s', b1, -, b2⟩ := body_ok hσ h1 barzilai k2
  have hp : s.params = List.ofFn fun i : Fin 9 => s.params.getD i 0 := by
    apply List.ext_getElem (by simp [k2.len])
    intro i a b
    rw [List.getElem_ofFn, List.getD_eq_getElem?_getD, List.getElem?_eq_getElem a, Option.getD_some]
  obtain ⟨t1, q1, q2⟩ := k2.grad
  rw [hp] at q1
  have hg := col_gradient hw h2 h1 _ q1
  rw [← q2] at hg
  obtain ⟨-, -, L, g1, g2⟩ := hg
  refine ⟨s, _, s', fun i => s.params.getD i 0 - s.step * s.g.get i 0, k1, hp, b1, ?_, k3, L, g1, ?_⟩
  · rw [b2.params]
    apply List.ext_getElem (by simp)
    intro i a b
    rw [List.getElem_map, List.getElem_range, List.getElem_ofFn]
    rfl
  · rw [g2, Finset.mul_sum, ← Finset.sum_neg_distrib]
    refine Finset.sum_congr rfl fun i _ => ?_
    simp only [Pi.sub_apply]
    ring

end Adv.Props
