import Verif.Props.Perceptron
import Verif.Props.FwOptimise

/-!
# C70: the points that the perceptron example visits
-/

namespace Adv.Props
open Adv.Nn
open scoped Adv

/-- The gradient of the error. -/
noncomputable def lossGrad (p : Fin 9 → ℝ) (j : Fin 9) : ℝ := fderiv ℝ loss p (Pi.single j 1)

theorem IsGradient.eq {p : Fin 9 → ℝ} {g : DMat ℝ} (h : IsGradient p g) (j : Fin 9) : g.get j 0 = lossGrad p j := by
  obtain ⟨-, -, L, h1, h2⟩ := h
  rw [lossGrad, h1.fderiv, h2, Finset.sum_eq_single j]
  · simp
  · intro b _ hb; simp [hb]
  · simp

/-- C70: the points, gradients and step sizes of the training are those of gradient descent for the error, starting with the
step size 1, with the step sizes of Barzilai and Borwein. -/
theorem C70_path {σ : Sched} (hσ : σ.Valid) {σs : Nat → Sched} (hσs : ∀ n, (σs n).Valid) (stop : DMat ℝ → Bool)
    (p0 : Fin 9 → ℝ) {w : World ℝ} (hw : w.nextId < usizeMax) (n : Nat) :
    ∃ G : (Fin 9 → ℝ) → Fin 9 → ℝ,
      (∀ p, ∃ L : (Fin 9 → ℝ) →L[ℝ] ℝ, HasFDerivAt loss L p ∧ ∀ v, L v = ∑ j, G p j * v j) ∧
      ∃ s, train σ σs barzilai stop (List.ofFn p0) n w = (.ok s, w.afterTape) ∧
        s.params = List.ofFn (Fw.Descent.after G p0 1 s.iterations).point ∧
        (∀ j : Fin 9, s.g.get j 0 = (Fw.Descent.after G p0 1 s.iterations).grad j) ∧
        s.step = (Fw.Descent.after G p0 1 s.iterations).step ∧
        s.iterations ≤ n ∧ (s.iterations < n → stop s.g = true) := by
  refine ⟨lossGrad, fun p => ?_, ?_⟩
  · obtain ⟨t, h1, h2, h3⟩ := train_ok hσ hσs barzilai stop (x := List.ofFn p) (by simp) hw 0
    obtain ⟨s, k1, k2, k3, k4, -⟩ := h3 (fun s => s.params = List.ofFn p ∨ 0 < s.iterations)
      (fun s h _ _ _ => .inl h) (fun s s' _ _ _ hn _ => .inr (by rw [hn.iterations]; omega))
    have hp : s.params = List.ofFn p := by
      rcases k3 with k3 | k3
      · exact k3
      · omega
    obtain ⟨t1, q1, q2⟩ := k2.grad
    rw [hp] at q1
    have hg := col_gradient hw h2 h1 p q1
    rw [← q2] at hg
    have he := IsGradient.eq hg
    obtain ⟨-, -, L, g1, g2⟩ := hg
    exact ⟨L, g1, fun v => by rw [g2]; exact Finset.sum_congr rfl fun j _ => by rw [he]⟩
  · obtain ⟨t, h1, h2, h3⟩ := train_ok hσ hσs barzilai stop (x := List.ofFn p0) (by simp) hw n
    have grad : ∀ {s : State ℝ} {p : Fin 9 → ℝ}, Inv t (List.ofFn p0) s → s.params = List.ofFn p →
        ∀ j : Fin 9, s.g.get j 0 = lossGrad p j := by
      intro s p hi hp j
      obtain ⟨t1, q1, q2⟩ := hi.grad
      rw [hp] at q1
      have hg := col_gradient hw h2 h1 p q1
      rw [← q2] at hg
      exact IsGradient.eq hg j
    set D := Fw.Descent.after lossGrad p0 1 with hD
    obtain ⟨s, k1, k2, ⟨q1, q2, q3⟩, k4, k5⟩ := h3
      (fun s => s.params = List.ofFn (D s.iterations).point ∧ (∀ j : Fin 9, s.g.get j 0 = (D s.iterations).grad j) ∧
        s.step = (D s.iterations).step)
      (by
        intro s e1 e2 e3 hi
        exact ⟨by rw [e3, e1]; rfl, fun j => by rw [grad hi e1 j, e3]; rfl, by rw [e3, e2]; rfl⟩)
      (by
        rintro s s' ⟨e1, e2, e3⟩ hi hi' hn -
        have hp : s'.params = List.ofFn (D s'.iterations).point := by
          rw [hn.params, hn.iterations]
          apply List.ext_getElem (by simp)
          intro i a b
          have hi : i < 9 := by simpa using a
          rw [List.getElem_map, List.getElem_range, List.getElem_ofFn, e1, e3, e2 ⟨i, hi⟩]
          show _ = (D s.iterations).point ⟨i, hi⟩ - (D s.iterations).step * (D s.iterations).grad ⟨i, hi⟩
          simp only [List.getD_eq_getElem?_getD, List.getElem?_ofFn, hi, dite_true, Option.getD_some]
          rfl
        have hg : ∀ j : Fin 9, s'.g.get j 0 = (D s'.iterations).grad j := by
          intro j
          rw [grad hi' hp j, hn.iterations]
          rfl
        refine ⟨hp, hg, ?_⟩
        rw [hn.step, e1, hp, barzilai_eq _ _ _ _ e2 hg, hn.iterations]
        rfl)
    exact ⟨s, k1, q1, q2, q3, k4, k5⟩

/-- Non-vacuity: the first step of the example. -/
example (w : World ℝ) (hw : w.nextId < usizeMax) : ∃ (s : State ℝ) (L : (Fin 9 → ℝ) →L[ℝ] ℝ),
    train Sched.seq (fun _ => Sched.seq) barzilai (fun _ => false) start 1 w = (.ok s, w.afterTape) ∧ HasFDerivAt loss L startP ∧
    s.params = List.ofFn fun i => startP i - L (Pi.single i 1) := by
  obtain ⟨G, hG, s, h1, h2, -, -, h3, h4⟩ := C70_path Sched.seq_valid (fun _ => Sched.seq_valid) (fun _ => false) startP hw 1
  obtain ⟨L, l1, l2⟩ := hG startP
  have h5 : s.iterations = 1 := by
    by_contra h
    exact absurd (h4 (by omega)) (by simp)
  refine ⟨s, L, by rw [start_eq]; exact h1, l1, ?_⟩
  rw [h2, h5]
  congr 1
  funext i
  show startP i - 1 * G startP i = _
  rw [l2, Finset.sum_eq_single i]
  · simp
  · intro b _ hb; simp [hb]
  · simp

end Adv.Props
