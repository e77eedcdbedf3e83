import Verif.Proof.CkptAny
import Verif.Props.Checkpointing

/-!
# C77: `reverse_sequence` never returns a wrong result

No assumption is made on the sizes, the budget or the estimate of `find_t`: also beyond the word limit, where
`reverse_sequence` can panic (C28), a result that is returned is the right one.
-/

namespace Adv.Props
open Adv Adv.Ckpt

variable {W T R : Type}

/-- C77: if `reverse_sequence` returns, then it returns the result of the plain fold. -/
theorem C77_never_wrong (est : Int → Int → Int) (capMax n N : Nat) (fwd : T → Res T) (rev : T → R → Res R)
    (idn : T → Res R) (x : T) (s : Ckpt.World W) {v : R}
    (h : (reverseSequence est capMax x n N (fun x => M.lift (fwd x)) (fun x r => M.lift (rev x r))
      (fun x => M.lift (idn x)) s).1 = .ok v) : revFold fwd rev idn n x = .ok v := by
  have key : ∃ y, state fwd 0 x = .ok y ∧ revFold fwd rev idn (n - 0) y = .ok v :=
    reverseSequence_any est (W := W) (P := fun i y => state fwd i x = .ok y)
      (Q := fun i v => ∃ y, state fwd i x = .ok y ∧ revFold fwd rev idn (n - i) y = .ok v) (n := n)
      ⟨fun i y w z hy hz => by
          show (state fwd i x >>= fwd) = _
          rw [hy]; exact hz,
        fun y w z hy hz => ⟨y, hy, by rw [Nat.sub_self]; exact hz⟩,
        fun i y right w z hi hy hq hz => by
          obtain ⟨y', h1, h2⟩ := hq
          refine ⟨y, hy, ?_⟩
          have h3 : fwd y = .ok y' := by
            have h4 : (state fwd i x >>= fwd) = .ok y' := h1
            rwa [hy] at h4
          rw [show n - i = (n - (i + 1)) + 1 by omega]
          unfold revFold
          rw [h3, bind_ok_eq, h2, bind_ok_eq]
          exact hz⟩ rfl h
  obtain ⟨y, h1, h2⟩ := key
  injection h1 with h1
  subst h1
  exact h2

/-- C77 for closures with arbitrary effects: whatever relations `P i` between the index and the state and `Q i`
between the index and the reversed part the closures preserve, the result satisfies `Q 0`. The results of the closures
may depend on the world, and may differ from call to call. -/
theorem C77_relations (est : Int → Int → Int) {P : Nat → T → Prop} {Q : Nat → R → Prop} {capMax n N : Nat}
    {forward : T → M W T} {reverse : T → R → M W R} {identity : T → M W R}
    (hf : ∀ i x w y, P i x → (forward x w).1 = .ok y → P (i + 1) y)
    (hid : ∀ x w y, P n x → (identity x w).1 = .ok y → Q n y)
    (hrv : ∀ i x right w y, i < n → P i x → Q (i + 1) right → (reverse x right w).1 = .ok y → Q i y)
    {x : T} (hx : P 0 x) {s : Ckpt.World W} {v : R}
    (h : (reverseSequence est capMax x n N forward reverse identity s).1 = .ok v) : Q 0 v :=
  reverseSequence_any est ⟨hf, hid, hrv⟩ hx h

/-- Sums over a sequence, with a good and with a bad estimate: the latter panics. -/
example : (reverseSequence (W := Unit) (T := Nat) (R := Nat) lowEst 100 0 37 9 (fun x => M.lift (.ok (x + 1)))
      (fun x r => M.lift (.ok (x + r))) (fun x => M.lift (.ok x)) ⟨(), 0⟩).1 = .ok 703 ∧
    (reverseSequence (W := Unit) (T := Nat) (R := Nat) (fun _ _ => 9) 100 0 37 9 (fun x => M.lift (.ok (x + 1)))
      (fun x r => M.lift (.ok (x + r))) (fun x => M.lift (.ok x)) ⟨(), 0⟩).1 = .error .assertFailed := by
  decide +kernel

/-- Closures whose results differ from call to call (they count their calls): each state is at least its index, so the
result is at least the Gauss sum. -/
example : (reverseSequence (W := Nat) (T := Nat) (R := Nat) lowEst 100 0 10 3
      (fun x => fun k => (.ok (x + 1 + k), k + 1)) (fun x r => M.lift (.ok (x + r))) (fun x => M.lift (.ok x)) ⟨0, 0⟩).1 =
        .ok 551 ∧ 55 ≤ 551 := by
  decide +kernel

end Adv.Props
