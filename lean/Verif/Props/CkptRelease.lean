import Verif.Proof.CkptRelease
import Verif.Props.CkptAny
import Verif.Props.ChainAny

/-!
# C84: checkpointing in debug and in release builds

The sizes are those that a `usize` can have; nothing is assumed about the estimate of `find_t`.
-/

namespace Adv.Props
open Adv Adv.Ckpt

variable {W T R : Type}

/-- C84: `reverse_sequence` has the same effects and returns the same results in debug and in release builds. Only the kind
of a panic can differ. -/
theorem C84_builds_agree (est : Int → Int → Int) (capMax n N : Nat) (hn : n < 2 ^ 64) (hN : N < 2 ^ 64) (x : T)
    (forward : T → M W T) (reverse : T → R → M W R) (identity : T → M W R) (s : Ckpt.World W) :
    (reverseSequence est capMax x n N forward reverse identity s).2 =
        (reverseSequenceW est capMax x n N forward reverse identity s).2 ∧
      ∀ v, (reverseSequence est capMax x n N forward reverse identity s).1 = .ok v ↔
        (reverseSequenceW est capMax x n N forward reverse identity s).1 = .ok v :=
  reverseSequence_same est x forward reverse identity hn hN s

/-- C84 for `generalized_jacobian_chain`. -/
theorem C84_chain {S : Type} [Flt S] (σ : Sched) (est : Int → Int → Int) (capMax : Nat) (chain : Func S)
    (hn : chain.len < 2 ^ 64) (x dx : List S) (c : Option Nat) (hc : ∀ N, c = some N → N < 2 ^ 64)
    (s : Ckpt.World (World S)) :
    (generalizedJacobianChain σ est capMax chain x dx c s).2 = (generalizedJacobianChainW σ est capMax chain x dx c s).2 ∧
      ∀ g, (generalizedJacobianChain σ est capMax chain x dx c s).1 = .ok g ↔
        (generalizedJacobianChainW σ est capMax chain x dx c s).1 = .ok g := by
  refine reverseSequence_same est _ _ _ _ hn ?_ s
  cases c with
  | none => exact hn
  | some N => exact hc N rfl

/-- C84: a release build does not return a wrong result (C77), although its arithmetic wraps. -/
theorem C84_never_wrong (est : Int → Int → Int) (capMax n N : Nat) (hn : n < 2 ^ 64) (hN : N < 2 ^ 64)
    (fwd : T → Res T) (rev : T → R → Res R) (idn : T → Res R) (x : T) (s : Ckpt.World W) {v : R}
    (h : (reverseSequenceW est capMax x n N (fun x => M.lift (fwd x)) (fun x r => M.lift (rev x r))
      (fun x => M.lift (idn x)) s).1 = .ok v) : revFold fwd rev idn n x = .ok v :=
  C77_never_wrong est capMax n N fwd rev idn x s
    (((C84_builds_agree est capMax n N hn hN x _ _ _ s).2 v).mpr h)

/-- Operations wrap in a release build where a debug build panics. -/
example : addU (2 ^ 64 - 1) 1 = .error .overflow ∧ addW (2 ^ 64 - 1) 1 = 0 ∧
    subU 0 1 = .error .overflow ∧ subW 0 1 = 2 ^ 64 - 1 ∧
    subI (-2 ^ 63) 1 = .error .overflow ∧ wrapI (-2 ^ 63 - 1) = 2 ^ 63 - 1 := by
  decide +kernel

/-- The sum of C77 in both builds, also with few checkpoints, and with a bad estimate. -/
example : (reverseSequenceW (W := Unit) (T := Nat) (R := Nat) lowEst 100 0 37 9 (fun x => M.lift (.ok (x + 1)))
      (fun x r => M.lift (.ok (x + r))) (fun x => M.lift (.ok x)) ⟨(), 0⟩).1 = .ok 703 ∧
    (reverseSequenceW (W := Unit) (T := Nat) (R := Nat) lowEst 100 0 37 3 (fun x => M.lift (.ok (x + 1)))
      (fun x r => M.lift (.ok (x + r))) (fun x => M.lift (.ok x)) ⟨(), 0⟩).1 = .ok 703 ∧
    (reverseSequenceW (W := Unit) (T := Nat) (R := Nat) (fun _ _ => 9) 100 0 37 9 (fun x => M.lift (.ok (x + 1)))
      (fun x r => M.lift (.ok (x + r))) (fun x => M.lift (.ok x)) ⟨(), 0⟩).1 = .error .assertFailed := by
  decide +kernel

/-- The kinds of the panics differ: `nsteps + 1` overflows in a debug build; in a release build it wraps to `0`, the loop
is skipped and the final `unwrap` panics. -/
example : (reverseSequence (W := Unit) (T := Nat) (R := Nat) lowEst 100 0 (2 ^ 64 - 1) 2 (fun x => M.lift (.ok (x + 1)))
      (fun x r => M.lift (.ok (x + r))) (fun x => M.lift (.ok x)) ⟨(), 0⟩).1 = .error .overflow ∧
    (reverseSequenceW (W := Unit) (T := Nat) (R := Nat) lowEst 100 0 (2 ^ 64 - 1) 2 (fun x => M.lift (.ok (x + 1)))
      (fun x r => M.lift (.ok (x + r))) (fun x => M.lift (.ok x)) ⟨(), 0⟩).1 = .error .unwrapNone := by
  decide +kernel

/-- The chain of C82 in a release build. -/
example : ((generalizedJacobianChainW Sched.seq lowEst 10 (.chain [nestF, nestF, nestF, nestF]) [3] [-7] (some 3)
      ⟨Demo.w0, 0⟩).1.map fun R => (R.homogenous.toRows, R.inhomogenous, R.multiplicity)) = .ok ([[1]], [6], 1) := by
  decide +kernel

end Adv.Props
