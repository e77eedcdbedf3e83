import Verif.Proof.CkptAny
import Verif.Props.Chain

/-!
# C82: `generalized_jacobian_chain` never returns a wrong result

As in C77, nothing is assumed about the length of the chain, the number of checkpoints or the estimate of `find_t`, nor
about the number of context ids that are left: with unsuitable arguments the driver panics, but whatever it returns is
right.
-/

set_option linter.unusedSectionVars false

namespace Adv.Props
open Adv Adv.Ckpt
open scoped Adv

section generic
variable {S : Type} [Flt S]

/-- `reverse_sequence` with closures that have effects, but whose results, if there are any, do not depend on them. -/
theorem reverseSequence_any_pure (est : Int → Int → Int) {W T R : Type} {n N capMax : Nat} {forward : T → M W T}
    {reverse : T → R → M W R} {identity : T → M W R} {fwd : T → Res T} {rev : T → R → Res R} {idn : T → Res R}
    (hf : ∀ x w y, (forward x w).1 = .ok y → fwd x = .ok y)
    (hid : ∀ x w y, (identity x w).1 = .ok y → idn x = .ok y)
    (hrv : ∀ x r w y, (reverse x r w).1 = .ok y → rev x r = .ok y) {x : T} {s : Ckpt.World W} {v : R}
    (h : (reverseSequence est capMax x n N forward reverse identity s).1 = .ok v) : revFold fwd rev idn n x = .ok v := by
  have key : ∃ y, state fwd 0 x = .ok y ∧ revFold fwd rev idn (n - 0) y = .ok v :=
    reverseSequence_any est (W := W) (P := fun i y => state fwd i x = .ok y)
      (Q := fun i v => ∃ y, state fwd i x = .ok y ∧ revFold fwd rev idn (n - i) y = .ok v) (n := n)
      ⟨fun i y w z hy hz => by
          show (state fwd i x >>= fwd) = _
          rw [hy]; exact hf _ _ _ hz,
        fun y w z hy hz => ⟨y, hy, by rw [Nat.sub_self]; exact hid _ _ _ hz⟩,
        fun i y right w z hi hy hq hz => by
          obtain ⟨y', h1, h2⟩ := hq
          refine ⟨y, hy, ?_⟩
          have h3 : fwd y = .ok y' := by
            have h4 : (state fwd i x >>= fwd) = .ok y' := h1
            rwa [hy] at h4
          rw [show n - i = (n - (i + 1)) + 1 by omega]
          unfold revFold
          rw [h3, bind_ok_eq, h2, bind_ok_eq]
          exact hrv _ _ _ _ hz⟩ rfl h
  obtain ⟨y, h1, h2⟩ := key
  injection h1 with h1
  subst h1
  exact h2

/-- A tape is only recorded if there is a context id left. -/
theorem generalizedJacobian_id {σ : Sched} {f : Func S} {x dx : List S} {bits : List UInt8} {next : Option (GenJac S)}
    {w : World S} {R : GenJac S} (h : (generalizedJacobian σ f x dx bits next w).1 = .ok R) : w.nextId < usizeMax := by
  by_contra hw
  unfold generalizedJacobian at h
  rcases hn : f.n with e | n
  · rw [hn] at h; cases h
  · rw [hn, Ckpt.lift_ok_bind] at h
    simp only [assertR] at h
    split at h
    · rw [Ckpt.lift_ok_bind] at h
      have : AContext.new w = (.error .assertFailed, { w with nextId := (w.nextId + 1) % 2 ^ 64 }) := by
        simp only [AContext.new]
        rw [if_neg hw]
      have ht : f.tape x w = (.error .assertFailed, { w with nextId := (w.nextId + 1) % 2 ^ 64 }) := by
        unfold Func.tape
        rw [M.bind_error this]
      rw [M.bind_error ht] at h
      cases h
    · cases h

theorem generalizedJacobianChain_any {σ : Sched} (hσ : σ.Valid) {est : Int → Int → Int} {capMax : Nat} {chain : Func S}
    {x dx : List S} {N : Option Nat} {s : Ckpt.World (World S)} {R : GenJac S}
    (h : (generalizedJacobianChain σ est capMax chain x dx N s).1 = .ok R) {w0 : World S} (hw0 : w0.nextId < usizeMax) :
    gjList w0 chain.flatten x dx = .ok R := by
  have key := reverseSequence_any_pure est (fwd := fwdPure chain) (rev := revPure w0 chain)
    (idn := fun s => .ok (chainIdentity s)) (fun x w y hy => by rw [chainForward_eq] at hy; exact hy)
    (fun x w y hy => hy) (fun st r w y hy => by
      have hw : w.nextId < usizeMax := by
        unfold chainReverse at hy
        rcases hn : chain.nth st.1 with e | f
        · rw [hn] at hy; cases hy
        · rw [hn, Ckpt.lift_ok_bind] at hy
          exact generalizedJacobian_id hy
      rw [← (chainReverse_eq hσ chain st r hw hw0).1]; exact hy) h
  rw [← revFold_gjList w0 chain chain.flatten 0 x dx rfl]
  exact key

/-- C82: any two calls that return have the same result, whatever the numbers of checkpoints, the estimates of `find_t`,
the schedules of the parallel loops and the states of the processes are. -/
theorem C82_results_agree {σ σ' : Sched} (hσ : σ.Valid) (hσ' : σ'.Valid) {est est' : Int → Int → Int}
    {capMax capMax' : Nat} {chain : Func S} {x dx : List S} {N N' : Option Nat} {s s' : Ckpt.World (World S)}
    {R R' : GenJac S} (h : (generalizedJacobianChain σ est capMax chain x dx N s).1 = .ok R)
    (h' : (generalizedJacobianChain σ' est' capMax' chain x dx N' s').1 = .ok R') : R = R' := by
  have hw : (HState.init : HState S).world.nextId < usizeMax := show 1 < 2 ^ 64 - 1 by decide
  have e := generalizedJacobianChain_any hσ h hw
  rw [generalizedJacobianChain_any hσ' h' hw] at e
  injection e with e
  exact e.symm

end generic

section field
variable {K : Type} [Field K] [LinearOrder K] [IsStrictOrderedRing K] [Flt K] [LawfulFlt K]

/-- C82: a result is the right-to-left composition of the generalized Jacobians of the links. -/
theorem C82_composition {σ : Sched} (hσ : σ.Valid) {est : Int → Int → Int} {capMax : Nat} {chain : Func K} {x dx : List K}
    {N : Option Nat} {s : Ckpt.World (World K)} {R : GenJac K}
    (h : (generalizedJacobianChain σ est capMax chain x dx N s).1 = .ok R) (hl : dx.length = x.length) {w0 : World K}
    (hw0 : w0.nextId < usizeMax) : ChainPiece w0 chain.flatten x dx R :=
  (gjList_ok hw0 _ x dx R hl (generalizedJacobianChain_any hσ h hw0)).1

/-- C82: if in the tape of every link the abs arguments and the outputs are distinct variables, a result is exact at
`dx`. -/
theorem C82_exact {σ : Sched} (hσ : σ.Valid) {est : Int → Int → Int} {capMax : Nat} {chain : Func K} {x dx : List K}
    {N : Option Nat} {s : Ckpt.World (World K)} {R : GenJac K}
    (h : (generalizedJacobianChain σ est capMax chain x dx N s).1 = .ok R) (hl : dx.length = x.length) {w0 : World K}
    (hw0 : w0.nextId < usizeMax)
    (hd : LinkTapes w0 (fun t => t.switching.deps.Nodup ∧ t.deps.Nodup) chain.flatten x) :
    ∃ ys, (chain.eval ((x.zip dx).map fun p => AFloat.new p.1 p.2) w0).1 = .ok ys ∧
      affine R.homogenous R.inhomogenous dx = ys.map AFloat.dv := by
  obtain ⟨ys, h1, h2⟩ := (gjList_ok hw0 _ x dx R hl (generalizedJacobianChain_any hσ h hw0)).2.2.2 hd
  refine ⟨ys, ?_, h2⟩
  have e := flatten_eval chain ((x.zip dx).map fun p => AFloat.new p.1 p.2)
  have e2 : Func.evalAll chain.flatten = composeAll chain.flatten := by
    funext z
    rw [← C32_chain_eval_composition, Func.eval]
  rw [← e, ← e2, h1]

end field

/-- Four links with an estimate that is too large, so that `find_t` starts too late: with two checkpoints the driver still
returns the same as with a good estimate, with three it panics. -/
example : ((generalizedJacobianChain Sched.seq (fun _ _ => 3) 10 (.chain [nestF, nestF, nestF, nestF]) [3] [-7] (some 2)
      ⟨Demo.w0, 0⟩).1.map fun R => (R.homogenous.toRows, R.inhomogenous, R.multiplicity)) = .ok ([[1]], [6], 1) ∧
    ((generalizedJacobianChain Sched.seq (fun _ _ => 3) 10 (.chain [nestF, nestF, nestF, nestF]) [3] [-7] (some 3)
      ⟨Demo.w0, 0⟩).1.map fun R => R.multiplicity) = .error .assertFailed ∧
    ((generalizedJacobianChain Sched.seq lowEst 10 (.chain [nestF, nestF, nestF, nestF]) [3] [-7] (some 3)
      ⟨Demo.w0, 0⟩).1.map fun R => (R.homogenous.toRows, R.inhomogenous, R.multiplicity)) = .ok ([[1]], [6], 1) :=
  ⟨by decide +kernel, by decide +kernel, by decide +kernel⟩

end Adv.Props
