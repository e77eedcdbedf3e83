import Verif.Proof.Chain
import Verif.Props.Checkpointing
import Verif.Props.Functions

/-!
# Generalized Jacobians of chains: C24 and C25

`SoundEst`, `SizeOk` and `capMax` are the conditions of C26–C28: the floating point estimate of `find_t` is not too
large, the binomial coefficients fit into a machine word, and the checkpoint buffer can be allocated. Every link
needs one context id.
-/

set_option linter.unusedSectionVars false

namespace Adv.Props
open Adv Adv.Ckpt Adv.Props
open scoped Adv

/-! ## C25 -/

/-- C25: the result (or panic) does not depend on the number of checkpoints, nor on the schedule of the parallel
loops, the state of the process, or the estimate of `find_t`. No law of arithmetic is assumed. -/
theorem C25_checkpoints_irrelevant {S : Type} [Flt S] {σ σ' : Sched} (hσ : σ.Valid) (hσ' : σ'.Valid)
    {est est' : Int → Int → Int} (hest : SoundEst est) (hest' : SoundEst est') {capMax capMax' : Nat}
    (fs : List (Func S)) (x dx : List S) {N N' : Nat} (hn : (Func.chain fs).len + 1 < 2 ^ 64)
    (hN : 2 ≤ N) (hN' : 2 ≤ N') (hsz : SizeOk (Func.chain fs).len N) (hsz' : SizeOk (Func.chain fs).len N')
    (hcap : N ≤ capMax) (hcap' : N' ≤ capMax') {s s' : Ckpt.World (World S)}
    (hw : s.w.nextId + (Func.chain fs).len ≤ usizeMax) (hw' : s'.w.nextId + (Func.chain fs).len ≤ usizeMax) :
    (generalizedJacobianChain σ est capMax (.chain fs) x dx (some N) s).1 =
      (generalizedJacobianChain σ' est' capMax' (.chain fs) x dx (some N') s').1 := by
  rw [generalizedJacobianChain_eq hσ hest (N := some N) _ x dx hn hN hsz hcap hw (w0 := (HState.init : HState S).world) (show 1 < 2 ^ 64 - 1 by decide),
    generalizedJacobianChain_eq hσ' hest' (N := some N') _ x dx hn hN' hsz' hcap' hw' (w0 := (HState.init : HState S).world) (show 1 < 2 ^ 64 - 1 by decide)]

/-- C25, second half, for chains with at least two links (after flattening): `None` gives the same result as every
explicit number of checkpoints. The full claim is false, see `C25_default_counterexample`. -/
theorem C25_default_partial {S : Type} [Flt S] {σ : Sched} (hσ : σ.Valid) {est : Int → Int → Int}
    (hest : SoundEst est) {capMax : Nat} (fs : List (Func S)) (x dx : List S) {N : Nat}
    (hn : (Func.chain fs).len + 1 < 2 ^ 64) (h2 : 2 ≤ (Func.chain fs).len) (hN : 2 ≤ N)
    (hsz : SizeOk (Func.chain fs).len N) (hsz' : SizeOk (Func.chain fs).len (Func.chain fs).len) (hcap : N ≤ capMax)
    (hcap' : (Func.chain fs).len ≤ capMax) {s : Ckpt.World (World S)}
    (hw : s.w.nextId + (Func.chain fs).len ≤ usizeMax) :
    (generalizedJacobianChain σ est capMax (.chain fs) x dx none s).1 =
      (generalizedJacobianChain σ est capMax (.chain fs) x dx (some N) s).1 :=
  C25_checkpoints_irrelevant (N := (Func.chain fs).len) hσ hσ hest hest fs x dx hn h2 hN hsz' hsz hcap' hcap hw hw

/-- C25, second half, is false: for every chain with fewer than two links (after flattening) `None` panics. -/
theorem C25_default_counterexample {S : Type} [Flt S] (σ : Sched) (est : Int → Int → Int) (capMax : Nat)
    {fs : List (Func S)} (h : (Func.chain fs).len < 2) (x dx : List S) (s : Ckpt.World (World S)) :
    generalizedJacobianChain σ est capMax (.chain fs) x dx none s = (.error .assertFailed, s) :=
  C28_too_few_checkpoints est capMax _ _ h _ _ _ s

/-- A chain of length one works with two checkpoints, but not with `None`. -/
example : ((generalizedJacobianChain Sched.seq lowEst 10 (.chain [nestF]) [3] [-7] (some 2) ⟨Demo.w0, 0⟩).1.map
      fun R => (R.homogenous.toRows, R.inhomogenous, R.multiplicity)) = .ok ([[-1]], [-6], 0) ∧
    (generalizedJacobianChain Sched.seq lowEst 10 (.chain [nestF]) [3] [-7] none ⟨Demo.w0, 0⟩).1.map
      (fun R => R.multiplicity) = .error .assertFailed ∧ (Func.chain [nestF]).len < 2 :=
  ⟨by decide +kernel, by decide +kernel, by decide +kernel⟩

/-! ## C24 -/

section field
variable {K : Type} [Field K] [LinearOrder K] [IsStrictOrderedRing K] [Flt K] [LawfulFlt K]

/-- C24: if the chain can be evaluated and the declared dimensions are right, the driver returns a result. -/
theorem C24_returns {σ : Sched} (hσ : σ.Valid) {est : Int → Int → Int} (hest : SoundEst est) {capMax : Nat}
    (fs : List (Func K)) {x dx : List K} {N : Nat} (hn : (Func.chain fs).len + 1 < 2 ^ 64) (hN : 2 ≤ N)
    (hsz : SizeOk (Func.chain fs).len N) (hcap : N ≤ capMax) {s : Ckpt.World (World K)}
    (hw : s.w.nextId + (Func.chain fs).len ≤ usizeMax) {w0 : World K} (hw0 : w0.nextId < usizeMax)
    (hl : dx.length = x.length) (hfit : LinksFit w0 (Func.chain fs).flatten x) :
    ∃ R, (generalizedJacobianChain σ est capMax (.chain fs) x dx (some N) s).1 = .ok R := by
  rw [generalizedJacobianChain_eq hσ hest (N := some N) _ x dx hn hN hsz hcap hw hw0]
  exact gjList_total hw0 _ x dx hl hfit

/-- C24, second half: the result is the right-to-left composition of the generalized Jacobians of the links. -/
theorem C24_composition {σ : Sched} (hσ : σ.Valid) {est : Int → Int → Int} (hest : SoundEst est) {capMax : Nat}
    (fs : List (Func K)) {x dx : List K} {N : Nat} (hn : (Func.chain fs).len + 1 < 2 ^ 64) (hN : 2 ≤ N)
    (hsz : SizeOk (Func.chain fs).len N) (hcap : N ≤ capMax) {s : Ckpt.World (World K)}
    (hw : s.w.nextId + (Func.chain fs).len ≤ usizeMax) {w0 : World K} (hw0 : w0.nextId < usizeMax)
    (hl : dx.length = x.length) {R : GenJac K}
    (h : (generalizedJacobianChain σ est capMax (.chain fs) x dx (some N) s).1 = .ok R) :
    ChainPiece w0 (Func.chain fs).flatten x dx R := by
  rw [generalizedJacobianChain_eq hσ hest (N := some N) _ x dx hn hN hsz hcap hw hw0] at h
  exact (gjList_ok hw0 _ x dx R hl h).1

/-- C24, first half, for chains such that in the tape of every link the abs arguments and the outputs are distinct
variables. The full claim has no such condition; it is false, see `C24_exact_counterexample`. -/
theorem C24_exact_partial {σ : Sched} (hσ : σ.Valid) {est : Int → Int → Int} (hest : SoundEst est) {capMax : Nat}
    (fs : List (Func K)) {x dx : List K} {N : Nat} (hn : (Func.chain fs).len + 1 < 2 ^ 64) (hN : 2 ≤ N)
    (hsz : SizeOk (Func.chain fs).len N) (hcap : N ≤ capMax) {s : Ckpt.World (World K)}
    (hw : s.w.nextId + (Func.chain fs).len ≤ usizeMax) {w0 : World K} (hw0 : w0.nextId < usizeMax)
    (hl : dx.length = x.length) {R : GenJac K}
    (h : (generalizedJacobianChain σ est capMax (.chain fs) x dx (some N) s).1 = .ok R)
    (hd : LinkTapes w0 (fun t => t.switching.deps.Nodup ∧ t.deps.Nodup) (Func.chain fs).flatten x) :
    ∃ ys, ((Func.chain fs).eval ((x.zip dx).map fun p => AFloat.new p.1 p.2) w0).1 = .ok ys ∧
      affine R.homogenous R.inhomogenous dx = ys.map AFloat.dv := by
  rw [generalizedJacobianChain_eq hσ hest (N := some N) _ x dx hn hN hsz hcap hw hw0] at h
  obtain ⟨ys, h1, h2⟩ := (gjList_ok hw0 _ x dx R hl h).2.2.2 hd
  refine ⟨ys, ?_, h2⟩
  have e := flatten_eval (Func.chain fs) ((x.zip dx).map fun p => AFloat.new p.1 p.2)
  have e2 : Func.evalAll (Func.chain fs).flatten = composeAll (Func.chain fs).flatten := by
    funext z
    rw [← C32_chain_eval_composition, Func.eval]
  rw [← e, ← e2, h1]

end field

theorem linksFit_cons {S : Type} [Flt S] {w : World S} {f : Func S} {fs : List (Func S)} {x y : List S}
    (h1 : f.n = .ok x.length) (h2 : (f.evalFloat x w).1 = .ok y) (h3 : LinksFit w fs y) : LinksFit w (f :: fs) x :=
  ⟨h1, y, h2, h3⟩

theorem linkTapes_cons {S : Type} [Flt S] {w : World S} {P : Tape S → Prop} {f : Func S} {fs : List (Func S)}
    {x y : List S} {t : Tape S} (h1 : (f.tape x w).1 = .ok t) (h2 : P t) (h3 : (f.evalFloat x w).1 = .ok y)
    (h4 : LinkTapes w P fs y) : LinkTapes w P (f :: fs) x :=
  ⟨fun t' e => by rw [h1] at e; injection e with e; exact e ▸ h2,
    fun y' e => by rw [h3] at e; injection e with e; exact e ▸ h4⟩

/-- `nestF` applied twice, nested as a chain in a chain. -/
example : (Func.chain [nestF, .chain [nestF]]).flatten = [nestF, nestF] ∧
    LinksFit Demo.w0 [nestF, nestF] [3] ∧
    LinkTapes Demo.w0 (fun t => t.switching.deps.Nodup ∧ t.deps.Nodup) [nestF, nestF] [3] ∧
    ((generalizedJacobianChain Sched.seq lowEst 10 (.chain [nestF, .chain [nestF]]) [3] [-7] (some 2)
      ⟨Demo.w0, 0⟩).1.map fun R => (R.homogenous.toRows, R.inhomogenous, R.multiplicity)) = .ok ([[-1]], [-6], 0) ∧
    ((Func.chain [nestF, .chain [nestF]]).eval [AFloat.new 3 (-7)] Demo.w0).1.map (List.map AFloat.dv) = .ok [1] :=
  ⟨rfl, linksFit_cons (y := [2]) (by decide +kernel) (by decide +kernel) (linksFit_cons (y := [1]) (by decide +kernel)
      (by decide +kernel) trivial),
    linkTapes_cons (t := nestTape) (y := [2]) nestTape_eq ⟨by decide +kernel, by decide +kernel⟩ (by decide +kernel)
      (linkTapes_cons (y := [1]) (t := ⟨[0], [4], [⟨.Abs, 1, some 0, none⟩, ⟨.Const, 2, none, none⟩,
        ⟨.Sub, 3, some 1, some 2⟩, ⟨.Abs, 4, some 3, none⟩], [2, 2, 1, 1, 1], true⟩) (by decide +kernel)
        ⟨by decide +kernel, by decide +kernel⟩ (by decide +kernel) trivial),
    by decide +kernel, by decide +kernel⟩

/-- C24 is false without a condition on the links, for the same reason as C19. -/
theorem C24_exact_counterexample :
    ∃ R ys, (generalizedJacobianChain Sched.seq lowEst 10 (.chain [twiceF]) [1, 1] [1, 0] (some 2)
        ⟨Demo.w0, 0⟩).1 = .ok R ∧
      ((Func.chain [twiceF]).eval [AFloat.new 1 1, AFloat.new 1 0] Demo.w0).1.map (List.map AFloat.dv) = .ok ys ∧
      affine R.homogenous R.inhomogenous [1, 0] ≠ ys := by
  have h1 : (generalizedJacobianChain Sched.seq lowEst 10 (.chain [twiceF]) [1, 1] [1, 0] (some 2)
      ⟨Demo.w0, 0⟩).1.map (fun R => affine R.homogenous R.inhomogenous [1, 0]) = .ok [1] := by decide +kernel
  rcases h : (generalizedJacobianChain Sched.seq lowEst 10 (.chain [twiceF]) [1, 1] [1, 0] (some 2)
      ⟨Demo.w0, 0⟩).1 with _ | R
  · rw [h] at h1; cases h1
  · rw [h, map_ok_eq] at h1
    injection h1 with h1
    exact ⟨R, [2], rfl, by decide +kernel, by rw [h1]; decide⟩

end Adv.Props
