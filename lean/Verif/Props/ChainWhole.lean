import Verif.Proof.Probe
import Verif.Props.Chain

/-!
# The chain driver and the driver for single functions: C62

A chain is itself a function, so `generalized_jacobian` can be applied to it directly. It then records one tape for
the whole chain instead of one for each link.
-/

set_option linter.unusedSectionVars false

namespace Adv.Props
open Adv Adv.Ckpt
open scoped Adv

section field
variable {K : Type} [Field K] [LinearOrder K] [IsStrictOrderedRing K] [Flt K] [LawfulFlt K]

/-- C62 for chains such that in the tape of every link, and in the tape of the whole chain, the abs arguments and the
outputs are distinct variables: both drivers return, with the same matrix and the same vector. The full claim has no
condition on the tapes; it is false, see `C62_counterexample`. -/
theorem C62_chain_as_function_partial {σ σ' : Sched} (hσ : σ.Valid) (hσ' : σ'.Valid) {est : Int → Int → Int}
    (hest : SoundEst est) {capMax : Nat} (fs : List (Func K)) {x dx : List K} {N : Nat}
    (hn : (Func.chain fs).len + 1 < 2 ^ 64) (hN : 2 ≤ N) (hsz : SizeOk (Func.chain fs).len N) (hcap : N ≤ capMax)
    {s : Ckpt.World (World K)} (hw : s.w.nextId + (Func.chain fs).len ≤ usizeMax) {w0 w1 : World K}
    (hw0 : w0.nextId < usizeMax) (hw1 : w1.nextId < usizeMax) (hl : dx.length = x.length)
    (hfit : LinksFit w0 (Func.chain fs).flatten x) (hdim : (Func.chain fs).n = .ok x.length)
    (hd : LinkTapes w0 (fun t => t.switching.deps.Nodup ∧ t.deps.Nodup) (Func.chain fs).flatten x) {t : Tape K}
    (ht : ((Func.chain fs).tape x w1).1 = .ok t) (hz : t.switching.deps.Nodup) (hds : t.deps.Nodup) :
    ∃ R R', (generalizedJacobianChain σ est capMax (.chain fs) x dx (some N) s).1 = .ok R ∧
      (generalizedJacobian σ' (.chain fs) x dx [0] none w1).1 = .ok R' ∧
      R.homogenous.toRows = R'.homogenous.toRows ∧ R.inhomogenous = R'.inhomogenous := by
  rw [generalizedJacobianChain_eq hσ hest (N := some N) _ x dx hn hN hsz hcap hw hw0]
  obtain ⟨R, hR⟩ := gjList_total hw0 (Func.chain fs).flatten x dx hl hfit
  have hs := (Func.tape_spec (Func.chain fs) x w1 hw1).2
  rw [ht] at hs
  obtain ⟨_, -, hT⟩ := hs.ok_left
  have hni : t.numIndeps = x.length := by simp [Tape.numIndeps, hT.indeps]
  obtain ⟨R', e1, hp, -⟩ := gj_piece hσ' hT.wf (by rw [← switching_deps hT.wf]; exact hz) hds (dx := dx) (by omega) [0]
  refine ⟨R, R', hR, ?_, ?_⟩
  · rw [gj_func _ (Prod.ext ht rfl : (Func.chain fs).tape x w1 = (.ok t, _)) hdim, e1]
  · obtain ⟨-, i2, i3, -⟩ := gjList_ok hw0 _ x dx R hl hR
    have hp' := hp
    obtain ⟨U, -, k2, k3, -, k5, -⟩ := hp'
    rw [(anfForm_shape t).jmat.2, hni] at k3
    refine affine_ext (by rw [i2, k3]) i3 (by rw [k5, k2]) fun v hv => ?_
    rw [i2] at hv
    obtain ⟨ys, y1, y2⟩ := gjList_probe hw0 _ x dx v R hl hv hR hd
    obtain ⟨zs, z1, -, z2⟩ := hT.probe hl hv hp
    have : Func.progsAll (Func.chain fs).flatten = (Func.chain fs).progs := Func.progs_flatten _
    rw [this] at y1
    have z1' : runProgsS probeSh (Func.chain fs).progs (x.zip (dx.zip v)) = .ok zs := z1
    rw [y1] at z1'
    injection z1' with h
    rw [y2, z2, h]

end field

/-- `nestF` twice: the chain driver and the driver for functions agree at a point where the piece is not that of the
base point. -/
example : LinksFit Demo.w0 [nestF, nestF] [3] ∧ (Func.chain [nestF, nestF]).n = .ok 1 ∧
    LinkTapes Demo.w0 (fun t => t.switching.deps.Nodup ∧ t.deps.Nodup) [nestF, nestF] [3] ∧
    ((Func.chain [nestF, nestF]).tape [3] Demo.w0).1.map (fun t => (t.switching.deps, t.deps)) =
      .ok ([0, 3, 4, 7], [8]) ∧
    ((generalizedJacobianChain Sched.seq lowEst 10 (.chain [nestF, nestF]) [3] [-7] (some 2)
      ⟨Demo.w0, 0⟩).1.map fun R => (R.homogenous.toRows, R.inhomogenous)) = .ok ([[-1]], [-6]) ∧
    ((generalizedJacobian Sched.seq (.chain [nestF, nestF]) [3] [-7] [0] none Demo.w0).1.map
      fun R => (R.homogenous.toRows, R.inhomogenous)) = .ok ([[-1]], [-6]) :=
  ⟨linksFit_cons (y := [2]) (by decide +kernel) (by decide +kernel) (linksFit_cons (y := [1]) (by decide +kernel)
      (by decide +kernel) trivial), by decide +kernel,
    linkTapes_cons (t := nestTape) (y := [2]) nestTape_eq ⟨by decide +kernel, by decide +kernel⟩ (by decide +kernel)
      (linkTapes_cons (y := [1]) (t := ⟨[0], [4], [⟨.Abs, 1, some 0, none⟩, ⟨.Const, 2, none, none⟩,
        ⟨.Sub, 3, some 1, some 2⟩, ⟨.Abs, 4, some 3, none⟩], [2, 2, 1, 1, 1], true⟩) (by decide +kernel)
        ⟨by decide +kernel, by decide +kernel⟩ (by decide +kernel) trivial),
    by decide +kernel, by decide +kernel, by decide +kernel⟩

/-- `x ↦ (x, |x|)`. -/
def splitF : Func ℚ := Func.advFn 1 2 fun _ => .op .Abs (.var 0) none fun i _ => .ret [.var 0, .var i]

/-- `(a, b) ↦ |a| + b`. -/
def joinF : Func ℚ := Func.advFn 2 1 fun _ => .op .Abs (.var 0) none fun i _ =>
  .op .Add (.var i) (some (.var 1)) fun j _ => .ret [.var j]

/-- C62 is false without a condition on the tape of the whole chain: `x ↦ (x, |x|)` followed by `(a, b) ↦ |a| + b`
takes the absolute value of the input twice. The chain driver finds the derivative `2` of `2 |x|` at `1`, as each of
its tapes has one abs operation. The driver for single functions finds `1`. -/
theorem C62_counterexample :
    ((generalizedJacobianChain Sched.seq lowEst 10 (.chain [splitF, joinF]) [1] [0] (some 2)
      ⟨Demo.w0, 0⟩).1.map fun R => (R.homogenous.toRows, R.inhomogenous)) = .ok ([[2]], [0]) ∧
    ((generalizedJacobian Sched.seq (.chain [splitF, joinF]) [1] [0] [0] none Demo.w0).1.map
      fun R => (R.homogenous.toRows, R.inhomogenous)) ≠ .ok ([[2]], [0]) :=
  ⟨by decide +kernel, by decide +kernel⟩

/-- C62 does not extend to the multiplicity: a link that returns a constant makes the next link record an abs
operation of its constant input, but the tape of the whole chain does not contain it. -/
theorem C62_multiplicity_counterexample :
    let constF : Func ℚ := Func.advFn 1 2 fun _ => .ret [.lit 0, .var 0]
    ((generalizedJacobianChain Sched.seq lowEst 10 (.chain [constF, joinF]) [1] [0] (some 2)
      ⟨Demo.w0, 0⟩).1.map fun R => (R.homogenous.toRows, R.multiplicity)) = .ok ([[1]], 1) ∧
    ((generalizedJacobian Sched.seq (.chain [constF, joinF]) [1] [0] [0] none Demo.w0).1.map
      fun R => (R.homogenous.toRows, R.multiplicity)) = .ok ([[1]], 0) :=
  ⟨by decide +kernel, by decide +kernel⟩

end Adv.Props
