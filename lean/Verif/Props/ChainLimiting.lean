import Verif.Proof.Kinks
import Verif.Props.ChainAny
import Verif.Props.ChainWhole
import Verif.Props.Conical
import Verif.Props.MachineChain

/-!
# C83: the chain driver and limiting Jacobians

C60, C61 and C75 for `generalized_jacobian_chain`. The driver offers no choice of sign bits, and it sees one tape for each
link instead of a tape of the whole chain.
-/

set_option linter.unusedSectionVars false

namespace Adv.Props
open Adv Adv.Ckpt Filter Topology
open scoped Adv

section field
variable {K : Type} [Field K] [LinearOrder K] [IsStrictOrderedRing K] [Flt K] [LawfulFlt K]

/-- C83: the multiplicity that the chain driver returns is an upper bound of the multiplicity for the chain as a single
function, for every chain. (They can differ: `C62_multiplicity_counterexample`.) -/
theorem C83_multiplicity {σ σ' : Sched} (hσ : σ.Valid) (hσ' : σ'.Valid) {est : Int → Int → Int} {capMax : Nat}
    {chain : Func K} {x dx : List K} (hl : dx.length = x.length) {N : Option Nat} {s : Ckpt.World (World K)}
    {R : GenJac K} (h : (generalizedJacobianChain σ est capMax chain x dx N s).1 = .ok R) {w1 : World K}
    {bits : List UInt8} {R' : GenJac K} (h' : (generalizedJacobian σ' chain x dx bits none w1).1 = .ok R') :
    R'.multiplicity ≤ R.multiplicity := by
  have hw1 := generalizedJacobian_id h'
  have hn : chain.n = .ok x.length := by
    unfold generalizedJacobian at h'
    rcases hn : chain.n with e | n
    · rw [hn] at h'; cases h'
    · rw [hn, Ckpt.lift_ok_bind] at h'
      simp only [assertR] at h'
      split at h'
      · rename_i h0
        simp only [decide_eq_true_eq] at h0
        rw [h0]
      · cases h'
  rcases ht : chain.tape x w1 with ⟨e | t, w2⟩
  · unfold generalizedJacobian at h'
    rw [hn, Ckpt.lift_ok_bind] at h'
    simp only [assertR, decide_true, if_true] at h'
    rw [Ckpt.lift_ok_bind, M.bind_error ht] at h'
    cases h'
  have hs := (Func.tape_spec chain x w1 hw1).2
  rw [ht] at hs
  obtain ⟨_, -, hT⟩ := hs.ok_left
  have hni : t.numIndeps = x.length := by simp [Tape.numIndeps, hT.indeps]
  obtain ⟨U, -, e1⟩ := gj_none_core hσ' hT.wf (dx := dx) (by omega) bits
  rw [gj_func _ ht hn, e1] at h'
  injection h' with h'
  rw [← h']
  exact gjList_multiplicity_le hw1 hw1 chain hl (generalizedJacobianChain_any hσ h hw1) (by rw [ht])

/-- Matrix and vector of a result of the chain driver are those of the tape of the whole chain. -/
theorem gjList_whole {w0 w1 : World K} (hw0 : w0.nextId < usizeMax) (hw1 : w1.nextId < usizeMax) (chain : Func K)
    {x dx : List K} (hl : dx.length = x.length) {R : GenJac K} (hR : gjList w0 chain.flatten x dx = .ok R)
    (hd : LinkTapes w0 (fun t => t.switching.deps.Nodup ∧ t.deps.Nodup) chain.flatten x) {t : Tape K}
    (ht : (chain.tape x w1).1 = .ok t) (hz : t.switching.deps.Nodup) (hds : t.deps.Nodup) :
    ∃ R', generalizedJacobianTape Sched.seq t dx [0] none = .ok R' ∧ R'.multiplicity ≤ R.multiplicity ∧
      R.homogenous.nrows = t.numDeps ∧ R.homogenous.ncols = t.numIndeps ∧
      R.homogenous.toRows = R'.homogenous.toRows ∧ R'.homogenous.nrows = t.numDeps ∧
      R'.homogenous.ncols = t.numIndeps ∧ R.inhomogenous = R'.inhomogenous := by
  have hs := (Func.tape_spec chain x w1 hw1).2
  rw [ht] at hs
  obtain ⟨_, -, hT⟩ := hs.ok_left
  have hni : t.numIndeps = x.length := by simp [Tape.numIndeps, hT.indeps]
  obtain ⟨R', e1, hp, hm⟩ := gj_piece Sched.seq_valid hT.wf (by rw [← switching_deps hT.wf]; exact hz) hds (dx := dx)
    (by omega) [0]
  have hmul := gjList_multiplicity_le hw0 hw1 chain hl hR ht
  obtain ⟨-, i2, i3, -⟩ := gjList_ok hw0 _ x dx R hl hR
  have hp' := hp
  obtain ⟨U, -, k2, k3, -, k5, -⟩ := hp'
  rw [(anfForm_shape t).b] at k2 k5
  rw [(anfForm_shape t).jmat.2] at k3
  obtain ⟨a1, a2⟩ := affine_ext (G := R.homogenous) (H := R'.homogenous) (γ := R.inhomogenous) (δ := R'.inhomogenous)
    (by rw [i2, k3, hni]) i3 (by rw [k5, k2]) fun v hv => by
      rw [i2] at hv
      obtain ⟨ys, y1, y2⟩ := gjList_probe hw0 _ x dx v R hl hv hR hd
      obtain ⟨zs, z1, -, z2⟩ := hT.probe hl hv hp
      have : Func.progsAll chain.flatten = chain.progs := Func.progs_flatten _
      rw [this] at y1
      have z1' : runProgsS probeSh chain.progs (x.zip (dx.zip v)) = .ok zs := z1
      rw [y1] at z1'
      injection z1' with h
      rw [y2, z2, h]
  refine ⟨R', e1, by rw [hm]; exact hmul, ?_, by rw [i2, hni], a1, k2, k3, a2⟩
  have := congrArg List.length a1
  simp only [DMat.toRows, List.length_map, List.length_range] at this
  rw [this, k2]

end field

theorem linear_congr {G H : DMat ℝ} {n m : ℕ} (h : G.toRows = H.toRows) (h1 : G.nrows = m) (h2 : G.ncols = n)
    (h3 : H.nrows = m) (h4 : H.ncols = n) : G.linear n m = H.linear n m := by
  ext v i
  simp only [DMat.linear_apply]
  refine Finset.sum_congr rfl fun j _ => ?_
  have hi := congrArg (fun l => (l.getD i []).getD j 0) h
  have e : ∀ A : DMat ℝ, A.nrows = m → A.ncols = n → (A.toRows.getD i []).getD j 0 = A.get i j := by
    intro A hr hc
    subst hr hc
    simp [DMat.toRows, List.getD_eq_getElem?_getD]
  simp only [e G h1 h2, e H h3 h4] at hi
  rw [hi]

section real
variable {σ : Sched} {est : Int → Int → Int} {capMax : Nat} {chain : Func ℝ} {N : Option Nat}
  {s : Ckpt.World (World ℝ)} {R : GenJac ℝ}

/-- C83, the full claim: the matrix that `generalized_jacobian_chain` returns is a limiting Jacobian, at the increment, of
the piecewise linear model `D` of the chain. This is false (`C83_counterexample`); it holds if the multiplicity is at most
1, and outputs and abs arguments are distinct variables in the tapes of the links and of the chain. -/
theorem C83_limiting_partial (hσ : σ.Valid) {n m : ℕ} {x dx : Fin n → ℝ}
    (h : (generalizedJacobianChain σ est capMax chain (List.ofFn x) (List.ofFn dx) N s).1 = .ok R)
    (h1 : R.multiplicity ≤ 1) {w w' : World ℝ} (hw : w.nextId < usizeMax)
    (hL : LinkTapes w (fun t => t.switching.deps.Nodup ∧ t.deps.Nodup) chain.flatten (List.ofFn x)) {t : Tape ℝ}
    (ht : chain.tape (List.ofFn x) w = (.ok t, w')) (hz : t.switching.deps.Nodup) (hd : t.deps.Nodup)
    {D : (Fin n → ℝ) → Fin m → ℝ} (hD : ∀ d, t.firstOrderForward (List.ofFn d) = .ok (List.ofFn (D d))) :
    R.homogenous.linear n m ∈ limitingJacobians D dx := by
  have hrec : Recorded t := .func chain _ w w' hw ht
  have hs := (Func.tape_spec chain (List.ofFn x) w hw).2
  rw [ht] at hs
  obtain ⟨_, -, hT⟩ := hs.ok_left
  have hni : t.numIndeps = n := by simp [Tape.numIndeps, hT.indeps]
  have hnd : t.numDeps = m := by
    have := forward_dy hT.wf (dx := List.ofFn (0 : Fin n → ℝ)) (by simp [hni])
    rw [hD] at this
    injection this with this
    simpa using (congrArg List.length this).symm
  obtain ⟨R', e, e1, e2, e3, e4, e5, e6, -⟩ := gjList_whole hw hw chain (by simp)
    (generalizedJacobianChain_any hσ h hw) hL (by rw [ht]) hz hd
  subst hni hnd
  rw [linear_congr e4 e2 e3 e5 e6]
  exact C61_every_sign_partial Sched.seq_valid hrec hz hd hD dx [0] e (e1.trans h1)

/-- C83: in direction 0 it is also a limiting Jacobian of the function, under the same conditions. (The chain may contain
abs anywhere, the other operations are executed inside of their domains.) -/
theorem C83_limiting_function_partial (hσ : σ.Valid) {n m : ℕ} {x : Fin n → ℝ}
    (h : (generalizedJacobianChain σ est capMax chain (List.ofFn x) (List.replicate n 0) N s).1 = .ok R)
    (h1 : R.multiplicity ≤ 1) {w w' : World ℝ} (hw : w.nextId < usizeMax)
    (hL : LinkTapes w (fun t => t.switching.deps.Nodup ∧ t.deps.Nodup) chain.flatten (List.ofFn x)) {t : Tape ℝ}
    (ht : chain.tape (List.ofFn x) w = (.ok t, w')) (hz : t.switching.deps.Nodup) (hd : t.deps.Nodup)
    (hs : chain.Along piecewiseSmooth w (duals x 0))
    {F : (Fin n → ℝ) → Fin m → ℝ} (hF : ∀ᶠ z in 𝓝 x, (chain.evalFloat (List.ofFn z) w).1 = .ok (List.ofFn (F z))) :
    R.homogenous.linear n m ∈ limitingJacobians F x := by
  obtain ⟨D, rfl, rfl, hD⟩ := model_dims chain hw ht hs hF
  rw [← ofFn_zero] at h
  exact C75_conical chain hw ht hs hF hD (C83_limiting_partial hσ h h1 hw hL ht hz hd hD)

/-- C83: if the multiplicity in direction 0 is 0, then the chain is differentiable, and the matrix is its Jacobian. -/
theorem C83_jacobian (hσ : σ.Valid) {n : ℕ} {x : Fin n → ℝ}
    (h : (generalizedJacobianChain σ est capMax chain (List.ofFn x) (List.replicate n 0) N s).1 = .ok R)
    (h0 : R.multiplicity = 0) {w w' : World ℝ} (hw : w.nextId < usizeMax) (hn : chain.n = .ok n)
    (hL : LinkTapes w (fun t => t.switching.deps.Nodup ∧ t.deps.Nodup) chain.flatten (List.ofFn x)) {t : Tape ℝ}
    (ht : chain.tape (List.ofFn x) w = (.ok t, w')) (hz : t.switching.deps.Nodup) (hd : t.deps.Nodup)
    (hs : chain.Along piecewiseSmooth w (duals x 0)) :
    ∃ (m : ℕ) (F : (Fin n → ℝ) → Fin m → ℝ),
      (∀ᶠ z in 𝓝 x, (chain.evalFloat (List.ofFn z) w).1 = .ok (List.ofFn (F z))) ∧
      R.homogenous.nrows = m ∧ R.homogenous.ncols = n ∧ HasFDerivAt F (R.homogenous.linear n m) x ∧
      R.inhomogenous = List.replicate m 0 := by
  obtain ⟨R', e, e1, e2, e3, e4, e5, e6, e7⟩ := gjList_whole hw hw chain (dx := List.replicate n 0) (by simp)
    (generalizedJacobianChain_any hσ h hw) hL (by rw [ht]) hz hd
  have hT := (Func.tape_spec chain (List.ofFn x) w hw).2
  rw [ht] at hT
  obtain ⟨_, -, hT⟩ := hT.ok_left
  have hni : t.numIndeps = n := by simp [Tape.numIndeps, hT.indeps]
  obtain ⟨m, F, f1, f2, f3, f4, f5⟩ := C60_jacobian Sched.seq_valid chain hw ht hn hs hz hd [0] (R := R')
    (by rw [gj_func chain ht (by simpa using hn), e]) (by omega)
  have hm : t.numDeps = m := by rw [← e5, f2]
  refine ⟨m, F, f1, by rw [e2, hm], by rw [e3, hni], ?_, by rw [e7, f5]⟩
  rwa [linear_congr e4 (by rw [e2, hm]) (by rw [e3, hni]) f2 f3]

end real

/-! ### A chain that vanishes -/

section
variable {S : Type} [Flt S]

/-- `x ↦ (x, x - (x + x))`. -/
def mirrorF : Func S := Func.advFn 1 2 fun _ => .op .Add (.var 0) (some (.var 0)) fun i _ =>
  .op .Sub (.var 0) (some (.var i)) fun j _ => .ret [.var 0, .var j]

/-- `(a, b) ↦ |a| - |b|`. -/
def absDiffF : Func S := Func.advFn 2 1 fun _ => .op .Abs (.var 0) none fun i _ => .op .Abs (.var 1) none fun j _ =>
  .op .Sub (.var i) (some (.var j)) fun k _ => .ret [.var k]

/-- Their tapes at `x` and `(a, b)`, and the tape of both. -/
def mirrorTape (x : S) : Tape S :=
  ⟨[0], [0, 2], [⟨.Add, 1, some 0, some 0⟩, ⟨.Sub, 2, some 0, some 1⟩], [x, Flt.add x x, Flt.sub x (Flt.add x x)], true⟩

@[inherit_doc mirrorTape]
def absDiffTape (a b : S) : Tape S :=
  ⟨[0, 1], [4], [⟨.Abs, 2, some 0, none⟩, ⟨.Abs, 3, some 1, none⟩, ⟨.Sub, 4, some 2, some 3⟩],
    [a, b, Flt.abs a, Flt.abs b, Flt.sub (Flt.abs a) (Flt.abs b)], true⟩

@[inherit_doc mirrorTape]
def vanishTape (x : S) : Tape S :=
  ⟨[0], [5], [⟨.Add, 1, some 0, some 0⟩, ⟨.Sub, 2, some 0, some 1⟩, ⟨.Abs, 3, some 0, none⟩, ⟨.Abs, 4, some 2, none⟩,
    ⟨.Sub, 5, some 3, some 4⟩], [x, Flt.add x x, Flt.sub x (Flt.add x x), Flt.abs x, Flt.abs (Flt.sub x (Flt.add x x)),
      Flt.sub (Flt.abs x) (Flt.abs (Flt.sub x (Flt.add x x)))], true⟩

/-- The chain. -/
def vanishF : Func S := .chain [mirrorF, absDiffF]

theorem mirrorTape_eq (x : S) (w : World S) (hw : w.nextId < usizeMax) :
    (mirrorF.tape [x] w).1.toOption = some (mirrorTape x) := by
  rw [Func.tape_layout _ _ _ hw]; kernel_rfl

theorem absDiffTape_eq (a b : S) (w : World S) (hw : w.nextId < usizeMax) :
    (absDiffF.tape [a, b] w).1.toOption = some (absDiffTape a b) := by
  rw [Func.tape_layout _ _ _ hw]; kernel_rfl

theorem vanishTape_eq (x : S) (w : World S) (hw : w.nextId < usizeMax) :
    (vanishF.tape [x] w).1.toOption = some (vanishTape x) := by
  rw [Func.tape_layout _ _ _ hw]; kernel_rfl

end

theorem toOption_some {α : Type} {r : Res α} {a : α} (h : r.toOption = some a) : r = .ok a := by
  cases r with
  | error e => cases h
  | ok b => injection h with h; rw [h]

theorem vanishTape_recorded (x : ℝ) : Recorded (vanishTape x) := by
  rcases h : vanishF.tape [x] HState.init.world with ⟨r, w'⟩
  have h1 := toOption_some (vanishTape_eq x HState.init.world (by decide))
  rw [h] at h1
  replace h1 : r = .ok (vanishTape x) := h1
  subst h1
  exact .func vanishF [x] HState.init.world w' (by decide) h

theorem vanish_zHat : zHatV (vanishTape (0 : ℝ)) [0] = [0, 0] := by
  have : zHatV (vanishTape (0 : ℝ)) [0] =
      [0 + 0, Flt.sub 0 (Flt.add 0 0) + Flt.sub 0 (Flt.add 0 0)] := by kernel_rfl
  simpa [LawfulFlt.add_eq, LawfulFlt.sub_eq] using this

/-- The piecewise linear model at 0 vanishes. -/
theorem vanish_forward (d : Fin 1 → ℝ) :
    (vanishTape (0 : ℝ)).firstOrderForward (List.ofFn d) = .ok (List.ofFn fun _ : Fin 1 => (0 : ℝ)) := by
  have : (vanishTape (0 : ℝ)).firstOrderForward (List.ofFn d) = .ok [Flt.sub
      (Flt.sub (Flt.abs (Flt.add 0 (d 0))) (Flt.abs 0))
      (Flt.sub (Flt.abs (Flt.add (Flt.sub 0 (Flt.add 0 0)) (Flt.sub (d 0) (Flt.add (d 0) (d 0)))))
        (Flt.abs (Flt.sub 0 (Flt.add 0 0))))] := by kernel_rfl
  simpa [LawfulFlt.add_eq, LawfulFlt.sub_eq, LawfulFlt.abs_eq] using this

theorem vanish_piece {R : GenJac ℝ}
    (h : generalizedJacobianTape Sched.seq (vanishTape (0 : ℝ)) [0] [0] none = .ok R) : R.homogenous.get 0 0 = -2 := by
  have hwf := (vanishTape_recorded 0).proper.wf
  obtain ⟨R', e, ⟨U, hU, -, -, hG, -, -⟩, -⟩ := gj_piece Sched.seq_valid hwf (by decide) (by decide) (dx := [0]) rfl [0]
  rw [h] at e
  injection e with e
  subst e
  have hb : (anfForm (vanishTape (0:ℝ))).b.length = 1 := rfl
  have ha : (anfForm (vanishTape (0:ℝ))).a.length = 2 := rfl
  have hn : (anfForm (vanishTape (0:ℝ))).jmat.ncols = 1 := rfl
  rw [ha, hb, vanish_zHat] at hU
  rw [ha, hb, hn] at hG
  have hj : (anfForm (vanishTape (0:ℝ))).jmat.get 0 0 = Flt.sub 0 0 := by kernel_rfl
  have hz0 : (anfForm (vanishTape (0:ℝ))).zmat.get 0 0 = 1 := by kernel_rfl
  have hz1 : (anfForm (vanishTape (0:ℝ))).zmat.get 1 0 = Flt.sub 1 (Flt.add 1 1) := by kernel_rfl
  have hy0 : (anfForm (vanishTape (0:ℝ))).ymat.get 0 0 = Flt.sub 1 0 := by kernel_rfl
  have hy1 : (anfForm (vanishTape (0:ℝ))).ymat.get 0 1 = Flt.sub 0 1 := by kernel_rfl
  have hl0 : ∀ k < 2, ∀ j < 2, (anfForm (vanishTape (0:ℝ))).lmat.get k j = 0 := by
    intro k hk j hj
    interval_cases k <;> interval_cases j
    · have : (anfForm (vanishTape (0:ℝ))).lmat.get 0 0 = 0 := by kernel_rfl
      exact this
    · have : (anfForm (vanishTape (0:ℝ))).lmat.get 0 1 = 0 := by kernel_rfl
      exact this
    · have : (anfForm (vanishTape (0:ℝ))).lmat.get 1 0 = Flt.sub 0 (Flt.add 0 0) := by kernel_rfl
      simpa [LawfulFlt.add_eq, LawfulFlt.sub_eq] using this
    · have : (anfForm (vanishTape (0:ℝ))).lmat.get 1 1 = Flt.sub 0 (Flt.add 0 0) := by kernel_rfl
      simpa [LawfulFlt.add_eq, LawfulFlt.sub_eq] using this
  rw [LawfulFlt.sub_eq] at hj hy0 hy1 hz1
  rw [LawfulFlt.add_eq] at hz1
  have b0 : bitAt [0] 0 = false := by decide
  have b1 : bitAt [0] 1 = false := by decide
  have h0 := hU 0 (by omega) 0 (by omega)
  have h1 := hU 0 (by omega) 1 (by omega)
  simp [Finset.sum_range_succ, hl0, hy0, hy1, signature, zerosBefore, b0, b1, Finset.filter_singleton] at h0 h1
  rw [hG 0 (by omega) 0 (by omega), hj, Finset.sum_range_succ, Finset.sum_range_one, h0, h1, hz0, hz1]
  norm_num

theorem mirror_value (x : ℝ) : (mirrorF.evalFloat [x] HState.init.world).1 = .ok [x, x - (x + x)] := by
  have : (mirrorF.evalFloat [x] HState.init.world).1 = .ok [x, Flt.sub x (Flt.add x x)] := by kernel_rfl
  simpa [LawfulFlt.add_eq, LawfulFlt.sub_eq] using this

theorem vanish_value (z : Fin 1 → ℝ) :
    (vanishF.evalFloat (List.ofFn z) HState.init.world).1 = .ok (List.ofFn fun _ : Fin 1 => (0 : ℝ)) := by
  have : (vanishF.evalFloat (List.ofFn z) HState.init.world).1 =
      .ok [Flt.sub (Flt.abs (z 0)) (Flt.abs (Flt.sub (z 0) (Flt.add (z 0) (z 0))))] := by kernel_rfl
  simpa [LawfulFlt.add_eq, LawfulFlt.sub_eq, LawfulFlt.abs_eq] using this

/-- Tapes of a link after `mirrorF`. -/
theorem mirror_then {g : Func ℝ} {x : ℝ} {t : Tape ℝ} (ht : (g.tape [x, x - (x + x)] HState.init.world).1 = .ok t)
    (h1 : t.switching.deps.Nodup) (h2 : t.deps.Nodup) :
    LinkTapes HState.init.world (fun t => t.switching.deps.Nodup ∧ t.deps.Nodup) [mirrorF, g] [x] := by
  have hw : (HState.init : HState ℝ).world.nextId < usizeMax := by decide
  refine ⟨fun t' e => ?_, fun y e => ?_⟩
  · rw [toOption_some (mirrorTape_eq x _ hw)] at e
    injection e with e
    subst e
    exact ⟨by show ([] : List Nat).Nodup; simp, by show [0, 2].Nodup; decide⟩
  · rw [mirror_value] at e
    injection e with e
    subst e
    refine ⟨fun t' e => ?_, fun y _ => trivial⟩
    rw [ht] at e
    injection e with e
    exact e ▸ ⟨h1, h2⟩

/-- C83 is false if several switching variables vanish. The chain of `x ↦ (x, -x)` and `(a, b) ↦ |a| - |b|` is
the zero function, and so is its model. At 0 the driver selects "negative" for both `x` and `-x`, and it returns the slope
`-2`. -/
theorem C83_counterexample {σ : Sched} (hσ : σ.Valid) {est : Int → Int → Int} (hest : SoundEst est) :
    ∃ (chain : Func ℝ) (t : Tape ℝ) (w w' : World ℝ) (R : GenJac ℝ), w.nextId < usizeMax ∧
      LinkTapes w (fun t => t.switching.deps.Nodup ∧ t.deps.Nodup) chain.flatten (List.ofFn ![0]) ∧
      chain.tape (List.ofFn ![0]) w = (.ok t, w') ∧ t.switching.deps.Nodup ∧ t.deps.Nodup ∧
      (∀ z : Fin 1 → ℝ, (chain.evalFloat (List.ofFn z) w).1 = .ok (List.ofFn fun _ : Fin 1 => (0 : ℝ))) ∧
      (∀ d : Fin 1 → ℝ, t.firstOrderForward (List.ofFn d) = .ok (List.ofFn fun _ : Fin 1 => (0 : ℝ))) ∧
      (generalizedJacobianChain σ est 10 chain (List.ofFn ![0]) (List.ofFn ![0]) (some 2) ⟨w, 0⟩).1 = .ok R ∧
      R.homogenous.linear 1 1 ∉ limitingJacobians (fun (_ : Fin 1 → ℝ) (_ : Fin 1) => (0 : ℝ)) ![0] := by
  have hw : (HState.init : HState ℝ).world.nextId < usizeMax := by decide
  have h0 : List.ofFn ![(0 : ℝ)] = [0] := by simp
  rcases ht : vanishF.tape [(0 : ℝ)] HState.init.world with ⟨r, w'⟩
  have h1 := toOption_some (vanishTape_eq (0 : ℝ) HState.init.world hw)
  rw [ht] at h1
  replace h1 : r = .ok (vanishTape 0) := h1
  subst h1
  have hz : (vanishTape (0 : ℝ)).switching.deps.Nodup := by
    rw [switching_deps (vanishTape_recorded 0).proper.wf]; decide
  have hd : (vanishTape (0 : ℝ)).deps.Nodup := by decide
  have hL : LinkTapes HState.init.world (fun t => t.switching.deps.Nodup ∧ t.deps.Nodup)
      (vanishF : Func ℝ).flatten [0] :=
    mirror_then (toOption_some (absDiffTape_eq _ _ _ hw)) (by show [0, 1].Nodup; decide) (by show [4].Nodup; decide)
  have hfit : LinksFit HState.init.world (vanishF : Func ℝ).flatten [0] :=
    linksFit_cons rfl (mirror_value 0) (linksFit_cons rfl (y := [Flt.sub (Flt.abs 0) (Flt.abs (0 - (0 + 0)))])
      (by kernel_rfl) trivial)
  obtain ⟨R, R', e1, -, -⟩ := C62_chain_as_function_partial (σ := σ) (σ' := Sched.seq) hσ Sched.seq_valid hest
    (capMax := 10) [mirrorF, absDiffF] (x := [(0 : ℝ)]) (dx := [0]) (N := 2) (show 2 + 1 < 2 ^ 64 by decide) (by decide)
    (Or.inr (show (2 + 1) * 2 < 2 ^ 63 by decide)) (by decide) (s := ⟨HState.init.world, 0⟩)
    (show 1 + 2 ≤ 2 ^ 64 - 1 by decide) hw hw rfl hfit rfl hL (t := vanishTape 0)
    (by show (vanishF.tape [(0 : ℝ)] HState.init.world).1 = _; rw [ht]) hz hd
  refine ⟨vanishF, vanishTape 0, HState.init.world, w', R, hw, by rw [h0]; exact hL, by rw [h0]; exact ht, hz, hd,
    vanish_value, vanish_forward, by rw [h0]; exact e1, ?_⟩
  rintro ⟨u, -, -, hlim⟩
  have hzero : ∀ k, fderiv ℝ (fun (_ : Fin 1 → ℝ) (_ : Fin 1) => (0 : ℝ)) (u k) = 0 := fun k => by
    rw [fderiv_const_apply]
  simp only [hzero] at hlim
  have heq := tendsto_nhds_unique hlim tendsto_const_nhds
  obtain ⟨R2, g1, -, g2, g3, g4, g5, g6, -⟩ := gjList_whole hw hw vanishF (x := [(0 : ℝ)]) (dx := [0]) rfl
    (generalizedJacobianChain_any hσ e1 hw) hL (by rw [ht]) hz hd
  rw [linear_congr (n := 1) (m := 1) g4 g2 g3 g5 g6] at heq
  have h3 := congrArg (fun L => L 1 0) heq
  simp [DMat.linear_apply, vanish_piece g1] at h3

/-! ### A chain with one kink -/

/-- `(a, b) ↦ |a| - b`. -/
def tiltF {S : Type} [Flt S] : Func S := Func.advFn 2 1 fun _ => .op .Abs (.var 0) none fun i _ =>
  .op .Sub (.var i) (some (.var 1)) fun j _ => .ret [.var j]

/-- Its tape, and the tape of the chain of `mirrorF` and `tiltF`. -/
def tiltTape {S : Type} [Flt S] (a b : S) : Tape S :=
  ⟨[0, 1], [3], [⟨.Abs, 2, some 0, none⟩, ⟨.Sub, 3, some 2, some 1⟩], [a, b, Flt.abs a, Flt.sub (Flt.abs a) b], true⟩

@[inherit_doc tiltTape]
def rampTape {S : Type} [Flt S] (x : S) : Tape S :=
  ⟨[0], [4], [⟨.Add, 1, some 0, some 0⟩, ⟨.Sub, 2, some 0, some 1⟩, ⟨.Abs, 3, some 0, none⟩, ⟨.Sub, 4, some 3, some 2⟩],
    [x, Flt.add x x, Flt.sub x (Flt.add x x), Flt.abs x, Flt.sub (Flt.abs x) (Flt.sub x (Flt.add x x))], true⟩

/-- The chain: `x ↦ |x| + x`. -/
def rampF {S : Type} [Flt S] : Func S := .chain [mirrorF, tiltF]

theorem tiltTape_eq {S : Type} [Flt S] (a b : S) (w : World S) (hw : w.nextId < usizeMax) :
    (tiltF.tape [a, b] w).1.toOption = some (tiltTape a b) := by
  rw [Func.tape_layout _ _ _ hw]; kernel_rfl

theorem rampTape_eq {S : Type} [Flt S] (x : S) (w : World S) (hw : w.nextId < usizeMax) :
    (rampF.tape [x] w).1.toOption = some (rampTape x) := by
  rw [Func.tape_layout _ _ _ hw]; kernel_rfl

/-- The multiplicity of a link is at most the number of its abs operations. -/
theorem link_multiplicity_le {f : Func ℝ} {x dx : List ℝ} {w : World ℝ} {t : Tape ℝ} {G : GenJac ℝ}
    (hw : w.nextId < usizeMax) (ht : (f.tape x w).1 = .ok t) (hn : f.n = .ok x.length) (hd : dx.length = t.numIndeps)
    (bits : List UInt8) (hG : (generalizedJacobian Sched.seq f x dx bits none w).1 = .ok G) :
    G.multiplicity ≤ t.numAbs := by
  have hs := (Func.tape_spec f x w hw).2
  rw [ht] at hs
  obtain ⟨_, -, hT⟩ := hs.ok_left
  obtain ⟨U, -, e1⟩ := gj_none_core Sched.seq_valid hT.wf hd bits
  rw [gj_func f (Prod.ext ht rfl : f.tape x w = (.ok t, _)) hn, e1] at hG
  injection hG with hG
  rw [← hG]
  exact (Finset.card_filter_le _ _).trans (Finset.card_range _).le

theorem mirrorF_straight : (mirrorF : Func ℝ).StraightLine := by straight mirrorF
theorem tiltF_straight : (tiltF : Func ℝ).StraightLine := by straight tiltF

theorem rampF_straight : (rampF : Func ℝ).StraightLine := by
  intro p hp
  simp only [rampF, Func.progs, Func.progsAll, List.append_nil, List.mem_append] at hp
  rcases hp with h | h
  · exact mirrorF_straight p h
  · exact tiltF_straight p h

theorem rampF_along (x : ℝ) (w : World ℝ) : (rampF : Func ℝ).Along piecewiseSmooth w (duals ![x] 0) := by
  rw [C01_straight_line rampF_straight]
  refine ⟨?_, fun y hy => ⟨?_, fun _ _ => trivial⟩⟩
  · eachop
    · trivial
    eachop
    · trivial
    · trivial
  · have h := congrArg Prod.fst (Func.eval_new mirrorF [(x, 0)] w)
    have e : mirrorF.evalD [(x, (0 : ℝ))] = .ok [(x, 0), (x - (x + x), 0 - (0 + 0))] := by kernel_rfl
    rw [e] at h
    have h2 := h.symm.trans hy
    injection h2 with h2
    subst h2
    eachop
    · trivial
    eachop
    · trivial
    · trivial

/-- All hypotheses of `C83_limiting_partial` and `C83_limiting_function_partial` hold for `x ↦ |x| + x` at its kink. -/
example : ∃ (t : Tape ℝ) (w' : World ℝ) (R : GenJac ℝ) (D F : (Fin 1 → ℝ) → Fin 1 → ℝ),
    (HState.init : HState ℝ).world.nextId < usizeMax ∧
    LinkTapes HState.init.world (fun t => t.switching.deps.Nodup ∧ t.deps.Nodup) (rampF : Func ℝ).flatten
      (List.ofFn ![0]) ∧
    rampF.tape (List.ofFn ![0]) HState.init.world = (.ok t, w') ∧ t.switching.deps.Nodup ∧ t.deps.Nodup ∧
    (generalizedJacobianChain Sched.seq lowEst 10 rampF (List.ofFn ![0]) (List.replicate 1 0) (some 2)
      ⟨HState.init.world, 0⟩).1 = .ok R ∧ R.multiplicity ≤ 1 ∧
    (∀ d, t.firstOrderForward (List.ofFn d) = .ok (List.ofFn (D d))) ∧
    (∀ᶠ z in 𝓝 ![0], (rampF.evalFloat (List.ofFn z) HState.init.world).1 = .ok (List.ofFn (F z))) ∧
    (rampF : Func ℝ).Along piecewiseSmooth HState.init.world (duals ![0] 0) := by
  have hw : (HState.init : HState ℝ).world.nextId < usizeMax := by decide
  have h0 : List.ofFn ![(0 : ℝ)] = [0] := by simp
  rcases ht : rampF.tape [(0 : ℝ)] HState.init.world with ⟨r, w'⟩
  have h1 := toOption_some (rampTape_eq (0 : ℝ) HState.init.world hw)
  rw [ht] at h1
  replace h1 : r = .ok (rampTape 0) := h1
  subst h1
  have hrec : Recorded (rampTape (0 : ℝ)) := .func rampF [0] HState.init.world w' hw ht
  have hfit : LinksFit HState.init.world (rampF : Func ℝ).flatten [0] :=
    linksFit_cons rfl (mirror_value 0) (linksFit_cons rfl (y := [Flt.sub (Flt.abs 0) (0 - (0 + 0))])
      (by kernel_rfl) trivial)
  obtain ⟨R, hR⟩ := gjList_total hw (rampF : Func ℝ).flatten [0] [0] rfl hfit
  have hdrv : (generalizedJacobianChain Sched.seq lowEst 10 rampF [(0 : ℝ)] [0] (some 2)
      ⟨HState.init.world, 0⟩).1 = .ok R := by
    rw [generalizedJacobianChain_eq Sched.seq_valid lowEst_sound (N := some 2) rampF _ _
      (show 2 + 1 < 2 ^ 64 by decide) (show 2 ≤ 2 by decide) (Or.inr (show (2 + 1) * 2 < 2 ^ 63 by decide))
      (show 2 ≤ 10 by decide) (show 1 + 2 ≤ 2 ^ 64 - 1 by decide) hw]
    exact hR
  have hmult : R.multiplicity ≤ 1 := by
    have ev : mirrorF.evalD [((0 : ℝ), (0 : ℝ))] = .ok [(0, 0), (0 - (0 + 0), 0 - (0 + 0))] := by kernel_rfl
    obtain ⟨g, R1, k1, k2, k3⟩ := gjList_multiplicity hw (x := [(0 : ℝ)]) (dx := [0]) (fs := [tiltF]) rfl ev hR
    have m1 := link_multiplicity_le hw (toOption_some (mirrorTape_eq (0 : ℝ) _ hw)) rfl rfl [0] k2
    have ev2 : tiltF.evalD [((0 : ℝ), (0 : ℝ)), (0 - (0 + 0), 0 - (0 + 0))] =
        .ok [(|0| - (0 - (0 + 0)), |0 + 0| - |0| - (0 - (0 + 0)))] := by kernel_rfl
    obtain ⟨g', R2, l1, l2, l3⟩ := gjList_multiplicity hw (x := [(0 : ℝ), 0 - (0 + 0)]) (dx := [0, 0 - (0 + 0)]) (fs := [])
      rfl ev2 k1
    have m2 := link_multiplicity_le hw (toOption_some (tiltTape_eq (0 : ℝ) (0 - (0 + 0)) _ hw)) rfl rfl [0] l2
    have m3 : g'.multiplicity = 0 := by
      have l4 := congrArg (Except.map GenJac.multiplicity) l1
      exact (Except.ok.inj l4).symm
    have n1 : (mirrorTape (0 : ℝ)).numAbs = 0 := by kernel_rfl
    have n2 : (tiltTape (0 : ℝ) (0 - (0 + 0))).numAbs = 1 := by kernel_rfl
    omega
  refine ⟨rampTape 0, w', R, fun d _ => |d 0| + d 0, fun z _ => |z 0| + z 0, hw, ?_, by rw [h0]; exact ht, ?_, ?_,
    by rw [h0]; exact hdrv, hmult, fun d => ?_, .of_forall fun z => ?_, ?_⟩
  · rw [h0]
    exact mirror_then (toOption_some (tiltTape_eq _ _ _ hw)) (by show [0].Nodup; decide) (by show [3].Nodup; decide)
  · rw [switching_deps hrec.proper.wf]; decide
  · decide
  · have : (rampTape (0 : ℝ)).firstOrderForward (List.ofFn d) = .ok [Flt.sub
        (Flt.sub (Flt.abs (Flt.add 0 (d 0))) (Flt.abs 0)) (Flt.sub (d 0) (Flt.add (d 0) (d 0)))] := by kernel_rfl
    simpa [LawfulFlt.add_eq, LawfulFlt.sub_eq, LawfulFlt.abs_eq] using this
  · have : (rampF.evalFloat (List.ofFn z) HState.init.world).1 =
        .ok [Flt.sub (Flt.abs (z 0)) (Flt.sub (z 0) (Flt.add (z 0) (z 0)))] := by kernel_rfl
    simpa [LawfulFlt.add_eq, LawfulFlt.sub_eq, LawfulFlt.abs_eq] using this
  · exact rampF_along 0 _

end Adv.Props
