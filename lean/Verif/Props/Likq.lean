import Verif.Proof.Likq
import Verif.Props.ChainLimiting

/-!
# Property C85: generalized Jacobians at independent kinks

C61, C75 and C83 are false for arbitrary sign bits where several switching variables vanish. They hold for all sign bits under the
linear independence kink qualification (`Likq` in `Spec/Likq.lean`), and for sign bits that belong to some direction nearby.
-/

namespace Adv.Props
open Adv Filter Topology

section
variable {σ : Sched} {t : Tape ℝ} {D : (Fin t.numIndeps → ℝ) → Fin t.numDeps → ℝ}

/-- C85: let `F` be the abs-normal form of the tape, and `zhat` its switching values for the increment `dx`. If arbitrarily close
to `dx` there are increments for which every switching variable that vanishes at `dx` has the sign that the bits select, then the
result is a limiting Jacobian of the piecewise linear model. -/
theorem C85_consistent_signs {σ' : Sched} (hσ : σ.Valid) (hσ' : σ'.Valid) (h : Recorded t) (hz : t.switching.deps.Nodup)
    (hd : t.deps.Nodup) (hD : ∀ d, t.firstOrderForward (List.ofFn d) = .ok (List.ofFn (D d)))
    (dx : Fin t.numIndeps → ℝ) {a : AbsNormalTape ℝ} {F : AbsNormalForm ℝ} (ha : AbsNormalTape.new t = .ok a)
    (hF : absNormalTape σ' a = .ok F) {zhat : List ℝ} (hzh : SwitchEq F (List.ofFn dx) zhat) (bits : List UInt8)
    (hc : ∀ ε > 0, ∃ v zv, ‖v - dx‖ < ε ∧ SwitchEq F (List.ofFn v) zv ∧
      ∀ i < F.a.length, zhat.getD i 0 = 0 → 0 < signature bits zhat i * zv.getD i 0) {R : GenJac ℝ}
    (e : generalizedJacobianTape σ t (List.ofFn dx) bits none = .ok R) :
    R.homogenous.linear t.numIndeps t.numDeps ∈ limitingJacobians D dx := by
  have hwf := h.proper.wf
  obtain ⟨R', e', -, hR⟩ := piece_fits hσ h hz hd hD dx bits
  rw [e] at e'; injection e' with e'; subst e'
  rw [AbsNormalTape.new_eq hwf] at ha; injection ha with ha; subst ha
  rw [absNormalTape_eq hσ' hwf (by rwa [← switching_deps hwf]) hd] at hF
  replace hF : anfForm t = F := by injection hF
  subst hF
  have := switchEq_unique hwf (dx := List.ofFn dx) (by simp) hzh
  subst this
  refine AbsSystem.mem_limiting hR ((absSystem hwf hD).active_of_consistent (fun i => signature_mul_self _ _ _)
    (fits_self dx bits) fun ε he => ?_)
  obtain ⟨v, zv, hv, hs, hp⟩ := hc ε he
  have := switchEq_unique hwf (dx := List.ofFn v) (by simp) hs
  subst this
  refine ⟨v, hv, fun i hi h0 => ?_⟩
  have := hp i (by rw [(anfForm_shape t).a]; exact hi) (by rw [zHatV_getD hi]; exact h0)
  rwa [zHatV_getD hi] at this

/-- C85: let `F` be the abs-normal form of the tape, and `zhat` its switching values for the increment `dx`. If the gradients of
the switching variables that vanish are linearly independent, then every choice of the sign bits gives a limiting Jacobian of
the piecewise linear model, whatever the multiplicity. -/
theorem C85_independent_kinks {σ' : Sched} (hσ : σ.Valid) (hσ' : σ'.Valid) (h : Recorded t) (hz : t.switching.deps.Nodup)
    (hd : t.deps.Nodup) (hD : ∀ d, t.firstOrderForward (List.ofFn d) = .ok (List.ofFn (D d)))
    (dx : Fin t.numIndeps → ℝ) {a : AbsNormalTape ℝ} {F : AbsNormalForm ℝ} (ha : AbsNormalTape.new t = .ok a)
    (hF : absNormalTape σ' a = .ok F) {zhat : List ℝ} (hzh : SwitchEq F (List.ofFn dx) zhat) (hl : Likq F zhat)
    (bits : List UInt8) {R : GenJac ℝ} (e : generalizedJacobianTape σ t (List.ofFn dx) bits none = .ok R) :
    R.homogenous.linear t.numIndeps t.numDeps ∈ limitingJacobians D dx := by
  have hwf := h.proper.wf
  obtain ⟨R', e', -, hR⟩ := piece_fits hσ h hz hd hD dx bits
  rw [e] at e'; injection e' with e'; subst e'
  rw [AbsNormalTape.new_eq hwf] at ha; injection ha with ha; subst ha
  rw [absNormalTape_eq hσ' hwf (by rwa [← switching_deps hwf]) hd] at hF
  replace hF : anfForm t = F := by injection hF
  subst hF
  have := switchEq_unique hwf (dx := List.ofFn dx) (by simp) hzh
  subst this
  refine AbsSystem.mem_limiting hR ?_
  obtain ⟨B, hB, hli⟩ := hl
  exact likq_active hwf hD hB hli (fun i => signature_mul_self _ _ _) (fits_self dx bits)

end

/-- C85 for functions: with the abs-normal form that `abs_normal` returns. -/
theorem C85_function {σ σ' : Sched} (hσ : σ.Valid) (hσ' : σ'.Valid) (f : Func ℝ) {n m : ℕ} {x dx : Fin n → ℝ}
    {w w' : World ℝ} {t : Tape ℝ} (hw : w.nextId < usizeMax) (ht : f.tape (List.ofFn x) w = (.ok t, w')) (hn : f.n = .ok n)
    (hz : t.switching.deps.Nodup) (hd : t.deps.Nodup) {D : (Fin n → ℝ) → Fin m → ℝ}
    (hD : ∀ d, t.firstOrderForward (List.ofFn d) = .ok (List.ofFn (D d))) {A : AbsNormalForm ℝ}
    (hA : absNormal σ' f (List.ofFn x) w = (.ok A, w')) {zhat : List ℝ} (hzh : SwitchEq A (List.ofFn dx) zhat)
    (hl : Likq A zhat) (bits : List UInt8) {R : GenJac ℝ}
    (e : generalizedJacobian σ f (List.ofFn x) (List.ofFn dx) bits none w = (.ok R, w')) :
    R.homogenous.linear n m ∈ limitingJacobians D dx := by
  have hrec : Recorded t := .func f _ w w' hw ht
  have hs := (Func.tape_spec f (List.ofFn x) w hw).2
  rw [ht] at hs
  obtain ⟨_, -, hT⟩ := hs.ok_left
  have hni : t.numIndeps = n := by simp [Tape.numIndeps, hT.indeps]
  have hnd : t.numDeps = m := by
    have := forward_dy hT.wf (dx := List.ofFn (0 : Fin n → ℝ)) (by simp [hni])
    rw [hD] at this
    injection this with this
    simpa using (congrArg List.length this).symm
  subst hni hnd
  rw [gj_func f ht (by simpa using hn)] at e
  have e : generalizedJacobianTape σ t (List.ofFn dx) bits none = .ok R := by injection e
  unfold absNormal at hA
  rw [M.bind_ok ht, M.lift_apply, AbsNormalTape.new_eq hT.wf, bind_ok_eq] at hA
  have hA : absNormalTape σ' (anfOf t) = .ok A := by injection hA
  exact C85_independent_kinks hσ hσ' hrec hz hd hD dx (AbsNormalTape.new_eq hT.wf) hA hzh hl bits e

/-- C85: in direction 0 the result is then a limiting Jacobian of the function itself. (The function may contain abs anywhere,
the other operations are executed inside of their domains.) -/
theorem C85_function_itself {σ σ' : Sched} (hσ : σ.Valid) (hσ' : σ'.Valid) (f : Func ℝ) {n m : ℕ} {x : Fin n → ℝ}
    {w w' : World ℝ} {t : Tape ℝ} (hw : w.nextId < usizeMax) (ht : f.tape (List.ofFn x) w = (.ok t, w')) (hn : f.n = .ok n)
    (hs : f.Along piecewiseSmooth w (duals x 0)) (hz : t.switching.deps.Nodup) (hd : t.deps.Nodup)
    {F : (Fin n → ℝ) → Fin m → ℝ} (hF : ∀ᶠ z in 𝓝 x, (f.evalFloat (List.ofFn z) w).1 = .ok (List.ofFn (F z)))
    {A : AbsNormalForm ℝ} (hA : absNormal σ' f (List.ofFn x) w = (.ok A, w')) {zhat : List ℝ}
    (hzh : SwitchEq A (List.replicate n 0) zhat) (hl : Likq A zhat) (bits : List UInt8) {R : GenJac ℝ}
    (e : generalizedJacobian σ f (List.ofFn x) (List.replicate n 0) bits none w = (.ok R, w')) :
    R.homogenous.linear n m ∈ limitingJacobians F x := by
  obtain ⟨D, -, -, hD⟩ := model_dims f hw ht hs hF
  rw [← ofFn_zero] at e hzh
  exact C75_conical f hw ht hs hF hD (C85_function hσ hσ' f hw ht hn hz hd hD hA hzh hl bits e)

/-- C85 for the chain driver: under the kink qualification for the whole chain, `generalized_jacobian_chain` returns a limiting
Jacobian of the piecewise linear model of the chain, whatever the multiplicity. -/
theorem C85_chain {σ σ' : Sched} {est : Int → Int → Int} {capMax : Nat} {chain : Func ℝ} {N : Option Nat}
    {s : Ckpt.World (World ℝ)} {R : GenJac ℝ} (hσ : σ.Valid) (hσ' : σ'.Valid) {n m : ℕ} {x dx : Fin n → ℝ}
    (h : (generalizedJacobianChain σ est capMax chain (List.ofFn x) (List.ofFn dx) N s).1 = .ok R)
    {w w' : World ℝ} (hw : w.nextId < usizeMax)
    (hL : LinkTapes w (fun t => t.switching.deps.Nodup ∧ t.deps.Nodup) chain.flatten (List.ofFn x)) {t : Tape ℝ}
    (ht : chain.tape (List.ofFn x) w = (.ok t, w')) (hz : t.switching.deps.Nodup) (hd : t.deps.Nodup)
    {D : (Fin n → ℝ) → Fin m → ℝ} (hD : ∀ d, t.firstOrderForward (List.ofFn d) = .ok (List.ofFn (D d)))
    {A : AbsNormalForm ℝ} (hA : absNormal σ' chain (List.ofFn x) w = (.ok A, w')) {zhat : List ℝ}
    (hzh : SwitchEq A (List.ofFn dx) zhat) (hl : Likq A zhat) : R.homogenous.linear n m ∈ limitingJacobians D dx := by
  have hrec : Recorded t := .func chain _ w w' hw ht
  have hs := (Func.tape_spec chain (List.ofFn x) w hw).2
  rw [ht] at hs
  obtain ⟨_, -, hT⟩ := hs.ok_left
  have hni : t.numIndeps = n := by simp [Tape.numIndeps, hT.indeps]
  have hnd : t.numDeps = m := by
    have := forward_dy hT.wf (dx := List.ofFn (0 : Fin n → ℝ)) (by simp [hni])
    rw [hD] at this
    injection this with this
    simpa using (congrArg List.length this).symm
  obtain ⟨R', e, e1, e2, e3, e4, e5, e6, -⟩ := gjList_whole hw hw chain (by simp)
    (generalizedJacobianChain_any hσ h hw) hL (by rw [ht]) hz hd
  subst hni hnd
  rw [linear_congr e4 e2 e3 e5 e6]
  unfold absNormal at hA
  rw [M.bind_ok ht, M.lift_apply, AbsNormalTape.new_eq hT.wf, bind_ok_eq] at hA
  have hA : absNormalTape σ' (anfOf t) = .ok A := by injection hA
  exact C85_independent_kinks Sched.seq_valid hσ' hrec hz hd hD dx (AbsNormalTape.new_eq hT.wf) hA hzh hl [0] e

/-! ## Two independent kinks, one inside of the other -/

/-- `(x, y) ↦ |y - |x||`. -/
def roofF {S : Type} [Flt S] : Func S := Func.advFn 2 1 fun _ =>
  .op .Abs (.var 0) none fun i _ => .op .Sub (.var 1) (some (.var i)) fun j _ => .op .Abs (.var j) none fun r _ =>
  .ret [.var r]

/-- Its tape. -/
def roofTape {S : Type} [Flt S] (x y : S) : Tape S :=
  ⟨[0, 1], [4], [⟨.Abs, 2, some 0, none⟩, ⟨.Sub, 3, some 1, some 2⟩, ⟨.Abs, 4, some 3, none⟩],
    [x, y, Flt.abs x, Flt.sub y (Flt.abs x), Flt.abs (Flt.sub y (Flt.abs x))], true⟩

theorem roofTape_eq {S : Type} [Flt S] (x y : S) : (roofF.tape [x, y] HState.init.world).1 = .ok (roofTape x y) := by
  kernel_rfl

/-- The kinks of `|y - |x||` at 0 are independent. -/
theorem roof_likq : Likq (anfForm (roofTape (0 : ℝ) 0)) [0, 0] := by
  have ha : (anfForm (roofTape (0 : ℝ) 0)).a.length = 2 := rfl
  have hc : (anfForm (roofTape (0 : ℝ) 0)).zmat.ncols = 2 := rfl
  have z00 : (anfForm (roofTape (0 : ℝ) 0)).zmat.get 0 0 = 1 := by kernel_rfl
  have z01 : (anfForm (roofTape (0 : ℝ) 0)).zmat.get 0 1 = 0 := by kernel_rfl
  have z10 : (anfForm (roofTape (0 : ℝ) 0)).zmat.get 1 0 = Flt.sub 0 0 := by kernel_rfl
  have z11 : (anfForm (roofTape (0 : ℝ) 0)).zmat.get 1 1 = Flt.sub 1 0 := by kernel_rfl
  rw [LawfulFlt.sub_eq] at z10 z11
  have hB : ∀ i < 2, ∀ j < 2, (anfForm (roofTape (0 : ℝ) 0)).zmat.get i j = if i = j then 1 else 0 := by
    intro i hi j hj
    interval_cases i <;> interval_cases j <;> simp [z00, z01, z10, z11]
  refine ⟨fun i j => if i = j then 1 else 0, fun i hi j hj => ?_, ?_⟩
  · rw [ha] at hi
    rw [hc] at hj
    rw [ha, hB i hi j hj, Finset.sum_range_succ, Finset.sum_range_one]
    simp
  · have h1 : LinearIndependent ℝ fun (i : {i : Fin 2 // ([0, 0] : List ℝ).getD i 0 = 0}) (j : Fin 2) =>
        if i.1.val = j.val then (1 : ℝ) else 0 := by
      have e : (fun (i : {i : Fin 2 // ([0, 0] : List ℝ).getD i 0 = 0}) (j : Fin 2) =>
          if i.1.val = j.val then (1 : ℝ) else 0) = (fun k : Fin 2 => (Pi.single k 1 : Fin 2 → ℝ)) ∘ Subtype.val := by
        funext i j
        simp [Pi.single_apply, Fin.ext_iff, eq_comm]
      rw [e]
      exact (Pi.linearIndependent_single_one (Fin 2) ℝ).comp _ Subtype.val_injective
    exact h1

theorem roof_switch : SwitchEq (anfForm (roofTape (0 : ℝ) 0)) [0, 0] [0, 0] := by
  have h1 : zHatV (roofTape (0 : ℝ) 0) [0, 0] = [0, 0] := by
    have : zHatV (roofTape (0 : ℝ) 0) [0, 0] = [0 + 0, Flt.sub 0 (Flt.abs 0) + Flt.sub 0 (Flt.sub (Flt.abs (Flt.add 0 0)) (Flt.abs 0))] := by
      kernel_rfl
    simpa [LawfulFlt.sub_eq, LawfulFlt.abs_eq, LawfulFlt.add_eq] using this
  rcases h : roofF.tape [(0 : ℝ), 0] HState.init.world with ⟨r, w'⟩
  have h2 := roofTape_eq (0 : ℝ) 0
  rw [h] at h2
  replace h2 : r = .ok (roofTape 0 0) := h2
  subst h2
  have hrec : Recorded (roofTape (0 : ℝ) 0) := .func roofF [0, 0] HState.init.world w' (by decide) h
  have := zHatV_solves hrec.proper.wf (dx := [(0 : ℝ), 0]) rfl
  rwa [h1] at this

/-- For `|y - |x||` at 0 all hypotheses of C85 hold, whatever the sign bits; the multiplicity is 2. -/
theorem roof_hypotheses {σ : Sched} (hσ : σ.Valid) (bits : List UInt8) :
    ∃ (w w' : World ℝ) (t : Tape ℝ) (F : (Fin 2 → ℝ) → Fin 1 → ℝ) (A : AbsNormalForm ℝ) (zhat : List ℝ) (R : GenJac ℝ),
      w.nextId < usizeMax ∧ roofF.tape (List.ofFn ![0, 0]) w = (.ok t, w') ∧ (roofF (S := ℝ)).n = .ok 2 ∧
      roofF.Along piecewiseSmooth w (duals ![0, 0] 0) ∧ t.switching.deps.Nodup ∧ t.deps.Nodup ∧
      (∀ᶠ z in 𝓝 ![0, 0], (roofF.evalFloat (List.ofFn z) w).1 = .ok (List.ofFn (F z))) ∧
      absNormal σ roofF (List.ofFn ![0, 0]) w = (.ok A, w') ∧ SwitchEq A (List.replicate 2 0) zhat ∧ Likq A zhat ∧
      generalizedJacobian σ roofF (List.ofFn ![0, 0]) (List.replicate 2 0) bits none w = (.ok R, w') ∧
      R.multiplicity = 2 := by
  have hof : List.ofFn ![(0 : ℝ), 0] = [0, 0] := by simp
  rcases ht : roofF.tape (List.ofFn ![(0 : ℝ), 0]) HState.init.world with ⟨r, w'⟩
  have h1 := roofTape_eq (0 : ℝ) 0
  rw [← hof, ht] at h1
  replace h1 : r = .ok (roofTape 0 0) := h1
  subst h1
  have hrec : Recorded (roofTape (0 : ℝ) 0) := .func roofF _ HState.init.world w' (by decide) ht
  have hwf := hrec.proper.wf
  obtain ⟨R, e, -, hm⟩ := gj_piece hσ hwf (by decide) (by decide) (dx := [0, 0]) rfl bits
  refine ⟨HState.init.world, w', roofTape 0 0, fun z _ => abs (z 1 - abs (z 0)), anfForm (roofTape 0 0), [0, 0], R, by decide, ht, rfl,
    ?_, ?_, by decide, .of_forall fun z => ?_, ?_, roof_switch, roof_likq, ?_, ?_⟩
  · rw [C01_straight_line (by straight roofF)]
    unfold roofF
    refine ⟨?_, fun _ _ => trivial⟩
    eachop
    · exec
    eachop
    · exec
    eachop
    · exec
    · trivial
  · rw [switching_deps hwf]; decide
  · have : (roofF.evalFloat (List.ofFn z) HState.init.world).1 = .ok [Flt.abs (Flt.sub (z 1) (Flt.abs (z 0)))] := by
      kernel_rfl
    simpa [LawfulFlt.abs_eq, LawfulFlt.sub_eq] using this
  · unfold absNormal
    rw [M.bind_ok ht, M.lift_apply, AbsNormalTape.new_eq hwf, bind_ok_eq, absNormalTape_eq hσ hwf (by decide) (by decide)]
  · rw [gj_func roofF ht rfl]
    exact congrArg (·, w') e
  · have h2 := switchEq_unique hwf (dx := [(0 : ℝ), 0]) rfl roof_switch
    rw [hm, ← h2, zerosBefore]
    show (Finset.filter _ (Finset.range 2)).card = 2
    rw [Finset.filter_true_of_mem]
    · rfl
    · intro i hi
      have := Finset.mem_range.mp hi
      interval_cases i <;> rfl

/-- Non-vacuity of C85. -/
example {σ : Sched} (hσ : σ.Valid) (bits : List UInt8) :
    ∃ (w w' : World ℝ) (t : Tape ℝ) (F : (Fin 2 → ℝ) → Fin 1 → ℝ) (A : AbsNormalForm ℝ) (zhat : List ℝ) (R : GenJac ℝ),
      w.nextId < usizeMax ∧ roofF.tape (List.ofFn ![0, 0]) w = (.ok t, w') ∧ (roofF (S := ℝ)).n = .ok 2 ∧
      roofF.Along piecewiseSmooth w (duals ![0, 0] 0) ∧ t.switching.deps.Nodup ∧ t.deps.Nodup ∧
      (∀ᶠ z in 𝓝 ![0, 0], (roofF.evalFloat (List.ofFn z) w).1 = .ok (List.ofFn (F z))) ∧
      absNormal σ roofF (List.ofFn ![0, 0]) w = (.ok A, w') ∧ SwitchEq A (List.replicate 2 0) zhat ∧ Likq A zhat ∧
      generalizedJacobian σ roofF (List.ofFn ![0, 0]) (List.replicate 2 0) bits none w = (.ok R, w') ∧
      R.multiplicity = 2 :=
  roof_hypotheses hσ bits

end Adv.Props
