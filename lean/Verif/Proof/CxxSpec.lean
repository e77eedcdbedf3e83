import Verif.Proof.Cxx
import Verif.Spec.Cxx

/-!
# The C++ bindings implement values
-/

set_option linter.unusedSectionVars false

namespace Adv

variable {S : Type} [Flt S]

theorem CxxState.valueOf_some {s : CxxState S} {x i q : Nat} {a : AFloat S} (hx : s.doubles x = some i)
    (hi : s.heap i = .live (.dImpl q)) (hq : s.heap q = .live (.adouble a)) : s.valueOf x = some a := by
  simp only [CxxState.valueOf, hx, hi, hq]

theorem CxxState.valueOf_none {s : CxxState S} {x : Nat} (hx : s.doubles x = none) : s.valueOf x = none := by
  simp only [CxxState.valueOf, hx]

theorem CxxState.ctxOf_some {s : CxxState S} {x i q c : Nat} (hx : s.ctxs x = some (some i))
    (hi : s.heap i = .live (.cImpl q)) (hq : s.heap q = .live (.actx c)) : s.ctxOf x = some (some c) := by
  simp only [CxxState.ctxOf, hx, hi, hq]

/-- Two objects in two states lead to the same variable. -/
theorem CxxState.valueOf_congr {s s' : CxxState S} (h : OwnInv s) {x : Nat} (hd : s'.doubles x = s.doubles x)
    (hh : ∀ i q a, s.doubles x = some i → s.heap i = .live (.dImpl q) → s.heap q = .live (.adouble a) →
      s'.heap i = .live (.dImpl q) ∧ s'.heap q = .live (.adouble a)) : s'.valueOf x = s.valueOf x := by
  rcases hx : s.doubles x with _ | i
  · rw [valueOf_none hx, valueOf_none (by rw [hd, hx])]
  · obtain ⟨q, a, h1, h2⟩ := h.dbl x i hx
    obtain ⟨h3, h4⟩ := hh i q a hx h1 h2
    rw [valueOf_some hx h1 h2, valueOf_some (by rw [hd, hx]) h3 h4]

theorem CxxState.ctxOf_congr {s s' : CxxState S} (h : OwnInv s) {k : Nat} (hd : s'.ctxs k = s.ctxs k)
    (hh : ∀ i q c, s.ctxs k = some (some i) → s.heap i = .live (.cImpl q) → s.heap q = .live (.actx c) →
      s'.heap i = .live (.cImpl q) ∧ s'.heap q = .live (.actx c)) : s'.ctxOf k = s.ctxOf k := by
  rcases hx : s.ctxs k with _ | _ | i
  · simp only [ctxOf, hd, hx]
  · simp only [ctxOf, hd, hx]
  · obtain ⟨q, a, h1, h2⟩ := h.ctx k i hx
    obtain ⟨h3, h4⟩ := hh i q a hx h1 h2
    rw [ctxOf_some hx h1 h2, ctxOf_some (by rw [hd, hx]) h3 h4]

theorem CxxState.abs_mk' {s : CxxState S} (h : OwnInv s) (z : Nat) (a : AFloat S) :
    (s.mk' z a).abs = ⟨s.world, fun y => if y = z then some a else s.valueOf y, s.ctxOf⟩ := by
  have hf := h.fresh
  simp only [abs, CxxSpec.mk.injEq]
  refine ⟨rfl, ?_, ?_⟩
  · funext y
    by_cases hy : y = z
    · rw [if_pos hy]
      refine valueOf_some (i := s.next + 1) (q := s.next) ?_ ?_ ?_ <;> simp [mk', hy]
    · rw [if_neg hy]
      refine valueOf_congr h (by simp [mk', hy]) ?_
      intro i q a h1 h2 h3
      simp only [mk']
      have := hf i
      have := hf q
      grind
  · funext k
    refine ctxOf_congr h rfl ?_
    intro i q a h1 h2 h3
    simp only [mk']
    have := hf i
    have := hf q
    grind

theorem CxxState.abs_world (s : CxxState S) (w : World S) :
    ({ s with world := w } : CxxState S).abs = { s.abs with world := w } := rfl

theorem CxxState.abs_kill {s : CxxState S} (h : OwnInv s) {x i q : Nat} {a : AFloat S} (hx : s.doubles x = some i)
    (hi : s.heap i = .live (.dImpl q)) (hq : s.heap q = .live (.adouble a)) :
    (s.kill x i q).abs = ⟨s.world, fun y => if y = x then none else s.valueOf y, s.ctxOf⟩ := by
  simp only [abs, CxxSpec.mk.injEq]
  refine ⟨rfl, ?_, ?_⟩
  · funext y
    by_cases hy : y = x
    · rw [if_pos hy]
      exact valueOf_none (by simp [kill, hy])
    · rw [if_neg hy]
      refine valueOf_congr h (by simp [kill, hy]) ?_
      intro i' q' a' h1 h2 h3
      simp only [kill]
      have := h.dinj x y i
      have := h.dval i i' q
      grind
  · funext k
    refine ctxOf_congr h rfl ?_
    intro i' q' a' h1 h2 h3
    simp only [kill]
    grind

theorem CxxState.abs_replace {s : CxxState S} (h : OwnInv s) {x i q : Nat} {a : AFloat S} (hx : s.doubles x = some i)
    (hi : s.heap i = .live (.dImpl q)) (hq : s.heap q = .live (.adouble a)) (b : AFloat S) :
    (s.replace i q b).abs = ⟨s.world, fun y => if y = x then some b else s.valueOf y, s.ctxOf⟩ := by
  have f0 := h.fresh s.next (Nat.le_refl _)
  simp only [abs, CxxSpec.mk.injEq]
  refine ⟨rfl, ?_, ?_⟩
  · funext y
    by_cases hy : y = x
    · rw [if_pos hy]
      refine valueOf_some (i := i) (q := s.next) (by simp [replace, hy, hx]) ?_ ?_ <;> simp only [replace] <;> grind
    · rw [if_neg hy]
      refine valueOf_congr h rfl ?_
      intro i' q' a' h1 h2 h3
      simp only [replace]
      have := h.dinj x y i
      have := h.dval i i' q
      grind
  · funext k
    refine ctxOf_congr h rfl ?_
    intro i' q' a' h1 h2 h3
    simp only [replace]
    grind

theorem CxxState.abs_moved {s : CxxState S} (h : OwnInv s) {x y i j q r : Nat} {a b : AFloat S} (hxy : x ≠ y)
    (hx : s.doubles x = some i) (hy : s.doubles y = some j)
    (hi : s.heap i = .live (.dImpl q)) (hq : s.heap q = .live (.adouble a))
    (hj : s.heap j = .live (.dImpl r)) (hr : s.heap r = .live (.adouble b)) :
    (s.moved i j q r).abs =
      ⟨s.world, fun z => if z = y then some AFloat.zero else if z = x then some b else s.valueOf z, s.ctxOf⟩ := by
  have f0 := h.fresh s.next (Nat.le_refl _)
  have hij : i ≠ j := by rintro rfl; exact hxy (h.dinj x y i hx hy)
  have hqr : q ≠ r := by rintro rfl; exact hij (h.dval i j q hi hj)
  simp only [abs, CxxSpec.mk.injEq]
  refine ⟨rfl, ?_, ?_⟩
  · funext z
    by_cases hzy : z = y
    · rw [if_pos hzy]
      refine valueOf_some (i := j) (q := s.next) (by simp [moved, hzy, hy]) ?_ ?_ <;> simp only [moved] <;> grind
    by_cases hzx : z = x
    · rw [if_neg hzy, if_pos hzx]
      refine valueOf_some (i := i) (q := r) (by simp [moved, hzx, hx]) ?_ ?_ <;> simp only [moved] <;> grind
    · rw [if_neg hzy, if_neg hzx]
      refine valueOf_congr h rfl ?_
      intro i' q' a' h1 h2 h3
      simp only [moved]
      have := h.dinj x z i
      have := h.dinj y z j
      have := h.dval i i' q
      have := h.dval j i' r
      grind
  · funext k
    refine ctxOf_congr h rfl ?_
    intro i' q' a' h1 h2 h3
    simp only [moved]
    grind

theorem CxxState.abs_mkMove {s : CxxState S} (h : OwnInv s) {z y j r : Nat} {b : AFloat S} (hz : s.doubles z = none)
    (hy : s.doubles y = some j) (hj : s.heap j = .live (.dImpl r)) (hr : s.heap r = .live (.adouble b)) :
    (s.mkMove z j r).abs =
      ⟨s.world, fun x => if x = y then some AFloat.zero else if x = z then some b else s.valueOf x, s.ctxOf⟩ := by
  have hf := h.fresh
  have f0 := h.fresh s.next (Nat.le_refl _)
  have f1 := h.fresh (s.next + 1) (by omega)
  have hzy : y ≠ z := by rintro rfl; rw [hz] at hy; cases hy
  simp only [abs, CxxSpec.mk.injEq]
  refine ⟨rfl, ?_, ?_⟩
  · funext x
    by_cases hxy : x = y
    · rw [if_pos hxy]
      refine valueOf_some (i := j) (q := s.next + 1) (by simp [mkMove, hxy, hy, hzy]) ?_ ?_ <;> simp only [mkMove] <;> grind
    by_cases hxz : x = z
    · rw [if_neg hxy, if_pos hxz]
      refine valueOf_some (i := s.next) (q := r) (by simp [mkMove, hxz]) ?_ ?_ <;> simp only [mkMove] <;> grind
    · rw [if_neg hxy, if_neg hxz]
      refine valueOf_congr h (by simp [mkMove, hxz]) ?_
      intro i' q' a' h1 h2 h3
      simp only [mkMove]
      have := h.dinj y x j
      have := h.dval j i' r
      grind
  · funext k
    refine ctxOf_congr h rfl ?_
    intro i' q' a' h1 h2 h3
    simp only [mkMove]
    grind

theorem CxxState.abs_mkCtx {s : CxxState S} (h : OwnInv s) (k c : Nat) :
    (s.mkCtx k c).abs = ⟨s.world, s.valueOf, fun y => if y = k then some (some c) else s.ctxOf y⟩ := by
  have f0 := h.fresh s.next (Nat.le_refl _)
  have f1 := h.fresh (s.next + 1) (by omega)
  simp only [abs, CxxSpec.mk.injEq]
  refine ⟨rfl, ?_, ?_⟩
  · funext x
    refine valueOf_congr h rfl ?_
    intro i' q' a' h1 h2 h3
    simp only [mkCtx]
    grind
  · funext y
    by_cases hy : y = k
    · rw [if_pos hy]
      refine ctxOf_some (i := s.next + 1) (q := s.next) ?_ ?_ ?_ <;> simp [mkCtx, hy]
    · rw [if_neg hy]
      refine ctxOf_congr h (by simp [mkCtx, hy]) ?_
      intro i' q' a' h1 h2 h3
      simp only [mkCtx]
      grind

theorem CxxState.abs_killCtx {s : CxxState S} (h : OwnInv s) {k i q c : Nat} (hk : s.ctxs k = some (some i))
    (hi : s.heap i = .live (.cImpl q)) (hq : s.heap q = .live (.actx c)) {v : Option (Option Nat)}
    (hv : v = none ∨ v = some none) :
    (s.killCtx k i q v).abs = ⟨s.world, s.valueOf, fun y => if y = k then v else s.ctxOf y⟩ := by
  simp only [abs, CxxSpec.mk.injEq]
  refine ⟨rfl, ?_, ?_⟩
  · funext x
    refine valueOf_congr h rfl ?_
    intro i' q' a' h1 h2 h3
    simp only [killCtx]
    grind
  · funext y
    by_cases hy : y = k
    · rw [if_pos hy]
      rcases hv with rfl | rfl <;> simp [ctxOf, killCtx, hy]
    · rw [if_neg hy]
      refine ctxOf_congr h (by simp [killCtx, hy]) ?_
      intro i' q' a' h1 h2 h3
      simp only [killCtx]
      have := h.cinj k y i
      have := h.cval i i' q
      grind

theorem CxxState.abs_setCtx (s : CxxState S) (k : Nat) {v : Option (Option Nat)} (hv : v = none ∨ v = some none) :
    (s.setCtx k v).abs = ⟨s.world, s.valueOf, fun y => if y = k then v else s.ctxOf y⟩ := by
  simp only [abs, CxxSpec.mk.injEq]
  refine ⟨rfl, rfl, ?_⟩
  funext y
  by_cases hy : y = k
  · rw [if_pos hy]
    rcases hv with rfl | rfl <;> simp [ctxOf, setCtx, hy]
  · rw [if_neg hy]
    simp only [ctxOf, setCtx, hy, if_false]

theorem CxxState.abs_moveCtx (s : CxxState S) {k l : Nat} {p : Option Nat} (hl : s.ctxs l = some p) :
    (s.moveCtx k l p).abs =
      ⟨s.world, s.valueOf, fun y => if y = l then some none else if y = k then s.ctxOf l else s.ctxOf y⟩ := by
  simp only [abs, CxxSpec.mk.injEq]
  refine ⟨rfl, rfl, ?_⟩
  funext y
  by_cases hy : y = l
  · simp only [ctxOf, moveCtx, hy, if_true]
  by_cases hyk : y = k
  · subst hyk
    simp only [ctxOf, moveCtx, hy, hl, if_false, if_true]
  · simp only [ctxOf, moveCtx, hy, hyk, if_false]

theorem CxxSpec.get_ok {t : CxxSpec S} {x : Nat} {a : AFloat S} (h : t.vals x = some a) : get x t = (.ok a, t) := by
  simp only [get, h]

theorem CxxSpec.getC_ok {t : CxxSpec S} {k : Nat} {p : Option Nat} (h : t.ctxs k = some p) : getC k t = (.ok p, t) := by
  simp only [getC, h]

theorem CxxSpec.theC_ok {t : CxxSpec S} {k c : Nat} (h : t.ctxs k = some (some c)) : theC k t = (.ok ⟨c⟩, t) := by
  simp only [theC]
  rw [M.bind_ok (getC_ok h)]; rfl

theorem OwnInv.ctxOf_ne {s : CxxState S} (h : OwnInv s) {k : Nat} (hk : s.ctxs k ≠ none) : ∃ p, s.ctxOf k = some p := by
  rcases hp : s.ctxs k with _ | _ | i
  · exact absurd hp hk
  · exact ⟨none, by simp only [CxxState.ctxOf, hp]⟩
  · obtain ⟨q, c, h1, h2⟩ := h.ctx k i hp
    exact ⟨_, CxxState.ctxOf_some hp h1 h2⟩

/-- Outcome of a command without the pointers. -/
def CxxState.out (p : Res Unit × CxxState S) : Res Unit × CxxSpec S := (p.1, p.2.abs)

theorem CxxState.out_construct {s : CxxState S} (h : OwnInv s) (z : Nat) (m : M (World S) (AFloat S)) :
    out (Cxx.construct z m s) = (do CxxSpec.set z (some (← CxxSpec.call m)) : M (CxxSpec S) Unit) s.abs := by
  simp only [Cxx.construct, M.bind_apply, CxxSpec.call, CxxState.abs]
  rcases hm : m s.world with ⟨e | r, w⟩
  · simp only [out]; rfl
  · simp only [out]
    rw [abs_mk' (h.world w)]
    rfl

/-- All commands but `double OP ADouble` have the expected outcome, panics included. -/
theorem CxxInv.refines_aux {s : CxxState S} (h : CxxInv s) {cmd : CxxCmd S} (hv : cmd.Valid s) (hself : ¬ cmd.SelfAssign)
    (hmix : ∀ o z t v y, cmd ≠ .dMixed o z t v y) :
    ((cmd.exec s).1, (cmd.exec s).2.abs) = CxxSpec.exec cmd s.abs := by
  change CxxState.out (cmd.exec s) = _
  cases cmd with
  | dDefault z =>
    simp only [CxxCmd.exec, Cxx.ctorDefault_eq, CxxState.out, CxxState.abs_mk' h.own]; rfl
  | dValue z v =>
    simp only [CxxCmd.exec, Cxx.ctorValue_eq, CxxState.out, CxxState.abs_mk' h.own]; rfl
  | dCopy z x =>
    obtain ⟨i, q, a, h1, h2, h3⟩ := h.own.get hv.2
    simp only [CxxCmd.exec, Cxx.ctorCopy_eq h1 h2 h3, CxxState.out, CxxState.abs_mk' h.own, CxxSpec.exec]
    rw [M.bind_ok (CxxSpec.get_ok (t := s.abs) (CxxState.valueOf_some h1 h2 h3))]
    rfl
  | dMove z x =>
    obtain ⟨i, q, a, h1, h2, h3⟩ := h.own.get hv.2
    simp only [CxxCmd.exec, Cxx.ctorMove_eq h.own hv.1 h1 h2 h3, CxxState.out, CxxState.abs_mkMove h.own hv.1 h1 h2 h3, CxxSpec.exec]
    rw [M.bind_ok (CxxSpec.get_ok (t := s.abs) (CxxState.valueOf_some h1 h2 h3))]
    rfl
  | dAssignCopy x y =>
    obtain ⟨i, q, a, h1, h2, h3⟩ := h.own.get hv.1
    obtain ⟨j, r, b, k1, k2, k3⟩ := h.own.get hv.2
    simp only [CxxCmd.exec, Cxx.assignCopy_eq h.own hself h1 h2 h3 k1 k2 k3, CxxState.out, CxxState.abs_replace h.own h1 h2 h3, CxxSpec.exec]
    rw [M.bind_ok (CxxSpec.get_ok (t := s.abs) (CxxState.valueOf_some k1 k2 k3))]
    rfl
  | dAssignMove x y =>
    obtain ⟨i, q, a, h1, h2, h3⟩ := h.own.get hv.1
    obtain ⟨j, r, b, k1, k2, k3⟩ := h.own.get hv.2
    simp only [CxxCmd.exec, Cxx.assignMove_eq h.own hself h1 h2 h3 k1 k2 k3, CxxState.out,
      CxxState.abs_moved h.own hself h1 k1 h2 h3 k2 k3, CxxSpec.exec]
    rw [M.bind_ok (CxxSpec.get_ok (t := s.abs) (CxxState.valueOf_some k1 k2 k3))]
    rfl
  | dDestroy x =>
    obtain ⟨i, q, a, h1, h2, h3⟩ := h.own.get hv
    simp only [CxxCmd.exec, Cxx.dtor_eq h1 h2 h3, CxxState.out, CxxState.abs_kill h.own h1 h2 h3, CxxSpec.exec]
    rfl
  | dOp o z x y =>
    obtain ⟨hz, hx, hy⟩ := hv
    obtain ⟨i, q, a, h1, h2, h3⟩ := h.own.get hx
    obtain ⟨j, r, b, k1, k2, k3⟩ := h.own.get hy
    simp only [CxxCmd.exec, CxxSpec.exec]
    rw [Cxx.operator_eq h1 h2 h3 k1 k2 k3, CxxState.out_construct h.own,
      M.bind_ok (CxxSpec.get_ok (t := s.abs) (CxxState.valueOf_some h1 h2 h3)),
      M.bind_ok (CxxSpec.get_ok (t := s.abs) (CxxState.valueOf_some k1 k2 k3))]
  | dMixed o z t v y => exact absurd rfl (hmix o z t v y)
  | dUnary u z x =>
    obtain ⟨i, q, a, h1, h2, h3⟩ := h.own.get hv.2
    simp only [CxxCmd.exec, CxxSpec.exec]
    rw [Cxx.unary_eq h1 h2 h3, CxxState.out_construct h.own,
      M.bind_ok (CxxSpec.get_ok (t := s.abs) (CxxState.valueOf_some h1 h2 h3))]
  | dBinary f z x y =>
    obtain ⟨hz, hx, hy⟩ := hv
    obtain ⟨i, q, a, h1, h2, h3⟩ := h.own.get hx
    obtain ⟨j, r, b, k1, k2, k3⟩ := h.own.get hy
    simp only [CxxCmd.exec, CxxSpec.exec]
    rw [Cxx.binary_eq h1 h2 h3 k1 k2 k3, CxxState.out_construct h.own,
      M.bind_ok (CxxSpec.get_ok (t := s.abs) (CxxState.valueOf_some h1 h2 h3)),
      M.bind_ok (CxxSpec.get_ok (t := s.abs) (CxxState.valueOf_some k1 k2 k3))]
  | cNew k =>
    obtain ⟨x, w, e, e'⟩ := Cxx.ctxCtor_eq (k := k) hv.2
    simp only [CxxCmd.exec, CxxSpec.exec, e', CxxState.out]
    rw [CxxState.abs_mkCtx (h.own.world w)]
    simp only [M.bind_apply, CxxSpec.call, CxxState.abs, e]
    rfl
  | cMove k l =>
    obtain ⟨hk, hl⟩ := hv
    rcases hp : s.ctxs l with _ | p
    · exact absurd hp hl
    have e : Cxx.ctxCtorMove k l s = (.ok (), s.moveCtx k l p) := by
      simp only [Cxx.ctxCtorMove]
      rw [M.bind_ok (Cxx.cImpl_ok hp)]
      rfl
    obtain ⟨p', hp'⟩ := h.own.ctxOf_ne hl
    simp only [CxxCmd.exec, CxxSpec.exec, e, CxxState.out, CxxState.abs_moveCtx s hp]
    rw [M.bind_ok (CxxSpec.getC_ok (t := s.abs) hp')]
    simp only [hp']
    rfl
  | cAssignMove k l =>
    obtain ⟨hk, hl⟩ := hv
    have hkl : k ≠ l := hself
    rcases hp : s.ctxs l with _ | p
    · exact absurd hp hl
    obtain ⟨p', hp2⟩ := h.own.ctxOf_ne hl
    rcases hp' : s.ctxs k with _ | _ | i
    · exact absurd hp' hk
    · simp only [CxxCmd.exec, CxxSpec.exec, Cxx.ctxAssignMove_null hp' hp, CxxState.out, CxxState.abs_moveCtx s hp]
      rw [M.bind_ok (CxxSpec.getC_ok (t := s.abs) (p := none) (by simp only [CxxState.abs, CxxState.ctxOf, hp']))]
      simp only [CxxSpec.dropC, M.bind_apply, M.pure_apply, CxxSpec.getC_ok (t := s.abs) hp2]
      simp only [hp2]
      rfl
    · obtain ⟨q, c, h1, h2⟩ := h.own.getCtx hp'
      obtain ⟨n, hn⟩ := h.live_ctx h2
      have hd : AContext.drop ⟨c⟩ s.world = (.ok (), s.world.setCell c none) := by
        simp only [AContext.drop, hn, Nat.le_refl, if_true]
      have hl' : (({ s with world := s.world.setCell c none } : CxxState S).killCtx k i q (some none)).ctxs l = some p := by
        simp [CxxState.killCtx, Ne.symm hkl, hp]
      simp only [CxxCmd.exec, CxxSpec.exec, Cxx.ctxAssignMove_eq h hp' hp h1 h2, CxxState.out, CxxState.abs_moveCtx _ hl']
      have hA := CxxState.abs_killCtx (h.own.world (s.world.setCell c none)) hp' h1 h2 (v := some none) (.inr rfl)
      simp only [CxxState.abs, CxxSpec.mk.injEq] at hA
      obtain ⟨-, a2, a3⟩ := hA
      rw [M.bind_ok (CxxSpec.getC_ok (t := s.abs) (CxxState.ctxOf_some hp' h1 h2))]
      simp only [CxxSpec.dropC, M.bind_apply, CxxSpec.call]
      rw [show s.abs.world = s.world from rfl, hd]
      simp only
      rw [CxxSpec.getC_ok (p := p') (by exact hp2)]
      simp only [CxxSpec.setC, a2, a3, Prod.mk.injEq, true_and, CxxSpec.mk.injEq]
      refine ⟨rfl, rfl, ?_⟩
      funext y
      have hp3 : ({ s with world := s.world.setCell c none } : CxxState S).ctxOf l = some p' := hp2
      have hp4 : ({ s with world := s.world.setCell c none } : CxxState S).ctxOf y = s.abs.ctxs y := rfl
      rw [if_neg (Ne.symm hkl), hp3, hp4]
      grind
  | cDestroy k =>
    rcases hp' : s.ctxs k with _ | _ | i
    · exact absurd hp' hv
    · simp only [CxxCmd.exec, CxxSpec.exec, Cxx.ctxDtor_null hp', CxxState.out, CxxState.abs_setCtx s k (.inl rfl)]
      rw [M.bind_ok (CxxSpec.getC_ok (t := s.abs) (p := none) (by simp only [CxxState.abs, CxxState.ctxOf, hp']))]
      rfl
    · obtain ⟨q, c, h1, h2⟩ := h.own.getCtx hp'
      obtain ⟨n, hn⟩ := h.live_ctx h2
      have hd : AContext.drop ⟨c⟩ s.world = (.ok (), s.world.setCell c none) := by
        simp only [AContext.drop, hn, Nat.le_refl, if_true]
      simp only [CxxCmd.exec, CxxSpec.exec, Cxx.ctxDtor_eq h hp' h1 h2, CxxState.out]
      rw [CxxState.abs_killCtx (h.own.world (s.world.setCell c none)) hp' h1 h2 (.inl rfl),
        M.bind_ok (CxxSpec.getC_ok (t := s.abs) (CxxState.ctxOf_some hp' h1 h2))]
      simp only [CxxSpec.dropC, M.bind_apply, CxxSpec.call]
      rw [show s.abs.world = s.world from rfl, hd]
      rfl
  | cIndep z k =>
    obtain ⟨hz, i, hk⟩ := hv
    obtain ⟨q, c, h1, h2⟩ := h.own.getCtx hk
    simp only [CxxCmd.exec, CxxSpec.exec]
    rw [Cxx.newIndependent_eq hk h1 h2, CxxState.out_construct h.own,
      M.bind_ok (CxxSpec.theC_ok (t := s.abs) (CxxState.ctxOf_some hk h1 h2))]
  | cDep k x =>
    obtain ⟨⟨i, hk⟩, hx⟩ := hv
    obtain ⟨q, c, h1, h2⟩ := h.own.getCtx hk
    obtain ⟨j, r, a, k1, k2, k3⟩ := h.own.get hx
    simp only [CxxCmd.exec, CxxSpec.exec]
    rw [Cxx.setDependent_eq hk h1 h2 k1 k2 k3,
      M.bind_ok (CxxSpec.theC_ok (t := s.abs) (CxxState.ctxOf_some hk h1 h2)),
      M.bind_ok (CxxSpec.get_ok (t := s.abs) (CxxState.valueOf_some k1 k2 k3))]
    rfl

/-- Outcome of `double OP ADouble`. -/
theorem CxxInv.mixed {s : CxxState S} (h : CxxInv s) {o : AFloat.ArithOp} {z t y : Nat} {v : S}
    (hv : (CxxCmd.dMixed o z t v y).Valid s) :
    ((CxxCmd.dMixed o z t v y).exec s).1 = (CxxSpec.exec (.dMixed .add z t v y) s.abs).1 ∧
    (((CxxCmd.dMixed o z t v y).exec s).1 = .ok () →
      ((CxxCmd.dMixed o z t v y).exec s).2.abs = (CxxSpec.exec (.dMixed .add z t v y) s.abs).2) := by
  obtain ⟨hz, ht, hzt, hy⟩ := hv
  obtain ⟨j, r, b, k1, k2, k3⟩ := h.own.get hy
  have hyt : y ≠ t := by rintro rfl; exact hy ht
  have h' : CxxInv (s.mk' t (AFloat.ofScalar v)) := h.mk_new ht _ _
  have f0 := h.own.fresh s.next (Nat.le_refl _)
  have f1 := h.own.fresh (s.next + 1) (by omega)
  have hz1 : (s.mk' t (AFloat.ofScalar v)).doubles z = none := by simp [CxxState.mk', hzt, hz]
  have ht1 : (s.mk' t (AFloat.ofScalar v)).doubles t = some (s.next + 1) := by simp [CxxState.mk']
  have ht2 : (s.mk' t (AFloat.ofScalar v)).heap (s.next + 1) = .live (.dImpl s.next) := by simp [CxxState.mk']
  have ht3 : (s.mk' t (AFloat.ofScalar v)).heap s.next = .live (.adouble (AFloat.ofScalar v)) := by simp [CxxState.mk']
  have hy1 : (s.mk' t (AFloat.ofScalar v)).doubles y = some j := by simp [CxxState.mk', hyt, k1]
  have hy2 : (s.mk' t (AFloat.ofScalar v)).heap j = .live (.dImpl r) := by simp only [CxxState.mk']; grind
  have hy3 : (s.mk' t (AFloat.ofScalar v)).heap r = .live (.adouble b) := by simp only [CxxState.mk']; grind
  have habs := CxxState.abs_mk' h.own t (AFloat.ofScalar v)
  have hw : (s.mk' t (AFloat.ofScalar v)).world = s.world := rfl
  simp only [CxxCmd.exec, Cxx.operatorMixed, CxxSpec.exec]
  rw [M.bind_ok (Cxx.ctorValue_eq s t v), M.bind_ok (CxxSpec.get_ok (t := s.abs) (CxxState.valueOf_some k1 k2 k3))]
  generalize s.mk' t (AFloat.ofScalar v) = s1 at *
  obtain ⟨-, g2⟩ := h'.result hz1 (m := AFloat.arith .add (AFloat.ofScalar v) b)
    fun hs hsim => .arith hsim.reach (hsim.vars _ _ ht3) (hsim.vars _ _ hy3)
  simp only [M.bind_apply]
  rw [Cxx.operator_eq ht1 ht2 ht3 hy1 hy2 hy3]
  simp only [Cxx.construct, CxxSpec.call, CxxState.abs]
  rw [hw] at g2 ⊢
  rcases hh : AFloat.arith .add (AFloat.ofScalar v) b s.world with ⟨e | r', w⟩
  · exact ⟨rfl, by rintro ⟨⟩⟩
  · rw [hh] at g2
    have h2 := g2 r' rfl
    simp only at h2 ⊢
    obtain ⟨i, q, a, e1, e2, e3⟩ := h2.own.get (x := t) (by simp [CxxState.mk', Ne.symm hzt, ht1])
    rw [Cxx.dtor_eq e1 e2 e3]
    refine ⟨rfl, fun _ => ?_⟩
    have A := CxxState.abs_kill h2.own e1 e2 e3
    have B := CxxState.abs_mk' (h'.own.world w) z r'
    simp only [CxxState.abs, CxxSpec.mk.injEq] at A B habs ⊢
    obtain ⟨-, a2, a3⟩ := A
    obtain ⟨-, b2, b3⟩ := B
    obtain ⟨-, c2, c3⟩ := habs
    rw [a2, a3, b2, b3]
    refine (CxxSpec.mk.injEq ..).mpr ⟨rfl, ?_, c3⟩
    funext x
    have hx : ({ s1 with world := w } : CxxState S).valueOf x = s1.valueOf x := rfl
    have hxt : s.valueOf t = none := CxxState.valueOf_none ht
    simp only
    rw [hx, c2]
    grind

/-- The C++ objects behave like values. -/
theorem CxxInv.refines {s : CxxState S} (h : CxxInv s) {cmd : CxxCmd S} (hv : cmd.Valid s) (hself : ¬ cmd.SelfAssign)
    (hmix : ¬ cmd.MixedNotAdd) : (cmd.exec s).1 = (CxxSpec.exec cmd s.abs).1 ∧
      ((cmd.exec s).1 = .ok () → (cmd.exec s).2.abs = (CxxSpec.exec cmd s.abs).2) := by
  by_cases hm : ∃ o z t v y, cmd = .dMixed o z t v y
  · obtain ⟨o, z, t, v, y, rfl⟩ := hm
    have ho : o = .add := by
      by_contra hne
      exact hmix hne
    subst ho
    exact h.mixed hv
  · have := h.refines_aux hv hself (by simpa using hm)
    rw [← this]
    exact ⟨rfl, fun _ => rfl⟩

end Adv
