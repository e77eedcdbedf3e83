import Verif.Proof.CxxSpec
import Verif.Spec.DemoCxx

/-!
# The C++ bindings: C47, C48
-/

set_option linter.unusedSectionVars false

namespace Adv.Props
open Adv

variable {S : Type} [Flt S]

/-! ## C47

Full statement: `double OP ADouble` has the meaning of `ADouble(double) OP ADouble` for every `OP`. It is false for
`-`, `*` and `/`: the body of the operator is `lhs + rhs` for each of them. -/

/-- C47 for `+`: the mixed operator panics if and only if the sum of the variables does, and otherwise constructs that sum
and leaves all other objects unchanged. -/
theorem C47_mixed_add_partial {s : CxxState S} (hr : s.Reachable) {z t y : Nat} {v : S}
    (hv : (CxxCmd.dMixed .add z t v y).Valid s) :
    ((CxxCmd.dMixed .add z t v y).exec s).1 = (CxxSpec.exec (.dMixed .add z t v y) s.abs).1 ∧
    (((CxxCmd.dMixed .add z t v y).exec s).1 = .ok () →
      ((CxxCmd.dMixed .add z t v y).exec s).2.abs = (CxxSpec.exec (.dMixed .add z t v y) s.abs).2) :=
  hr.inv.mixed hv

example : (CxxCmd.dMixed .add 5 6 (7 : ℚ) 1).Valid DemoX.t ∧
    (((CxxCmd.dMixed .add 5 6 (7 : ℚ) 1).exec DemoX.t).2.valueOf 5).map AFloat.v = some 9 :=
  ⟨⟨rfl, rfl, by decide, by decide⟩, by decide +kernel⟩

/-- C47 (what the code computes): for every operator the result is the sum. -/
theorem C47_mixed_is_always_add {s : CxxState S} (hr : s.Reachable) {o : AFloat.ArithOp} {z t y : Nat} {v : S}
    (hv : (CxxCmd.dMixed o z t v y).Valid s) :
    ((CxxCmd.dMixed o z t v y).exec s).1 = (CxxSpec.exec (.dMixed .add z t v y) s.abs).1 ∧
    (((CxxCmd.dMixed o z t v y).exec s).1 = .ok () →
      ((CxxCmd.dMixed o z t v y).exec s).2.abs = (CxxSpec.exec (.dMixed .add z t v y) s.abs).2) :=
  hr.inv.mixed hv

example : (CxxCmd.dMixed .sub 5 6 (7 : ℚ) 1).Valid DemoX.t := ⟨rfl, rfl, by decide, by decide⟩

/-- C47 is false for `-`, `*` and `/`: `7 OP y` with `y = 2` yields `9`. -/
theorem C47_mixed_counterexample (o : AFloat.ArithOp) (ho : o ≠ .add) :
    ∃ s : CxxState ℚ, s.Reachable ∧ (CxxCmd.dMixed o 5 6 7 1).Valid s ∧
      ((CxxCmd.dMixed o 5 6 7 1).exec s).1 = .ok () ∧ (CxxSpec.exec (.dMixed o 5 6 7 1) s.abs).1 = .ok () ∧
      (((CxxCmd.dMixed o 5 6 7 1).exec s).2.abs.vals 5).map AFloat.v = some 9 ∧
      ((CxxSpec.exec (.dMixed o 5 6 7 1) s.abs).2.vals 5).map AFloat.v ≠ some 9 := by
  refine ⟨DemoX.t, DemoX.reach_t, ⟨rfl, rfl, by decide, by decide⟩, ?_⟩
  cases o
  · exact absurd rfl ho
  all_goals refine ⟨?_, ?_, ?_, ?_⟩ <;> decide +kernel

/-- C47 (operators on two objects): `ADouble OP ADouble` is the Rust operator, for every `OP`. -/
theorem C47_operator {s : CxxState S} (hr : s.Reachable) {o : AFloat.ArithOp} {z x y : Nat} {a b : AFloat S}
    (hz : s.doubles z = none) (hx : s.valueOf x = some a) (hy : s.valueOf y = some b) :
    ((CxxCmd.dOp o z x y).exec s).1 = (AFloat.arith o a b s.world).1.map (fun _ => ()) ∧
    ∀ r, (AFloat.arith o a b s.world).1 = .ok r →
      ((CxxCmd.dOp o z x y).exec s).2.abs =
        ⟨(AFloat.arith o a b s.world).2, fun u => if u = z then some r else s.valueOf u, s.ctxOf⟩ := by
  have ne : ∀ {x a}, s.valueOf x = some a → s.doubles x ≠ none := by
    intro x a h h'
    rw [CxxState.valueOf_none h'] at h; cases h
  obtain ⟨h1, h2⟩ := hr.inv.refines (cmd := .dOp o z x y) ⟨hz, ne hx, ne hy⟩ id id
  rw [h1] at h2 ⊢
  simp only [CxxSpec.exec] at h2 ⊢
  rw [M.bind_ok (CxxSpec.get_ok (t := s.abs) hx), M.bind_ok (CxxSpec.get_ok (t := s.abs) hy)] at h2 ⊢
  simp only [M.bind_apply, CxxSpec.call] at h2 ⊢
  rw [show s.abs.world = s.world from rfl] at h2 ⊢
  rcases h : AFloat.arith o a b s.world with ⟨e | r, w⟩
  · exact ⟨rfl, by rintro r ⟨⟩⟩
  · rw [h] at h2
    refine ⟨rfl, fun r' hr' => ?_⟩
    injection hr' with hr'
    subst hr'
    exact h2 rfl

example : (((CxxCmd.dOp .sub 5 0 1).exec DemoX.t).2.valueOf 5).map AFloat.v = some 3 ∧
    (((CxxCmd.dOp .div 5 0 1).exec DemoX.t).2.valueOf 5).map AFloat.v = some (5/2) :=
  ⟨by decide +kernel, by decide +kernel⟩

/-- C47 (exported functions of one argument): `sin`, `cos`, `tan`, `abs`, `exp` and `ln` of the C++ interface construct the
result of the Rust method of that name, panic if and only if it does, and leave all other objects unchanged. -/
theorem C47_unary {s : CxxState S} (hr : s.Reachable) {z x : Nat} {a : AFloat S}
    (hz : s.doubles z = none) (hx : s.valueOf x = some a) {u : Cxx.Unary} {f : AFloat S → M (World S) (AFloat S)}
    (hf : (u, f) ∈ [(Cxx.Unary.sin, AFloat.sin), (.cos, AFloat.cos), (.tan, AFloat.tan), (.abs, AFloat.abs),
      (.exp, AFloat.exp), (.ln, AFloat.ln)]) :
    ((CxxCmd.dUnary u z x).exec s).1 = (f a s.world).1.map (fun _ => ()) ∧
    ∀ r, (f a s.world).1 = .ok r →
      ((CxxCmd.dUnary u z x).exec s).2.abs =
        ⟨(f a s.world).2, fun i => if i = z then some r else s.valueOf i, s.ctxOf⟩ := by
  have ne : s.doubles x ≠ none := by
    intro h'
    rw [CxxState.valueOf_none h'] at hx; cases hx
  have hu : u.run = f := by
    simp only [List.mem_cons, Prod.mk.injEq, List.not_mem_nil, or_false] at hf
    rcases hf with ⟨rfl, rfl⟩ | ⟨rfl, rfl⟩ | ⟨rfl, rfl⟩ | ⟨rfl, rfl⟩ | ⟨rfl, rfl⟩ | ⟨rfl, rfl⟩ <;> rfl
  obtain ⟨h1, h2⟩ := hr.inv.refines (cmd := .dUnary u z x) ⟨hz, ne⟩ id id
  rw [h1] at h2 ⊢
  simp only [CxxSpec.exec] at h2 ⊢
  rw [M.bind_ok (CxxSpec.get_ok (t := s.abs) hx)] at h2 ⊢
  simp only [M.bind_apply, CxxSpec.call, hu] at h2 ⊢
  rw [show s.abs.world = s.world from rfl] at h2 ⊢
  rcases h : f a s.world with ⟨e | r, w⟩
  · exact ⟨rfl, by rintro r ⟨⟩⟩
  · rw [h] at h2
    refine ⟨rfl, fun r' hr' => ?_⟩
    injection hr' with hr'
    subst hr'
    exact h2 rfl

example : (((CxxCmd.dUnary .abs 5 0).exec DemoX.t).2.valueOf 5).map AFloat.v = some 5 := by decide +kernel

/-- C47 (exported functions of two arguments): `min` and `max` of the C++ interface are the Rust methods of that name. -/
theorem C47_binary {s : CxxState S} (hr : s.Reachable) {z x y : Nat} {a b : AFloat S}
    (hz : s.doubles z = none) (hx : s.valueOf x = some a) (hy : s.valueOf y = some b) {u : Cxx.Binary}
    {f : AFloat S → AFloat S → M (World S) (AFloat S)}
    (hf : (u, f) ∈ [(Cxx.Binary.min, AFloat.min), (.max, AFloat.max)]) :
    ((CxxCmd.dBinary u z x y).exec s).1 = (f a b s.world).1.map (fun _ => ()) ∧
    ∀ r, (f a b s.world).1 = .ok r →
      ((CxxCmd.dBinary u z x y).exec s).2.abs =
        ⟨(f a b s.world).2, fun i => if i = z then some r else s.valueOf i, s.ctxOf⟩ := by
  have ne : ∀ {x a}, s.valueOf x = some a → s.doubles x ≠ none := by
    intro x a h h'
    rw [CxxState.valueOf_none h'] at h; cases h
  have hu : u.run = f := by
    simp only [List.mem_cons, Prod.mk.injEq, List.not_mem_nil, or_false] at hf
    rcases hf with ⟨rfl, rfl⟩ | ⟨rfl, rfl⟩ <;> rfl
  obtain ⟨h1, h2⟩ := hr.inv.refines (cmd := .dBinary u z x y) ⟨hz, ne hx, ne hy⟩ id id
  rw [h1] at h2 ⊢
  simp only [CxxSpec.exec] at h2 ⊢
  rw [M.bind_ok (CxxSpec.get_ok (t := s.abs) hx), M.bind_ok (CxxSpec.get_ok (t := s.abs) hy)] at h2 ⊢
  simp only [M.bind_apply, CxxSpec.call, hu] at h2 ⊢
  rw [show s.abs.world = s.world from rfl] at h2 ⊢
  rcases h : f a b s.world with ⟨e | r, w⟩
  · exact ⟨rfl, by rintro r ⟨⟩⟩
  · rw [h] at h2
    refine ⟨rfl, fun r' hr' => ?_⟩
    injection hr' with hr'
    subst hr'
    exact h2 rfl

example : (((CxxCmd.dBinary .min 5 0 1).exec DemoX.t).2.valueOf 5).map AFloat.v = some 2 ∧
    (((CxxCmd.dBinary .max 5 0 1).exec DemoX.t).2.valueOf 5).map AFloat.v = some 5 :=
  ⟨by decide +kernel, by decide +kernel⟩

/-! ## C48

Full statement: no command of a client that follows the rules of the language has undefined behaviour. It is false for
the copy assignment of an object to itself. -/

/-- C48 (memory safety), excluding the copy assignment of an object to itself: no use after free, no double free and no
null dereference, whatever the client did before. -/
theorem C48_no_undefined_behaviour_partial {s : CxxState S} (hr : s.Reachable) {cmd : CxxCmd S} (hv : cmd.Valid s)
    (hself : ¬ cmd.SelfCopy) : (cmd.exec s).1 ≠ .error .dangling :=
  (hr.inv.exec hv hself).1

example : (CxxCmd.cDestroy 0 : CxxCmd ℚ).Valid DemoX.s ∧ ¬ (CxxCmd.cDestroy 0 : CxxCmd ℚ).SelfCopy :=
  ⟨show DemoX.s.ctxs 0 ≠ none by decide, id⟩

/-- C48 is false for `x = x`: in every state and for every live object it uses freed memory. -/
theorem C48_self_copy_assignment_counterexample {s : CxxState S} (hr : s.Reachable) {x : Nat}
    (hx : s.doubles x ≠ none) : ((CxxCmd.dAssignCopy x x).exec s).1 = .error .dangling := by
  obtain ⟨i, q, a, h1, h2, h3⟩ := hr.inv.own.get hx
  exact Cxx.assignCopy_self h1 h2 h3

example : DemoX.s.Reachable ∧ DemoX.s.doubles 2 ≠ none := ⟨DemoX.reach_s, by decide⟩

/-- C48 (no leaks): every allocation that has not been freed belongs to a live object. -/
theorem C48_no_leak {s : CxxState S} (hr : s.Reachable) {p : Nat} {o : Obj S} (hp : s.heap p = .live o) :
    s.Owned p := by
  have h := hr.inv.own
  cases o with
  | adouble a =>
    obtain ⟨i, hi⟩ := h.dbox p a hp
    obtain ⟨x, hx⟩ := h.dimpl i p hi
    exact .inl ⟨x, i, hx, .inr hi⟩
  | actx c =>
    obtain ⟨i, hi⟩ := h.cbox p c hp
    obtain ⟨k, hk⟩ := h.cimpl i p hi
    exact .inr ⟨k, i, hk, .inr hi⟩
  | dImpl q =>
    obtain ⟨x, hx⟩ := h.dimpl p q hp
    exact .inl ⟨x, p, hx, .inl rfl⟩
  | cImpl q =>
    obtain ⟨k, hk⟩ := h.cimpl p q hp
    exact .inr ⟨k, p, hk, .inl rfl⟩

/-- The number of allocations of the example that are still in use. -/
example : ((List.range DemoX.s.next).filter fun p => match DemoX.s.heap p with | .live _ => true | _ => false).length = 8 := by
  decide +kernel

/-- C48 (everything is freed): without live objects no allocation is left and all contexts are gone. -/
theorem C48_all_freed {s : CxxState S} (hr : s.Reachable) (hd : ∀ x, s.doubles x = none) (hc : ∀ k, s.ctxs k = none) :
    (∀ p o, s.heap p ≠ .live o) ∧ ∀ c, s.world.cells c = none := by
  have hheap : ∀ p o, s.heap p ≠ .live o := by
    intro p o hp
    rcases C48_no_leak hr hp with ⟨x, i, h, -⟩ | ⟨k, i, h, -⟩
    · rw [hd] at h; cases h
    · rw [hc] at h; cases h
  refine ⟨hheap, fun c => ?_⟩
  obtain ⟨hs, hsim⟩ := hr.inv.hist
  rcases hcell : s.world.cells c with _ | cell
  · rfl
  · obtain ⟨-, -, -, h4, h5⟩ := hsim.reach.inv.alive c cell (by rw [hsim.world, hcell])
    have hmem : c ∈ hs.handles := List.count_pos_iff.1 (by omega)
    obtain ⟨q, hq⟩ := (hsim.handles c).1 hmem
    exact absurd hq (hheap _ _)

/-- All objects of the example are destroyed. -/
example : let u := [CxxCmd.dDestroy 0, .dDestroy 1, .dDestroy 2, .cDestroy 0].foldl (fun s c => (c.exec s).2) DemoX.s
    u.next = 8 ∧ ((List.range u.next).all fun p => match u.heap p with | .freed => true | _ => false) = true := by
  decide +kernel

/-- C48 (nothing is shared): two live objects never lead to the same allocation. -/
theorem C48_not_shared {s : CxxState S} (hr : s.Reachable) {x y i j q : Nat} (hx : s.doubles x = some i)
    (hy : s.doubles y = some j) (hi : s.heap i = .live (.dImpl q)) (hj : s.heap j = .live (.dImpl q)) :
    x = y ∧ i = j := by
  have h := hr.inv.own
  obtain rfl := h.dval i j q hi hj
  exact ⟨h.dinj x y i hx hy, rfl⟩

example : ∃ i q, DemoX.t.doubles 0 = some i ∧ DemoX.t.heap i = .live (.dImpl q) := ⟨1, 0, rfl, rfl⟩

/-- C48 (objects are values): for every valid command other than a self-assignment and the mixed operators `-`, `*`, `/`
the outcome is that of the abstract machine without pointers. In particular copies are independent, moved-from objects
hold zero, and no other object changes. -/
theorem C48_value_semantics_partial {s : CxxState S} (hr : s.Reachable) {cmd : CxxCmd S} (hv : cmd.Valid s)
    (hself : ¬ cmd.SelfAssign) (hmix : ¬ cmd.MixedNotAdd) :
    (cmd.exec s).1 = (CxxSpec.exec cmd s.abs).1 ∧
      ((cmd.exec s).1 = .ok () → (cmd.exec s).2.abs = (CxxSpec.exec cmd s.abs).2) :=
  hr.inv.refines hv hself hmix

example : let s := ((CxxCmd.dAssignMove 0 1).exec DemoX.t).2
    (s.valueOf 0).map AFloat.v = some 2 ∧ (s.valueOf 1).map AFloat.v = some 0 := by decide +kernel

/-- C48 (self-move): `x = std::move(x)` is memory safe and resets the object to zero. -/
theorem C48_self_move_resets {s : CxxState S} (hr : s.Reachable) {x : Nat} (hx : s.doubles x ≠ none) :
    ((CxxCmd.dAssignMove x x).exec s).1 = .ok () ∧
    ((CxxCmd.dAssignMove x x).exec s).2.abs =
      ⟨s.world, fun y => if y = x then some AFloat.zero else s.valueOf y, s.ctxOf⟩ := by
  obtain ⟨i, q, a, h1, h2, h3⟩ := hr.inv.own.get hx
  simp only [CxxCmd.exec]
  rw [Cxx.assignMove_self hr.inv.own h1 h2 h3]
  exact ⟨rfl, CxxState.abs_replace hr.inv.own h1 h2 h3 _⟩

example : (((CxxCmd.dAssignMove 0 0).exec DemoX.t).2.valueOf 0).map AFloat.v = some 0 := by decide +kernel

/-- C48 (self-move of a context): `ctx = std::move(ctx)` is memory safe, frees the recording and leaves the object in the
moved-from state. -/
theorem C48_context_self_move {s : CxxState S} (hr : s.Reachable) {k c : Nat} (hk : s.ctxOf k = some (some c)) :
    ((CxxCmd.cAssignMove k k).exec s).1 = .ok () ∧
    ((CxxCmd.cAssignMove k k).exec s).2.abs =
      ⟨s.world.setCell c none, s.valueOf, fun l => if l = k then some none else s.ctxOf l⟩ := by
  rcases hp : s.ctxs k with _ | _ | i
  · simp only [CxxState.ctxOf, hp] at hk; cases hk
  · simp only [CxxState.ctxOf, hp] at hk; cases hk
  · obtain ⟨q, c', h1, h2⟩ := hr.inv.own.ctx k i hp
    rw [CxxState.ctxOf_some hp h1 h2] at hk
    injection hk with hk
    injection hk with hk
    subst hk
    simp only [CxxCmd.exec]
    rw [Cxx.ctxAssignMove_self hr.inv hp h1 h2]
    exact ⟨rfl, CxxState.abs_killCtx (hr.inv.own.world (s.world.setCell c' none)) hp h1 h2 (.inr rfl)⟩

example : DemoX.s.ctxOf 0 = some (some 1) := rfl

end Adv.Props
