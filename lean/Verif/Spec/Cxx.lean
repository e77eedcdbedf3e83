import Verif.Model.Cxx

/-!
# What C++ clients expect: objects are values

An abstract machine without pointers. An `ADouble` object holds a variable, an `AContext` object is the only handle of a
context or has been moved from.
-/

namespace Adv

variable {S : Type} [Flt S]

/-- Abstract client: the Rust side, the variable held by each live `ADouble`, the context held by each live `AContext`
(`some none` after a move). -/
structure CxxSpec (S : Type) where
  world : World S
  vals : Nat → Option (AFloat S)
  ctxs : Nat → Option (Option Nat)

namespace CxxSpec

/-- Replace the value of `x`. -/
def set (x : Nat) (v : Option (AFloat S)) : M (CxxSpec S) Unit := fun t =>
  (.ok (), { t with vals := fun y => if y = x then v else t.vals y })

/-- Replace the context of `k`. -/
def setC (k : Nat) (v : Option (Option Nat)) : M (CxxSpec S) Unit := fun t =>
  (.ok (), { t with ctxs := fun y => if y = k then v else t.ctxs y })

/-- Value of a live object. -/
def get (x : Nat) : M (CxxSpec S) (AFloat S) := fun t =>
  match t.vals x with
  | some a => (.ok a, t)
  | none => (.error .unbound, t)

/-- Context of a live object. -/
def getC (k : Nat) : M (CxxSpec S) (Option Nat) := fun t =>
  match t.ctxs k with
  | some c => (.ok c, t)
  | none => (.error .unbound, t)

/-- Context of a live object that was not moved from. -/
def theC (k : Nat) : M (CxxSpec S) AContext := do
  match ← getC k with
  | some c => return ⟨c⟩
  | none => M.throw .unbound

/-- Call into the Rust library. -/
def call {α : Type} (m : M (World S) α) : M (CxxSpec S) α := fun t =>
  match m t.world with
  | (r, w) => (r, { t with world := w })

/-- The context is no longer used. -/
def dropC : Option Nat → M (CxxSpec S) Unit
  | some c => call (AContext.drop ⟨c⟩)
  | none => pure ()

/-- Meaning of the commands. -/
def exec : CxxCmd S → M (CxxSpec S) Unit
  | .dDefault z => set z (some AFloat.zero)
  | .dValue z v => set z (some (AFloat.ofScalar v))
  | .dCopy z x => do set z (some (← get x))
  | .dMove z x => do
      set z (some (← get x))
      set x (some AFloat.zero)
  | .dAssignCopy x y => do set x (some (← get y))
  | .dAssignMove x y => do
      set x (some (← get y))
      set y (some AFloat.zero)
  | .dDestroy x => set x none
  | .dOp o z x y => do
      let a ← get x
      let b ← get y
      set z (some (← call (AFloat.arith o a b)))
  | .dMixed o z _ v y => do
      let b ← get y
      set z (some (← call (AFloat.arith o (AFloat.ofScalar v) b)))
  | .dUnary u z x => do
      let a ← get x
      set z (some (← call (u.run a)))
  | .dBinary f z x y => do
      let a ← get x
      let b ← get y
      set z (some (← call (f.run a b)))
  | .cNew k => do
      let h ← call AContext.new
      setC k (some (some h.cid))
  | .cMove k l => do
      setC k (some (← getC l))
      setC l (some none)
  | .cAssignMove k l => do
      dropC (← getC k)
      setC k (some (← getC l))
      setC l (some none)
  | .cDestroy k => do
      dropC (← getC k)
      setC k none
  | .cIndep z k => do
      let h ← theC k
      set z (some (← call (h.newIndep Flt.zero)))
  | .cDep k x => do
      let h ← theC k
      let a ← get x
      call (h.setDep a)

end CxxSpec

namespace CxxState

/-- The variable an object leads to. -/
def valueOf (s : CxxState S) (x : Nat) : Option (AFloat S) :=
  match s.doubles x with
  | some i =>
      match s.heap i with
      | .live (.dImpl q) =>
          match s.heap q with
          | .live (.adouble a) => some a
          | _ => none
      | _ => none
  | none => none

/-- The context an object leads to. -/
def ctxOf (s : CxxState S) (k : Nat) : Option (Option Nat) :=
  match s.ctxs k with
  | some (some i) =>
      match s.heap i with
      | .live (.cImpl q) =>
          match s.heap q with
          | .live (.actx c) => some (some c)
          | _ => none
      | _ => none
  | some none => some none
  | none => none

/-- Forget the pointers. -/
def abs (s : CxxState S) : CxxSpec S := ⟨s.world, s.valueOf, s.ctxOf⟩

/-- The allocation at `p` belongs to a live object. -/
def Owned (s : CxxState S) (p : Nat) : Prop :=
  (∃ x i, s.doubles x = some i ∧ (p = i ∨ s.heap i = .live (.dImpl p))) ∨
  (∃ k i, s.ctxs k = some (some i) ∧ (p = i ∨ s.heap i = .live (.cImpl p)))

end CxxState

/-- Assignments of an object to itself. -/
def CxxCmd.SelfAssign : CxxCmd S → Prop
  | .dAssignCopy x y | .dAssignMove x y => x = y
  | .cAssignMove k l => k = l
  | _ => False

/-- `double OP ADouble` with an operator other than `+`. -/
def CxxCmd.MixedNotAdd : CxxCmd S → Prop
  | .dMixed o _ _ _ _ => o ≠ .add
  | _ => False

end Adv
