import Verif.Spec.Denote
import Verif.Spec.Function

/-!
# The tape of a function, written down entry by entry

User code is interpreted on numbers that know their place on the tape. There are no contexts, locks, reference counts or
derivatives here. `none` stands for a panic.
-/

namespace Adv

variable {S : Type} [Flt S]

/-- A number of the program and its place on the tape; constants have no place. -/
abbrev Node (S : Type) := S × Option Nat

/-- The entries of a tape: the number of each place, and the operations. -/
structure Layout (S : Type) where
  vals : List S
  ops : List Operation

omit [Flt S] in
/-- One more entry, for the number `v` computed by `o` from the places `a` and `b`. -/
def Layout.add (l : Layout S) (o : OpCode) (v : S) (a b : Option Nat) : Nat × Layout S :=
  (l.vals.length, ⟨l.vals ++ [v], l.ops ++ [⟨o, l.vals.length, a, b⟩]⟩)

omit [Flt S] in
/-- The place of a number. A constant gets a new one whenever it is needed. -/
def Layout.place (l : Layout S) (x : Node S) : Nat × Layout S :=
  match x.2 with
  | some i => (i, l)
  | none => l.add .Const x.1 none none

/-- The number denoted by an operand. -/
def Arg.node (env : List (Node S)) : Arg S → Option (Node S)
  | .var i => env[i]?
  | .lit v => some (v, none)

/-- The results of user code and the entries it leaves. An operation of constants leaves none. -/
def Prog.layout : Prog S → List (Node S) → Layout S → Option (List (Node S) × Layout S)
  | .ret outs, env, l => do return (← outs.mapM (Arg.node env), l)
  | .op o a none k, env, l => do
      let x ← a.node env
      let v ← o.meaning x.1 none
      match x.2 with
      | none => (k env.length v).layout (env ++ [(v, none)]) l
      | some i =>
          let (r, l) := l.add o v (some i) none
          (k env.length v).layout (env ++ [(v, some r)]) l
  | .op o a (some b) k, env, l => do
      let x ← a.node env
      let y ← b.node env
      let v ← o.meaning x.1 (some y.1)
      match x.2, y.2 with
      | none, none => (k env.length v).layout (env ++ [(v, none)]) l
      | _, _ =>
          let (i, l) := l.place x
          let (j, l) := l.place y
          let (r, l) := l.add o v (some i) (some j)
          (k env.length v).layout (env ++ [(v, some r)]) l
  | .panic, _, _ => none

mutual
/-- The same for functions: the links of a chain write one after the other. -/
def Func.layout : Func S → List (Node S) → Layout S → Option (List (Node S) × Layout S)
  | .simple _ _ f, x, l => (f (x.map Prod.fst)).layout x l
  | .chain fs, x, l => Func.layoutAll fs x l
@[inherit_doc Func.layout]
def Func.layoutAll : List (Func S) → List (Node S) → Layout S → Option (List (Node S) × Layout S)
  | [], x, l => some (x, l)
  | f :: fs, x, l => do
      let (y, l) ← f.layout x l
      Func.layoutAll fs y l
end

omit [Flt S] in
/-- The places of the results. -/
def Layout.places (l : Layout S) : List (Node S) → List Nat × Layout S
  | [] => ([], l)
  | y :: ys =>
      let (d, l) := l.place y
      let (ds, l) := l.places ys
      (d :: ds, l)

/-- The tape of a function at `x`: the inputs have the first places. -/
def Func.layoutTape (f : Func S) (x : List S) : Option (Tape S) := do
  let (ys, l) ← f.layout (x.zipIdx.map fun p => (p.1, some p.2)) ⟨x, []⟩
  let (ds, l) := l.places ys
  return { indeps := List.range x.length, deps := ds, ops := l.ops, vals := l.vals, mutable := true }

/-- The number of operations that the program executes. -/
def Prog.steps : Prog S → List S → Nat
  | .op o a b k, env =>
    match a.meaning env, b.map (Arg.meaning env) with
    | some x, none => match o.meaning x none with
      | some v => 1 + (k env.length v).steps (env ++ [v])
      | none => 0
    | some x, some (some y) => match o.meaning x (some y) with
      | some v => 1 + (k env.length v).steps (env ++ [v])
      | none => 0
    | _, _ => 0
  | _, _ => 0

mutual
/-- The number of operations that the function executes. -/
def Func.steps : Func S → List S → Nat
  | .simple _ _ f, x => (f x).steps x
  | .chain fs, x => Func.stepsAll fs x
@[inherit_doc Func.steps]
def Func.stepsAll : List (Func S) → List S → Nat
  | [], _ => 0
  | f :: fs, x => f.steps x + match f.meaning x with
    | some y => Func.stepsAll fs y
    | none => 0
end

/-- The program contains no literals. -/
def Prog.AllVars : Prog S → Prop
  | .ret outs => ∀ a ∈ outs, ∃ i, a = .var i
  | .op _ a b k => (∃ i, a = .var i) ∧ (∀ b', b = some b' → ∃ i, b' = .var i) ∧ ∀ i v, (k i v).AllVars
  | .panic => True

/-- No link contains literals. -/
def Func.AllVars (f : Func S) : Prop := ∀ p ∈ f.progs, ∀ xs, (p xs).AllVars

end Adv
