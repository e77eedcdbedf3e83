import Verif.Model.AFloat

/-! # Model of `src/function.rs` and `src/macros.rs` -/

namespace Adv

variable {S : Type} [Flt S]

/-- Operand of an operation in user code: an existing variable, or a number converted with
`AFloat::from` / `NumCast::from` (also the implicit conversion of `f64` operands). -/
inductive Arg (S : Type)
  | var (i : Nat)
  | lit (v : S)

/-- User code computing with `AFloat`s. Every method of `AFloat` that produces an `AFloat` is a
fixed composition of `from_op` calls (afloat.rs), so `op` is the only operation. The variables of a
program are numbered: inputs first, then results in order of creation; the continuation receives the
number and the *value* of the new variable, so it can branch and loop on values. -/
inductive Prog (S : Type)
  | ret (outs : List (Arg S))
  | op (opcode : OpCode) (a : Arg S) (b : Option (Arg S)) (k : Nat → S → Prog S)
  | panic

/-- Resolve an operand. -/
def Arg.get (env : List (AFloat S)) : Arg S → Res (AFloat S)
  | .var i => match env[i]? with
    | some x => .ok x
    | none => .error .unbound
  | .lit v => .ok (AFloat.ofScalar v)

/-- Resolve an optional second operand. -/
def Arg.getOpt (env : List (AFloat S)) : Option (Arg S) → Res (Option (AFloat S))
  | none => .ok none
  | some a => (a.get env).map some

/-- `from_op` is private: public methods call it with one operand for the elemental functions and with
two operands for arithmetic and `powf`. -/
def arityOk {α : Type} (o : OpCode) : Option α → Bool
  | none => o.isUnary
  | some _ => o.isBinary

/-- Execution of user code on `AFloat` inputs. A node that cannot be written with the public methods
(wrong arity) is an error. -/
def Prog.run : Prog S → List (AFloat S) → M (World S) (List (AFloat S))
  | .ret outs, env => M.lift (outs.mapM (Arg.get env))
  | .op opcode a b k, env => do
      let a ← M.lift (a.get env)
      let b ← M.lift (Arg.getOpt env b)
      if arityOk opcode b then
        let r ← AFloat.fromOp opcode a b
        (k env.length r.v).run (env ++ [r])
      else M.throw .unbound
  | .panic, _ => M.throw .user

/-- macros.rs:59-62: check the length of the result. -/
def Prog.assertLen (m : Nat) : Prog S → Prog S
  | .ret outs => if outs.length = m then .ret outs else .panic
  | .op o a b k => .op o a b (fun i v => (k i v).assertLen m)
  | .panic => .panic

/-- function.rs:3-38, 40-142: the objects implementing `Function`: `SimpleFunction` (whose closure
receives a vector and may inspect its length and the values of its entries) and `FunctionChain`. -/
inductive Func (S : Type)
  | simple (n m : Nat) (f : List S → Prog S)
  | chain (funcs : List (Func S))

namespace Func

mutual
/-- function.rs:64-66, 123-125 `n()`. -/
def n : Func S → Res Nat
  | .simple n _ _ => .ok n
  | .chain fs => nFirst fs
/-- function.rs:124 `self.funcs.first().unwrap().n()`. -/
def nFirst : List (Func S) → Res Nat
  | [] => .error .unwrapNone
  | f :: _ => f.n
end

mutual
/-- function.rs:68-70, 127-129 `m()`. -/
def m : Func S → Res Nat
  | .simple _ m _ => .ok m
  | .chain fs => mLast fs
/-- function.rs:128 `self.funcs.last().unwrap().m()`. -/
def mLast : List (Func S) → Res Nat
  | [] => .error .unwrapNone
  | f :: fs => match fs with
    | [] => f.m
    | _ :: _ => mLast fs
end

mutual
/-- function.rs:72-74 and 135-141 `eval`. -/
def eval : Func S → List (AFloat S) → M (World S) (List (AFloat S))
  | .simple _ _ f, x => (f (x.map AFloat.v)).run x
  | .chain funcs, x => evalAll funcs x
/-- The loop function.rs:136-140. -/
def evalAll : List (Func S) → List (AFloat S) → M (World S) (List (AFloat S))
  | [], current => pure current
  | f :: fs, current => do
      let current ← f.eval current
      evalAll fs current
end

/-- function.rs:15-18 `eval_float`. -/
def evalFloat (f : Func S) (x : List S) : M (World S) (List S) := do
  let y ← f.eval (x.map (fun e => AFloat.new e Flt.zero))
  return y.map AFloat.v

/-- function.rs:26-37 `Function::tape`. -/
def tape (f : Func S) (x : List S) : M (World S) (Tape S) := do
  let ctx ← AContext.new
  ctx.inScope do
    let input ← ctx.setIndepAll (x.map AFloat.ofScalar)
    let output ← f.eval input
    ctx.setDepSlice output
    ctx.tape

mutual
/-- function.rs:103-111 `FunctionChain::iter` (for a chain), and the singleton iterator that
`flat_map` uses for a plain function. -/
def flatten : Func S → List (Func S)
  | .simple n m f => [.simple n m f]
  | .chain funcs => flattenAll funcs
/-- The `flat_map` over the links. -/
def flattenAll : List (Func S) → List (Func S)
  | [] => []
  | f :: fs => f.flatten ++ flattenAll fs
end

/-- function.rs:113-115 `FunctionChain::len`. -/
def len (f : Func S) : Nat := f.flatten.length

/-- function.rs:117-119 `FunctionChain::nth`. -/
def nth (f : Func S) (idx : Nat) : Res (Func S) := unwrap f.flatten[idx]?

/-- function.rs:84-92 `FunctionChain::from_boxed`, `new`. -/
def newChain (f : Func S) : List (Func S) := [f]

/-- function.rs:94-101 `append`, `append_boxed` on the list of links. -/
def append (funcs : List (Func S)) (f : Func S) : Res (List (Func S)) := do
  let last ← unwrap funcs.getLast?
  assertR ((← last.m) = (← f.n))
  return funcs ++ [f]

/-- macros.rs:45-75 `adv_fn!`: the function object generated for a body with declared dimensions. -/
def advFn (n m : Nat) (body : List S → Prog S) : Func S :=
  .simple n m (fun xs => if xs.length = n then (body xs).assertLen m else .panic)

end Func
end Adv
