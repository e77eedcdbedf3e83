import Verif.Spec.Tape

/-!
# Function-level semantics of sweeps

Value arrays are represented by functions `Nat → S`; the list-based model is shown to agree with it.
No law about the scalars is used in this file.
-/

namespace Adv
open scoped Adv

variable {S : Type} [Flt S]

/-- Contents of an array as a function (zero outside). -/
def fn (l : List S) : Nat → S := fun i => l[i]?.getD Flt.zero

/-- Update a function at a point. -/
def upd {α : Type} (f : Nat → α) (i : Nat) (x : α) : Nat → α := fun j => if j = i then x else f j

@[simp] theorem upd_same {α : Type} (f : Nat → α) (i : Nat) (x : α) : upd f i x i = x := by simp [upd]
theorem upd_ne {α : Type} {f : Nat → α} {i j : Nat} {x : α} (h : j ≠ i) : upd f i x j = f j := by
  simp [upd, h]

theorem getR_fn {l : List S} {i : Nat} (h : i < l.length) : getR l i = .ok (fn l i) := by
  simp [getR, fn, h]

theorem getR_lt {α : Type} {l : List α} {i : Nat} {x : α} (h : getR l i = .ok x) : i < l.length := by
  unfold getR at h; split at h
  · rename_i h'; exact (List.getElem?_eq_some_iff.mp h').1
  · cases h

theorem getR_err {α : Type} {l : List α} {i : Nat} (h : l.length ≤ i) :
    getR l i = .error .indexOutOfBounds := by
  simp [getR, h]

theorem setR_lt {α : Type} {l : List α} {i : Nat} {x : α} (h : i < l.length) :
    setR l i x = .ok (l.set i x) := by simp [setR, h]

theorem fn_set {l : List S} {i : Nat} {x : S} (h : i < l.length) : fn (l.set i x) = upd (fn l) i x := by
  funext j
  by_cases hj : j = i
  · subst hj; simp [fn, upd, h]
  · have : i ≠ j := fun h => hj h.symm
    simp [fn, upd, hj, this]

theorem fn_ext {l l' : List S} (hl : l.length = l'.length) (h : ∀ i < l.length, fn l i = fn l' i) :
    l = l' := by
  apply List.ext_getElem hl
  intro i h1 h2
  have := h i h1
  simpa [fn, h1, h2] using this

theorem fn_append_left {l m : List S} {i : Nat} (h : i < l.length) : fn (l ++ m) i = fn l i := by
  simp [fn, List.getElem?_append_left h]

theorem fn_append_len (l : List S) (x : S) : fn (l ++ [x]) l.length = x := by simp [fn]

theorem fn_replicate (n : Nat) : fn (List.replicate n (Flt.zero : S)) = fun _ => Flt.zero := by
  funext i
  by_cases h : i < n <;> simp [fn, h]

/-- Value of an operation from the values of its operands (second one ignored if unary). -/
def zfun (o : OpCode) (a b : S) : S :=
  match o with
  | .Add => a +ᶠ b
  | .Sub => a -ᶠ b
  | .Mul => a *ᶠ b
  | .Div => a /ᶠ b
  | .Sin => Flt.sin a
  | .Cos => Flt.cos a
  | .Tan => Flt.tan a
  | .Abs => Flt.abs a
  | .Exp => Flt.exp a
  | .Ln => Flt.ln a
  | .Asin => Flt.asin a
  | .Acos => Flt.acos a
  | .Atan => Flt.atan a
  | .Powf => Flt.powf a b
  | .Nop => a
  | .Const => a

/-- First-order value of an operation. -/
def ffun (o : OpCode) (a b da db : S) : S :=
  match o with
  | .Add => da +ᶠ db
  | .Sub => da -ᶠ db
  | .Mul => da *ᶠ b +ᶠ a *ᶠ db
  | .Div => (da *ᶠ b -ᶠ a *ᶠ db) /ᶠ Flt.powi b 2
  | .Sin => da *ᶠ Flt.cos a
  | .Cos => Flt.neg da *ᶠ Flt.sin a
  | .Tan => da *ᶠ (Flt.one /ᶠ Flt.powi (Flt.cos a) 2)
  | .Abs => Flt.abs (a +ᶠ da) -ᶠ Flt.abs a
  | .Exp => da *ᶠ Flt.exp a
  | .Ln => da *ᶠ (Flt.one /ᶠ a)
  | .Asin => da /ᶠ Flt.sqrt (Flt.one -ᶠ Flt.powi a 2)
  | .Acos => Flt.neg da /ᶠ Flt.sqrt (Flt.one -ᶠ Flt.powi a 2)
  | .Atan => da /ᶠ (Flt.one +ᶠ Flt.powi a 2)
  | .Powf =>
      (if !(Flt.eq da Flt.zero) then b *ᶠ Flt.powf a (b -ᶠ Flt.one) *ᶠ da else Flt.zero) +ᶠ
      (if !(Flt.eq db Flt.zero) then Flt.ln a *ᶠ Flt.powf a b *ᶠ db else Flt.zero)
  | .Nop => da
  | .Const => da

/-- The opcode computes something. -/
def OpCode.computes (o : OpCode) : Bool := o.isBinary || o.isUnary

theorem OpCode.computes_iff (o : OpCode) : o.computes = true ↔ o ≠ .Nop ∧ o ≠ .Const := by
  cases o <;> simp [OpCode.computes, OpCode.isBinary, OpCode.isUnary]

theorem zov_binary {o : OpCode} (h : o.isBinary = true) (a b : S) :
    zeroOrderValue o a (some b) = .ok (zfun o a b) := by
  cases o <;> first | rfl | simp [OpCode.isBinary] at h

theorem zov_unary {o : OpCode} (h : o.isUnary = true) (a b : S) (x : Option S) :
    zeroOrderValue o a x = .ok (zfun o a b) := by
  cases o <;> first | rfl | simp [OpCode.isUnary] at h

theorem fov_binary {o : OpCode} (h : o.isBinary = true) (a b da db : S) :
    firstOrderValue o a (some b) da (some db) = .ok (ffun o a b da db) := by
  cases o <;> first | rfl | simp [OpCode.isBinary] at h

theorem fov_unary {o : OpCode} (h : o.isUnary = true) (a b da db : S) (x y : Option S) :
    firstOrderValue o a x da y = .ok (ffun o a b da db) := by
  cases o <;> first | rfl | simp [OpCode.isUnary] at h

/-- First operand id (0 if absent). -/
def Operation.a1 (op : Operation) : Nat := op.arg1.getD 0
/-- Second operand id (first operand if absent). -/
def Operation.a2 (op : Operation) : Nat := op.arg2.getD op.a1

/-- `Operation::zero_order` on functions. -/
def stepZ (op : Operation) (f : Nat → S) : Nat → S :=
  if op.opcode.computes then upd f op.vid (zfun op.opcode (f op.a1) (f op.a2)) else f

/-- `Operation::first_order` on functions. -/
def stepF (v : Nat → S) (op : Operation) (f : Nat → S) : Nat → S :=
  if op.opcode.computes then
    upd f op.vid (ffun op.opcode (v op.a1) (v op.a2) (f op.a1) (f op.a2))
  else if op.opcode = .Const then upd f op.vid Flt.zero else f

/-- Contribution to the first operand in `Operation::first_order_reverse`. -/
def rfun1 (o : OpCode) (x y b : S) : S :=
  match o with
  | .Add => b
  | .Sub => b
  | .Mul => b *ᶠ y
  | .Div => b *ᶠ Flt.one /ᶠ y
  | .Powf => b *ᶠ y *ᶠ Flt.powf x (y -ᶠ Flt.one)
  | o => b *ᶠ ffun o x y Flt.one Flt.one

/-- Contribution to the second operand. -/
def rfun2 (o : OpCode) (x y b : S) : S :=
  match o with
  | .Add => b
  | .Sub => Flt.neg b
  | .Mul => b *ᶠ x
  | .Div => b *ᶠ (Flt.neg x /ᶠ Flt.powi y 2)
  | .Powf => b *ᶠ Flt.ln x *ᶠ Flt.powf x y
  | _ => b

/-- `Operation::first_order_reverse` on functions (opcode not `Abs`). -/
def stepR (v : Nat → S) (op : Operation) (f : Nat → S) : Nat → S :=
  if op.opcode.isBinary then
    let f1 := upd f op.a1 (f op.a1 +ᶠ rfun1 op.opcode (v op.a1) (v op.a2) (f op.vid))
    upd f1 op.a2 (f1 op.a2 +ᶠ rfun2 op.opcode (v op.a1) (v op.a2) (f1 op.vid))
  else if op.opcode.isUnary then
    upd f op.a1 (f op.a1 +ᶠ rfun1 op.opcode (v op.a1) (v op.a2) (f op.vid))
  else f

/-- Replay. -/
def sweepZ (ops : List Operation) (f : Nat → S) : Nat → S := ops.foldl (fun f op => stepZ op f) f
/-- Forward sweep. -/
def sweepF (v : Nat → S) (ops : List Operation) (f : Nat → S) : Nat → S :=
  ops.foldl (fun f op => stepF v op f) f
/-- Reverse sweep (last operation first). -/
def sweepR (v : Nat → S) (ops : List Operation) (f : Nat → S) : Nat → S :=
  ops.foldr (fun op f => stepR v op f) f

/-- The operation can be executed on arrays of length `n`. -/
structure Operation.InB (op : Operation) (n : Nat) : Prop where
  arity : op.ArityOK
  vid_lt : op.opcode ≠ .Nop → op.vid < n
  args_lt : op.opcode ≠ .Nop → ∀ a ∈ op.args, a < n

/-- Case analysis on a well formed operation. -/
theorem Operation.InB.cases {op : Operation} {n : Nat} (h : op.InB n) :
    (op.opcode = .Nop) ∨ (op.opcode = .Const ∧ op.vid < n) ∨
    (op.opcode.isBinary = true ∧ op.vid < n ∧ op.arg1 = some op.a1 ∧ op.arg2 = some op.a2 ∧
      op.a1 < n ∧ op.a2 < n) ∨
    (op.opcode.isUnary = true ∧ op.vid < n ∧ op.arg1 = some op.a1 ∧ op.arg2 = none ∧
      op.a2 = op.a1 ∧ op.a1 < n) := by
  obtain ⟨⟨hb, hu, _⟩, hv, ha⟩ := h
  by_cases h0 : op.opcode = .Nop
  · exact Or.inl h0
  by_cases h1 : op.opcode = .Const
  · exact Or.inr (Or.inl ⟨h1, hv h0⟩)
  have hc := (OpCode.computes_iff op.opcode).mpr ⟨h0, h1⟩
  rcases Bool.or_eq_true_iff.mp hc with h2 | h2
  · obtain ⟨h3, h4⟩ := hb h2
    obtain ⟨a, ha'⟩ := Option.isSome_iff_exists.mp h3
    obtain ⟨b, hb'⟩ := Option.isSome_iff_exists.mp h4
    refine Or.inr (Or.inr (Or.inl ⟨h2, hv h0, ?_, ?_, ?_, ?_⟩))
    · simp [Operation.a1, ha']
    · simp [Operation.a2, hb']
    · exact ha h0 _ (by simp [Operation.a1, Operation.args, ha'])
    · exact ha h0 _ (by simp [Operation.a2, Operation.args, ha', hb'])
  · obtain ⟨h3, h4⟩ := hu h2
    obtain ⟨a, ha'⟩ := Option.isSome_iff_exists.mp h3
    refine Or.inr (Or.inr (Or.inr ⟨h2, hv h0, ?_, h4, ?_, ?_⟩))
    · simp [Operation.a1, ha']
    · simp [Operation.a2, h4]
    · exact ha h0 _ (by simp [Operation.a1, Operation.args, ha'])

theorem OpCode.isBinary_computes {o : OpCode} (h : o.isBinary = true) : o.computes = true := by
  simp [OpCode.computes, h]
theorem OpCode.isUnary_computes {o : OpCode} (h : o.isUnary = true) : o.computes = true := by
  simp [OpCode.computes, h]
theorem OpCode.isUnary_not_binary {o : OpCode} (h : o.isUnary = true) : o.isBinary = false := by
  cases o <;> simp_all [OpCode.isUnary, OpCode.isBinary]

/-- The generic branch of `zero_order`. -/
theorem Operation.zeroOrder_computes {op : Operation} (h : op.opcode.computes = true) (v : List S) :
    op.zeroOrder v = (do
      let a1 ← getR v (← unwrap op.arg1)
      let a2 ← optGetR v op.arg2
      setR v op.vid (← zeroOrderValue op.opcode a1 a2)) := by
  rcases op with ⟨o, vid, x, y⟩
  cases o <;> first | rfl | simp [OpCode.computes, OpCode.isUnary, OpCode.isBinary] at h

theorem Operation.firstOrder_computes {op : Operation} (h : op.opcode.computes = true) (v dv : List S) :
    op.firstOrder v dv = (do
      let a1 ← getR v (← unwrap op.arg1)
      let a2 ← optGetR v op.arg2
      let d1 ← getR dv (← unwrap op.arg1)
      let d2 ← optGetR dv op.arg2
      setR dv op.vid (← firstOrderValue op.opcode a1 a2 d1 d2)) := by
  rcases op with ⟨o, vid, x, y⟩
  cases o <;> first | rfl | simp [OpCode.computes, OpCode.isUnary, OpCode.isBinary] at h

theorem bind_ok_eq {α β : Type} (a : α) (f : α → Res β) : (Except.ok a >>= f : Res β) = f a := rfl
theorem map_ok_eq {α β : Type} (a : α) (f : α → β) : (Except.map f (Except.ok a) : Res β) = .ok (f a) := rfl

theorem Operation.zeroOrder_fn {op : Operation} {v : List S} (h : op.InB v.length) :
    ∃ v', op.zeroOrder v = .ok v' ∧ v'.length = v.length ∧ fn v' = stepZ op (fn v) := by
  rcases h.cases with h0 | ⟨h0, h1⟩ | ⟨h0, h1, h2, h3, h4, h5⟩ | ⟨h0, h1, h2, h3, h3', h4⟩
  · exact ⟨v, by simp [Operation.zeroOrder, h0], rfl, by
      simp [stepZ, h0, OpCode.computes, OpCode.isBinary, OpCode.isUnary]⟩
  · exact ⟨v, by simp [Operation.zeroOrder, h0], rfl, by
      simp [stepZ, h0, OpCode.computes, OpCode.isBinary, OpCode.isUnary]⟩
  · refine ⟨v.set op.vid (zfun op.opcode (fn v op.a1) (fn v op.a2)), ?_, by simp, ?_⟩
    · rw [Operation.zeroOrder_computes (OpCode.isBinary_computes h0), h2, h3]
      simp only [unwrap, optGetR, getR_fn h4, getR_fn h5, bind_ok_eq, map_ok_eq, zov_binary h0, setR_lt h1]
    · rw [fn_set h1, stepZ, if_pos (OpCode.isBinary_computes h0)]
  · refine ⟨v.set op.vid (zfun op.opcode (fn v op.a1) (fn v op.a2)), ?_, by simp, ?_⟩
    · rw [Operation.zeroOrder_computes (OpCode.isUnary_computes h0), h2, h3]
      simp only [unwrap, optGetR, getR_fn h4, bind_ok_eq, zov_unary h0 _ (fn v op.a2),
        setR_lt h1]
    · rw [fn_set h1, stepZ, if_pos (OpCode.isUnary_computes h0)]

theorem Operation.firstOrder_fn {op : Operation} {v dv : List S} (h : op.InB v.length)
    (hl : dv.length = v.length) :
    ∃ dv', op.firstOrder v dv = .ok dv' ∧ dv'.length = v.length ∧ fn dv' = stepF (fn v) op (fn dv) := by
  rcases h.cases with h0 | ⟨h0, h1⟩ | ⟨h0, h1, h2, h3, h4, h5⟩ | ⟨h0, h1, h2, h3, h3', h4⟩
  · exact ⟨dv, by simp [Operation.firstOrder, h0], hl, by
      simp [stepF, h0, OpCode.computes, OpCode.isBinary, OpCode.isUnary]⟩
  · have h1' : op.vid < dv.length := hl ▸ h1
    exact ⟨dv.set op.vid Flt.zero, by simp [Operation.firstOrder, h0, setR_lt h1'], by simp [hl], by
      rw [fn_set h1']; simp [stepF, h0, OpCode.computes, OpCode.isBinary, OpCode.isUnary]⟩
  · have h1' : op.vid < dv.length := hl ▸ h1
    have h4' : op.a1 < dv.length := hl ▸ h4
    have h5' : op.a2 < dv.length := hl ▸ h5
    refine ⟨dv.set op.vid (ffun op.opcode (fn v op.a1) (fn v op.a2) (fn dv op.a1) (fn dv op.a2)),
      ?_, by simp [hl], ?_⟩
    · rw [Operation.firstOrder_computes (OpCode.isBinary_computes h0), h2, h3]
      simp only [unwrap, optGetR, getR_fn h4, getR_fn h5, getR_fn h4', getR_fn h5', bind_ok_eq,
        map_ok_eq, fov_binary h0, setR_lt h1']
    · rw [fn_set h1', stepF, if_pos (OpCode.isBinary_computes h0)]
  · have h1' : op.vid < dv.length := hl ▸ h1
    have h4' : op.a1 < dv.length := hl ▸ h4
    refine ⟨dv.set op.vid (ffun op.opcode (fn v op.a1) (fn v op.a2) (fn dv op.a1) (fn dv op.a2)),
      ?_, by simp [hl], ?_⟩
    · rw [Operation.firstOrder_computes (OpCode.isUnary_computes h0), h2, h3]
      simp only [unwrap, optGetR, getR_fn h4, getR_fn h4', bind_ok_eq,
        fov_unary h0 _ (fn v op.a2) _ (fn dv op.a2), setR_lt h1']
    · rw [fn_set h1', stepF, if_pos (OpCode.isUnary_computes h0)]

theorem Operation.addAt_fn {vbar : List S} {i : Nat} {x : S} (h : i < vbar.length) :
    ∃ vbar', Operation.addAt vbar i x = .ok vbar' ∧ vbar'.length = vbar.length ∧
      fn vbar' = upd (fn vbar) i (fn vbar i +ᶠ x) :=
  ⟨vbar.set i (fn vbar i +ᶠ x), by
    simp only [Operation.addAt, getR_fn h, bind_ok_eq, setR_lt h], by simp, fn_set h⟩

theorem Operation.firstOrderReverse_fn {op : Operation} {v vbar : List S} (h : op.InB v.length)
    (hl : vbar.length = v.length) (hna : op.opcode ≠ .Abs) :
    ∃ vbar', op.firstOrderReverse v vbar = .ok vbar' ∧ vbar'.length = v.length ∧
      fn vbar' = stepR (fn v) op (fn vbar) := by
  rcases h.cases with h0 | ⟨h0, h1⟩ | ⟨h0, h1, h2, h3, h4, h5⟩ | ⟨h0, h1, h2, h3, h3', h4⟩
  · exact ⟨vbar, by simp [Operation.firstOrderReverse, h0], hl, by
      simp [stepR, h0, OpCode.isBinary, OpCode.isUnary]⟩
  · exact ⟨vbar, by simp [Operation.firstOrderReverse, h0], hl, by
      simp [stepR, h0, OpCode.isBinary, OpCode.isUnary]⟩
  · have h1' : op.vid < vbar.length := hl ▸ h1
    have h4' : op.a1 < vbar.length := hl ▸ h4
    obtain ⟨w1, e1, l1, f1⟩ := Operation.addAt_fn
      (x := rfun1 op.opcode (fn v op.a1) (fn v op.a2) (fn vbar op.vid)) h4'
    have h1w : op.vid < w1.length := by omega
    have h5w : op.a2 < w1.length := by omega
    obtain ⟨w2, e2, l2, f2⟩ := Operation.addAt_fn
      (x := rfun2 op.opcode (fn v op.a1) (fn v op.a2) (fn w1 op.vid)) h5w
    refine ⟨w2, ?_, by omega, ?_⟩
    · revert e1 e2
      unfold Operation.firstOrderReverse
      rcases hop : op.opcode <;> simp only [hop, OpCode.isBinary, Bool.false_eq_true] at h0 <;>
        intro e1 e2 <;>
        simp only [rfun1, rfun2] at e1 e2 <;>
        simp only [h2, h3, unwrap, bind_ok_eq, getR_fn h1', getR_fn h4, getR_fn h5, e1, getR_fn h1w, e2]
    · rw [f2, f1, stepR, if_pos h0]
  · have h1' : op.vid < vbar.length := hl ▸ h1
    have h4' : op.a1 < vbar.length := hl ▸ h4
    obtain ⟨w1, e1, l1, f1⟩ := Operation.addAt_fn
      (x := rfun1 op.opcode (fn v op.a1) (fn v op.a2) (fn vbar op.vid)) h4'
    refine ⟨w1, ?_, by omega, ?_⟩
    · revert e1
      have hfv : firstOrderValue op.opcode (fn v op.a1) none Flt.one none = .ok
          (ffun op.opcode (fn v op.a1) (fn v op.a2) Flt.one Flt.one) := fov_unary h0 _ _ _ _ _ _
      revert hfv
      unfold Operation.firstOrderReverse
      rcases hop : op.opcode <;>
        simp only [hop, OpCode.isUnary, Bool.false_eq_true, ne_eq, not_true_eq_false] at h0 hna <;>
        intro hfv e1 <;>
        simp only [rfun1] at e1 <;>
        simp only [h2, unwrap, bind_ok_eq, getR_fn h1', getR_fn h4, hfv, e1]
    · rw [f1, stepR, if_neg (by simp [OpCode.isUnary_not_binary h0]), if_pos h0]

/-- Execute a list of operations. -/
theorem sweepZ_fn {ops : List Operation} {v : List S} (h : ∀ op ∈ ops, op.InB v.length) :
    ∃ v', ops.foldlM (fun values op => op.zeroOrder values) v = .ok v' ∧ v'.length = v.length ∧
      fn v' = sweepZ ops (fn v) := by
  induction ops generalizing v with
  | nil => exact ⟨v, rfl, rfl, rfl⟩
  | cons op ops ih =>
    obtain ⟨v1, e1, l1, f1⟩ := Operation.zeroOrder_fn (h op (by simp))
    obtain ⟨v2, e2, l2, f2⟩ := ih (v := v1) (fun o ho => l1 ▸ h o (by simp [ho]))
    refine ⟨v2, ?_, by omega, ?_⟩
    · rw [List.foldlM_cons, e1, bind_ok_eq, e2]
    · rw [f2, f1]; rfl

theorem sweepF_fn {ops : List Operation} {v dv : List S} (h : ∀ op ∈ ops, op.InB v.length)
    (hl : dv.length = v.length) :
    ∃ dv', ops.foldlM (fun dv op => op.firstOrder v dv) dv = .ok dv' ∧ dv'.length = v.length ∧
      fn dv' = sweepF (fn v) ops (fn dv) := by
  induction ops generalizing dv with
  | nil => exact ⟨dv, rfl, hl, rfl⟩
  | cons op ops ih =>
    obtain ⟨v1, e1, l1, f1⟩ := Operation.firstOrder_fn (h op (by simp)) hl
    obtain ⟨v2, e2, l2, f2⟩ := ih (dv := v1) (fun o ho => h o (by simp [ho])) l1
    refine ⟨v2, ?_, by omega, ?_⟩
    · rw [List.foldlM_cons, e1, bind_ok_eq, e2]
    · rw [f2, f1]; rfl

theorem sweepR_fn_aux {ops : List Operation} {v vbar : List S} (h : ∀ op ∈ ops, op.InB v.length)
    (hna : ∀ op ∈ ops, op.opcode ≠ .Abs) (hl : vbar.length = v.length) :
    ∃ vbar', ops.foldlM (fun vbar op => op.firstOrderReverse v vbar) vbar = .ok vbar' ∧
      vbar'.length = v.length ∧ fn vbar' = ops.foldl (fun f op => stepR (fn v) op f) (fn vbar) := by
  induction ops generalizing vbar with
  | nil => exact ⟨vbar, rfl, hl, rfl⟩
  | cons op ops ih =>
    obtain ⟨v1, e1, l1, f1⟩ := Operation.firstOrderReverse_fn (h op (by simp)) hl (hna op (by simp))
    obtain ⟨v2, e2, l2, f2⟩ := ih (vbar := v1) (fun o ho => h o (by simp [ho]))
      (fun o ho => hna o (by simp [ho])) l1
    refine ⟨v2, ?_, by omega, ?_⟩
    · rw [List.foldlM_cons, e1, bind_ok_eq, e2]
    · rw [f2, f1]; rfl

theorem sweepR_fn {ops : List Operation} {v vbar : List S} (h : ∀ op ∈ ops, op.InB v.length)
    (hna : ∀ op ∈ ops, op.opcode ≠ .Abs) (hl : vbar.length = v.length) :
    ∃ vbar', ops.reverse.foldlM (fun vbar op => op.firstOrderReverse v vbar) vbar = .ok vbar' ∧
      vbar'.length = v.length ∧ fn vbar' = sweepR (fn v) ops (fn vbar) := by
  obtain ⟨w, e, l, f⟩ := sweepR_fn_aux (ops := ops.reverse) (vbar := vbar)
    (fun o ho => h o (by simpa using ho)) (fun o ho => hna o (by simpa using ho)) hl
  exact ⟨w, e, l, by rw [f]; simp [sweepR]⟩

/-- The scatter loop on functions. -/
def scatterFn {α : Type} : List Nat → List α → (Nat → α) → Nat → α
  | vid :: ids, x :: xs, f => scatterFn ids xs (upd f vid x)
  | _, _, f => f

theorem scatterFrom_fn {ids : List Nat} {xs : List S} {k : Nat} {buf : List S}
    (hids : ∀ i ∈ ids, i < buf.length) (hlen : k + ids.length ≤ xs.length) :
    ∃ buf', Tape.scatterFrom xs k ids buf = .ok buf' ∧ buf'.length = buf.length ∧
      fn buf' = scatterFn ids (xs.drop k) (fn buf) := by
  induction ids generalizing k buf with
  | nil => exact ⟨buf, rfl, rfl, by simp [scatterFn]⟩
  | cons vid ids ih =>
    have hk : k < xs.length := by simp at hlen; omega
    have hv : vid < buf.length := hids vid (by simp)
    obtain ⟨b, e, l, f⟩ := ih (k := k + 1) (buf := buf.set vid (fn xs k))
      (by intro i hi; simpa using hids i (by simp [hi])) (by simp at hlen; omega)
    refine ⟨b, ?_, by simpa using l, ?_⟩
    · simp only [Tape.scatterFrom, getR_fn hk, bind_ok_eq, setR_lt hv, e]
    · rw [f, fn_set hv]
      rw [List.drop_eq_getElem_cons hk]
      simp [scatterFn, fn, hk]

theorem scatter_fn {ids : List Nat} {xs : List S} {buf : List S}
    (hids : ∀ i ∈ ids, i < buf.length) (hlen : ids.length ≤ xs.length) :
    ∃ buf', Tape.scatter ids xs buf = .ok buf' ∧ buf'.length = buf.length ∧
      fn buf' = scatterFn ids xs (fn buf) := by
  unfold Tape.scatter
  simpa using scatterFrom_fn (k := 0) hids (by simpa using hlen)

theorem scatterFrom_err {ids : List Nat} {xs : List S} {k : Nat} {buf : List S}
    (hids : ∀ i ∈ ids, i < buf.length) (hlen : xs.length < k + ids.length) (hk : k ≤ xs.length) :
    Tape.scatterFrom xs k ids buf = .error .indexOutOfBounds := by
  induction ids generalizing k buf with
  | nil => simp at hlen; omega
  | cons vid ids ih =>
    have hv : vid < buf.length := hids vid (by simp)
    by_cases hk' : k < xs.length
    · simp only [Tape.scatterFrom, getR_fn hk', bind_ok_eq, setR_lt hv]
      exact ih (by intro i hi; simpa using hids i (by simp [hi])) (by simp at hlen; omega) hk'
    · have : xs.length ≤ k := by omega
      simp only [Tape.scatterFrom, getR_err this]; rfl

theorem scatter_err {ids : List Nat} {xs : List S} {buf : List S}
    (hids : ∀ i ∈ ids, i < buf.length) (hlen : xs.length < ids.length) :
    Tape.scatter ids xs buf = .error .indexOutOfBounds :=
  scatterFrom_err hids (by simpa using hlen) (by simp)

theorem mapM_getR_fn {ids : List Nat} {v : List S} (h : ∀ i ∈ ids, i < v.length) :
    ids.mapM (getR v) = .ok (ids.map (fn v)) := by
  induction ids with
  | nil => rfl
  | cons i ids ih =>
    rw [List.mapM_cons, getR_fn (h i (by simp)), bind_ok_eq, ih (fun j hj => h j (by simp [hj])), bind_ok_eq]
    rfl

theorem scatterFn_not_mem {α : Type} {ids : List Nat} {xs : List α} {f : Nat → α} {j : Nat} (h : j ∉ ids) :
    scatterFn ids xs f j = f j := by
  induction ids generalizing xs f with
  | nil => simp [scatterFn]
  | cons i ids ih =>
    simp only [List.mem_cons, not_or] at h
    cases xs with
    | nil => rfl
    | cons x xs => rw [scatterFn, ih h.2, upd_ne h.1]

theorem scatterFn_get {α : Type} {ids : List Nat} {xs : List α} {f : Nat → α} {k : Nat}
    (hnd : ids.Nodup) (hk : k < ids.length) (hx : k < xs.length) :
    scatterFn ids xs f ids[k] = xs[k] := by
  induction ids generalizing xs f k with
  | nil => simp at hk
  | cons i ids ih =>
    simp only [List.nodup_cons] at hnd
    cases xs with
    | nil => simp at hx
    | cons x xs =>
      rw [scatterFn]
      cases k with
      | zero =>
        simp only [List.getElem_cons_zero]
        rw [scatterFn_not_mem hnd.1, upd_same]
      | succ k =>
        simp only [List.getElem_cons_succ]
        exact ih hnd.2 _ _

omit [Flt S] in
/-- In-bounds operations of a well formed tape. -/
theorem Tape.WF.inB {t : Tape S} (h : t.WF) : ∀ op ∈ t.ops, op.InB t.vals.length := by
  intro op hop
  by_cases h0 : op.opcode = .Nop
  · refine ⟨⟨?_, ?_, ?_⟩, fun h => absurd h0 h, fun h => absurd h0 h⟩ <;>
      intro h' <;> simp [h0, OpCode.isBinary, OpCode.isUnary] at h'
  · have hm : op ∈ activeOps t.ops := by simp [activeOps, hop, h0]
    exact ⟨h.arity op hm, fun _ => h.vid_lt op hm,
      fun _ a ha => lt_trans (h.args_lt op hm a ha) (h.vid_lt op hm)⟩
where lt_trans {a b c : Nat} (h1 : a < b) (h2 : b < c) : a < c := Nat.lt_trans h1 h2

theorem Tape.x_eq {t : Tape S} (h : t.WF) : t.x = .ok (t.indeps.map (fn t.vals)) :=
  mapM_getR_fn h.indeps_lt
theorem Tape.y_eq {t : Tape S} (h : t.WF) : t.y = .ok (t.deps.map (fn t.vals)) :=
  mapM_getR_fn h.deps_lt

/-- `zero_order` on a well formed tape. -/
theorem Tape.zeroOrder_eq {t : Tape S} (h : t.WF) {x : List S} (hx : x.length = t.indeps.length)
    (hm : t.mutable = true) :
    ∃ v', t.zeroOrder x = .ok { t with vals := v' } ∧ v'.length = t.vals.length ∧
      fn v' = sweepZ t.ops (scatterFn t.indeps x (fn t.vals)) := by
  obtain ⟨v1, e1, l1, f1⟩ := scatter_fn (xs := x) h.indeps_lt (by omega)
  obtain ⟨v2, e2, l2, f2⟩ := sweepZ_fn (ops := t.ops) (v := v1) (by rw [l1]; exact h.inB)
  refine ⟨v2, ?_, by omega, by rw [f2, f1]⟩
  simp only [Tape.zeroOrder, Tape.numIndeps, hx, assertR, decide_true, if_true, bind_ok_eq, e1, e2, hm]
  rfl

theorem Tape.firstOrderForward_eq {t : Tape S} (h : t.WF) {dx : List S}
    (hx : t.indeps.length ≤ dx.length) :
    t.firstOrderForward dx = .ok (t.deps.map
      (sweepF (fn t.vals) t.ops (scatterFn t.indeps dx (fun _ => Flt.zero)))) := by
  obtain ⟨v1, e1, l1, f1⟩ := scatter_fn (ids := t.indeps) (xs := dx)
    (buf := List.replicate t.vals.length Flt.zero) (by simpa using h.indeps_lt) hx
  obtain ⟨v2, e2, l2, f2⟩ := sweepF_fn (ops := t.ops) (v := t.vals) (dv := v1) h.inB (by simpa using l1)
  simp only [Tape.firstOrderForward, e1, bind_ok_eq, e2]
  rw [mapM_getR_fn (by rw [l2]; exact h.deps_lt), f2, f1, fn_replicate]

theorem Tape.firstOrderReverse_eq {t : Tape S} (h : t.WF) (hna : t.AbsFree) {ybar : List S}
    (hx : t.deps.length ≤ ybar.length) :
    t.firstOrderReverse ybar = .ok (t.indeps.map
      (sweepR (fn t.vals) t.ops (scatterFn t.deps ybar (fun _ => Flt.zero)))) := by
  obtain ⟨v1, e1, l1, f1⟩ := scatter_fn (ids := t.deps) (xs := ybar)
    (buf := List.replicate t.vals.length Flt.zero) (by simpa using h.deps_lt) hx
  obtain ⟨v2, e2, l2, f2⟩ := sweepR_fn (ops := t.ops) (v := t.vals) (vbar := v1) h.inB hna
    (by simpa using l1)
  simp only [Tape.firstOrderReverse, e1, bind_ok_eq, e2]
  rw [mapM_getR_fn (by rw [l2]; exact h.indeps_lt), f2, f1, fn_replicate]

end Adv
