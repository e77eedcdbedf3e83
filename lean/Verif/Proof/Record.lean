import Verif.Proof.Fn
import Verif.Spec.Function

/-!
# The recorder

Recording one operation keeps a recording well formed; every interpretation of value ids that solves
the equations of the recorded operations gives the recorded results the values a direct evaluation
would have given them.
-/

namespace Adv
open scoped Adv

variable {S : Type} [Flt S]

/-! ## Well formed recordings -/

/-- Invariant of every recording. -/
structure Inner.Good (i : Inner S) : Prop where
  wf : i.tape.WF
  complete : i.tape.Complete
  cons : ∀ op ∈ i.ops, op.opcode.computes = true →
    fn i.vals op.vid = zfun op.opcode (fn i.vals op.a1) (fn i.vals op.a2)
  noNop : ∀ op ∈ i.ops, op.opcode ≠ .Nop

theorem activeOps_eq {ops : List Operation} (h : ∀ op ∈ ops, op.opcode ≠ .Nop) : activeOps ops = ops := by
  simp only [activeOps, List.filter_eq_self, decide_eq_true_eq]
  exact h

theorem mem_activeOps {ops : List Operation} {op : Operation} :
    op ∈ activeOps ops ↔ op ∈ ops ∧ op.opcode ≠ .Nop := by simp [activeOps]

/-- A consistent operation is a fixed point of re-execution. -/
theorem zeroOrder_fix_iff {op : Operation} {v : List S} (h : op.InB v.length) :
    op.zeroOrder v = .ok v ↔
      (op.opcode.computes = true → fn v op.vid = zfun op.opcode (fn v op.a1) (fn v op.a2)) := by
  obtain ⟨v', e, l, f⟩ := Operation.zeroOrder_fn h
  rw [e]
  constructor
  · intro h1 h2
    have h3 : v' = v := by simpa using h1
    subst h3
    rw [stepZ, if_pos h2] at f
    have := congrFun f op.vid
    simpa using this
  · intro h1
    congr 1
    apply fn_ext l
    intro j _
    rw [f, stepZ]
    split
    · rename_i hc
      by_cases hj : j = op.vid
      · subst hj; rw [upd_same, h1 hc]
      · rw [upd_ne hj]
    · rfl

theorem Inner.Good.consistent {i : Inner S} (h : i.Good) : i.tape.Consistent := by
  intro op hop
  exact (zeroOrder_fix_iff (h.wf.inB op hop)).mpr (h.cons op hop)

theorem Inner.good_construct (c : Nat) : (Inner.construct c : Inner S).Good := by
  refine ⟨⟨?_, ?_, ?_, ?_, ?_, ?_, ?_, ?_⟩, ?_, ?_, ?_⟩ <;>
    simp [Inner.construct, Inner.tape, activeOps, Tape.Complete]

/-- Append-only evolution of a recording. -/
structure Inner.Ext (i j : Inner S) : Prop where
  cid : j.cid = i.cid
  poisoned : j.poisoned = i.poisoned
  indeps : i.indeps <+: j.indeps
  deps : i.deps <+: j.deps
  vals : i.vals <+: j.vals
  ops : i.ops <+: j.ops

/-- The lists of independents and dependents are unchanged. -/
def Inner.SameIO (i j : Inner S) : Prop := j.indeps = i.indeps ∧ j.deps = i.deps

omit [Flt S] in
theorem Inner.Ext.refl (i : Inner S) : i.Ext i :=
  ⟨rfl, rfl, List.prefix_rfl, List.prefix_rfl, List.prefix_rfl, List.prefix_rfl⟩
omit [Flt S] in
theorem Inner.Ext.trans {i j k : Inner S} (h : i.Ext j) (h' : j.Ext k) : i.Ext k :=
  ⟨h'.cid.trans h.cid, h'.poisoned.trans h.poisoned, h.indeps.trans h'.indeps, h.deps.trans h'.deps,
    h.vals.trans h'.vals, h.ops.trans h'.ops⟩
omit [Flt S] in
theorem Inner.SameIO.trans {i j k : Inner S} (h : i.SameIO j) (h' : j.SameIO k) : i.SameIO k :=
  ⟨h'.1.trans h.1, h'.2.trans h.2⟩

theorem fn_prefix {l m : List S} (h : l <+: m) {k : Nat} (hk : k < l.length) : fn m k = fn l k := by
  obtain ⟨r, rfl⟩ := h
  exact fn_append_left hk

omit [Flt S] in
theorem Inner.ext_record (i : Inner S) (o : OpCode) (v : S) (x y : Option Nat) :
    i.Ext (i.record o v x y).2 :=
  ⟨rfl, rfl, List.prefix_rfl, List.prefix_rfl, List.prefix_append _ _, List.prefix_append _ _⟩

/-- Recording a well formed operation keeps the invariant. -/
theorem Inner.Good.record {i : Inner S} (h : i.Good) {o : OpCode} {v : S} {x y : Option Nat}
    (ho : o ≠ .Nop) (har : (⟨o, i.vals.length, x, y⟩ : Operation).ArityOK)
    (hargs : ∀ a ∈ (⟨o, i.vals.length, x, y⟩ : Operation).args, a < i.vals.length)
    (hv : o.computes = true → v = zfun o (fn i.vals (⟨o, i.vals.length, x, y⟩ : Operation).a1)
      (fn i.vals (⟨o, i.vals.length, x, y⟩ : Operation).a2)) :
    (i.record o v x y).2.Good := by
  obtain ⟨hwf, hcomp, hcons, hnn⟩ := h
  have hact := activeOps_eq hnn
  have hnn' : ∀ op ∈ (i.record o v x y).2.ops, op.opcode ≠ .Nop := by
    simp only [Inner.record, List.mem_append, List.mem_singleton]
    rintro op (h | rfl)
    · exact hnn op h
    · exact ho
  have hact' := activeOps_eq hnn'
  have hw := hwf
  obtain ⟨w1, w2, w3, w4, w5, w6, w7, w8⟩ := hwf
  simp only [Inner.tape] at w1 w2 w3 w4 w5 w6 w7 w8
  rw [hact] at w4 w5 w6 w7 w8
  refine ⟨⟨?_, ?_, w3, ?_, ?_, ?_, ?_, ?_⟩, ?_, ?_, hnn'⟩
  · intro k hk; have := w1 k hk; simp [Inner.tape, Inner.record]; omega
  · intro k hk; have := w2 k hk; simp [Inner.tape, Inner.record]; omega
  · simp only [Inner.tape]; rw [hact']
    simp only [Inner.record, List.mem_append, List.mem_singleton]
    rintro op (h | rfl)
    · exact w4 op h
    · exact har
  · simp only [Inner.tape]; rw [hact']
    simp only [Inner.record, List.mem_append, List.mem_singleton, List.length_append, List.length_cons,
      List.length_nil]
    rintro op (h | rfl)
    · have := w5 op h; omega
    · simp
  · simp only [Inner.tape]; rw [hact']
    simp only [Inner.record, List.mem_append, List.mem_singleton]
    rintro op (h | rfl)
    · exact w6 op h
    · exact hargs
  · simp only [Inner.tape]; rw [hact']
    simp only [Inner.record, List.mem_append, List.mem_singleton]
    rintro op (h | rfl)
    · exact w7 op h
    · intro hm; have := w1 _ hm; simp at this
  · simp only [Inner.tape]; rw [hact']
    simp only [Inner.record, List.map_append, List.map_cons, List.map_nil]
    rw [List.pairwise_append]
    refine ⟨w8, by simp, ?_⟩
    intro a ha b hb
    simp only [List.mem_singleton] at hb
    obtain ⟨op, hop, rfl⟩ := List.mem_map.mp ha
    rw [hb]; exact w5 op hop
  · intro k hk
    simp only [Inner.tape] at hk ⊢; rw [hact']
    simp only [Inner.record, List.length_append, List.length_cons, List.length_nil] at hk ⊢
    by_cases hk' : k < i.vals.length
    · rcases hcomp k hk' with h1 | ⟨op, h1, h2⟩
      · exact Or.inl h1
      · simp only [Inner.tape] at h1; rw [hact] at h1
        exact Or.inr ⟨op, by simp [h1], h2⟩
    · exact Or.inr ⟨⟨o, i.vals.length, x, y⟩, by simp, by simp; omega⟩
  · intro op hop hc
    simp only [Inner.record, List.mem_append, List.mem_singleton] at hop ⊢
    have key : ∀ k, k < i.vals.length → fn (i.vals ++ [v]) k = fn i.vals k :=
      fun k hk => fn_append_left hk
    rcases hop with hop | rfl
    · rcases (hw.inB op hop).cases with h0 | ⟨h0, h1⟩ | ⟨h0, h1, h2, h3, h4, h5⟩ | ⟨h0, h1, h2, h3, h3', h4⟩
      · exact absurd h0 (hnn op hop)
      · simp [h0, OpCode.computes, OpCode.isBinary, OpCode.isUnary] at hc
      · rw [key _ h1, key _ h4, key _ h5]; exact hcons op hop hc
      · rw [key _ h1, h3', key _ h4]
        have := hcons op hop hc
        rwa [h3'] at this
    · rw [fn_append_len]
      have ha1 : (⟨o, i.vals.length, x, y⟩ : Operation).a1 < i.vals.length ∧
          (⟨o, i.vals.length, x, y⟩ : Operation).a2 < i.vals.length := by
        rcases Bool.or_eq_true_iff.mp hc with hb | hb
        · obtain ⟨h3, h4⟩ := har.1 hb
          obtain ⟨a, rfl⟩ := Option.isSome_iff_exists.mp h3
          obtain ⟨b, rfl⟩ := Option.isSome_iff_exists.mp h4
          simp only [Operation.args, Option.toList, List.cons_append, List.nil_append,
            List.mem_cons, List.not_mem_nil, or_false] at hargs
          simp only [Operation.a1, Operation.a2, Option.getD_some]
          exact ⟨hargs _ (Or.inl rfl), hargs _ (Or.inr rfl)⟩
        · obtain ⟨h3, h4⟩ := har.2.1 hb
          obtain ⟨a, rfl⟩ := Option.isSome_iff_exists.mp h3
          simp only at h4; subst h4
          simp only [Operation.args, Option.toList, List.cons_append, List.nil_append,
            List.mem_cons, List.not_mem_nil, or_false] at hargs
          simp only [Operation.a1, Operation.a2, Option.getD_some, Option.getD_none]
          exact ⟨hargs _ rfl, hargs _ rfl⟩
      rw [key _ ha1.1, key _ ha1.2]; exact hv hc

/-- Declaring an independent keeps the invariant. -/
theorem Inner.Good.setIndep {i : Inner S} (h : i.Good) (v : S) : (i.setIndep v).2.Good := by
  obtain ⟨hwf, hcomp, hcons, hnn⟩ := h
  have hact := activeOps_eq hnn
  have hw := hwf
  obtain ⟨w1, w2, w3, w4, w5, w6, w7, w8⟩ := hwf
  simp only [Inner.tape] at w1 w2 w3 w4 w5 w6 w7 w8
  refine ⟨⟨?_, ?_, ?_, w4, ?_, w6, ?_, w8⟩, ?_, ?_, hnn⟩
  · simp only [Inner.tape, Inner.setIndep, List.mem_append, List.mem_singleton, List.length_append,
      List.length_cons, List.length_nil]
    rintro k (hk | rfl)
    · have := w1 k hk; omega
    · omega
  · intro k hk; have := w2 k hk; simp [Inner.tape, Inner.setIndep]; omega
  · simp only [Inner.tape, Inner.setIndep]
    rw [List.nodup_append]
    refine ⟨w3, by simp, ?_⟩
    intro a ha b hb
    have := w1 a ha
    simp only [List.mem_singleton] at hb
    omega
  · intro op hop; have := w5 op hop; simp [Inner.tape, Inner.setIndep]; omega
  · intro op hop
    have h5 := w5 op hop
    have h7 := w7 op hop
    simp only [Inner.tape, Inner.setIndep, List.mem_append, List.mem_singleton, not_or]
    exact ⟨h7, by omega⟩
  · intro k hk
    simp only [Inner.tape, Inner.setIndep, List.length_append, List.length_cons, List.length_nil,
      List.mem_append, List.mem_singleton] at hk ⊢
    by_cases hk' : k < i.vals.length
    · rcases hcomp k hk' with h1 | h1
      · exact Or.inl (Or.inl h1)
      · exact Or.inr h1
    · exact Or.inl (Or.inr (by omega))
  · intro op hop hc
    simp only [Inner.setIndep] at hop ⊢
    have key : ∀ k, k < i.vals.length → fn (i.vals ++ [v]) k = fn i.vals k :=
      fun k hk => fn_append_left hk
    rcases (hw.inB op hop).cases with h0 | ⟨h0, h1⟩ | ⟨h0, h1, h2, h3, h4, h5⟩ | ⟨h0, h1, h2, h3, h3', h4⟩
    · exact absurd h0 (hnn op hop)
    · simp [h0, OpCode.computes, OpCode.isBinary, OpCode.isUnary] at hc
    · rw [key _ h1, key _ h4, key _ h5]; exact hcons op hop hc
    · rw [key _ h1, h3', key _ h4]
      have := hcons op hop hc
      rwa [h3'] at this

/-- Appending a dependent in bounds keeps the invariant. -/
theorem Inner.Good.addDep {i : Inner S} (h : i.Good) {vid : Nat} (hv : vid < i.vals.length) :
    ({ i with deps := i.deps ++ [vid] } : Inner S).Good := by
  obtain ⟨⟨w1, w2, w3, w4, w5, w6, w7, w8⟩, hcomp, hcons, hnn⟩ := h
  refine ⟨⟨w1, ?_, w3, w4, w5, w6, w7, w8⟩, hcomp, hcons, hnn⟩
  simp only [Inner.tape, List.mem_append, List.mem_singleton]
  rintro k (hk | rfl)
  · exact w2 k hk
  · exact hv

theorem constArity (n : Nat) : (⟨.Const, n, none, none⟩ : Operation).ArityOK := by
  simp [Operation.ArityOK, OpCode.isBinary, OpCode.isUnary]

theorem Inner.Good.recordConst {i : Inner S} (h : i.Good) (v : S) :
    (i.record .Const v none none).2.Good := by
  refine h.record (by simp) (constArity _) (by simp [Operation.args]) ?_
  simp [OpCode.computes, OpCode.isBinary, OpCode.isUnary]

/-! ## Shadow evaluation -/

/-- A second semantics running alongside the values. -/
structure Shadow (S A : Type) where
  cst : S → A
  op : OpCode → S → S → A → A → A

variable {A : Type}

/-- Resolve an operand. -/
def Arg.getS (sh : Shadow S A) (env : List (S × A)) : Arg S → Res (S × A)
  | .var i => match env[i]? with
    | some x => .ok x
    | none => .error .unbound
  | .lit v => .ok (v, sh.cst v)

/-- Resolve an optional operand. -/
def Arg.getSOpt (sh : Shadow S A) (env : List (S × A)) : Option (Arg S) → Res (Option (S × A))
  | none => .ok none
  | some a => (a.getS sh env).map some

/-- Evaluation of user code on pairs of a value and a shadow. -/
def Prog.runS (sh : Shadow S A) : Prog S → List (S × A) → Res (List (S × A))
  | .ret outs, env => outs.mapM (Arg.getS sh env)
  | .op o a b k, env => do
      let a ← a.getS sh env
      let b ← Arg.getSOpt sh env b
      if arityOk o b then
        let v := zfun o a.1 (b.getD a).1
        (k env.length v).runS sh (env ++ [(v, sh.op o a.1 (b.getD a).1 a.2 (b.getD a).2)])
      else .error .unbound
  | .panic, _ => .error .user

/-- The shadow of a result computed from constants is the shadow of a constant. -/
def Shadow.ConstClosed (sh : Shadow S A) : Prop :=
  ∀ o a b, o.computes = true → sh.op o a b (sh.cst a) (sh.cst b) = sh.cst (zfun o a b)

/-- `I` satisfies the equations of all recorded operations. -/
def Solves (sh : Shadow S A) (I : Nat → A) (ops : List Operation) (v : Nat → S) : Prop :=
  ∀ op ∈ ops, (op.opcode = .Const → I op.vid = sh.cst (v op.vid)) ∧
    (op.opcode.computes = true →
      I op.vid = sh.op op.opcode (v op.a1) (v op.a2) (I op.a1) (I op.a2))

/-- The variable is a constant or belongs to context `c` and its value is the recorded one. -/
def Rep (c : Nat) (i : Inner S) (a : AFloat S) : Prop :=
  ∀ c' vid, a.ctx = some (c', vid) → c' = c ∧ vid < i.vals.length ∧ fn i.vals vid = a.v

/-- The variable matches a (value, shadow) pair under the interpretation `I`. -/
def Mt (sh : Shadow S A) (I : Nat → A) (a : AFloat S) (s : S × A) : Prop :=
  s.1 = a.v ∧ (∀ c vid, a.ctx = some (c, vid) → I vid = s.2) ∧ (a.ctx = none → s.2 = sh.cst a.v)

theorem Rep.mono {c : Nat} {i j : Inner S} {a : AFloat S} (h : Rep c i a) (he : i.Ext j) : Rep c j a := by
  intro c' vid hc
  obtain ⟨h1, h2, h3⟩ := h c' vid hc
  exact ⟨h1, Nat.lt_of_lt_of_le h2 he.vals.length_le, by rw [fn_prefix he.vals h2, h3]⟩

/-! ## Pure view of `from_op` -/

/-- `ensure_vid` on a recording. -/
def ensureI (i : Inner S) (a : AFloat S) : Nat × Inner S :=
  match a.ctx with
  | some (_, vid) => (vid, i)
  | none => i.record .Const a.v none none

/-- The optional version. -/
def ensureOptI (i : Inner S) : Option (AFloat S) → Option Nat × Inner S
  | none => (none, i)
  | some b => (some (ensureI i b).1, (ensureI i b).2)

/-- The recording part of `from_op`. -/
def recOp (i : Inner S) (o : OpCode) (v : S) (a : AFloat S) (b : Option (AFloat S)) : Nat × Inner S :=
  let r1 := ensureI i a
  let r2 := ensureOptI r1.2 b
  r2.2.record o v (some r1.1) r2.1

theorem ensureI_spec {c : Nat} {i : Inner S} {a : AFloat S} (hg : i.Good) (hr : Rep c i a) :
    (ensureI i a).2.Good ∧ i.Ext (ensureI i a).2 ∧ i.SameIO (ensureI i a).2 ∧ (ensureI i a).1 < (ensureI i a).2.vals.length ∧
    fn (ensureI i a).2.vals (ensureI i a).1 = a.v ∧
    (∀ (A : Type) (sh : Shadow S A) (I : Nat → A) (j : Inner S) (s : S × A), (ensureI i a).2.Ext j →
      Solves sh I j.ops (fn j.vals) → Mt sh I a s → I (ensureI i a).1 = s.2) := by
  rcases hctx : a.ctx with _ | ⟨c', vid⟩
  · simp only [ensureI, hctx]
    refine ⟨hg.recordConst _, Inner.ext_record _ _ _ _ _, ⟨rfl, rfl⟩, by simp [Inner.record], ?_, ?_⟩
    · simp only [Inner.record]; exact fn_append_len _ _
    · intro A sh I j s hj hs hm
      have hmem : (⟨.Const, i.vals.length, none, none⟩ : Operation) ∈ j.ops :=
        hj.ops.subset (by simp [Inner.record])
      have h1 := (hs _ hmem).1 rfl
      have h2 : fn j.vals i.vals.length = a.v := by
        rw [fn_prefix hj.vals (by simp [Inner.record])]
        simp only [Inner.record]; exact fn_append_len _ _
      simp only [Inner.record]
      rw [hm.2.2 hctx]
      simp only at h1
      rw [h1, h2]
  · simp only [ensureI, hctx]
    obtain ⟨-, h2, h3⟩ := hr c' vid hctx
    exact ⟨hg, Inner.Ext.refl i, ⟨rfl, rfl⟩, h2, h3, fun A sh I j s _ _ hm => hm.2.1 c' vid hctx⟩

/-- What recording an operation achieves. -/
structure RecSpec (c : Nat) (i : Inner S) (o : OpCode) (v : S) (a : AFloat S) (b : Option (AFloat S))
    (r : Nat × Inner S) : Prop where
  good : r.2.Good
  ext : i.Ext r.2
  io : i.SameIO r.2
  lt : r.1 < r.2.vals.length
  val : fn r.2.vals r.1 = v
  shadow : ∀ (A : Type) (sh : Shadow S A) (I : Nat → A) (j : Inner S) (s : S × A) (s' : S × A),
    r.2.Ext j → Solves sh I j.ops (fn j.vals) → Mt sh I a s → Mt sh I (b.getD a) s' →
    I r.1 = sh.op o s.1 s'.1 s.2 s'.2

theorem recOp_spec {c : Nat} {i : Inner S} {o : OpCode} {a : AFloat S} {b : Option (AFloat S)}
    (hg : i.Good) (ha : Rep c i a) (hb : ∀ b', b = some b' → Rep c i b') (hok : arityOk o b = true) :
    RecSpec c i o (zfun o a.v (b.getD a).v) a b (recOp i o (zfun o a.v (b.getD a).v) a b) := by
  obtain ⟨g1, e1, io1, l1, v1, s1⟩ := ensureI_spec hg ha
  cases b with
  | none =>
    simp only [arityOk] at hok
    simp only [recOp, ensureOptI, Option.getD_none]
    have hinv : (⟨o, (ensureI i a).2.vals.length, some (ensureI i a).1, none⟩ : Operation).a1 =
        (ensureI i a).1 ∧ (⟨o, (ensureI i a).2.vals.length, some (ensureI i a).1, none⟩ : Operation).a2 =
        (ensureI i a).1 := ⟨rfl, rfl⟩
    refine ⟨?_, e1.trans (Inner.ext_record _ _ _ _ _), io1.trans ⟨rfl, rfl⟩, by simp [Inner.record],
      by simp only [Inner.record]; exact fn_append_len _ _, ?_⟩
    · refine g1.record ?_ ?_ ?_ ?_
      · rintro rfl; simp [OpCode.isUnary] at hok
      · refine ⟨fun h => ?_, fun _ => ⟨rfl, rfl⟩, fun h => ?_⟩
        · rw [OpCode.isUnary_not_binary hok] at h; cases h
        · simp only at h; subst h; simp [OpCode.isUnary] at hok
      · simp only [Operation.args, Option.toList, List.append_nil, List.mem_singleton]
        rintro _ rfl; exact l1
      · intro _; rw [hinv.1, hinv.2, v1]
    · intro A sh I j s s' hj hs hm hm'
      have hmem : (⟨o, (ensureI i a).2.vals.length, some (ensureI i a).1, none⟩ : Operation) ∈ j.ops :=
        hj.ops.subset (by simp [Inner.record])
      have h1 := (hs _ hmem).2 (OpCode.isUnary_computes hok)
      have e' : (ensureI i a).2.Ext j := (Inner.ext_record _ _ _ _ _).trans hj
      have hI := s1 A sh I j s e' hs hm
      have hI' := s1 A sh I j s' e' hs hm'
      have hv : fn j.vals (ensureI i a).1 = a.v := by rw [fn_prefix e'.vals l1, v1]
      simp only [Inner.record]
      simp only at h1
      rw [hinv.1, hinv.2, hv, hI] at h1
      rw [h1, hm.1, hm'.1, ← hI', hI]; rfl
  | some b =>
    simp only [arityOk] at hok
    obtain ⟨g2, e2, io2, l2, v2, s2⟩ := ensureI_spec (c := c) (a := b) g1 ((hb b rfl).mono e1)
    simp only [recOp, ensureOptI, Option.getD_some]
    generalize hr1 : ensureI i a = r1 at *
    generalize hr2 : ensureI r1.2 b = r2 at *
    have l1' : r1.1 < r2.2.vals.length := Nat.lt_of_lt_of_le l1 e2.vals.length_le
    have hinv : (⟨o, r2.2.vals.length, some r1.1, some r2.1⟩ : Operation).a1 = r1.1 ∧
      (⟨o, r2.2.vals.length, some r1.1, some r2.1⟩ : Operation).a2 = r2.1 := ⟨rfl, rfl⟩
    have hnu : o.isUnary = false := by
      cases hu : o.isUnary
      · rfl
      · rw [OpCode.isUnary_not_binary hu] at hok; cases hok
    refine ⟨?_, (e1.trans e2).trans (Inner.ext_record _ _ _ _ _),
      (io1.trans io2).trans ⟨rfl, rfl⟩, by simp [Inner.record],
      by simp only [Inner.record]; exact fn_append_len _ _, ?_⟩
    · refine g2.record ?_ ?_ ?_ ?_
      · rintro rfl; simp [OpCode.isBinary] at hok
      · refine ⟨fun _ => ⟨rfl, rfl⟩, fun h => ?_, fun h => ?_⟩
        · rw [hnu] at h; cases h
        · simp only at h; subst h; simp [OpCode.isBinary] at hok
      · simp only [Operation.args, Option.toList, List.cons_append, List.nil_append, List.mem_cons,
          List.not_mem_nil, or_false]
        rintro _ (rfl | rfl)
        · exact l1'
        · exact l2
      · intro _; rw [hinv.1, hinv.2, v2, fn_prefix e2.vals l1, v1]
    · intro A sh I j s s' hj hs hm hm'
      have hmem : (⟨o, r2.2.vals.length, some r1.1, some r2.1⟩ : Operation) ∈ j.ops :=
        hj.ops.subset (by simp [Inner.record])
      have h1 := (hs _ hmem).2 (OpCode.isBinary_computes hok)
      have e' : r2.2.Ext j := (Inner.ext_record _ _ _ _ _).trans hj
      have hI := s1 A sh I j s (e2.trans e') hs hm
      have hI' := s2 A sh I j s' e' hs hm'
      have hv : fn j.vals r1.1 = a.v := by rw [fn_prefix (e2.trans e').vals l1, v1]
      have hv' : fn j.vals r2.1 = b.v := by rw [fn_prefix e'.vals l2, v2]
      simp only [Inner.record]
      simp only at h1
      rw [hinv.1, hinv.2, hv, hv', hI, hI'] at h1
      rw [h1, hm.1, hm'.1]; rfl

end Adv
