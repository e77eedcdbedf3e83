import Verif.Proof.Replay

/-!
# The same code in two arithmetics

If the results of all operations stay related and the control flow is the same, then evaluations and recordings in two
arithmetics `I` and `J` on types `S` and `T` are related.
-/

set_option linter.unusedSectionVars false

namespace Adv
open scoped Adv

variable {S T : Type} (I : Flt S) (J : Flt T) (Q : S → T → Prop)
  (X : OpCode → S → S → Option T → Prop)

/-- Related values and derivatives. -/
def RelP (x : S × S) (x' : T × T) : Prop := Q x.1 x'.1 ∧ Q x.2 x'.2

/-- Related variables. -/
def RelA (a : AFloat S) (a' : AFloat T) : Prop := a'.ctx = a.ctx ∧ Q a.v a'.v ∧ Q a.dv a'.dv

/-- A fact about the operands of every recorded operation: `X` without a literal, or the second operand is a constant that
satisfies `X` together with its counterpart. -/
def Facts (ops : List Operation) (vals : List S) (vals' : List T) : Prop :=
  ∀ op ∈ ops, op.opcode.computes = true → ∃ a b, vals[op.a1]? = some a ∧ vals[op.a2]? = some b ∧
    (X op.opcode a b none ∨ ∃ b', vals'[op.a2]? = some b' ∧ (∃ c ∈ ops, c.opcode = .Const ∧ c.vid = op.a2) ∧
      X op.opcode a b (some b'))

/-- Related recordings. -/
structure RelI (i : Inner S) (i' : Inner T) : Prop where
  cid : i'.cid = i.cid
  poisoned : i'.poisoned = i.poisoned
  indeps : i'.indeps = i.indeps
  deps : i'.deps = i.deps
  ops : i'.ops = i.ops
  vals : List.Forall₂ Q i.vals i'.vals
  facts : Facts X i.ops i.vals i'.vals

/-- Related tapes. -/
structure RelT (t : Tape S) (t' : Tape T) : Prop where
  indeps : t'.indeps = t.indeps
  deps : t'.deps = t.deps
  ops : t'.ops = t.ops
  vals : List.Forall₂ Q t.vals t'.vals

/-- Result of an operation, with derivative. -/
def opD (o : OpCode) (x : S × S) (y : Option (S × S)) : S × S :=
  (@zfun S I o x.1 (y.getD x).1, @ffun S I o x.1 (y.getD x).1 x.2 (y.getD x).2)

/-- Related operands. -/
inductive Arg.Rel2 : Arg S → Arg T → Prop
  | var (k : Nat) : Arg.Rel2 (.var k) (.var k)
  | lit {c : S} {c' : T} (h : Q c c') : Arg.Rel2 (.lit c) (.lit c')

/-- The two executions take the same path and their results are related. -/
def Prog.Along2 : Prog S → Prog T → List (S × S) → List (T × T) → Prop
  | .ret outs, .ret outs', _, _ => List.Forall₂ (Arg.Rel2 Q) outs outs'
  | .panic, .panic, _, _ => True
  | .op o a b k, .op o' a' b' k', env, env' => o' = o ∧ a.Rel2 Q a' ∧ Option.Rel (Arg.Rel2 Q) b b' ∧
      ∀ x x' y y', @Arg.getS S S (@dualSh S I) env a = .ok x →
      @Arg.getS T T (@dualSh T J) env' a' = .ok x' → @Arg.getSOpt S S (@dualSh S I) env b = .ok y →
      @Arg.getSOpt T T (@dualSh T J) env' b' = .ok y' → arityOk o y = true →
      RelP Q (opD I o x y) (opD J o x' y') ∧
      (X o x.1 (y.getD x).1 none ∨ ∃ c c', b = some (.lit c) ∧ b' = some (.lit c') ∧ X o x.1 c (some c')) ∧
      (k env.length (opD I o x y).1).Along2 (k' env.length (opD J o x' y').1) (env ++ [opD I o x y]) (env' ++ [opD J o x' y'])
  | _, _, _, _ => False

/-- The same for the links of a chain. -/
def along2Progs : List (List S → Prog S) → List (List T → Prog T) → List (S × S) → List (T × T) → Prop
  | [], [], _, _ => True
  | p :: ps, p' :: ps', env, env' => (p (env.map Prod.fst)).Along2 I J Q X (p' (env'.map Prod.fst)) env env' ∧
      ∀ y y', @Prog.runS S I S (@dualSh S I) (p (env.map Prod.fst)) env = .ok y →
        @Prog.runS T J T (@dualSh T J) (p' (env'.map Prod.fst)) env' = .ok y' → along2Progs ps ps' y y'
  | _, _, _, _ => False

variable {I J Q X} (h0 : Q I.zero J.zero)
include h0

omit h0 in
theorem mapM_rel2 {α β γ δ : Type} {f : α → Res β} {g : γ → Res δ} {R : α → γ → Prop} {P : β → δ → Prop} {xs : List α}
    {ys : List γ} (h : List.Forall₂ R xs ys) (hr : ∀ x y, R x y → ResRel P (f x) (g y)) :
    ResRel (List.Forall₂ P) (xs.mapM f) (ys.mapM g) := by
  induction h with
  | nil => exact .ok .nil
  | @cons x y xs ys hxy _ ih =>
    rw [List.mapM_cons, List.mapM_cons]
    have h1 := hr x y hxy
    generalize f x = a at h1
    generalize g y = b at h1
    cases h1 with
    | error e => exact .error e
    | ok h1 =>
      simp only [bind_ok_eq]
      generalize xs.mapM f = a at ih
      generalize ys.mapM g = b at ih
      cases ih with
      | error e => exact .error e
      | ok h2 => exact .ok (.cons h1 h2)

/-! ## Evaluation -/

theorem getS_rel {env : List (S × S)} {env' : List (T × T)} (h : List.Forall₂ (RelP Q) env env') {a : Arg S} {a' : Arg T}
    (ha : a.Rel2 Q a') :
    ResRel (RelP Q) (@Arg.getS S S (@dualSh S I) env a) (@Arg.getS T T (@dualSh T J) env' a') := by
  cases ha with
  | var k =>
    have := getElem?_forall₂ h k
    simp only [Arg.getS]
    rcases hk : env[k]? with _ | x
    · rw [hk] at this; simp only at this; rw [this]; exact .error _
    · rw [hk] at this
      obtain ⟨s, h1, h2⟩ := this
      rw [h1]; exact .ok h2
  | lit hc => exact .ok ⟨hc, h0⟩

theorem getSOpt_rel {env : List (S × S)} {env' : List (T × T)} (h : List.Forall₂ (RelP Q) env env') {b : Option (Arg S)}
    {b' : Option (Arg T)} (hb : Option.Rel (Arg.Rel2 Q) b b') :
    ResRel (Option.Rel (RelP Q)) (@Arg.getSOpt S S (@dualSh S I) env b) (@Arg.getSOpt T T (@dualSh T J) env' b') := by
  cases hb with
  | none => exact .ok .none
  | @some b b' hb =>
    have := getS_rel h0 h hb
    simp only [Arg.getSOpt]
    generalize Arg.getS _ env b = u at this
    generalize Arg.getS _ env' b' = v at this
    cases this with
    | error e => exact .error e
    | ok h => exact .ok (.some h)

theorem Prog.runS_rel (p : Prog S) {p' : Prog T} {env : List (S × S)} {env' : List (T × T)}
    (h : List.Forall₂ (RelP Q) env env') (hp : p.Along2 I J Q X p' env env') :
    ResRel (List.Forall₂ (RelP Q)) (@Prog.runS S I S (@dualSh S I) p env) (@Prog.runS T J T (@dualSh T J) p' env') := by
  induction p generalizing p' env env' with
  | ret outs =>
    cases p' with
    | ret outs' => exact mapM_rel2 hp (fun a a' ha => getS_rel h0 h ha)
    | panic => exact hp.elim
    | op => exact hp.elim
  | panic =>
    cases p' with
    | panic => exact .error _
    | ret => exact hp.elim
    | op => exact hp.elim
  | op o a b k ih =>
    cases p' with
    | panic => exact hp.elim
    | ret => exact hp.elim
    | op o' a' b' k' =>
    obtain ⟨rfl, hra, hrb, hp⟩ := hp
    have h1 := getS_rel h0 h hra
    have h2 := getSOpt_rel h0 h hrb
    simp only [Prog.runS]
    rcases ha : @Arg.getS S S (@dualSh S I) env a with e | x
    · rw [ha] at h1; rw [h1.error_left]; exact .error _
    rw [ha] at h1
    obtain ⟨x', ha', hx⟩ := h1.ok_left
    rcases hb : @Arg.getSOpt S S (@dualSh S I) env b with e | y
    · rw [hb] at h2; rw [ha', h2.error_left]; exact .error _
    rw [hb] at h2
    obtain ⟨y', hb', hy⟩ := h2.ok_left
    rw [ha', hb']
    simp only [bind_ok_eq]
    have hok : arityOk o' y' = arityOk o' y := by cases hy <;> rfl
    rw [hok]
    by_cases hc : arityOk o' y = true
    · simp only [hc, if_true]
      obtain ⟨r1, -, r3⟩ := hp x x' y y' ha ha' hb hb' hc
      rw [← h.length_eq]
      exact ih _ _ (List.rel_append h (.cons r1 .nil)) r3
    · simp only [hc]; exact .error _

theorem runProgsS_rel (ps : List (List S → Prog S)) {ps' : List (List T → Prog T)} {env : List (S × S)}
    {env' : List (T × T)} (h : List.Forall₂ (RelP Q) env env') (hp : along2Progs I J Q X ps ps' env env') :
    ResRel (List.Forall₂ (RelP Q)) (@runProgsS S I S (@dualSh S I) ps env) (@runProgsS T J T (@dualSh T J) ps' env') := by
  induction ps generalizing ps' env env' with
  | nil =>
    cases ps' with
    | nil => exact .ok h
    | cons => exact hp.elim
  | cons p ps ih =>
    cases ps' with
    | nil => exact hp.elim
    | cons p' ps' =>
    obtain ⟨h2, h3⟩ := hp
    have h4 := Prog.runS_rel h0 _ h h2
    simp only [runProgsS]
    rcases hy : @Prog.runS S I S (@dualSh S I) (p (env.map Prod.fst)) env with e | y
    · rw [hy] at h4; rw [h4.error_left]; exact .error _
    rw [hy] at h4
    obtain ⟨y', hy', hr⟩ := h4.ok_left
    rw [hy']
    exact ih hr (h3 y y' hy hy')

/-! ## Recording -/

omit h0 in
theorem getElem?_snoc {α : Type} {l : List α} {k : Nat} {a b : α} (h : l[k]? = some a) : (l ++ [b])[k]? = some a := by
  rw [List.getElem?_append_left (List.getElem?_eq_some_iff.mp h).1]; exact h

omit h0 in
theorem Facts.snoc {ops : List Operation} {vals : List S} {vals' : List T} (h : Facts X ops vals vals') {op : Operation}
    {v : S} {v' : T} (hop : op.opcode.computes = true → ∃ a b, vals[op.a1]? = some a ∧ vals[op.a2]? = some b ∧
    (X op.opcode a b none ∨ ∃ b', vals'[op.a2]? = some b' ∧ (∃ c ∈ ops, c.opcode = .Const ∧ c.vid = op.a2) ∧
      X op.opcode a b (some b'))) : Facts X (ops ++ [op]) (vals ++ [v]) (vals' ++ [v']) := by
  intro o ho hc
  have : ∃ a b, vals[o.a1]? = some a ∧ vals[o.a2]? = some b ∧
    (X o.opcode a b none ∨ ∃ b', vals'[o.a2]? = some b' ∧ (∃ c ∈ ops, c.opcode = .Const ∧ c.vid = o.a2) ∧
      X o.opcode a b (some b')) := by
    rcases List.mem_append.mp ho with ho | ho
    · exact h o ho hc
    · simp only [List.mem_singleton] at ho; subst ho; exact hop hc
  obtain ⟨a, b, h1, h2, h3⟩ := this
  refine ⟨a, b, getElem?_snoc h1, getElem?_snoc h2, h3.imp id ?_⟩
  rintro ⟨b', k1, ⟨c, k2, k3⟩, k4⟩
  exact ⟨b', getElem?_snoc k1, ⟨c, List.mem_append_left _ k2, k3⟩, k4⟩

omit h0 in
theorem RelI.record {i : Inner S} {i' : Inner T} (h : RelI Q X i i') (o : OpCode) {v : S} {v' : T} (x y : Option Nat) (hv : Q v v')
    (hop : ∀ op : Operation, op = ⟨o, i.vals.length, x, y⟩ → o.computes = true →
      ∃ a b, i.vals[op.a1]? = some a ∧ i.vals[op.a2]? = some b ∧
      (X o a b none ∨ ∃ b', i'.vals[op.a2]? = some b' ∧ (∃ c ∈ i.ops, c.opcode = .Const ∧ c.vid = op.a2) ∧
      X o a b (some b'))) :
    (i'.record o v' x y).1 = (i.record o v x y).1 ∧ RelI Q X (i.record o v x y).2 (i'.record o v' x y).2 := by
  have hl := h.vals.length_eq
  exact ⟨by simp [Inner.record, hl], h.cid, h.poisoned, h.indeps, h.deps, by simp [Inner.record, hl, h.ops],
    List.rel_append h.vals (.cons hv .nil), h.facts.snoc (hop _ rfl)⟩

omit h0 in
theorem RelI.const {i : Inner S} {i' : Inner T} (h : RelI Q X i i') {v : S} {v' : T} (hv : Q v v') :
    (i'.record .Const v' none none).1 = (i.record .Const v none none).1 ∧
      RelI Q X (i.record .Const v none none).2 (i'.record .Const v' none none).2 :=
  h.record _ _ _ hv (fun _ _ h => by cases h)

/-- The variable is stored in the recording. -/
def InSlot (i : Inner S) (a : AFloat S) : Prop := ∀ c vid, a.ctx = some (c, vid) → i.vals[vid]? = some a.v

/-- The second recording extends the first one. -/
def Grows (i j : Inner S) : Prop := ∀ (k : Nat) (a : S), i.vals[k]? = some a → j.vals[k]? = some a

omit h0 in
theorem InSlot.grows {i j : Inner S} {a : AFloat S} (h : InSlot i a) (hg : Grows i j) : InSlot j a :=
  fun c vid e => hg _ _ (h c vid e)

omit h0 in
theorem Grows.trans {i j k : Inner S} (h : Grows i j) (h' : Grows j k) : Grows i k := fun _ _ e => h' _ _ (h _ _ e)

omit h0 in
theorem grows_record (i : Inner S) (o : OpCode) (v : S) (x y : Option Nat) : Grows i (i.record o v x y).2 :=
  fun _ _ h => getElem?_snoc h

omit h0 in
theorem ensureI_grows (i : Inner S) (a : AFloat S) : Grows i (ensureI i a).2 := by
  unfold ensureI
  rcases a.ctx with _ | ⟨c, vid⟩
  · exact grows_record _ _ _ _ _
  · exact fun _ _ h => h

omit h0 in
theorem ensureOptI_grows (i : Inner S) (b : Option (AFloat S)) : Grows i (ensureOptI i b).2 := by
  cases b with
  | none => exact fun _ _ h => h
  | some b => exact ensureI_grows i b

omit h0 in
theorem ensureI_slot {i : Inner S} {a : AFloat S} (h : InSlot i a) : (ensureI i a).2.vals[(ensureI i a).1]? = some a.v := by
  unfold ensureI
  rcases hc : a.ctx with _ | ⟨c, vid⟩
  · simp [Inner.record]
  · exact h c vid hc

omit h0 in
theorem recOp_grows (i : Inner S) (o : OpCode) (v : S) (a : AFloat S) (b : Option (AFloat S)) : Grows i (recOp i o v a b).2 :=
  ((ensureI_grows i a).trans (ensureOptI_grows _ b)).trans (grows_record _ _ _ _ _)

omit h0 in
theorem recOp_slot (i : Inner S) (o : OpCode) (v : S) (a : AFloat S) (b : Option (AFloat S)) :
    (recOp i o v a b).2.vals[(recOp i o v a b).1]? = some v := by
  simp [recOp, Inner.record]

omit h0 in
theorem ensureI_rel {i : Inner S} {i' : Inner T} (h : RelI Q X i i') {a : AFloat S} {a' : AFloat T} (ha : RelA Q a a') :
    (ensureI i' a').1 = (ensureI i a).1 ∧ RelI Q X (ensureI i a).2 (ensureI i' a').2 := by
  unfold ensureI
  rw [ha.1]
  rcases hc : a.ctx with _ | ⟨c, vid⟩
  · exact h.const ha.2.1
  · exact ⟨rfl, h⟩

omit h0 in
theorem ensureOptI_rel {i : Inner S} {i' : Inner T} (h : RelI Q X i i') {b : Option (AFloat S)} {b' : Option (AFloat T)}
    (hb : Option.Rel (RelA Q) b b') :
    (ensureOptI i' b').1 = (ensureOptI i b).1 ∧ RelI Q X (ensureOptI i b).2 (ensureOptI i' b').2 := by
  cases hb with
  | none => exact ⟨rfl, h⟩
  | some hb =>
    obtain ⟨h1, h2⟩ := ensureI_rel h hb
    exact ⟨by simp [ensureOptI, h1], h2⟩

omit h0 in
theorem recOp_rel {i : Inner S} {i' : Inner T} (h : RelI Q X i i') {o : OpCode} {v : S} {v' : T} (hv : Q v v') {a : AFloat S} {a' : AFloat T}
    (ha : RelA Q a a') {b : Option (AFloat S)} {b' : Option (AFloat T)} (hb : Option.Rel (RelA Q) b b')
    (ho : arityOk o b = true) (hsa : InSlot i a) (hsb : ∀ y, b = some y → InSlot i y)
    (hX : X o a.v (b.getD a).v none ∨ ∃ y y', b = some y ∧ b' = some y' ∧ y.ctx = none ∧ y'.ctx = none ∧ X o a.v y.v (some y'.v)) :
    (recOp i' o v' a' b').1 = (recOp i o v a b).1 ∧ RelI Q X (recOp i o v a b).2 (recOp i' o v' a' b').2 := by
  obtain ⟨h1, h2⟩ := ensureI_rel h ha
  obtain ⟨h3, h4⟩ := ensureOptI_rel h2 hb
  unfold recOp
  simp only [h1, h3]
  refine h4.record _ _ _ hv ?_
  rintro op rfl -
  have s1 := ensureOptI_grows (ensureI i a).2 b _ _ (ensureI_slot hsa)
  cases b with
  | none =>
    refine ⟨a.v, a.v, s1, s1, hX.imp id ?_⟩
    rintro ⟨y, _, h, _⟩
    cases h
  | some y =>
    have s2 : (ensureI (ensureI i a).2 y).2.vals[(ensureI (ensureI i a).2 y).1]? = some y.v :=
      ensureI_slot ((hsb y rfl).grows (ensureI_grows i a))
    refine ⟨a.v, y.v, s1, s2, hX.imp id ?_⟩
    rintro ⟨_, y', ⟨⟩, rfl, hc, hc', hx⟩
    refine ⟨y'.v, ?_, ⟨⟨.Const, (ensureI i a).2.vals.length, none, none⟩, ?_, rfl, ?_⟩, hx⟩
    · show (ensureI (ensureI i' a').2 y').2.vals[(ensureI (ensureI i a).2 y).1]? = some y'.v
      have e : (ensureI (ensureI i a).2 y).1 = (ensureI (ensureI i' a').2 y').1 := by
        have := h3
        simp only [ensureOptI, Option.some.injEq] at this
        exact this.symm
      rw [e]
      exact ensureI_slot (fun c vid h => by rw [hc'] at h; cases h)
    · show _ ∈ (ensureI (ensureI i a).2 y).2.ops
      rw [ensureI, hc]; simp [Inner.record]
    · show (ensureI i a).2.vals.length = (ensureI (ensureI i a).2 y).1
      generalize (ensureI i a).2 = j
      rw [ensureI, hc]; rfl

theorem get_rel {env : List (AFloat S)} {env' : List (AFloat T)} (h : List.Forall₂ (RelA Q) env env') {a : Arg S}
    {a' : Arg T} (ha : a.Rel2 Q a') : ResRel (RelA Q) (@Arg.get S I env a) (@Arg.get T J env' a') := by
  cases ha with
  | var k =>
    have := getElem?_forall₂ h k
    simp only [Arg.get]
    rcases hk : env[k]? with _ | x
    · rw [hk] at this; simp only at this; rw [this]; exact .error _
    · rw [hk] at this
      obtain ⟨s, h1, h2⟩ := this
      rw [h1]; exact .ok h2
  | lit hc => exact .ok ⟨rfl, hc, h0⟩

theorem getOpt_rel {env : List (AFloat S)} {env' : List (AFloat T)} (h : List.Forall₂ (RelA Q) env env')
    {b : Option (Arg S)} {b' : Option (Arg T)} (hb : Option.Rel (Arg.Rel2 Q) b b') :
    ResRel (Option.Rel (RelA Q)) (@Arg.getOpt S I env b) (@Arg.getOpt T J env' b') := by
  cases hb with
  | none => exact .ok .none
  | @some b b' hb =>
    have := get_rel h0 h hb
    simp only [Arg.getOpt]
    generalize @Arg.get S I env b = u at this
    generalize @Arg.get T J env' b' = v at this
    cases this with
    | error e => exact .error e
    | ok h => exact .ok (.some h)

omit h0 in
theorem InCtx.rel {c : Nat} {a : AFloat S} {a' : AFloat T} (h : InCtx c a) (hl : RelA Q a a') : InCtx c a' := by
  intro d vid e; rw [hl.1] at e; exact h d vid e

omit h0 in
theorem opD_dual (K : Flt S) (o : OpCode) (x : AFloat S) (y : Option (AFloat S)) :
    opD K o x.dual (y.map AFloat.dual) = (@opVal S K o x y, @opDval S K o x y) := by
  cases y <;> rfl

/-- Two runs in lockstep. -/
def Lock2 (Q : S → T → Prop) (X : OpCode → S → S → Option T → Prop) (c n : Nat) (w : World S) (w' : World T) (m : World S → Res (List (AFloat S)) × World S)
    (m' : World T → Res (List (AFloat T)) × World T) : Prop :=
  ∃ r r' j j', m w = (r, w.setCell c (some ⟨n, j⟩)) ∧ m' w' = (r', w'.setCell c (some ⟨n, j'⟩)) ∧ RelI Q X j j' ∧
    ResRel (List.Forall₂ (RelA Q)) r r' ∧ j.poisoned = false ∧ j.cid = c ∧ (∀ y, r = .ok y → ∀ a ∈ y, InCtx c a) ∧
    ∀ y, r = .ok y → ∀ a ∈ y, InSlot j a

theorem Prog.run_rel (p : Prog S) {p' : Prog T} {env : List (AFloat S)} {env' : List (AFloat T)} {w : World S} {w' : World T} {c n : Nat}
    {i : Inner S} {i' : Inner T} (hc : w.cells c = some ⟨n, i⟩) (hc' : w'.cells c = some ⟨n, i'⟩) (hn : 1 ≤ n)
    (hp : i.poisoned = false) (hcid : i.cid = c) (hi : RelI Q X i i') (henv : List.Forall₂ (RelA Q) env env')
    (hr : ∀ a ∈ env, InCtx c a) (hsl : ∀ a ∈ env, InSlot i a) (hl : p.Along2 I J Q X p' (env.map AFloat.dual) (env'.map AFloat.dual)) :
    Lock2 Q X c n w w' (@Prog.run S I p env) (@Prog.run T J p' env') := by
  have hlit : ∀ (K : Flt S) (v : S), InCtx c (@AFloat.ofScalar S K v) := by
    intro K v c' vid h; simp [AFloat.ofScalar, AFloat.new] at h
  have hlit2 : ∀ (K : Flt S) (i : Inner S) (v : S), InSlot i (@AFloat.ofScalar S K v) := by
    intro K i v c' vid h; simp [AFloat.ofScalar, AFloat.new] at h
  induction p generalizing p' env env' w w' i i' with
  | ret outs =>
    cases p' with
    | panic => exact hl.elim
    | op => exact hl.elim
    | ret outs' =>
    refine ⟨outs.mapM (@Arg.get S I env), outs'.mapM (@Arg.get T J env'), i, i', ?_, ?_, hi,
      mapM_rel2 hl (fun a a' ha => get_rel h0 henv ha), hp, hcid, ?_, ?_⟩
    · simp only [Prog.run, M.lift_apply]; rw [World.setCell_self hc]
    · simp only [Prog.run, M.lift_apply]; rw [World.setCell_self hc']
    · intro y hy a ha
      obtain ⟨x, -, hx⟩ := mapM_mem hy a ha
      exact @Arg.get_prop S I _ _ hr (hlit I) _ _ hx
    · intro y hy a ha
      obtain ⟨x, -, hx⟩ := mapM_mem hy a ha
      exact @Arg.get_prop S I _ _ hsl (hlit2 I i) _ _ hx
  | panic =>
    cases p' with
    | ret => exact hl.elim
    | op => exact hl.elim
    | panic =>
    refine ⟨.error .user, .error .user, i, i', ?_, ?_, hi, .error _, hp, hcid, by simp, by simp⟩
    · simp only [Prog.run, M.throw_apply]; rw [World.setCell_self hc]
    · simp only [Prog.run, M.throw_apply]; rw [World.setCell_self hc']
  | op o a b k ih =>
    cases p' with
    | ret => exact hl.elim
    | panic => exact hl.elim
    | op oo a' b' k' =>
    obtain ⟨ho, hra, hrb, hl⟩ := hl
    obtain rfl : o = oo := ho.symm
    have herr : ∀ e : Err, ∀ (m : World S → Res (List (AFloat S)) × World S) (m' : World T → Res (List (AFloat T)) × World T),
        m w = (.error e, w) → m' w' = (.error e, w') → Lock2 Q X c n w w' m m' := by
      intro e m m' h1 h2
      refine ⟨.error e, .error e, i, i', ?_, ?_, hi, .error _, hp, hcid, by simp, by simp⟩
      · rw [h1, World.setCell_self hc]
      · rw [h2, World.setCell_self hc']
    have h1 := get_rel h0 henv hra
    rcases ha : @Arg.get S I env a with e | x
    · rw [ha] at h1
      apply herr e
      · simp only [Prog.run, M.bind_apply, M.lift_apply, ha]
      · simp only [Prog.run, M.bind_apply, M.lift_apply, h1.error_left]
    rw [ha] at h1
    obtain ⟨x', ha', hx'⟩ := h1.ok_left
    have h2 := getOpt_rel h0 henv hrb
    rcases hb : @Arg.getOpt S I env b with e | y
    · rw [hb] at h2
      apply herr e
      · simp only [Prog.run, M.bind_apply, M.lift_apply, ha, hb]
      · simp only [Prog.run, M.bind_apply, M.lift_apply, ha', h2.error_left]
    rw [hb] at h2
    obtain ⟨y', hb', hy'⟩ := h2.ok_left
    have hok' : arityOk o y' = arityOk o y := by cases hy' <;> rfl
    by_cases hok : arityOk o y = true
    swap
    · apply herr .unbound
      · simp only [Prog.run, M.bind_apply, M.lift_apply, ha, hb, hok]; rfl
      · simp only [Prog.run, M.bind_apply, M.lift_apply, ha', hb', hok', hok]; rfl
    have hx : InCtx c x := @Arg.get_prop S I _ _ hr (hlit I) _ _ ha
    have hy : ∀ b', y = some b' → InCtx c b' := @Arg.getOpt_prop S I _ _ hr (hlit I) _ _ hb
    have sx : InSlot i x := @Arg.get_prop S I _ _ hsl (hlit2 I i) _ _ ha
    have sy : ∀ b', y = some b' → InSlot i b' := @Arg.getOpt_prop S I _ _ hsl (hlit2 I i) _ _ hb
    have hyy : ∀ b', y' = some b' → InCtx c b' := by
      rintro b' rfl
      cases hy' with
      | some h => exact (hy _ rfl).rel h
    have hsx : ∀ {a : AFloat S} {a' : AFloat T}, RelA Q a a' → a'.ctx.isSome = a.ctx.isSome := by
      intro a a' h; rw [h.1]
    obtain ⟨r1, rX, r3⟩ := hl x.dual x'.dual (y.map AFloat.dual) (y'.map AFloat.dual)
      (by rw [@Arg.get_dual S I, ha]; rfl) (by rw [@Arg.get_dual T J, ha']; rfl) (by rw [@Arg.getOpt_dual S I, hb]; rfl)
      (by rw [@Arg.getOpt_dual T J, hb']; rfl) (by rw [← hok]; cases y <;> rfl)
    rw [opD_dual I, opD_dual J] at r1 r3
    have hstep : ∃ ctx j j', @AFloat.fromOp S I o x y w =
          (.ok ⟨@opVal S I o x y, @opDval S I o x y, ctx⟩, w.setCell c (some ⟨n, j⟩)) ∧
        @AFloat.fromOp T J o x' y' w' =
          (.ok ⟨@opVal T J o x' y', @opDval T J o x' y', ctx⟩, w'.setCell c (some ⟨n, j'⟩)) ∧ RelI Q X j j' ∧
        j.poisoned = false ∧ j.cid = c ∧ InCtx c ⟨@opVal S I o x y, @opDval S I o x y, ctx⟩ ∧
        InSlot j ⟨@opVal S I o x y, @opDval S I o x y, ctx⟩ ∧ Grows i j := by
      have rX' : X o x.v (y.getD x).v none ∨ ∃ z z', y = some z ∧ y' = some z' ∧ z.ctx = none ∧ z'.ctx = none ∧
          X o x.v z.v (some z'.v) := by
        rcases rX with h | ⟨c1, c2, rfl, rfl, h⟩
        · left
          cases y with
          | none => exact h
          | some y => exact h
        · right
          have e1 : y = some (@AFloat.ofScalar S I c1) := by
            have : @Arg.getOpt S I env (some (.lit c1)) = .ok (some (@AFloat.ofScalar S I c1)) := rfl
            rw [this] at hb; injection hb with hb; exact hb.symm
          have e2 : y' = some (@AFloat.ofScalar T J c2) := by
            have : @Arg.getOpt T J env' (some (.lit c2)) = .ok (some (@AFloat.ofScalar T J c2)) := rfl
            rw [this] at hb'; injection hb' with hb'; exact hb'.symm
          exact ⟨_, _, e1, e2, rfl, rfl, h⟩
      by_cases hs : x.ctx.isSome ∨ ∃ b', y = some b' ∧ b'.ctx.isSome
      · have hs' : x'.ctx.isSome ∨ ∃ b', y' = some b' ∧ b'.ctx.isSome := by
          rcases hs with h | ⟨b', rfl, h⟩
          · exact Or.inl (by rw [hsx hx']; exact h)
          · cases hy' with
            | some hl => exact Or.inr ⟨_, rfl, by rw [hsx hl]; exact h⟩
        obtain ⟨e1, e2⟩ := recOp_rel hi (o := o) r1.1 hx' hy' hok sx sy rX'
        refine ⟨_, _, _, @fromOp_live S I _ _ _ _ _ _ _ hok hx hy hs hc hn hp, ?_, e2, ?_, ?_, ?_, ?_, recOp_grows _ _ _ _ _⟩
        · rw [← e1]
          exact @fromOp_live T J _ _ _ _ _ _ _ (hok'.trans hok) (hx.rel hx') hyy hs' hc' hn (hi.poisoned.trans hp)
        · rw [← hp]
          show (ensureOptI (ensureI i x).2 y).2.poisoned = _
          rw [ensureOptI_poisoned, ensureI_poisoned]
        · have : ∀ (i : Inner S) (a : AFloat S), (ensureI i a).2.cid = i.cid := by
            intro i a; unfold ensureI; rcases a.ctx with _ | ⟨_, _⟩ <;> rfl
          show (ensureOptI (ensureI i x).2 y).2.cid = c
          cases y with
          | none => simp only [ensureOptI, this, hcid]
          | some y => simp only [ensureOptI, this, hcid]
        · intro d vid h; simp only [Option.some.injEq, Prod.mk.injEq] at h; exact h.1.symm
        · intro d vid h
          simp only [Option.some.injEq, Prod.mk.injEq] at h
          rw [← h.2]; exact recOp_slot _ _ _ _ _
      · have hx0 : x.ctx = none := by
          by_contra h; exact hs (Or.inl (by cases hx : x.ctx <;> simp_all))
        have hy0 : ∀ b', y = some b' → b'.ctx = none := by
          intro b' hb'
          by_contra h; exact hs (Or.inr ⟨b', hb', by cases hx : b'.ctx <;> simp_all⟩)
        have hy0' : ∀ b', y' = some b' → b'.ctx = none := by
          rintro b' rfl
          cases hy' with
          | some hl => rw [hl.1]; exact hy0 _ rfl
        refine ⟨none, i, i', ?_, ?_, hi, hp, hcid, ?_, ?_, fun _ _ h => h⟩
        · rw [World.setCell_self hc]; exact @fromOp_free S I _ _ _ w hok hx0 hy0
        · rw [World.setCell_self hc']; exact @fromOp_free T J _ _ _ w' (hok'.trans hok) (hx'.1.trans hx0) hy0'
        · intro d vid h; cases h
        · intro d vid h; cases h
    obtain ⟨ctx, j, j', h1, h2, h4, h5, h6, h7, h8, h9⟩ := hstep
    rw [List.length_map] at r3
    obtain ⟨s, s', l, l', g1, g2, g3⟩ := ih env.length (@opVal S I o x y)
      (env := env ++ [⟨@opVal S I o x y, @opDval S I o x y, ctx⟩])
      (env' := env' ++ [⟨@opVal T J o x' y', @opDval T J o x' y', ctx⟩])
      (w := w.setCell c (some ⟨n, j⟩)) (w' := w'.setCell c (some ⟨n, j'⟩)) (i := j) (i' := j')
      (World.setCell_same _ _ _) (World.setCell_same _ _ _) h5 h6 h4
      (List.rel_append henv (.cons ⟨rfl, r1.1, r1.2⟩ .nil)) (by
        intro a ha
        rcases List.mem_append.mp ha with h | h
        · exact hr a h
        · simp only [List.mem_singleton] at h; subst h; exact h7) (by
        intro a ha
        rcases List.mem_append.mp ha with h | h
        · exact (hsl a h).grows h9
        · simp only [List.mem_singleton] at h; subst h; exact h8)
      (by rw [List.map_append, List.map_append]; exact r3)
    rw [World.setCell_setCell] at g1 g2
    refine ⟨s, s', l, l', ?_, ?_, g3⟩
    · simp only [Prog.run, M.bind_apply, M.lift_apply, ha, hb, hok, if_true, h1]
      exact g1
    · simp only [Prog.run, M.bind_apply, M.lift_apply, ha', hb', hok', hok, if_true, h2]
      rw [← henv.length_eq]
      exact g2

theorem runProgs_rel (ps : List (List S → Prog S)) {ps' : List (List T → Prog T)} {env : List (AFloat S)}
    {env' : List (AFloat T)} {w : World S} {w' : World T} {c n : Nat}
    {i : Inner S} {i' : Inner T} (hc : w.cells c = some ⟨n, i⟩) (hc' : w'.cells c = some ⟨n, i'⟩) (hn : 1 ≤ n)
    (hp : i.poisoned = false) (hcid : i.cid = c) (hi : RelI Q X i i') (henv : List.Forall₂ (RelA Q) env env')
    (hr : ∀ a ∈ env, InCtx c a) (hsl : ∀ a ∈ env, InSlot i a) (hl : along2Progs I J Q X ps ps' (env.map AFloat.dual) (env'.map AFloat.dual)) :
    Lock2 Q X c n w w' (@runProgs S I ps env) (@runProgs T J ps' env') := by
  induction ps generalizing ps' env env' w w' i i' with
  | nil =>
    cases ps' with
    | cons => exact hl.elim
    | nil =>
    refine ⟨.ok env, .ok env', i, i', ?_, ?_, hi, .ok henv, hp, hcid, ?_, ?_⟩
    · simp only [runProgs, M.pure_apply]; rw [World.setCell_self hc]
    · simp only [runProgs, M.pure_apply]; rw [World.setCell_self hc']
    · rintro y ⟨⟩; exact hr
    · rintro y ⟨⟩; exact hsl
  | cons p ps ih =>
    cases ps' with
    | nil => exact hl.elim
    | cons p' ps' =>
    obtain ⟨l2, l3⟩ := hl
    have hv : ∀ {S : Type} (env : List (AFloat S)), (env.map AFloat.dual).map Prod.fst = env.map AFloat.v := by
      intro S env; rw [List.map_map]; rfl
    rw [hv, hv] at l2
    rw [hv, hv] at l3
    obtain ⟨r, r', j, j', h1, h2, h3, h4, h5, h6, h7, h8⟩ := Prog.run_rel h0 (p (env.map AFloat.v))
      hc hc' hn hp hcid hi henv hr hsl l2
    cases h4 with
    | error e =>
      refine ⟨.error e, .error e, j, j', ?_, ?_, h3, .error _, h5, h6, by simp, by simp⟩
      · simp only [runProgs, M.bind_apply, h1]
      · simp only [runProgs, M.bind_apply, h2]
    | @ok y y' hy =>
      obtain ⟨s, s', l, l', g1, g2, g3⟩ := ih (env := y) (env' := y')
        (w := w.setCell c (some ⟨n, j⟩)) (w' := w'.setCell c (some ⟨n, j'⟩)) (i := j) (i' := j')
        (World.setCell_same _ _ _) (World.setCell_same _ _ _) h5 h6 h3 hy (h7 y rfl) (h8 y rfl)
        (l3 _ _ (@Prog.run_ok_dual S I _ _ _ _ _ h1) (@Prog.run_ok_dual T J _ _ _ _ _ h2))
      rw [World.setCell_setCell] at g1 g2
      refine ⟨s, s', l, l', ?_, ?_, g3⟩
      · simp only [runProgs, M.bind_apply, h1]; exact g1
      · simp only [runProgs, M.bind_apply, h2]; exact g2

omit h0 in
theorem setDep_rel {c : Nat} {i : Inner S} {i' : Inner T} (hi : RelI Q X i i') (hcid : i.cid = c) {a : AFloat S} {a' : AFloat T} (ha : InCtx c a)
    (hl : RelA Q a a') :
    ∃ j j', i.setDep a.v a.ctx = .ok j ∧ i'.setDep a'.v a'.ctx = .ok j' ∧ RelI Q X j j' ∧ j.poisoned = i.poisoned ∧
      j.cid = c := by
  have hadd : ∀ {i : Inner S} {i' : Inner T}, RelI Q X i i' → ∀ d : Nat,
      RelI Q X { i with deps := i.deps ++ [d] } { i' with deps := i'.deps ++ [d] } := by
    intro i i' h d
    exact ⟨h.cid, h.poisoned, h.indeps, by simp [h.deps], h.ops, h.vals, h.facts⟩
  rw [hl.1]
  rcases hc : a.ctx with _ | ⟨d, vid⟩
  · obtain ⟨-, h2⟩ := hi.const hl.2.1
    refine ⟨_, _, rfl, rfl, ?_, rfl, hcid⟩
    have := hadd h2 i.vals.length
    simp only [Inner.record, ← hi.vals.length_eq] at this ⊢
    exact this
  · have : d = c := ha d vid hc
    subst this
    refine ⟨{ i with deps := i.deps ++ [vid] }, { i' with deps := i'.deps ++ [vid] }, ?_, ?_, hadd hi vid, rfl, hcid⟩
    · simp [Inner.setDep, hcid]
    · simp [Inner.setDep, hi.cid, hcid]

theorem setDepSlice_rel {w : World S} {w' : World T} {c n : Nat} {i : Inner S} {i' : Inner T} {as : List (AFloat S)} {as' : List (AFloat T)}
    (hl : List.Forall₂ (RelA Q) as as')
    (hc : w.cells c = some ⟨n, i⟩) (hc' : w'.cells c = some ⟨n, i'⟩)
    (hp : i.poisoned = false) (hcid : i.cid = c) (hi : RelI Q X i i') (hr : ∀ a ∈ as, InCtx c a) :
    ∃ (j : Inner S) (j' : Inner T), AContext.setDepSlice ⟨c⟩ as w = (.ok (), w.setCell c (some ⟨n, j⟩)) ∧
      AContext.setDepSlice ⟨c⟩ as' w' = (.ok (), w'.setCell c (some ⟨n, j'⟩)) ∧ RelI Q X j j' ∧ j.poisoned = false := by
  induction hl generalizing w w' i i' with
  | nil =>
    refine ⟨i, i', ?_, ?_, hi, hp⟩
    · simp only [AContext.setDepSlice, M.pure_apply]; rw [World.setCell_self hc]
    · simp only [AContext.setDepSlice, M.pure_apply]; rw [World.setCell_self hc']
  | @cons a a' as as' hla _ ih =>
    obtain ⟨j, j', h1, h2, h3, h4, h5⟩ := setDep_rel hi hcid (hr a (by simp)) hla
    have k1 : AContext.setDep ⟨c⟩ a w = (.ok (), w.setCell c (some ⟨n, j⟩)) := by
      apply withLock_ok hc hp; rw [h1]
    have k2 : AContext.setDep ⟨c⟩ a' w' = (.ok (), w'.setCell c (some ⟨n, j'⟩)) := by
      apply withLock_ok hc' (hi.poisoned.trans hp); rw [h2]
    obtain ⟨l, l', g1, g2, g3, g4⟩ := ih (w := w.setCell c (some ⟨n, j⟩))
      (w' := w'.setCell c (some ⟨n, j'⟩)) (i := j) (i' := j')
      (World.setCell_same _ _ _) (World.setCell_same _ _ _) (h4.trans hp) h5 h3 (fun b hb => hr b (by simp [hb]))
    rw [World.setCell_setCell] at g1 g2
    refine ⟨l, l', ?_, ?_, g3, g4⟩
    · simp only [AContext.setDepSlice]; rw [M.bind_ok k1]; exact g1
    · simp only [AContext.setDepSlice]; rw [M.bind_ok k2]; exact g2

/-- Recordings in two arithmetics. -/
theorem Func.tape_rel (f : Func S) {g : Func T} {x : List S} {x' : List T} (hx : List.Forall₂ Q x x') {w : World S}
    {w' : World T} (hw : w.nextId < usizeMax) (hww : w'.nextId = w.nextId)
    (hl : along2Progs I J Q X f.progs g.progs (x.map fun a => (a, I.zero)) (x'.map fun a => (a, J.zero))) :
    ResRel (fun t t' => RelT Q t t' ∧ Facts X t.ops t.vals t'.vals) (@Func.tape S I f x w).1 (@Func.tape T J g x' w').1 := by
  let c := w.nextId
  let z : {S : Type} → World S → World S := fun w => { w with nextId := (w.nextId + 1) % 2 ^ 64 }
  have hnew : ∀ {S : Type} {w : World S}, w.nextId = c → (AContext.new : M (World S) AContext) w =
      (.ok ⟨c⟩, (z w).setCell c (some ⟨1, Inner.construct c⟩)) := by
    intro S w h
    simp only [AContext.new]; rw [if_pos (by rw [h]; exact hw), h]
    simp only [z, h]
  have hmap : ∀ {S : Type} (K : Flt S) (x : List S), (x.map (@AFloat.ofScalar S K)).map AFloat.v = x := by
    intro S K x; rw [List.map_map]; simp [Function.comp_def, AFloat.ofScalar, AFloat.new]
  have hind : ∀ {S : Type} (w0 : World S) (K : Flt S) (x : List S), AContext.setIndepAll ⟨c⟩ (x.map (@AFloat.ofScalar S K))
      (w0.setCell c (some ⟨1, Inner.construct c⟩)) = (.ok (indepVars c 0 (x.map (@AFloat.ofScalar S K))),
        w0.setCell c (some ⟨1, indepsInner (Inner.construct c) x⟩)) := by
    intro S w0 K x
    have h := setIndepAll_live (w := w0.setCell c (some ⟨1, Inner.construct c⟩)) (c := c) (n := 1)
      (i := Inner.construct c) (x.map (@AFloat.ofScalar S K)) (World.setCell_same _ _ _) rfl
    rw [World.setCell_setCell, hmap] at h
    exact h
  have hi0 : ∀ {S : Type} (_ : Flt S) (x : List S), indepsInner (Inner.construct c) x = ⟨c, List.range x.length, [], [], x, false⟩ := by
    intro S K x
    simp only [indepsInner_eq, Inner.construct, List.nil_append, List.length_nil, List.range_eq_range']
  have hl0 : RelI Q X (indepsInner (Inner.construct c) x) (indepsInner (Inner.construct c) x') := by
    rw [hi0 I, hi0 J, hx.length_eq]
    exact ⟨rfl, rfl, rfl, rfl, rfl, hx, fun op h => by cases h⟩
  have henv : List.Forall₂ (RelA Q) (indepVars c 0 (x.map (@AFloat.ofScalar S I)))
      (indepVars c 0 (x'.map (@AFloat.ofScalar T J))) := by
    refine forall₂_getElem (by simp [indepVars_length, hx.length_eq]) ?_
    intro k h1 h2
    rw [indepVars_getElem h1, indepVars_getElem h2]
    simp only [List.getElem_map]
    exact ⟨rfl, (List.forall₂_iff_get.mp hx).2 _ _ _, h0⟩
  have hdual : ∀ {S : Type} (K : Flt S) (x : List S), (indepVars c 0 (x.map (@AFloat.ofScalar S K))).map AFloat.dual =
      x.map fun a => (a, K.zero) := by
    intro S K x
    refine List.ext_getElem (by simp [indepVars_length]) ?_
    intro k h1 h2
    rw [List.getElem_map, List.getElem_map, indepVars_getElem (by simpa using h1)]
    simp [AFloat.dual, AFloat.ofScalar, AFloat.new]
  have hin : ∀ a ∈ indepVars c 0 (x.map (@AFloat.ofScalar S I)), InCtx c a := by
    intro a ha
    obtain ⟨l, hl, rfl⟩ := indepVars_mem ha
    intro d vid h; simp only [Option.some.injEq, Prod.mk.injEq] at h; exact h.1.symm
  have hsl : ∀ a ∈ indepVars c 0 (x.map (@AFloat.ofScalar S I)), InSlot (indepsInner (Inner.construct c) x) a := by
    intro a ha
    obtain ⟨l, hl, rfl⟩ := indepVars_mem ha
    intro d vid h
    simp only [Option.some.injEq, Prod.mk.injEq] at h
    rw [hi0 I, ← h.2, Nat.zero_add]
    rw [List.length_map] at hl
    simp [hl, AFloat.ofScalar, AFloat.new]
  obtain ⟨r, r', j, j', h1, h2, h3, h4, h5, h6, h7, -⟩ := runProgs_rel h0 f.progs (ps' := g.progs)
    (w := (z w).setCell c (some ⟨1, indepsInner (Inner.construct c) x⟩))
    (w' := (z w').setCell c (some ⟨1, indepsInner (Inner.construct c) x'⟩)) (n := 1)
    (World.setCell_same _ _ _) (World.setCell_same _ _ _) (Nat.le_refl _) (by rw [hi0 I]) (by rw [hi0 I]) hl0 henv hin hsl
    (by rw [hdual, hdual]; exact hl)
  rw [World.setCell_setCell] at h1 h2
  rw [← @Func.eval_eq S I] at h1
  rw [← @Func.eval_eq T J] at h2
  unfold Func.tape
  rw [M.bind_ok (hnew rfl), M.bind_ok (hnew hww)]
  simp only [AContext.inScope]
  rw [M.bind_ok (hind _ I x), M.bind_ok (hind _ J x')]
  cases h4 with
  | error e => rw [M.bind_error h1, M.bind_error h2]; exact .error e
  | @ok y y' hy =>
    rw [M.bind_ok h1, M.bind_ok h2]
    obtain ⟨l, l', g1, g2, g3, g4⟩ := setDepSlice_rel h0 (n := 1) (i := j) (i' := j')
      (w := (z w).setCell c (some ⟨1, j⟩)) (w' := (z w').setCell c (some ⟨1, j'⟩)) (c := c) hy
      (World.setCell_same _ _ _) (World.setCell_same _ _ _) h5 h6 h3 (h7 y rfl)
    rw [World.setCell_setCell] at g1 g2
    rw [M.bind_ok g1, M.bind_ok g2,
      tape_live (n := 1) (i := l) (World.setCell_same _ _ _) g4,
      tape_live (n := 1) (i := l') (World.setCell_same _ _ _) (g3.poisoned.trans g4)]
    exact .ok ⟨⟨g3.indeps, g3.deps, g3.ops, g3.vals⟩, g3.facts⟩

end Adv
