import Verif.Proof.Record
import Mathlib.Data.List.Forall2

/-!
# Running user code

`from_op` and user programs in a world, reduced to pure evaluation and pure recording.
-/

set_option linter.unusedSectionVars false

namespace Adv
open scoped Adv

variable {S : Type} [Flt S]

namespace World
omit [Flt S] in
@[simp] theorem setCell_same (w : World S) (c : Nat) (x : Option (Cell S)) :
    (w.setCell c x).cells c = x := by simp [setCell]
omit [Flt S] in
theorem setCell_ne (w : World S) {c d : Nat} (x : Option (Cell S)) (h : d ≠ c) :
    (w.setCell c x).cells d = w.cells d := by simp [setCell, h]
omit [Flt S] in
@[simp] theorem setCell_setCell (w : World S) (c : Nat) (x y : Option (Cell S)) :
    (w.setCell c x).setCell c y = w.setCell c y := by
  simp only [setCell, mk.injEq, true_and]
  funext d; split <;> rfl
omit [Flt S] in
theorem setCell_self {w : World S} {c : Nat} {x : Option (Cell S)} (h : w.cells c = x) :
    w.setCell c x = w := by
  rcases w with ⟨n, cells⟩
  simp only [setCell, mk.injEq, true_and]
  funext d; split
  · rename_i hd; subst hd; exact h.symm
  · rfl
omit [Flt S] in
@[simp] theorem setCell_nextId (w : World S) (c : Nat) (x : Option (Cell S)) :
    (w.setCell c x).nextId = w.nextId := rfl
end World

theorem zov_ok {o : OpCode} {a : S} {b : Option (AFloat S)} (h : arityOk o b = true) :
    zeroOrderValue o a (b.map AFloat.v) = .ok (zfun o a ((b.map AFloat.v).getD a)) := by
  cases b with
  | none => exact zov_unary h _ _ _
  | some b => exact zov_binary h _ _

theorem fov_ok {o : OpCode} {a da : S} {b : Option (AFloat S)} (h : arityOk o b = true) :
    firstOrderValue o a (b.map AFloat.v) da (b.map AFloat.dv) =
      .ok (ffun o a ((b.map AFloat.v).getD a) da ((b.map AFloat.dv).getD da)) := by
  cases b with
  | none => exact fov_unary h _ _ _ _ _ _
  | some b => exact fov_binary h _ _ _ _

theorem getD_v {a : AFloat S} {b : Option (AFloat S)} : (b.map AFloat.v).getD a.v = (b.getD a).v := by
  cases b <;> rfl
theorem getD_dv {a : AFloat S} {b : Option (AFloat S)} : (b.map AFloat.dv).getD a.dv = (b.getD a).dv := by
  cases b <;> rfl

/-- Value and derivative of a result. -/
def opVal (o : OpCode) (a : AFloat S) (b : Option (AFloat S)) : S := zfun o a.v (b.getD a).v
@[inherit_doc opVal]
def opDval (o : OpCode) (a : AFloat S) (b : Option (AFloat S)) : S :=
  ffun o a.v (b.getD a).v a.dv (b.getD a).dv

/-- Operands without context: pure computation. -/
theorem fromOp_free {o : OpCode} {a : AFloat S} {b : Option (AFloat S)} (w : World S)
    (hok : arityOk o b = true) (ha : a.ctx = none) (hb : ∀ b', b = some b' → b'.ctx = none) :
    AFloat.fromOp o a b w = (.ok ⟨opVal o a b, opDval o a b, none⟩, w) := by
  have hcid : AFloat.opCid a b = .ok none := by
    cases b with
    | none => simp [AFloat.opCid, ha]
    | some b => simp [AFloat.opCid, ha, hb b rfl]
  unfold AFloat.fromOp
  rw [zov_ok hok, fov_ok hok, hcid, getD_v, getD_dv]
  rfl

/-- Both operands belong to context `c` or to none. -/
def InCtx (c : Nat) (a : AFloat S) : Prop := ∀ c' vid, a.ctx = some (c', vid) → c' = c

theorem opCid_some {c : Nat} {a : AFloat S} {b : Option (AFloat S)} (ha : InCtx c a)
    (hb : ∀ b', b = some b' → InCtx c b')
    (hs : a.ctx.isSome ∨ ∃ b', b = some b' ∧ b'.ctx.isSome) :
    AFloat.opCid a b = .ok (some c) := by
  unfold AFloat.opCid
  rcases hctx : a.ctx with _ | ⟨c1, v1⟩
  · rcases hs with h | ⟨b', rfl, h⟩
    · simp [hctx] at h
    · obtain ⟨⟨c2, v2⟩, h2⟩ := Option.isSome_iff_exists.mp h
      have := hb b' rfl c2 v2 h2; subst this
      simp [h2]
  · have := ha c1 v1 hctx; subst this
    rcases b with _ | b'
    · simp
    · rcases hctx2 : b'.ctx with _ | ⟨c2, v2⟩
      · simp [hctx2]
      · have := hb b' rfl c2 v2 hctx2; subst this
        simp [hctx2]

/-- The context is gone: pure computation, result without context. -/
theorem fromOp_dead {o : OpCode} {a : AFloat S} {b : Option (AFloat S)} {w : World S} {c : Nat}
    (hok : arityOk o b = true) (ha : InCtx c a) (hb : ∀ b', b = some b' → InCtx c b')
    (hs : a.ctx.isSome ∨ ∃ b', b = some b' ∧ b'.ctx.isSome) (hd : w.cells c = none) :
    AFloat.fromOp o a b w = (.ok ⟨opVal o a b, opDval o a b, none⟩, w) := by
  unfold AFloat.fromOp
  rw [zov_ok hok, fov_ok hok, opCid_some ha hb hs, getD_v, getD_dv]
  simp only [M.bind_apply, M.lift_apply, AContext.fromCid, hd]
  rfl

theorem withLock_ok {α : Type} {w : World S} {c n : Nat} {i i' : Inner S} {f : Inner S → Res α × Inner S}
    {x : α} (hc : w.cells c = some ⟨n, i⟩) (hp : i.poisoned = false) (hf : f i = (.ok x, i')) :
    AContext.withLock ⟨c⟩ f w = (.ok x, w.setCell c (some ⟨n, i'⟩)) := by
  simp only [AContext.withLock, hc, hp, hf]; rfl

theorem ensureVid_live {w : World S} {c n : Nat} {i : Inner S} (a : AFloat S)
    (hc : w.cells c = some ⟨n, i⟩) (hp : i.poisoned = false) :
    AFloat.ensureVid ⟨c⟩ a w = (.ok (ensureI i a).1, w.setCell c (some ⟨n, (ensureI i a).2⟩)) := by
  unfold AFloat.ensureVid ensureI
  rcases a.ctx with _ | ⟨c', vid⟩
  · exact withLock_ok hc hp rfl
  · simp only [M.pure_apply]; rw [World.setCell_self hc]

theorem ensureI_poisoned {i : Inner S} {a : AFloat S} : (ensureI i a).2.poisoned = i.poisoned := by
  unfold ensureI; rcases a.ctx with _ | ⟨c', vid⟩ <;> rfl

theorem ensureVidOpt_live {w : World S} {c n : Nat} {i : Inner S} (b : Option (AFloat S))
    (hc : w.cells c = some ⟨n, i⟩) (hp : i.poisoned = false) :
    AFloat.ensureVidOpt ⟨c⟩ b w = (.ok (ensureOptI i b).1, w.setCell c (some ⟨n, (ensureOptI i b).2⟩)) := by
  cases b with
  | none => simp only [AFloat.ensureVidOpt, ensureOptI, M.pure_apply]; rw [World.setCell_self hc]
  | some b => simp only [AFloat.ensureVidOpt, ensureOptI]; rw [M.bind_ok (ensureVid_live b hc hp)]; rfl

theorem ensureOptI_poisoned {i : Inner S} {b : Option (AFloat S)} :
    (ensureOptI i b).2.poisoned = i.poisoned := by
  cases b with
  | none => rfl
  | some b => exact ensureI_poisoned

/-- The context is alive: compute and record. -/
theorem fromOp_live {o : OpCode} {a : AFloat S} {b : Option (AFloat S)} {w : World S} {c n : Nat}
    {i : Inner S} (hok : arityOk o b = true) (ha : InCtx c a) (hb : ∀ b', b = some b' → InCtx c b')
    (hs : a.ctx.isSome ∨ ∃ b', b = some b' ∧ b'.ctx.isSome)
    (hc : w.cells c = some ⟨n, i⟩) (hn : 1 ≤ n) (hp : i.poisoned = false) :
    AFloat.fromOp o a b w =
      (.ok ⟨opVal o a b, opDval o a b, some (c, (recOp i o (opVal o a b) a b).1)⟩,
        w.setCell c (some ⟨n, (recOp i o (opVal o a b) a b).2⟩)) := by
  unfold AFloat.fromOp
  rw [zov_ok hok, fov_ok hok, opCid_some ha hb hs, getD_v, getD_dv]
  simp only [M.bind_apply, M.lift_apply, AContext.fromCid, hc]
  unfold AContext.inScope
  have h1 := ensureVid_live (w := w.setCell c (some ⟨n + 1, i⟩)) (n := n + 1) (i := i) a
    (World.setCell_same _ _ _) hp
  have h2 := ensureVidOpt_live (w := w.setCell c (some ⟨n + 1, (ensureI i a).2⟩)) (n := n + 1)
    (i := (ensureI i a).2) b (World.setCell_same _ _ _)
    (by rw [ensureI_poisoned]; exact hp)
  rw [World.setCell_setCell] at h1 h2
  rw [M.bind_ok h1, M.bind_ok h2]
  have h3 : AContext.record (⟨c⟩ : AContext) o (opVal o a b) (some (ensureI i a).1)
      (ensureOptI (ensureI i a).2 b).1
      (w.setCell c (some ⟨n + 1, (ensureOptI (ensureI i a).2 b).2⟩)) =
      (.ok (recOp i o (opVal o a b) a b).1,
        w.setCell c (some ⟨n + 1, (recOp i o (opVal o a b) a b).2⟩)) := by
    have := withLock_ok (w := w.setCell c (some ⟨n + 1, (ensureOptI (ensureI i a).2 b).2⟩)) (c := c)
      (n := n + 1) (i := (ensureOptI (ensureI i a).2 b).2)
      (f := fun k => (.ok (k.record o (opVal o a b) (some (ensureI i a).1)
        (ensureOptI (ensureI i a).2 b).1).1, (k.record o (opVal o a b) (some (ensureI i a).1)
        (ensureOptI (ensureI i a).2 b).1).2)) (World.setCell_same _ _ _)
      (by rw [ensureOptI_poisoned, ensureI_poisoned]; exact hp) rfl
    rw [World.setCell_setCell] at this
    exact this
  change (match ((AContext.record (⟨c⟩ : AContext) o (opVal o a b) (some (ensureI i a).1)
      (ensureOptI (ensureI i a).2 b).1 >>= fun vid => pure _) : M (World S) (AFloat S)) _ with
    | (r, w') => (r, (AContext.drop ⟨c⟩ w').2)) = _
  rw [M.bind_ok h3]
  simp only [M.pure_apply, AContext.drop, World.setCell_same, opVal, opDval]
  rw [if_neg (by omega)]
  simp

/-! ## Resolving operands -/

/-- Two computations panic alike or return related results. -/
inductive ResRel {α β : Type} (R : α → β → Prop) : Res α → Res β → Prop
  | ok {a : α} {b : β} (h : R a b) : ResRel R (.ok a) (.ok b)
  | error (e : Err) : ResRel R (.error e) (.error e)

theorem ResRel.ok_left {α β : Type} {R : α → β → Prop} {a : α} {y : Res β} (h : ResRel R (.ok a) y) :
    ∃ b, y = .ok b ∧ R a b := by cases h with | ok h => exact ⟨_, rfl, h⟩
theorem ResRel.ok_right {α β : Type} {R : α → β → Prop} {b : β} {x : Res α} (h : ResRel R x (.ok b)) :
    ∃ a, x = .ok a ∧ R a b := by cases h with | ok h => exact ⟨_, rfl, h⟩
theorem ResRel.error_left {α β : Type} {R : α → β → Prop} {e : Err} {y : Res β}
    (h : ResRel R (.error e) y) : y = .error e := by cases h; rfl
theorem ResRel.error_right {α β : Type} {R : α → β → Prop} {e : Err} {x : Res α}
    (h : ResRel R x (.error e)) : x = .error e := by cases h; rfl

theorem mapM_forall₂ {α β γ : Type} {R : β → γ → Prop} {f : α → Res β} {g : α → Res γ} (l : List α)
    (h : ∀ a ∈ l, ResRel R (f a) (g a)) : ResRel (List.Forall₂ R) (l.mapM f) (l.mapM g) := by
  induction l with
  | nil => exact .ok .nil
  | cons a l ih =>
    have h1 := h a (by simp)
    have h2 := ih (fun b hb => h b (by simp [hb]))
    rw [List.mapM_cons, List.mapM_cons]
    generalize f a = x at h1
    generalize g a = y at h1
    generalize l.mapM f = xs at h2
    generalize l.mapM g = ys at h2
    cases h1 with
    | error e => exact .error e
    | ok h1 =>
      cases h2 with
      | error e => exact .error e
      | ok h2 => exact .ok (.cons h1 h2)

theorem mapM_mem {α β : Type} {f : α → Res β} {l : List α} {bs : List β} (h : l.mapM f = .ok bs) :
    ∀ b ∈ bs, ∃ a ∈ l, f a = .ok b := by
  induction l generalizing bs with
  | nil =>
    have : bs = [] := by injection h with h; exact h.symm
    subst this; simp
  | cons a l ih =>
    rw [List.mapM_cons] at h
    rcases hf : f a with e | b
    · rw [hf] at h; cases h
    rw [hf, bind_ok_eq] at h
    rcases hm : l.mapM f with e | cs
    · rw [hm] at h; cases h
    rw [hm, bind_ok_eq] at h
    have : bs = b :: cs := by injection h with h; exact h.symm
    subst this
    intro x hx
    rcases List.mem_cons.mp hx with rfl | hx
    · exact ⟨a, by simp, hf⟩
    · obtain ⟨y, hy, hy'⟩ := ih hm x hx
      exact ⟨y, by simp [hy], hy'⟩

theorem getElem?_forall₂ {α β : Type} {R : α → β → Prop} {l : List α} {m : List β}
    (h : List.Forall₂ R l m) (k : Nat) :
    match l[k]? with
    | some a => ∃ b, m[k]? = some b ∧ R a b
    | none => m[k]? = none := by
  induction h generalizing k with
  | nil => simp
  | cons hR _ ih =>
    cases k with
    | zero => simpa using hR
    | succ k => simpa using ih k

variable {A : Type}

theorem Mt.lit (sh : Shadow S A) (I : Nat → A) (v : S) : Mt sh I (AFloat.ofScalar v) (v, sh.cst v) :=
  ⟨rfl, by simp [AFloat.ofScalar, AFloat.new], fun _ => rfl⟩

theorem Arg.get_mt {sh : Shadow S A} {I : Nat → A} {env : List (AFloat S)} {ss : List (S × A)}
    (h : List.Forall₂ (Mt sh I) env ss) (a : Arg S) :
    ResRel (Mt sh I) (a.get env) (a.getS sh ss) := by
  cases a with
  | var k =>
    have := getElem?_forall₂ h k
    simp only [Arg.get, Arg.getS]
    rcases hk : env[k]? with _ | x
    · rw [hk] at this; simp only at this; rw [this]; exact .error _
    · rw [hk] at this
      obtain ⟨s, h1, h2⟩ := this
      rw [h1]; exact .ok h2
  | lit v => exact .ok (Mt.lit sh I v)

/-- Any property of variables that constants have is inherited by resolved operands. -/
theorem Arg.get_prop {P : AFloat S → Prop} {env : List (AFloat S)} (henv : ∀ a ∈ env, P a)
    (hlit : ∀ v, P (AFloat.ofScalar v)) {a : Arg S} {x : AFloat S} (h : a.get env = .ok x) : P x := by
  cases a with
  | var k =>
    simp only [Arg.get] at h
    rcases hk : env[k]? with _ | y
    · rw [hk] at h; cases h
    · rw [hk] at h
      have : y = x := by simpa using h
      subst this
      exact henv y (List.mem_of_getElem? hk)
  | lit v =>
    have : AFloat.ofScalar v = x := by simpa [Arg.get] using h
    subst this; exact hlit v

theorem Arg.getOpt_prop {P : AFloat S → Prop} {env : List (AFloat S)} (henv : ∀ a ∈ env, P a)
    (hlit : ∀ v, P (AFloat.ofScalar v)) {b : Option (Arg S)} {x : Option (AFloat S)}
    (h : Arg.getOpt env b = .ok x) : ∀ b', x = some b' → P b' := by
  intro b' hb
  subst hb
  cases b with
  | none => simp [Arg.getOpt] at h
  | some b =>
    simp only [Arg.getOpt] at h
    rcases hg : b.get env with e | y
    · rw [hg] at h; cases h
    · rw [hg] at h
      have : y = b' := by simpa [Except.map] using h
      subst this
      exact Arg.get_prop henv hlit hg

theorem Arg.getOpt_mt {sh : Shadow S A} {I : Nat → A} {env : List (AFloat S)} {ss : List (S × A)}
    (h : List.Forall₂ (Mt sh I) env ss) (b : Option (Arg S)) :
    ResRel (Option.Rel (Mt sh I)) (Arg.getOpt env b) (Arg.getSOpt sh ss b) := by
  cases b with
  | none => exact .ok .none
  | some b =>
    have := Arg.get_mt h b
    simp only [Arg.getOpt, Arg.getSOpt]
    generalize b.get env = x at this
    generalize b.getS sh ss = y at this
    cases this with
    | error e => exact .error e
    | ok h => exact .ok (.some h)

/-- Matching of optional operands. -/
theorem arityOk_match {x : Option (AFloat S)} {y : Option (S × A)} {o : OpCode}
    (h : x.isSome = y.isSome) : arityOk o x = arityOk o y := by
  cases x <;> cases y <;> simp_all [arityOk]

/-! ## Programs without context: pure evaluation -/

/-- Forward-mode shadow: derivatives. -/
def dualSh : Shadow S S where
  cst := fun _ => Flt.zero
  op := fun o a b da db => ffun o a b da db

/-- Value and derivative of a variable. -/
def AFloat.dual (a : AFloat S) : S × S := (a.v, a.dv)

theorem Arg.get_dual (env : List (AFloat S)) (a : Arg S) :
    a.getS dualSh (env.map AFloat.dual) = (a.get env).map AFloat.dual := by
  cases a with
  | var k =>
    simp only [Arg.get, Arg.getS, List.getElem?_map]
    rcases env[k]? with _ | x <;> rfl
  | lit v => rfl

theorem Arg.getOpt_dual (env : List (AFloat S)) (b : Option (Arg S)) :
    Arg.getSOpt dualSh (env.map AFloat.dual) b = (Arg.getOpt env b).map (Option.map AFloat.dual) := by
  cases b with
  | none => rfl
  | some b =>
    simp only [Arg.getOpt, Arg.getSOpt, Arg.get_dual]
    rcases b.get env with e | x <;> rfl

theorem mapM_dual (env : List (AFloat S)) (outs : List (Arg S)) :
    outs.mapM (Arg.getS dualSh (env.map AFloat.dual)) =
      (outs.mapM (Arg.get env)).map (List.map AFloat.dual) := by
  induction outs with
  | nil => rfl
  | cons a l ih =>
    rw [List.mapM_cons, List.mapM_cons, ih, Arg.get_dual]
    rcases a.get env with e | x
    · rfl
    · rcases l.mapM (Arg.get env) with e | xs <;> rfl

/-- One step of user code: what `from_op` returns when it does not reject the operands. -/
theorem fromOp_cases {o : OpCode} {a : AFloat S} {b : Option (AFloat S)} (w : World S)
    (hok : arityOk o b = true) :
    (∃ ctx w', AFloat.fromOp o a b w = (.ok ⟨opVal o a b, opDval o a b, ctx⟩, w')) ∨
    (∃ e w', AFloat.fromOp o a b w = (.error e, w')) := by
  unfold AFloat.fromOp
  rw [zov_ok hok, fov_ok hok, getD_v, getD_dv]
  simp only [M.bind_apply, M.lift_apply]
  rcases AFloat.opCid a b with e | cid
  · exact Or.inr ⟨e, w, rfl⟩
  rcases cid with _ | cid
  · exact Or.inl ⟨none, w, rfl⟩
  simp only [M.bind_apply]
  rcases hf : AContext.fromCid cid w with ⟨e | ctx, w1⟩
  · exact Or.inr ⟨e, w1, rfl⟩
  rcases ctx with _ | ctx
  · exact Or.inl ⟨none, w1, rfl⟩
  simp only [AContext.inScope, M.bind_apply]
  rcases AFloat.ensureVid ctx a w1 with ⟨e | v1, w2⟩
  · exact Or.inr ⟨e, _, rfl⟩
  simp only
  rcases AFloat.ensureVidOpt ctx b w2 with ⟨e | v2, w3⟩
  · exact Or.inr ⟨e, _, rfl⟩
  simp only
  rcases AContext.record ctx o (zfun o a.v (b.getD a).v) (some v1) v2 w3 with ⟨e | v3, w4⟩
  · exact Or.inr ⟨e, _, rfl⟩
  · exact Or.inl ⟨_, _, rfl⟩

/-- Whatever the contexts: if an evaluation returns, its values and derivatives are those of the
context-free evaluation. -/
theorem Prog.run_ok_dual (p : Prog S) (env : List (AFloat S)) (w : World S) {y : List (AFloat S)}
    {w' : World S} (h : p.run env w = (.ok y, w')) :
    p.runS dualSh (env.map AFloat.dual) = .ok (y.map AFloat.dual) := by
  induction p generalizing env w with
  | ret outs =>
    simp only [Prog.run, M.lift_apply, Prod.mk.injEq] at h
    simp only [Prog.runS]
    rw [mapM_dual, h.1]; rfl
  | panic => simp [Prog.run] at h
  | op o a b k ih =>
    simp only [Prog.run, M.bind_apply, M.lift_apply] at h
    simp only [Prog.runS, Arg.get_dual, Arg.getOpt_dual]
    rcases ha : a.get env with e | x
    · rw [ha] at h; simp at h
    rw [ha] at h
    simp only [map_ok_eq, bind_ok_eq]
    rcases hb : Arg.getOpt env b with e | z
    · rw [hb] at h; simp at h
    rw [hb] at h
    simp only [map_ok_eq, bind_ok_eq]
    have har : arityOk o (z.map AFloat.dual) = arityOk o z := by cases z <;> rfl
    rw [har]
    by_cases hok : arityOk o z = true
    · simp only [hok, if_true, M.bind_apply] at h ⊢
      rcases fromOp_cases (a := x) w hok with ⟨ctx, w1, h1⟩ | ⟨e, w1, h1⟩
      · rw [h1] at h
        have := ih _ _ _ _ h
        simp only [List.map_append, List.map_cons, List.map_nil, AFloat.dual] at this
        rw [← this]
        simp only [opVal, opDval, List.length_map, AFloat.dual, dualSh]
        cases z <;> rfl
      · rw [h1] at h; simp at h
    · simp [hok, M.throw] at h

/-- On variables without context, evaluation is pure. -/
theorem Prog.run_free (p : Prog S) (env : List (AFloat S)) (w : World S) (henv : ∀ a ∈ env, a.ctx = none) :
    ∃ r, p.run env w = (r, w) ∧ (∀ y, r = .ok y → ∀ a ∈ y, a.ctx = none) ∧
      p.runS dualSh (env.map AFloat.dual) = r.map (List.map AFloat.dual) := by
  induction p generalizing env with
  | ret outs =>
    refine ⟨outs.mapM (Arg.get env), rfl, ?_, ?_⟩
    · intro y hy a ha
      obtain ⟨x, -, hx⟩ := mapM_mem hy a ha
      exact Arg.get_prop (P := fun a => a.ctx = none) henv (fun _ => rfl) hx
    · simp only [Prog.runS]; exact mapM_dual env outs
  | panic => exact ⟨.error .user, rfl, by simp, rfl⟩
  | op o a b k ih =>
    simp only [Prog.run, M.bind_apply, M.lift_apply, Prog.runS, Arg.get_dual, Arg.getOpt_dual]
    rcases ha : a.get env with e | x
    · exact ⟨.error e, rfl, by simp, rfl⟩
    simp only [map_ok_eq, bind_ok_eq]
    rcases hb : Arg.getOpt env b with e | z
    · exact ⟨.error e, rfl, by simp, rfl⟩
    simp only [map_ok_eq, bind_ok_eq]
    have har : arityOk o (z.map AFloat.dual) = arityOk o z := by cases z <;> rfl
    rw [har]
    by_cases hok : arityOk o z = true
    · simp only [hok, if_true, M.bind_apply]
      have hx : x.ctx = none := Arg.get_prop (P := fun a => a.ctx = none) henv (fun _ => rfl) ha
      have hz := Arg.getOpt_prop (P := fun a => a.ctx = none) henv (fun _ => rfl) hb
      rw [fromOp_free w hok hx hz]
      simp only
      obtain ⟨r, h1, h2, h3⟩ := ih env.length (opVal o x z) (env ++ [⟨opVal o x z, opDval o x z, none⟩]) (by
        intro a ha
        simp only [List.mem_append, List.mem_singleton] at ha
        rcases ha with ha | rfl
        · exact henv a ha
        · rfl)
      refine ⟨r, h1, h2, ?_⟩
      rw [← h3]
      simp only [List.map_append, List.map_cons, List.map_nil, opVal, opDval, List.length_map,
        AFloat.dual, dualSh]
      cases z <;> rfl
    · simp only [hok]
      exact ⟨.error .unbound, rfl, by simp, rfl⟩

/-! ## Recording -/

/-- What running user code in a live context achieves. -/
structure RunSpec (p : Prog S) (env : List (AFloat S)) (w : World S) (c n : Nat) (i : Inner S)
    (j : Inner S) : Prop where
  world : (p.run env w).2 = w.setCell c (some ⟨n, j⟩)
  ext : i.Ext j
  io : i.SameIO j
  good : j.Good
  rep : ∀ y, (p.run env w).1 = .ok y → ∀ a ∈ y, Rep c j a
  isSome : p.NoConstOps → p.VarOuts → (∀ a ∈ env, a.ctx.isSome = true) →
    ∀ y, (p.run env w).1 = .ok y → ∀ a ∈ y, a.ctx.isSome = true
  shadow : ∀ (A : Type) (sh : Shadow S A) (I : Nat → A) (j' : Inner S) (ss : List (S × A)),
    (sh.ConstClosed ∨ (p.NoConstOps ∧ ∀ a ∈ env, a.ctx.isSome = true)) → j.Ext j' →
    Solves sh I j'.ops (fn j'.vals) → List.Forall₂ (Mt sh I) env ss →
    ResRel (List.Forall₂ (Mt sh I)) (p.run env w).1 (p.runS sh ss)

theorem Rep.inCtx {c : Nat} {i : Inner S} {a : AFloat S} (h : Rep c i a) : InCtx c a :=
  fun c' vid hc => (h c' vid hc).1

theorem Rep.lit (c : Nat) (i : Inner S) (v : S) : Rep c i (AFloat.ofScalar v) := by
  intro c' vid h; simp [AFloat.ofScalar, AFloat.new] at h

theorem Rep.free {c : Nat} {i : Inner S} {a : AFloat S} (h : a.ctx = none) : Rep c i a := by
  intro c' vid h'; rw [h] at h'; cases h'

theorem Prog.run_live (p : Prog S) {env : List (AFloat S)} {w : World S} {c n : Nat} {i : Inner S}
    (hc : w.cells c = some ⟨n, i⟩) (hn : 1 ≤ n) (hp : i.poisoned = false) (hg : i.Good)
    (hr : ∀ a ∈ env, Rep c i a) : ∃ j, RunSpec p env w c n i j := by
  induction p generalizing env w i with
  | ret outs =>
    refine ⟨i, ?_, Inner.Ext.refl i, ⟨rfl, rfl⟩, hg, ?_, ?_, ?_⟩
    · simp only [Prog.run, M.lift_apply]; rw [World.setCell_self hc]
    · intro y hy a ha
      obtain ⟨x, -, hx⟩ := mapM_mem (f := Arg.get env) (l := outs) hy a ha
      exact Arg.get_prop hr (Rep.lit c i) hx
    · intro _ hvo hs y hy a ha
      obtain ⟨x, hx, hxa⟩ := mapM_mem (f := Arg.get env) (l := outs) hy a ha
      obtain ⟨k, rfl⟩ := hvo x hx
      simp only [Arg.get] at hxa
      rcases hk : env[k]? with _ | z
      · rw [hk] at hxa; cases hxa
      · rw [hk] at hxa
        have : z = a := by simpa using hxa
        subst this; exact hs z (List.mem_of_getElem? hk)
    · intro A sh I j' ss _ _ _ hm
      simp only [Prog.run, M.lift_apply, Prog.runS]
      exact mapM_forall₂ outs (fun a _ => Arg.get_mt hm a)
  | panic =>
    refine ⟨i, ?_, Inner.Ext.refl i, ⟨rfl, rfl⟩, hg, ?_, ?_, ?_⟩
    · simp only [Prog.run, M.throw_apply]; rw [World.setCell_self hc]
    · intro y hy; simp [Prog.run] at hy
    · intro _ _ _ y hy; simp [Prog.run] at hy
    · intro A sh I j' ss _ _ _ _; exact .error _
  | op o a b k ih =>
    -- operand resolution
    rcases ha : a.get env with e | x
    · have hrun : (Prog.op o a b k).run env w = (.error e, w) := by
        simp only [Prog.run, M.bind_apply, M.lift_apply, ha]
      refine ⟨i, ?_, Inner.Ext.refl i, ⟨rfl, rfl⟩, hg, ?_, ?_, ?_⟩
      · rw [hrun, World.setCell_self hc]
      · intro y hy; rw [hrun] at hy; cases hy
      · intro _ _ _ y hy; rw [hrun] at hy; cases hy
      · intro A sh I j' ss _ _ _ hm
        rw [hrun]
        have := Arg.get_mt hm a
        rw [ha] at this
        simp only [Prog.runS, this.error_left]; exact .error _
    rcases hb : Arg.getOpt env b with e | z
    · have hrun : (Prog.op o a b k).run env w = (.error e, w) := by
        simp only [Prog.run, M.bind_apply, M.lift_apply, ha, hb]
      refine ⟨i, ?_, Inner.Ext.refl i, ⟨rfl, rfl⟩, hg, ?_, ?_, ?_⟩
      · rw [hrun, World.setCell_self hc]
      · intro y hy; rw [hrun] at hy; cases hy
      · intro _ _ _ y hy; rw [hrun] at hy; cases hy
      · intro A sh I j' ss _ _ _ hm
        rw [hrun]
        have h1 := Arg.get_mt hm a
        rw [ha] at h1
        obtain ⟨s, h1, -⟩ := h1.ok_left
        have h2 := Arg.getOpt_mt hm b
        rw [hb] at h2
        simp only [Prog.runS, h1, bind_ok_eq, h2.error_left]; exact .error _
    have hx : Rep c i x := Arg.get_prop hr (Rep.lit c i) ha
    have hz : ∀ b', z = some b' → Rep c i b' := Arg.getOpt_prop hr (Rep.lit c i) hb
    -- the matching shadow operands
    have hmt : ∀ (A : Type) (sh : Shadow S A) (I : Nat → A) (ss : List (S × A)),
        List.Forall₂ (Mt sh I) env ss → ∃ s t, a.getS sh ss = .ok s ∧ Arg.getSOpt sh ss b = .ok t ∧
          Mt sh I x s ∧ Mt sh I (z.getD x) (t.getD s) ∧ z.isSome = t.isSome := by
      intro A sh I ss hm
      have h1 := Arg.get_mt hm a
      rw [ha] at h1
      obtain ⟨s, h1, h1'⟩ := h1.ok_left
      have h2 := Arg.getOpt_mt hm b
      rw [hb] at h2
      obtain ⟨t, h2, h2'⟩ := h2.ok_left
      cases h2' with
      | none => exact ⟨s, none, h1, h2, h1', h1', rfl⟩
      | some h2' => exact ⟨s, some _, h1, h2, h1', h2', rfl⟩
    by_cases hok : arityOk o z = true
    swap
    · have hrun : (Prog.op o a b k).run env w = (.error .unbound, w) := by
        simp only [Prog.run, M.bind_apply, M.lift_apply, ha, hb]; simp [hok]
      refine ⟨i, ?_, Inner.Ext.refl i, ⟨rfl, rfl⟩, hg, ?_, ?_, ?_⟩
      · rw [hrun, World.setCell_self hc]
      · intro y hy; rw [hrun] at hy; cases hy
      · intro _ _ _ y hy; rw [hrun] at hy; cases hy
      · intro A sh I j' ss _ _ _ hm
        rw [hrun]
        obtain ⟨s, t, h1, h2, -, -, h3⟩ := hmt A sh I ss hm
        simp only [Prog.runS, h1, bind_ok_eq, h2]
        rw [if_neg (by rw [← arityOk_match h3]; exact hok)]
        exact .error _
    by_cases hs : x.ctx.isSome = true ∨ ∃ b', z = some b' ∧ b'.ctx.isSome = true
    · -- recorded operation
      have hf := fromOp_live hok hx.inCtx (fun b' hb' => (hz b' hb').inCtx) hs hc hn hp
      have hspec := recOp_spec hg hx hz hok
      have hv : opVal o x z = zfun o x.v (z.getD x).v := rfl
      rw [← hv] at hspec
      generalize hrec : recOp i o (opVal o x z) x z = r at hf hspec
      let res : AFloat S := ⟨opVal o x z, opDval o x z, some (c, r.1)⟩
      have hres : Rep c r.2 res := by
        intro c' vid hcv
        simp only [res, Option.some.injEq, Prod.mk.injEq] at hcv
        obtain ⟨rfl, rfl⟩ := hcv
        exact ⟨rfl, hspec.lt, hspec.val⟩
      obtain ⟨j, hj⟩ := ih env.length res.v (env := env ++ [res]) (w := w.setCell c (some ⟨n, r.2⟩))
        (i := r.2) (by simp) (by rw [hspec.ext.poisoned]; exact hp) hspec.good (by
          intro a ha
          simp only [List.mem_append, List.mem_singleton] at ha
          rcases ha with ha | rfl
          · exact (hr a ha).mono hspec.ext
          · exact hres)
      have hrun : (Prog.op o a b k).run env w =
          (k env.length res.v).run (env ++ [res]) (w.setCell c (some ⟨n, r.2⟩)) := by
        simp only [Prog.run, M.bind_apply, M.lift_apply, ha, hb, hok, if_true, hf, res]
      refine ⟨j, ?_, hspec.ext.trans hj.ext, hspec.io.trans hj.io, hj.good, ?_, ?_, ?_⟩
      · rw [hrun, hj.world, World.setCell_setCell]
      · intro y hy; rw [hrun] at hy; exact hj.rep y hy
      · intro hnc hvo hso y hy; rw [hrun] at hy
        refine hj.isSome (hnc.2 _ _) (hvo _ _) ?_ y hy
        intro a ha
        simp only [List.mem_append, List.mem_singleton] at ha
        rcases ha with ha | rfl
        · exact hso a ha
        · rfl
      · intro A sh I j' ss hcl he hsol hm
        rw [hrun]
        obtain ⟨s, t, h1, h2, h3, h4, h5⟩ := hmt A sh I ss hm
        have h6 := hspec.shadow A sh I j' s (t.getD s) (hj.ext.trans he) hsol h3 h4
        have h7 := hj.shadow A sh I j'
          (ss ++ [(zfun o s.1 (t.getD s).1, sh.op o s.1 (t.getD s).1 s.2 (t.getD s).2)])
          (by
            rcases hcl with hcl | ⟨hcl, hcl'⟩
            · exact Or.inl hcl
            · refine Or.inr ⟨hcl.2 _ _, ?_⟩
              intro a ha
              simp only [List.mem_append, List.mem_singleton] at ha
              rcases ha with ha | rfl
              · exact hcl' a ha
              · rfl) he hsol (by
            refine List.rel_append hm (.cons ⟨?_, ?_, ?_⟩ .nil)
            · simp only [res, opVal]; rw [h3.1, h4.1]
            · intro c' vid hcv
              simp only [res, Option.some.injEq, Prod.mk.injEq] at hcv
              obtain ⟨rfl, rfl⟩ := hcv
              exact h6
            · intro hn; simp [res] at hn)
        have hlen : ss.length = env.length := hm.length_eq.symm
        have hrunS : (Prog.op o a b k).runS sh ss = (k env.length res.v).runS sh
            (ss ++ [(zfun o s.1 (t.getD s).1, sh.op o s.1 (t.getD s).1 s.2 (t.getD s).2)]) := by
          simp only [Prog.runS, h1, bind_ok_eq, h2]
          rw [if_pos (by rw [← arityOk_match h5]; exact hok), hlen]
          simp only [res, opVal]
          rw [h3.1, h4.1]
        rw [hrunS]; exact h7
    · -- only constants: nothing is recorded
      have hxn : x.ctx = none := by
        rcases hx' : x.ctx with _ | q
        · rfl
        · exact absurd (Or.inl (by simp [hx'])) hs
      have hzn : ∀ b', z = some b' → b'.ctx = none := by
        intro b' hb'
        rcases hx' : b'.ctx with _ | q
        · rfl
        · exact absurd (Or.inr ⟨b', hb', by simp [hx']⟩) hs
      have himp : ¬ ((Prog.op o a b k).NoConstOps ∧ ∀ a ∈ env, a.ctx.isSome = true) := by
        rintro ⟨hcl, hcl'⟩
        rcases hcl.1 with ⟨k', rfl⟩ | ⟨k', rfl⟩
        · simp only [Arg.get] at ha
          rcases hk : env[k']? with _ | y
          · rw [hk] at ha; cases ha
          · rw [hk] at ha
            have : y = x := by simpa using ha
            subst this
            exact hs (Or.inl (hcl' y (List.mem_of_getElem? hk)))
        · simp only [Arg.getOpt, Arg.get] at hb
          rcases hk : env[k']? with _ | y
          · rw [hk] at hb; cases hb
          · rw [hk] at hb
            have : some y = z := by simpa [Except.map] using hb
            exact hs (Or.inr ⟨y, this.symm, hcl' y (List.mem_of_getElem? hk)⟩)
      have hf := fromOp_free w hok hxn hzn
      let res : AFloat S := ⟨opVal o x z, opDval o x z, none⟩
      obtain ⟨j, hj⟩ := ih env.length res.v (env := env ++ [res]) (w := w) (i := i) hc hp hg (by
          intro a ha
          simp only [List.mem_append, List.mem_singleton] at ha
          rcases ha with ha | rfl
          · exact hr a ha
          · exact Rep.free rfl)
      have hrun : (Prog.op o a b k).run env w = (k env.length res.v).run (env ++ [res]) w := by
        simp only [Prog.run, M.bind_apply, M.lift_apply, ha, hb, hok, if_true, hf, res]
      refine ⟨j, ?_, hj.ext, hj.io, hj.good, ?_, ?_, ?_⟩
      · rw [hrun, hj.world]
      · intro y hy; rw [hrun] at hy; exact hj.rep y hy
      · intro hnc _ hso; exact absurd ⟨hnc, hso⟩ himp
      · intro A sh I j' ss hcl he hsol hm
        rw [hrun]
        obtain ⟨s, t, h1, h2, h3, h4, h5⟩ := hmt A sh I ss hm
        rcases hcl with hcl | ⟨hcl, hcl'⟩
        · have hzgn : (z.getD x).ctx = none := by
            cases z with
            | none => exact hxn
            | some z => exact hzn z rfl
          have hcomp : o.computes = true := by
            cases z with
            | none => exact OpCode.isUnary_computes hok
            | some z => exact OpCode.isBinary_computes hok
          have h7 := hj.shadow A sh I j'
            (ss ++ [(zfun o s.1 (t.getD s).1, sh.op o s.1 (t.getD s).1 s.2 (t.getD s).2)])
            (Or.inl hcl) he hsol (by
              refine List.rel_append hm (.cons ⟨?_, ?_, ?_⟩ .nil)
              · simp only [res, opVal]; rw [h3.1, h4.1]
              · intro c' vid hcv; simp [res] at hcv
              · intro _
                simp only [res, opVal]
                rw [h3.2.2 hxn, h4.2.2 hzgn, h3.1, h4.1, hcl _ _ _ hcomp])
          have hlen : ss.length = env.length := hm.length_eq.symm
          have hrunS : (Prog.op o a b k).runS sh ss = (k env.length res.v).runS sh
              (ss ++ [(zfun o s.1 (t.getD s).1, sh.op o s.1 (t.getD s).1 s.2 (t.getD s).2)]) := by
            simp only [Prog.runS, h1, bind_ok_eq, h2]
            rw [if_pos (by rw [← arityOk_match h5]; exact hok), hlen]
            simp only [res, opVal]
            rw [h3.1, h4.1]
          rw [hrunS]; exact h7
        · -- impossible: some operand is a variable
          exact absurd ⟨hcl, hcl'⟩ himp

end Adv
