import Verif.Proof.Sweeps

/-!
# Two recordings of the same function

The recordings of a straight-line function at two points differ only in the values of independents and computed
results; a tape is determined by its structure, its constants and its inputs.
-/

set_option linter.unusedSectionVars false

namespace Adv
open scoped Adv

variable {S : Type} [Flt S]

/-- The same recording up to values of independents and computed results. -/
structure Inner.Like (i i' : Inner S) : Prop where
  cid : i'.cid = i.cid
  poisoned : i'.poisoned = i.poisoned
  indeps : i'.indeps = i.indeps
  deps : i'.deps = i.deps
  ops : i'.ops = i.ops
  len : i'.vals.length = i.vals.length
  cst : ∀ op ∈ i.ops, op.opcode = .Const → op.vid < i.vals.length ∧ fn i'.vals op.vid = fn i.vals op.vid

/-- The same variable up to its value, the same constant. -/
def AFloat.Like (a a' : AFloat S) : Prop := a'.ctx = a.ctx ∧ (a.ctx = none → a'.v = a.v)

theorem Inner.Like.record {i i' : Inner S} (h : i.Like i') (o : OpCode) {v v' : S} (x y : Option Nat)
    (hv : o = .Const → v' = v) :
    (i'.record o v' x y).1 = (i.record o v x y).1 ∧ (i.record o v x y).2.Like (i'.record o v' x y).2 := by
  refine ⟨by simp [Inner.record, h.len], h.cid, h.poisoned, h.indeps, h.deps, by simp [Inner.record, h.len, h.ops],
    by simp [Inner.record, h.len], ?_⟩
  intro op hop hc
  simp only [Inner.record, List.mem_append, List.mem_singleton] at hop ⊢
  rcases hop with hop | rfl
  · obtain ⟨h1, h2⟩ := h.cst op hop hc
    refine ⟨by simp; omega, ?_⟩
    rw [fn_append_left h1, fn_append_left (by rw [h.len]; exact h1), h2]
  · refine ⟨by simp, ?_⟩
    rw [fn_append_len]
    simp only
    rw [← h.len, fn_append_len, hv hc]

theorem ensureI_like {i i' : Inner S} (h : i.Like i') {a a' : AFloat S} (ha : a.Like a') :
    (ensureI i' a').1 = (ensureI i a).1 ∧ (ensureI i a).2.Like (ensureI i' a').2 := by
  unfold ensureI
  rw [ha.1]
  rcases hc : a.ctx with _ | ⟨c, vid⟩
  · exact h.record _ _ _ fun _ => ha.2 hc
  · exact ⟨rfl, h⟩

theorem ensureOptI_like {i i' : Inner S} (h : i.Like i') {b b' : Option (AFloat S)}
    (hb : Option.Rel AFloat.Like b b') :
    (ensureOptI i' b').1 = (ensureOptI i b).1 ∧ (ensureOptI i b).2.Like (ensureOptI i' b').2 := by
  cases hb with
  | none => exact ⟨rfl, h⟩
  | some hb =>
    obtain ⟨h1, h2⟩ := ensureI_like h hb
    exact ⟨by simp [ensureOptI, h1], h2⟩

theorem recOp_like {i i' : Inner S} (h : i.Like i') {o : OpCode} (ho : o ≠ .Const) {v v' : S} {a a' : AFloat S}
    (ha : a.Like a') {b b' : Option (AFloat S)} (hb : Option.Rel AFloat.Like b b') :
    (recOp i' o v' a' b').1 = (recOp i o v a b).1 ∧ (recOp i o v a b).2.Like (recOp i' o v' a' b').2 := by
  obtain ⟨h1, h2⟩ := ensureI_like h ha
  obtain ⟨h3, h4⟩ := ensureOptI_like h2 hb
  unfold recOp
  simp only [h1, h3]
  exact h4.record _ _ _ fun e => absurd e ho

theorem Arg.get_like {env env' : List (AFloat S)} (h : List.Forall₂ AFloat.Like env env') (a : Arg S) :
    ResRel AFloat.Like (a.get env) (a.get env') := by
  cases a with
  | var k =>
    have := getElem?_forall₂ h k
    simp only [Arg.get]
    rcases hk : env[k]? with _ | x
    · rw [hk] at this; simp only at this; rw [this]; exact .error _
    · rw [hk] at this
      obtain ⟨s, h1, h2⟩ := this
      rw [h1]; exact .ok h2
  | lit v => exact .ok ⟨rfl, fun _ => rfl⟩

theorem Arg.getOpt_like {env env' : List (AFloat S)} (h : List.Forall₂ AFloat.Like env env') (b : Option (Arg S)) :
    ResRel (Option.Rel AFloat.Like) (Arg.getOpt env b) (Arg.getOpt env' b) := by
  cases b with
  | none => exact .ok .none
  | some b =>
    have := Arg.get_like h b
    simp only [Arg.getOpt]
    generalize b.get env = u at this
    generalize b.get env' = v at this
    cases this with
    | error e => exact .error e
    | ok h => exact .ok (.some h)

theorem arityOk_not_const {o : OpCode} {b : Option (AFloat S)} (h : arityOk o b = true) : o ≠ .Const := by
  rintro rfl; cases b <;> simp [arityOk, OpCode.isBinary, OpCode.isUnary] at h

/-- Two runs in lockstep. -/
def Lock (c n : Nat) (w w' : World S) (m m' : World S → Res (List (AFloat S)) × World S) : Prop :=
  ∃ r r' j j', m w = (r, w.setCell c (some ⟨n, j⟩)) ∧ m' w' = (r', w'.setCell c (some ⟨n, j'⟩)) ∧ j.Like j' ∧
    ResRel (List.Forall₂ AFloat.Like) r r' ∧ j.poisoned = false ∧ j.cid = c ∧ (∀ y, r = .ok y → ∀ a ∈ y, InCtx c a)

theorem InCtx.like {c : Nat} {a a' : AFloat S} (h : InCtx c a) (hl : a.Like a') : InCtx c a' := by
  intro d vid e; rw [hl.1] at e; exact h d vid e

theorem Prog.run_like (p : Prog S) (hsl : p.StraightLine) {env env' : List (AFloat S)} {w w' : World S} {c n : Nat}
    {i i' : Inner S} (hc : w.cells c = some ⟨n, i⟩) (hc' : w'.cells c = some ⟨n, i'⟩) (hn : 1 ≤ n)
    (hp : i.poisoned = false) (hcid : i.cid = c) (hi : i.Like i') (henv : List.Forall₂ AFloat.Like env env')
    (hr : ∀ a ∈ env, InCtx c a) : Lock c n w w' (p.run env) (p.run env') := by
  have hlit : ∀ v : S, InCtx c (AFloat.ofScalar v) := by
    intro v c' vid h; simp [AFloat.ofScalar, AFloat.new] at h
  induction p generalizing env env' w w' i i' with
  | ret outs =>
    refine ⟨outs.mapM (Arg.get env), outs.mapM (Arg.get env'), i, i', ?_, ?_, hi,
      mapM_forall₂ outs (fun a _ => Arg.get_like henv a), hp, hcid, ?_⟩
    · simp only [Prog.run, M.lift_apply]; rw [World.setCell_self hc]
    · simp only [Prog.run, M.lift_apply]; rw [World.setCell_self hc']
    · intro y hy a ha
      obtain ⟨x, -, hx⟩ := mapM_mem hy a ha
      exact Arg.get_prop hr hlit hx
  | panic =>
    refine ⟨.error .user, .error .user, i, i', ?_, ?_, hi, .error _, hp, hcid, by simp⟩
    · simp only [Prog.run, M.throw_apply]; rw [World.setCell_self hc]
    · simp only [Prog.run, M.throw_apply]; rw [World.setCell_self hc']
  | op o a b k ih =>
    have herr : ∀ e : Err, ∀ m m' : World S → Res (List (AFloat S)) × World S,
        m w = (.error e, w) → m' w' = (.error e, w') → Lock c n w w' m m' := by
      intro e m m' h1 h2
      refine ⟨.error e, .error e, i, i', ?_, ?_, hi, .error _, hp, hcid, by simp⟩
      · rw [h1, World.setCell_self hc]
      · rw [h2, World.setCell_self hc']
    have h1 := Arg.get_like henv a
    rcases ha : a.get env with e | x
    · rw [ha] at h1
      apply herr e
      · simp only [Prog.run, M.bind_apply, M.lift_apply, ha]
      · simp only [Prog.run, M.bind_apply, M.lift_apply, h1.error_left]
    rw [ha] at h1
    obtain ⟨x', ha', hx'⟩ := h1.ok_left
    have h2 := Arg.getOpt_like henv b
    rcases hb : Arg.getOpt env b with e | y
    · rw [hb] at h2
      apply herr e
      · simp only [Prog.run, M.bind_apply, M.lift_apply, ha, hb]
      · simp only [Prog.run, M.bind_apply, M.lift_apply, ha', h2.error_left]
    rw [hb] at h2
    obtain ⟨y', hb', hy'⟩ := h2.ok_left
    have hok' : arityOk o y' = arityOk o y := by cases hy' <;> rfl
    by_cases hok : arityOk o y = true
    swap
    · apply herr .unbound
      · simp only [Prog.run, M.bind_apply, M.lift_apply, ha, hb, hok]; rfl
      · simp only [Prog.run, M.bind_apply, M.lift_apply, ha', hb', hok', hok]; rfl
    have hx : InCtx c x := Arg.get_prop hr hlit ha
    have hy : ∀ b', y = some b' → InCtx c b' := Arg.getOpt_prop hr hlit hb
    have hyy : ∀ b', y' = some b' → InCtx c b' := by
      rintro b' rfl
      cases hy' with
      | some h => exact (hy _ rfl).like h
    have hsx : ∀ {a a' : AFloat S}, a.Like a' → a'.ctx.isSome = a.ctx.isSome := by
      intro a a' h; rw [h.1]
    have hstep : ∃ r r' j j', AFloat.fromOp o x y w = (.ok r, w.setCell c (some ⟨n, j⟩)) ∧
        AFloat.fromOp o x' y' w' = (.ok r', w'.setCell c (some ⟨n, j'⟩)) ∧ r.Like r' ∧ j.Like j' ∧
        j.poisoned = false ∧ j.cid = c ∧ InCtx c r := by
      by_cases hs : x.ctx.isSome ∨ ∃ b', y = some b' ∧ b'.ctx.isSome
      · have hs' : x'.ctx.isSome ∨ ∃ b', y' = some b' ∧ b'.ctx.isSome := by
          rcases hs with h | ⟨b', rfl, h⟩
          · exact Or.inl (by rw [hsx hx']; exact h)
          · cases hy' with
            | some hl => exact Or.inr ⟨_, rfl, by rw [hsx hl]; exact h⟩
        obtain ⟨e1, e2⟩ := recOp_like hi (arityOk_not_const hok) (v := opVal o x y) (v' := opVal o x' y') hx' hy'
        refine ⟨_, _, _, _, fromOp_live hok hx hy hs hc hn hp,
          fromOp_live (hok'.trans hok) (hx.like hx') hyy hs' hc' hn (hi.poisoned.trans hp), ⟨?_, ?_⟩, e2, ?_, ?_, ?_⟩
        · simp only [e1]
        · intro h; cases h
        · rw [← hp]
          show (ensureOptI (ensureI i x).2 y).2.poisoned = _
          rw [ensureOptI_poisoned, ensureI_poisoned]
        · have : ∀ (i : Inner S) (a : AFloat S), (ensureI i a).2.cid = i.cid := by
            intro i a; unfold ensureI; rcases a.ctx with _ | ⟨_, _⟩ <;> rfl
          show (ensureOptI (ensureI i x).2 y).2.cid = c
          cases y with
          | none => simp only [ensureOptI, this, hcid]
          | some y => simp only [ensureOptI, this, hcid]
        · intro d vid h; simp only [Option.some.injEq, Prod.mk.injEq] at h; exact h.1.symm
      · have hx0 : x.ctx = none := by
          by_contra h; exact hs (Or.inl (by cases hx : x.ctx <;> simp_all))
        have hy0 : ∀ b', y = some b' → b'.ctx = none := by
          intro b' hb'
          by_contra h; exact hs (Or.inr ⟨b', hb', by cases hx : b'.ctx <;> simp_all⟩)
        have hy0' : ∀ b', y' = some b' → b'.ctx = none := by
          rintro b' rfl
          cases hy' with
          | some hl => rw [hl.1]; exact hy0 _ rfl
        refine ⟨⟨opVal o x y, opDval o x y, none⟩, ⟨opVal o x' y', opDval o x' y', none⟩, i, i', ?_, ?_,
          ⟨rfl, fun _ => ?_⟩, hi, hp, hcid, ?_⟩
        · rw [World.setCell_self hc]; exact fromOp_free w hok hx0 hy0
        · rw [World.setCell_self hc']; exact fromOp_free w' (hok'.trans hok) (hx'.1.trans hx0) hy0'
        · simp only [opVal]
          cases hy' with
          | none => simp only [Option.getD_none, hx'.2 hx0]
          | some hl => simp only [Option.getD_some, hx'.2 hx0, hl.2 (hy0 _ rfl)]
        · intro d vid h; cases h
    obtain ⟨r, r', j, j', h1, h2, h3, h4, h5, h6, h7⟩ := hstep
    obtain ⟨s, s', l, l', g1, g2, g3⟩ := ih env.length r.v (hsl.2 _ _) (env := env ++ [r]) (env' := env' ++ [r'])
      (w := w.setCell c (some ⟨n, j⟩)) (w' := w'.setCell c (some ⟨n, j'⟩)) (i := j) (i' := j')
      (World.setCell_same _ _ _) (World.setCell_same _ _ _) h5 h6 h4 (List.rel_append henv (.cons h3 .nil)) (by
        intro a ha
        rcases List.mem_append.mp ha with h | h
        · exact hr a h
        · simp only [List.mem_singleton] at h; subst h; exact h7)
    rw [World.setCell_setCell] at g1 g2
    refine ⟨s, s', l, l', ?_, ?_, g3⟩
    · simp only [Prog.run, M.bind_apply, M.lift_apply, ha, hb, hok, if_true, h1]
      exact g1
    · simp only [Prog.run, M.bind_apply, M.lift_apply, ha', hb', hok', hok, if_true, h2]
      rw [← henv.length_eq, hsl.1 env.length r'.v r.v]
      exact g2

theorem runProgs_like (ps : List (List S → Prog S))
    (hsl : ∀ p ∈ ps, (∀ xs, (p xs).StraightLine) ∧ ∀ xs xs' : List S, xs.length = xs'.length → p xs = p xs')
    {env env' : List (AFloat S)} {w w' : World S} {c n : Nat}
    {i i' : Inner S} (hc : w.cells c = some ⟨n, i⟩) (hc' : w'.cells c = some ⟨n, i'⟩) (hn : 1 ≤ n)
    (hp : i.poisoned = false) (hcid : i.cid = c) (hi : i.Like i') (henv : List.Forall₂ AFloat.Like env env')
    (hr : ∀ a ∈ env, InCtx c a) : Lock c n w w' (runProgs ps env) (runProgs ps env') := by
  induction ps generalizing env env' w w' i i' with
  | nil =>
    refine ⟨.ok env, .ok env', i, i', ?_, ?_, hi, .ok henv, hp, hcid, ?_⟩
    · simp only [runProgs, M.pure_apply]; rw [World.setCell_self hc]
    · simp only [runProgs, M.pure_apply]; rw [World.setCell_self hc']
    · rintro y ⟨⟩; exact hr
  | cons p ps ih =>
    obtain ⟨r, r', j, j', h1, h2, h3, h4, h5, h6, h7⟩ := Prog.run_like (p (env.map AFloat.v))
      ((hsl p (by simp)).1 _) hc hc' hn hp hcid hi henv hr
    rw [(hsl p (by simp)).2 (env.map AFloat.v) (env'.map AFloat.v) (by simp [henv.length_eq])] at h2
    cases h4 with
    | error e =>
      refine ⟨.error e, .error e, j, j', ?_, ?_, h3, .error _, h5, h6, by simp⟩
      · simp only [runProgs, M.bind_apply, h1]
      · simp only [runProgs, M.bind_apply, h2]
    | @ok y y' hy =>
      obtain ⟨s, s', l, l', g1, g2, g3⟩ := ih (fun q hq => hsl q (by simp [hq])) (env := y) (env' := y')
        (w := w.setCell c (some ⟨n, j⟩)) (w' := w'.setCell c (some ⟨n, j'⟩)) (i := j) (i' := j')
        (World.setCell_same _ _ _) (World.setCell_same _ _ _) h5 h6 h3 hy (h7 y rfl)
      rw [World.setCell_setCell] at g1 g2
      refine ⟨s, s', l, l', ?_, ?_, g3⟩
      · simp only [runProgs, M.bind_apply, h1]; exact g1
      · simp only [runProgs, M.bind_apply, h2]; exact g2

theorem setDep_like {c : Nat} {i i' : Inner S} (hi : i.Like i') (hcid : i.cid = c) {a a' : AFloat S} (ha : InCtx c a)
    (hl : a.Like a') :
    ∃ j j', i.setDep a.v a.ctx = .ok j ∧ i'.setDep a'.v a'.ctx = .ok j' ∧ j.Like j' ∧ j.poisoned = i.poisoned ∧
      j.cid = c := by
  have hadd : ∀ {i i' : Inner S}, i.Like i' → ∀ d : Nat,
      Inner.Like { i with deps := i.deps ++ [d] } { i' with deps := i'.deps ++ [d] } := by
    intro i i' h d
    exact ⟨h.cid, h.poisoned, h.indeps, by simp [h.deps], h.ops, h.len, h.cst⟩
  rw [hl.1]
  rcases hc : a.ctx with _ | ⟨d, vid⟩
  · obtain ⟨-, h2⟩ := hi.record .Const (v := a.v) (v' := a'.v) none none fun _ => hl.2 hc
    refine ⟨_, _, rfl, rfl, ?_, rfl, hcid⟩
    have := hadd h2 i.vals.length
    simp only [Inner.record, hi.len] at this ⊢
    exact this
  · have : d = c := ha d vid hc
    subst this
    refine ⟨{ i with deps := i.deps ++ [vid] }, { i' with deps := i'.deps ++ [vid] }, ?_, ?_, hadd hi vid, rfl, hcid⟩
    · simp [Inner.setDep, hcid]
    · simp [Inner.setDep, hi.cid, hcid]

theorem setDepSlice_like {w w' : World S} {c n : Nat} {i i' : Inner S} {as as' : List (AFloat S)}
    (hl : List.Forall₂ AFloat.Like as as')
    (hc : w.cells c = some ⟨n, i⟩) (hc' : w'.cells c = some ⟨n, i'⟩)
    (hp : i.poisoned = false) (hcid : i.cid = c) (hi : i.Like i') (hr : ∀ a ∈ as, InCtx c a) :
    ∃ j j' : Inner S, AContext.setDepSlice ⟨c⟩ as w = (.ok (), w.setCell c (some ⟨n, j⟩)) ∧
      AContext.setDepSlice ⟨c⟩ as' w' = (.ok (), w'.setCell c (some ⟨n, j'⟩)) ∧ j.Like j' ∧ j.poisoned = false := by
  induction hl generalizing w w' i i' with
  | nil =>
    refine ⟨i, i', ?_, ?_, hi, hp⟩
    · simp only [AContext.setDepSlice, M.pure_apply]; rw [World.setCell_self hc]
    · simp only [AContext.setDepSlice, M.pure_apply]; rw [World.setCell_self hc']
  | @cons a a' as as' hla _ ih =>
    obtain ⟨j, j', h1, h2, h3, h4, h5⟩ := setDep_like hi hcid (hr a (by simp)) hla
    have k1 : AContext.setDep ⟨c⟩ a w = (.ok (), w.setCell c (some ⟨n, j⟩)) := by
      apply withLock_ok hc hp; rw [h1]
    have k2 : AContext.setDep ⟨c⟩ a' w' = (.ok (), w'.setCell c (some ⟨n, j'⟩)) := by
      apply withLock_ok hc' (hi.poisoned.trans hp); rw [h2]
    obtain ⟨l, l', g1, g2, g3, g4⟩ := ih (w := w.setCell c (some ⟨n, j⟩))
      (w' := w'.setCell c (some ⟨n, j'⟩)) (i := j) (i' := j')
      (World.setCell_same _ _ _) (World.setCell_same _ _ _) (h4.trans hp) h5 h3 (fun b hb => hr b (by simp [hb]))
    rw [World.setCell_setCell] at g1 g2
    refine ⟨l, l', ?_, ?_, g3, g4⟩
    · simp only [AContext.setDepSlice]; rw [M.bind_ok k1]; exact g1
    · simp only [AContext.setDepSlice]; rw [M.bind_ok k2]; exact g2

/-- The same tape up to values of independents and computed results. -/
structure Tape.Like (t t' : Tape S) : Prop where
  indeps : t'.indeps = t.indeps
  deps : t'.deps = t.deps
  ops : t'.ops = t.ops
  len : t'.vals.length = t.vals.length
  cst : ∀ op ∈ t.ops, op.opcode = .Const → fn t'.vals op.vid = fn t.vals op.vid

/-- Recordings of a straight-line function at two points. -/
theorem Func.tape_like (f : Func S) (hf : f.StraightLine) {x x' : List S} (hlen : x'.length = x.length) {w : World S}
    (hw : w.nextId < usizeMax) : ResRel Tape.Like (f.tape x w).1 (f.tape x' w).1 := by
  let c := w.nextId
  let w0 : World S := { w with nextId := (w.nextId + 1) % 2 ^ 64 }
  have hnew : (AContext.new : M (World S) AContext) w =
      (.ok ⟨c⟩, w0.setCell c (some ⟨1, Inner.construct c⟩)) := by
    simp only [AContext.new]; rw [if_pos hw]
  have hmap : ∀ x : List S, (x.map AFloat.ofScalar).map AFloat.v = x := by
    intro x; rw [List.map_map]; simp [Function.comp_def, AFloat.ofScalar, AFloat.new]
  have hind : ∀ x : List S, AContext.setIndepAll ⟨c⟩ (x.map AFloat.ofScalar)
      (w0.setCell c (some ⟨1, Inner.construct c⟩)) = (.ok (indepVars c 0 (x.map AFloat.ofScalar)),
        w0.setCell c (some ⟨1, indepsInner (Inner.construct c) x⟩)) := by
    intro x
    have h := setIndepAll_live (w := w0.setCell c (some ⟨1, Inner.construct c⟩)) (c := c) (n := 1)
      (i := Inner.construct c) (x.map AFloat.ofScalar) (World.setCell_same _ _ _) rfl
    rw [World.setCell_setCell, hmap] at h
    exact h
  have hi0 : ∀ x : List S, indepsInner (Inner.construct c) x = ⟨c, List.range x.length, [], [], x, false⟩ := by
    intro x
    simp only [indepsInner_eq, Inner.construct, List.nil_append, List.length_nil, List.range_eq_range']
  have hl0 : (indepsInner (Inner.construct c) x).Like (indepsInner (Inner.construct c) x') := by
    rw [hi0, hi0, hlen]
    exact ⟨rfl, rfl, rfl, rfl, rfl, hlen, by simp⟩
  have henv : List.Forall₂ AFloat.Like (indepVars c 0 (x.map AFloat.ofScalar))
      (indepVars c 0 (x'.map AFloat.ofScalar)) := by
    refine forall₂_getElem (by simp [indepVars_length, hlen]) ?_
    intro k h1 h2
    rw [indepVars_getElem h1, indepVars_getElem h2]
    exact ⟨rfl, fun h => by cases h⟩
  have hin : ∀ a ∈ indepVars c 0 (x.map AFloat.ofScalar), InCtx c a := by
    intro a ha
    obtain ⟨l, hl, rfl⟩ := indepVars_mem ha
    intro d vid h; simp only [Option.some.injEq, Prod.mk.injEq] at h; exact h.1.symm
  obtain ⟨r, r', j, j', h1, h2, h3, h4, h5, h6, h7⟩ := runProgs_like f.progs hf
    (w := w0.setCell c (some ⟨1, indepsInner (Inner.construct c) x⟩))
    (w' := w0.setCell c (some ⟨1, indepsInner (Inner.construct c) x'⟩)) (n := 1)
    (World.setCell_same _ _ _) (World.setCell_same _ _ _) (Nat.le_refl _) (by rw [hi0]) (by rw [hi0]) hl0 henv hin
  rw [World.setCell_setCell, ← Func.eval_eq] at h1 h2
  unfold Func.tape
  rw [M.bind_ok hnew, M.bind_ok hnew]
  simp only [AContext.inScope]
  rw [M.bind_ok (hind x), M.bind_ok (hind x')]
  cases h4 with
  | error e => rw [M.bind_error h1, M.bind_error h2]; exact .error e
  | @ok y y' hy =>
    rw [M.bind_ok h1, M.bind_ok h2]
    obtain ⟨l, l', g1, g2, g3, g4⟩ := setDepSlice_like (n := 1) (i := j) (i' := j')
      (w := w0.setCell c (some ⟨1, j⟩)) (w' := w0.setCell c (some ⟨1, j'⟩)) (c := c) hy
      (World.setCell_same _ _ _) (World.setCell_same _ _ _) h5 h6 h3 (h7 y rfl)
    rw [World.setCell_setCell] at g1 g2
    rw [M.bind_ok g1, M.bind_ok g2,
      tape_live (n := 1) (i := l) (World.setCell_same _ _ _) g4,
      tape_live (n := 1) (i := l') (World.setCell_same _ _ _) (g3.poisoned.trans g4)]
    exact .ok ⟨g3.indeps, g3.deps, g3.ops, g3.len, fun op ho hc => (g3.cst op ho hc).2⟩

/-- A recorded tape is determined by its structure, its constants and its inputs. -/
theorem TapeOf.zeroOrder_like {f : Func S} {x0 x1 : List S} {t t1 : Tape S} (h : TapeOf f x0 t) (h1 : TapeOf f x1 t1)
    (hl : t.Like t1) : t.zeroOrder x1 = .ok t1 := by
  have hlen : x1.length = t.indeps.length := by rw [← hl.indeps, h1.indeps, List.length_range]
  obtain ⟨v', e, l, hf, hp⟩ := h.proper.zeroOrder hlen
  rw [e]
  have hv : v' = t1.vals := by
    apply fn_ext (l.trans hl.len.symm)
    intro k hk
    induction k using Nat.strongRecOn with
    | _ k ih =>
      have hk' : k < t.vals.length := by rw [← l]; exact hk
      rcases h.complete k hk' with hi | ⟨op, hop, rfl⟩
      · obtain ⟨m, hm, rfl⟩ := List.mem_iff_getElem.mp hi
        have hmx : m < x1.length := by rw [hlen]; exact hm
        have hne : ∀ op ∈ activeOps t.ops, op.vid ≠ t.indeps[m] := by
          intro op hop he; exact h.wf.vid_fresh op hop (he ▸ List.getElem_mem hm)
        rw [hf, sweepZ_other hne, scatterFn_get h.wf.indeps_nodup hm hmx]
        have : t.indeps[m] = m := by simp [h.indeps]
        rw [this, fn_prefix h1.vals hmx]
        simp [fn, hmx]
      · have hop' := (mem_activeOps.mp hop)
        have hcons1 := (Tape.consistent_iff h1.wf).mp h1.consistent op (by rw [hl.ops]; exact hop'.1)
        have hcons := (Tape.consistent_iff hp.wf).mp hp.consistent op hop'.1
        rcases (h.wf.inB op hop'.1).cases with h0 | ⟨h0, -⟩ | ⟨h0, h2, h3, h3', h4, h5⟩ | ⟨h0, h2, h3, h4', h3', h4⟩
        · exact absurd h0 hop'.2
        · rw [hl.cst op hop'.1 h0, hf, sweepZ_const h.wf.ssa _ hop'.1 h0,
            scatterFn_not_mem (h.wf.vid_fresh op hop)]
        · have hcomp : op.opcode.computes = true := by simp [OpCode.computes, h0]
          have l1 := h.wf.args_lt op hop op.a1 (by simp [Operation.args, h3])
          have l2 := h.wf.args_lt op hop op.a2 (by simp [Operation.args, h3, h3'])
          rw [hcons hcomp, hcons1 hcomp]
          show zfun _ (fn v' _) (fn v' _) = _
          rw [ih _ l1 (by omega), ih _ l2 (by omega)]
        · have hcomp : op.opcode.computes = true := by simp [OpCode.computes, h0]
          have l1 := h.wf.args_lt op hop op.a1 (by simp [Operation.args, h3])
          rw [hcons hcomp, hcons1 hcomp]
          show zfun _ (fn v' _) (fn v' _) = _
          rw [h3', ih _ l1 (by omega)]
  rw [hv]
  congr 1
  rcases t with ⟨_, _, _, _, _⟩
  rcases t1 with ⟨_, _, _, _, _⟩
  have := h.mutable
  have := h1.mutable
  have := hl.indeps
  have := hl.deps
  have := hl.ops
  simp_all

/-- A replay leaves structure and constants alone. -/
theorem Tape.Proper.zeroOrder_like {t t1 : Tape S} (h : t.Proper) {x1 : List S} (e : t.zeroOrder x1 = .ok t1) :
    t.Like t1 := by
  have hlen : x1.length = t.indeps.length := by
    by_contra hne
    simp [Tape.zeroOrder, Tape.numIndeps, assertR, hne] at e
    cases e
  obtain ⟨v', e', l, hf, -⟩ := h.zeroOrder hlen
  rw [e'] at e
  injection e with e
  subst e
  refine ⟨rfl, rfl, rfl, l, fun op hop hc => ?_⟩
  have hact : op ∈ activeOps t.ops := mem_activeOps.mpr ⟨hop, by rw [hc]; simp⟩
  show fn v' op.vid = _
  rw [hf, sweepZ_const h.wf.ssa _ hop hc, scatterFn_not_mem (h.wf.vid_fresh op hact)]

end Adv
