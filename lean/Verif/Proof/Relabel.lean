import Verif.Proof.TapeOf

/-!
# The recorded tape does not depend on the state of the process

Recording in two different worlds, under two different context ids, gives the same tape.
-/

set_option linter.unusedSectionVars false

namespace Adv
open scoped Adv

variable {S : Type} [Flt S]

/-- Rename the context of a variable. -/
def AFloat.relab (c' : Nat) (a : AFloat S) : AFloat S := { a with ctx := a.ctx.map fun p => (c', p.2) }

/-- Rename a recording. -/
def Inner.relab (c' : Nat) (i : Inner S) : Inner S := { i with cid := c' }

theorem ensureI_relab (c' : Nat) (i : Inner S) (a : AFloat S) :
    ensureI (i.relab c') (a.relab c') = ((ensureI i a).1, (ensureI i a).2.relab c') := by
  rcases a with ⟨v, dv, _ | ⟨c, vid⟩⟩ <;> rfl

theorem ensureOptI_relab (c' : Nat) (i : Inner S) (b : Option (AFloat S)) :
    ensureOptI (i.relab c') (b.map (AFloat.relab c')) = ((ensureOptI i b).1, (ensureOptI i b).2.relab c') := by
  cases b with
  | none => rfl
  | some b => simp only [Option.map_some, ensureOptI, ensureI_relab]

theorem recOp_relab (c' : Nat) (i : Inner S) (o : OpCode) (v : S) (a : AFloat S) (b : Option (AFloat S)) :
    recOp (i.relab c') o v (a.relab c') (b.map (AFloat.relab c')) =
      ((recOp i o v a b).1, (recOp i o v a b).2.relab c') := by
  simp only [recOp, ensureI_relab, ensureOptI_relab]
  rfl

theorem opVal_relab (c' : Nat) (o : OpCode) (a : AFloat S) (b : Option (AFloat S)) :
    opVal o (a.relab c') (b.map (AFloat.relab c')) = opVal o a b := by cases b <;> rfl
theorem opDval_relab (c' : Nat) (o : OpCode) (a : AFloat S) (b : Option (AFloat S)) :
    opDval o (a.relab c') (b.map (AFloat.relab c')) = opDval o a b := by cases b <;> rfl

theorem relab_inCtx (c' : Nat) (a : AFloat S) : InCtx c' (a.relab c') := by
  rcases a with ⟨v, dv, _ | ⟨c, vid⟩⟩
  · intro d vid h; simp [AFloat.relab] at h
  · intro d vid h; simp [AFloat.relab] at h; exact h.1.symm

theorem relab_isSome (c' : Nat) (a : AFloat S) : (a.relab c').ctx.isSome = a.ctx.isSome := by
  rcases a with ⟨v, dv, _ | ⟨c, vid⟩⟩ <;> rfl

theorem Arg.get_relab (c' : Nat) (env : List (AFloat S)) (a : Arg S) :
    a.get (env.map (AFloat.relab c')) = (a.get env).map (AFloat.relab c') := by
  cases a with
  | var k =>
    simp only [Arg.get, List.getElem?_map]
    rcases env[k]? with _ | x <;> rfl
  | lit v => rfl

theorem Arg.getOpt_relab (c' : Nat) (env : List (AFloat S)) (b : Option (Arg S)) :
    Arg.getOpt (env.map (AFloat.relab c')) b = (Arg.getOpt env b).map (Option.map (AFloat.relab c')) := by
  cases b with
  | none => rfl
  | some b =>
    simp only [Arg.getOpt, Arg.get_relab]
    rcases b.get env with e | x <;> rfl

theorem mapM_relab (c' : Nat) (env : List (AFloat S)) (outs : List (Arg S)) :
    outs.mapM (Arg.get (env.map (AFloat.relab c'))) =
      (outs.mapM (Arg.get env)).map (List.map (AFloat.relab c')) := by
  induction outs with
  | nil => rfl
  | cons a l ih =>
    rw [List.mapM_cons, List.mapM_cons, ih, Arg.get_relab]
    rcases a.get env with e | x
    · rfl
    · rcases l.mapM (Arg.get env) with e | xs <;> rfl

theorem recOp_poisoned {i : Inner S} {o : OpCode} {v : S} {a : AFloat S} {b : Option (AFloat S)} :
    (recOp i o v a b).2.poisoned = i.poisoned := by
  show (ensureOptI (ensureI i a).2 b).2.poisoned = _
  rw [ensureOptI_poisoned, ensureI_poisoned]

/-- The same computation in two worlds. -/
def Sim (c c' n n' : Nat) (w w' : World S)
    (m m' : World S → Res (List (AFloat S)) × World S) : Prop :=
  ∃ r j, m w = (r, w.setCell c (some ⟨n, j⟩)) ∧
    m' w' = (r.map (List.map (AFloat.relab c')), w'.setCell c' (some ⟨n', j.relab c'⟩)) ∧
    j.poisoned = false ∧ j.cid = c ∧ (∀ y, r = .ok y → ∀ a ∈ y, InCtx c a)

theorem Prog.run_sim (p : Prog S) {env : List (AFloat S)} {w w' : World S} {c c' n n' : Nat} {i : Inner S}
    (hc : w.cells c = some ⟨n, i⟩) (hc' : w'.cells c' = some ⟨n', i.relab c'⟩) (hn : 1 ≤ n) (hn' : 1 ≤ n')
    (hp : i.poisoned = false) (hcid : i.cid = c) (hr : ∀ a ∈ env, InCtx c a) :
    Sim c c' n n' w w' (p.run env) (p.run (env.map (AFloat.relab c'))) := by
  have hlit : ∀ v : S, InCtx c (AFloat.ofScalar v) := by
    intro v c' vid h; simp [AFloat.ofScalar, AFloat.new] at h
  induction p generalizing env w w' i with
  | ret outs =>
    refine ⟨outs.mapM (Arg.get env), i, ?_, ?_, hp, hcid, ?_⟩
    · simp only [Prog.run, M.lift_apply]; rw [World.setCell_self hc]
    · simp only [Prog.run, M.lift_apply]; rw [World.setCell_self hc', mapM_relab]
    · intro y hy a ha
      obtain ⟨x, -, hx⟩ := mapM_mem hy a ha
      exact Arg.get_prop hr hlit hx
  | panic =>
    refine ⟨.error .user, i, ?_, ?_, hp, hcid, by simp⟩
    · simp only [Prog.run, M.throw_apply]; rw [World.setCell_self hc]
    · simp only [Prog.run, M.throw_apply]; rw [World.setCell_self hc']; rfl
  | op o a b k ih =>
    have herr : ∀ e : Err, ∀ m m' : World S → Res (List (AFloat S)) × World S,
        m w = (.error e, w) → m' w' = (.error e, w') → Sim c c' n n' w w' m m' := by
      intro e m m' h1 h2
      refine ⟨.error e, i, ?_, ?_, hp, hcid, by simp⟩
      · rw [h1, World.setCell_self hc]
      · rw [h2, World.setCell_self hc']; rfl
    rcases ha : a.get env with e | x
    · apply herr e
      · simp only [Prog.run, M.bind_apply, M.lift_apply, ha]
      · simp only [Prog.run, M.bind_apply, M.lift_apply, Arg.get_relab, ha]; rfl
    rcases hb : Arg.getOpt env b with e | y
    · apply herr e
      · simp only [Prog.run, M.bind_apply, M.lift_apply, ha, hb]
      · simp only [Prog.run, M.bind_apply, M.lift_apply, Arg.get_relab, Arg.getOpt_relab, ha, hb]; rfl
    have hok' : arityOk o (y.map (AFloat.relab c')) = arityOk o y := by cases y <;> rfl
    by_cases hok : arityOk o y = true
    swap
    · apply herr .unbound
      · simp only [Prog.run, M.bind_apply, M.lift_apply, ha, hb, hok]; rfl
      · simp only [Prog.run, M.bind_apply, M.lift_apply, Arg.get_relab, Arg.getOpt_relab, ha, hb, map_ok_eq,
          hok', hok]; rfl
    have hx : InCtx c x := Arg.get_prop hr hlit ha
    have hy : ∀ b', y = some b' → InCtx c b' := Arg.getOpt_prop hr hlit hb
    have hy' : ∀ b', y.map (AFloat.relab c') = some b' → InCtx c' b' := by
      intro b' h
      obtain ⟨b0, -, rfl⟩ := Option.map_eq_some_iff.mp h
      exact relab_inCtx c' b0
    -- the step
    have hstep : ∃ r j, AFloat.fromOp o x y w = (.ok r, w.setCell c (some ⟨n, j⟩)) ∧
        AFloat.fromOp o (x.relab c') (y.map (AFloat.relab c')) w' =
          (.ok (r.relab c'), w'.setCell c' (some ⟨n', j.relab c'⟩)) ∧
        j.poisoned = false ∧ j.cid = c ∧ InCtx c r := by
      by_cases hs : x.ctx.isSome ∨ ∃ b', y = some b' ∧ b'.ctx.isSome
      · have hs' : (x.relab c').ctx.isSome ∨
            ∃ b', y.map (AFloat.relab c') = some b' ∧ b'.ctx.isSome := by
          rcases hs with h | ⟨b', rfl, h⟩
          · exact Or.inl (by rw [relab_isSome]; exact h)
          · exact Or.inr ⟨_, rfl, by rw [relab_isSome]; exact h⟩
        refine ⟨_, _, fromOp_live hok hx hy hs hc hn hp, ?_, ?_, ?_, ?_⟩
        · rw [fromOp_live (i := i.relab c') (hok'.trans hok) (relab_inCtx c' x) hy' hs' hc' hn' hp,
            opVal_relab, opDval_relab, recOp_relab]
          rfl
        · rw [recOp_poisoned, hp]
        · have : ∀ (i : Inner S) (a : AFloat S), (ensureI i a).2.cid = i.cid := by
            intro i a; unfold ensureI; rcases a.ctx with _ | ⟨_, _⟩ <;> rfl
          show (ensureOptI (ensureI i x).2 y).2.cid = c
          cases y with
          | none => simp only [ensureOptI, this, hcid]
          | some y => simp only [ensureOptI, this, hcid]
        · intro d vid h; simp only [Option.some.injEq, Prod.mk.injEq] at h; exact h.1.symm
      · have hx0 : x.ctx = none := by
          by_contra h; exact hs (Or.inl (by cases hx : x.ctx <;> simp_all))
        have hy0 : ∀ b', y = some b' → b'.ctx = none := by
          intro b' hb'
          by_contra h; exact hs (Or.inr ⟨b', hb', by cases hx : b'.ctx <;> simp_all⟩)
        refine ⟨⟨opVal o x y, opDval o x y, none⟩, i, ?_, ?_, hp, hcid, ?_⟩
        · rw [World.setCell_self hc]; exact fromOp_free w hok hx0 hy0
        · rw [World.setCell_self hc', fromOp_free w' (hok'.trans hok), opVal_relab, opDval_relab]
          · rfl
          · simp [AFloat.relab, hx0]
          · intro b' h
            obtain ⟨b0, h0, rfl⟩ := Option.map_eq_some_iff.mp h
            simp [AFloat.relab, hy0 b0 h0]
        · intro d vid h; cases h
    obtain ⟨r, j, h1, h2, h3, h4, h5⟩ := hstep
    obtain ⟨r', j', g1, g2, g3, g4, g5⟩ := ih env.length r.v (env := env ++ [r])
      (w := w.setCell c (some ⟨n, j⟩)) (w' := w'.setCell c' (some ⟨n', j.relab c'⟩)) (i := j)
      (World.setCell_same _ _ _) (World.setCell_same _ _ _) h3 h4 (by
        intro a ha
        rcases List.mem_append.mp ha with h | h
        · exact hr a h
        · simp only [List.mem_singleton] at h; subst h; exact h5)
    rw [World.setCell_setCell] at g1 g2
    refine ⟨r', j', ?_, ?_, g3, g4, g5⟩
    · simp only [Prog.run, M.bind_apply, M.lift_apply, ha, hb, hok, if_true, h1]
      exact g1
    · simp only [Prog.run, M.bind_apply, M.lift_apply, Arg.get_relab, Arg.getOpt_relab, ha, hb, map_ok_eq,
        hok', hok, if_true, h2, List.length_map]
      rw [List.map_append] at g2
      exact g2

theorem map_relab_v (c' : Nat) (env : List (AFloat S)) :
    (env.map (AFloat.relab c')).map AFloat.v = env.map AFloat.v := by
  rw [List.map_map]; rfl

theorem runProgs_sim (ps : List (List S → Prog S)) {env : List (AFloat S)} {w w' : World S} {c c' n n' : Nat}
    {i : Inner S} (hc : w.cells c = some ⟨n, i⟩) (hc' : w'.cells c' = some ⟨n', i.relab c'⟩) (hn : 1 ≤ n)
    (hn' : 1 ≤ n') (hp : i.poisoned = false) (hcid : i.cid = c) (hr : ∀ a ∈ env, InCtx c a) :
    Sim c c' n n' w w' (runProgs ps env) (runProgs ps (env.map (AFloat.relab c'))) := by
  induction ps generalizing env w w' i with
  | nil =>
    refine ⟨.ok env, i, ?_, ?_, hp, hcid, ?_⟩
    · simp only [runProgs, M.pure_apply]; rw [World.setCell_self hc]
    · simp only [runProgs, M.pure_apply]; rw [World.setCell_self hc']; rfl
    · rintro y ⟨⟩; exact hr
  | cons p ps ih =>
    obtain ⟨r, j, h1, h2, h3, h4, h5⟩ := Prog.run_sim (p (env.map AFloat.v)) hc hc' hn hn' hp hcid hr
    cases r with
    | error e =>
      refine ⟨.error e, j, ?_, ?_, h3, h4, by simp⟩
      · simp only [runProgs, M.bind_apply, h1]
      · simp only [runProgs, M.bind_apply, map_relab_v, h2]; rfl
    | ok y =>
      obtain ⟨r', j', g1, g2, g3, g4, g5⟩ := ih (env := y)
        (w := w.setCell c (some ⟨n, j⟩)) (w' := w'.setCell c' (some ⟨n', j.relab c'⟩)) (i := j)
        (World.setCell_same _ _ _) (World.setCell_same _ _ _) h3 h4 (h5 y rfl)
      rw [World.setCell_setCell] at g1 g2
      refine ⟨r', j', ?_, ?_, g3, g4, g5⟩
      · simp only [runProgs, M.bind_apply, h1]; exact g1
      · simp only [runProgs, M.bind_apply, map_relab_v, h2, map_ok_eq]; exact g2

theorem setDep_relab {c c' : Nat} {i : Inner S} {a : AFloat S} (hcid : i.cid = c) (ha : InCtx c a) :
    ∃ j, i.setDep a.v a.ctx = .ok j ∧ (i.relab c').setDep (a.relab c').v (a.relab c').ctx = .ok (j.relab c') ∧
      j.poisoned = i.poisoned ∧ j.cid = c := by
  rcases a with ⟨v, dv, _ | ⟨d, vid⟩⟩
  · exact ⟨_, rfl, rfl, rfl, hcid⟩
  · have : d = c := ha d vid rfl
    subst this
    refine ⟨{ i with deps := i.deps ++ [vid] }, ?_, ?_, rfl, hcid⟩
    · simp [Inner.setDep, hcid]
    · simp [Inner.setDep, AFloat.relab, Inner.relab]

theorem setDepSlice_sim {w w' : World S} {c c' n n' : Nat} {i : Inner S} (as : List (AFloat S))
    (hc : w.cells c = some ⟨n, i⟩) (hc' : w'.cells c' = some ⟨n', i.relab c'⟩)
    (hp : i.poisoned = false) (hcid : i.cid = c) (hr : ∀ a ∈ as, InCtx c a) :
    ∃ j : Inner S, AContext.setDepSlice ⟨c⟩ as w = (.ok (), w.setCell c (some ⟨n, j⟩)) ∧
      AContext.setDepSlice ⟨c'⟩ (as.map (AFloat.relab c')) w' =
        (.ok (), w'.setCell c' (some ⟨n', j.relab c'⟩)) ∧ j.poisoned = false := by
  induction as generalizing w w' i with
  | nil =>
    refine ⟨i, ?_, ?_, hp⟩
    · simp only [AContext.setDepSlice, M.pure_apply]; rw [World.setCell_self hc]
    · simp only [List.map_nil, AContext.setDepSlice, M.pure_apply]; rw [World.setCell_self hc']
  | cons a as ih =>
    obtain ⟨j, h1, h2, h3, h4⟩ := setDep_relab (c' := c') hcid (hr a (by simp))
    have k1 : AContext.setDep ⟨c⟩ a w = (.ok (), w.setCell c (some ⟨n, j⟩)) := by
      apply withLock_ok hc hp; rw [h1]
    have k2 : AContext.setDep ⟨c'⟩ (a.relab c') w' = (.ok (), w'.setCell c' (some ⟨n', j.relab c'⟩)) := by
      apply withLock_ok hc' hp; rw [h2]
    obtain ⟨j', g1, g2, g3⟩ := ih (w := w.setCell c (some ⟨n, j⟩))
      (w' := w'.setCell c' (some ⟨n', j.relab c'⟩)) (i := j)
      (World.setCell_same _ _ _) (World.setCell_same _ _ _) (h3.trans hp) h4 (fun b hb => hr b (by simp [hb]))
    rw [World.setCell_setCell] at g1 g2
    refine ⟨j', ?_, ?_, g3⟩
    · simp only [AContext.setDepSlice]; rw [M.bind_ok k1]; exact g1
    · simp only [List.map_cons, AContext.setDepSlice]; rw [M.bind_ok k2]; exact g2

/-- The tape of a function does not depend on the world it is recorded in. -/
theorem Func.tape_world (f : Func S) (x : List S) {w w' : World S} (hw : w.nextId < usizeMax)
    (hw' : w'.nextId < usizeMax) : (f.tape x w).1 = (f.tape x w').1 := by
  let c := w.nextId
  let c' := w'.nextId
  let w0 : World S := { w with nextId := (w.nextId + 1) % 2 ^ 64 }
  let w0' : World S := { w' with nextId := (w'.nextId + 1) % 2 ^ 64 }
  have hnew : (AContext.new : M (World S) AContext) w =
      (.ok ⟨c⟩, w0.setCell c (some ⟨1, Inner.construct c⟩)) := by
    simp only [AContext.new]; rw [if_pos hw]
  have hnew' : (AContext.new : M (World S) AContext) w' =
      (.ok ⟨c'⟩, w0'.setCell c' (some ⟨1, Inner.construct c'⟩)) := by
    simp only [AContext.new]; rw [if_pos hw']
  let i0 : Inner S := indepsInner (Inner.construct c) ((x.map AFloat.ofScalar).map AFloat.v)
  have hind := setIndepAll_live (w := w0.setCell c (some ⟨1, Inner.construct c⟩)) (c := c) (n := 1)
    (i := Inner.construct c) (x.map AFloat.ofScalar) (World.setCell_same _ _ _) rfl
  have hind' := setIndepAll_live (w := w0'.setCell c' (some ⟨1, Inner.construct c'⟩)) (c := c') (n := 1)
    (i := Inner.construct c') (x.map AFloat.ofScalar) (World.setCell_same _ _ _) rfl
  rw [World.setCell_setCell] at hind hind'
  let env : List (AFloat S) := indepVars c 0 (x.map AFloat.ofScalar)
  have hrel : indepsInner (Inner.construct c') ((x.map AFloat.ofScalar).map AFloat.v) = i0.relab c' := by
    simp only [i0, indepsInner_eq]; rfl
  have henv : ∀ (k : Nat) (xs : List (AFloat S)), indepVars c' k xs =
      (indepVars c k xs).map (AFloat.relab c') := by
    intro k xs
    induction xs generalizing k with
    | nil => rfl
    | cons x xs ih => simp only [indepVars, List.map_cons, ih]; rfl
  have hin : ∀ a ∈ env, InCtx c a := by
    intro a ha
    obtain ⟨l, hl, rfl⟩ := indepVars_mem ha
    intro d vid h; simp only [Option.some.injEq, Prod.mk.injEq] at h; exact h.1.symm
  have hp0 : i0.poisoned = false := by simp only [i0, indepsInner_eq]; rfl
  have hcid0 : i0.cid = c := by simp only [i0, indepsInner_eq]; rfl
  rw [hrel] at hind'
  rw [show (Inner.construct c' : Inner S).vals.length = 0 from rfl,
    show (Inner.construct c' : Inner S).cid = c' from rfl, henv] at hind'
  rw [show (Inner.construct c : Inner S).vals.length = 0 from rfl,
    show (Inner.construct c : Inner S).cid = c from rfl] at hind
  obtain ⟨r, j, h1, h2, h3, h4, h5⟩ := runProgs_sim f.progs (env := env) (n := 1) (n' := 1) (i := i0)
    (w := w0.setCell c (some ⟨1, i0⟩)) (w' := w0'.setCell c' (some ⟨1, i0.relab c'⟩)) (c := c) (c' := c')
    (World.setCell_same _ _ _) (World.setCell_same _ _ _) (Nat.le_refl _) (Nat.le_refl _) hp0 hcid0 hin
  rw [World.setCell_setCell, ← Func.eval_eq] at h1 h2
  unfold Func.tape
  rw [M.bind_ok hnew, M.bind_ok hnew']
  simp only [AContext.inScope]
  rw [M.bind_ok hind, M.bind_ok hind']
  cases r with
  | error e => rw [M.bind_error h1, M.bind_error h2]
  | ok y =>
    rw [M.bind_ok h1, M.bind_ok h2]
    obtain ⟨j', g1, g2, g3⟩ := setDepSlice_sim (n := 1) (n' := 1) (i := j)
      (w := w0.setCell c (some ⟨1, j⟩)) (w' := w0'.setCell c' (some ⟨1, j.relab c'⟩)) (c := c) (c' := c') y
      (World.setCell_same _ _ _) (World.setCell_same _ _ _) h3 h4 (h5 y rfl)
    rw [World.setCell_setCell] at g1 g2
    rw [M.bind_ok g1, M.bind_ok g2,
      tape_live (n := 1) (i := j') (World.setCell_same _ _ _) g3,
      tape_live (n := 1) (i := j'.relab c') (World.setCell_same _ _ _) g3]
    rfl

end Adv
