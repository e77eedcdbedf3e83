import Verif.Spec.Layout
import Verif.Proof.TapeOf
import Verif.Proof.Denote

/-! # Recording writes the tape entry by entry -/

set_option linter.unusedSectionVars false

namespace Adv
open scoped Adv

variable {S : Type} [Flt S]

/-- Value and place of a variable. -/
def AFloat.node (a : AFloat S) : Node S := (a.v, a.ctx.map Prod.snd)

/-- The entries of a recording. -/
def Inner.layout (i : Inner S) : Layout S := ⟨i.vals, i.ops⟩

/-- The recording with other entries. -/
def Inner.withLayout (i : Inner S) (l : Layout S) : Inner S := { i with vals := l.vals, ops := l.ops }

theorem Inner.withLayout_self (i : Inner S) : i.withLayout i.layout = i := rfl

theorem ensureI_place (i : Inner S) (a : AFloat S) :
    ensureI i a = ((i.layout.place a.node).1, i.withLayout (i.layout.place a.node).2) := by
  unfold ensureI Layout.place AFloat.node
  rcases a.ctx with _ | ⟨c', vid⟩ <;> rfl

theorem node_none {a : AFloat S} : a.node.2 = none ↔ a.ctx = none := by
  unfold AFloat.node; simp

theorem Arg.get_node {c : Nat} {env : List (AFloat S)} (hr : ∀ a ∈ env, InCtx c a) (a : Arg S) :
    match a.node (env.map AFloat.node) with
    | none => ∃ e, a.get env = .error e
    | some x => ∃ y, a.get env = .ok y ∧ y.node = x ∧ InCtx c y := by
  cases a with
  | var i =>
    simp only [Arg.node, List.getElem?_map, Arg.get]
    rcases h : env[i]? with _ | y
    · exact ⟨_, rfl⟩
    · exact ⟨y, rfl, rfl, hr y (List.mem_of_getElem? h)⟩
  | lit v => exact ⟨AFloat.ofScalar v, rfl, rfl, by intro c' vid h; simp [AFloat.ofScalar, AFloat.new] at h⟩

theorem Arg.mapM_node {c : Nat} {env : List (AFloat S)} (hr : ∀ a ∈ env, InCtx c a) (outs : List (Arg S)) :
    match outs.mapM (Arg.node (env.map AFloat.node)) with
    | none => ∃ e, outs.mapM (Arg.get env) = .error e
    | some xs => ∃ ys, outs.mapM (Arg.get env) = .ok ys ∧ ys.map AFloat.node = xs ∧ ∀ a ∈ ys, InCtx c a := by
  induction outs with
  | nil => exact ⟨[], rfl, rfl, by simp⟩
  | cons a outs ih =>
    have h := Arg.get_node hr a
    rw [List.mapM_cons, List.mapM_cons]
    rcases h1 : a.node (env.map AFloat.node) with _ | x
    · rw [h1] at h
      obtain ⟨e, h⟩ := h
      exact ⟨e, by rw [h]; rfl⟩
    rw [h1] at h
    obtain ⟨y, h, h', h''⟩ := h
    rw [h, bind_ok_eq, Option.bind_eq_bind, Option.bind_some]
    rcases h2 : outs.mapM (Arg.node (env.map AFloat.node)) with _ | xs
    · rw [h2] at ih
      obtain ⟨e, ih⟩ := ih
      exact ⟨e, by rw [ih]; rfl⟩
    rw [h2] at ih
    obtain ⟨ys, k1, k2, k3⟩ := ih
    rw [k1]
    exact ⟨y :: ys, rfl, by simp [h', k2], by simpa using ⟨h'', k3⟩⟩

/-- The outcome of recording in context `c`. -/
def Lays (r : Res (List (AFloat S)) × World S) (w : World S) (c n : Nat) (i : Inner S) :
    Option (List (Node S) × Layout S) → Prop
  | none => ∃ e, r.1 = .error e
  | some (ys, l) => ∃ outs, r = (.ok outs, w.setCell c (some ⟨n, i.withLayout l⟩)) ∧ outs.map AFloat.node = ys ∧
      ∀ a ∈ outs, InCtx c a

theorem Lays.mono {r : Res (List (AFloat S)) × World S} {w : World S} {c n : Nat} {i : Inner S} {l : Layout S}
    {o : Option (List (Node S) × Layout S)} (h : Lays r (w.setCell c (some ⟨n, i.withLayout l⟩)) c n (i.withLayout l) o) :
    Lays r w c n i o := by
  rcases o with _ | ⟨ys, l'⟩
  · exact h
  · obtain ⟨outs, h1, h2⟩ := h
    exact ⟨outs, by rw [h1, World.setCell_setCell]; rfl, h2⟩

theorem Prog.run_layout (p : Prog S) {env : List (AFloat S)} {w : World S} {c n : Nat} {i : Inner S}
    (hc : w.cells c = some ⟨n, i⟩) (hn : 1 ≤ n) (hp : i.poisoned = false) (hr : ∀ a ∈ env, InCtx c a) :
    Lays (p.run env w) w c n i (p.layout (env.map AFloat.node) i.layout) := by
  induction p generalizing env w i with
  | ret outs =>
    have h := Arg.mapM_node hr outs
    simp only [Prog.layout, Prog.run]
    rcases h1 : outs.mapM (Arg.node (env.map AFloat.node)) with _ | xs
    · rw [h1] at h
      obtain ⟨e, h⟩ := h
      exact ⟨e, by rw [h]; rfl⟩
    · rw [h1] at h
      obtain ⟨ys, k1, k2⟩ := h
      refine ⟨ys, ?_, k2⟩
      rw [k1, Inner.withLayout_self, World.setCell_self hc]; rfl
  | panic => exact ⟨_, rfl⟩
  | op o a b k ih =>
    have key : ∀ (x : AFloat S) (y : Option (AFloat S)), a.get env = .ok x → Arg.getOpt env b = .ok y →
        arityOk o y = true → InCtx c x → (∀ b', y = some b' → InCtx c b') →
        Lays ((Prog.op o a b k).run env w) w c n i
          (if x.ctx = none ∧ (∀ b', y = some b' → b'.ctx = none) then
            (k env.length (opVal o x y)).layout (env.map AFloat.node ++ [(opVal o x y, none)]) i.layout
          else
            (k env.length (opVal o x y)).layout (env.map AFloat.node ++ [(opVal o x y, some (recOp i o (opVal o x y) x y).1)])
              (recOp i o (opVal o x y) x y).2.layout) := by
      intro x y hx hy hok hxc hyc
      split
      · rename_i hfree
        have hrun : (Prog.op o a b k).run env w =
            (k env.length (opVal o x y)).run (env ++ [⟨opVal o x y, opDval o x y, none⟩]) w := by
          simp only [Prog.run, M.bind_apply, M.lift_apply, hx, hy, hok, if_true, fromOp_free w hok hfree.1 hfree.2]
        rw [hrun]
        have := ih env.length (opVal o x y) (env := env ++ [⟨opVal o x y, opDval o x y, none⟩]) hc hp (by
          intro a ha
          simp only [List.mem_append, List.mem_singleton] at ha
          rcases ha with ha | rfl
          · exact hr a ha
          · intro c' vid h; cases h)
        rwa [List.map_append] at this
      · rename_i hfree
        have hs : x.ctx.isSome ∨ ∃ b', y = some b' ∧ b'.ctx.isSome := by
          by_contra hne
          push Not at hne
          refine hfree ⟨by simpa using hne.1, fun b' hb => by simpa using hne.2 b' hb⟩
        have hf := fromOp_live hok hxc hyc hs hc hn hp
        have hrun : (Prog.op o a b k).run env w = (k env.length (opVal o x y)).run
            (env ++ [⟨opVal o x y, opDval o x y, some (c, (recOp i o (opVal o x y) x y).1)⟩])
            (w.setCell c (some ⟨n, (recOp i o (opVal o x y) x y).2⟩)) := by
          simp only [Prog.run, M.bind_apply, M.lift_apply, hx, hy, hok, if_true, hf]
        rw [hrun]
        have hw : (recOp i o (opVal o x y) x y).2 = i.withLayout (recOp i o (opVal o x y) x y).2.layout := by
          unfold recOp
          cases y with
          | none => simp only [ensureI_place, ensureOptI]; rfl
          | some y => simp only [ensureI_place, ensureOptI]; rfl
        have := ih env.length (opVal o x y)
          (env := env ++ [⟨opVal o x y, opDval o x y, some (c, (recOp i o (opVal o x y) x y).1)⟩])
          (w := w.setCell c (some ⟨n, (recOp i o (opVal o x y) x y).2⟩)) (i := (recOp i o (opVal o x y) x y).2)
          (World.setCell_same _ _ _) (by rw [hw]; exact hp) (by
          intro a ha
          simp only [List.mem_append, List.mem_singleton] at ha
          rcases ha with ha | rfl
          · exact hr a ha
          · intro c' vid h; injection h with h; injection h with h; exact h.symm)
        rw [List.map_append] at this
        rw [hw] at this ⊢
        exact this.mono
    have ha := Arg.get_node hr a
    cases b with
    | none =>
      simp only [Prog.layout]
      rcases h1 : a.node (env.map AFloat.node) with _ | x
      · rw [h1] at ha
        obtain ⟨e, ha⟩ := ha
        exact ⟨e, by simp only [Prog.run, M.bind_apply, M.lift_apply, ha]⟩
      rw [h1] at ha
      obtain ⟨y, ha, rfl, hy⟩ := ha
      simp only [Option.bind_eq_bind, Option.bind_some, meaning_zfun]
      by_cases hok : arityOk o (none : Option S) = true
      swap
      · simp only [hok, Bool.false_eq_true, if_false, Option.bind_none]
        refine ⟨.unbound, ?_⟩
        have : arityOk o (none : Option (AFloat S)) = false := Bool.eq_false_iff.mpr hok
        simp [Prog.run, M.bind_apply, M.lift_apply, ha, Arg.getOpt, this]
      have h2 := key y none ha rfl hok hy (by simp)
      simp only [hok, if_true, Option.bind_some, Option.getD_none, List.length_map]
      have h3 : opVal o y none = zfun o y.node.1 y.node.1 := rfl
      rw [h3] at h2
      rcases hctx : y.ctx with _ | ⟨c', vid⟩
      · rw [if_pos ⟨hctx, by simp⟩] at h2
        simp only [AFloat.node, hctx, Option.map_none] at h2 ⊢
        exact h2
      · rw [if_neg (by simp [hctx])] at h2
        have h4 : recOp i o (zfun o y.node.1 y.node.1) y none = i.record o (zfun o y.node.1 y.node.1) (some vid) none := by
          simp [recOp, ensureI, hctx, ensureOptI]
        rw [h4] at h2
        simp only [AFloat.node, hctx, Option.map_some] at h2 ⊢
        exact h2
    | some b =>
      have hb := Arg.get_node hr b
      simp only [Prog.layout]
      rcases h1 : a.node (env.map AFloat.node) with _ | x
      · rw [h1] at ha
        obtain ⟨e, ha⟩ := ha
        exact ⟨e, by simp only [Prog.run, M.bind_apply, M.lift_apply, ha]⟩
      rw [h1] at ha
      obtain ⟨x, ha, rfl, hx⟩ := ha
      rcases h1 : b.node (env.map AFloat.node) with _ | y
      · rw [h1] at hb
        obtain ⟨e, hb⟩ := hb
        exact ⟨e, by simp only [Prog.run, M.bind_apply, M.lift_apply, ha, Arg.getOpt, hb]; rfl⟩
      rw [h1] at hb
      obtain ⟨y, hb, rfl, hy⟩ := hb
      have hb' : Arg.getOpt env (some b) = .ok (some y) := by simp only [Arg.getOpt, hb]; rfl
      simp only [Option.bind_eq_bind, Option.bind_some, meaning_zfun]
      by_cases hok : arityOk o (some y.node.1) = true
      swap
      · simp only [hok, Bool.false_eq_true, if_false, Option.bind_none]
        refine ⟨.unbound, ?_⟩
        have : arityOk o (some y) = false := Bool.eq_false_iff.mpr hok
        simp [Prog.run, M.bind_apply, M.lift_apply, ha, hb', this]
      have h2 := key x (some y) ha hb' hok hx (by rintro _ ⟨⟩; exact hy)
      simp only [hok, if_true, Option.bind_some, Option.getD_some, List.length_map]
      have h3 : opVal o x (some y) = zfun o x.node.1 y.node.1 := rfl
      rw [h3] at h2
      have h4 : ∀ v, recOp i o v x (some y) =
          ((((i.layout.place x.node).2.place y.node).2.add o v (some (i.layout.place x.node).1)
            (some ((i.layout.place x.node).2.place y.node).1)).1,
          i.withLayout (((i.layout.place x.node).2.place y.node).2.add o v (some (i.layout.place x.node).1)
            (some ((i.layout.place x.node).2.place y.node).1)).2) := by
        intro v
        simp only [recOp, ensureI_place, ensureOptI]
        rfl
      rcases hx0 : x.ctx with _ | p
      · rcases hy0 : y.ctx with _ | q
        · rw [if_pos ⟨hx0, by rintro _ ⟨⟩; exact hy0⟩] at h2
          simp only [AFloat.node, hx0, hy0, Option.map_none] at h2 ⊢
          exact h2
        · rw [if_neg (by rintro ⟨-, h⟩; rw [h y rfl] at hy0; cases hy0), h4] at h2
          simp only [AFloat.node, hx0, hy0, Option.map_none, Option.map_some] at h2 ⊢
          exact h2
      · rw [if_neg (by rintro ⟨h, -⟩; rw [h] at hx0; cases hx0), h4] at h2
        simp only [AFloat.node, hx0, Option.map_some] at h2 ⊢
        exact h2

theorem map_node_fst (env : List (AFloat S)) : (env.map AFloat.node).map Prod.fst = env.map AFloat.v := by
  rw [List.map_map]; rfl

mutual
theorem Func.eval_layout : ∀ (f : Func S) {env : List (AFloat S)} {w : World S} {c n : Nat} {i : Inner S},
    w.cells c = some ⟨n, i⟩ → 1 ≤ n → i.poisoned = false → (∀ a ∈ env, InCtx c a) →
    Lays (f.eval env w) w c n i (f.layout (env.map AFloat.node) i.layout)
  | .simple _ _ f, env, w, c, n, i, hc, hn, hp, hr => by
      rw [Func.eval, Func.layout, map_node_fst]
      exact Prog.run_layout _ hc hn hp hr
  | .chain fs, env, w, c, n, i, hc, hn, hp, hr => by
      rw [Func.eval, Func.layout]
      exact Func.evalAll_layout fs hc hn hp hr
theorem Func.evalAll_layout : ∀ (fs : List (Func S)) {env : List (AFloat S)} {w : World S} {c n : Nat} {i : Inner S},
    w.cells c = some ⟨n, i⟩ → 1 ≤ n → i.poisoned = false → (∀ a ∈ env, InCtx c a) →
    Lays (Func.evalAll fs env w) w c n i (Func.layoutAll fs (env.map AFloat.node) i.layout)
  | [], env, w, c, n, i, hc, _, _, hr => by
      rw [Func.evalAll, Func.layoutAll]
      refine ⟨env, ?_, rfl, hr⟩
      rw [Inner.withLayout_self, World.setCell_self hc]; rfl
  | f :: fs, env, w, c, n, i, hc, hn, hp, hr => by
      have h := Func.eval_layout f hc hn hp hr
      rw [Func.evalAll, Func.layoutAll]
      rcases hl : f.layout (env.map AFloat.node) i.layout with _ | ⟨ys, l⟩
      · rw [hl] at h
        obtain ⟨e, h⟩ := h
        rcases hf : f.eval env w with ⟨r, w'⟩
        rw [hf] at h
        replace h : r = .error e := h
        subst h
        exact ⟨e, by simp only [M.bind_apply, hf]⟩
      · rw [hl] at h
        obtain ⟨outs, h1, rfl, h3⟩ := h
        rw [M.bind_ok h1]
        have := Func.evalAll_layout fs (w := w.setCell c (some ⟨n, i.withLayout l⟩)) (i := i.withLayout l)
          (World.setCell_same _ _ _) hn hp h3
        exact this.mono
end

/-! ## The complete tape -/

theorem setDep_inCtx {i : Inner S} {c : Nat} {a : AFloat S} (hcid : i.cid = c) (hr : InCtx c a) :
    i.setDep a.v a.ctx = .ok { i.withLayout (i.layout.place a.node).2 with
      deps := i.deps ++ [(i.layout.place a.node).1] } := by
  unfold Inner.setDep Layout.place AFloat.node
  rcases hctx : a.ctx with _ | ⟨c', vid⟩
  · rfl
  · have := hr c' vid hctx
    subst this
    simp [hcid]
    exact ⟨hcid.symm, rfl, rfl, rfl, rfl⟩

theorem setDepSlice_layout {w : World S} {c n : Nat} {i : Inner S} (as : List (AFloat S))
    (hc : w.cells c = some ⟨n, i⟩) (hp : i.poisoned = false) (hcid : i.cid = c) (hr : ∀ a ∈ as, InCtx c a) :
    AContext.setDepSlice ⟨c⟩ as w = (.ok (), w.setCell c (some ⟨n,
      { i.withLayout (i.layout.places (as.map AFloat.node)).2 with
        deps := i.deps ++ (i.layout.places (as.map AFloat.node)).1 }⟩)) := by
  induction as generalizing w i with
  | nil =>
    simp only [AContext.setDepSlice, M.pure_apply, List.map_nil, Layout.places, List.append_nil]
    rw [Inner.withLayout_self, World.setCell_self hc]
  | cons a as ih =>
    have h1 : AContext.setDep ⟨c⟩ a w = (.ok (), w.setCell c (some ⟨n,
        { i.withLayout (i.layout.place a.node).2 with deps := i.deps ++ [(i.layout.place a.node).1] }⟩)) := by
      apply withLock_ok hc hp
      rw [setDep_inCtx hcid (hr a (by simp))]
    simp only [AContext.setDepSlice]
    rw [M.bind_ok h1, ih (World.setCell_same _ _ _) (by exact hp) (by exact hcid) (fun b hb => hr b (by simp [hb])),
      World.setCell_setCell]
    simp only [Inner.withLayout, Inner.layout, List.map_cons, Layout.places, List.append_assoc, List.singleton_append]

theorem Func.tape_layout (f : Func S) (x : List S) (w : World S) (hw : w.nextId < usizeMax) :
    (f.tape x w).1.toOption = f.layoutTape x := by
  let c := w.nextId
  let w0 : World S := { w with nextId := (w.nextId + 1) % 2 ^ 64 }
  let i0 : Inner S := ⟨c, List.range x.length, [], [], x, false⟩
  have hx : (x.map AFloat.ofScalar).map AFloat.v = x := by
    rw [List.map_map]; simp [Function.comp_def, AFloat.ofScalar, AFloat.new]
  have hnew : (AContext.new : M (World S) AContext) w =
      (.ok ⟨c⟩, w0.setCell c (some ⟨1, Inner.construct c⟩)) := by
    simp only [AContext.new]; rw [if_pos hw]
  have hind := setIndepAll_live (w := w0.setCell c (some ⟨1, Inner.construct c⟩)) (c := c) (n := 1)
    (i := Inner.construct c) (x.map AFloat.ofScalar) (World.setCell_same _ _ _) rfl
  have hi0 : indepsInner (Inner.construct c) x = i0 := by
    simp only [i0, indepsInner_eq, Inner.construct, List.nil_append, List.length_nil, List.range_eq_range']
  rw [World.setCell_setCell, hx, hi0] at hind
  generalize hinp : indepVars (Inner.construct (S := S) c).cid (Inner.construct (S := S) c).vals.length
    (x.map AFloat.ofScalar) = inp at hind
  have hnode : inp.map AFloat.node = x.zipIdx.map fun p => (p.1, some p.2) := by
    subst hinp
    apply List.ext_getElem
    · simp [indepVars_length]
    · intro k h1 h2
      simp only [List.getElem_map, indepVars_getElem, List.getElem_zipIdx]
      simp [AFloat.node, AFloat.ofScalar, AFloat.new, Inner.construct]
  have hctx : ∀ a ∈ inp, InCtx c a := by
    subst hinp
    intro a ha
    obtain ⟨l, hl, rfl⟩ := indepVars_mem ha
    intro c' vid h
    simp only [Option.some.injEq, Prod.mk.injEq] at h
    exact h.1.symm
  have hev := Func.eval_layout f (env := inp) (w := w0.setCell c (some ⟨1, i0⟩)) (c := c) (n := 1) (i := i0)
    (World.setCell_same _ _ _) (Nat.le_refl 1) rfl hctx
  rw [hnode] at hev
  unfold Func.tape Func.layoutTape
  rw [M.bind_ok hnew]
  unfold AContext.inScope
  simp only
  rw [M.bind_ok hind]
  have hl0 : i0.layout = ⟨x, []⟩ := rfl
  rw [hl0] at hev
  rcases hl : f.layout (x.zipIdx.map fun p => (p.1, some p.2)) ⟨x, []⟩ with _ | ⟨ys, l⟩
  · rw [hl] at hev
    obtain ⟨e, hev⟩ := hev
    rcases hf : f.eval inp (w0.setCell c (some ⟨1, i0⟩)) with ⟨r, w'⟩
    rw [hf] at hev
    replace hev : r = .error e := hev
    subst hev
    simp only [M.bind_apply, hf, hl]
    rfl
  · rw [hl] at hev ⊢
    obtain ⟨outs, h1, rfl, h3⟩ := hev
    rw [World.setCell_setCell] at h1
    rw [M.bind_ok h1]
    have h4 := setDepSlice_layout (w := w0.setCell c (some ⟨1, i0.withLayout l⟩)) (c := c) (n := 1)
      (i := i0.withLayout l) outs (World.setCell_same _ _ _) rfl rfl h3
    rw [M.bind_ok h4, tape_live (World.setCell_same _ _ _) rfl]
    rfl

/-! ## Lengths -/

/-- What one piece of code adds: at most two entries per executed operation, and exactly one if no operand is a
constant. -/
structure Adds (l l' : Layout S) (k : Nat) : Prop where
  vals : l'.vals.length = l.vals.length + (l'.ops.length - l.ops.length)
  le : l.ops.length ≤ l'.ops.length
  ops : l'.ops.length ≤ l.ops.length + 2 * k

theorem Adds.refl (l : Layout S) : Adds l l 0 := ⟨by simp, Nat.le_refl _, by simp⟩

theorem Adds.trans {l l' l'' : Layout S} {k m : Nat} (h : Adds l l' k) (h' : Adds l' l'' m) : Adds l l'' (k + m) := by
  obtain ⟨a1, a2, a3⟩ := h
  obtain ⟨b1, b2, b3⟩ := h'
  exact ⟨by omega, by omega, by omega⟩

theorem Layout.add_length (l : Layout S) (o : OpCode) (v : S) (a b : Option Nat) :
    (l.add o v a b).2.vals.length = l.vals.length + 1 ∧ (l.add o v a b).2.ops.length = l.ops.length + 1 := by
  simp [Layout.add]

theorem Layout.place_length (l : Layout S) (x : Node S) :
    (l.place x).2.vals.length = l.vals.length + (if x.2 = none then 1 else 0) ∧
    (l.place x).2.ops.length = l.ops.length + (if x.2 = none then 1 else 0) := by
  unfold Layout.place
  rcases x.2 with _ | i
  · exact l.add_length _ _ _ _
  · exact ⟨rfl, rfl⟩

theorem Arg.node_meaning (env : List (Node S)) (a : Arg S) : (a.node env).map Prod.fst = a.meaning (env.map Prod.fst) := by
  cases a with
  | var i => simp [Arg.node, Arg.meaning]
  | lit v => rfl

theorem Arg.mapM_node_meaning (env : List (Node S)) (outs : List (Arg S)) :
    (outs.mapM (Arg.node env)).map (List.map Prod.fst) = outs.mapM (Arg.meaning (env.map Prod.fst)) := by
  induction outs with
  | nil => rfl
  | cons a outs ih =>
    rw [List.mapM_cons, List.mapM_cons, ← ih, ← Arg.node_meaning]
    rcases a.node env with _ | x
    · rfl
    · rcases outs.mapM (Arg.node env) with _ | xs <;> rfl

theorem Arg.node_isSome {env : List (Node S)} (h : ∀ x ∈ env, x.2.isSome) {i : Nat} {x : Node S}
    (hx : Arg.node env (.var i) = some x) : x.2.isSome := h x (List.mem_of_getElem? hx)

/-- Results, lengths and, without constants, exact lengths. -/
theorem Prog.layout_adds (p : Prog S) {env ys : List (Node S)} {l l' : Layout S} (h : p.layout env l = some (ys, l')) :
    p.meaning (env.map Prod.fst) = some (ys.map Prod.fst) ∧ Adds l l' (p.steps (env.map Prod.fst)) ∧
    (p.AllVars → (∀ x ∈ env, x.2.isSome) → l'.ops.length = l.ops.length + p.steps (env.map Prod.fst) ∧
      ∀ y ∈ ys, y.2.isSome) := by
  induction p generalizing env l with
  | ret outs =>
    simp only [Prog.layout, Option.bind_eq_bind] at h
    rcases hm : outs.mapM (Arg.node env) with _ | zs
    · rw [hm] at h; cases h
    rw [hm] at h
    simp only [Option.bind_some] at h
    injection h with h
    injection h with h1 h2
    subst h1 h2
    refine ⟨?_, Adds.refl l, fun hv hs => ⟨rfl, fun y hy => ?_⟩⟩
    · rw [Prog.meaning, ← Arg.mapM_node_meaning, hm]; rfl
    · have : ∀ (outs : List (Arg S)) (zs : List (Node S)), (∀ a ∈ outs, ∃ i, a = .var i) →
          outs.mapM (Arg.node env) = some zs → ∀ y ∈ zs, y.2.isSome := by
        intro outs
        induction outs with
        | nil => intro zs _ h; injection h with h; subst h; simp
        | cons a outs ih =>
          intro zs hv h
          rw [List.mapM_cons] at h
          obtain ⟨i, rfl⟩ := hv a (by simp)
          rcases ha : Arg.node env (.var i) with _ | x
          · rw [ha] at h; cases h
          rw [ha] at h
          rcases hm : outs.mapM (Arg.node env) with _ | xs
          · rw [hm] at h; cases h
          rw [hm] at h
          injection h with h
          subst h
          intro y hy
          rcases List.mem_cons.mp hy with rfl | hy
          · exact Arg.node_isSome hs ha
          · exact ih xs (fun a ha => hv a (by simp [ha])) hm y hy
      exact this outs zs hv hm y hy
  | panic => cases h
  | op o a b k ih =>
    cases b with
    | none =>
      simp only [Prog.layout, Option.bind_eq_bind] at h
      have ha := Arg.node_meaning env a
      rcases hx : a.node env with _ | x
      · rw [hx] at h; cases h
      rw [hx] at h ha
      simp only [Option.bind_some] at h
      rcases hv : o.meaning x.1 none with _ | v
      · rw [hv] at h; cases h
      rw [hv] at h
      simp only [Option.bind_some] at h
      have hmean : ∀ z, (Prog.op o a none k).meaning (env.map Prod.fst) =
          (k env.length v).meaning ((env ++ [(v, z)]).map Prod.fst) := by
        intro z
        simp only [Prog.meaning, ← ha, Option.map_some, Option.bind_eq_bind, Option.bind_some, hv, List.length_map,
          List.map_append, List.map_cons, List.map_nil]
      have hsteps : ∀ z, (Prog.op o a none k).steps (env.map Prod.fst) =
          1 + (k env.length v).steps ((env ++ [(v, z)]).map Prod.fst) := by
        intro z
        simp only [Prog.steps, ← ha, Option.map_some, Option.map_none, hv, List.length_map, List.map_append, List.map_cons,
          List.map_nil]
      rcases hz : x.2 with _ | i
      · simp only [hz] at h
        obtain ⟨h1, h2, h3⟩ := ih _ _ h
        refine ⟨by rw [hmean none, h1], ?_, ?_⟩
        · rw [hsteps none]
          exact (Adds.mk (by simp) (Nat.le_refl _) (by omega) : Adds l l 1).trans h2
        · intro hnc hs
          exfalso
          obtain ⟨⟨i, rfl⟩, -⟩ := hnc
          have := Arg.node_isSome hs hx
          rw [hz] at this; cases this
      · simp only [hz] at h
        obtain ⟨h1, h2, h3⟩ := ih _ _ h
        have hl := l.add_length o v (some i) none
        refine ⟨by rw [hmean _, h1], ?_, ?_⟩
        · rw [hsteps]
          exact (Adds.mk (by omega) (by omega) (by omega) : Adds l _ 1).trans h2
        · intro hnc hs
          obtain ⟨h4, h5⟩ := h3 (hnc.2.2 _ _) (by
            intro y hy
            simp only [List.mem_append, List.mem_singleton] at hy
            rcases hy with hy | rfl
            · exact hs y hy
            · rfl)
          refine ⟨?_, h5⟩
          rw [hsteps (some (l.add o v (some i) none).1), h4, hl.2]
          omega
    | some b =>
      simp only [Prog.layout, Option.bind_eq_bind] at h
      have ha := Arg.node_meaning env a
      have hb := Arg.node_meaning env b
      rcases hx : a.node env with _ | x
      · rw [hx] at h; cases h
      rw [hx] at h ha
      simp only [Option.bind_some] at h
      rcases hy : b.node env with _ | y
      · rw [hy] at h; cases h
      rw [hy] at h hb
      simp only [Option.bind_some] at h
      rcases hv : o.meaning x.1 (some y.1) with _ | v
      · rw [hv] at h; cases h
      rw [hv] at h
      simp only [Option.bind_some] at h
      have hmean : ∀ z, (Prog.op o a (some b) k).meaning (env.map Prod.fst) =
          (k env.length v).meaning ((env ++ [(v, z)]).map Prod.fst) := by
        intro z
        simp only [Prog.meaning, ← ha, ← hb, Option.map_some, Option.bind_eq_bind, Option.bind_some, hv, List.length_map,
          List.map_append, List.map_cons, List.map_nil]
      have hsteps : ∀ z, (Prog.op o a (some b) k).steps (env.map Prod.fst) =
          1 + (k env.length v).steps ((env ++ [(v, z)]).map Prod.fst) := by
        intro z
        simp only [Prog.steps, ← ha, ← hb, Option.map_some, hv, List.length_map, List.map_append,
          List.map_cons, List.map_nil]
      have hl1 := l.place_length x
      have hl2 := (l.place x).2.place_length y
      have hl3 := ((l.place x).2.place y).2.add_length o v (some (l.place x).1) (some ((l.place x).2.place y).1)
      have main : (x.2 ≠ none ∨ y.2 ≠ none) →
          (k env.length v).layout (env ++ [(v, some (((l.place x).2.place y).2.add o v (some (l.place x).1)
            (some ((l.place x).2.place y).1)).1)]) (((l.place x).2.place y).2.add o v (some (l.place x).1)
            (some ((l.place x).2.place y).1)).2 = some (ys, l') →
          (Prog.op o a (some b) k).meaning (env.map Prod.fst) = some (ys.map Prod.fst) ∧
          Adds l l' ((Prog.op o a (some b) k).steps (env.map Prod.fst)) ∧
          ((Prog.op o a (some b) k).AllVars → (∀ x ∈ env, x.2.isSome) →
            l'.ops.length = l.ops.length + (Prog.op o a (some b) k).steps (env.map Prod.fst) ∧ ∀ y ∈ ys, y.2.isSome) := by
        intro hxy h
        generalize hq : ((l.place x).2.place y).2.add o v (some (l.place x).1) (some ((l.place x).2.place y).1) = q at *
        obtain ⟨h1, h2, h3⟩ := ih _ _ h
        refine ⟨by rw [hmean _, h1], ?_, ?_⟩
        · rw [hsteps (some q.1)]
          refine (Adds.mk ?_ ?_ ?_ : Adds l q.2 1).trans h2
          · split_ifs at hl1 hl2 <;> omega
          · omega
          · rcases hxy with hxy | hxy <;> simp only [hxy, if_false] at hl1 hl2 <;> split_ifs at hl1 hl2 <;> omega
        · intro hnc hs
          obtain ⟨⟨p, rfl⟩, hb', hk⟩ := hnc
          obtain ⟨p', rfl⟩ := hb' b rfl
          have e1 := Option.isSome_iff_ne_none.mp (Arg.node_isSome hs hx)
          have e2 := Option.isSome_iff_ne_none.mp (Arg.node_isSome hs hy)
          simp only [e1, e2, if_false] at hl1 hl2
          obtain ⟨h4, h5⟩ := h3 (hk _ _) (by
            intro y hy
            simp only [List.mem_append, List.mem_singleton] at hy
            rcases hy with hy | rfl
            · exact hs y hy
            · rfl)
          refine ⟨?_, h5⟩
          rw [hsteps (some q.1), h4]
          omega
      rcases hz : x.2 with _ | i
      · rcases hz' : y.2 with _ | j
        · simp only [hz, hz'] at h
          obtain ⟨h1, h2, h3⟩ := ih _ _ h
          refine ⟨by rw [hmean none, h1], ?_, ?_⟩
          · rw [hsteps none]
            exact (Adds.mk (by simp) (Nat.le_refl _) (by omega) : Adds l l 1).trans h2
          · intro hnc hs
            exfalso
            obtain ⟨⟨i, rfl⟩, -⟩ := hnc
            have := Arg.node_isSome hs hx
            rw [hz] at this; cases this
        · refine main (Or.inr (by simp [hz'])) ?_
          simpa only [hz, hz'] using h
      · refine main (Or.inl (by simp [hz])) ?_
        simpa only [hz] using h

mutual
theorem Func.layout_adds : ∀ (f : Func S) {env ys : List (Node S)} {l l' : Layout S}, f.layout env l = some (ys, l') →
    f.meaning (env.map Prod.fst) = some (ys.map Prod.fst) ∧ Adds l l' (f.steps (env.map Prod.fst)) ∧
    ((∀ p ∈ f.progs, ∀ xs, (p xs).AllVars) → (∀ x ∈ env, x.2.isSome) →
      l'.ops.length = l.ops.length + f.steps (env.map Prod.fst) ∧ ∀ y ∈ ys, y.2.isSome)
  | .simple _ _ f, env, ys, l, l', h => by
      rw [Func.layout] at h
      obtain ⟨h1, h2, h3⟩ := Prog.layout_adds _ h
      refine ⟨by rw [Func.meaning]; exact h1, by rw [Func.steps]; exact h2, fun hv hs => ?_⟩
      rw [Func.steps]
      exact h3 (hv f (by simp [Func.progs]) _) hs
  | .chain fs, env, ys, l, l', h => by
      rw [Func.layout] at h
      rw [Func.meaning, Func.steps, Func.progs]
      exact Func.layoutAll_adds fs h
theorem Func.layoutAll_adds : ∀ (fs : List (Func S)) {env ys : List (Node S)} {l l' : Layout S},
    Func.layoutAll fs env l = some (ys, l') →
    Func.meaningAll fs (env.map Prod.fst) = some (ys.map Prod.fst) ∧ Adds l l' (Func.stepsAll fs (env.map Prod.fst)) ∧
    ((∀ p ∈ Func.progsAll fs, ∀ xs, (p xs).AllVars) → (∀ x ∈ env, x.2.isSome) →
      l'.ops.length = l.ops.length + Func.stepsAll fs (env.map Prod.fst) ∧ ∀ y ∈ ys, y.2.isSome)
  | [], env, ys, l, l', h => by
      rw [Func.layoutAll] at h
      injection h with h
      injection h with h1 h2
      subst h1 h2
      refine ⟨by rw [Func.meaningAll], by rw [Func.stepsAll]; exact Adds.refl l, fun _ hs => ⟨by rw [Func.stepsAll]; rfl, hs⟩⟩
  | f :: fs, env, ys, l, l', h => by
      rw [Func.layoutAll] at h
      rcases hf : f.layout env l with _ | ⟨zs, m⟩
      · rw [hf] at h; cases h
      rw [hf] at h
      replace h : Func.layoutAll fs zs m = some (ys, l') := h
      obtain ⟨h1, h2, h3⟩ := Func.layout_adds f hf
      obtain ⟨k1, k2, k3⟩ := Func.layoutAll_adds fs h
      have hst : Func.stepsAll (f :: fs) (env.map Prod.fst) =
          f.steps (env.map Prod.fst) + Func.stepsAll fs (zs.map Prod.fst) := by
        rw [Func.stepsAll, h1]
      refine ⟨by rw [Func.meaningAll, h1]; exact k1, by rw [hst]; exact h2.trans k2, fun hv hs => ?_⟩
      rw [Func.progsAll] at hv
      obtain ⟨q1, q2⟩ := h3 (fun p hp => hv p (by simp [hp])) hs
      obtain ⟨r1, r2⟩ := k3 (fun p hp => hv p (by simp [hp])) q2
      exact ⟨by rw [hst]; omega, r2⟩
end

theorem Layout.places_length (l : Layout S) (ys : List (Node S)) :
    (l.places ys).1.length = ys.length ∧
    (l.places ys).2.vals.length = l.vals.length + (ys.filter fun y => y.2 = none).length ∧
    (l.places ys).2.ops.length = l.ops.length + (ys.filter fun y => y.2 = none).length := by
  induction ys generalizing l with
  | nil => exact ⟨rfl, rfl, rfl⟩
  | cons y ys ih =>
    obtain ⟨h1, h2, h3⟩ := ih (l.place y).2
    have h4 := l.place_length y
    simp only [Layout.places, List.length_cons, h1, h2, h3, h4, List.filter_cons]
    split_ifs <;> first | (simp_all; done) | (simp_all; omega)

theorem Func.layoutTape_size {f : Func S} {x : List S} {t : Tape S} (h : f.layoutTape x = some t) :
    t.vals.length = x.length + t.ops.length ∧ t.ops.length ≤ 2 * f.steps x + t.deps.length ∧
    (f.AllVars → t.ops.length = f.steps x) := by
  unfold Func.layoutTape at h
  have hx : (x.zipIdx.map fun p => ((p.1, some p.2) : Node S)).map Prod.fst = x := by
    rw [List.map_map]
    exact List.zipIdx_map_fst ..
  rcases hl : f.layout (x.zipIdx.map fun p => (p.1, some p.2)) ⟨x, []⟩ with _ | ⟨ys, l⟩
  · rw [hl] at h; cases h
  rw [hl] at h
  replace h := Option.some.inj h
  obtain ⟨-, h2, h3⟩ := Func.layout_adds f hl
  rw [hx] at h2 h3
  obtain ⟨p1, p2, p3⟩ := l.places_length ys
  subst h
  obtain ⟨a1, a2, a3⟩ := h2
  simp only [List.length_nil] at a1 a2 a3 h3 ⊢
  have hf := List.length_filter_le (fun y : Node S => decide (y.2 = none)) ys
  refine ⟨by omega, by omega, fun hv => ?_⟩
  obtain ⟨q1, q2⟩ := h3 hv (by
    intro y hy
    obtain ⟨p, -, rfl⟩ := List.mem_map.mp hy
    rfl)
  have : ys.filter (fun y => decide (y.2 = none)) = [] := by
    rw [List.filter_eq_nil_iff]
    intro y hy hn
    have := q2 y hy
    simp only [decide_eq_true_eq] at hn
    rw [hn] at this; cases this
  rw [this] at p3
  simpa using p3.trans (by simp [q1])

end Adv
