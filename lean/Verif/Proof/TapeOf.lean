import Verif.Proof.Run

/-!
# `Function::tape`

The complete description of the tape recorded for a function.
-/

set_option linter.unusedSectionVars false

namespace Adv
open scoped Adv

variable {S : Type} [Flt S] {A : Type}

/-! ## Flattening -/

/-- Run bodies one after the other. -/
def runProgs : List (List S → Prog S) → List (AFloat S) → M (World S) (List (AFloat S))
  | [], x => pure x
  | p :: ps, x => do
      let y ← (p (x.map AFloat.v)).run x
      runProgs ps y

theorem runProgs_append (ps qs : List (List S → Prog S)) (x : List (AFloat S)) :
    runProgs (ps ++ qs) x = (do let y ← runProgs ps x; runProgs qs y) := by
  induction ps generalizing x with
  | nil => simp [runProgs]
  | cons p ps ih => simp [runProgs, ih]

mutual
theorem Func.eval_eq : ∀ (f : Func S) (x : List (AFloat S)), f.eval x = runProgs f.progs x
  | .simple _ _ f, x => by simp [Func.eval, Func.progs, runProgs]
  | .chain fs, x => by rw [Func.eval, Func.progs]; exact Func.evalAll_eq fs x
theorem Func.evalAll_eq : ∀ (fs : List (Func S)) (x : List (AFloat S)),
    Func.evalAll fs x = runProgs (Func.progsAll fs) x
  | [], x => by simp [Func.evalAll, Func.progsAll, runProgs]
  | f :: fs, x => by
      simp only [Func.evalAll, Func.progsAll, runProgs_append, Func.eval_eq f, Func.evalAll_eq fs]
end

/-- Shadow evaluation of a list of bodies. -/
def runProgsS (sh : Shadow S A) : List (List S → Prog S) → List (S × A) → Res (List (S × A))
  | [], x => .ok x
  | p :: ps, x => do
      let y ← (p (x.map Prod.fst)).runS sh x
      runProgsS sh ps y

/-- Shadow evaluation of a function. -/
def Func.evalS (sh : Shadow S A) (f : Func S) (x : List (S × A)) : Res (List (S × A)) :=
  runProgsS sh f.progs x

theorem progsNoConst_head {p : List S → Prog S} {ps : List (List S → Prog S)} (h : progsNoConst (p :: ps))
    (xs : List S) : (p xs).NoConstOps := by
  cases ps with
  | nil => exact h xs
  | cons q ps => exact (h.1 xs).1

theorem progsNoConst_tail {p : List S → Prog S} {ps : List (List S → Prog S)} (h : progsNoConst (p :: ps)) :
    progsNoConst ps ∧ (ps ≠ [] → ∀ n, (p n).VarOuts) := by
  cases ps with
  | nil => exact ⟨trivial, fun h => absurd rfl h⟩
  | cons q ps => exact ⟨h.2, fun _ n => (h.1 n).2⟩

/-! ## Evaluation without context -/

theorem map_dual_fst (env : List (AFloat S)) : (env.map AFloat.dual).map Prod.fst = env.map AFloat.v := by
  rw [List.map_map]; rfl

theorem runProgs_free (ps : List (List S → Prog S)) (env : List (AFloat S)) (w : World S)
    (henv : ∀ a ∈ env, a.ctx = none) :
    ∃ r, runProgs ps env w = (r, w) ∧ (∀ y, r = .ok y → ∀ a ∈ y, a.ctx = none) ∧
      runProgsS dualSh ps (env.map AFloat.dual) = r.map (List.map AFloat.dual) := by
  induction ps generalizing env with
  | nil => exact ⟨.ok env, rfl, by rintro y ⟨⟩; exact henv, rfl⟩
  | cons p ps ih =>
    obtain ⟨r, h1, h2, h3⟩ := Prog.run_free (p (env.map AFloat.v)) env w henv
    simp only [runProgs, runProgsS, map_dual_fst, h3, M.bind_apply, h1]
    cases r with
    | error e => exact ⟨.error e, rfl, by simp, rfl⟩
    | ok y => exact ih y (h2 y rfl)

/-- Context-free evaluation is a pure function, computed by the dual shadow. -/
theorem Func.eval_free (f : Func S) (env : List (AFloat S)) (w : World S)
    (henv : ∀ a ∈ env, a.ctx = none) :
    ∃ r, f.eval env w = (r, w) ∧ (∀ y, r = .ok y → ∀ a ∈ y, a.ctx = none) ∧
      f.evalS dualSh (env.map AFloat.dual) = r.map (List.map AFloat.dual) := by
  rw [Func.eval_eq]; exact runProgs_free f.progs env w henv

/-- A result list without contexts is determined by its values and derivatives. -/
theorem dual_inj {y z : List (AFloat S)} (hy : ∀ a ∈ y, a.ctx = none) (hz : ∀ a ∈ z, a.ctx = none)
    (h : y.map AFloat.dual = z.map AFloat.dual) : y = z := by
  induction y generalizing z with
  | nil => cases z <;> simp_all
  | cons a y ih =>
    cases z with
    | nil => simp at h
    | cons b z =>
      simp only [List.map_cons, List.cons.injEq] at h
      have h1 := hy a (by simp)
      have h2 := hz b (by simp)
      have : a = b := by
        rcases a with ⟨a1, a2, a3⟩; rcases b with ⟨b1, b2, b3⟩
        simp_all [AFloat.dual]
      rw [this, ih (fun x hx => hy x (by simp [hx])) (fun x hx => hz x (by simp [hx])) h.2]

/-- Plain (value, derivative) evaluation as a pure function. -/
def Func.evalD (f : Func S) (x : List (S × S)) : Res (List (S × S)) := f.evalS dualSh x

theorem Func.eval_new (f : Func S) (x : List (S × S)) (w : World S) :
    f.eval (x.map fun p => AFloat.new p.1 p.2) w =
      ((f.evalD x).map (List.map fun p => AFloat.new p.1 p.2), w) := by
  obtain ⟨r, h1, h2, h3⟩ := Func.eval_free f (x.map fun p => AFloat.new p.1 p.2) w (by
    intro a ha; obtain ⟨p, -, rfl⟩ := List.mem_map.mp ha; rfl)
  have hx : (x.map fun p => AFloat.new p.1 p.2).map AFloat.dual = x := by
    rw [List.map_map]; simp [Function.comp_def, AFloat.new, AFloat.dual]
  rw [hx] at h3
  rw [h1, Func.evalD, h3]
  cases r with
  | error e => rfl
  | ok y =>
    simp only [map_ok_eq, List.map_map]
    congr 2
    have := h2 y rfl
    apply dual_inj this
    · intro a ha; obtain ⟨p, -, rfl⟩ := List.mem_map.mp ha; rfl
    · rw [List.map_map]; rfl

/-! ## The value shadow -/

/-- Values only. -/
def unitSh : Shadow S Unit where
  cst := fun _ => ()
  op := fun _ _ _ _ _ => ()

/-- Values of a function as a pure function. -/
def Func.evalV (f : Func S) (x : List S) : Res (List S) :=
  (f.evalS unitSh (x.map fun v => (v, ()))).map (List.map Prod.fst)

theorem unitSh_closed : (unitSh : Shadow S Unit).ConstClosed := by intro _ _ _ _; rfl

/-- Two shadow evaluations of the same program compute the same values. -/
theorem Prog.runS_fst {B : Type} (sh : Shadow S A) (sh' : Shadow S B) (p : Prog S) {ss : List (S × A)}
    {ts : List (S × B)} (h : List.Forall₂ (fun s t => s.1 = t.1) ss ts) :
    ResRel (List.Forall₂ (fun s t => s.1 = t.1)) (p.runS sh ss) (p.runS sh' ts) := by
  have hget : ∀ {ss : List (S × A)} {ts : List (S × B)},
      List.Forall₂ (fun s t => s.1 = t.1) ss ts → ∀ a : Arg S,
      ResRel (fun s t => s.1 = t.1) (a.getS sh ss) (a.getS sh' ts) := by
    intro ss ts h a
    cases a with
    | var k =>
      have := getElem?_forall₂ h k
      simp only [Arg.getS]
      rcases hk : ss[k]? with _ | x
      · rw [hk] at this; simp only at this; rw [this]; exact .error _
      · rw [hk] at this
        obtain ⟨s, h1, h2⟩ := this
        rw [h1]; exact .ok h2
    | lit v => exact .ok rfl
  induction p generalizing ss ts with
  | ret outs => exact mapM_forall₂ outs (fun a _ => hget h a)
  | panic => exact .error _
  | op o a b k ih =>
    simp only [Prog.runS]
    have h1 := hget h a
    generalize a.getS sh ss = x at h1
    generalize a.getS sh' ts = y at h1
    cases h1 with
    | error e => exact .error e
    | @ok x y hxy =>
      have h2 : ResRel (Option.Rel (fun s t => s.1 = t.1)) (Arg.getSOpt sh ss b) (Arg.getSOpt sh' ts b) := by
        cases b with
        | none => exact .ok .none
        | some b =>
          have := hget h b
          simp only [Arg.getSOpt]
          generalize b.getS sh ss = u at this
          generalize b.getS sh' ts = v at this
          cases this with
          | error e => exact .error e
          | ok h => exact .ok (.some h)
      generalize Arg.getSOpt sh ss b = u at h2
      generalize Arg.getSOpt sh' ts b = v at h2
      cases h2 with
      | error e => exact .error e
      | @ok u v huv =>
        simp only [bind_ok_eq]
        have hok : arityOk o u = arityOk o v := by cases huv <;> rfl
        rw [← hok]
        by_cases hc : arityOk o u = true
        · simp only [hc, if_true]
          have hv : zfun o x.1 (u.getD x).1 = zfun o y.1 (v.getD y).1 := by
            cases huv with
            | none => simp [hxy]
            | some h => simp [hxy, h]
          rw [h.length_eq, ← hv]
          exact ih _ _ (List.rel_append h (.cons rfl .nil))
        · simp only [hc]; exact .error _

theorem forall₂_fst_iff {B : Type} {ss : List (S × A)} {ts : List (S × B)} :
    List.Forall₂ (fun s t => s.1 = t.1) ss ts ↔ ss.map Prod.fst = ts.map Prod.fst := by
  constructor
  · intro h
    induction h with
    | nil => rfl
    | cons h _ ih => simp [h, ih]
  · intro h
    induction ss generalizing ts with
    | nil => cases ts with
      | nil => exact .nil
      | cons => simp at h
    | cons s ss ih => cases ts with
      | nil => simp at h
      | cons t ts =>
        simp only [List.map_cons, List.cons.injEq] at h
        exact .cons h.1 (ih h.2)

theorem runProgsS_fst {B : Type} (sh : Shadow S A) (sh' : Shadow S B) (ps : List (List S → Prog S))
    {ss : List (S × A)} {ts : List (S × B)} (h : List.Forall₂ (fun s t => s.1 = t.1) ss ts) :
    ResRel (List.Forall₂ (fun s t => s.1 = t.1)) (runProgsS sh ps ss) (runProgsS sh' ps ts) := by
  induction ps generalizing ss ts with
  | nil => exact .ok h
  | cons p ps ih =>
    simp only [runProgsS]
    rw [forall₂_fst_iff.mp h]
    have h1 := Prog.runS_fst sh sh' (p (ts.map Prod.fst)) h
    generalize (p (ts.map Prod.fst)).runS sh ss = x at h1
    generalize (p (ts.map Prod.fst)).runS sh' ts = y at h1
    cases h1 with
    | error e => exact .error e
    | ok h => exact ih h

/-- The values of any shadow evaluation are `evalV` of the values. -/
theorem Func.evalS_fst (sh : Shadow S A) (f : Func S) (ss : List (S × A)) :
    (f.evalS sh ss).map (List.map Prod.fst) = f.evalV (ss.map Prod.fst) := by
  have h := runProgsS_fst sh unitSh f.progs (ss := ss) (ts := (ss.map Prod.fst).map fun v => (v, ()))
    (forall₂_fst_iff.mpr (by simp [Function.comp_def]))
  unfold Func.evalV Func.evalS
  generalize runProgsS sh f.progs ss = x at h
  generalize runProgsS unitSh f.progs _ = y at h
  cases h with
  | error e => rfl
  | ok h => simp only [map_ok_eq]; rw [forall₂_fst_iff.mp h]

/-! ## Recording a chain of bodies -/

/-- Like `RunSpec`, for a list of bodies. -/
structure RunsSpec (ps : List (List S → Prog S)) (env : List (AFloat S)) (w : World S) (c n : Nat)
    (i : Inner S) (j : Inner S) : Prop where
  world : (runProgs ps env w).2 = w.setCell c (some ⟨n, j⟩)
  ext : i.Ext j
  io : i.SameIO j
  good : j.Good
  rep : ∀ y, (runProgs ps env w).1 = .ok y → ∀ a ∈ y, Rep c j a
  shadow : ∀ (A : Type) (sh : Shadow S A) (I : Nat → A) (j' : Inner S) (ss : List (S × A)),
    (sh.ConstClosed ∨ (progsNoConst ps ∧ ∀ a ∈ env, a.ctx.isSome = true)) → j.Ext j' →
    Solves sh I j'.ops (fn j'.vals) → List.Forall₂ (Mt sh I) env ss →
    ResRel (List.Forall₂ (Mt sh I)) (runProgs ps env w).1 (runProgsS sh ps ss)

theorem mt_map_fst {sh : Shadow S A} {I : Nat → A} {env : List (AFloat S)} {ss : List (S × A)}
    (h : List.Forall₂ (Mt sh I) env ss) : env.map AFloat.v = ss.map Prod.fst := by
  induction h with
  | nil => rfl
  | cons h _ ih => simp [ih, h.1]

theorem runProgs_live (ps : List (List S → Prog S)) {env : List (AFloat S)} {w : World S} {c n : Nat}
    {i : Inner S} (hc : w.cells c = some ⟨n, i⟩) (hn : 1 ≤ n) (hp : i.poisoned = false) (hg : i.Good)
    (hr : ∀ a ∈ env, Rep c i a) : ∃ j, RunsSpec ps env w c n i j := by
  induction ps generalizing env w i with
  | nil =>
    refine ⟨i, ?_, Inner.Ext.refl i, ⟨rfl, rfl⟩, hg, ?_, ?_⟩
    · exact (World.setCell_self hc).symm
    · rintro y ⟨⟩; exact hr
    · intro A sh I j' ss _ _ _ hm; exact .ok hm
  | cons p ps ih =>
    obtain ⟨j, hj⟩ := Prog.run_live (p (env.map AFloat.v)) hc hn hp hg hr
    rcases hrun : (p (env.map AFloat.v)).run env w with ⟨e | y, w1⟩
    · have hrun' : runProgs (p :: ps) env w = (.error e, w1) := by
        simp only [runProgs, M.bind_apply, hrun]
      refine ⟨j, ?_, hj.ext, hj.io, hj.good, ?_, ?_⟩
      · rw [hrun', ← hj.world, hrun]
      · rw [hrun']; rintro y ⟨⟩
      · intro A sh I j' ss hcl he hs hm
        have h1 := hj.shadow A sh I j' ss (hcl.imp id (fun h => ⟨progsNoConst_head h.1 _, h.2⟩)) he hs hm
        rw [hrun] at h1
        rw [hrun']
        simp only [runProgsS]
        rw [← mt_map_fst hm, h1.error_left]
        exact .error e
    · have hw1 : w1 = w.setCell c (some ⟨n, j⟩) := by rw [← hj.world, hrun]
      have hrep := hj.rep y (by rw [hrun])
      obtain ⟨k, hk⟩ := ih (env := y) (w := w1) (i := j) (by rw [hw1]; simp)
        (by rw [hj.ext.poisoned]; exact hp) hj.good hrep
      have hrun' : runProgs (p :: ps) env w = runProgs ps y w1 := by
        simp only [runProgs, M.bind_apply, hrun]
      refine ⟨k, ?_, hj.ext.trans hk.ext, hj.io.trans hk.io, hk.good, ?_, ?_⟩
      · rw [hrun', hk.world, hw1, World.setCell_setCell]
      · rw [hrun']; exact hk.rep
      · intro A sh I j' ss hcl he hs hm
        have h1 := hj.shadow A sh I j' ss (hcl.imp id (fun h => ⟨progsNoConst_head h.1 _, h.2⟩))
          (hk.ext.trans he) hs hm
        rw [hrun] at h1
        obtain ⟨ys, h2, h3⟩ := h1.ok_left
        rw [hrun']
        simp only [runProgsS]
        rw [← mt_map_fst hm, h2, bind_ok_eq]
        cases ps with
        | nil => exact .ok h3
        | cons q qs =>
          refine hk.shadow A sh I j' ys ?_ he hs h3
          rcases hcl with h | ⟨h, h'⟩
          · exact Or.inl h
          · have ht := progsNoConst_tail h
            exact Or.inr ⟨ht.1, hj.isSome (progsNoConst_head h _) (ht.2 (by simp) _) h' y (by rw [hrun])⟩

/-! ## Independents and dependents -/

/-- Values appended, independents appended. -/
def indepsInner (i : Inner S) : List S → Inner S
  | [] => i
  | v :: vs => indepsInner (i.setIndep v).2 vs

theorem indepsInner_eq (i : Inner S) (vs : List S) :
    indepsInner i vs = { i with
      vals := i.vals ++ vs, indeps := i.indeps ++ List.range' i.vals.length vs.length } := by
  induction vs generalizing i with
  | nil => simp [indepsInner]
  | cons v vs ih =>
    rw [indepsInner, ih]
    simp [Inner.setIndep, List.range'_succ]

theorem indepsInner_good {i : Inner S} (h : i.Good) (vs : List S) : (indepsInner i vs).Good := by
  induction vs generalizing i with
  | nil => exact h
  | cons v vs ih => exact ih (h.setIndep v)

/-- The variables created by the loop over the inputs. -/
def indepVars (c k : Nat) : List (AFloat S) → List (AFloat S)
  | [] => []
  | x :: xs => { x with ctx := some (c, k) } :: indepVars c (k + 1) xs

theorem setIndepAll_live {w : World S} {c n : Nat} {i : Inner S} (xs : List (AFloat S))
    (hc : w.cells c = some ⟨n, i⟩) (hp : i.poisoned = false) :
    AContext.setIndepAll ⟨c⟩ xs w =
      (.ok (indepVars i.cid i.vals.length xs), w.setCell c (some ⟨n, indepsInner i (xs.map AFloat.v)⟩)) := by
  induction xs generalizing w i with
  | nil => simp only [AContext.setIndepAll, M.pure_apply, indepVars, List.map_nil, indepsInner]
           rw [World.setCell_self hc]
  | cons x xs ih =>
    have h1 : AContext.setIndep ⟨c⟩ x w = (.ok { x with ctx := some (i.cid, i.vals.length) },
        w.setCell c (some ⟨n, (i.setIndep x.v).2⟩)) := withLock_ok hc hp rfl
    have h2 := ih (w := w.setCell c (some ⟨n, (i.setIndep x.v).2⟩)) (i := (i.setIndep x.v).2)
      (World.setCell_same _ _ _) hp
    rw [World.setCell_setCell] at h2
    simp only [AContext.setIndepAll]
    rw [M.bind_ok h1, M.bind_ok h2]
    simp [indepVars, indepsInner, Inner.setIndep]

theorem indepVars_length (c k : Nat) (xs : List (AFloat S)) : (indepVars c k xs).length = xs.length := by
  induction xs generalizing k with
  | nil => rfl
  | cons x xs ih => simp [indepVars, ih]

theorem indepVars_mem {c k : Nat} {xs : List (AFloat S)} {a : AFloat S} (h : a ∈ indepVars c k xs) :
    ∃ l, ∃ hl : l < xs.length, a = { xs[l] with ctx := some (c, k + l) } := by
  induction xs generalizing k with
  | nil => simp [indepVars] at h
  | cons x xs ih =>
    rcases List.mem_cons.mp h with rfl | h
    · exact ⟨0, by simp, by simp⟩
    · obtain ⟨l, hl, rfl⟩ := ih h
      exact ⟨l + 1, by simpa using hl, by simp; omega⟩

/-- The recording part of `set_dep` on a slice, for variables of this context. -/
def depsInner (i : Inner S) : List (AFloat S) → Inner S
  | [] => i
  | a :: as => depsInner { (ensureI i a).2 with deps := (ensureI i a).2.deps ++ [(ensureI i a).1] } as

theorem setDep_rep {i : Inner S} {c : Nat} {a : AFloat S} (hcid : i.cid = c) (hr : Rep c i a) :
    i.setDep a.v a.ctx = .ok { (ensureI i a).2 with deps := (ensureI i a).2.deps ++ [(ensureI i a).1] } := by
  unfold Inner.setDep ensureI
  rcases hctx : a.ctx with _ | ⟨c', vid⟩
  · rfl
  · have := (hr c' vid hctx).1
    subst this
    simp [hcid]

/-- What declaring dependents achieves. -/
structure DepSpec (i : Inner S) (as : List (AFloat S)) (j : Inner S) : Prop where
  good : j.Good
  ext : i.Ext j
  indeps : j.indeps = i.indeps
  deps : ∃ ds, j.deps = i.deps ++ ds ∧ ds.map (fn j.vals) = as.map AFloat.v ∧
    (∀ (A : Type) (sh : Shadow S A) (I : Nat → A) (j' : Inner S) (ss : List (S × A)), j.Ext j' →
      Solves sh I j'.ops (fn j'.vals) → List.Forall₂ (Mt sh I) as ss → ds.map I = ss.map Prod.snd)

theorem Inner.ext_addDep (i : Inner S) (d : Nat) : i.Ext { i with deps := i.deps ++ [d] } :=
  ⟨rfl, rfl, List.prefix_rfl, List.prefix_append _ _, List.prefix_rfl, List.prefix_rfl⟩

theorem depsInner_spec {i : Inner S} {c : Nat} (as : List (AFloat S)) (hg : i.Good)
    (hr : ∀ a ∈ as, Rep c i a) : DepSpec i as (depsInner i as) := by
  induction as generalizing i with
  | nil =>
    refine ⟨hg, Inner.Ext.refl i, rfl, [], by simp [depsInner], rfl, ?_⟩
    intro A sh I j' ss _ _ hm
    cases hm; rfl
  | cons a as ih =>
    obtain ⟨g1, e1, io1, l1, v1, s1⟩ := ensureI_spec hg (hr a (by simp))
    have e2 := Inner.ext_addDep (ensureI i a).2 (ensureI i a).1
    have h := ih (i := { (ensureI i a).2 with deps := (ensureI i a).2.deps ++ [(ensureI i a).1] })
      (g1.addDep l1) (fun b hb => ((hr b (by simp [hb])).mono e1).mono e2)
    obtain ⟨hg', he', hi', ds, hd1, hd2, hd3⟩ := h
    refine ⟨hg', (e1.trans e2).trans he', by rw [depsInner, hi']; exact io1.1, (ensureI i a).1 :: ds, ?_, ?_, ?_⟩
    · rw [depsInner, hd1, io1.2]; simp
    · rw [depsInner, List.map_cons, List.map_cons, hd2]
      congr 1
      rw [fn_prefix (e2.trans he').vals l1, v1]
    · intro A sh I j' ss hj hs hm
      cases hm with
      | cons h1 h2 =>
        rw [List.map_cons, List.map_cons, hd3 A sh I j' _ hj hs h2]
        congr 1
        exact s1 A sh I j' _ ((e2.trans he').trans hj) hs h1

theorem setDepSlice_live {w : World S} {c n : Nat} {i : Inner S} (as : List (AFloat S))
    (hc : w.cells c = some ⟨n, i⟩) (hp : i.poisoned = false) (hcid : i.cid = c) (hg : i.Good)
    (hr : ∀ a ∈ as, Rep c i a) :
    AContext.setDepSlice ⟨c⟩ as w = (.ok (), w.setCell c (some ⟨n, depsInner i as⟩)) := by
  induction as generalizing w i with
  | nil =>
    simp only [AContext.setDepSlice, M.pure_apply, depsInner]
    rw [World.setCell_self hc]
  | cons a as ih =>
    obtain ⟨g1, e1, io1, l1, v1, s1⟩ := ensureI_spec hg (hr a (by simp))
    have e2 := Inner.ext_addDep (ensureI i a).2 (ensureI i a).1
    have h1 : AContext.setDep ⟨c⟩ a w = (.ok (), w.setCell c (some ⟨n,
        { (ensureI i a).2 with deps := (ensureI i a).2.deps ++ [(ensureI i a).1] }⟩)) := by
      apply withLock_ok hc hp
      rw [setDep_rep hcid (hr a (by simp))]
    have h2 := ih (w := w.setCell c (some ⟨n,
        { (ensureI i a).2 with deps := (ensureI i a).2.deps ++ [(ensureI i a).1] }⟩))
      (i := { (ensureI i a).2 with deps := (ensureI i a).2.deps ++ [(ensureI i a).1] })
      (World.setCell_same _ _ _) (by rw [← hp]; exact e1.poisoned)
      (by rw [← hcid]; exact e1.cid)
      (g1.addDep l1) (fun b hb => ((hr b (by simp [hb])).mono e1).mono e2)
    rw [World.setCell_setCell] at h2
    simp only [AContext.setDepSlice]
    rw [M.bind_ok h1, h2]
    rfl

theorem tape_live {w : World S} {c n : Nat} {i : Inner S}
    (hc : w.cells c = some ⟨n, i⟩) (hp : i.poisoned = false) :
    AContext.tape ⟨c⟩ w = (.ok i.tape, w) := by
  have key : ∀ {α : Type} (f : Inner S → α), AContext.withLock ⟨c⟩ (fun i => (.ok (f i), i)) w =
      (.ok (f i), w) := by
    intro α f
    have := withLock_ok (f := fun i : Inner S => (.ok (f i), i)) (x := f i) (i' := i) hc hp rfl
    rw [this, World.setCell_self hc]
  have k1 : (AContext.indeps ⟨c⟩ : M (World S) _) w = (.ok i.indeps, w) := key Inner.indeps
  have k2 : (AContext.deps ⟨c⟩ : M (World S) _) w = (.ok i.deps, w) := key Inner.deps
  have k3 : (AContext.operations ⟨c⟩ : M (World S) _) w = (.ok i.ops, w) := key Inner.ops
  have k4 : (AContext.values ⟨c⟩ : M (World S) _) w = (.ok i.vals, w) := key Inner.vals
  unfold AContext.tape
  rw [M.bind_ok k1, M.bind_ok k2, M.bind_ok k3, M.bind_ok k4]
  rfl

/-! ## The recorded tape -/

/-- Everything that is known about the tape of `f` recorded at `x`. -/
structure TapeOf (f : Func S) (x : List S) (t : Tape S) : Prop where
  wf : t.WF
  complete : t.Complete
  consistent : t.Consistent
  noNop : ∀ op ∈ t.ops, op.opcode ≠ .Nop
  mutable : t.mutable = true
  indeps : t.indeps = List.range x.length
  vals : x <+: t.vals
  out : f.evalV x = .ok (t.deps.map (fn t.vals))
  shadow : ∀ (A : Type) (sh : Shadow S A) (I : Nat → A) (ss : List (S × A)),
    (sh.ConstClosed ∨ f.NoConstOps) → Solves sh I t.ops (fn t.vals) → ss.map Prod.fst = x →
    (∀ (k : Nat) (s : S × A), ss[k]? = some s → I k = s.2) →
    ∃ ys, f.evalS sh ss = .ok ys ∧ ys.map Prod.fst = t.deps.map (fn t.vals) ∧
      ys.map Prod.snd = t.deps.map I

theorem forall₂_getElem {α β : Type} {R : α → β → Prop} {l : List α} {m : List β}
    (hl : l.length = m.length) (h : ∀ k (h1 : k < l.length) (h2 : k < m.length), R l[k] m[k]) :
    List.Forall₂ R l m := by
  induction l generalizing m with
  | nil => cases m with
    | nil => exact .nil
    | cons => simp at hl
  | cons a l ih => cases m with
    | nil => simp at hl
    | cons b m =>
      refine .cons (h 0 (by simp) (by simp)) (ih (by simpa using hl) ?_)
      intro k h1 h2
      exact h (k + 1) (by simpa using h1) (by simpa using h2)

theorem indepVars_getElem {c k : Nat} {xs : List (AFloat S)} {l : Nat} (h : l < (indepVars c k xs).length) :
    (indepVars c k xs)[l] = { xs[l]'(by rw [indepVars_length] at h; exact h) with ctx := some (c, k + l) } := by
  induction xs generalizing k l with
  | nil => simp [indepVars] at h
  | cons x xs ih =>
    cases l with
    | zero => simp [indepVars]
    | succ l =>
      simp only [indepVars, List.getElem_cons_succ]
      have hk : k + 1 + l = k + (l + 1) := by omega
      rw [ih, hk]

/-- A solution that ignores everything. -/
theorem solves_unit (ops : List Operation) (v : Nat → S) : Solves unitSh (fun _ => ()) ops v :=
  fun _ _ => ⟨fun _ => rfl, fun _ => rfl⟩

/-- The world after recording a tape: the context is gone, its id is used up. -/
def World.afterTape (w : World S) : World S :=
  ({ w with nextId := (w.nextId + 1) % 2 ^ 64 } : World S).setCell w.nextId none

theorem Func.tape_spec (f : Func S) (x : List S) (w : World S) (hw : w.nextId < usizeMax) :
    (f.tape x w).2 = w.afterTape ∧
    ResRel (fun t _ => TapeOf f x t) (f.tape x w).1 (f.evalV x) := by
  let c := w.nextId
  let w0 : World S := { w with nextId := (w.nextId + 1) % 2 ^ 64 }
  let i0 : Inner S := indepsInner (Inner.construct c) x
  have hx : (x.map AFloat.ofScalar).map AFloat.v = x := by
    rw [List.map_map]; simp [Function.comp_def, AFloat.ofScalar, AFloat.new]
  have hnew : (AContext.new : M (World S) AContext) w =
      (.ok ⟨c⟩, w0.setCell c (some ⟨1, Inner.construct c⟩)) := by
    simp only [AContext.new]; rw [if_pos hw]
  have hind := setIndepAll_live (w := w0.setCell c (some ⟨1, Inner.construct c⟩)) (c := c) (n := 1)
    (i := Inner.construct c) (x.map AFloat.ofScalar) (World.setCell_same _ _ _) rfl
  rw [World.setCell_setCell, hx] at hind
  have hg0 : i0.Good := indepsInner_good (Inner.good_construct c) x
  have hi0 : i0 = ⟨c, List.range x.length, [], [], x, false⟩ := by
    simp only [i0, indepsInner_eq, Inner.construct, List.nil_append, List.length_nil, List.range_eq_range']
  generalize hinp : indepVars (Inner.construct (S := S) c).cid (Inner.construct (S := S) c).vals.length
    (x.map AFloat.ofScalar) = inp at hind
  have hlen : inp.length = x.length := by rw [← hinp, indepVars_length]; simp
  have hget : ∀ k (h : k < inp.length), inp[k] = ⟨x[k]'(by omega), Flt.zero, some (c, k)⟩ := by
    intro k h
    subst hinp
    rw [indepVars_getElem]
    simp [Inner.construct, AFloat.ofScalar, AFloat.new]
  have hrep0 : ∀ a ∈ inp, Rep c i0 a := by
    intro a ha
    obtain ⟨k, hk, rfl⟩ := List.mem_iff_getElem.mp ha
    rw [hget k hk, hi0]
    intro c' vid hcv
    simp only [Option.some.injEq, Prod.mk.injEq] at hcv
    obtain ⟨rfl, rfl⟩ := hcv
    refine ⟨rfl, by simp only; omega, ?_⟩
    have : k < x.length := by omega
    simp [fn, this]
  obtain ⟨j, hj⟩ := runProgs_live f.progs (env := inp) (w := w0.setCell c (some ⟨1, i0⟩)) (c := c) (n := 1)
    (i := i0) (World.setCell_same _ _ _) (Nat.le_refl 1) (by rw [hi0]) hg0 hrep0
  have hss : ∀ (A : Type) (sh : Shadow S A) (I : Nat → A) (ss : List (S × A)), ss.map Prod.fst = x →
      (∀ (k : Nat) (s : S × A), ss[k]? = some s → I k = s.2) → List.Forall₂ (Mt sh I) inp ss := by
    intro A sh I ss h1 h2
    have hl : ss.length = x.length := by rw [← h1, List.length_map]
    refine forall₂_getElem (by omega) ?_
    intro k hk1 hk2
    rw [hget k hk1]
    refine ⟨?_, ?_, by simp⟩
    · simp [← h1]
    · intro c' vid hcv
      simp only [Option.some.injEq, Prod.mk.injEq] at hcv
      obtain ⟨rfl, rfl⟩ := hcv
      exact h2 _ _ (by simp [hk2])
  have hsome : ∀ a ∈ inp, a.ctx.isSome = true := by
    intro a ha
    obtain ⟨k, hk, rfl⟩ := List.mem_iff_getElem.mp ha
    rw [hget k hk]; rfl
  -- values by the unit shadow
  have hval : ∀ j', j.Ext j' → ResRel (List.Forall₂ (Mt unitSh fun _ => ()))
      (runProgs f.progs inp (w0.setCell c (some ⟨1, i0⟩))).1
      (f.evalS unitSh (x.map fun v => (v, ()))) := by
    intro j' hj'
    refine hj.shadow Unit unitSh (fun _ => ()) j' _ (Or.inl unitSh_closed) hj' (solves_unit _ _)
      (hss _ _ _ _ (by simp [Function.comp_def]) (by intros; rfl))
  have hwj := hj.world
  rw [World.setCell_setCell] at hwj
  rcases hrun : runProgs f.progs inp (w0.setCell c (some ⟨1, i0⟩)) with ⟨e | y, w1⟩
  · -- the evaluation panics
    have hv := hval j (Inner.Ext.refl j)
    rw [hrun] at hv hwj
    have htape : f.tape x w = (.error e, w.afterTape) := by
      unfold Func.tape
      rw [M.bind_ok hnew]
      unfold AContext.inScope
      simp only
      rw [M.bind_ok hind, Func.eval_eq, M.bind_error hrun]
      simp only at hwj
      simp only [hwj, AContext.drop, World.setCell_same, Nat.le_refl, if_true, World.setCell_setCell]
      rfl
    rw [htape]
    refine ⟨rfl, ?_⟩
    unfold Func.evalV
    rw [hv.error_left]
    exact .error e
  · have hrep := hj.rep y (by rw [hrun])
    have hv := hval j (Inner.Ext.refl j)
    have hpj : j.poisoned = false := by rw [hj.ext.poisoned, hi0]
    have hcj : j.cid = c := by rw [hj.ext.cid, hi0]
    have hd := depsInner_spec y hj.good hrep
    rw [hrun] at hwj
    simp only at hwj
    have hdep := setDepSlice_live (w := w1) (c := c) (n := 1) (i := j) y (by rw [hwj]; simp) hpj hcj
      hj.good hrep
    generalize hj2 : depsInner j y = j2 at hd hdep
    rw [hwj, World.setCell_setCell] at hdep
    have htp := tape_live (w := w0.setCell c (some ⟨1, j2⟩)) (c := c) (n := 1) (i := j2)
      (World.setCell_same _ _ _) (by rw [hd.ext.poisoned]; exact hpj)
    have htape : f.tape x w = (.ok j2.tape, w.afterTape) := by
      unfold Func.tape
      rw [M.bind_ok hnew]
      unfold AContext.inScope
      simp only
      rw [M.bind_ok hind, Func.eval_eq, M.bind_ok hrun, hwj, M.bind_ok hdep, htp]
      simp only [AContext.drop, World.setCell_same, Nat.le_refl, if_true, World.setCell_setCell]
      rfl
    rw [htape]
    refine ⟨rfl, ?_⟩
    obtain ⟨ds, hd1, hd2, hd3⟩ := hd.deps
    have hdeps : j2.deps = ds := by rw [hd1, hj.io.2, hi0]; simp
    have hind2 : j2.indeps = List.range x.length := by rw [hd.indeps, hj.io.1, hi0]
    rw [hrun] at hv
    obtain ⟨ys, hys1, hys2⟩ := hv.ok_left
    have hyv : ys.map Prod.fst = y.map AFloat.v := by
      clear hrun hys1 hv hd3 hd2 hd1 hdep hj2 hrep hd htape htp hdeps hind2
      induction hys2 with
      | nil => rfl
      | cons h _ ih => simp [h.1, ih]
    have hout : f.evalV x = .ok (j2.tape.deps.map (fn j2.tape.vals)) := by
      unfold Func.evalV
      rw [hys1, map_ok_eq, hyv, ← hd2]
      simp only [Inner.tape, hdeps]
    rw [hout]
    refine .ok ⟨hd.good.wf, hd.good.complete, hd.good.consistent, hd.good.noNop, rfl, hind2, ?_, hout, ?_⟩
    · have := (hj.ext.trans hd.ext).vals
      rw [hi0] at this; exact this
    · intro A sh I ss hcl hs h1 h2
      have hm := hss A sh I ss h1 h2
      have hcl' : sh.ConstClosed ∨ (progsNoConst f.progs ∧ ∀ a ∈ inp, a.ctx.isSome = true) :=
        hcl.imp id (fun h => ⟨h, hsome⟩)
      have := hj.shadow A sh I j2 ss hcl' hd.ext hs hm
      rw [hrun] at this
      obtain ⟨zs, hz1, hz2⟩ := this.ok_left
      refine ⟨zs, hz1, ?_, ?_⟩
      · have : zs.map Prod.fst = y.map AFloat.v := by
          clear hrun hz1 this hd3 hd2 hd1 hdep hj2 hrep hd htape htp hdeps hind2 hys1 hys2 hyv hout hv hs
          induction hz2 with
          | nil => rfl
          | cons h _ ih => simp [h.1, ih]
        rw [this, ← hd2]; simp only [Inner.tape, hdeps]
      · rw [← hd3 A sh I j2 zs (Inner.Ext.refl j2) hs hz2]
        simp only [Inner.tape, hdeps]

end Adv
