import Verif.Proof.MixedHistory
import Verif.Spec.Recorded

/-! # Evaluation of functions in any context -/

set_option linter.unusedSectionVars false

namespace Adv
open scoped Adv

variable {S : Type} [Flt S]

omit [Flt S] in
theorem wf_of_map {t : Tape S} {G : Type} {χ : S → G} (h : (t.map χ).WF) : t.WF := by
  refine ⟨?_, ?_, h.indeps_nodup, h.arity, ?_, h.args_lt, h.vid_fresh, h.sorted⟩
  · simpa [Tape.map] using h.indeps_lt
  · simpa [Tape.map] using h.deps_lt
  · simpa [Tape.map] using h.vid_lt

/-- The tape of a context of a reachable state. -/
theorem HInv.tape {s : HState S} (h : HInv s) {c : Nat} (hc : c ∈ s.handles) {t : Tape S} {w' : World S}
    (e : AContext.tape ⟨c⟩ s.world = (.ok t, w')) : t.Proper := by
  rcases hcell : s.world.cells c with _ | ⟨n, i⟩
  · exact absurd hc (h.dead c hcell)
  have hg := (h.alive c _ hcell).2.1
  by_cases hp : i.poisoned = true
  · have : (AContext.indeps ⟨c⟩ : M (World S) _) s.world = (.error .poisoned, s.world) :=
      withLock_poisoned hcell hp
    unfold AContext.tape at e
    rw [M.bind_error this] at e; cases e
  · rw [tape_live hcell (by simpa using hp)] at e
    injection e with e1 e2
    injection e1 with e1
    subst e1
    exact hg.proper

/-- The tape of a context of a reachable state with several precisions. -/
theorem MState.Reachable.tape {P : Type} {T : P → Type} [∀ p, Flt (T p)] {F : Type} {up : ∀ p, T p → F}
    {conv : ∀ p q, T p → T q} {s : MState T F} (hr : s.Reachable up conv) {c : Nat} (hc : c ∈ s.handles)
    {t : Tape F} {w' : World F} (e : AContext.tape ⟨c⟩ s.world = (.ok t, w')) :
    t.WF ∧ t.Complete ∧ (∀ op ∈ t.ops, op.opcode ≠ .Nop) ∧ t.mutable = true := by
  have h1 := natl_tape (fun _ : F => ()) ⟨c⟩ s.world
  rw [e] at h1
  have h2 := @HInv.tape Unit unitFlt s.forget (MSteps.inv hr) c hc _ _ h1
  refine ⟨wf_of_map (@Tape.Proper.wf Unit unitFlt _ h2), ?_, @Tape.Proper.noNop Unit unitFlt _ h2,
    @Tape.Proper.mutable Unit unitFlt _ h2⟩
  simpa [Tape.map, Tape.Complete] using @Tape.Proper.complete Unit unitFlt _ h2

theorem Recorded.proper {t : Tape S} (h : Recorded t) : t.Proper := by
  induction h with
  | func f x w w' hw e =>
    have h := (Func.tape_spec f x w hw).2
    rw [e] at h
    obtain ⟨_, -, h⟩ := h.ok_left
    exact h.proper
  | context s hr c w' hc e => exact hr.inv.tape hc e
  | mixed up conv s hr c w' hc e x ez =>
    obtain ⟨h1, h2, h3, h4⟩ := hr.tape hc e
    obtain ⟨v', e', -, -, hp⟩ := h1.zeroOrder h2 h3 h4 (Tape.zeroOrder_length ez)
    rw [ez] at e'
    injection e' with e'
    subst e'; exact hp
  | replay _ x ez ih =>
    obtain ⟨v', e', -, -, hp⟩ := ih.zeroOrder (Tape.zeroOrder_length ez)
    rw [ez] at e'
    injection e' with e'
    subst e'; exact hp

theorem Func.evalFloat_eq (f : Func S) (x : List S) (w : World S) : f.evalFloat x w = (f.evalV x, w) := by
  have h := Func.eval_new f (x.map fun e => (e, Flt.zero)) w
  rw [List.map_map] at h
  unfold Func.evalFloat
  have h2 := Func.evalS_fst dualSh f (x.map fun e => (e, Flt.zero))
  rw [List.map_map] at h2
  have hx : x.map (Prod.fst ∘ fun e => (e, (Flt.zero : S))) = x := by simp [Function.comp_def]
  rw [hx] at h2
  rw [M.bind_apply]
  have hfun : ((fun p : S × S => AFloat.new p.1 p.2) ∘ fun e => (e, (Flt.zero : S))) =
    (fun e => AFloat.new e Flt.zero) := rfl
  rw [hfun] at h
  rw [h, ← h2]
  unfold Func.evalD
  rcases f.evalS dualSh _ with e | ys
  · rfl
  · simp only [map_ok_eq, M.pure_apply, List.map_map]
    rfl

theorem Func.evalD_fst (f : Func S) (x : List (S × S)) :
    (f.evalD x).map (List.map Prod.fst) = f.evalV (x.map Prod.fst) := Func.evalS_fst dualSh f x

theorem AFloat.dual_strip (env : List (AFloat S)) :
    (env.map AFloat.strip).map AFloat.dual = env.map AFloat.dual := by
  rw [List.map_map]; rfl

theorem AFloat.strip_of_dual (env : List (AFloat S)) :
    (env.map AFloat.dual).map (fun p => AFloat.new p.1 p.2) = env.map AFloat.strip := by
  rw [List.map_map]; rfl

theorem Func.eval_strip (f : Func S) (env : List (AFloat S)) (w : World S) :
    f.eval (env.map AFloat.strip) w =
      ((f.evalD (env.map AFloat.dual)).map (List.map fun p => AFloat.new p.1 p.2), w) := by
  rw [← AFloat.strip_of_dual, Func.eval_new]

theorem runProgs_ok_dual (ps : List (List S → Prog S)) (env : List (AFloat S)) (w : World S)
    {y : List (AFloat S)} {w' : World S} (h : runProgs ps env w = (.ok y, w')) :
    runProgsS dualSh ps (env.map AFloat.dual) = .ok (y.map AFloat.dual) := by
  induction ps generalizing env w with
  | nil =>
    simp only [runProgs, M.pure_apply] at h
    injection h with h _
    injection h with h
    subst h; rfl
  | cons p ps ih =>
    simp only [runProgs, M.bind_apply] at h
    rcases hp : (p (env.map AFloat.v)).run env w with ⟨e | z, w1⟩
    · rw [hp] at h; cases h
    · rw [hp] at h
      have := Prog.run_ok_dual _ _ _ hp
      simp only [runProgsS, map_dual_fst, this, bind_ok_eq]
      exact ih _ _ h

/-- In a world where context `c` is gone, its variables are constants. -/
theorem Prog.run_dead (p : Prog S) (env : List (AFloat S)) (w : World S) {c : Nat}
    (hc : w.cells c = none) (henv : ∀ a ∈ env, InCtx c a) :
    ∃ r, p.run env w = (r, w) ∧ (∀ y, r = .ok y → ∀ a ∈ y, InCtx c a) ∧
      p.runS dualSh (env.map AFloat.dual) = r.map (List.map AFloat.dual) := by
  have hfree : ∀ (v dv : S), InCtx c ⟨v, dv, none⟩ := by intro v dv c' vid h; cases h
  induction p generalizing env with
  | ret outs =>
    refine ⟨outs.mapM (Arg.get env), rfl, ?_, ?_⟩
    · intro y hy a ha
      obtain ⟨x, -, hx⟩ := mapM_mem hy a ha
      exact Arg.get_prop (P := fun a => InCtx c a) henv (fun _ => hfree _ _) hx
    · simp only [Prog.runS]; exact mapM_dual env outs
  | panic => exact ⟨.error .user, rfl, by simp, rfl⟩
  | op o a b k ih =>
    simp only [Prog.run, M.bind_apply, M.lift_apply, Prog.runS, Arg.get_dual, Arg.getOpt_dual]
    rcases ha : a.get env with e | x
    · exact ⟨.error e, rfl, by simp, rfl⟩
    simp only [map_ok_eq, bind_ok_eq]
    rcases hb : Arg.getOpt env b with e | z
    · exact ⟨.error e, rfl, by simp, rfl⟩
    simp only [map_ok_eq, bind_ok_eq]
    have har : arityOk o (z.map AFloat.dual) = arityOk o z := by cases z <;> rfl
    rw [har]
    by_cases hok : arityOk o z = true
    · simp only [hok, if_true, M.bind_apply]
      have hx : InCtx c x := Arg.get_prop (P := fun a => InCtx c a) henv (fun _ => hfree _ _) ha
      have hz := Arg.getOpt_prop (P := fun a => InCtx c a) henv (fun _ => hfree _ _) hb
      have hop : AFloat.fromOp o x z w = (.ok ⟨opVal o x z, opDval o x z, none⟩, w) := by
        by_cases hsome : x.ctx.isSome ∨ ∃ b', z = some b' ∧ b'.ctx.isSome
        · exact fromOp_dead hok hx hz hsome hc
        · have ha0 : x.ctx = none := by
            by_contra h; exact hsome (Or.inl (by cases hx : x.ctx <;> simp_all))
          have hb0 : ∀ b', z = some b' → b'.ctx = none := by
            intro b' hb'
            by_contra h; exact hsome (Or.inr ⟨b', hb', by cases hx : b'.ctx <;> simp_all⟩)
          exact fromOp_free _ hok ha0 hb0
      rw [hop]
      simp only
      obtain ⟨r, h1, h2, h3⟩ := ih env.length (opVal o x z) (env ++ [⟨opVal o x z, opDval o x z, none⟩]) (by
        intro a ha
        simp only [List.mem_append, List.mem_singleton] at ha
        rcases ha with ha | rfl
        · exact henv a ha
        · exact hfree _ _)
      refine ⟨r, h1, h2, ?_⟩
      rw [← h3]
      simp only [List.map_append, List.map_cons, List.map_nil, opVal, opDval, List.length_map,
        AFloat.dual, dualSh]
      cases z <;> rfl
    · simp only [hok]
      exact ⟨.error .unbound, rfl, by simp, rfl⟩

theorem runProgs_dead (ps : List (List S → Prog S)) (env : List (AFloat S)) (w : World S) {c : Nat}
    (hc : w.cells c = none) (henv : ∀ a ∈ env, InCtx c a) :
    ∃ r, runProgs ps env w = (r, w) ∧
      runProgsS dualSh ps (env.map AFloat.dual) = r.map (List.map AFloat.dual) := by
  induction ps generalizing env with
  | nil => exact ⟨.ok env, rfl, rfl⟩
  | cons p ps ih =>
    obtain ⟨r, h1, h2, h3⟩ := Prog.run_dead (p (env.map AFloat.v)) env w hc henv
    simp only [runProgs, runProgsS, map_dual_fst, h3, M.bind_apply, h1]
    cases r with
    | error e => exact ⟨.error e, rfl, rfl⟩
    | ok y => exact ih y (h2 y rfl)

/-- In a live context, evaluation gives the context-free values, derivatives and panics. -/
theorem Func.eval_live_strip (f : Func S) {env : List (AFloat S)} {w : World S} {c n : Nat}
    {i : Inner S} (hc : w.cells c = some ⟨n, i⟩) (hn : 1 ≤ n) (hp : i.poisoned = false) (hg : i.Good)
    (hr : ∀ a ∈ env, Rep c i a) :
    (f.eval env w).1.map (List.map AFloat.strip) = (f.eval (env.map AFloat.strip) w).1 ∧
    ∃ j, (f.eval env w).2 = w.setCell c (some ⟨n, j⟩) ∧ i.Ext j ∧ i.SameIO j ∧ j.Good ∧
      ∀ y, (f.eval env w).1 = .ok y → ∀ a ∈ y, Rep c j a := by
  obtain ⟨j, hj⟩ := runProgs_live f.progs hc hn hp hg hr
  have hrel := hj.shadow Unit unitSh (fun _ => ()) j (env.map fun a => (a.v, ())) (Or.inl unitSh_closed)
    (Inner.Ext.refl j) (solves_unit _ _) (by
      apply forall₂_getElem (by simp)
      intro k h1 h2
      refine ⟨by simp, fun _ _ _ => rfl, fun _ => rfl⟩)
  refine ⟨?_, j, by rw [Func.eval_eq]; exact hj.world, hj.ext, hj.io, hj.good, by
    rw [Func.eval_eq]; exact hj.rep⟩
  rw [Func.eval_strip, Func.eval_eq]
  have hv := Func.evalD_fst f (env.map AFloat.dual)
  have hu := Func.evalS_fst unitSh f (env.map fun a => (a.v, ()))
  simp only [List.map_map] at hv hu
  have hfun : (Prod.fst ∘ AFloat.dual : AFloat S → S) = Prod.fst ∘ fun a => (a.v, ()) := rfl
  rw [hfun, ← hu] at hv
  unfold Func.evalS at hv
  rcases hr1 : runProgs f.progs env w with ⟨e | y, w1⟩
  · rw [hr1] at hrel
    rw [hrel.error_left] at hv
    rcases hd : f.evalD (env.map AFloat.dual) with e' | ys
    · rw [hd] at hv; injection hv with hv; subst hv; rfl
    · rw [hd] at hv; cases hv
  · have := runProgs_ok_dual _ _ _ hr1
    unfold Func.evalD Func.evalS
    rw [this]
    simp only [map_ok_eq, AFloat.strip_of_dual]

end Adv
