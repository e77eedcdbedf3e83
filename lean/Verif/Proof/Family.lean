import Verif.Spec.Deriv
import Verif.Proof.TapeOf
import Verif.Props.Recording
import Mathlib.Topology.ContinuousOn

/-!
# Families of evaluations

A calculus assigns to a function `g` of the inputs an object `a` (its derivative, or its piecewise linear model).
If the elementary operations preserve the assignment, then so does user code.
-/

set_option linter.unusedSectionVars false

namespace Adv
open scoped Adv Topology
open Filter

variable {X A ι : Type} [TopologicalSpace X]

/-- An assignment of objects `A` to functions `X → ℝ` near `x0`. -/
structure Calculus (X A ι : Type) [TopologicalSpace X] (x0 : X) (P : OpCond) where
  Rel : (X → ℝ) → A → Prop
  ev : A → ι → ℝ
  z0 : A
  cont : ∀ g a, Rel g a → ContinuousAt g x0
  lit : ∀ c : ℝ, Rel (fun _ => c) z0
  ev_z0 : ∀ i, ev z0 i = 0
  un : ∀ (o : OpCode) g a, o.isUnary = true → Rel g a → (∀ i, P o none (AFloat.new (g x0) (ev a i)) none) →
    ∃ r, Rel (fun z => zfun o (g z) (g z)) r ∧ ∀ i, ev r i = ffun o (g x0) (g x0) (ev a i) (ev a i)
  bin : ∀ (o : OpCode) arg g a h b, o.isBinary = true → Rel g a → Rel h b →
    (∀ c, arg = Arg.lit c → h = (fun _ => c) ∧ b = z0) →
    (∀ i, P o (some arg) (AFloat.new (g x0) (ev a i)) (some (AFloat.new (h x0) (ev b i)))) →
    ∃ r, Rel (fun z => zfun o (g z) (h z)) r ∧ ∀ i, ev r i = ffun o (g x0) (h x0) (ev a i) (ev b i)

namespace Calculus
variable {x0 : X} {P : OpCond} (C : Calculus X A ι x0 P)

/-- The point of a family with index `i`. -/
def pt (i : ι) (q : (X → ℝ) × A) : AFloat ℝ := AFloat.new (q.1 x0) (C.ev q.2 i)

/-- `env` is a point of the family over `z`. -/
def Over (G : List ((X → ℝ) × A)) (z : X) (env : List (AFloat ℝ)) : Prop :=
  (∀ a ∈ env, a.ctx = none) ∧ env.map AFloat.v = G.map fun q => q.1 z

/-- Operand of a family. -/
def arg (G : List ((X → ℝ) × A)) : Arg ℝ → Option ((X → ℝ) × A)
  | .var i => G[i]?
  | .lit c => some (fun _ => c, C.z0)

theorem arg_get (G : List ((X → ℝ) × A)) (i : ι) (a : Arg ℝ) :
    a.get (G.map (C.pt i)) = match C.arg G a with
      | some q => .ok (C.pt i q)
      | none => .error .unbound := by
  cases a with
  | var k =>
    simp only [Arg.get, arg, List.getElem?_map]
    cases G[k]? <;> rfl
  | lit c =>
    simp only [Arg.get, arg, pt, C.ev_z0]
    rfl

theorem arg_rel {G : List ((X → ℝ) × A)} (hG : ∀ q ∈ G, C.Rel q.1 q.2) {a : Arg ℝ} {q : (X → ℝ) × A}
    (h : C.arg G a = some q) : C.Rel q.1 q.2 := by
  cases a with
  | var k => exact hG q (List.mem_of_getElem? h)
  | lit c => injection h with h; subst h; exact C.lit c

theorem arg_over {G : List ((X → ℝ) × A)} {z : X} {env : List (AFloat ℝ)} (ho : Over G z env) {a : Arg ℝ}
    {q : (X → ℝ) × A} (h : C.arg G a = some q) :
    ∃ a', a.get env = .ok a' ∧ a'.ctx = none ∧ a'.v = q.1 z := by
  cases a with
  | var k =>
    simp only [arg] at h
    have h1 : (env.map AFloat.v)[k]? = some (q.1 z) := by
      rw [ho.2, List.getElem?_map, h]; rfl
    rw [List.getElem?_map] at h1
    rcases he : env[k]? with _ | a'
    · rw [he] at h1; cases h1
    · rw [he] at h1
      injection h1 with h1
      refine ⟨a', by simp [Arg.get, he], ho.1 a' (List.mem_of_getElem? he), h1⟩
  | lit c =>
    injection h with h
    subst h
    exact ⟨_, rfl, rfl, rfl⟩

theorem mapM_outs (G : List ((X → ℝ) × A)) (hG : ∀ q ∈ G, C.Rel q.1 q.2) : ∀ (outs : List (Arg ℝ)) (i0 : ι) (y : List (AFloat ℝ)),
    outs.mapM (Arg.get (G.map (C.pt i0))) = .ok y →
    ∃ Y : List ((X → ℝ) × A), (∀ q ∈ Y, C.Rel q.1 q.2) ∧
      (∀ i, outs.mapM (Arg.get (G.map (C.pt i))) = .ok (Y.map (C.pt i))) ∧
      ∀ z env, Over G z env → ∃ ys, outs.mapM (Arg.get env) = .ok ys ∧ Over Y z ys
  | [], i0, y, h => ⟨[], by simp, fun _ => rfl, fun z env _ => ⟨[], rfl, by simp [Over]⟩⟩
  | o :: outs, i0, y, h => by
      rw [List.mapM_cons, C.arg_get] at h
      rcases hq : C.arg G o with _ | q
      · rw [hq] at h; cases h
      rw [hq] at h
      simp only [bind_ok_eq] at h
      rcases hr : outs.mapM (Arg.get (G.map (C.pt i0))) with e | y'
      · rw [hr] at h; cases h
      obtain ⟨Y, h1, h2, h3⟩ := mapM_outs G hG outs i0 y' hr
      refine ⟨q :: Y, ?_, ?_, ?_⟩
      · intro q' hq'
        rcases List.mem_cons.mp hq' with rfl | hq'
        · exact C.arg_rel hG hq
        · exact h1 q' hq'
      · intro i
        rw [List.mapM_cons, C.arg_get, hq]
        simp only [bind_ok_eq, h2 i]
        rfl
      · intro z env ho
        obtain ⟨a', k1, k2, k3⟩ := C.arg_over ho hq
        obtain ⟨ys, k4, k5⟩ := h3 z env ho
        refine ⟨a' :: ys, by rw [List.mapM_cons, k1, bind_ok_eq, k4]; rfl, ?_, ?_⟩
        · intro b hb
          rcases List.mem_cons.mp hb with rfl | hb
          · exact k2
          · exact k5.1 b hb
        · rw [List.map_cons, List.map_cons, k3, k5.2]

theorem run_op_eq {o : OpCode} {a : Arg ℝ} {b : Option (Arg ℝ)} {k : Nat → ℝ → Prog ℝ} {env : List (AFloat ℝ)}
    {w : World ℝ} {a' : AFloat ℝ} {b' : Option (AFloat ℝ)} (ha : a.get env = .ok a')
    (hb : Arg.getOpt env b = .ok b') (har : arityOk o b' = true) (hca : a'.ctx = none)
    (hcb : ∀ c, b' = some c → c.ctx = none) :
    (Prog.op o a b k).run env w =
      (k env.length (opVal o a' b')).run (env ++ [⟨opVal o a' b', opDval o a' b', none⟩]) w := by
  rw [Prog.run, ha, M.bind_ok (M.lift_apply _ _), hb, M.bind_ok (M.lift_apply _ _), if_pos har,
    M.bind_ok (fromOp_free w har hca hcb)]

theorem over_append {G : List ((X → ℝ) × A)} {z : X} {env : List (AFloat ℝ)} (ho : Over G z env) {g : X → ℝ}
    {r : A} {v dv : ℝ} (hv : v = g z) : Over (G ++ [(g, r)]) z (env ++ [⟨v, dv, none⟩]) := by
  refine ⟨?_, ?_⟩
  · intro a ha
    rcases List.mem_append.mp ha with ha | ha
    · exact ho.1 a ha
    · rw [List.mem_singleton] at ha; rw [ha]
  · rw [List.map_append, List.map_append, ho.2, hv]; rfl

theorem over_length {G : List ((X → ℝ) × A)} {z : X} {env : List (AFloat ℝ)} (ho : Over G z env) :
    env.length = G.length := by
  have := congrArg List.length ho.2
  simpa using this

/-- The last part of the induction step. -/
theorem prog_step {o : OpCode} {a : Arg ℝ} {b : Option (Arg ℝ)} {k : Nat → ℝ → Prog ℝ} (w : World ℝ)
    (ih : ∀ (n : Nat) (v : ℝ) (G : List ((X → ℝ) × A)), (∀ q ∈ G, C.Rel q.1 q.2) →
      (∀ i, (k n v).Along P w (G.map (C.pt i))) → (∃ i0 y, ((k n v).run (G.map (C.pt i0)) w).1 = .ok y) →
      ∃ Y : List ((X → ℝ) × A), (∀ q ∈ Y, C.Rel q.1 q.2) ∧
        (∀ i, (k n v).run (G.map (C.pt i)) w = (.ok (Y.map (C.pt i)), w)) ∧
        ∀ᶠ z in 𝓝 x0, ∀ env, Over G z env → ∃ ys, (k n v).run env w = (.ok ys, w) ∧ Over Y z ys)
    {G : List ((X → ℝ) × A)} (hG : ∀ q ∈ G, C.Rel q.1 q.2)
    (hal : ∀ i, (Prog.op o a b k).Along P w (G.map (C.pt i)))
    (i0 : ι) (hok : ∃ y, ((Prog.op o a b k).run (G.map (C.pt i0)) w).1 = .ok y)
    {qa : (X → ℝ) × A} {qb : Option ((X → ℝ) × A)} (ha : C.arg G a = some qa)
    (hgb : ∀ i, Arg.getOpt (G.map (C.pt i)) b = .ok (qb.map (C.pt i)))
    (hob : ∀ z env, Over G z env → ∃ b', Arg.getOpt env b = .ok b' ∧ (∀ c, b' = some c → c.ctx = none) ∧
      b'.map AFloat.v = qb.map fun q => q.1 z)
    (har : ∀ i, arityOk o (qb.map (C.pt i)) = true)
    (hstep : (∀ i, P o b (C.pt i qa) (qb.map (C.pt i))) →
      ∃ r, C.Rel (fun z => zfun o (qa.1 z) ((qb.getD qa).1 z)) r ∧
        ∀ i, C.ev r i = ffun o (qa.1 x0) ((qb.getD qa).1 x0) (C.ev qa.2 i) (C.ev (qb.getD qa).2 i)) :
    ∃ Y : List ((X → ℝ) × A), (∀ q ∈ Y, C.Rel q.1 q.2) ∧
      (∀ i, (Prog.op o a b k).run (G.map (C.pt i)) w = (.ok (Y.map (C.pt i)), w)) ∧
      ∀ᶠ z in 𝓝 x0, ∀ env, Over G z env → ∃ ys, (Prog.op o a b k).run env w = (.ok ys, w) ∧ Over Y z ys := by
  have hga : ∀ i, a.get (G.map (C.pt i)) = .ok (C.pt i qa) := fun i => by rw [C.arg_get, ha]
  have hcb : ∀ i c, qb.map (C.pt i) = some c → c.ctx = none := by
    intro i c hc
    cases qb with
    | none => cases hc
    | some q => injection hc with hc; subst hc; rfl
  have hfr : ∀ i, AFloat.fromOp o (C.pt i qa) (qb.map (C.pt i)) w = _ := fun i =>
    fromOp_free w (har i) rfl (hcb i)
  have hA := fun i => hal i _ _ _ (hga i) (hgb i) (har i) (by rw [hfr i])
  obtain ⟨r, hr1, hr2⟩ := hstep fun i => (hA i).1
  set g : X → ℝ := fun z => zfun o (qa.1 z) ((qb.getD qa).1 z) with hg
  have hval : ∀ i, opVal o (C.pt i qa) (qb.map (C.pt i)) = g x0 := by
    intro i; cases qb <;> rfl
  have hdval : ∀ i, opDval o (C.pt i qa) (qb.map (C.pt i)) = C.ev r i := by
    intro i; rw [hr2]; cases qb <;> rfl
  have hlen : ∀ i, (G.map (C.pt i)).length = G.length := fun i => by simp
  have hG' : ∀ q ∈ G ++ [(g, r)], C.Rel q.1 q.2 := by
    intro q hq
    rcases List.mem_append.mp hq with hq | hq
    · exact hG q hq
    · rw [List.mem_singleton] at hq; subst hq; exact hr1
  have hext : ∀ i, G.map (C.pt i) ++ [(⟨g x0, C.ev r i, none⟩ : AFloat ℝ)] = (G ++ [(g, r)]).map (C.pt i) := by
    intro i; simp [pt, AFloat.new]
  have hrun : ∀ i, (Prog.op o a b k).run (G.map (C.pt i)) w =
      (k G.length (g x0)).run ((G ++ [(g, r)]).map (C.pt i)) w := by
    intro i
    rw [run_op_eq (hga i) (hgb i) (har i) rfl (hcb i), hval, hdval, hext, hlen]
  obtain ⟨Y, y1, y2, y3⟩ := ih G.length (g x0) (G ++ [(g, r)]) hG' (fun i => by
    have := (hA i).2.2
    simp only [hval, hdval, hlen, hext] at this
    exact this) (by
    obtain ⟨y, hy⟩ := hok
    rw [hrun] at hy
    exact ⟨i0, y, hy⟩)
  refine ⟨Y, y1, fun i => by rw [hrun, y2], ?_⟩
  obtain ⟨ε, he, hst⟩ := (hA i0).2.1
  simp only [hval, hlen] at hst
  have hcont := C.cont g r hr1
  have hnear : ∀ᶠ z in 𝓝 x0, |g z - g x0| < ε := by
    have := hcont.eventually (Metric.ball_mem_nhds (g x0) he)
    filter_upwards [this] with z hz
    rwa [Real.dist_eq] at hz
  filter_upwards [y3, hnear] with z hz1 hz2 env ho
  obtain ⟨a', o1, o2, o3⟩ := C.arg_over ho ha
  obtain ⟨b', p1, p2, p3⟩ := hob z env ho
  have har' : arityOk o b' = true := by
    have := har i0
    cases qb with
    | none =>
      cases b' with
      | none => exact this
      | some c => cases p3
    | some q =>
      cases b' with
      | none => cases p3
      | some c => exact this
  have hv : opVal o a' b' = g z := by
    unfold opVal
    rw [hg]
    simp only
    rw [← o3]
    cases qb with
    | none =>
      cases b' with
      | none => simp only [Option.getD_none, o3]
      | some c => cases p3
    | some q =>
      cases b' with
      | none => cases p3
      | some c => injection p3 with p3; simp only [Option.getD_some, p3]
  rw [run_op_eq o1 p1 har' o2 p2, over_length ho, hv, hst _ hz2]
  exact hz1 _ (over_append ho rfl)

/-- User code maps families to families. -/
theorem prog (w : World ℝ) (p : Prog ℝ) : ∀ (G : List ((X → ℝ) × A)), (∀ q ∈ G, C.Rel q.1 q.2) →
    (∀ i, p.Along P w (G.map (C.pt i))) → (∃ i0 y, (p.run (G.map (C.pt i0)) w).1 = .ok y) →
    ∃ Y : List ((X → ℝ) × A), (∀ q ∈ Y, C.Rel q.1 q.2) ∧
      (∀ i, p.run (G.map (C.pt i)) w = (.ok (Y.map (C.pt i)), w)) ∧
      ∀ᶠ z in 𝓝 x0, ∀ env, Over G z env → ∃ ys, p.run env w = (.ok ys, w) ∧ Over Y z ys := by
  induction p with
  | panic =>
    rintro G hG hal ⟨i0, y, hy⟩
    cases hy
  | ret outs =>
    rintro G hG hal ⟨i0, y, hy⟩
    obtain ⟨Y, h1, h2, h3⟩ := C.mapM_outs G hG outs i0 y hy
    refine ⟨Y, h1, fun i => by rw [Prog.run, M.lift_apply, h2], Eventually.of_forall fun z env ho => ?_⟩
    obtain ⟨ys, k1, k2⟩ := h3 z env ho
    exact ⟨ys, by rw [Prog.run, M.lift_apply, k1], k2⟩
  | op o a b k ih =>
    rintro G hG hal ⟨i0, y, hy⟩
    rcases ha : C.arg G a with _ | qa
    · have : a.get (G.map (C.pt i0)) = .error .unbound := by rw [C.arg_get, ha]
      rw [Prog.run, this, M.bind_error (M.lift_apply _ _)] at hy
      cases hy
    have hga : a.get (G.map (C.pt i0)) = .ok (C.pt i0 qa) := by rw [C.arg_get, ha]
    cases b with
    | none =>
      have har : o.isUnary = true := by
        by_contra hn
        rw [Prog.run, hga, M.bind_ok (M.lift_apply _ _)] at hy
        simp only [Arg.getOpt] at hy
        rw [M.bind_ok (M.lift_apply _ _), if_neg (by simpa [arityOk] using hn)] at hy
        cases hy
      refine C.prog_step w ih hG hal i0 ⟨y, hy⟩ ha (qb := none) (fun i => rfl)
        (fun z env _ => ⟨none, rfl, by simp, rfl⟩) (fun i => har) ?_
      intro hP
      exact C.un o qa.1 qa.2 har (C.arg_rel hG ha) hP
    | some b =>
      rcases hb : C.arg G b with _ | qb
      · have : b.get (G.map (C.pt i0)) = .error .unbound := by rw [C.arg_get, hb]
        rw [Prog.run, hga, M.bind_ok (M.lift_apply _ _)] at hy
        have e : Arg.getOpt (G.map (C.pt i0)) (some b) = .error .unbound := by
          simp only [Arg.getOpt, this]; rfl
        rw [e, M.bind_error (M.lift_apply _ _)] at hy
        cases hy
      have hgb : ∀ i, Arg.getOpt (G.map (C.pt i)) (some b) = .ok (some (C.pt i qb)) := fun i => by
        simp only [Arg.getOpt, C.arg_get, hb]; rfl
      have har : o.isBinary = true := by
        by_contra hn
        rw [Prog.run, hga, M.bind_ok (M.lift_apply _ _), hgb, M.bind_ok (M.lift_apply _ _),
          if_neg (by simpa [arityOk] using hn)] at hy
        cases hy
      refine C.prog_step w ih hG hal i0 ⟨y, hy⟩ ha (qb := some qb) hgb ?_ (fun i => har) ?_
      · intro z env ho
        obtain ⟨b', k1, k2, k3⟩ := C.arg_over ho hb
        refine ⟨some b', by simp only [Arg.getOpt, k1]; rfl, ?_, by simp [k3]⟩
        intro c hc; injection hc with hc; subst hc; exact k2
      · intro hP
        refine C.bin o b qa.1 qa.2 qb.1 qb.2 har (C.arg_rel hG ha) (C.arg_rel hG hb) ?_ hP
        intro c hc
        subst hc
        injection hb with hb
        subst hb
        exact ⟨rfl, rfl⟩

theorem progs (w : World ℝ) : ∀ (ps : List (List ℝ → Prog ℝ)) (G : List ((X → ℝ) × A)), (∀ q ∈ G, C.Rel q.1 q.2) →
    (∀ i, alongProgs P w ps (G.map (C.pt i))) → (∃ i0 y, (runProgs ps (G.map (C.pt i0)) w).1 = .ok y) →
    ∃ Y : List ((X → ℝ) × A), (∀ q ∈ Y, C.Rel q.1 q.2) ∧
      (∀ i, runProgs ps (G.map (C.pt i)) w = (.ok (Y.map (C.pt i)), w)) ∧
      ∀ᶠ z in 𝓝 x0, ∀ env, Over G z env → ∃ ys, runProgs ps env w = (.ok ys, w) ∧ Over Y z ys
  | [], G, hG, hal, hok => ⟨G, hG, fun i => rfl, Eventually.of_forall fun z env ho => ⟨env, rfl, ho⟩⟩
  | p :: ps, G, hG, hal, ⟨i0, y, hy⟩ => by
      have hv : ∀ i, (G.map (C.pt i)).map AFloat.v = G.map fun q => q.1 x0 := fun i => by
        rw [List.map_map]; rfl
      have hp : ∃ i0 y, ((p (G.map fun q => q.1 x0)).run (G.map (C.pt i0)) w).1 = .ok y := by
        refine ⟨i0, ?_⟩
        rw [runProgs, hv, M.bind_apply] at hy
        rcases h : (p (G.map fun q => q.1 x0)).run (G.map (C.pt i0)) w with ⟨e | y', w'⟩
        · rw [h] at hy; cases hy
        · exact ⟨y', by rw [h]⟩
      obtain ⟨Y, y1, y2, y3⟩ := C.prog w (p (G.map fun q => q.1 x0)) G hG (fun i => by
        have := (hal i).2.1; rwa [hv] at this) hp
      obtain ⟨Z, z1, z2, z3⟩ := progs w ps Y y1 (fun i => by
        have := (hal i).2.2
        rw [hv] at this
        exact this _ (by rw [y2])) (by
        refine ⟨i0, y, ?_⟩
        rw [runProgs, hv, M.bind_ok (y2 i0)] at hy
        exact hy)
      refine ⟨Z, z1, fun i => by rw [runProgs, hv, M.bind_ok (y2 i), z2], ?_⟩
      obtain ⟨ε, he, hst⟩ := (hal i0).1
      rw [hv] at hst
      have hnear : ∀ᶠ z in 𝓝 x0, ∀ q ∈ G, |q.1 z - q.1 x0| < ε := by
        clear hst hp y2 y3 z2 z3 y1 z1 hv hy hal
        induction G with
        | nil => simp
        | cons q G ih =>
          have h1 : ∀ᶠ z in 𝓝 x0, |q.1 z - q.1 x0| < ε := by
            have := (C.cont q.1 q.2 (hG q (by simp))).eventually (Metric.ball_mem_nhds (q.1 x0) he)
            filter_upwards [this] with z hz
            rwa [Real.dist_eq] at hz
          filter_upwards [h1, ih fun q hq => hG q (by simp [hq])] with z hz1 hz2 q' hq'
          rcases List.mem_cons.mp hq' with rfl | hq'
          · exact hz1
          · exact hz2 q' hq'
      filter_upwards [y3, z3, hnear] with z hz1 hz2 hz3 env ho
      have hpe : p (env.map AFloat.v) = p (G.map fun q => q.1 x0) := by
        rw [ho.2]
        apply hst
        · simp
        · intro i h1 h2
          simp only [List.length_map] at h1 h2
          simp only [List.getElem_map, pt, AFloat.new]
          exact hz3 _ (List.getElem_mem h1)
      obtain ⟨ys, k1, k2⟩ := hz1 env ho
      obtain ⟨zs, k3, k4⟩ := hz2 ys k2
      exact ⟨zs, by rw [runProgs, hpe, M.bind_ok k1, k3], k4⟩

end Calculus
end Adv
