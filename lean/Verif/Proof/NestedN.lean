import Verif.Spec.NestedN
import Verif.Proof.Nested

/-!
# Nested variables compute derivatives of all orders
-/

set_option linter.unusedSectionVars false

namespace Adv
open scoped Adv Topology ContDiff
open Filter

section jets
variable {E : Type} [NormedAddCommGroup E] [NormedSpace ℝ E] {x0 : E} {g h : E → ℝ}

/-- All derivatives in the directions `d`. -/
noncomputable def jetN (x0 : E) : (k : Nat) → (Fin k → E) → (E → ℝ) → Nest ℝ k
  | 0, _, g => g x0
  | k + 1, d, g => AFloat.new (jetN x0 k (Fin.tail d) g) (jetN x0 k (Fin.tail d) fun z => fderiv ℝ g z (d 0))

theorem jetN_succ (k : Nat) (d : Fin (k + 1) → E) (g : E → ℝ) : jetN x0 (k + 1) d g =
    AFloat.new (jetN x0 k (Fin.tail d) g) (jetN x0 k (Fin.tail d) fun z => fderiv ℝ g z (d 0)) := rfl

theorem jetN_congr : ∀ (k : Nat) (d : Fin k → E) {g h : E → ℝ}, g =ᶠ[𝓝 x0] h → jetN x0 k d g = jetN x0 k d h
  | 0, _, _, _, hgh => hgh.eq_of_nhds
  | k + 1, d, g, h, hgh => by
      have hd : (fun z => fderiv ℝ g z (d 0)) =ᶠ[𝓝 x0] fun z => fderiv ℝ h z (d 0) := by
        filter_upwards [(hgh.fderiv : fderiv ℝ g =ᶠ[𝓝 x0] fderiv ℝ h)] with z hz
        rw [hz]
      rw [jetN_succ, jetN_succ, jetN_congr k _ hgh, jetN_congr k _ hd]

theorem jetN_lit_zero : ∀ k : Nat, Nest.lit k (0 : ℝ) = (Flt.zero : Nest ℝ k)
  | 0 => rfl
  | k + 1 => by
      show AFloat.ofScalar (Nest.lit k 0) = AFloat.zero
      rw [jetN_lit_zero k]; rfl

theorem jetN_lit_one : ∀ k : Nat, Nest.lit k (1 : ℝ) = (Flt.one : Nest ℝ k)
  | 0 => rfl
  | k + 1 => by
      show AFloat.ofScalar (Nest.lit k 1) = AFloat.one
      rw [jetN_lit_one k]; rfl

theorem jetN_const : ∀ (k : Nat) (d : Fin k → E) (c : ℝ), jetN x0 k d (fun _ => c) = Nest.lit k c
  | 0, _, _ => rfl
  | k + 1, d, c => by
      have hd : (fun z => fderiv ℝ (fun _ : E => c) z (d 0)) = fun _ => (0 : ℝ) := by
        funext z; rw [fderiv_const_apply]; rfl
      rw [jetN_succ, hd, jetN_const k, jetN_const k, jetN_lit_zero]
      rfl

theorem jetN_smooth_dir (hg : ContDiffAt ℝ ω g x0) (d : E) : ContDiffAt ℝ ω (fun z => fderiv ℝ g z d) x0 :=
  (hg.fderiv_right (m := ω) (by simp)).clm_apply contDiffAt_const

theorem jetN_eventually_diff (hg : ContDiffAt ℝ ω g x0) : ∀ᶠ z in 𝓝 x0, DifferentiableAt ℝ g z :=
  ((hg.of_le (m := 1) (by simp)).eventually (by simp)).mono fun z hz => hz.differentiableAt (by norm_num)

theorem analytic_contDiff {o : OpCode} (ho : o.analytic = true) (hg : ContDiffAt ℝ ω g x0) (hh : ContDiffAt ℝ ω h x0) :
    ContDiffAt ℝ ω (fun z => zfun o (g z) (h z)) x0 := by
  cases o <;> cases ho
  · exact hg.add hh
  · exact hg.sub hh
  · exact hg.mul hh
  · exact hg.sin
  · exact hg.cos
  · exact hg.exp

/-- The derivative of a composition, as the code computes it. -/
theorem analytic_deriv {o : OpCode} (ho : o.analytic = true) {z : E} (hg : DifferentiableAt ℝ g z) (hh : DifferentiableAt ℝ h z)
    (d : E) : fderiv ℝ (fun z => zfun o (g z) (h z)) z d = ffun o (g z) (h z) (fderiv ℝ g z d) (fderiv ℝ h z d) := by
  cases o <;> cases ho
  · exact congrArg (· d) (hg.hasFDerivAt.add hh.hasFDerivAt).fderiv
  · exact congrArg (· d) (hg.hasFDerivAt.sub hh.hasFDerivAt).fderiv
  · refine (congrArg (· d) (hg.hasFDerivAt.mul hh.hasFDerivAt).fderiv).trans ?_
    show g z * fderiv ℝ h z d + h z * fderiv ℝ g z d = fderiv ℝ g z d * h z + g z * fderiv ℝ h z d
    ring
  · refine (congrArg (· d) (hg.hasFDerivAt.sin).fderiv).trans ?_
    show Real.cos (g z) * fderiv ℝ g z d = fderiv ℝ g z d * Real.cos (g z)
    ring
  · refine (congrArg (· d) (hg.hasFDerivAt.cos).fderiv).trans ?_
    show -Real.sin (g z) * fderiv ℝ g z d = -fderiv ℝ g z d * Real.sin (g z)
    ring
  · refine (congrArg (· d) (hg.hasFDerivAt.exp).fderiv).trans ?_
    show Real.exp (g z) * fderiv ℝ g z d = fderiv ℝ g z d * Real.exp (g z)
    ring

/-- Operations of nested scalars. -/
theorem zfun_succ {S : Type} [Flt S] {k : Nat} {o : OpCode} (ho : o.analytic = true) (a b : Nest S (k + 1)) :
    zfun o a b = AFloat.new (zfun o (AFloat.v a) (AFloat.v b)) (ffun o (AFloat.v a) (AFloat.v b) (AFloat.dv a) (AFloat.dv b)) := by
  cases o <;> first | rfl | cases ho

theorem neg_succ {S : Type} [Flt S] {k : Nat} (a : Nest S (k + 1)) :
    Flt.neg a = zfun .Mul (zfun .Sub (Flt.zero : Nest S (k + 1)) Flt.one) a := rfl

/-- The statement of `jetN_op` for one number of levels. -/
def JetNOp (x0 : E) (k : Nat) : Prop := ∀ (d : Fin k → E) {o : OpCode} {g h : E → ℝ}, o.analytic = true →
  ContDiffAt ℝ ω g x0 → ContDiffAt ℝ ω h x0 → zfun o (jetN x0 k d g) (jetN x0 k d h) = jetN x0 k d fun z => zfun o (g z) (h z)

theorem jetN_neg {k : Nat} (ih : JetNOp x0 k) (d : Fin k → E) (hg : ContDiffAt ℝ ω g x0) :
    Flt.neg (jetN x0 k d g) = jetN x0 k d fun z => -g z := by
  cases k with
  | zero => rfl
  | succ k =>
    rw [neg_succ, ← jetN_lit_zero, ← jetN_lit_one, ← jetN_const (x0 := x0) (k + 1) d 0, ← jetN_const (x0 := x0) (k + 1) d 1,
      ih d rfl contDiffAt_const contDiffAt_const, ih d rfl contDiffAt_const hg]
    apply jetN_congr
    refine Eventually.of_forall fun z => ?_
    show ((0 : ℝ) - 1) * g z = -g z
    ring

theorem jetN_op : ∀ k : Nat, JetNOp x0 k
  | 0, _, o, g, h, _, _, _ => rfl
  | k + 1, d, o, g, h, ho, hg, hh => by
      rw [zfun_succ ho]
      have hD : jetN x0 k (Fin.tail d) (fun z => fderiv ℝ (fun z => zfun o (g z) (h z)) z (d 0)) =
          jetN x0 k (Fin.tail d) fun z => ffun o (g z) (h z) (fderiv ℝ g z (d 0)) (fderiv ℝ h z (d 0)) := by
        apply jetN_congr
        filter_upwards [jetN_eventually_diff hg, jetN_eventually_diff hh] with z h1 h2
        exact analytic_deriv ho h1 h2 _
      rw [jetN_succ k d fun z => zfun o (g z) (h z), hD]
      show AFloat.new (zfun o (jetN x0 k (Fin.tail d) g) (jetN x0 k (Fin.tail d) h)) (ffun o (jetN x0 k (Fin.tail d) g)
        (jetN x0 k (Fin.tail d) h) (jetN x0 k (Fin.tail d) fun z => fderiv ℝ g z (d 0))
        (jetN x0 k (Fin.tail d) fun z => fderiv ℝ h z (d 0))) = _
      have ih : JetNOp x0 k := jetN_op k
      rw [ih (Fin.tail d) ho hg hh]
      congr 1
      have dg := jetN_smooth_dir hg (d 0)
      have dh := jetN_smooth_dir hh (d 0)
      have key : ∀ g' h' : E → ℝ, ContDiffAt ℝ ω g' x0 → ContDiffAt ℝ ω h' x0 →
          ffun o (jetN x0 k (Fin.tail d) g) (jetN x0 k (Fin.tail d) h) (jetN x0 k (Fin.tail d) g')
            (jetN x0 k (Fin.tail d) h') = jetN x0 k (Fin.tail d) fun z => ffun o (g z) (h z) (g' z) (h' z) := by
        intro g' h' dg dh
        cases o <;> cases ho
        · exact ih (o := .Add) _ rfl dg dh
        · exact ih (o := .Sub) _ rfl dg dh
        · have h1 := ih (o := .Mul) (Fin.tail d) rfl dg hh
          have h2 := ih (o := .Mul) (Fin.tail d) rfl hg dh
          have h3 := ih (o := .Add) (Fin.tail d) rfl (dg.mul hh) (hg.mul dh)
          refine Eq.trans ?_ h3
          show zfun .Add (zfun .Mul _ _) (zfun .Mul _ _) = _
          rw [h1, h2]
          rfl
        · have h1 := ih (o := .Cos) (Fin.tail d) rfl hg hg
          have h3 := ih (o := .Mul) (Fin.tail d) rfl dg hg.cos
          refine Eq.trans ?_ h3
          show zfun .Mul _ (zfun .Cos _ (jetN x0 k (Fin.tail d) g)) = _
          rw [h1]
          rfl
        · have h1 := ih (o := .Sin) (Fin.tail d) rfl hg hg
          have h3 := ih (o := .Mul) (Fin.tail d) rfl dg.neg hg.sin
          refine Eq.trans ?_ h3
          show zfun .Mul (Flt.neg _) (zfun .Sin _ (jetN x0 k (Fin.tail d) g)) = _
          rw [h1, jetN_neg ih _ dg]
          rfl
        · have h1 := ih (o := .Exp) (Fin.tail d) rfl hg hg
          have h3 := ih (o := .Mul) (Fin.tail d) rfl dg hg.exp
          refine Eq.trans ?_ h3
          show zfun .Mul _ (zfun .Exp _ (jetN x0 k (Fin.tail d) g)) = _
          rw [h1]
          rfl
      exact key _ _ dg dh

/-! ### Programs -/

theorem jetN_val : ∀ (k : Nat) (d : Fin k → E) (g : E → ℝ), Nest.val k (jetN x0 k d g) = g x0
  | 0, _, _ => rfl
  | k + 1, d, g => jetN_val k (Fin.tail d) g

/-- Translation of operands. -/
noncomputable def Arg.liftN (k : Nat) : Arg ℝ → Arg (Nest ℝ k)
  | .var i => .var i
  | .lit c => .lit (Nest.lit k c)

/-- Translation of user code. -/
noncomputable def Prog.liftN (k : Nat) : Prog ℝ → Prog (Nest ℝ k)
  | .ret outs => .ret (outs.map (Arg.liftN k))
  | .op o a b q => .op o (a.liftN k) (b.map (Arg.liftN k)) fun i v => (q i (Nest.val k v)).liftN k
  | .panic => .panic

theorem liftN_arg_succ (k : Nat) (a : Arg ℝ) : (a.liftN k).nest = a.liftN (k + 1) := by cases a <;> rfl

theorem liftN_arg_zero (a : Arg ℝ) : a.liftN 0 = a := by cases a <;> rfl

theorem liftN_prog_zero (p : Prog ℝ) : p.liftN 0 = p := by
  induction p with
  | panic => rfl
  | ret outs => 
    show Prog.ret (outs.map (Arg.liftN 0)) = .ret outs
    congr 1
    exact (List.map_congr_left fun a _ => liftN_arg_zero a).trans (List.map_id' _)
  | op o a b q ih =>
    show Prog.op o (a.liftN 0) (b.map (Arg.liftN 0)) (fun i v => (q i v).liftN 0) = .op o a b q
    congr 1
    · exact liftN_arg_zero a
    · cases b with
      | none => rfl
      | some b => exact congrArg some (liftN_arg_zero b)
    · funext i v; exact ih i v

theorem liftN_prog_succ (k : Nat) (p : Prog ℝ) : (p.liftN k).nest = p.liftN (k + 1) := by
  induction p with
  | panic => rfl
  | ret outs => 
    show Prog.ret ((outs.map (Arg.liftN k)).map Arg.nest) = .ret (outs.map (Arg.liftN (k + 1)))
    rw [List.map_map]
    congr 1
    exact List.map_congr_left fun a _ => liftN_arg_succ k a
  | op o a b q ih =>
    show Prog.op o (a.liftN k).nest ((b.map (Arg.liftN k)).map Arg.nest) (fun i v => ((q i (Nest.val k v.v)).liftN k).nest) =
      .op o (a.liftN (k + 1)) (b.map (Arg.liftN (k + 1))) (fun i v => (q i (Nest.val (k + 1) v)).liftN (k + 1))
    congr 1
    · exact liftN_arg_succ k a
    · cases b with
      | none => rfl
      | some b => exact congrArg some (liftN_arg_succ k b)
    · funext i v; exact ih i _

theorem progs_nestN (f : Func ℝ) : ∀ k : Nat, (f.nestN k).progs = f.progs.map fun p xs => (p (xs.map (Nest.val k))).liftN k
  | 0 => by
      show f.progs = _
      refine ((List.map_congr_left fun p _ => ?_).trans (List.map_id' _)).symm
      funext xs
      rw [liftN_prog_zero]
      exact congrArg p ((List.map_congr_left fun a _ => rfl).trans (List.map_id' _))
  | k + 1 => by
      show (f.nestN k).nest.progs = _
      rw [progs_nest, progs_nestN f k, List.map_map]
      refine List.map_congr_left fun p _ => ?_
      funext xs
      show ((p ((xs.map AFloat.v).map (Nest.val k))).liftN k).nest = _
      rw [liftN_prog_succ, List.map_map]
      rfl

/-- The jet as a variable. -/
noncomputable def jetA (x0 : E) (k : Nat) (d : Fin (k + 1) → E) (g : E → ℝ) : AFloat (Nest ℝ k) := jetN x0 (k + 1) d g

theorem argF_liftN (k : Nat) (d : Fin (k + 1) → E) (G : List (E → ℝ)) (a : Arg ℝ) {g : E → ℝ} (h : argF G a = some g) :
    (a.liftN k).get (G.map (jetA x0 k d)) = .ok (jetA x0 k d g) := by
  cases a with
  | var i =>
    have h : G[i]? = some g := h
    simp only [Arg.liftN, Arg.get, List.getElem?_map, h, Option.map_some]
  | lit c =>
    injection h with h
    subst h
    unfold jetA
    rw [jetN_const]
    rfl

theorem argF_smooth {G : List (E → ℝ)} (hG : ∀ g ∈ G, ContDiffAt ℝ ω g x0) {a : Arg ℝ} {g : E → ℝ}
    (h : argF G a = some g) : ContDiffAt ℝ ω g x0 := by
  cases a with
  | var k => exact hG g (List.mem_of_getElem? h)
  | lit c => injection h with h; subst h; exact contDiffAt_const

theorem outsN (k : Nat) (d : Fin (k + 1) → E) {G : List (E → ℝ)} (hG : ∀ g ∈ G, ContDiffAt ℝ ω g x0) {env : List (AFloat ℝ)}
    (ho : OverF G x0 env) : ∀ (outs : List (Arg ℝ)) (y : List (AFloat ℝ)), outs.mapM (Arg.get env) = .ok y →
    ∃ Y : List (E → ℝ), (∀ g ∈ Y, ContDiffAt ℝ ω g x0) ∧
      (outs.map (Arg.liftN k)).mapM (Arg.get (G.map (jetA x0 k d))) = .ok (Y.map (jetA x0 k d)) ∧
      ∀ z env, OverF G z env → ∃ ys, outs.mapM (Arg.get env) = .ok ys ∧ OverF Y z ys
  | [], y, h => ⟨[], by simp, rfl, fun z env _ => ⟨[], rfl, by simp [OverF]⟩⟩
  | o :: outs, y, h => by
      rw [List.mapM_cons] at h
      rcases hq : o.get env with err | a'
      · rw [hq] at h; cases h
      rw [hq, bind_ok_eq] at h
      obtain ⟨g, hg⟩ := argF_of_get ho hq
      rcases hr : outs.mapM (Arg.get env) with err | y'
      · rw [hr] at h; cases h
      obtain ⟨Y, h1, h2, h3⟩ := outsN k d hG ho outs y' hr
      refine ⟨g :: Y, ?_, ?_, ?_⟩
      · intro q hq
        rcases List.mem_cons.mp hq with rfl | hq
        · exact argF_smooth hG hg
        · exact h1 q hq
      · rw [List.map_cons, List.mapM_cons, argF_liftN k d G o hg, bind_ok_eq, h2]
        rfl
      · intro z env' ho'
        obtain ⟨b, k1, k2, k3⟩ := argF_over ho' hg
        obtain ⟨ys, k4, k5⟩ := h3 z env' ho'
        refine ⟨b :: ys, by rw [List.mapM_cons, k1, bind_ok_eq, k4]; rfl, ?_, ?_⟩
        · intro c hc
          rcases List.mem_cons.mp hc with rfl | hc
          · exact k2
          · exact k5.1 c hc
        · rw [List.map_cons, List.map_cons, k3, k5.2]

/-- What user code does with families of smooth functions. -/
def NestNOk {k : Nat} {F : Type} (up : Nest ℝ k → F) (x0 : E) (d : Fin (k + 1) → E) (w : World ℝ) (w' : World F) (p : Prog ℝ)
    (G : List (E → ℝ)) : Prop :=
  ∃ Y : List (E → ℝ), (∀ g ∈ Y, ContDiffAt ℝ ω g x0) ∧
    (p.liftN k).runVia up (G.map (jetA x0 k d)) w' = (.ok (Y.map (jetA x0 k d)), w') ∧
    ∀ᶠ z in 𝓝 x0, ∀ env, OverF G z env → ∃ ys, p.run env w = (.ok ys, w) ∧ OverF Y z ys

theorem nestN_prog {k0 : Nat} {F : Type} (up : Nest ℝ k0 → F) (d : Fin (k0 + 1) → E) (w : World ℝ) (w' : World F) (p : Prog ℝ) :
    ∀ (G : List (E → ℝ)) (env0 : List (AFloat ℝ)), (∀ g ∈ G, ContDiffAt ℝ ω g x0) → OverF G x0 env0 →
    p.Along analyticOps w env0 → (∃ y, (p.run env0 w).1 = .ok y) → NestNOk up x0 d w w' p G := by
  induction p with
  | panic => rintro G env0 hG ho hal ⟨y, hy⟩; cases hy
  | ret outs =>
    rintro G env0 hG ho hal ⟨y, hy⟩
    obtain ⟨Y, h1, h2, h3⟩ := outsN k0 d hG ho outs y hy
    refine ⟨Y, h1, ?_, Eventually.of_forall fun z env ho => ?_⟩
    · show (M.lift ((outs.map (Arg.liftN k0)).mapM (Arg.get (G.map (jetA x0 k0 d)))) : M (World F) _) w' = _
      rw [M.lift_apply, h2]
    · obtain ⟨ys, k1, k2⟩ := h3 z env ho
      exact ⟨ys, by rw [Prog.run, M.lift_apply, k1], k2⟩
  | op o a b k ih =>
    rintro G env0 hG ho hal ⟨y, hy⟩
    rcases hga : a.get env0 with err | a0
    · rw [Prog.run, hga, M.bind_error (M.lift_apply _ _)] at hy; cases hy
    rcases hgb : Arg.getOpt env0 b with err | b0
    · rw [Prog.run, hga, M.bind_ok (M.lift_apply _ _), hgb, M.bind_error (M.lift_apply _ _)] at hy; cases hy
    have har : arityOk o b0 = true := by
      by_contra hn
      rw [Prog.run, hga, M.bind_ok (M.lift_apply _ _), hgb, M.bind_ok (M.lift_apply _ _), if_neg hn] at hy
      cases hy
    obtain ⟨g, hg⟩ := argF_of_get ho hga
    -- the second operand, or the first one again
    have hb : ∃ h : E → ℝ, (b = none → h = g) ∧ (∀ c, b = some (.lit c) → h = fun _ => c) ∧ ContDiffAt ℝ ω h x0 ∧
        arityOk o b = true ∧ Arg.getOpt (G.map (jetA x0 k0 d)) (b.map (Arg.liftN k0)) = .ok (b.map fun _ => jetA x0 k0 d h) ∧
        (∀ z env, OverF G z env → ∃ b', Arg.getOpt env b = .ok b' ∧ (∀ c, b' = some c → c.ctx = none) ∧
          b'.map AFloat.v = b.map fun _ => h z) := by
      cases b with
      | none =>
        have e0 : b0 = none := by
          have : Arg.getOpt env0 none = .ok b0 := hgb
          simp only [Arg.getOpt, Except.ok.injEq] at this
          exact this.symm
        subst e0
        exact ⟨g, fun _ => rfl, fun c hc => (by cases hc), argF_smooth hG hg, har, rfl,
          fun z env _ => ⟨none, rfl, by simp, rfl⟩⟩
      | some b =>
        rcases hgb' : b.get env0 with err | b1
        · simp only [Arg.getOpt, hgb'] at hgb; cases hgb
        have e0 : b0 = some b1 := by
          simp only [Arg.getOpt, hgb'] at hgb
          injection hgb with hgb
          exact hgb.symm
        subst e0
        obtain ⟨h, hh⟩ := argF_of_get ho hgb'
        refine ⟨h, fun e => (by cases e), ?_, argF_smooth hG hh, har, ?_, ?_⟩
        · intro c hc
          injection hc with hc
          subst hc
          injection hh with hh
          exact hh.symm
        · simp only [Option.map_some, Arg.getOpt, argF_liftN k0 d G b hh]
          rfl
        · intro z env ho'
          obtain ⟨b', k1, k2, k3⟩ := argF_over ho' hh
          refine ⟨some b', by simp only [Arg.getOpt, k1]; rfl, ?_, by simp [k3]⟩
          intro c hc; injection hc with hc; subst hc; exact k2
    obtain ⟨h, hun, hlit, hh, har', hgn, hob⟩ := hb
    have cg := argF_smooth hG hg
    set r : E → ℝ := fun z => zfun o (g z) (h z) with hr
    -- the operation on a point of the family
    have hpt : ∀ z env, OverF G z env → ∃ a' b', a.get env = .ok a' ∧ Arg.getOpt env b = .ok b' ∧ arityOk o b' = true ∧
        a'.v = g z ∧ b'.map AFloat.v = (b.map fun _ => h z) ∧
        AFloat.fromOp o a' b' w = (.ok ⟨r z, opDval o a' b', none⟩, w) ∧
        (Prog.op o a b k).run env w = (k G.length (r z)).run (env ++ [⟨r z, opDval o a' b', none⟩]) w := by
      intro z env hoz
      obtain ⟨a', o1, o2, o3⟩ := argF_over hoz hg
      obtain ⟨b', p1, p2, p3⟩ := hob z env hoz
      have har2 : arityOk o b' = true := by
        cases b <;> cases b' <;> first | exact har' | cases p3
      have hv : opVal o a' b' = r z := by
        unfold opVal
        cases b with
        | none =>
          cases b' with
          | none => rw [hr, hun rfl]; simp only [Option.getD_none, o3]
          | some c => cases p3
        | some b =>
          cases b' with
          | none => cases p3
          | some c => injection p3 with p3; rw [hr]; simp only [Option.getD_some, o3, p3]
      refine ⟨a', b', o1, p1, har2, o3, p3, ?_, ?_⟩
      · rw [fromOp_free w har2 o2 p2, hv]
      · rw [Calculus.run_op_eq o1 p1 har2 o2 p2, hv, hoz.length]
    obtain ⟨a', b', q1, q2, q3, q4, q5, q6, q7⟩ := hpt x0 env0 ho
    obtain ⟨hP, ⟨ε, he, hstab⟩, hnext⟩ := hal a' b' _ q1 q2 q3 (by rw [q6])
    -- the nested operation
    have hna := argF_liftN (x0 := x0) k0 d G a hg
    have harn : arityOk o (b.map fun _ => jetA x0 k0 d h) = true := by cases b <;> exact har'
    have hctx : ∀ c, (b.map fun _ => jetA x0 k0 d h) = some c → c.ctx = none := by
      intro c hc
      cases b with
      | none => cases hc
      | some b => injection hc with hc; subst hc; rfl
    have hgd : (b.map fun _ => jetA x0 k0 d h).getD (jetA x0 k0 d g) = jetA x0 k0 d h := by
      cases b with
      | none => rw [hun rfl]; rfl
      | some b => rfl
    have hfr := fromOpVia_free (up := up) w' harn (a := jetA x0 k0 d g) rfl hctx
    have hj : zfun o (jetN x0 (k0 + 1) d g) (jetN x0 (k0 + 1) d h) = jetN x0 (k0 + 1) d r := jetN_op (k0 + 1) d hP cg hh
    rw [zfun_succ hP] at hj
    have hrun := runVia_op_eq (up := up) (k := fun i v => (k i (Nest.val k0 v)).liftN k0) (w := w') hna hgn harn rfl hctx
    have hval : opVal o (jetA x0 k0 d g) (b.map fun _ => jetA x0 k0 d h) = jetN x0 k0 (Fin.tail d) r := by
      unfold opVal
      rw [hgd]
      exact congrArg AFloat.v hj
    have hdval : opDval o (jetA x0 k0 d g) (b.map fun _ => jetA x0 k0 d h) =
        jetN x0 k0 (Fin.tail d) fun z => fderiv ℝ r z (d 0) := by
      unfold opDval
      rw [hgd]
      exact congrArg AFloat.dv hj
    have hlist : G.map (jetA x0 k0 d) ++ [(⟨jetN x0 k0 (Fin.tail d) r, jetN x0 k0 (Fin.tail d) fun z => fderiv ℝ r z (d 0), none⟩ :
        AFloat (Nest ℝ k0))] = (G ++ [r]).map (jetA x0 k0 d) := by
      rw [List.map_append]; rfl
    rw [hval, hdval, hlist, List.length_map, jetN_val] at hrun
    have cr : ContDiffAt ℝ ω r x0 := analytic_contDiff hP cg hh
    have hG' : ∀ q ∈ G ++ [r], ContDiffAt ℝ ω q x0 := by
      intro q hq
      rcases List.mem_append.mp hq with hq | hq
      · exact hG q hq
      · rw [List.mem_singleton] at hq; subst hq; exact cr
    rw [ho.length] at hstab hnext
    obtain ⟨Y, y1, y2, y3⟩ := ih G.length (r x0) (G ++ [r]) _ hG' (ho.append rfl) hnext
      ⟨y, by rw [q7] at hy; exact hy⟩
    refine ⟨Y, y1, hrun.trans y2, ?_⟩
    have hnear : ∀ᶠ z in 𝓝 x0, |r z - r x0| < ε := by
      have := cr.continuousAt.eventually (Metric.ball_mem_nhds (r x0) he)
      filter_upwards [this] with z hz
      rwa [Real.dist_eq] at hz
    filter_upwards [y3, hnear] with z z1 z2 env hoz
    obtain ⟨a2, b2, -, -, -, -, -, -, r7⟩ := hpt z env hoz
    rw [r7, hstab _ z2]
    exact z1 _ (hoz.append rfl)

theorem jetA_val (k : Nat) (d : Fin (k + 1) → E) (G : List (E → ℝ)) :
    ((G.map (jetA x0 k d)).map AFloat.v).map (Nest.val k) = G.map fun g => g x0 := by
  rw [List.map_map, List.map_map]
  exact List.map_congr_left fun g _ => jetN_val k (Fin.tail d) g

theorem nestN_progs {k0 : Nat} {F : Type} (up : Nest ℝ k0 → F) (d : Fin (k0 + 1) → E) (w : World ℝ) (w' : World F) :
    ∀ (ps : List (List ℝ → Prog ℝ)) (G : List (E → ℝ)) (env0 : List (AFloat ℝ)), (∀ g ∈ G, ContDiffAt ℝ ω g x0) →
    OverF G x0 env0 → alongProgs analyticOps w ps env0 → (∃ y, (runProgs ps env0 w).1 = .ok y) →
    ∃ Y : List (E → ℝ), (∀ g ∈ Y, ContDiffAt ℝ ω g x0) ∧
      runProgsVia up (ps.map fun p xs => (p (xs.map (Nest.val k0))).liftN k0) (G.map (jetA x0 k0 d)) w' =
        (.ok (Y.map (jetA x0 k0 d)), w') ∧
      ∀ᶠ z in 𝓝 x0, ∀ env, OverF G z env → ∃ ys, runProgs ps env w = (.ok ys, w) ∧ OverF Y z ys
  | [], G, env0, hG, ho, hal, hok => ⟨G, hG, rfl, Eventually.of_forall fun z env ho => ⟨env, rfl, ho⟩⟩
  | p :: ps, G, env0, hG, ho, ⟨⟨ε, he, hstab⟩, hal, hnext⟩, ⟨y, hy⟩ => by
      rw [ho.2] at hal hnext
      have hp : ∃ y, ((p (G.map fun g => g x0)).run env0 w).1 = .ok y := by
        rw [runProgs, ho.2, M.bind_apply] at hy
        rcases h : (p (G.map fun g => g x0)).run env0 w with ⟨e | y', w'⟩
        · rw [h] at hy; cases hy
        · exact ⟨y', by rw [h]⟩
      obtain ⟨Y, y1, y2, y3⟩ := nestN_prog up d w w' _ G env0 hG ho hal hp
      obtain ⟨ys, r1, r2⟩ := y3.self_of_nhds env0 ho
      obtain ⟨Z, z1, z2, z3⟩ := nestN_progs up d w w' ps Y ys y1 r2 (hnext ys (by rw [r1])) (by
        refine ⟨y, ?_⟩
        rw [runProgs, ho.2, M.bind_ok r1] at hy
        exact hy)
      refine ⟨Z, z1, ?_, ?_⟩
      · show (((p (((G.map (jetA x0 k0 d)).map AFloat.v).map (Nest.val k0))).liftN k0).runVia up (G.map (jetA x0 k0 d)) >>=
          fun y => runProgsVia up _ y) w' = _
        rw [jetA_val, M.bind_ok y2, z2]
      have hnear : ∀ᶠ z in 𝓝 x0, ∀ g ∈ G, |g z - g x0| < ε := by
        refine near_all fun g hg => ?_
        have := (hG g hg).continuousAt.eventually (Metric.ball_mem_nhds (g x0) he)
        filter_upwards [this] with z hz
        rwa [Real.dist_eq] at hz
      filter_upwards [y3, z3, hnear] with z hz1 hz2 hz3 env hoz
      have hpe : p (env.map AFloat.v) = p (G.map fun g => g x0) := by
        rw [← ho.2]
        apply hstab
        · rw [List.length_map, hoz.length, ho.length]
        · intro i h1 h2
          have e1 := List.getElem_of_eq hoz.2 (i := i) h1
          have e2 := List.getElem_of_eq ho.2 (i := i) (by simpa using h2)
          simp only [List.getElem_map] at e1 e2 ⊢
          rw [e1, e2]
          exact hz3 _ (List.getElem_mem _)
      obtain ⟨zs, k1, k2⟩ := hz1 env hoz
      obtain ⟨us, k3, k4⟩ := hz2 zs k2
      exact ⟨us, by rw [runProgs, hpe, M.bind_ok k1, k3], k4⟩

end jets

/-- The input variables. -/
theorem jetN_coord {n : Nat} {x : Fin n → ℝ} : ∀ (k : Nat) (d : Fin k → Fin n → ℝ) (i : Fin n),
    jetN x k d (fun z => z i) = nestedN k x d i
  | 0, _, _ => rfl
  | k + 1, d, i => by
      have h : (fun z : Fin n → ℝ => fderiv ℝ (fun z : Fin n → ℝ => z i) z (d 0)) = fun _ => d 0 i := by
        funext z
        rw [show fderiv ℝ (fun z : Fin n → ℝ => z i) z = ContinuousLinearMap.proj i from (hasFDerivAt_apply i z).fderiv]
        rfl
      rw [jetN_succ, h, jetN_coord k, jetN_const]
      rfl

/-- Generic code on variables nested `k + 1` times. -/
theorem nestN_func {k : Nat} {T : Type} {up : Nest ℝ k → T} {f : Func ℝ} {n : Nat} {x : Fin n → ℝ} (d : Fin (k + 1) → Fin n → ℝ)
    {w : World ℝ} {w' : World T} {y0 : List ℝ} (he : (f.evalFloat (List.ofFn x) w).1 = .ok y0)
    (hs : f.Along analyticOps w (duals x 0)) :
    ∃ F : (Fin n → ℝ) → Fin y0.length → ℝ, (∀ᶠ z in 𝓝 x, (f.evalFloat (List.ofFn z) w).1 = .ok (List.ofFn (F z))) ∧
      ContDiffAt ℝ ω F x ∧
      (f.nestN k).evalVia up (nestedVars k x d) w' = (.ok (List.ofFn fun i => jetA x k d fun z => F z i), w') := by
  let G : List ((Fin n → ℝ) → ℝ) := List.ofFn fun i z => z i
  have hG : ∀ g ∈ G, ContDiffAt ℝ ω g x := by
    intro g hg
    obtain ⟨i, rfl⟩ := List.mem_ofFn.mp hg
    exact contDiffAt_pi.mp contDiffAt_id i
  have hov : ∀ z, OverF G z (duals z 0) := fun z => ⟨duals_ctx _ _, by rw [duals_v, List.map_ofFn]; rfl⟩
  have hjet : G.map (jetA x k d) = nestedVars k x d := by
    rw [List.map_ofFn, nestedVars]
    congr 1
    funext i
    exact jetN_coord (k + 1) d i
  have hok : ∃ ys, (runProgs f.progs (duals x 0) w).1 = .ok ys := by
    have he' := he
    rw [Func.evalFloat_eq] at he'
    obtain ⟨ys, h1, h2⟩ := Func.evalD_ok (dx := List.ofFn (0 : Fin n → ℝ)) (by simp) he'
    rw [← Func.eval_eq, duals_zip, Func.eval_new, h1]
    exact ⟨_, rfl⟩
  obtain ⟨Y, y1, y2, y3⟩ := nestN_progs (x0 := x) up d w w' f.progs G _ hG (hov x) hs hok
  have hev : ∀ᶠ z in 𝓝 x, (f.evalFloat (List.ofFn z) w).1 = .ok (Y.map fun q => q z) := by
    filter_upwards [y3] with z hz
    obtain ⟨zs, k1, k2⟩ := hz (duals z 0) (hov z)
    rw [evalFloat_of_run k1, k2.2]
  have hx := hev.self_of_nhds
  rw [he] at hx
  injection hx with hx
  subst hx
  refine ⟨fun z i => (Y[i]'(by have := i.2; simpa using this)) z, ?_, ?_, ?_⟩
  · filter_upwards [hev] with z hz
    rw [hz]
    congr 1
    apply List.ext_getElem
    · simp
    · intro i h1 h2; simp
  · exact contDiffAt_pi.mpr fun i => y1 _ (List.getElem_mem _)
  · rw [evalVia_eq, progs_nestN, ← hjet, y2]
    congr 2
    apply List.ext_getElem
    · simp
    · intro i h1 h2; simp

/-! ### The coefficients -/

section coef
variable {E : Type} [NormedAddCommGroup E] [NormedSpace ℝ E] {x : E}

theorem coef_jetN : ∀ (k : Nat) (p : Fin k → Bool) (d : Fin k → E) (g : E → ℝ),
    Nest.coef k p (jetN x k d g) = pathDeriv k p d g x
  | 0, _, _, _ => rfl
  | k + 1, p, d, g => by
      show Nest.coef k (Fin.tail p) (bif p 0 then jetN x k (Fin.tail d) fun z => fderiv ℝ g z (d 0) else jetN x k (Fin.tail d) g) =
        pathDeriv k (Fin.tail p) (Fin.tail d) (bif p 0 then fun z => fderiv ℝ g z (d 0) else g) x
      cases p 0
      · exact coef_jetN k _ _ _
      · exact coef_jetN k _ _ _

theorem pathDeriv_comp {m : Nat} (i : Fin m) : ∀ (k : Nat) (p : Fin k → Bool) (d : Fin k → E) {F : E → Fin m → ℝ} {g : E → ℝ},
    ContDiffAt ℝ ω F x → g =ᶠ[𝓝 x] (fun z => F z i) → pathDeriv k p d g x = pathDeriv k p d F x i
  | 0, _, _, F, g, _, hg => hg.eq_of_nhds
  | k + 1, p, d, F, g, hF, hg => by
      have hd : ∀ᶠ z in 𝓝 x, DifferentiableAt ℝ F z :=
        ((hF.of_le (m := 1) (by simp)).eventually (by simp)).mono fun z hz => hz.differentiableAt (by norm_num)
      have hg' : (fun z => fderiv ℝ g z (d 0)) =ᶠ[𝓝 x] fun z => fderiv ℝ F z (d 0) i := by
        filter_upwards [(hg.fderiv : fderiv ℝ g =ᶠ[𝓝 x] fderiv ℝ fun z => F z i), hd] with z h1 h2
        rw [h1, ((hasFDerivAt_pi'.mp h2.hasFDerivAt) i).fderiv]
        rfl
      have hF' : ContDiffAt ℝ ω (fun z => fderiv ℝ F z (d 0)) x := (hF.fderiv_right (m := ω) (by simp)).clm_apply contDiffAt_const
      show pathDeriv k (Fin.tail p) (Fin.tail d) (bif p 0 then fun z => fderiv ℝ g z (d 0) else g) x =
        pathDeriv k (Fin.tail p) (Fin.tail d) (bif p 0 then fun z => fderiv ℝ F z (d 0) else F) x i
      cases p 0
      · exact pathDeriv_comp i k _ _ hF hg
      · exact pathDeriv_comp i k _ _ hF' hg'

theorem pathDeriv_top {Y : Type} [NormedAddCommGroup Y] [NormedSpace ℝ Y] : ∀ (k : Nat) (d : Fin k → E) {F : E → Y},
    ContDiffAt ℝ ω F x → pathDeriv k (fun _ => true) d F x = iteratedFDeriv ℝ k F x (fun i => d (Fin.rev i))
  | 0, _, F, _ => by rw [iteratedFDeriv_zero_apply]; rfl
  | k + 1, d, F, hF => by
      have hF' : ContDiffAt ℝ ω (fderiv ℝ F) x := hF.fderiv_right (m := ω) (by simp)
      have h1 := pathDeriv_top k (Fin.tail d) (F := fun z => fderiv ℝ F z (d 0)) (hF'.clm_apply contDiffAt_const)
      have h2 := ContinuousLinearMap.iteratedFDeriv_comp_left (ContinuousLinearMap.apply ℝ Y (d 0)) hF' (i := k) (by simp)
      rw [iteratedFDeriv_succ_apply_right]
      have e : (Fin.rev (Fin.last k)) = 0 := by simp
      rw [e]
      refine h1.trans ?_
      have h3 := congrArg (fun M => M fun i => Fin.tail d (Fin.rev i)) h2
      refine h3.trans ?_
      show iteratedFDeriv ℝ k (fderiv ℝ F) x _ (d 0) = _
      congr 2
      funext i
      show d (Fin.succ (Fin.rev i)) = d (Fin.rev (Fin.castSucc i))
      rw [Fin.rev_castSucc]

end coef

/-- The outputs. -/
theorem nestN_outputs {n m k : Nat} {F : (Fin n → ℝ) → Fin m → ℝ} {x : Fin n → ℝ} (hF : ContDiffAt ℝ ω F x)
    (p : Fin (k + 1) → Bool) (d : Fin (k + 1) → Fin n → ℝ) :
    (List.ofFn fun i => jetA x k d fun z => F z i).map (AFloat.coef k p) = List.ofFn (pathDeriv (k + 1) p d F x) := by
  rw [List.map_ofFn]
  congr 1
  funext i
  exact (coef_jetN (k + 1) p d _).trans (pathDeriv_comp i (k + 1) p d hF (EventuallyEq.refl _ _))

end Adv
