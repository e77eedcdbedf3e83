import Verif.Spec.Nested
import Verif.Proof.Deriv

/-!
# Nested variables compute second derivatives
-/

set_option linter.unusedSectionVars false

namespace Adv
open scoped Adv Topology
open Filter

section free
variable {S F : Type} [Flt S]

theorem plainOp_eq {o : OpCode} {a : AFloat S} {b : Option (AFloat S)} (h : arityOk o b = true) :
    AFloat.plainOp o a b = ⟨opVal o a b, opDval o a b, none⟩ := by
  unfold AFloat.plainOp
  rw [zov_ok h, fov_ok h, getD_v, getD_dv]
  rfl

theorem runVia_op_eq {up : S → F} {o : OpCode} {a : Arg S} {b : Option (Arg S)} {k : Nat → S → Prog S}
    {env : List (AFloat S)} {w : World F} {a' : AFloat S} {b' : Option (AFloat S)} (ha : a.get env = .ok a')
    (hb : Arg.getOpt env b = .ok b') (har : arityOk o b' = true) (hca : a'.ctx = none)
    (hcb : ∀ c, b' = some c → c.ctx = none) :
    (Prog.op o a b k).runVia up env w =
      (k env.length (opVal o a' b')).runVia up (env ++ [⟨opVal o a' b', opDval o a' b', none⟩]) w := by
  rw [Prog.runVia, ha, M.bind_ok (M.lift_apply _ _), hb, M.bind_ok (M.lift_apply _ _), if_pos har,
    M.bind_ok (fromOpVia_free w har hca hcb)]

/-- The links of a chain, one after the other. -/
def runProgsVia (up : S → F) : List (List S → Prog S) → List (AFloat S) → M (World F) (List (AFloat S))
  | [], x => pure x
  | p :: ps, x => do
      let y ← (p (x.map AFloat.v)).runVia up x
      runProgsVia up ps y

theorem runProgsVia_append (up : S → F) : ∀ (ps qs : List (List S → Prog S)) (x : List (AFloat S)) (w : World F),
    runProgsVia up (ps ++ qs) x w = (runProgsVia up ps x >>= runProgsVia up qs) w
  | [], qs, x, w => rfl
  | p :: ps, qs, x, w => by
    show ((p (x.map AFloat.v)).runVia up x >>= fun y => runProgsVia up (ps ++ qs) y) w = _
    rw [M.bind_apply]
    show _ = (((p (x.map AFloat.v)).runVia up x >>= fun y => runProgsVia up ps y) >>= runProgsVia up qs) w
    rw [M.bind_apply, M.bind_apply]
    rcases (p (x.map AFloat.v)).runVia up x w with ⟨e | y, w'⟩
    · rfl
    · exact runProgsVia_append up ps qs y w'

mutual
theorem evalVia_eq (up : S → F) : ∀ (f : Func S) (x : List (AFloat S)) (w : World F),
    f.evalVia up x w = runProgsVia up f.progs x w
  | .simple n m f, x, w => by
    show (f (x.map AFloat.v)).runVia up x w = ((f (x.map AFloat.v)).runVia up x >>= fun y => pure y) w
    rw [M.bind_apply]
    rcases (f (x.map AFloat.v)).runVia up x w with ⟨e | y, w'⟩ <;> rfl
  | .chain fs, x, w => evalAllVia_eq up fs x w
theorem evalAllVia_eq (up : S → F) : ∀ (fs : List (Func S)) (x : List (AFloat S)) (w : World F),
    Func.evalAllVia up fs x w = runProgsVia up (Func.progsAll fs) x w
  | [], x, w => rfl
  | f :: fs, x, w => by
    show (f.evalVia up x >>= fun y => Func.evalAllVia up fs y) w = runProgsVia up (f.progs ++ Func.progsAll fs) x w
    rw [runProgsVia_append, M.bind_apply, M.bind_apply, evalVia_eq up f]
    rcases runProgsVia up f.progs x w with ⟨e | y, w'⟩
    · rfl
    · exact evalAllVia_eq up fs y w'
end

mutual
theorem progs_nest : ∀ f : Func S, f.nest.progs = f.progs.map fun p xs => (p (xs.map AFloat.v)).nest
  | .simple _ _ _ => rfl
  | .chain fs => progsAll_nest fs
theorem progsAll_nest : ∀ fs : List (Func S),
    Func.progsAll (Func.nestAll fs) = (Func.progsAll fs).map fun p xs => (p (xs.map AFloat.v)).nest
  | [] => rfl
  | f :: fs => by
    show f.nest.progs ++ Func.progsAll (Func.nestAll fs) = (f.progs ++ Func.progsAll fs).map _
    rw [List.map_append, progs_nest f, progsAll_nest fs]
end

/-! ### The variables inside -/

/-- No context outside or inside. -/
def AFloat.Free2 (a : AFloat (AFloat S)) : Prop := a.ctx = none ∧ a.v.ctx = none

theorem zfun_nest {o : OpCode} {b : Option (AFloat S)} (h : arityOk o b = true) (a : AFloat S) :
    zfun o a (b.getD a) = AFloat.plainOp o a b := by
  cases b <;> cases o <;> first | rfl | cases h

theorem nest_get (X : List (AFloat (AFloat S))) (a : Arg S) :
    (a.nest.get X).map AFloat.v = a.get (X.map AFloat.v) := by
  cases a with
  | var i =>
    simp only [Arg.nest, Arg.get, List.getElem?_map]
    rcases X[i]? with _ | a <;> rfl
  | lit c => rfl

theorem nest_get_free {X : List (AFloat (AFloat S))} (hX : ∀ a ∈ X, a.Free2) {a : Arg S} {a' : AFloat (AFloat S)}
    (h : a.nest.get X = .ok a') : a'.Free2 := by
  cases a with
  | var i =>
    simp only [Arg.nest, Arg.get] at h
    rcases hi : X[i]? with _ | b
    · rw [hi] at h; cases h
    · rw [hi] at h
      injection h with h
      subst h
      exact hX _ (List.mem_of_getElem? hi)
  | lit c =>
    injection h with h
    subst h
    exact ⟨rfl, rfl⟩

theorem nest_prog_values (up : AFloat S → F) (w : World F) (w' : World S) (p : Prog S) : ∀ X : List (AFloat (AFloat S)),
    (∀ a ∈ X, a.Free2) → ∃ r, p.nest.runVia up X w = (r, w) ∧ (∀ ys, r = .ok ys → ∀ a ∈ ys, a.Free2) ∧
      p.run (X.map AFloat.v) w' = (r.map (List.map AFloat.v), w') := by
  induction p with
  | panic => exact fun X _ => ⟨_, rfl, by rintro ys ⟨⟩, rfl⟩
  | ret outs =>
    intro X hX
    refine ⟨_, M.lift_apply _ _, ?_, ?_⟩
    · clear w w'
      intro ys
      induction outs generalizing ys with
      | nil => rintro ⟨⟩; simp
      | cons o outs ih =>
        intro h
        rw [List.map_cons, List.mapM_cons] at h
        rcases ho : o.nest.get X with err | a'
        · rw [ho] at h; cases h
        rw [ho, bind_ok_eq] at h
        rcases hr : (outs.map Arg.nest).mapM (Arg.get X) with err | zs
        · rw [hr] at h; cases h
        rw [hr, bind_ok_eq] at h
        injection h with h
        subst h
        intro a ha
        rcases List.mem_cons.mp ha with rfl | ha
        · exact nest_get_free hX ho
        · exact ih zs hr a ha
    · rw [Prog.run, M.lift_apply]
      congr 1
      clear w w'
      induction outs with
      | nil => rfl
      | cons o outs ih =>
        rw [List.map_cons, List.mapM_cons, List.mapM_cons, ← nest_get, ih]
        rcases o.nest.get X with err | a'
        · rfl
        · rcases (outs.map Arg.nest).mapM (Arg.get X) with err | zs <;> rfl
  | op o a b k ih =>
    intro X hX
    have hga := nest_get X a
    rcases hqa : a.nest.get X with err | a'
    · rw [hqa] at hga
      refine ⟨.error err, ?_, by rintro ys ⟨⟩, ?_⟩
      · show (Prog.op o a.nest (b.map Arg.nest) _).runVia up X w = _
        rw [Prog.runVia, hqa, M.bind_error (M.lift_apply _ _)]
      · rw [Prog.run, ← hga]; rfl
    rw [hqa] at hga
    have hgb : (Arg.getOpt X (b.map Arg.nest)).map (Option.map AFloat.v) = Arg.getOpt (X.map AFloat.v) b := by
      cases b with
      | none => rfl
      | some b =>
        simp only [Arg.getOpt, Option.map_some]
        rw [← nest_get]
        rcases b.nest.get X with err | b' <;> rfl
    rcases hqb : Arg.getOpt X (b.map Arg.nest) with err | b'
    · rw [hqb] at hgb
      refine ⟨.error err, ?_, by rintro ys ⟨⟩, ?_⟩
      · show (Prog.op o a.nest (b.map Arg.nest) _).runVia up X w = _
        rw [Prog.runVia, hqa, M.bind_ok (M.lift_apply _ _), hqb, M.bind_error (M.lift_apply _ _)]
      · rw [Prog.run, ← hga, ← hgb]; rfl
    rw [hqb] at hgb
    have hga : a.get (X.map AFloat.v) = .ok a'.v := hga.symm
    have hgb : Arg.getOpt (X.map AFloat.v) b = .ok (b'.map AFloat.v) := hgb.symm
    have hfa := nest_get_free hX hqa
    have hfb : ∀ c, b' = some c → c.Free2 := by
      rintro c rfl
      cases b with
      | none => cases hqb
      | some b =>
        simp only [Arg.getOpt, Option.map_some] at hqb
        rcases hb : b.nest.get X with err | b1
        · rw [hb] at hqb; cases hqb
        · rw [hb] at hqb
          injection hqb with hqb
          injection hqb with hqb
          subst hqb
          exact nest_get_free hX hb
    have harv : arityOk o (b'.map AFloat.v) = arityOk o b' := by cases b' <;> rfl
    by_cases har : arityOk o b' = true
    · have h1 : (Prog.op o a b k).nest.runVia up X w = _ :=
        runVia_op_eq (k := fun i v => (k i v.v).nest) hqa hqb har hfa.1 fun c hc => (hfb c hc).1
      have hv : opVal o a' b' = AFloat.plainOp o a'.v (b'.map AFloat.v) := by
        rw [← zfun_nest (by rw [harv]; exact har)]
        unfold opVal
        cases b' <;> rfl
      have h2 : AFloat.fromOp o a'.v (b'.map AFloat.v) w' = (.ok (AFloat.plainOp o a'.v (b'.map AFloat.v)), w') := by
        rw [fromOp_free w' (by rw [harv]; exact har) hfa.2, plainOp_eq (by rw [harv]; exact har)]
        intro c hc
        cases b' with
        | none => cases hc
        | some b' => injection hc with hc; subst hc; exact (hfb b' rfl).2
      have hctx : (AFloat.plainOp o a'.v (b'.map AFloat.v)).ctx = none := by
        rw [plainOp_eq (by rw [harv]; exact har)]
      obtain ⟨r, r1, r2, r3⟩ := ih X.length (opVal o a' b').v (X ++ [⟨opVal o a' b', opDval o a' b', none⟩]) (by
        intro c hc
        rcases List.mem_append.mp hc with hc | hc
        · exact hX c hc
        · rw [List.mem_singleton] at hc
          subst hc
          exact ⟨rfl, by rw [hv]; exact hctx⟩)
      refine ⟨r, h1.trans r1, r2, ?_⟩
      rw [Prog.run, hga, M.bind_ok (M.lift_apply _ _), hgb, M.bind_ok (M.lift_apply _ _),
        if_pos (by rw [harv]; exact har), M.bind_ok h2, ← r3, hv, List.map_append, List.length_map]
      rfl
    · refine ⟨.error .unbound, ?_, by rintro ys ⟨⟩, ?_⟩
      · show (Prog.op o a.nest (b.map Arg.nest) _).runVia up X w = _
        rw [Prog.runVia, hqa, M.bind_ok (M.lift_apply _ _), hqb, M.bind_ok (M.lift_apply _ _), if_neg har]
        rfl
      · rw [Prog.run, hga, M.bind_ok (M.lift_apply _ _), hgb, M.bind_ok (M.lift_apply _ _),
          if_neg (by rw [harv]; exact har)]
        rfl

theorem nest_progs_values (up : AFloat S → F) (w : World F) (w' : World S) : ∀ (ps : List (List S → Prog S))
    (X : List (AFloat (AFloat S))), (∀ a ∈ X, a.Free2) →
    ∃ r, runProgsVia up (ps.map fun p xs => (p (xs.map AFloat.v)).nest) X w = (r, w) ∧
      runProgs ps (X.map AFloat.v) w' = (r.map (List.map AFloat.v), w')
  | [], X, hX => ⟨_, rfl, rfl⟩
  | p :: ps, X, hX => by
      obtain ⟨r, r1, r2, r3⟩ := nest_prog_values up w w' (p ((X.map AFloat.v).map AFloat.v)) X hX
      cases r with
      | error err =>
        refine ⟨.error err, ?_, ?_⟩
        · show ((p ((X.map AFloat.v).map AFloat.v)).nest.runVia up X >>= fun y => runProgsVia up _ y) w = _
          rw [M.bind_error r1]
        · rw [runProgs, M.bind_error r3]; rfl
      | ok ys =>
        obtain ⟨q, q1, q2⟩ := nest_progs_values up w w' ps ys (r2 ys rfl)
        refine ⟨q, ?_, ?_⟩
        · show ((p ((X.map AFloat.v).map AFloat.v)).nest.runVia up X >>= fun y => runProgsVia up _ y) w = _
          rw [M.bind_ok r1, q1]
        · rw [runProgs, M.bind_ok r3, q2]

end free

/-! ### Arithmetic of the variables inside -/

section arith
variable {S : Type} [Flt S] (a b : AFloat S)

theorem nest_mul : a *ᶠ b = ⟨a.v *ᶠ b.v, a.dv *ᶠ b.v +ᶠ a.v *ᶠ b.dv, none⟩ := rfl
theorem nest_add : a +ᶠ b = ⟨a.v +ᶠ b.v, a.dv +ᶠ b.dv, none⟩ := rfl
theorem nest_sub : a -ᶠ b = ⟨a.v -ᶠ b.v, a.dv -ᶠ b.dv, none⟩ := rfl
theorem nest_neg : Flt.neg a =
    ⟨(Flt.zero -ᶠ Flt.one) *ᶠ a.v, (Flt.zero -ᶠ Flt.zero) *ᶠ a.v +ᶠ (Flt.zero -ᶠ Flt.one) *ᶠ a.dv, none⟩ := rfl
theorem nest_cos : Flt.cos a = ⟨Flt.cos a.v, Flt.neg a.dv *ᶠ Flt.sin a.v, none⟩ := rfl
theorem nest_sin : Flt.sin a = ⟨Flt.sin a.v, a.dv *ᶠ Flt.cos a.v, none⟩ := rfl
theorem nest_powf : Flt.powf a b = ⟨Flt.powf a.v b.v, ffun .Powf a.v b.v a.dv b.dv, none⟩ := rfl
theorem nest_eq : Flt.eq a b = Flt.eq a.v b.v := rfl
theorem nest_zero : (Flt.zero : AFloat S) = ⟨Flt.zero, Flt.zero, none⟩ := rfl
theorem nest_one : (Flt.one : AFloat S) = ⟨Flt.one, Flt.zero, none⟩ := rfl

end arith

/-! ## Jets -/

section jets
variable {E : Type} [NormedAddCommGroup E] [NormedSpace ℝ E] {x0 e : E} {g h : E → ℝ}

/-- Value and derivative of a function at `x0` in direction `e`. -/
noncomputable def jetAt (x0 e : E) (g : E → ℝ) : AFloat ℝ := AFloat.new (g x0) (fderiv ℝ g x0 e)

theorem jetAt_congr (hgh : g =ᶠ[𝓝 x0] h) : jetAt x0 e g = jetAt x0 e h := by
  unfold jetAt
  rw [hgh.eq_of_nhds, hgh.fderiv_eq]

theorem jetAt_const (c : ℝ) : jetAt x0 e (fun _ => c) = AFloat.ofScalar c := by
  unfold jetAt AFloat.ofScalar
  rw [fderiv_const_apply]
  rfl

/-- The operation `o` on jets. -/
def JetOp (x0 e : E) (o : OpCode) (g h : E → ℝ) (b : Option (AFloat ℝ)) : Prop :=
  DifferentiableAt ℝ (fun z => zfun o (g z) (h z)) x0 ∧
    AFloat.plainOp o (jetAt x0 e g) b = jetAt x0 e fun z => zfun o (g z) (h z)

theorem njet_un {o : OpCode} (ho : o.isUnary = true) (habs : o ≠ .Abs) (hg : DifferentiableAt ℝ g x0)
    (hs : SmoothOp o none (g x0) none) : JetOp x0 e o g g none := by
  obtain ⟨k, h1, -, h2⟩ := smooth_un ho habs hs
  have h3 := h1.comp_hasFDerivAt x0 hg.hasFDerivAt
  refine ⟨h3.differentiableAt, ?_⟩
  rw [plainOp_eq (by exact ho)]
  unfold jetAt
  have h4 : fderiv ℝ (fun z => zfun o (g z) (g z)) x0 = k • fderiv ℝ g x0 := h3.fderiv
  rw [h4]
  have : opDval o (AFloat.new (g x0) (fderiv ℝ g x0 e)) none = k * fderiv ℝ g x0 e := h2 _
  rw [this]
  rfl

theorem njet_bin {o : OpCode} (ho : o.isBinary = true) (arg : Arg ℝ) (hg : DifferentiableAt ℝ g x0)
    (hh : DifferentiableAt ℝ h x0) (hlit : ∀ c, arg = .lit c → h = fun _ => c)
    (hs : SmoothOp o (some arg) (g x0) (some (h x0))) : JetOp x0 e o g h (some (jetAt x0 e h)) := by
  obtain ⟨φ, L, h1, -, h2, h3⟩ := smooth_bin ho hs fun c hc => by rw [hlit c hc]
  have hc := HasFDerivAt.comp (g := φ) (f := fun z => (g z, h z)) x0 h1 (hg.hasFDerivAt.prodMk hh.hasFDerivAt)
  have he : (fun z => zfun o (g z) (h z)) = φ ∘ fun z => (g z, h z) := by
    funext z
    exact h2 _ _ fun c hc => by rw [hlit c hc]
  refine ⟨by rw [he]; exact hc.differentiableAt, ?_⟩
  rw [plainOp_eq (by exact ho), he]
  unfold jetAt
  rw [hc.fderiv]
  have : opDval o (AFloat.new (g x0) (fderiv ℝ g x0 e)) (some (AFloat.new (h x0) (fderiv ℝ h x0 e))) =
      L (fderiv ℝ g x0 e, fderiv ℝ h x0 e) := h3 _ _ fun c hc => by rw [hlit c hc, fderiv_const_apply]; rfl
  rw [this]
  show (⟨zfun o (g x0) (h x0), _, none⟩ : AFloat ℝ) = ⟨φ (g x0, h x0), _, none⟩
  rw [← h2 _ _ fun c hc => by rw [hlit c hc]]
  rfl

variable (hg : DifferentiableAt ℝ g x0) (hh : DifferentiableAt ℝ h x0)
include hg

theorem njet_sin : Flt.sin (jetAt x0 e g) = jetAt x0 e fun z => Real.sin (g z) := (njet_un (o := .Sin) rfl (by simp) hg trivial).2
theorem njet_cos : Flt.cos (jetAt x0 e g) = jetAt x0 e fun z => Real.cos (g z) := (njet_un (o := .Cos) rfl (by simp) hg trivial).2
theorem njet_exp : Flt.exp (jetAt x0 e g) = jetAt x0 e fun z => Real.exp (g z) := (njet_un (o := .Exp) rfl (by simp) hg trivial).2
theorem njet_ln (h0 : 0 < g x0) : Flt.ln (jetAt x0 e g) = jetAt x0 e fun z => Real.log (g z) :=
  (njet_un (o := .Ln) rfl (by simp) hg h0).2

theorem njet_powf_int {n : ℤ} (h0 : g x0 ≠ 0 ∨ 1 ≤ n) :
    Flt.powf (jetAt x0 e g) (AFloat.ofScalar (n : ℝ)) = jetAt x0 e fun z => g z ^ (n : ℝ) := by
  rw [← jetAt_const (x0 := x0) (e := e) (n : ℝ)]
  exact (njet_bin (o := .Powf) rfl (.lit n) hg (differentiableAt_const _)
    (fun c hc => by injection hc with hc; rw [hc]) (.inr ⟨n, rfl, h0⟩)).2

theorem njet_sq : Flt.powi (jetAt x0 e g) 2 = jetAt x0 e fun z => g z ^ (2 : ℤ) := by
  have := njet_powf_int (e := e) hg (n := 2) (.inr (by norm_num))
  refine Eq.trans (b := Flt.powf (jetAt x0 e g) (AFloat.ofScalar (((2 : ℤ)) : ℝ))) rfl (this.trans ?_)
  congr 1
  funext z
  rw [Real.rpow_intCast]

theorem njet_sqrt (h0 : 0 < g x0) : Flt.sqrt (jetAt x0 e g) = jetAt x0 e fun z => Real.sqrt (g z) := by
  have : Flt.sqrt (jetAt x0 e g) = AFloat.plainOp .Powf (jetAt x0 e g) (some (AFloat.ofScalar (1 / 2 : ℝ))) := rfl
  rw [this, ← jetAt_const (x0 := x0) (e := e) (1 / 2 : ℝ), (njet_bin (o := .Powf) rfl (.var 0) hg (differentiableAt_const _)
    (fun c hc => by cases hc) (.inl h0)).2]
  congr 1
  funext z
  rw [Real.sqrt_eq_rpow]
  rfl

include hh

theorem njet_add : Flt.add (jetAt x0 e g) (jetAt x0 e h) = jetAt x0 e fun z => g z + h z :=
  (njet_bin (o := .Add) rfl (.var 0) hg hh (fun c hc => by cases hc) trivial).2
theorem njet_sub : Flt.sub (jetAt x0 e g) (jetAt x0 e h) = jetAt x0 e fun z => g z - h z :=
  (njet_bin (o := .Sub) rfl (.var 0) hg hh (fun c hc => by cases hc) trivial).2
theorem njet_mul : Flt.mul (jetAt x0 e g) (jetAt x0 e h) = jetAt x0 e fun z => g z * h z :=
  (njet_bin (o := .Mul) rfl (.var 0) hg hh (fun c hc => by cases hc) trivial).2
theorem njet_div (h0 : h x0 ≠ 0) : Flt.div (jetAt x0 e g) (jetAt x0 e h) = jetAt x0 e fun z => g z / h z :=
  (njet_bin (o := .Div) rfl (.var 0) hg hh (fun c hc => by cases hc) (fun h => h0 (by injection h))).2
theorem njet_powf (h0 : 0 < g x0) : Flt.powf (jetAt x0 e g) (jetAt x0 e h) = jetAt x0 e fun z => g z ^ h z :=
  (njet_bin (o := .Powf) rfl (.var 0) hg hh (fun c hc => by cases hc) (.inl h0)).2

omit hh
theorem njet_neg : Flt.neg (jetAt x0 e g) = jetAt x0 e fun z => -g z := by
  have : Flt.neg (jetAt x0 e g) = Flt.mul (Flt.sub (AFloat.ofScalar (0 : ℝ)) (AFloat.ofScalar (1 : ℝ))) (jetAt x0 e g) := rfl
  rw [this, ← jetAt_const (x0 := x0) (e := e) (0 : ℝ), ← jetAt_const (x0 := x0) (e := e) (1 : ℝ),
    njet_sub (differentiableAt_const _) (differentiableAt_const _), njet_mul (differentiableAt_const _) hg]
  congr 1
  funext z
  ring

/-- A factor that vanishes to first order. -/
theorem njet_mul_zero {d : E → ℝ} (hd : DifferentiableAt ℝ d x0) (h0 : d x0 = 0) (h1 : fderiv ℝ d x0 e = 0) :
    jetAt x0 e (fun z => g z * d z) = AFloat.ofScalar 0 := by
  rw [← njet_mul hg hd]
  show (⟨g x0 * d x0, fderiv ℝ g x0 e * d x0 + g x0 * fderiv ℝ d x0 e, none⟩ : AFloat ℝ) = ⟨0, 0, none⟩
  rw [h0, h1, mul_zero, mul_zero, add_zero]

omit hg

/-- The conditional of operation.rs:72-81 on jets. -/
theorem njet_if {d : E → ℝ} (hg : DifferentiableAt ℝ g x0) (hd : DifferentiableAt ℝ d x0)
    (hst : d x0 = 0 → fderiv ℝ d x0 e = 0) :
    (if !(Flt.eq (jetAt x0 e d) Flt.zero) then Flt.mul (jetAt x0 e g) (jetAt x0 e d) else Flt.zero) =
      jetAt x0 e fun z => g z * d z := by
  have heq : Flt.eq (jetAt x0 e d) Flt.zero = decide (d x0 = 0) := rfl
  rw [heq]
  by_cases h0 : d x0 = 0
  · rw [njet_mul_zero hg hd h0 (hst h0)]
    simp only [h0, decide_true, Bool.not_true, Bool.false_eq_true, if_false]
    rfl
  · simp only [h0, decide_false, Bool.not_false, if_true]
    exact njet_mul hg hd

theorem ffun_powf (a b da db : ℝ) :
    ffun .Powf a b da db = b * a ^ (b - 1) * da + Real.log a * a ^ b * db := by
  show (if !(decide (da = 0)) then b * a ^ (b - 1) * da else 0) +
    (if !(decide (db = 0)) then Real.log a * a ^ b * db else 0) = _
  by_cases e1 : da = 0 <;> by_cases e2 : db = 0 <;> simp [e1, e2]

theorem njet_ffun {o : OpCode} {arg : Option (Arg ℝ)} (ho : arityOk o arg = true) {dg dh : E → ℝ}
    (hg : DifferentiableAt ℝ g x0) (hh : DifferentiableAt ℝ h x0) (hdg : DifferentiableAt ℝ dg x0)
    (hdh : DifferentiableAt ℝ dh x0) (hs : SmoothOp2 o arg (g x0) (arg.map fun _ => h x0))
    (hlit : ∀ c, arg = some (.lit c) → h = (fun _ => c) ∧ dh = fun _ => 0)
    (hst : o = .Powf → (dg x0 = 0 → fderiv ℝ dg x0 e = 0) ∧ (dh x0 = 0 → fderiv ℝ dh x0 e = 0)) :
    ffun o (jetAt x0 e g) (jetAt x0 e h) (jetAt x0 e dg) (jetAt x0 e dh) =
      jetAt x0 e fun z => ffun o (g z) (h z) (dg z) (dh z) := by
  have h1 : (Flt.one : AFloat ℝ) = jetAt x0 e fun _ => (1 : ℝ) := (jetAt_const 1).symm
  have hc : ∀ c : ℝ, DifferentiableAt ℝ (fun _ : E => c) x0 := fun c => differentiableAt_const c
  have hsq : ∀ {f : E → ℝ}, DifferentiableAt ℝ f x0 → DifferentiableAt ℝ (fun z => f z ^ (2 : ℤ)) x0 := by
    intro f hf
    have : (fun z => f z ^ (2 : ℤ)) = fun z => f z ^ 2 := by funext z; norm_cast
    rw [this]
    exact hf.pow 2
  have hdiv : ∀ {f d : E → ℝ}, DifferentiableAt ℝ f x0 → DifferentiableAt ℝ d x0 → d x0 ≠ 0 →
      DifferentiableAt ℝ (fun z => f z / d z) x0 := fun hf hd h0 =>
    (njet_bin (e := e) (o := .Div) rfl (.var 0) hf hd (fun c hc => by cases hc) (fun h => h0 (by injection h))).1
  cases o <;> cases arg <;> simp only [arityOk, OpCode.isUnary, OpCode.isBinary, Bool.false_eq_true] at ho
  case Add => exact njet_add hdg hdh
  case Sub => exact njet_sub hdg hdh
  case Mul =>
    simp only [ffun]
    rw [njet_mul hdg hh, njet_mul hg hdh, njet_add (hdg.fun_mul hh) (hg.fun_mul hdh)]
    rfl
  case Div =>
    have h0 : h x0 ≠ 0 := fun e => hs (by simp [e])
    simp only [ffun]
    rw [njet_mul hdg hh, njet_mul hg hdh, njet_sub (hdg.fun_mul hh) (hg.fun_mul hdh), njet_sq hh,
      njet_div ((hdg.fun_mul hh).fun_sub (hg.fun_mul hdh)) (hsq hh) (zpow_ne_zero 2 h0)]
    rfl
  case Sin =>
    simp only [ffun]
    rw [njet_cos hg, njet_mul hdg hg.cos]
    rfl
  case Cos =>
    simp only [ffun]
    rw [njet_sin hg, njet_neg hdg, njet_mul hdg.fun_neg hg.sin]
    rfl
  case Tan =>
    have h0 : Real.cos (g x0) ≠ 0 := hs
    simp only [ffun]
    rw [h1, njet_cos hg, njet_sq hg.cos, njet_div (hc 1) (hsq hg.cos) (zpow_ne_zero 2 h0),
      njet_mul hdg (hdiv (hc 1) (hsq hg.cos) (zpow_ne_zero 2 h0))]
    rfl
  case Abs => exact hs.elim
  case Exp =>
    simp only [ffun]
    rw [njet_exp hg, njet_mul hdg hg.exp]
    rfl
  case Ln =>
    have h0 : g x0 ≠ 0 := ne_of_gt hs
    simp only [ffun]
    rw [h1, njet_div (hc 1) hg h0, njet_mul hdg (hdiv (hc 1) hg h0)]
    rfl
  case Asin =>
    have h0 : 0 < 1 - g x0 ^ (2 : ℤ) := by
      have : g x0 ^ (2 : ℤ) = g x0 ^ 2 := by norm_cast
      rw [this]
      nlinarith [hs.1, hs.2]
    have hd := (hc 1).fun_sub (hsq hg)
    simp only [ffun]
    rw [h1, njet_sq hg, njet_sub (hc 1) (hsq hg), njet_sqrt hd h0, njet_div hdg (hd.sqrt h0.ne') (Real.sqrt_ne_zero'.mpr h0)]
    rfl
  case Acos =>
    have h0 : 0 < 1 - g x0 ^ (2 : ℤ) := by
      have : g x0 ^ (2 : ℤ) = g x0 ^ 2 := by norm_cast
      rw [this]
      nlinarith [hs.1, hs.2]
    have hd := (hc 1).fun_sub (hsq hg)
    simp only [ffun]
    rw [h1, njet_sq hg, njet_sub (hc 1) (hsq hg), njet_sqrt hd h0, njet_neg hdg,
      njet_div hdg.fun_neg (hd.sqrt h0.ne') (Real.sqrt_ne_zero'.mpr h0)]
    rfl
  case Atan =>
    have h0 : (1 : ℝ) + g x0 ^ (2 : ℤ) ≠ 0 := by
      have : g x0 ^ (2 : ℤ) = g x0 ^ 2 := by norm_cast
      rw [this]
      positivity
    simp only [ffun]
    rw [h1, njet_sq hg, njet_add (hc 1) (hsq hg), njet_div hdg ((hc 1).fun_add (hsq hg)) h0]
    rfl
  case Powf b =>
    obtain ⟨s1, s2⟩ := hst rfl
    have hf : (fun z => ffun .Powf (g z) (h z) (dg z) (dh z)) =
        fun z => h z * g z ^ (h z - 1) * dg z + Real.log (g z) * g z ^ (h z) * dh z := by
      funext z
      exact ffun_powf _ _ _ _
    rw [hf]
    rcases hs with hs | ⟨n, hn, hs⟩
    · have d1 : DifferentiableAt ℝ (fun z => g z ^ (h z - 1)) x0 :=
        (njet_bin (e := e) (o := .Powf) rfl (.var 0) hg (hh.fun_sub (hc 1)) (fun c hc => by cases hc) (.inl hs)).1
      have d2 : DifferentiableAt ℝ (fun z => g z ^ h z) x0 :=
        (njet_bin (e := e) (o := .Powf) rfl (.var 0) hg hh (fun c hc => by cases hc) (.inl hs)).1
      have d3 : DifferentiableAt ℝ (fun z => Real.log (g z)) x0 := hg.log hs.ne'
      simp only [ffun]
      rw [h1, njet_sub hh (hc 1), njet_powf hg (hh.fun_sub (hc 1)) hs, njet_mul hh d1, njet_if (hh.fun_mul d1) hdg s1, njet_ln hg hs,
        njet_powf hg hh hs, njet_mul d3 d2, njet_if (d3.fun_mul d2) hdh s2, njet_add ((hh.fun_mul d1).fun_mul hdg) ((d3.fun_mul d2).fun_mul hdh)]
    · obtain ⟨rfl, rfl⟩ := hlit _ hn
      have h2 : (fun z => (n : ℝ) * g z ^ ((n : ℝ) - 1) * dg z + Real.log (g z) * g z ^ (n : ℝ) * 0) =
          fun z => (n : ℝ) * g z ^ (((n - 1 : ℤ)) : ℝ) * dg z := by
        funext z
        rw [mul_zero, add_zero]
        push_cast
        rfl
      have hn' : g x0 ≠ 0 ∨ 1 ≤ n - 1 := hs.imp id fun h => by omega
      have d1 : DifferentiableAt ℝ (fun z => g z ^ (((n - 1 : ℤ)) : ℝ)) x0 :=
        (njet_bin (e := e) (o := .Powf) rfl (.lit ((n - 1 : ℤ) : ℝ)) hg (hc _)
          (fun c hc => by injection hc with hc; rw [hc]) (.inr ⟨n - 1, rfl, hn'⟩)).1
      have e1 : Flt.sub (jetAt x0 e fun _ => (n : ℝ)) (jetAt x0 e fun _ => (1 : ℝ)) = AFloat.ofScalar ((n - 1 : ℤ) : ℝ) := by
        rw [njet_sub (hc _) (hc _), jetAt_const]
        push_cast
        rfl
      have e2 : Flt.eq (jetAt x0 e fun _ : E => (0 : ℝ)) Flt.zero = true := by
        show decide ((0 : ℝ) = 0) = true
        simp
      simp only [ffun]
      rw [h2, e2, h1, e1, njet_powf_int hg hn', njet_mul (hc _) d1, njet_if ((hc _).fun_mul d1) hdg s1]
      simp only [Bool.not_true, Bool.false_eq_true, if_false]
      have : (Flt.zero : AFloat ℝ) = jetAt x0 e fun _ => (0 : ℝ) := (jetAt_const 0).symm
      rw [this, njet_add (((hc _).fun_mul d1).fun_mul hdg) (hc 0)]
      congr 1
      funext z
      rw [add_zero]

/-! ## Second order jets -/

/-- Value and first derivative of a function and of its derivative in direction `dx`. -/
noncomputable def jet2 (x0 e dx : E) (g : E → ℝ) : AFloat (AFloat ℝ) :=
  AFloat.new (jetAt x0 e g) (jetAt x0 e fun z => fderiv ℝ g z dx)

theorem jet2_const (dx : E) (c : ℝ) : jet2 x0 e dx (fun _ => c) = AFloat.ofScalar (AFloat.ofScalar c) := by
  unfold jet2
  rw [jetAt_const]
  have : (fun z : E => fderiv ℝ (fun _ : E => c) z dx) = fun _ => 0 := by
    funext z; rw [fderiv_const_apply]; rfl
  rw [this, jetAt_const]
  rfl

theorem SmoothOp2.smooth {o : OpCode} {arg : Option (Arg ℝ)} {a : ℝ} {b : Option ℝ} (h : SmoothOp2 o arg a b) :
    SmoothOp o arg a b ∧ o ≠ .Abs := by
  cases o <;> simp only [SmoothOp2] at h <;> refine ⟨?_, by simp⟩ <;> try exact h
  rcases h with h | ⟨n, h1, h2⟩
  · exact .inl h
  · exact .inr ⟨n, h1, h2.imp id fun h => by omega⟩

/-- An operation stays inside its domain for small changes of the operands. -/
theorem SmoothOp.eventually {o : OpCode} {arg : Option (Arg ℝ)} (ho : arityOk o arg = true)
    (hg : ContinuousAt g x0) (hh : ContinuousAt h x0) (hs : SmoothOp o arg (g x0) (arg.map fun _ => h x0)) :
    ∀ᶠ z in 𝓝 x0, SmoothOp o arg (g z) (arg.map fun _ => h z) := by
  cases o <;> cases arg <;> simp only [arityOk, OpCode.isUnary, OpCode.isBinary, Bool.false_eq_true] at ho <;>
    try exact Eventually.of_forall fun _ => trivial
  case Div =>
    have h0 : h x0 ≠ 0 := fun e => hs (by simp [e])
    filter_upwards [hh.eventually_ne h0] with z hz e
    exact hz (by injection e)
  case Tan =>
    exact (Real.continuous_cos.continuousAt.comp hg).eventually_ne hs
  case Ln => exact hg.eventually (lt_mem_nhds hs)
  case Asin => exact (hg.eventually (lt_mem_nhds hs.1)).and (hg.eventually (gt_mem_nhds hs.2))
  case Acos => exact (hg.eventually (lt_mem_nhds hs.1)).and (hg.eventually (gt_mem_nhds hs.2))
  case Powf b =>
    rcases hs with hs | ⟨n, hn, hs | hs⟩
    · exact (hg.eventually (lt_mem_nhds hs)).mono fun z hz => .inl hz
    · exact (hg.eventually_ne hs).mono fun z hz => .inr ⟨n, hn, .inl hz⟩
    · exact Eventually.of_forall fun z => .inr ⟨n, hn, .inr hs⟩

theorem zfun_jet {o : OpCode} {arg : Option (Arg ℝ)} (ho : arityOk o arg = true) (hg : DifferentiableAt ℝ g x0)
    (hh : DifferentiableAt ℝ h x0) (hun : arg = none → h = g) (hlit : ∀ c, arg = some (.lit c) → h = fun _ => c)
    (hs : SmoothOp o arg (g x0) (arg.map fun _ => h x0)) (habs : o ≠ .Abs) :
    zfun o (jetAt x0 e g) (jetAt x0 e h) = jetAt x0 e (fun z => zfun o (g z) (h z)) ∧
      ffun o (g x0) (h x0) (fderiv ℝ g x0 e) (fderiv ℝ h x0 e) = fderiv ℝ (fun z => zfun o (g z) (h z)) x0 e := by
  have key : ∃ b, JetOp x0 e o g h b ∧ arityOk o b = true ∧ b.getD (jetAt x0 e g) = jetAt x0 e h := by
    cases arg with
    | none =>
      obtain rfl := hun rfl
      exact ⟨none, njet_un ho habs hg hs, ho, rfl⟩
    | some arg =>
      exact ⟨_, njet_bin ho arg hg hh (fun c hc => hlit c (by rw [hc])) hs, ho, rfl⟩
  obtain ⟨b, ⟨-, h2⟩, h3, h4⟩ := key
  constructor
  · rw [← h2]
    cases o <;> cases b <;> simp only [arityOk, OpCode.isUnary, OpCode.isBinary, Bool.false_eq_true] at h3 <;>
      first | rfl | (rw [← h4]; rfl)
  · rw [plainOp_eq h3] at h2
    have := congrArg AFloat.dv h2
    unfold opDval at this
    rw [h4] at this
    exact this

theorem zfun_contDiff {o : OpCode} {arg : Option (Arg ℝ)} (ho : arityOk o arg = true) (hg : ContDiffAt ℝ 2 g x0)
    (hh : ContDiffAt ℝ 2 h x0) (hun : arg = none → h = g) (hlit : ∀ c, arg = some (.lit c) → h = fun _ => c)
    (hs : SmoothOp o arg (g x0) (arg.map fun _ => h x0)) (habs : o ≠ .Abs) :
    ContDiffAt ℝ 2 (fun z => zfun o (g z) (h z)) x0 := by
  cases arg with
  | none =>
    obtain rfl := hun rfl
    obtain ⟨k, -, h2, -⟩ := smooth_un ho habs hs
    exact h2.comp x0 hg
  | some arg =>
    obtain ⟨φ, L, -, h2, h3, -⟩ := smooth_bin (arg := arg) ho hs fun c hc => by rw [hlit c (by rw [hc])]
    have he : (fun z => zfun o (g z) (h z)) = φ ∘ fun z => (g z, h z) := by
      funext z
      exact h3 _ _ fun c hc => by rw [hlit c (by rw [hc])]
    rw [he]
    exact ContDiffAt.comp x0 (g := φ) (f := fun z => (g z, h z)) h2 (hg.prodMk hh)

theorem ContDiffAt.dir {g : E → ℝ} (hg : ContDiffAt ℝ 2 g x0) (dx : E) :
    DifferentiableAt ℝ (fun z => fderiv ℝ g z dx) x0 :=
  ((hg.fderiv_right (m := 1) (by norm_num)).differentiableAt (by norm_num)).clm_apply (differentiableAt_const dx)

/-- An operation on second order jets. -/
theorem jet2_op {dx : E} {o : OpCode} {arg : Option (Arg ℝ)} (ho : arityOk o arg = true) (hg : ContDiffAt ℝ 2 g x0)
    (hh : ContDiffAt ℝ 2 h x0) (hun : arg = none → h = g) (hlit : ∀ c, arg = some (.lit c) → h = fun _ => c)
    (hs : SmoothOp2 o arg (g x0) (arg.map fun _ => h x0))
    (hst : o = .Powf → (jet2 x0 e dx g).Steady ∧ (jet2 x0 e dx h).Steady) :
    AFloat.new (zfun o (jetAt x0 e g) (jetAt x0 e h))
        (ffun o (jetAt x0 e g) (jetAt x0 e h) (jetAt x0 e fun z => fderiv ℝ g z dx) (jetAt x0 e fun z => fderiv ℝ h z dx)) =
      jet2 x0 e dx fun z => zfun o (g z) (h z) := by
  obtain ⟨hs', habs⟩ := hs.smooth
  have dg := hg.differentiableAt (by norm_num)
  have dh := hh.differentiableAt (by norm_num)
  unfold jet2
  rw [(zfun_jet ho dg dh hun hlit hs' habs).1]
  congr 1
  rw [njet_ffun ho dg dh (ContDiffAt.dir hg dx) (ContDiffAt.dir hh dx) hs (fun c hc => ?_) hst]
  · refine jetAt_congr ?_
    have e1 : ∀ᶠ z in 𝓝 x0, DifferentiableAt ℝ g z :=
      (hg.eventually (by simp)).mono fun z hz => hz.differentiableAt (by norm_num)
    have e2 : ∀ᶠ z in 𝓝 x0, DifferentiableAt ℝ h z :=
      (hh.eventually (by simp)).mono fun z hz => hz.differentiableAt (by norm_num)
    filter_upwards [e1, e2, SmoothOp.eventually ho hg.continuousAt hh.continuousAt hs'] with z z1 z2 z3
    exact (zfun_jet ho z1 z2 hun hlit z3 habs).2
  · obtain rfl := hlit c hc
    refine ⟨rfl, ?_⟩
    funext z
    rw [fderiv_const_apply]
    rfl

/-! ## User code -/

/-- `env` is the point over `z` of the family `G`. -/
def OverF (G : List (E → ℝ)) (z : E) (env : List (AFloat ℝ)) : Prop :=
  (∀ a ∈ env, a.ctx = none) ∧ env.map AFloat.v = G.map fun g => g z

/-- Operand of a family. -/
def argF (G : List (E → ℝ)) : Arg ℝ → Option (E → ℝ)
  | .var i => G[i]?
  | .lit c => some fun _ => c

theorem argF_nest (e dx : E) (G : List (E → ℝ)) (a : Arg ℝ) {g : E → ℝ} (h : argF G a = some g) :
    a.nest.get (G.map (jet2 x0 e dx)) = .ok (jet2 x0 e dx g) := by
  cases a with
  | var i =>
    have h : G[i]? = some g := h
    simp only [Arg.nest, Arg.get, List.getElem?_map, h, Option.map_some]
  | lit c =>
    injection h with h
    subst h
    rw [jet2_const]
    rfl

theorem argF_over {G : List (E → ℝ)} {z : E} {env : List (AFloat ℝ)} (ho : OverF G z env) {a : Arg ℝ} {g : E → ℝ}
    (h : argF G a = some g) : ∃ a', a.get env = .ok a' ∧ a'.ctx = none ∧ a'.v = g z := by
  cases a with
  | var k =>
    have h : G[k]? = some g := h
    have h1 : (env.map AFloat.v)[k]? = some (g z) := by
      rw [ho.2, List.getElem?_map, h]; rfl
    rw [List.getElem?_map] at h1
    rcases he : env[k]? with _ | a'
    · rw [he] at h1; cases h1
    · rw [he] at h1
      injection h1 with h1
      exact ⟨a', by simp [Arg.get, he], ho.1 a' (List.mem_of_getElem? he), h1⟩
  | lit c =>
    injection h with h
    subst h
    exact ⟨_, rfl, rfl, rfl⟩

theorem argF_of_get {G : List (E → ℝ)} {z : E} {env : List (AFloat ℝ)} (ho : OverF G z env) {a : Arg ℝ} {a' : AFloat ℝ}
    (h : a.get env = .ok a') : ∃ g, argF G a = some g := by
  cases a with
  | var k =>
    rcases hk : env[k]? with _ | b
    · simp only [Arg.get, hk] at h; cases h
    · have : (env.map AFloat.v)[k]? = some b.v := by rw [List.getElem?_map, hk]; rfl
      rw [ho.2, List.getElem?_map] at this
      rcases hG : G[k]? with _ | g
      · rw [hG] at this; cases this
      · exact ⟨g, hG⟩
  | lit c => exact ⟨_, rfl⟩

theorem argF_contDiff {G : List (E → ℝ)} (hG : ∀ g ∈ G, ContDiffAt ℝ 2 g x0) {a : Arg ℝ} {g : E → ℝ}
    (h : argF G a = some g) : ContDiffAt ℝ 2 g x0 := by
  cases a with
  | var k => exact hG g (List.mem_of_getElem? h)
  | lit c => injection h with h; subst h; exact contDiffAt_const

theorem OverF.length {G : List (E → ℝ)} {z : E} {env : List (AFloat ℝ)} (ho : OverF G z env) :
    env.length = G.length := by
  have := congrArg List.length ho.2
  simpa using this

theorem OverF.append {G : List (E → ℝ)} {z : E} {env : List (AFloat ℝ)} (ho : OverF G z env) {g : E → ℝ} {v dv : ℝ}
    (hv : v = g z) : OverF (G ++ [g]) z (env ++ [⟨v, dv, none⟩]) := by
  refine ⟨?_, ?_⟩
  · intro a ha
    rcases List.mem_append.mp ha with ha | ha
    · exact ho.1 a ha
    · rw [List.mem_singleton] at ha; rw [ha]
  · rw [List.map_append, List.map_append, ho.2, hv]; rfl

theorem outsF (e dx : E) {G : List (E → ℝ)} (hG : ∀ g ∈ G, ContDiffAt ℝ 2 g x0) {env : List (AFloat ℝ)}
    (ho : OverF G x0 env) : ∀ (outs : List (Arg ℝ)) (y : List (AFloat ℝ)), outs.mapM (Arg.get env) = .ok y →
    ∃ Y : List (E → ℝ), (∀ g ∈ Y, ContDiffAt ℝ 2 g x0) ∧
      (outs.map Arg.nest).mapM (Arg.get (G.map (jet2 x0 e dx))) = .ok (Y.map (jet2 x0 e dx)) ∧
      ∀ z env, OverF G z env → ∃ ys, outs.mapM (Arg.get env) = .ok ys ∧ OverF Y z ys
  | [], y, h => ⟨[], by simp, rfl, fun z env _ => ⟨[], rfl, by simp [OverF]⟩⟩
  | o :: outs, y, h => by
      rw [List.mapM_cons] at h
      rcases hq : o.get env with err | a'
      · rw [hq] at h; cases h
      rw [hq, bind_ok_eq] at h
      obtain ⟨g, hg⟩ := argF_of_get ho hq
      rcases hr : outs.mapM (Arg.get env) with err | y'
      · rw [hr] at h; cases h
      obtain ⟨Y, h1, h2, h3⟩ := outsF e dx hG ho outs y' hr
      refine ⟨g :: Y, ?_, ?_, ?_⟩
      · intro q hq
        rcases List.mem_cons.mp hq with rfl | hq
        · exact argF_contDiff hG hg
        · exact h1 q hq
      · rw [List.map_cons, List.mapM_cons, argF_nest e dx G o hg, bind_ok_eq, h2]
        rfl
      · intro z env' ho'
        obtain ⟨b, k1, k2, k3⟩ := argF_over ho' hg
        obtain ⟨ys, k4, k5⟩ := h3 z env' ho'
        refine ⟨b :: ys, by rw [List.mapM_cons, k1, bind_ok_eq, k4]; rfl, ?_, ?_⟩
        · intro c hc
          rcases List.mem_cons.mp hc with rfl | hc
          · exact k2
          · exact k5.1 c hc
        · rw [List.map_cons, List.map_cons, k3, k5.2]

/-- What user code does with families of functions. -/
def NestOk (up : AFloat ℝ → ℝ) (x0 e dx : E) (w w' : World ℝ) (p : Prog ℝ) (G : List (E → ℝ)) : Prop :=
  ∃ Y : List (E → ℝ), (∀ g ∈ Y, ContDiffAt ℝ 2 g x0) ∧
    p.nest.runVia up (G.map (jet2 x0 e dx)) w' = (.ok (Y.map (jet2 x0 e dx)), w') ∧
    ∀ᶠ z in 𝓝 x0, ∀ env, OverF G z env → ∃ ys, p.run env w = (.ok ys, w) ∧ OverF Y z ys

/-- No operation that satisfies the condition is a power. -/
def OpCond.NoPowers (P : OpCond) : Prop := ∀ o arg a b, P o arg a b → o ≠ .Powf

theorem nest_prog {P : OpCond} (hP2 : ∀ o arg a b, P o arg a b → smooth2 o arg a b) (up : AFloat ℝ → ℝ) (e dx : E)
    (w w' : World ℝ) (p : Prog ℝ) : ∀ (G : List (E → ℝ)) (env0 : List (AFloat ℝ)),
    (∀ g ∈ G, ContDiffAt ℝ 2 g x0) → OverF G x0 env0 → p.Along P w env0 → (∃ y, (p.run env0 w).1 = .ok y) →
    P.NoPowers ∨ p.nest.SteadyPowers up w' (G.map (jet2 x0 e dx)) → NestOk up x0 e dx w w' p G := by
  induction p with
  | panic => rintro G env0 hG ho hal ⟨y, hy⟩; cases hy
  | ret outs =>
    rintro G env0 hG ho hal ⟨y, hy⟩ -
    obtain ⟨Y, h1, h2, h3⟩ := outsF e dx hG ho outs y hy
    refine ⟨Y, h1, ?_, Eventually.of_forall fun z env ho => ?_⟩
    · show (M.lift ((outs.map Arg.nest).mapM (Arg.get (G.map (jet2 x0 e dx)))) : M (World ℝ) _) w' = _
      rw [M.lift_apply, h2]
    · obtain ⟨ys, k1, k2⟩ := h3 z env ho
      exact ⟨ys, by rw [Prog.run, M.lift_apply, k1], k2⟩
  | op o a b k ih =>
    rintro G env0 hG ho hal ⟨y, hy⟩ hst
    rcases hga : a.get env0 with err | a0
    · rw [Prog.run, hga, M.bind_error (M.lift_apply _ _)] at hy; cases hy
    rcases hgb : Arg.getOpt env0 b with err | b0
    · rw [Prog.run, hga, M.bind_ok (M.lift_apply _ _), hgb, M.bind_error (M.lift_apply _ _)] at hy; cases hy
    have har : arityOk o b0 = true := by
      by_contra hn
      rw [Prog.run, hga, M.bind_ok (M.lift_apply _ _), hgb, M.bind_ok (M.lift_apply _ _), if_neg hn] at hy
      cases hy
    obtain ⟨g, hg⟩ := argF_of_get ho hga
    -- the second operand, or the first one again
    have hb : ∃ h : E → ℝ, (b = none → h = g) ∧ (∀ c, b = some (.lit c) → h = fun _ => c) ∧ ContDiffAt ℝ 2 h x0 ∧
        arityOk o b = true ∧ Arg.getOpt (G.map (jet2 x0 e dx)) (b.map Arg.nest) = .ok (b.map fun _ => jet2 x0 e dx h) ∧
        (∀ z env, OverF G z env → ∃ b', Arg.getOpt env b = .ok b' ∧ (∀ c, b' = some c → c.ctx = none) ∧
          b'.map AFloat.v = b.map fun _ => h z) := by
      cases b with
      | none =>
        have e0 : b0 = none := by
          have : Arg.getOpt env0 none = .ok b0 := hgb
          simp only [Arg.getOpt, Except.ok.injEq] at this
          exact this.symm
        subst e0
        exact ⟨g, fun _ => rfl, fun c hc => (by cases hc), argF_contDiff hG hg, har, rfl,
          fun z env _ => ⟨none, rfl, by simp, rfl⟩⟩
      | some b =>
        rcases hgb' : b.get env0 with err | b1
        · simp only [Arg.getOpt, hgb'] at hgb; cases hgb
        have e0 : b0 = some b1 := by
          simp only [Arg.getOpt, hgb'] at hgb
          injection hgb with hgb
          exact hgb.symm
        subst e0
        obtain ⟨h, hh⟩ := argF_of_get ho hgb'
        refine ⟨h, fun e => (by cases e), ?_, argF_contDiff hG hh, har, ?_, ?_⟩
        · intro c hc
          injection hc with hc
          subst hc
          injection hh with hh
          exact hh.symm
        · simp only [Option.map_some, Arg.getOpt, argF_nest e dx G b hh]
          rfl
        · intro z env ho'
          obtain ⟨b', k1, k2, k3⟩ := argF_over ho' hh
          refine ⟨some b', by simp only [Arg.getOpt, k1]; rfl, ?_, by simp [k3]⟩
          intro c hc; injection hc with hc; subst hc; exact k2
    obtain ⟨h, hun, hlit, hh, har', hgn, hob⟩ := hb
    have cg := argF_contDiff hG hg
    set r : E → ℝ := fun z => zfun o (g z) (h z) with hr
    -- the operation on a point of the family
    have hpt : ∀ z env, OverF G z env → ∃ a' b', a.get env = .ok a' ∧ Arg.getOpt env b = .ok b' ∧ arityOk o b' = true ∧
        a'.v = g z ∧ b'.map AFloat.v = (b.map fun _ => h z) ∧
        AFloat.fromOp o a' b' w = (.ok ⟨r z, opDval o a' b', none⟩, w) ∧
        (Prog.op o a b k).run env w = (k G.length (r z)).run (env ++ [⟨r z, opDval o a' b', none⟩]) w := by
      intro z env hoz
      obtain ⟨a', o1, o2, o3⟩ := argF_over hoz hg
      obtain ⟨b', p1, p2, p3⟩ := hob z env hoz
      have har2 : arityOk o b' = true := by
        cases b <;> cases b' <;> first | exact har' | cases p3
      have hv : opVal o a' b' = r z := by
        unfold opVal
        cases b with
        | none =>
          cases b' with
          | none => rw [hr, hun rfl]; simp only [Option.getD_none, o3]
          | some c => cases p3
        | some b =>
          cases b' with
          | none => cases p3
          | some c => injection p3 with p3; rw [hr]; simp only [Option.getD_some, o3, p3]
      refine ⟨a', b', o1, p1, har2, o3, p3, ?_, ?_⟩
      · rw [fromOp_free w har2 o2 p2, hv]
      · rw [Calculus.run_op_eq o1 p1 har2 o2 p2, hv, hoz.length]
    obtain ⟨a', b', q1, q2, q3, q4, q5, q6, q7⟩ := hpt x0 env0 ho
    obtain ⟨hP, ⟨ε, he, hstab⟩, hnext⟩ := hal a' b' _ q1 q2 q3 (by rw [q6])
    have hs : SmoothOp2 o b (g x0) (b.map fun _ => h x0) := by
      have : SmoothOp2 o b a'.v (b'.map AFloat.v) := hP2 _ _ _ _ hP
      rwa [q4, q5] at this
    -- the nested operation
    have hna := argF_nest (x0 := x0) e dx G a hg
    have harn : arityOk o (b.map fun _ => jet2 x0 e dx h) = true := by cases b <;> exact har'
    have hctx : ∀ c, (b.map fun _ => jet2 x0 e dx h) = some c → c.ctx = none := by
      intro c hc
      cases b with
      | none => cases hc
      | some b => injection hc with hc; subst hc; rfl
    have hgd : (b.map fun _ => jet2 x0 e dx h).getD (jet2 x0 e dx g) = jet2 x0 e dx h := by
      cases b with
      | none => rw [hun rfl]; rfl
      | some b => rfl
    have hfr := fromOpVia_free (up := up) w' harn (a := jet2 x0 e dx g) rfl hctx
    have hst2 : P.NoPowers ∨ Prog.SteadyPowers up w' (k (G.map (jet2 x0 e dx)).length
        (opVal o (jet2 x0 e dx g) (b.map fun _ => jet2 x0 e dx h)).v).nest (G.map (jet2 x0 e dx) ++
        [⟨opVal o (jet2 x0 e dx g) (b.map fun _ => jet2 x0 e dx h),
          opDval o (jet2 x0 e dx g) (b.map fun _ => jet2 x0 e dx h), none⟩]) :=
      hst.imp id fun hst => (hst _ _ _ hna hgn harn (by rw [hfr])).2
    have hst' : o = .Powf → (jet2 x0 e dx g).Steady ∧ (jet2 x0 e dx h).Steady := by
      intro ho
      rcases hst with hst | hst
      · exact absurd ho (hst _ _ _ _ hP)
      obtain ⟨s1, s2⟩ := (hst _ _ _ hna hgn harn (by rw [hfr])).1 ho
      refine ⟨s1, ?_⟩
      cases b with
      | none => rw [hun rfl]; exact s1
      | some b => exact s2 _ rfl
    have hj := jet2_op har' cg hh hun hlit hs hst'
    have hrun := runVia_op_eq (up := up) (k := fun i v => (k i v.v).nest) (w := w') hna hgn harn rfl hctx
    have hval : opVal o (jet2 x0 e dx g) (b.map fun _ => jet2 x0 e dx h) = jetAt x0 e r := by
      unfold opVal
      rw [hgd]
      exact congrArg AFloat.v hj
    have hdval : opDval o (jet2 x0 e dx g) (b.map fun _ => jet2 x0 e dx h) = jetAt x0 e fun z => fderiv ℝ r z dx := by
      unfold opDval
      rw [hgd]
      exact congrArg AFloat.dv hj
    have hlist : G.map (jet2 x0 e dx) ++ [(⟨jetAt x0 e r, jetAt x0 e fun z => fderiv ℝ r z dx, none⟩ : AFloat (AFloat ℝ))] =
        (G ++ [r]).map (jet2 x0 e dx) := by simp [jet2, AFloat.new]
    rw [hval, hdval, hlist, List.length_map] at hrun hst2
    have cr : ContDiffAt ℝ 2 r x0 := zfun_contDiff har' cg hh hun hlit hs.smooth.1 hs.smooth.2
    have hG' : ∀ q ∈ G ++ [r], ContDiffAt ℝ 2 q x0 := by
      intro q hq
      rcases List.mem_append.mp hq with hq | hq
      · exact hG q hq
      · rw [List.mem_singleton] at hq; subst hq; exact cr
    rw [ho.length] at hstab hnext
    obtain ⟨Y, y1, y2, y3⟩ := ih G.length (r x0) (G ++ [r]) _ hG' (ho.append rfl) hnext
      ⟨y, by rw [q7] at hy; exact hy⟩ hst2
    refine ⟨Y, y1, hrun.trans y2, ?_⟩
    have hnear : ∀ᶠ z in 𝓝 x0, |r z - r x0| < ε := by
      have := cr.continuousAt.eventually (Metric.ball_mem_nhds (r x0) he)
      filter_upwards [this] with z hz
      rwa [Real.dist_eq] at hz
    filter_upwards [y3, hnear] with z z1 z2 env hoz
    obtain ⟨a2, b2, -, -, -, -, -, -, r7⟩ := hpt z env hoz
    rw [r7, hstab _ z2]
    exact z1 _ (hoz.append rfl)

theorem jet2_v (e dx : E) (G : List (E → ℝ)) :
    ((G.map (jet2 x0 e dx)).map AFloat.v).map AFloat.v = G.map fun g => g x0 := by
  rw [List.map_map, List.map_map]; rfl

theorem near_all {P : (E → ℝ) → E → Prop} : ∀ {G : List (E → ℝ)}, (∀ g ∈ G, ∀ᶠ z in 𝓝 x0, P g z) →
    ∀ᶠ z in 𝓝 x0, ∀ g ∈ G, P g z
  | [], _ => by simp
  | g :: G, h => by
      filter_upwards [h g (by simp), near_all (G := G) fun q hq => h q (List.mem_cons_of_mem _ hq)] with z h1 h2 q hq
      rcases List.mem_cons.mp hq with rfl | hq
      · exact h1
      · exact h2 q hq

theorem nest_progs {P : OpCond} (hP2 : ∀ o arg a b, P o arg a b → smooth2 o arg a b) (up : AFloat ℝ → ℝ) (e dx : E)
    (w w' : World ℝ) : ∀ (ps : List (List ℝ → Prog ℝ)) (G : List (E → ℝ))
    (env0 : List (AFloat ℝ)), (∀ g ∈ G, ContDiffAt ℝ 2 g x0) → OverF G x0 env0 → alongProgs P w ps env0 →
    (∃ y, (runProgs ps env0 w).1 = .ok y) →
    P.NoPowers ∨ steadyProgs up w' (ps.map fun p xs => (p (xs.map AFloat.v)).nest) (G.map (jet2 x0 e dx)) →
    ∃ Y : List (E → ℝ), (∀ g ∈ Y, ContDiffAt ℝ 2 g x0) ∧
      runProgsVia up (ps.map fun p xs => (p (xs.map AFloat.v)).nest) (G.map (jet2 x0 e dx)) w' =
        (.ok (Y.map (jet2 x0 e dx)), w') ∧
      ∀ᶠ z in 𝓝 x0, ∀ env, OverF G z env → ∃ ys, runProgs ps env w = (.ok ys, w) ∧ OverF Y z ys
  | [], G, env0, hG, ho, hal, hok, hst => ⟨G, hG, rfl, Eventually.of_forall fun z env ho => ⟨env, rfl, ho⟩⟩
  | p :: ps, G, env0, hG, ho, ⟨⟨ε, he, hstab⟩, hal, hnext⟩, ⟨y, hy⟩, hst => by
      have hs1 : P.NoPowers ∨ ((p (((G.map (jet2 x0 e dx)).map AFloat.v).map AFloat.v)).nest).SteadyPowers up w'
          (G.map (jet2 x0 e dx)) := hst.imp id And.left
      have hs2 : ∀ y, (((p (((G.map (jet2 x0 e dx)).map AFloat.v).map AFloat.v)).nest).runVia up
          (G.map (jet2 x0 e dx)) w').1 = .ok y →
          P.NoPowers ∨ steadyProgs up w' (ps.map fun p xs => (p (xs.map AFloat.v)).nest) y := fun y hy =>
        hst.imp id fun hst => hst.2 y hy
      rw [jet2_v] at hs1 hs2
      rw [ho.2] at hal hnext
      have hp : ∃ y, ((p (G.map fun g => g x0)).run env0 w).1 = .ok y := by
        rw [runProgs, ho.2, M.bind_apply] at hy
        rcases h : (p (G.map fun g => g x0)).run env0 w with ⟨e | y', w'⟩
        · rw [h] at hy; cases hy
        · exact ⟨y', by rw [h]⟩
      obtain ⟨Y, y1, y2, y3⟩ := nest_prog hP2 up e dx w w' _ G env0 hG ho hal hp hs1
      obtain ⟨ys, r1, r2⟩ := y3.self_of_nhds env0 ho
      obtain ⟨Z, z1, z2, z3⟩ := nest_progs hP2 up e dx w w' ps Y ys y1 r2 (hnext ys (by rw [r1])) (by
        refine ⟨y, ?_⟩
        rw [runProgs, ho.2, M.bind_ok r1] at hy
        exact hy) (hs2 _ (by rw [y2]))
      refine ⟨Z, z1, ?_, ?_⟩
      · show ((p (((G.map (jet2 x0 e dx)).map AFloat.v).map AFloat.v)).nest.runVia up (G.map (jet2 x0 e dx)) >>=
          fun y => runProgsVia up _ y) w' = _
        rw [jet2_v, M.bind_ok y2, z2]
      have hnear : ∀ᶠ z in 𝓝 x0, ∀ g ∈ G, |g z - g x0| < ε := by
        refine near_all fun g hg => ?_
        have := (hG g hg).continuousAt.eventually (Metric.ball_mem_nhds (g x0) he)
        filter_upwards [this] with z hz
        rwa [Real.dist_eq] at hz
      filter_upwards [y3, z3, hnear] with z hz1 hz2 hz3 env hoz
      have hpe : p (env.map AFloat.v) = p (G.map fun g => g x0) := by
        rw [← ho.2]
        apply hstab
        · rw [List.length_map, hoz.length, ho.length]
        · intro i h1 h2
          have e1 := List.getElem_of_eq hoz.2 (i := i) h1
          have e2 := List.getElem_of_eq ho.2 (i := i) (by simpa using h2)
          simp only [List.getElem_map] at e1 e2 ⊢
          rw [e1, e2]
          exact hz3 _ (List.getElem_mem _)
      obtain ⟨zs, k1, k2⟩ := hz1 env hoz
      obtain ⟨us, k3, k4⟩ := hz2 zs k2
      exact ⟨us, by rw [runProgs, hpe, M.bind_ok k1, k3], k4⟩

end jets

/-- Generic code on nested variables. -/
theorem nest_func {P : OpCond} (hP2 : ∀ o arg a b, P o arg a b → smooth2 o arg a b) {up : AFloat ℝ → ℝ} {f : Func ℝ} {n : Nat} {x : Fin n → ℝ} (e dx : Fin n → ℝ) {w w' : World ℝ}
    {y0 : List ℝ} (he : (f.evalFloat (List.ofFn x) w).1 = .ok y0) (hs : f.Along P w (duals x 0))
    (hst : P.NoPowers ∨ f.nest.SteadyPowers up w' (nested x e dx)) :
    ∃ F : (Fin n → ℝ) → Fin y0.length → ℝ, (∀ᶠ z in 𝓝 x, (f.evalFloat (List.ofFn z) w).1 = .ok (List.ofFn (F z))) ∧
      ContDiffAt ℝ 2 F x ∧
      f.nest.evalVia up (nested x e dx) w' = (.ok (List.ofFn fun i => jet2 x e dx fun z => F z i), w') := by
  let G : List ((Fin n → ℝ) → ℝ) := List.ofFn fun i z => z i
  have hG : ∀ g ∈ G, ContDiffAt ℝ 2 g x := by
    intro g hg
    obtain ⟨i, rfl⟩ := List.mem_ofFn.mp hg
    exact contDiffAt_pi.mp contDiffAt_id i
  have hov : ∀ z, OverF G z (duals z 0) := fun z => ⟨duals_ctx _ _, by rw [duals_v, List.map_ofFn]; rfl⟩
  have hjet : G.map (jet2 x e dx) = nested x e dx := by
    rw [nested, List.map_ofFn]
    congr 1
    funext i
    have h : ∀ z : Fin n → ℝ, fderiv ℝ (fun z : Fin n → ℝ => z i) z = ContinuousLinearMap.proj i := fun z =>
      (hasFDerivAt_apply i z).fderiv
    show jet2 x e dx (fun z => z i) = _
    unfold jet2 jetAt
    simp only [h]
    rw [fderiv_const_apply]
    rfl
  have hok : ∃ ys, (runProgs f.progs (duals x 0) w).1 = .ok ys := by
    have he' := he
    rw [Func.evalFloat_eq] at he'
    obtain ⟨ys, h1, h2⟩ := Func.evalD_ok (dx := List.ofFn (0 : Fin n → ℝ)) (by simp) he'
    rw [← Func.eval_eq, duals_zip, Func.eval_new, h1]
    exact ⟨_, rfl⟩
  obtain ⟨Y, y1, y2, y3⟩ := nest_progs hP2 (x0 := x) up e dx w w' f.progs G _ hG (hov x) hs hok (by
    rw [hjet, ← progs_nest]; exact hst)
  have hev : ∀ᶠ z in 𝓝 x, (f.evalFloat (List.ofFn z) w).1 = .ok (Y.map fun q => q z) := by
    filter_upwards [y3] with z hz
    obtain ⟨zs, k1, k2⟩ := hz (duals z 0) (hov z)
    rw [evalFloat_of_run k1, k2.2]
  have hx := hev.self_of_nhds
  rw [he] at hx
  injection hx with hx
  subst hx
  refine ⟨fun z i => (Y[i]'(by have := i.2; simpa using this)) z, ?_, ?_, ?_⟩
  · filter_upwards [hev] with z hz
    rw [hz]
    congr 1
    apply List.ext_getElem
    · simp
    · intro i h1 h2; simp
  · exact contDiffAt_pi.mpr fun i => y1 _ (List.getElem_mem _)
  · rw [evalVia_eq, progs_nest, ← hjet, y2]
    congr 2
    apply List.ext_getElem
    · simp
    · intro i h1 h2; simp

/-- The outputs, component by component. -/
theorem nest_outputs {n m : Nat} {F : (Fin n → ℝ) → Fin m → ℝ} {x : Fin n → ℝ} (hF : ContDiffAt ℝ 2 F x) (e dx : Fin n → ℝ) :
    (List.ofFn fun i => jet2 x e dx fun z => F z i).map (fun r => r.v.v) = List.ofFn (F x) ∧
    (List.ofFn fun i => jet2 x e dx fun z => F z i).map (fun r => r.v.dv) = List.ofFn (fderiv ℝ F x e) ∧
    (List.ofFn fun i => jet2 x e dx fun z => F z i).map (fun r => r.dv.v) = List.ofFn (fderiv ℝ F x dx) ∧
    (List.ofFn fun i => jet2 x e dx fun z => F z i).map (fun r => r.dv.dv) =
      List.ofFn (fderiv ℝ (fderiv ℝ F) x e dx) := by
  have hev : ∀ᶠ z in 𝓝 x, DifferentiableAt ℝ F z := by
    have := hF.eventually (by simp)
    filter_upwards [this] with z hz
    exact hz.differentiableAt (by norm_num)
  have h1 : ∀ z, DifferentiableAt ℝ F z → ∀ i, fderiv ℝ (fun z => F z i) z = (ContinuousLinearMap.proj i).comp (fderiv ℝ F z) :=
    fun z hz i => ((hasFDerivAt_pi'.mp hz.hasFDerivAt) i).fderiv
  have hd : DifferentiableAt ℝ (fderiv ℝ F) x :=
    (hF.fderiv_right (m := 1) (by norm_num)).differentiableAt (by norm_num)
  simp only [List.map_ofFn]
  refine ⟨rfl, ?_, ?_, ?_⟩
  · congr 1
    funext i
    show fderiv ℝ (fun z => F z i) x e = _
    rw [h1 x hev.self_of_nhds]; rfl
  · congr 1
    funext i
    show fderiv ℝ (fun z => F z i) x dx = _
    rw [h1 x hev.self_of_nhds]; rfl
  · congr 1
    funext i
    show fderiv ℝ (fun z => fderiv ℝ (fun z => F z i) z dx) x e = _
    have : (fun z => fderiv ℝ (fun z => F z i) z dx) =ᶠ[𝓝 x] fun z => (fderiv ℝ F z dx) i := by
      filter_upwards [hev] with z hz
      rw [h1 z hz]; rfl
    rw [this.fderiv_eq]
    have h2 : HasFDerivAt (fun z => fderiv ℝ F z dx) ((ContinuousLinearMap.apply ℝ _ dx).comp (fderiv ℝ (fderiv ℝ F) x)) x :=
      (ContinuousLinearMap.apply ℝ (Fin m → ℝ) dx).hasFDerivAt.comp x hd.hasFDerivAt
    rw [((hasFDerivAt_pi'.mp h2) i).fderiv]
    rfl

end Adv
