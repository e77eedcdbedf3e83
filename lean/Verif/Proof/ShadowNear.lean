import Verif.Proof.Family

/-!
# Evaluations near a point, followed on the tape

A shadow evaluation at one point can carry the functions of the inputs along. Near the point they are the values.
-/

namespace Adv
open Filter Topology

variable {X A : Type} [TopologicalSpace X]

/-- Shadows whose first component is a function of the inputs, with a property that the elementary operations preserve. -/
structure NearCalc (X A : Type) [TopologicalSpace X] (x0 : X) where
  sh : Shadow ℝ ((X → ℝ) × A)
  Good : (X → ℝ) × A → Prop
  cst_fst : ∀ c, (sh.cst c).1 = fun _ => c
  op_fst : ∀ o a b p q, (sh.op o a b p q).1 = fun z => zfun o (p.1 z) (q.1 z)
  cont : ∀ q, Good q → ContinuousAt q.1 x0
  lit : ∀ c, Good (sh.cst c)
  un : ∀ o p, o.isUnary = true → Good p → SmoothOp o none (p.1 x0) none → Good (sh.op o (p.1 x0) (p.1 x0) p p)
  bin : ∀ o arg p q, o.isBinary = true → Good p → Good q → (∀ c, arg = Arg.lit c → q = sh.cst c) →
    SmoothOp o (some arg) (p.1 x0) (some (q.1 x0)) → Good (sh.op o (p.1 x0) (q.1 x0) p q)

namespace NearCalc
variable {x0 : X} (C : NearCalc X A x0)

/-- A function with its value. -/
def tag (x0 : X) (q : (X → ℝ) × A) : ℝ × (X → ℝ) × A := (q.1 x0, q)

theorem arg {G : List ((X → ℝ) × A)} (hG : ∀ q ∈ G, C.Good q) {a : Arg ℝ} {s : ℝ × (X → ℝ) × A}
    (h : a.getS C.sh (G.map (tag x0)) = .ok s) :
    ∃ q, s = tag x0 q ∧ C.Good q ∧ (∀ c, a = .lit c → q = C.sh.cst c) ∧
      ∀ z env, Calculus.Over G z env → ∃ a', a.get env = .ok a' ∧ a'.ctx = none ∧ a'.v = q.1 z := by
  cases a with
  | var k =>
    simp only [Arg.getS, List.getElem?_map] at h
    rcases hk : G[k]? with _ | q
    · rw [hk] at h; cases h
    · rw [hk] at h
      simp only [Option.map_some] at h
      injection h with h
      refine ⟨q, h.symm, hG q (List.mem_of_getElem? hk), fun c hc => (by cases hc), fun z env ho => ?_⟩
      have h1 : (env.map AFloat.v)[k]? = some (q.1 z) := by rw [ho.2, List.getElem?_map, hk]; rfl
      rw [List.getElem?_map] at h1
      rcases he : env[k]? with _ | a'
      · rw [he] at h1; cases h1
      · rw [he] at h1
        injection h1 with h1
        exact ⟨a', by simp [Arg.get, he], ho.1 a' (List.mem_of_getElem? he), h1⟩
  | lit c =>
    simp only [Arg.getS] at h
    injection h with h
    refine ⟨C.sh.cst c, ?_, C.lit c, ?_, fun z env _ => ⟨_, rfl, rfl, ?_⟩⟩
    · rw [← h, tag, C.cst_fst]
    · intro c' hc; injection hc with hc; rw [hc]
    · rw [C.cst_fst]; rfl

theorem outs {G : List ((X → ℝ) × A)} (hG : ∀ q ∈ G, C.Good q) : ∀ (os : List (Arg ℝ)) (Y' : List (ℝ × (X → ℝ) × A)),
    os.mapM (Arg.getS C.sh (G.map (tag x0))) = .ok Y' →
    ∃ Y, Y' = Y.map (tag x0) ∧ (∀ q ∈ Y, C.Good q) ∧
      ∀ z env, Calculus.Over G z env → ∃ ys, os.mapM (Arg.get env) = .ok ys ∧ Calculus.Over Y z ys
  | [], Y', h => by
      injection h with h
      exact ⟨[], h.symm, by simp, fun z env _ => ⟨[], rfl, by simp [Calculus.Over]⟩⟩
  | o :: os, Y', h => by
      rw [List.mapM_cons] at h
      rcases ho : o.getS C.sh (G.map (tag x0)) with e | s
      · rw [ho] at h; cases h
      rw [ho, bind_ok_eq] at h
      rcases hr : os.mapM (Arg.getS C.sh (G.map (tag x0))) with e | Y1
      · rw [hr] at h; cases h
      rw [hr, bind_ok_eq] at h
      injection h with h
      obtain ⟨q, rfl, g1, -, g2⟩ := C.arg hG ho
      obtain ⟨Y, rfl, k1, k2⟩ := outs hG os Y1 hr
      refine ⟨q :: Y, h.symm, ?_, fun z env hov => ?_⟩
      · intro q' hq'
        rcases List.mem_cons.mp hq' with rfl | hq'
        · exact g1
        · exact k1 q' hq'
      · obtain ⟨a', m1, m2, m3⟩ := g2 z env hov
        obtain ⟨ys, m4, m5⟩ := k2 z env hov
        refine ⟨a' :: ys, by rw [List.mapM_cons, m1, bind_ok_eq, m4]; rfl, ?_, ?_⟩
        · intro b hb
          rcases List.mem_cons.mp hb with rfl | hb
          · exact m2
          · exact m5.1 b hb
        · rw [List.map_cons, List.map_cons, m3, m5.2]

/-- User code. -/
theorem prog (w : World ℝ) (p : Prog ℝ) : ∀ (G : List ((X → ℝ) × A)) (env0 : List (AFloat ℝ)) (Y' : List (ℝ × (X → ℝ) × A)),
    (∀ q ∈ G, C.Good q) → Calculus.Over G x0 env0 → p.Along piecewiseSmooth w env0 →
    p.runS C.sh (G.map (tag x0)) = .ok Y' →
    ∃ Y, Y' = Y.map (tag x0) ∧ (∀ q ∈ Y, C.Good q) ∧
      ∀ᶠ z in 𝓝 x0, ∀ env, Calculus.Over G z env → ∃ ys, p.run env w = (.ok ys, w) ∧ Calculus.Over Y z ys := by
  induction p with
  | panic =>
    intro G env0 Y' hG ho hal hr
    cases hr
  | ret os =>
    intro G env0 Y' hG ho hal hr
    obtain ⟨Y, h1, h2, h3⟩ := C.outs hG os Y' hr
    refine ⟨Y, h1, h2, .of_forall fun z env hov => ?_⟩
    obtain ⟨ys, k1, k2⟩ := h3 z env hov
    exact ⟨ys, by rw [Prog.run, M.lift_apply, k1], k2⟩
  | op o a b k ih =>
    intro G env0 Y' hG ho hal hr
    rw [Prog.runS] at hr
    rcases ha : a.getS C.sh (G.map (tag x0)) with e | s
    · rw [ha] at hr; cases hr
    rw [ha, bind_ok_eq] at hr
    obtain ⟨qa, rfl, ga, -, oa⟩ := C.arg hG ha
    rcases hb : Arg.getSOpt C.sh (G.map (tag x0)) b with e | sb
    · rw [hb] at hr; cases hr
    rw [hb, bind_ok_eq] at hr
    obtain ⟨qb, rfl, gb, ob⟩ : ∃ qb : Option ((X → ℝ) × A), sb = qb.map (tag x0) ∧
        (∀ q, qb = some q → C.Good q ∧ ∃ arg, b = some arg ∧ ∀ c, arg = .lit c → q = C.sh.cst c) ∧
        ∀ z env, Calculus.Over G z env → ∃ b', Arg.getOpt env b = .ok b' ∧ (∀ c, b' = some c → c.ctx = none) ∧
          b'.map AFloat.v = qb.map fun q => q.1 z := by
      cases b with
      | none =>
        simp only [Arg.getSOpt] at hb
        injection hb with hb
        exact ⟨none, hb.symm, fun q hq => (by cases hq), fun z env _ => ⟨none, rfl, by simp, rfl⟩⟩
      | some b =>
        rcases hb' : b.getS C.sh (G.map (tag x0)) with e | s
        · simp only [Arg.getSOpt, hb'] at hb; cases hb
        · simp only [Arg.getSOpt, hb'] at hb
          injection hb with hb
          obtain ⟨q, rfl, g1, g2, g3⟩ := C.arg hG hb'
          refine ⟨some q, hb.symm, ?_, fun z env hov => ?_⟩
          · intro q' hq; injection hq with hq; subst hq; exact ⟨g1, b, rfl, g2⟩
          · obtain ⟨b', k1, k2, k3⟩ := g3 z env hov
            refine ⟨some b', by simp only [Arg.getOpt, k1]; rfl, ?_, by simp [k3]⟩
            intro c hc; injection hc with hc; subst hc; exact k2
    by_cases har : arityOk o (qb.map (tag x0)) = true
    swap
    · rw [if_neg har] at hr; cases hr
    rw [if_pos har] at hr
    -- the operation on real environments
    have hop : ∀ z env, Calculus.Over G z env → ∃ a' b', a.get env = .ok a' ∧ Arg.getOpt env b = .ok b' ∧
        arityOk o b' = true ∧ a'.ctx = none ∧ (∀ c, b' = some c → c.ctx = none) ∧ a'.v = qa.1 z ∧
        b'.map AFloat.v = (qb.map fun q => q.1 z) ∧ opVal o a' b' = zfun o (qa.1 z) ((qb.getD qa).1 z) := by
      intro z env hov
      obtain ⟨a', k1, k2, k3⟩ := oa z env hov
      obtain ⟨b', l1, l2, l3⟩ := ob z env hov
      refine ⟨a', b', k1, l1, ?_, k2, l2, k3, l3, ?_⟩
      · cases qb <;> cases b' <;> first | exact har | cases l3
      · unfold opVal
        rw [k3]
        cases qb <;> cases b' <;> first | cases l3 | skip
        · simp [k3]
        · simp only [Option.map_some] at l3
          injection l3 with l3
          simp [l3]
    obtain ⟨a0, b0, c1, c2, c3, c4, c5, c6, c7, c8⟩ := hop x0 env0 ho
    have hA := hal _ _ _ c1 c2 c3 (by rw [fromOp_free w c3 c4 c5])
    set v0 := zfun o (qa.1 x0) ((qb.getD qa).1 x0) with hv0
    set new := C.sh.op o (qa.1 x0) ((qb.getD qa).1 x0) qa (qb.getD qa) with hnew
    have hnf : new.1 = fun z => zfun o (qa.1 z) ((qb.getD qa).1 z) := C.op_fst _ _ _ _ _
    have hgood : C.Good new := by
      have hs := hA.1
      unfold piecewiseSmooth at hs
      rw [c6, c7] at hs
      cases qb with
      | none =>
        have hbn : b = none := by
          cases b with
          | none => rfl
          | some b => cases b0 with
            | none => simp only [Arg.getOpt] at c2; rcases hbb : b.get env0 with e | y <;> rw [hbb] at c2 <;> cases c2
            | some y => cases c7
        rw [hbn] at hs
        exact C.un o qa har ga hs
      | some q =>
        obtain ⟨g1, arg, g2, g3⟩ := gb q rfl
        rw [g2] at hs
        exact C.bin o arg qa q har ga g1 g3 hs
    have htag : ((qb.map (tag x0)).getD (tag x0 qa)) = tag x0 (qb.getD qa) := by cases qb <;> rfl
    have hnt : tag x0 new = (v0, new) := by unfold tag; rw [hnf]
    rw [htag] at hr
    have hr' : (k G.length v0).runS C.sh ((G ++ [new]).map (tag x0)) = .ok Y' := by
      rw [List.map_append, List.map_singleton, hnt]
      rw [List.length_map] at hr
      exact hr
    have hG' : ∀ q ∈ G ++ [new], C.Good q := by
      intro q hq
      rcases List.mem_append.mp hq with hq | hq
      · exact hG q hq
      · rw [List.mem_singleton] at hq; subst hq; exact hgood
    have hover : ∀ z env, Calculus.Over G z env → ∀ dv, Calculus.Over (G ++ [new]) z (env ++ [⟨new.1 z, dv, none⟩]) :=
      fun z env hov dv => Calculus.over_append (g := new.1) (r := new.2) hov rfl
    have hlen : env0.length = G.length := Calculus.over_length ho
    have hv0' : v0 = new.1 x0 := by rw [hnf]
    obtain ⟨Y, y1, y2, y3⟩ := ih G.length v0 (G ++ [new]) (env0 ++ [⟨new.1 x0, opDval o a0 b0, none⟩]) Y' hG' (hover x0 env0 ho _)
      (by
        have := hA.2.2
        simp only [c8, hlen] at this
        rw [← hv0']
        exact this) hr'
    refine ⟨Y, y1, y2, ?_⟩
    obtain ⟨ε, he, hst⟩ := hA.2.1
    simp only [c8, hlen] at hst
    have hnear : ∀ᶠ z in 𝓝 x0, |new.1 z - v0| < ε := by
      have := (C.cont new hgood).eventually (Metric.ball_mem_nhds (new.1 x0) he)
      filter_upwards [this] with z hz
      rwa [Real.dist_eq, ← hv0'] at hz
    filter_upwards [y3, hnear] with z hz1 hz2 env hov
    obtain ⟨a', b', d1, d2, d3, d4, d5, -, -, d8⟩ := hop z env hov
    have hvz : opVal o a' b' = new.1 z := by rw [d8, hnf]
    rw [Calculus.run_op_eq d1 d2 d3 d4 d5, Calculus.over_length hov, hvz, hst _ hz2]
    exact hz1 _ (hover z env hov _)

/-- The links of a chain. -/
theorem progs (w : World ℝ) : ∀ (ps : List (List ℝ → Prog ℝ)) (G : List ((X → ℝ) × A)) (env0 : List (AFloat ℝ))
    (Y' : List (ℝ × (X → ℝ) × A)), (∀ q ∈ G, C.Good q) → Calculus.Over G x0 env0 → alongProgs piecewiseSmooth w ps env0 →
    runProgsS C.sh ps (G.map (tag x0)) = .ok Y' →
    ∃ Y, Y' = Y.map (tag x0) ∧ (∀ q ∈ Y, C.Good q) ∧
      ∀ᶠ z in 𝓝 x0, ∀ env, Calculus.Over G z env → ∃ ys, runProgs ps env w = (.ok ys, w) ∧ Calculus.Over Y z ys
  | [], G, env0, Y', hG, ho, hal, hr => by
      injection hr with hr
      exact ⟨G, hr.symm, hG, .of_forall fun z env hov => ⟨env, rfl, hov⟩⟩
  | p :: ps, G, env0, Y', hG, ho, hal, hr => by
      rw [runProgsS] at hr
      have hfst : (G.map (tag x0)).map Prod.fst = G.map fun q => q.1 x0 := by rw [List.map_map]; rfl
      rw [hfst] at hr
      obtain ⟨⟨ε, he, hst⟩, hal1, hal2⟩ := hal
      rw [ho.2] at hst hal1 hal2
      rcases h1 : (p (G.map fun q => q.1 x0)).runS C.sh (G.map (tag x0)) with e | Y1
      · rw [h1] at hr; cases hr
      rw [h1, bind_ok_eq] at hr
      obtain ⟨Y, rfl, y2, y3⟩ := C.prog w _ G env0 Y1 hG ho hal1 h1
      obtain ⟨ys, s1, s2⟩ := y3.self_of_nhds env0 ho
      obtain ⟨Z, z1, z2, z3⟩ := progs w ps Y ys Y' y2 s2 (hal2 ys (by rw [s1])) hr
      refine ⟨Z, z1, z2, ?_⟩
      have hnear : ∀ᶠ z in 𝓝 x0, ∀ q ∈ G, |q.1 z - q.1 x0| < ε := by
        clear hst h1 y3 z3 hr y2 z2 hal1 hal2 ho hfst s1 s2 z1
        induction G with
        | nil => simp
        | cons q G ih =>
          have h1 : ∀ᶠ z in 𝓝 x0, |q.1 z - q.1 x0| < ε := by
            have := (C.cont q (hG q (by simp))).eventually (Metric.ball_mem_nhds (q.1 x0) he)
            filter_upwards [this] with z hz
            rwa [Real.dist_eq] at hz
          filter_upwards [h1, ih fun q hq => hG q (by simp [hq])] with z hz1 hz2 q' hq'
          rcases List.mem_cons.mp hq' with rfl | hq'
          · exact hz1
          · exact hz2 q' hq'
      have hvi : ∀ i (h : i < env0.length) (h' : i < G.length), (env0[i]).v = (G[i]).1 x0 := by
        intro i h h'
        have := congrArg (fun l => l[i]?) ho.2
        simpa [h, h'] using this
      filter_upwards [y3, z3, hnear] with z hz1 hz2 hz3 env hov
      have hpe : p (env.map AFloat.v) = p (G.map fun q => q.1 x0) := by
        rw [hov.2]
        apply hst
        · simp [Calculus.over_length ho]
        · intro i h1 h2
          simp only [List.length_map] at h1
          rw [hvi i h2 h1]
          simp only [List.getElem_map]
          exact hz3 _ (List.getElem_mem h1)
      obtain ⟨us, k1, k2⟩ := hz1 env hov
      obtain ⟨vs, k3, k4⟩ := hz2 us k2
      exact ⟨vs, by rw [runProgs, hpe, M.bind_ok k1, k3], k4⟩

end NearCalc
end Adv
