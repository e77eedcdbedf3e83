import Verif.Proof.PieceFunc
import Verif.Proof.Nested

/-!
# Generalized derivatives near a point

At every point near a fixed one, a second shadow evaluation collects the increments that all choices of signs give. They approximate
the differences of the values.
-/

namespace Adv
open Filter Topology

/-! ## Shadow evaluations at the points near a point -/

/-- A shadow that depends on the point, evaluated there. -/
structure NearHom {X A : Type} [TopologicalSpace X] {x0 : X} (C : NearCalc X A x0) (B : Type) where
  sh : Shadow ℝ B
  ev : X → A → B
  cst : ∀ c z, ev z (C.sh.cst c).2 = sh.cst c
  op : ∀ o a b p q z, ev z (C.sh.op o a b p q).2 = sh.op o (p.1 z) (q.1 z) (ev z p.2) (ev z q.2)

namespace NearHom
variable {X A B : Type} [TopologicalSpace X] {x0 : X} {C : NearCalc X A x0} (H : NearHom C B)

/-- Value and shadow at `z`. -/
def at_ (z : X) (q : (X → ℝ) × A) : ℝ × B := (q.1 z, H.ev z q.2)

omit [TopologicalSpace X] in
theorem tag_inj {p q : (X → ℝ) × A} (h : NearCalc.tag x0 p = NearCalc.tag x0 q) : p = q := congrArg Prod.snd h

theorem arg {G : List ((X → ℝ) × A)} {a : Arg ℝ} {q : (X → ℝ) × A}
    (h : a.getS C.sh (G.map (NearCalc.tag x0)) = .ok (NearCalc.tag x0 q)) (z : X) :
    a.getS H.sh (G.map (H.at_ z)) = .ok (H.at_ z q) := by
  cases a with
  | var k =>
    simp only [Arg.getS, List.getElem?_map] at h ⊢
    rcases hk : G[k]? with _ | q'
    · rw [hk] at h; cases h
    · rw [hk] at h
      simp only [Option.map_some] at h ⊢
      injection h with h
      rw [tag_inj h]
  | lit c =>
    simp only [Arg.getS] at h ⊢
    injection h with h
    have hq : q = C.sh.cst c := (congrArg Prod.snd h).symm
    rw [hq, at_, C.cst_fst, H.cst]

theorem outs {G : List ((X → ℝ) × A)} (z : X) : ∀ (os : List (Arg ℝ)) (Y : List ((X → ℝ) × A)),
    os.mapM (Arg.getS C.sh (G.map (NearCalc.tag x0))) = .ok (Y.map (NearCalc.tag x0)) →
    os.mapM (Arg.getS H.sh (G.map (H.at_ z))) = .ok (Y.map (H.at_ z))
  | [], Y, h => by
      have h' : Y.map (NearCalc.tag x0) = [] := by injection h with h; exact h.symm
      rw [List.map_eq_nil_iff] at h'
      subst h'
      rfl
  | o :: os, Y, h => by
      rw [List.mapM_cons] at h
      rcases ho : o.getS C.sh (G.map (NearCalc.tag x0)) with e | s
      · rw [ho] at h; cases h
      rw [ho, bind_ok_eq] at h
      rcases hr : os.mapM (Arg.getS C.sh (G.map (NearCalc.tag x0))) with e | Y1
      · rw [hr] at h; cases h
      rw [hr, bind_ok_eq] at h
      have h' : Y.map (NearCalc.tag x0) = s :: Y1 := by injection h with h; exact h.symm
      cases Y with
      | nil => cases h'
      | cons q Y =>
        rw [List.map_cons] at h'
        injection h' with e1 e2
        subst e1 e2
        rw [List.mapM_cons, H.arg ho, bind_ok_eq, outs z os Y hr]
        rfl

/-- User code. -/
theorem prog (w : World ℝ) (p : Prog ℝ) : ∀ (G : List ((X → ℝ) × A)) (env0 : List (AFloat ℝ)) (Y : List ((X → ℝ) × A)),
    (∀ q ∈ G, C.Good q) → Calculus.Over G x0 env0 → p.Along piecewiseSmooth w env0 →
    p.runS C.sh (G.map (NearCalc.tag x0)) = .ok (Y.map (NearCalc.tag x0)) →
    ∀ᶠ z in 𝓝 x0, p.runS H.sh (G.map (H.at_ z)) = .ok (Y.map (H.at_ z)) := by
  induction p with
  | panic =>
    intro G env0 Y' hG ho hal hr
    cases hr
  | ret os =>
    intro G env0 Y hG ho hal hr
    exact .of_forall fun z => H.outs z os Y hr
  | op o a b k ih =>
    intro G env0 Y hG ho hal hr
    rw [Prog.runS] at hr
    rcases ha : a.getS C.sh (G.map (NearCalc.tag x0)) with e | s
    · rw [ha] at hr; cases hr
    rw [ha, bind_ok_eq] at hr
    obtain ⟨qa, rfl, ga, -, oa⟩ := C.arg hG ha
    rcases hb : Arg.getSOpt C.sh (G.map (NearCalc.tag x0)) b with e | sb
    · rw [hb] at hr; cases hr
    rw [hb, bind_ok_eq] at hr
    obtain ⟨qb, rfl, gb, ob, hbz⟩ : ∃ qb : Option ((X → ℝ) × A), sb = qb.map (NearCalc.tag x0) ∧
        (∀ q, qb = some q → C.Good q ∧ ∃ arg, b = some arg ∧ ∀ c, arg = .lit c → q = C.sh.cst c) ∧
        (∀ z env, Calculus.Over G z env → ∃ b', Arg.getOpt env b = .ok b' ∧ (∀ c, b' = some c → c.ctx = none) ∧
          b'.map AFloat.v = qb.map fun q => q.1 z) ∧
        ∀ z, Arg.getSOpt H.sh (G.map (H.at_ z)) b = .ok (qb.map (H.at_ z)) := by
      cases b with
      | none =>
        simp only [Arg.getSOpt] at hb
        injection hb with hb
        exact ⟨none, hb.symm, fun q hq => (by cases hq), fun z env _ => ⟨none, rfl, by simp, rfl⟩, fun z => rfl⟩
      | some b =>
        rcases hb' : b.getS C.sh (G.map (NearCalc.tag x0)) with e | s
        · simp only [Arg.getSOpt, hb'] at hb; cases hb
        · simp only [Arg.getSOpt, hb'] at hb
          injection hb with hb
          obtain ⟨q, rfl, g1, g2, g3⟩ := C.arg hG hb'
          refine ⟨some q, hb.symm, ?_, fun z env hov => ?_, fun z => ?_⟩
          · intro q' hq; injection hq with hq; subst hq; exact ⟨g1, b, rfl, g2⟩
          · obtain ⟨b', k1, k2, k3⟩ := g3 z env hov
            refine ⟨some b', by simp only [Arg.getOpt, k1]; rfl, ?_, by simp [k3]⟩
            intro c hc; injection hc with hc; subst hc; exact k2
          · simp only [Arg.getSOpt, H.arg hb']; rfl
    by_cases har : arityOk o (qb.map (NearCalc.tag x0)) = true
    swap
    · rw [if_neg har] at hr; cases hr
    rw [if_pos har] at hr
    obtain ⟨a0, k1, k2, k3⟩ := oa x0 env0 ho
    obtain ⟨b0, l1, l2, l3⟩ := ob x0 env0 ho
    have c3 : arityOk o b0 = true := by
      cases qb <;> cases b0 <;> first | exact har | cases l3
    have c8 : opVal o a0 b0 = zfun o (qa.1 x0) ((qb.getD qa).1 x0) := by
      unfold opVal
      rw [k3]
      cases qb <;> cases b0 <;> first | cases l3 | skip
      · simp [k3]
      · simp only [Option.map_some] at l3
        injection l3 with l3
        simp [l3]
    have hA := hal _ _ _ k1 l1 c3 (by rw [fromOp_free w c3 k2 l2])
    set v0 := zfun o (qa.1 x0) ((qb.getD qa).1 x0) with hv0
    set new := C.sh.op o (qa.1 x0) ((qb.getD qa).1 x0) qa (qb.getD qa) with hnew
    have hnf : new.1 = fun z => zfun o (qa.1 z) ((qb.getD qa).1 z) := C.op_fst _ _ _ _ _
    have hgood : C.Good new := by
      have hs := hA.1
      unfold piecewiseSmooth at hs
      rw [k3, l3] at hs
      cases qb with
      | none =>
        have hbn : b = none := by
          cases b with
          | none => rfl
          | some b => cases b0 with
            | none => simp only [Arg.getOpt] at l1; rcases hbb : b.get env0 with e | y <;> rw [hbb] at l1 <;> cases l1
            | some y => cases l3
        rw [hbn] at hs
        exact C.un o qa har ga hs
      | some q =>
        obtain ⟨g1, arg, g2, g3⟩ := gb q rfl
        rw [g2] at hs
        exact C.bin o arg qa q har ga g1 g3 hs
    have htag : ((qb.map (NearCalc.tag x0)).getD (NearCalc.tag x0 qa)) = NearCalc.tag x0 (qb.getD qa) := by cases qb <;> rfl
    have hat : ∀ z, ((qb.map (H.at_ z)).getD (H.at_ z qa)) = H.at_ z (qb.getD qa) := by intro z; cases qb <;> rfl
    have hnt : NearCalc.tag x0 new = (v0, new) := by unfold NearCalc.tag; rw [hnf]
    rw [htag] at hr
    have hr' : (k G.length v0).runS C.sh ((G ++ [new]).map (NearCalc.tag x0)) = .ok (Y.map (NearCalc.tag x0)) := by
      rw [List.map_append, List.map_singleton, hnt]
      rw [List.length_map] at hr
      exact hr
    have hG' : ∀ q ∈ G ++ [new], C.Good q := by
      intro q hq
      rcases List.mem_append.mp hq with hq | hq
      · exact hG q hq
      · rw [List.mem_singleton] at hq; subst hq; exact hgood
    have hlen : env0.length = G.length := Calculus.over_length ho
    have hv0' : v0 = new.1 x0 := by rw [hnf]
    have y3 := ih G.length v0 (G ++ [new]) (env0 ++ [⟨new.1 x0, opDval o a0 b0, none⟩]) Y hG'
      (Calculus.over_append (g := new.1) (r := new.2) ho rfl)
      (by
        have := hA.2.2
        simp only [c8, hlen] at this
        rw [← hv0']
        exact this) hr'
    obtain ⟨ε, he, hst⟩ := hA.2.1
    simp only [c8, hlen] at hst
    have hnear : ∀ᶠ z in 𝓝 x0, |new.1 z - v0| < ε := by
      have := (C.cont new hgood).eventually (Metric.ball_mem_nhds (new.1 x0) he)
      filter_upwards [this] with z hz
      rwa [Real.dist_eq, ← hv0'] at hz
    filter_upwards [y3, hnear] with z hz1 hz2
    have har' : arityOk o (qb.map (H.at_ z)) = true := by cases qb <;> exact har
    rw [Prog.runS, H.arg ha, bind_ok_eq, hbz z, bind_ok_eq, if_pos har', hat z, List.length_map]
    have e1 : (zfun o (H.at_ z qa).1 (H.at_ z (qb.getD qa)).1,
        H.sh.op o (H.at_ z qa).1 (H.at_ z (qb.getD qa)).1 (H.at_ z qa).2 (H.at_ z (qb.getD qa)).2) = H.at_ z new := by
      show _ = (new.1 z, H.ev z new.2)
      rw [hnf, hnew, H.op]
      rfl
    have e2 : zfun o (H.at_ z qa).1 (H.at_ z (qb.getD qa)).1 = new.1 z := by rw [hnf]; rfl
    show (k G.length (zfun o (H.at_ z qa).1 (H.at_ z (qb.getD qa)).1)).runS H.sh (G.map (H.at_ z) ++ [_]) = _
    rw [e1, e2, hst _ hz2, ← List.map_singleton, ← List.map_append]
    exact hz1

/-- The links of a chain. -/
theorem progs (w : World ℝ) : ∀ (ps : List (List ℝ → Prog ℝ)) (G : List ((X → ℝ) × A)) (env0 : List (AFloat ℝ))
    (Y : List ((X → ℝ) × A)), (∀ q ∈ G, C.Good q) → Calculus.Over G x0 env0 → alongProgs piecewiseSmooth w ps env0 →
    runProgsS C.sh ps (G.map (NearCalc.tag x0)) = .ok (Y.map (NearCalc.tag x0)) →
    ∀ᶠ z in 𝓝 x0, runProgsS H.sh ps (G.map (H.at_ z)) = .ok (Y.map (H.at_ z))
  | [], G, env0, Y, hG, ho, hal, hr => by
      have h' : G.map (NearCalc.tag x0) = Y.map (NearCalc.tag x0) := by injection hr
      have : G = Y := List.map_injective_iff.mpr (fun _ _ h => tag_inj h) h'
      subst this
      exact .of_forall fun z => rfl
  | p :: ps, G, env0, Y, hG, ho, hal, hr => by
      rw [runProgsS] at hr
      have hfst : (G.map (NearCalc.tag x0)).map Prod.fst = G.map fun q => q.1 x0 := by rw [List.map_map]; rfl
      rw [hfst] at hr
      obtain ⟨⟨ε, he, hst⟩, hal1, hal2⟩ := hal
      rw [ho.2] at hst hal1 hal2
      rcases h1 : (p (G.map fun q => q.1 x0)).runS C.sh (G.map (NearCalc.tag x0)) with e | Y1
      · rw [h1] at hr; cases hr
      rw [h1, bind_ok_eq] at hr
      obtain ⟨Z, rfl, y2, y3⟩ := C.prog w _ G env0 Y1 hG ho hal1 h1
      obtain ⟨ys, s1, s2⟩ := y3.self_of_nhds env0 ho
      have k1 := prog H w _ G env0 Z hG ho hal1 h1
      have k2 := progs w ps Z ys Y y2 s2 (hal2 ys (by rw [s1])) hr
      have hnear : ∀ᶠ z in 𝓝 x0, ∀ q ∈ G, |q.1 z - q.1 x0| < ε := by
        clear hst h1 y3 k1 hr y2 k2 hal1 hal2 ho hfst s1 s2
        induction G with
        | nil => simp
        | cons q G ih =>
          have h1 : ∀ᶠ z in 𝓝 x0, |q.1 z - q.1 x0| < ε := by
            have := (C.cont q (hG q (by simp))).eventually (Metric.ball_mem_nhds (q.1 x0) he)
            filter_upwards [this] with z hz
            rwa [Real.dist_eq] at hz
          filter_upwards [h1, ih fun q hq => hG q (by simp [hq])] with z hz1 hz2 q' hq'
          rcases List.mem_cons.mp hq' with rfl | hq'
          · exact hz1
          · exact hz2 q' hq'
      have hvi : ∀ i (h : i < env0.length) (h' : i < G.length), (env0[i]).v = (G[i]).1 x0 := by
        intro i h h'
        have := congrArg (fun l => l[i]?) ho.2
        simpa [h, h'] using this
      filter_upwards [k1, k2, hnear] with z hz1 hz2 hz3
      have hpe : p ((G.map (H.at_ z)).map Prod.fst) = p (G.map fun q => q.1 x0) := by
        apply hst
        · simp [Calculus.over_length ho]
        · intro i h1 h2
          simp only [List.length_map] at h1
          rw [hvi i h2 h1]
          simp only [List.getElem_map]
          exact hz3 _ (List.getElem_mem h1)
      rw [runProgsS, hpe, hz1, bind_ok_eq, hz2]

end NearHom

/-! ## All increments -/

/-- The increments for all choices of signs at every abs operation. -/
def setSh : Shadow ℝ (Set ℝ) where
  cst _ := {0}
  op o a b D1 D2 := if o = .Abs then {d | ∃ s : ℝ, s * s = 1 ∧ s * a = |a| ∧ ∃ d1 ∈ D1, d = s * d1}
    else {d | ∃ d1 ∈ D1, ∃ d2 ∈ D2, d = ffun o a b d1 d2}

theorem setSh_closed : setSh.ConstClosed := by
  intro o a b hc
  have h0 : ffun o a b (0 : ℝ) 0 = 0 := by
    have := Props.zeroTangent_of_lawful (K := ℝ) o a b hc
    rwa [LawfulFlt.zero_eq] at this
  show (if o = .Abs then {d : ℝ | ∃ s : ℝ, s * s = 1 ∧ s * a = |a| ∧ ∃ d1 ∈ ({0} : Set ℝ), d = s * d1}
    else {d | ∃ d1 ∈ ({0} : Set ℝ), ∃ d2 ∈ ({0} : Set ℝ), d = ffun o a b d1 d2}) = {0}
  split_ifs with h
  · ext d
    constructor
    · rintro ⟨s, -, -, d1, hd, rfl⟩
      rw [Set.mem_singleton_iff.mp hd, mul_zero]; rfl
    · intro hd
      rw [Set.mem_singleton_iff.mp hd]
      rcases le_total 0 a with ha | ha
      · exact ⟨1, by norm_num, by rw [abs_of_nonneg ha, one_mul], 0, rfl, by ring⟩
      · exact ⟨-1, by norm_num, by rw [abs_of_nonpos ha, neg_one_mul], 0, rfl, by ring⟩
  · ext d
    constructor
    · rintro ⟨d1, h1, d2, h2, rfl⟩
      rw [Set.mem_singleton_iff.mp h1, Set.mem_singleton_iff.mp h2, h0]; rfl
    · intro hd
      rw [Set.mem_singleton_iff.mp hd]
      exact ⟨0, rfl, 0, rfl, h0.symm⟩

section semi
variable {E : Type} [NormedAddCommGroup E] [NormedSpace ℝ E]

/-- The increments at `z` approximate the difference of the values at `z` and at `x0`. -/
structure SemiGood (x0 : E) (q : (E → ℝ) × (E → Set ℝ)) : Prop where
  cont : ContinuousAt q.1 x0
  lip : ∃ K : ℝ, 0 ≤ K ∧ ∀ᶠ z in 𝓝 x0, |q.1 z - q.1 x0| ≤ K * ‖z - x0‖
  semi : ∃ K : ℝ, 0 ≤ K ∧ ∀ᶠ z in 𝓝 x0, ∀ d ∈ q.2 z, |q.1 z - q.1 x0 - d| ≤ K * ‖z - x0‖ ^ 2

/-- The shadow. -/
noncomputable def semiSh : Shadow ℝ ((E → ℝ) × (E → Set ℝ)) where
  cst c := (fun _ => c, fun _ => {0})
  op o _ _ p q := (fun z => zfun o (p.1 z) (q.1 z), fun z => setSh.op o (p.1 z) (q.1 z) (p.2 z) (q.2 z))

omit [NormedSpace ℝ E] in
theorem SemiGood.abs {x0 : E} {p : (E → ℝ) × (E → Set ℝ)} (hp : SemiGood x0 p) (a b : ℝ) :
    SemiGood x0 (semiSh.op .Abs a b p p) := by
  obtain ⟨K, hK0, hK⟩ := hp.lip
  obtain ⟨C, hC0, hC⟩ := hp.semi
  refine ⟨hp.cont.abs, ⟨K, hK0, ?_⟩, C, hC0, ?_⟩
  · filter_upwards [hK] with z hz
    exact (abs_abs_sub_abs_le_abs_sub (p.1 z) (p.1 x0)).trans hz
  · have hsign : ∀ᶠ z in 𝓝 x0, (0 < p.1 x0 → 0 < p.1 z) ∧ (p.1 x0 < 0 → p.1 z < 0) := by
      refine Filter.Eventually.and ?_ ?_
      · by_cases h : 0 < p.1 x0
        · filter_upwards [hp.cont.eventually (lt_mem_nhds h)] with z hz _ using hz
        · exact .of_forall fun z hz => absurd hz h
      · by_cases h : p.1 x0 < 0
        · filter_upwards [hp.cont.eventually (gt_mem_nhds h)] with z hz _ using hz
        · exact .of_forall fun z hz => absurd hz h
    filter_upwards [hC, hsign] with z hz1 hz2 d hd
    obtain ⟨s, hs1, hs2, d1, hd1, rfl⟩ : ∃ s : ℝ, s * s = 1 ∧ s * p.1 z = |p.1 z| ∧ ∃ d1 ∈ p.2 z, d = s * d1 := hd
    have h0 : s * p.1 x0 = |p.1 x0| := by
      rcases lt_trichotomy (p.1 x0) 0 with h | h | h
      · have h1 := hz2.2 h
        rw [abs_of_neg h1] at hs2
        have : s = -1 := by
          have : (s + 1) * p.1 z = 0 := by linarith
          rcases mul_eq_zero.mp this with h | h
          · linarith
          · exact absurd h h1.ne
        rw [this, abs_of_neg h, neg_one_mul]
      · rw [h, mul_zero, abs_zero]
      · have h1 := hz2.1 h
        rw [abs_of_pos h1] at hs2
        have : s = 1 := by
          have : (s - 1) * p.1 z = 0 := by linarith
          rcases mul_eq_zero.mp this with h | h
          · linarith
          · exact absurd h h1.ne'
        rw [this, abs_of_pos h, one_mul]
    show _root_.abs (|p.1 z| - |p.1 x0| - s * d1) ≤ _
    rw [← hs2, ← h0, ← mul_sub, ← mul_sub, abs_mul]
    have : |s| = 1 := by
      have : |s| * |s| = 1 := by rw [← abs_mul, hs1, abs_one]
      nlinarith [abs_nonneg s]
    rw [this, one_mul]
    exact hz1 d1 hd1

/-- Smooth operations. -/
theorem SemiGood.comp {x0 : E} {p q r : (E → ℝ) × (E → Set ℝ)} (hp : SemiGood x0 p) (hq : SemiGood x0 q)
    {φ : ℝ × ℝ → ℝ} (hc : ContDiffAt ℝ 2 φ (p.1 x0, q.1 x0)) (hz : ∀ z, r.1 z = φ (p.1 z, q.1 z))
    (hd : ∀ᶠ z in 𝓝 x0, ∀ d ∈ r.2 z, ∃ d1 ∈ p.2 z, ∃ d2 ∈ q.2 z, d = fderiv ℝ φ (p.1 z, q.1 z) (d1, d2)) :
    SemiGood x0 r := by
  obtain ⟨K1, hK1, e1⟩ := hp.lip
  obtain ⟨K2, hK2, e2⟩ := hq.lip
  have hcont : ContinuousAt (fun z => (p.1 z, q.1 z)) x0 := hp.cont.prodMk hq.cont
  have hφ : HasFDerivAt φ (fderiv ℝ φ (p.1 x0, q.1 x0)) (p.1 x0, q.1 x0) := (hc.differentiableAt (by norm_num)).hasFDerivAt
  set M0 := fderiv ℝ φ (p.1 x0, q.1 x0) with hM0
  set K := max K1 K2 with hKd
  have hK : 0 ≤ K := hK1.trans (le_max_left _ _)
  have hP : ∀ᶠ z in 𝓝 x0, ‖((p.1 z, q.1 z) - (p.1 x0, q.1 x0) : ℝ × ℝ)‖ ≤ K * ‖z - x0‖ := by
    filter_upwards [e1, e2] with z h1 h2
    rw [Prod.mk_sub_mk, Prod.norm_mk]
    refine max_le (h1.trans ?_) (h2.trans ?_)
    · exact mul_le_mul_of_nonneg_right (le_max_left _ _) (norm_nonneg _)
    · exact mul_le_mul_of_nonneg_right (le_max_right _ _) (norm_nonneg _)
  obtain ⟨A, hA0, hA⟩ := (quadratic_error hc hφ).exists_nonneg
  have hlin : ∀ᶠ z in 𝓝 x0, |φ (p.1 z, q.1 z) - φ (p.1 x0, q.1 x0) - M0 ((p.1 z, q.1 z) - (p.1 x0, q.1 x0))| ≤
      A * (K * ‖z - x0‖) ^ 2 := by
    have h0 : Tendsto (fun z => ((p.1 z, q.1 z) - (p.1 x0, q.1 x0) : ℝ × ℝ)) (𝓝 x0) (𝓝 0) := by
      have := hcont.tendsto.sub_const (p.1 x0, q.1 x0)
      rwa [sub_self] at this
    filter_upwards [h0.eventually hA.bound, hP] with z h1 h2
    rw [add_sub_cancel, Real.norm_eq_abs, Real.norm_of_nonneg (by positivity)] at h1
    refine h1.trans (mul_le_mul_of_nonneg_left ?_ hA0)
    gcongr
  obtain ⟨Λ, N, hN, hΛ⟩ := (hc.fderiv_right (m := 1) (by norm_num)).exists_lipschitzOnWith
  have hnear : ∀ᶠ z in 𝓝 x0, ‖fderiv ℝ φ (p.1 z, q.1 z) - M0‖ ≤ Λ * (K * ‖z - x0‖) := by
    filter_upwards [hcont.eventually hN, hP] with z h1 h2
    have := hΛ.dist_le_mul _ h1 _ (mem_of_mem_nhds hN)
    rw [dist_eq_norm, dist_eq_norm] at this
    exact this.trans (mul_le_mul_of_nonneg_left h2 Λ.2)
  have hone : ∀ᶠ z in 𝓝 x0, ‖z - x0‖ ≤ 1 := by
    filter_upwards [Metric.closedBall_mem_nhds x0 one_pos] with z hz
    rwa [mem_closedBall_iff_norm] at hz
  have er : r.1 = fun z => φ (p.1 z, q.1 z) := funext hz
  obtain ⟨C1, c1, s1⟩ := hp.semi
  obtain ⟨C2, c2, s2⟩ := hq.semi
  set C := max C1 C2 with hCd
  have hC : 0 ≤ C := c1.trans (le_max_left _ _)
  have hΛ0 : (0 : ℝ) ≤ Λ := Λ.2
  refine ⟨?_, ⟨A * K ^ 2 + ‖M0‖ * K, by positivity, ?_⟩, A * K ^ 2 + Λ * K * K + (‖M0‖ + Λ * K) * C, by positivity, ?_⟩
  · rw [er]
    exact ContinuousAt.comp (g := φ) (f := fun z => (p.1 z, q.1 z)) hc.continuousAt hcont
  · filter_upwards [hlin, hP, hone] with z h1 h2 h4
    rw [hz, hz]
    have h3 : ‖M0 ((p.1 z, q.1 z) - (p.1 x0, q.1 x0))‖ ≤ ‖M0‖ * (K * ‖z - x0‖) :=
      (M0.le_opNorm _).trans (mul_le_mul_of_nonneg_left h2 (norm_nonneg _))
    rw [Real.norm_eq_abs] at h3
    have h5 : ‖z - x0‖ ^ 2 ≤ ‖z - x0‖ := by
      rw [sq]; exact mul_le_of_le_one_left (norm_nonneg _) h4
    calc _ = |(φ (p.1 z, q.1 z) - φ (p.1 x0, q.1 x0) - M0 ((p.1 z, q.1 z) - (p.1 x0, q.1 x0))) +
          M0 ((p.1 z, q.1 z) - (p.1 x0, q.1 x0))| := by rw [sub_add_cancel]
      _ ≤ A * (K * ‖z - x0‖) ^ 2 + ‖M0‖ * (K * ‖z - x0‖) := (abs_add_le _ _).trans (add_le_add h1 h3)
      _ = A * K ^ 2 * ‖z - x0‖ ^ 2 + ‖M0‖ * K * ‖z - x0‖ := by ring
      _ ≤ A * K ^ 2 * ‖z - x0‖ + ‖M0‖ * K * ‖z - x0‖ := by gcongr
      _ = _ := by ring
  · filter_upwards [hlin, hnear, hP, hd, s1, s2, hone] with z h1 h2 h3 h4 h5 h6 h9 d hd
    obtain ⟨d1, k1, d2, k2, rfl⟩ := h4 d hd
    set M := fderiv ℝ φ (p.1 z, q.1 z)
    set D : ℝ × ℝ := (p.1 z, q.1 z) - (p.1 x0, q.1 x0) with hD
    have hinc : ‖D - (d1, d2)‖ ≤ C * ‖z - x0‖ ^ 2 := by
      rw [hD, Prod.mk_sub_mk, Prod.mk_sub_mk, Prod.norm_mk]
      refine max_le ((h5 d1 k1).trans ?_) ((h6 d2 k2).trans ?_)
      · exact mul_le_mul_of_nonneg_right (le_max_left _ _) (by positivity)
      · exact mul_le_mul_of_nonneg_right (le_max_right _ _) (by positivity)
    have hMn : ‖M‖ ≤ ‖M0‖ + Λ * K := by
      calc ‖M‖ = ‖M0 + (M - M0)‖ := by rw [add_sub_cancel]
        _ ≤ ‖M0‖ + ‖M - M0‖ := norm_add_le _ _
        _ ≤ ‖M0‖ + Λ * (K * ‖z - x0‖) := by gcongr
        _ ≤ ‖M0‖ + Λ * (K * 1) := by gcongr
        _ = _ := by ring
    have a2 : |(M - M0) D| ≤ Λ * (K * ‖z - x0‖) * (K * ‖z - x0‖) :=
      ((M - M0).le_opNorm D).trans (mul_le_mul h2 h3 (norm_nonneg _) (by positivity))
    have a3 : |M (D - (d1, d2))| ≤ (‖M0‖ + Λ * K) * (C * ‖z - x0‖ ^ 2) :=
      (M.le_opNorm _).trans (mul_le_mul hMn hinc (norm_nonneg _) (by positivity))
    rw [hz, hz]
    have e : φ (p.1 z, q.1 z) - φ (p.1 x0, q.1 x0) - M (d1, d2) =
        (φ (p.1 z, q.1 z) - φ (p.1 x0, q.1 x0) - M0 D) - (M - M0) D + M (D - (d1, d2)) := by
      have h7 : (M - M0) D = M D - M0 D := rfl
      have h8 : M (D - (d1, d2)) = M D - M (d1, d2) := M.map_sub _ _
      rw [h7, h8]; ring
    rw [e]
    calc _ ≤ |(φ (p.1 z, q.1 z) - φ (p.1 x0, q.1 x0) - M0 D) - (M - M0) D| + |M (D - (d1, d2))| := abs_add_le _ _
      _ ≤ (|φ (p.1 z, q.1 z) - φ (p.1 x0, q.1 x0) - M0 D| + |(M - M0) D|) + |M (D - (d1, d2))| := by
        gcongr; exact abs_sub _ _
      _ ≤ (A * (K * ‖z - x0‖) ^ 2 + Λ * (K * ‖z - x0‖) * (K * ‖z - x0‖)) + (‖M0‖ + Λ * K) * (C * ‖z - x0‖ ^ 2) := by gcongr
      _ = _ := by ring

theorem zfun_un {o : OpCode} (ho : o.isUnary = true) (a b : ℝ) : zfun o a b = zfun o a a := by
  cases o <;> simp [OpCode.isUnary] at ho <;> rfl

theorem ffun_un {o : OpCode} (ho : o.isUnary = true) (a b d e : ℝ) : ffun o a b d e = ffun o a a d d := by
  cases o <;> simp [OpCode.isUnary] at ho <;> rfl

/-- The increments of a binary operation are derivatives of every function that agrees with it. -/
theorem ffun_fderiv {o : OpCode} (ho : o.isBinary = true) {arg : Arg ℝ} {a b : ℝ} (hs : SmoothOp o (some arg) a (some b))
    (hb : ∀ c, arg = .lit c → b = c) {φ : ℝ × ℝ → ℝ} (hφ : DifferentiableAt ℝ φ (a, b))
    (h2 : ∀ p q, (∀ c, arg = .lit c → q = c) → zfun o p q = φ (p, q)) {d1 d2 : ℝ} (hd2 : ∀ c, arg = .lit c → d2 = 0) :
    ffun o a b d1 d2 = fderiv ℝ φ (a, b) (d1, d2) := by
  obtain ⟨ψ, L, g1, -, g2, g3⟩ := smooth_bin ho hs hb
  rw [g3 _ _ hd2]
  -- along the line both functions agree
  have hline : ∀ τ : ℝ, φ ((a, b) + τ • (d1, d2)) = ψ ((a, b) + τ • (d1, d2)) := by
    intro τ
    have hl : ∀ c, arg = .lit c → b + τ * d2 = c := by
      intro c hc
      rw [hd2 c hc, mul_zero, add_zero, hb c hc]
    have e1 := h2 (a + τ * d1) (b + τ * d2) hl
    have e2 := g2 (a + τ * d1) (b + τ * d2) hl
    rw [e1] at e2
    exact e2
  have hl : HasDerivAt (fun τ : ℝ => (a, b) + τ • (d1, d2)) (d1, d2) 0 := by
    simpa using ((hasDerivAt_id (0 : ℝ)).smul_const (d1, d2)).const_add (a, b)
  have h0 : (a, b) = (a, b) + (0 : ℝ) • (d1, d2) := by rw [zero_smul, add_zero]
  have l1 : HasDerivAt (fun τ : ℝ => φ ((a, b) + τ • (d1, d2))) _ 0 := hφ.hasFDerivAt.comp_hasDerivAt_of_eq 0 hl h0
  have l2 : HasDerivAt (fun τ : ℝ => ψ ((a, b) + τ • (d1, d2))) _ 0 := g1.comp_hasDerivAt_of_eq 0 hl h0
  rw [show (fun τ : ℝ => φ ((a, b) + τ • (d1, d2))) = fun τ => ψ ((a, b) + τ • (d1, d2)) from funext hline] at l1
  exact l2.unique l1

/-- Semismoothness of user code. -/
noncomputable def semiCalc (x0 : E) : NearCalc E (E → Set ℝ) x0 where
  sh := semiSh
  Good := SemiGood x0
  cst_fst _ := rfl
  op_fst _ _ _ _ _ := rfl
  cont _ h := h.cont
  lit c := {
    cont := continuousAt_const
    lip := ⟨0, le_rfl, .of_forall fun z => by show |c - c| ≤ _; simp⟩
    semi := ⟨0, le_rfl, .of_forall fun z d hd => by
      rw [Set.mem_singleton_iff.mp hd]
      show |c - c - 0| ≤ _
      simp⟩ }
  un o p ho hp hs := by
    by_cases habs : o = .Abs
    · subst habs
      exact hp.abs _ _
    · obtain ⟨k, h1, hc2, h2⟩ := smooth_un ho habs hs
      have hcφ : ContDiffAt ℝ 2 (fun r : ℝ × ℝ => zfun o r.1 r.1) (p.1 x0, p.1 x0) :=
        ContDiffAt.comp (g := fun s : ℝ => zfun o s s) (f := fun r : ℝ × ℝ => r.1) (p.1 x0, p.1 x0) hc2 contDiffAt_fst
      refine hp.comp hp hcφ (fun _ => rfl) ?_
      have hev := SmoothOp.eventually (arg := none) (h := p.1) (by simpa [arityOk] using ho) hp.cont hp.cont hs
      filter_upwards [hev] with z hz d hd
      obtain ⟨d1, k1, d2, k2, rfl⟩ : ∃ d1 ∈ p.2 z, ∃ d2 ∈ p.2 z, d = ffun o (p.1 z) (p.1 z) d1 d2 := by
        have hd' : d ∈ (if o = .Abs then _ else {d | ∃ d1 ∈ p.2 z, ∃ d2 ∈ p.2 z, d = ffun o (p.1 z) (p.1 z) d1 d2} : Set ℝ) := hd
        rwa [if_neg habs] at hd'
      obtain ⟨k', g1, -, g2⟩ := smooth_un ho habs (a := p.1 z) hz
      have hφ : HasFDerivAt (fun r : ℝ × ℝ => zfun o r.1 r.1) (k' • ContinuousLinearMap.fst ℝ ℝ ℝ) (p.1 z, p.1 z) :=
        HasDerivAt.comp_hasFDerivAt (h₂ := fun s : ℝ => zfun o s s) (f := fun r : ℝ × ℝ => r.1) (p.1 z, p.1 z) g1
          hasFDerivAt_fst
      refine ⟨d1, k1, d2, k2, ?_⟩
      rw [hφ.fderiv, ffun_un ho, g2]
      rfl
  bin o arg p q ho hp hq hlit hs := by
    have habs : o ≠ .Abs := by rintro rfl; cases ho
    have hb : ∀ z c, arg = .lit c → q.1 z = c := fun z c hc => by rw [hlit c hc]; rfl
    obtain ⟨φ, M, h1, hc2, h2, h3⟩ := smooth_bin ho hs (hb x0)
    refine hp.comp hq hc2 (fun z => h2 _ _ (hb z)) ?_
    have hev := SmoothOp.eventually (arg := some arg) (by simpa [arityOk] using ho) hp.cont hq.cont hs
    have hdiff : ∀ᶠ z in 𝓝 x0, DifferentiableAt ℝ φ (p.1 z, q.1 z) := by
      have hcd : ∀ᶠ y in 𝓝 (p.1 x0, q.1 x0), ContDiffAt ℝ 2 φ y := hc2.eventually (by simp)
      filter_upwards [(hp.cont.prodMk hq.cont).eventually hcd] with z hz using hz.differentiableAt (by norm_num)
    filter_upwards [hev, hdiff] with z hz hzd d hd
    obtain ⟨d1, k1, d2, k2, rfl⟩ : ∃ d1 ∈ p.2 z, ∃ d2 ∈ q.2 z, d = ffun o (p.1 z) (q.1 z) d1 d2 := by
      have hd' : d ∈ (if o = .Abs then _ else {d | ∃ d1 ∈ p.2 z, ∃ d2 ∈ q.2 z, d = ffun o (p.1 z) (q.1 z) d1 d2} : Set ℝ) := hd
      rwa [if_neg habs] at hd'
    have hd2 : ∀ c, arg = .lit c → d2 = 0 := by
      intro c hc
      rw [hlit c hc] at k2
      exact k2
    exact ⟨d1, k1, d2, k2, ffun_fderiv ho hz (hb z) hzd h2 hd2⟩

/-- The increments at a point. -/
noncomputable def semiHom (x0 : E) : NearHom (semiCalc x0) (Set ℝ) where
  sh := setSh
  ev z D := D z
  cst _ _ := rfl
  op _ _ _ _ _ _ := rfl

end semi
end Adv
