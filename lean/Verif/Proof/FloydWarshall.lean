import Mathlib.Tactic.Linarith
import Verif.Proof.Chain
import Verif.Proof.Probe
import Verif.Proof.FwRun
import Verif.Proof.Sweeps

/-! # The Floyd-Warshall example computes shortest paths -/

set_option linter.unusedSectionVars false

namespace Adv.Fw
open scoped Adv

/-! ## The programs are straight-line -/

section straight
variable {S : Type} [Flt S]

theorem opMax_straight (a b : Arg S) {c : Arg S → Prog S} (h : ∀ r, (c r).StraightLine) : (opMax a b c).StraightLine :=
  ⟨fun _ _ _ => rfl, fun _ _ => ⟨fun _ _ _ => rfl, fun _ _ => ⟨fun _ _ _ => rfl, fun _ _ =>
    ⟨fun _ _ _ => rfl, fun _ _ => ⟨fun _ _ _ => rfl, fun _ _ => h _⟩⟩⟩⟩⟩

theorem opMin_straight (a b : Arg S) {c : Arg S → Prog S} (h : ∀ r, (c r).StraightLine) : (opMin a b c).StraightLine :=
  ⟨fun _ _ _ => rfl, fun _ _ => ⟨fun _ _ _ => rfl, fun _ _ => ⟨fun _ _ _ => rfl, fun _ _ =>
    ⟨fun _ _ _ => rfl, fun _ _ => ⟨fun _ _ _ => rfl, fun _ _ => h _⟩⟩⟩⟩⟩

theorem newLights_straight (lo hi : S) {c : List (Arg S × Arg S) → Prog S} (h : ∀ r, (c r).StraightLine) :
    ∀ qs acc, (newLights lo hi qs acc c).StraightLine := by
  intro qs
  induction qs with
  | nil => intro acc; exact h acc
  | cons q qs ih =>
    intro acc
    unfold newLights newLight
    refine opMax_straight _ _ fun _ => opMin_straight _ _ fun _ => ?_
    exact ⟨fun _ _ _ => rfl, fun _ _ => ih _⟩

theorem setEdges_straight (n : Nat) (ls : List (Arg S × Arg S)) {c : List (Arg S) → Prog S}
    (h : ∀ r, (c r).StraightLine) : ∀ es d, (setEdges n ls es d c).StraightLine := by
  intro es
  induction es with
  | nil => intro d; exact h d
  | cons e es ih =>
    intro d
    rw [setEdges]
    split
    · trivial
    · refine ⟨fun _ _ _ => rfl, fun _ _ => ⟨fun _ _ _ => rfl, fun _ _ => ?_⟩⟩
      beta_reduce
      split
      · trivial
      · exact ih _

theorem relax_straight (n k : Nat) {c : List (Arg S) → Prog S}
    (h : ∀ r, (c r).StraightLine) : ∀ ps d, (relax n k ps d c).StraightLine := by
  intro ps
  induction ps with
  | nil => intro d; exact h d
  | cons e es ih =>
    intro d
    obtain ⟨i, j⟩ := e
    rw [relax]
    split
    · exact ⟨fun _ _ _ => rfl, fun _ _ => opMin_straight _ _ fun _ => ih _⟩
    · trivial

theorem sumSquares_straight (n : Nat) (d : List (Arg S)) {c : Arg S → Prog S}
    (h : ∀ r, (c r).StraightLine) : ∀ ps r, (sumSquares n ps d r c).StraightLine := by
  intro ps
  induction ps with
  | nil => intro d; exact h d
  | cons e es ih =>
    intro r
    obtain ⟨i, j⟩ := e
    rw [sumSquares]
    split
    · trivial
    · exact ⟨fun _ _ _ => rfl, fun _ _ => ⟨fun _ _ _ => rfl, fun _ _ => ih _⟩⟩

theorem init_straight (N : Net S) : (init N).StraightLine := by
  intro p hp
  obtain rfl : p = _ := List.mem_singleton.mp hp
  exact ⟨fun _ => newLights_straight _ _ (fun _ => setEdges_straight _ _ (fun _ => by exact trivial) _ _) _ _, fun _ _ _ => rfl⟩

theorem step_straight (n k : Nat) : (step n k : Func S).StraightLine := by
  intro p hp
  obtain rfl : p = _ := List.mem_singleton.mp hp
  exact ⟨fun _ => relax_straight _ _ (fun _ => by exact trivial) _ _, fun _ _ _ => rfl⟩

theorem badness_straight (n : Nat) (exits : List Nat) : (badness n exits : Func S).StraightLine := by
  intro p hp
  obtain rfl : p = _ := List.mem_singleton.mp hp
  exact ⟨fun _ => sumSquares_straight _ _ (fun _ => by exact trivial) _ _, fun _ _ _ => rfl⟩

end straight

/-! ## The tapes -/

section tapes
variable {S A : Type} [Flt S] {sh : Shadow S A}

theorem map_fst_eq {L : Nat} (F : Nat → S × A) :
    ((List.range L).map F).map Prod.fst = (List.range L).map fun i => (F i).1 := by
  rw [List.map_map]; rfl

theorem evalV_of_evalS {f : Func S} {ss ys : List (S × A)} (h : f.evalS sh ss = .ok ys) :
    f.evalV (ss.map Prod.fst) = .ok (ys.map Prod.fst) := by
  rw [← Func.evalS_fst sh, h]; rfl

theorem tape_ok {f : Func S} {x y : List S} (h : f.evalV x = .ok y) {w : World S} (hw : w.nextId < usizeMax) :
    ∃ t, f.tape x w = (.ok t, w.afterTape) ∧ TapeOf f x t := by
  obtain ⟨h1, h2⟩ := Func.tape_spec f x w hw
  rw [h] at h2
  obtain ⟨t, h3, h4⟩ := h2.ok_right
  exact ⟨t, Prod.ext h3 h1, h4⟩

theorem replay {f : Func S} (hf : f.StraightLine) {x0 : List S} {t : Tape S} (ht : TapeOf f x0 t) {ss ys : List (S × A)}
    (h : f.evalS sh ss = .ok ys) (hl : ss.length = x0.length) :
    ∃ t1, t.zeroOrder (ss.map Prod.fst) = .ok t1 ∧ t1.y = .ok (ys.map Prod.fst) := by
  obtain ⟨t1, h1, -, -, h2⟩ := ht.zeroOrder_eval hf (x1 := ss.map Prod.fst) (by simpa using hl)
  rw [evalV_of_evalS h] at h2
  exact ⟨t1, h1, h2.symm⟩

theorem zeros_eq (L : Nat) : List.replicate L (Flt.zero : S) =
    ((List.range L).map fun _ => (Flt.zero, ())).map Prod.fst := by
  simp [List.map_const']

theorem tapeStep_ok {n k : Nat} (hk : k < n) {w : World S} (hw : w.nextId < usizeMax) :
    ∃ t, tapeStep n k w = (.ok t, w.afterTape) ∧ TapeOf (step n k) (List.replicate (n * n) Flt.zero) t := by
  have := evalV_of_evalS (step_eval (sh := unitSh) hk fun _ => ((Flt.zero : S), ()))
  rw [← zeros_eq] at this
  exact tape_ok this hw

/-- What `record` returns. -/
structure Recorded (N : Net S) (tapes : Tape S × Tape S) : Prop where
  init : TapeOf (init N) (List.replicate N.lights Flt.zero) tapes.1
  badness : TapeOf (badness N.n N.exits) (List.replicate (N.n * N.n) Flt.zero) tapes.2

theorem record_ok {N : Net S} (hN : N.Ok) {w : World S} (hw : w.nextId + 2 ≤ usizeMax) :
    ∃ tapes w', record N w = (.ok tapes, w') ∧ Recorded N tapes ∧ w'.nextId = w.nextId + 2 := by
  have h1 := evalV_of_evalS (init_eval (sh := unitSh) hN fun _ => ((Flt.zero : S), ()))
  have h2 := evalV_of_evalS (badness_eval (sh := unitSh) hN.exits fun _ => ((Flt.zero : S), ()))
  rw [← zeros_eq] at h1 h2
  obtain ⟨t1, e1, k1⟩ := tape_ok h1 (w := w) (by omega)
  have n1 : w.afterTape.nextId = w.nextId + 1 := afterTape_nextId (by omega)
  obtain ⟨t2, e2, k2⟩ := tape_ok h2 (w := w.afterTape) (by omega)
  refine ⟨(t1, t2), w.afterTape.afterTape, ?_, ⟨k1, k2⟩, by rw [afterTape_nextId (by omega), n1]⟩
  rw [record, M.bind_ok e1, M.bind_ok e2]
  rfl

theorem recorded_of_record {N : Net S} (hN : N.Ok) {w w' : World S} (hw : w.nextId + 2 ≤ usizeMax)
    {tapes : Tape S × Tape S} (h : record N w = (.ok tapes, w')) : Recorded N tapes := by
  obtain ⟨t, w1, h1, h2, -⟩ := record_ok hN hw
  rw [h1] at h
  injection h with h _
  injection h with h
  exact h ▸ h2

/-- The matrix after the first `k` steps. -/
def distS (sh : Shadow S A) (N : Net S) (x : Nat → S × A) (k : Nat) : Nat → S × A :=
  (List.range k).foldl (fun d k => relaxS sh N.n k (pairs N.n) d) (initS sh N x)

theorem distS_succ (N : Net S) (x : Nat → S × A) (k : Nat) :
    distS sh N x (k + 1) = relaxS sh N.n k (pairs N.n) (distS sh N x k) := by
  rw [distS, List.range_succ, List.foldl_append]; rfl

theorem stepLoop_eval {n : Nat} : ∀ (ks : List Nat), (∀ k ∈ ks, k < n) → ∀ (F : Nat → S × A) (w : World S),
    w.nextId + ks.length ≤ usizeMax → ∃ w', stepLoop n ks ((List.range (n * n)).map fun i => (F i).1) w =
      (.ok ((List.range (n * n)).map fun i => (ks.foldl (fun d k => relaxS sh n k (pairs n) d) F i).1), w') ∧
      w'.nextId = w.nextId + ks.length := by
  intro ks
  induction ks with
  | nil => intro _ F w _; exact ⟨w, rfl, rfl⟩
  | cons k ks ih =>
    intro hk F w hw
    simp only [List.length_cons] at hw ⊢
    obtain ⟨t, e1, ht⟩ := tapeStep_ok (hk k (by simp)) (w := w) (by omega)
    obtain ⟨t1, e2, e3⟩ := replay (step_straight n k) ht (step_eval (sh := sh) (hk k (by simp)) F) (by simp)
    rw [map_fst_eq] at e2 e3
    have n1 : w.afterTape.nextId = w.nextId + 1 := afterTape_nextId (by omega)
    obtain ⟨w', e4, n2⟩ := ih (fun k hk' => hk k (by simp [hk'])) (relaxS sh n k (pairs n) F) w.afterTape (by omega)
    refine ⟨w', ?_, by omega⟩
    rw [stepLoop, M.bind_ok e1, e2, Ckpt.lift_ok_bind, e3, Ckpt.lift_ok_bind, e4]
    rfl

/-- `zero_order` runs the algorithm. -/
theorem zeroOrder_eval {N : Net S} (hN : N.Ok) {tapes : Tape S × Tape S} (ht : Recorded N tapes) (x : Nat → S × A)
    {w : World S} (hw : w.nextId + N.n ≤ usizeMax) :
    ∃ w', zeroOrder N tapes ((List.range N.lights).map fun i => (x i).1) w =
      (.ok (badS sh N.n (exitPairs N.exits) (distS sh N x N.n)).1, w') ∧ w'.nextId = w.nextId + N.n := by
  obtain ⟨t1, e1, e2⟩ := replay (init_straight N) ht.init (init_eval (sh := sh) hN x) (by simp)
  rw [map_fst_eq] at e1 e2
  obtain ⟨w', e3, n1⟩ := stepLoop_eval (sh := sh) (List.range N.n) (fun k hk => List.mem_range.mp hk) (initS sh N x) w
    (by simpa using hw)
  obtain ⟨t2, e4, e5⟩ := replay (badness_straight N.n N.exits) ht.badness
    (badness_eval (sh := sh) hN.exits (distS sh N x N.n)) (by simp)
  rw [map_fst_eq] at e4
  refine ⟨w', ?_, by simpa using n1⟩
  rw [zeroOrder, e1, Ckpt.lift_ok_bind, e2, Ckpt.lift_ok_bind, M.bind_ok e3]
  have e4' : tapes.2.zeroOrder ((List.range (N.n * N.n)).map fun i => ((List.range N.n).foldl
    (fun d k => relaxS sh N.n k (pairs N.n) d) (initS sh N x) i).1) = .ok t2 := e4
  rw [e4', Ckpt.lift_ok_bind, e5, Ckpt.lift_ok_bind]
  rfl

/-- The chain of all functions. -/
theorem chain_eval {N : Net S} (hN : N.Ok) (x : Nat → S × A) :
    (Func.chain (init N :: (List.range N.n).map (step N.n) ++ [badness N.n N.exits])).evalS sh
      ((List.range N.lights).map x) = .ok [badS sh N.n (exitPairs N.exits) (distS sh N x N.n)] := by
  have hs : ∀ ks : List Nat, (∀ k ∈ ks, k < N.n) → ∀ F : Nat → S × A,
      runProgsS sh (Func.progsAll (ks.map (step N.n))) ((List.range (N.n * N.n)).map F) =
        .ok ((List.range (N.n * N.n)).map (ks.foldl (fun d k => relaxS sh N.n k (pairs N.n) d) F)) := by
    intro ks
    induction ks with
    | nil => intro _ F; rfl
    | cons k ks ih =>
      intro hk F
      have h1 : runProgsS sh (step N.n k).progs ((List.range (N.n * N.n)).map F) = _ := step_eval (hk k (by simp)) F
      rw [List.map_cons, Func.progsAll, runProgsS_append, h1, bind_ok_eq, ih fun k hk' => hk k (by simp [hk'])]
      rfl
  have hall : ∀ fs gs : List (Func S), Func.progsAll (fs ++ gs) = Func.progsAll fs ++ Func.progsAll gs := by
    intro fs gs
    induction fs with
    | nil => rfl
    | cons f fs ih => rw [List.cons_append, Func.progsAll, Func.progsAll, ih, List.append_assoc]
  show runProgsS sh (Func.progsAll _) _ = _
  have h1 : runProgsS sh (init N).progs ((List.range N.lights).map x) = _ := init_eval hN x
  have h3 : runProgsS sh (badness N.n N.exits).progs ((List.range (N.n * N.n)).map (distS sh N x N.n)) = _ :=
    badness_eval hN.exits _
  rw [hall, Func.progsAll, runProgsS_append, runProgsS_append, h1, bind_ok_eq, hs _ fun k hk => List.mem_range.mp hk,
    bind_ok_eq, Func.progsAll, Func.progsAll, List.append_nil]
  exact h3

end tapes

/-! ## Shortest paths -/

variable {K A : Type} [Field K] [LinearOrder K] [IsStrictOrderedRing K] [Flt K] [LawfulFlt K] {sh : Shadow K A}

theorem mnS_fst (p q : K × A) : (mnS sh p q).1 = min p.1 q.1 := by
  simp only [mnS, bin, lit, zfun, LawfulFlt.half_eq, LawfulFlt.add_eq, LawfulFlt.sub_eq, LawfulFlt.mul_eq, LawfulFlt.abs_eq]
  rcases le_total p.1 q.1 with h | h
  · rw [min_eq_left h, abs_of_nonpos (by linarith)]; ring
  · rw [min_eq_right h, abs_of_nonneg (by linarith)]; ring

theorem mxS_fst (p q : K × A) : (mxS sh p q).1 = max p.1 q.1 := by
  simp only [mxS, bin, lit, zfun, LawfulFlt.half_eq, LawfulFlt.add_eq, LawfulFlt.sub_eq, LawfulFlt.mul_eq, LawfulFlt.abs_eq]
  rcases le_total p.1 q.1 with h | h
  · rw [max_eq_right h, abs_of_nonpos (by linarith)]; ring
  · rw [max_eq_left h, abs_of_nonneg (by linarith)]; ring

theorem edgeS_fst (N : Net K) (x : Nat → K × A) (e : Edge) {params : List K}
    (hx : params.getD e.light 0 = (x e.light).1) : (edgeS sh N x e).1 = 1 + 1 / N.quota params e := by
  unfold edgeS lightS Net.quota
  rw [hx]
  cases e.topBottom <;>
    simp [bin, lit, zfun, mnS_fst, mxS_fst, LawfulFlt.one_eq, LawfulFlt.add_eq, LawfulFlt.sub_eq, LawfulFlt.div_eq]

/-- The entry of the initial matrix. -/
theorem foldl_edges {P : Type} {n : Nat} (g : Edge → P) {i j : Nat} (hi : i < n) (hj : j < n) :
    ∀ (es : List Edge), (∀ e ∈ es, e.u < n ∧ e.v < n) → ∀ (F : Nat → P),
      es.foldl (fun d e => upd (upd d (e.u * n + e.v) (g e)) (e.v * n + e.u) (g e)) F (i * n + j) =
        match es.reverse.find? fun e => decide (e.joins i j) with
        | some e => g e
        | none => F (i * n + j) := by
  intro es
  induction es with
  | nil => intro _ F; rfl
  | cons e es ih =>
    intro he F
    obtain ⟨hu, hv⟩ := he e (by simp)
    rw [List.foldl_cons, ih (fun e h => he e (by simp [h])), List.reverse_cons, List.find?_append]
    rcases hf : es.reverse.find? fun e => decide (e.joins i j) with _ | e'
    · simp only [hf, Option.none_or, List.find?_cons, List.find?_nil]
      by_cases hj' : e.joins i j
      · simp only [hj', decide_true]
        rcases hj' with ⟨rfl, rfl⟩ | ⟨rfl, rfl⟩
        · by_cases h : e.u * n + e.v = e.v * n + e.u
          · rw [h, upd_same]
          · rw [upd_ne h, upd_same]
        · rw [upd_same]
      · simp only [hj', decide_false]
        rw [upd_ne, upd_ne]
        · intro h; rw [idx_inj hj hv] at h; exact hj' (Or.inl ⟨h.1.symm, h.2.symm⟩)
        · intro h; rw [idx_inj hj hu] at h; exact hj' (Or.inr ⟨h.2.symm, h.1.symm⟩)
    · simp [hf]

theorem matS_eq {n : Nat} (inf : K) {i j : Nat} (hi : i < n) (hj : j < n) :
    matS sh n inf (i * n + j) = if i = j then lit sh Flt.zero else lit sh inf := by
  have key : ∀ (l : List Nat), (∀ a ∈ l, a < n) → ∀ F : Nat → K × A,
      l.foldl (fun d i => upd d (i * n + i) (lit sh Flt.zero)) F (i * n + j) =
        if i = j ∧ i ∈ l then lit sh Flt.zero else F (i * n + j) := by
    intro l
    induction l with
    | nil => intro _ F; simp
    | cons a l ih =>
      intro hl F
      rw [List.foldl_cons, ih fun b hb => hl b (by simp [hb])]
      by_cases h : i = j ∧ i ∈ l
      · rw [if_pos h, if_pos ⟨h.1, by simp [h.2]⟩]
      · rw [if_neg h]
        by_cases h2 : i = a ∧ j = a
        · obtain ⟨rfl, rfl⟩ := h2
          rw [upd_same, if_pos ⟨rfl, by simp⟩]
        · rw [upd_ne (by rw [Ne, idx_inj hj (hl a (by simp))]; exact h2), if_neg]
          rintro ⟨h3, h4⟩
          rcases List.mem_cons.mp h4 with rfl | h5
          · exact h2 ⟨rfl, h3.symm⟩
          · exact h ⟨h3, h5⟩
  rw [matS, key _ fun a ha => List.mem_range.mp ha]
  simp [hi]

theorem initS_eq {N : Net K} (hN : N.Ok) (x : Nat → K × A) {i j : Nat} (hi : i < N.n) (hj : j < N.n) :
    initS sh N x (i * N.n + j) =
      match N.edges.reverse.find? fun e => decide (e.joins i j) with
      | some e => edgeS sh N x e
      | none => if i = j then lit sh Flt.zero else lit sh N.inf := by
  rw [initS, foldl_edges _ hi hj _ fun e he => ⟨(hN.ends e he).1, (hN.ends e he).2.1⟩, matS_eq _ hi hj]

theorem initS_fst {N : Net K} (hN : N.Ok) (x : Nat → K × A) {params : List K}
    (hx : ∀ i < N.lights, params.getD i 0 = (x i).1) {i j : Nat} (hi : i < N.n) (hj : j < N.n) :
    (initS sh N x (i * N.n + j)).1 = N.weight params i j := by
  rw [initS_eq hN x hi hj, Net.weight]
  rcases hf : N.edges.reverse.find? fun e => decide (e.joins i j) with _ | e
  · simp only [hf]
    split <;> simp [lit, LawfulFlt.zero_eq]
  · simp only [hf]
    have he := List.mem_reverse.mp (List.mem_of_find?_eq_some hf)
    exact edgeS_fst N x e (hx _ (hN.lights e he))

theorem weight_nonneg {N : Net K} (h1 : 0 < N.lo) (h2 : N.hi < 1) (h3 : 0 < N.hi) (h4 : 0 ≤ N.inf) (params : List K) (i j : Nat) :
    0 ≤ N.weight params i j := by
  unfold Net.weight
  split
  · rename_i e _
    have hq : 0 ≤ N.quota params e := by
      unfold Net.quota
      split
      · exact le_min (le_trans h1.le (le_max_right _ _)) h3.le
      · have := min_le_right (max (params.getD e.light 0) N.lo) N.hi
        linarith
    positivity
  · split
    · exact le_rfl
    · exact h4

theorem weight_diag {N : Net K} (hN : N.Ok) (params : List K) (i : Nat) : N.weight params i i = 0 := by
  unfold Net.weight
  rw [List.find?_eq_none.mpr]
  · simp
  · intro e he
    have := (hN.ends e (List.mem_reverse.mp he)).2.2
    simp only [Edge.joins, or_self, decide_eq_true_eq, not_and]
    intro h1 h2
    exact this (h1.trans h2.symm)

/-- Walks with at least one edge all of whose inner nodes are less than `k`. -/
inductive Inner (wt : Nat → Nat → K) (k : Nat) : Nat → Nat → K → Prop
  | edge (i j : Nat) : Inner wt k i j (wt i j)
  | cons {i m j : Nat} {c : K} : m < k → Inner wt k m j c → Inner wt k i j (wt i m + c)

variable {wt : Nat → Nat → K}

theorem Inner.nonneg (h : ∀ i j, 0 ≤ wt i j) {k i j : Nat} {c : K} (hi : Inner wt k i j c) : 0 ≤ c := by
  induction hi with
  | edge i j => exact h i j
  | cons _ _ ih => exact add_nonneg (h _ _) ih

theorem Inner.succ (h : ∀ i j, 0 ≤ wt i j) {k i j : Nat} {c : K} (hi : Inner wt (k + 1) i j c) :
    Inner wt k i j c ∨ ∃ c1 c2, c1 + c2 ≤ c ∧ Inner wt k i k c1 ∧ Inner wt k k j c2 := by
  induction hi with
  | edge i j => exact Or.inl (.edge i j)
  | @cons i m j c hm _ ih =>
    rcases Nat.lt_or_ge m k with hlt | hge
    · rcases ih with ih | ⟨c1, c2, h1, h2, h3⟩
      · exact Or.inl (.cons hlt ih)
      · exact Or.inr ⟨wt i m + c1, c2, by linarith, .cons hlt h2, h3⟩
    · obtain rfl : m = k := by omega
      rcases ih with ih | ⟨c1, c2, h1, h2, h3⟩
      · exact Or.inr ⟨wt i m, c, le_rfl, .edge i m, ih⟩
      · exact Or.inr ⟨wt i m, c2, by have := h2.nonneg h; linarith, .edge i m, h3⟩

theorem Walk.trans {n : Nat} {i j k : Nat} {c1 c2 : K} (h1 : Walk n wt i j c1) (h2 : Walk n wt j k c2) :
    Walk n wt i k (c1 + c2) := by
  induction h1 with
  | nil _ => rwa [zero_add]
  | cons hi _ ih => rw [add_assoc]; exact .cons hi (ih h2)

theorem Walk.lt {n i j : Nat} {c : K} (h : Walk n wt i j c) : i < n := by
  cases h <;> assumption

theorem Walk.inner {n i j : Nat} {c : K} (h : Walk n wt i j c) : (i = j ∧ c = 0) ∨ Inner wt n i j c := by
  induction h with
  | nil _ => exact Or.inl ⟨rfl, rfl⟩
  | @cons i m j c hi hw ih =>
    rcases ih with ⟨rfl, rfl⟩ | ih
    · rw [add_zero]; exact Or.inr (.edge i m)
    · exact Or.inr (.cons hw.lt ih)

/-- One entry of the matrix of values. -/
abbrev entry (n : Nat) (F : Nat → K × A) (i j : Nat) : K := (F (i * n + j)).1

/-- The state in the middle of a step. -/
structure Mid (n k : Nat) (wt : Nat → Nat → K) (F0 F : Nat → K × A) (done : List (Nat × Nat)) : Prop where
  walk : ∀ i < n, ∀ j < n, Walk n wt i j (entry n F i j)
  le : ∀ i < n, ∀ j < n, entry n F i j ≤ entry n F0 i j
  via : ∀ p ∈ done, p.1 < n → p.2 < n → entry n F p.1 p.2 ≤ entry n F0 p.1 k + entry n F0 k p.2

theorem relaxS_mid {n k : Nat} (hk : k < n) {F0 : Nat → K × A} : ∀ (ps done : List (Nat × Nat)),
    (∀ p ∈ ps, p.1 < n ∧ p.2 < n) → ∀ F, Mid n k wt F0 F done → Mid n k wt F0 (relaxS sh n k ps F) (done ++ ps) := by
  intro ps
  induction ps with
  | nil => intro done _ F h; rwa [List.append_nil]
  | cons p ps ih =>
    intro done hp F h
    obtain ⟨hi, hj⟩ := hp p (by simp)
    rw [List.append_cons]
    refine ih (done ++ [p]) (fun q hq => hp q (by simp [hq])) _ ?_
    set G := upd F (p.1 * n + p.2) (mnS sh (F (p.1 * n + p.2)) (bin sh .Add (F (p.1 * n + k)) (F (k * n + p.2)))) with hG
    have hval : entry n G p.1 p.2 = min (entry n F p.1 p.2) (entry n F p.1 k + entry n F k p.2) := by
      simp only [entry, hG, upd_same, mnS_fst, bin, zfun, LawfulFlt.add_eq]
    have hoth : ∀ i < n, ∀ j < n, ¬ (i = p.1 ∧ j = p.2) → entry n G i j = entry n F i j := by
      intro i _ j hj' hne
      simp only [entry, hG]
      rw [upd_ne (by rw [Ne, idx_inj hj' hj]; exact hne)]
    have hle : ∀ i < n, ∀ j < n, entry n G i j ≤ entry n F i j := by
      intro i hi' j hj'
      by_cases he : i = p.1 ∧ j = p.2
      · obtain ⟨rfl, rfl⟩ := he
        rw [hval]; exact min_le_left _ _
      · rw [hoth i hi' j hj' he]
    refine ⟨fun i hi' j hj' => ?_, fun i hi' j hj' => (hle i hi' j hj').trans (h.le i hi' j hj'), fun q hq h1 h2 => ?_⟩
    · by_cases he : i = p.1 ∧ j = p.2
      · obtain ⟨rfl, rfl⟩ := he
        rw [hval]
        rcases min_choice (entry n F p.1 p.2) (entry n F p.1 k + entry n F k p.2) with e | e <;> rw [e]
        · exact h.walk _ hi _ hj
        · exact (h.walk _ hi _ hk).trans (h.walk _ hk _ hj)
      · rw [hoth i hi' j hj' he]; exact h.walk i hi' j hj'
    · rcases List.mem_append.mp hq with hq | hq
      · exact (hle _ h1 _ h2).trans (h.via q hq h1 h2)
      · obtain rfl := List.mem_singleton.mp hq
        rw [hval]
        exact (min_le_right _ _).trans (add_le_add (h.le _ hi _ hk) (h.le _ hk _ hj))

theorem mem_pairs {n i j : Nat} (hi : i < n) (hj : j < n) : (i, j) ∈ pairs n := by
  simp [pairs, hi, hj]

/-- The matrix after `k` steps. -/
theorem distS_inv {N : Net K} {x : Nat → K × A} (hwt : ∀ i j, 0 ≤ wt i j)
    (h0 : ∀ i < N.n, ∀ j < N.n, entry N.n (initS sh N x) i j = wt i j) (hd : ∀ i, wt i i = 0) : ∀ k ≤ N.n,
    (∀ i < N.n, ∀ j < N.n, Walk N.n wt i j (entry N.n (distS sh N x k) i j)) ∧
    (∀ i < N.n, entry N.n (distS sh N x k) i i ≤ 0) ∧
    ∀ i < N.n, ∀ j < N.n, ∀ c, Inner wt k i j c → entry N.n (distS sh N x k) i j ≤ c := by
  intro k
  induction k with
  | zero =>
    intro _
    have hdist : distS sh N x 0 = initS sh N x := rfl
    rw [hdist]
    refine ⟨fun i hi j hj => ?_, fun i hi => by rw [h0 i hi i hi, hd], fun i hi j hj c hc => ?_⟩
    · rw [h0 i hi j hj]
      have := Walk.cons (wt := wt) (j := j) hi (.nil hj)
      rwa [add_zero] at this
    · rw [h0 i hi j hj]
      cases hc with
      | edge => exact le_rfl
      | cons hm _ => exact absurd hm (by omega)
  | succ k ih =>
    intro hk
    obtain ⟨a, b, c⟩ := ih (by omega)
    have hm := relaxS_mid (sh := sh) (wt := wt) (show k < N.n by omega) (F0 := distS sh N x k) (pairs N.n) []
      (fun p hp => pairs_lt hp) (distS sh N x k) ⟨a, fun _ _ _ _ => le_rfl, fun p hp => by simp at hp⟩
    rw [← distS_succ, List.nil_append] at hm
    refine ⟨hm.walk, fun i hi => (hm.le i hi i hi).trans (b i hi), fun i hi j hj d hd' => ?_⟩
    rcases hd'.succ hwt with h | ⟨c1, c2, h1, h2, h3⟩
    · exact (hm.le i hi j hj).trans (c i hi j hj d h)
    · have := hm.via (i, j) (mem_pairs hi hj) hi hj
      have e1 := c i hi k (by omega) c1 h2
      have e2 := c k (by omega) j hj c2 h3
      exact this.trans ((add_le_add e1 e2).trans h1)

theorem distS_shortest {N : Net K} {x : Nat → K × A} (hwt : ∀ i j, 0 ≤ wt i j)
    (h0 : ∀ i < N.n, ∀ j < N.n, entry N.n (initS sh N x) i j = wt i j) (hd : ∀ i, wt i i = 0) :
    Shortest N.n wt (entry N.n (distS sh N x N.n)) := by
  obtain ⟨a, b, c⟩ := distS_inv (sh := sh) hwt h0 hd N.n le_rfl
  refine fun i hi j hj => ⟨a i hi j hj, fun d hd' => ?_⟩
  rcases Walk.inner hd' with ⟨rfl, rfl⟩ | h
  · exact b i hi
  · exact c i hi j hj d h

theorem badS_fst (n : Nat) (ps : List (Nat × Nat)) (F : Nat → K × A) :
    (badS sh n ps F).1 = (ps.map fun p => entry n F p.1 p.2 ^ 2).sum := by
  have key : ∀ (ps : List (Nat × Nat)) (r : K × A), (ps.foldl (fun r p =>
      bin sh .Add r (bin sh .Mul (F (p.1 * n + p.2)) (F (p.1 * n + p.2)))) r).1 =
        r.1 + (ps.map fun p => entry n F p.1 p.2 ^ 2).sum := by
    intro ps
    induction ps with
    | nil => intro r; simp
    | cons p ps ih =>
      intro r
      rw [List.foldl_cons, ih, List.map_cons, List.sum_cons]
      simp only [bin, zfun, LawfulFlt.add_eq, LawfulFlt.mul_eq, entry]
      ring
  rw [badS, key]
  simp [lit, LawfulFlt.zero_eq]

/-! ## The network of the example -/

theorem network_ok (lo hi inf : K) : (network lo hi inf).Ok := by
  refine ⟨?_, ?_, ?_⟩ <;> simp only [network] <;> decide

/-- The next node on the way to node 0. -/
def parent : Nat → Nat := fun i => [0, 5, 3, 0, 3, 4, 5, 3, 5, 10, 7, 10, 8, 12, 10, 12, 17, 14, 17, 15, 19, 17, 19].getD i 0

/-- The number of roads on the way to node 0. -/
def depth : Nat → Nat := fun i => [0, 4, 2, 1, 2, 3, 4, 2, 4, 4, 3, 4, 5, 6, 4, 6, 6, 5, 6, 7, 8, 6, 8].getD i 0

theorem network_tree (lo hi inf : K) : ∀ i < 23, depth i ≤ 8 ∧ (i ≠ 0 → parent i < 23 ∧ depth i = depth (parent i) + 1 ∧
    ∃ e ∈ (network lo hi inf).edges, e.joins i (parent i)) := by
  simp only [network]
  decide

theorem Edge.joins.symm {e : Edge} {i j : Nat} (h : e.joins i j) : e.joins j i := Or.symm h

theorem Route.trans {N : Net K} {params : List K} {i j k : Nat} {c1 c2 : K} (h1 : Route N params i j c1)
    (h2 : Route N params j k c2) : Route N params i k (c1 + c2) := by
  induction h1 with
  | nil _ => rwa [zero_add]
  | cons he hj _ ih => rw [add_assoc]; exact .cons he hj (ih h2)

theorem Route.walk {N : Net K} (hN : N.Ok) {params : List K} {i j : Nat} {c : K} (h : Route N params i j c) :
    Walk N.n (N.weight params) i j c := by
  induction h with
  | nil hi => exact .nil hi
  | cons he hj _ ih =>
    refine .cons ?_ ih
    obtain ⟨h1, h2, -⟩ := hN.ends _ he
    rcases hj with ⟨rfl, rfl⟩ | ⟨rfl, rfl⟩
    · exact h1
    · exact h2

/-- A walk that takes less than `inf` uses roads only. -/
theorem Walk.route {N : Net K} {params : List K} (hwt : ∀ i j, 0 ≤ N.weight params i j) {i j : Nat} {c : K}
    (h : Walk N.n (N.weight params) i j c) (hc : c < N.inf) : Route N params i j c := by
  induction h with
  | nil hi => exact .nil hi
  | @cons i m j c hi hw ih =>
    have h0 : 0 ≤ c := by
      rcases hw.inner with ⟨-, rfl⟩ | h
      · exact le_rfl
      · exact h.nonneg hwt
    have hr := ih (by have := hwt i m; linarith)
    rcases hf : N.edges.reverse.find? fun e => decide (e.joins i m) with _ | e
    · have hm : N.weight params i m = if i = m then 0 else N.inf := by rw [Net.weight, hf]
      rw [hm] at hc ⊢
      split at hc
      · rename_i he
        subst he
        rw [if_pos rfl, zero_add]
        exact hr
      · linarith
    · have he := List.mem_of_find?_eq_some hf
      have hj := List.find?_some hf
      exact .cons (List.mem_reverse.mp he) (of_decide_eq_true hj) hr

theorem network_edge {params : List K} {i j : Nat} {e : Edge} (he : e ∈ (network (1 / 100) (99 / 100) 10000 : Net K).edges)
    (hj : e.joins i j) : (network (1 / 100) (99 / 100) 10000 : Net K).weight params i j ≤ 101 := by
  unfold Net.weight
  split
  · rename_i e _
    have hq : (1 / 100 : K) ≤ (network (1 / 100) (99 / 100) 10000 : Net K).quota params e := by
      unfold Net.quota
      split
      · exact le_min (le_max_right _ _) (by simp only [network]; norm_num)
      · have := min_le_right (max (params.getD e.light 0) (network (1 / 100) (99 / 100) 10000 : Net K).lo)
          (network (1 / 100) (99 / 100) 10000 : Net K).hi
        have h2 : (network (1 / 100) (99 / 100) 10000 : Net K).hi = 99 / 100 := rfl
        rw [h2] at this ⊢
        linarith
    have : 1 / (network (1 / 100) (99 / 100) 10000 : Net K).quota params e ≤ 1 / (1 / 100) :=
      one_div_le_one_div_of_le (by norm_num) hq
    norm_num at this ⊢
    linarith
  · rename_i hf
    have := List.find?_eq_none.mp hf e (List.mem_reverse.mpr he)
    simp [hj] at this

/-- Every node can be reached from node 0 and back. -/
theorem network_reach (params : List K) : ∀ d i, i < 23 → depth i = d → 
    (∃ c ≤ 101 * (d : K), Route (network (1 / 100) (99 / 100) 10000) params i 0 c) ∧
    ∃ c ≤ 101 * (d : K), Route (network (1 / 100) (99 / 100) 10000) params 0 i c := by
  intro d
  induction d with
  | zero =>
    intro i hi hd
    by_cases h : i = 0
    · subst h
      exact ⟨⟨0, by simp, .nil (by simp [network])⟩, ⟨0, by simp, .nil (by simp [network])⟩⟩
    · have := ((network_tree (1 / 100 : K) (99 / 100) 10000 i hi).2 h).2.1
      omega
  | succ d ih =>
    intro i hi hd
    have h : i ≠ 0 := by rintro rfl; simp [depth] at hd
    obtain ⟨h1, h2, e, he, hj⟩ := (network_tree (1 / 100 : K) (99 / 100) 10000 i hi).2 h
    obtain ⟨⟨c1, l1, r1⟩, ⟨c2, l2, r2⟩⟩ := ih (parent i) h1 (by omega)
    have b1 := network_edge (params := params) he hj
    have b2 := network_edge (params := params) he hj.symm
    refine ⟨⟨_, ?_, .cons he hj r1⟩, ⟨_, ?_, r2.trans (.cons he hj.symm (.nil (by simpa [network] using hi)))⟩⟩
    · push_cast; linarith
    · push_cast; linarith

theorem network_routes {params : List K} {dist : Nat → Nat → K}
    (h : Shortest 23 ((network (1 / 100) (99 / 100) 10000).weight params) dist) :
    ∀ i < 23, ∀ j < 23, IsLeast {c | Route (network (1 / 100) (99 / 100) 10000) params i j c} (dist i j) := by
  intro i hi j hj
  obtain ⟨h1, h2⟩ := h i hi j hj
  obtain ⟨⟨c1, l1, r1⟩, -⟩ := network_reach params _ i hi rfl
  obtain ⟨-, ⟨c2, l2, r2⟩⟩ := network_reach params _ j hj rfl
  have hle := h2 ((r1.trans r2).walk (network_ok _ _ _))
  have d1 : (depth i : K) ≤ 8 := by exact_mod_cast (network_tree (1 / 100 : K) (99 / 100) 10000 i hi).1
  have d2 : (depth j : K) ≤ 8 := by exact_mod_cast (network_tree (1 / 100 : K) (99 / 100) 10000 j hj).1
  refine ⟨Walk.route (N := network (1 / 100) (99 / 100) 10000) (weight_nonneg (by simp [network]) (by simp [network]; norm_num)
    (by simp [network]) (by simp [network]) params) h1 ?_, fun c hc => h2 (Route.walk (network_ok _ _ _) hc)⟩
  have : (network (1 / 100) (99 / 100) 10000 : Net K).inf = 10000 := rfl
  rw [this]
  linarith

end Adv.Fw
