import Verif.Spec.FloydWarshall
import Verif.Proof.TapeOf

/-!
# What the programs of the Floyd-Warshall example compute

Evaluation of the recorded functions with any shadow, as functions on matrices. A matrix with `n` columns is a function
of the index `i * n + j`.
-/

namespace Adv.Fw
open scoped Adv

variable {S A : Type} [Flt S] (sh : Shadow S A)

/-! ## Operations on pairs -/

/-- The result of an operation. -/
def bin (o : OpCode) (p q : S × A) : S × A := (zfun o p.1 q.1, sh.op o p.1 q.1 p.2 q.2)

/-- A number. -/
def lit (v : S) : S × A := (v, sh.cst v)

/-- `Float::max`. -/
def mxS (p q : S × A) : S × A :=
  bin sh .Mul (lit sh Flt.half) (bin sh .Add (bin sh .Add p q) (bin sh .Abs (bin sh .Sub p q) (bin sh .Sub p q)))

/-- `Float::min`. -/
def mnS (p q : S × A) : S × A :=
  bin sh .Mul (lit sh Flt.half) (bin sh .Sub (bin sh .Add p q) (bin sh .Abs (bin sh .Sub p q) (bin sh .Sub p q)))

/-- The quotas of a traffic light. -/
def lightS (lo hi : S) (q : S × A) : (S × A) × (S × A) :=
  (mnS sh (mxS sh q (lit sh lo)) (lit sh hi), bin sh .Sub (lit sh Flt.one) (mnS sh (mxS sh q (lit sh lo)) (lit sh hi)))

/-- The weight of an edge. -/
def edgeS (N : Net S) (x : Nat → S × A) (e : Edge) : S × A :=
  let q := lightS sh N.lo N.hi (x e.light)
  bin sh .Add (lit sh Flt.one) (bin sh .Div (lit sh Flt.one) (if e.topBottom then q.1 else q.2))

/-- The weights before the edges are set. -/
def matS (n : Nat) (inf : S) : Nat → S × A :=
  (List.range n).foldl (fun d i => upd d (i * n + i) (lit sh Flt.zero)) fun _ => lit sh inf

/-- The weights. -/
def initS (N : Net S) (x : Nat → S × A) : Nat → S × A :=
  N.edges.foldl (fun d e => upd (upd d (e.u * N.n + e.v) (edgeS sh N x e)) (e.v * N.n + e.u) (edgeS sh N x e))
    (matS sh N.n N.inf)

/-- Updates of the entries `ps` with paths through `k`. -/
def relaxS (n k : Nat) (ps : List (Nat × Nat)) (d : Nat → S × A) : Nat → S × A :=
  ps.foldl (fun d p => upd d (p.1 * n + p.2)
    (mnS sh (d (p.1 * n + p.2)) (bin sh .Add (d (p.1 * n + k)) (d (k * n + p.2))))) d

/-- The sum of the squares of the entries `ps`. -/
def badS (n : Nat) (ps : List (Nat × Nat)) (d : Nat → S × A) : S × A :=
  ps.foldl (fun r p => bin sh .Add r (bin sh .Mul (d (p.1 * n + p.2)) (d (p.1 * n + p.2)))) (lit sh Flt.zero)

/-! ## Running programs -/

variable {sh}

/-- An operand denotes a pair. -/
def Val (sh : Shadow S A) (env : List (S × A)) (a : Arg S) (p : S × A) : Prop := a.getS sh env = .ok p

theorem Val.append {env : List (S × A)} {a : Arg S} {p : S × A} (h : Val sh env a p) (ext : List (S × A)) :
    Val sh (env ++ ext) a p := by
  cases a with
  | lit v => exact h
  | var i =>
    simp only [Val, Arg.getS] at h ⊢
    rcases he : env[i]? with _ | x
    · rw [he] at h; cases h
    · have hi : i < env.length := (List.getElem?_eq_some_iff.mp he).1
      rw [List.getElem?_append_left hi, he]
      rw [he] at h
      exact h

theorem Val.lit (sh : Shadow S A) (env : List (S × A)) (v : S) : Val sh env (.lit v) (lit sh v) := rfl

theorem Val.new (env : List (S × A)) (p : S × A) : Val sh (env ++ [p]) (.var env.length) p := by
  simp [Val, Arg.getS]

theorem run_bin {o : OpCode} (ho : o.isBinary = true) {env : List (S × A)} {a b : Arg S} {p q : S × A}
    (ha : Val sh env a p) (hb : Val sh env b q) (k : Nat → S → Prog S) :
    (Prog.op o a (some b) k).runS sh env = (k env.length (bin sh o p q).1).runS sh (env ++ [bin sh o p q]) := by
  have ha' : a.getS sh env = .ok p := ha
  have hb' : b.getS sh env = .ok q := hb
  rw [Prog.runS, ha', bind_ok_eq, Arg.getSOpt, hb']
  simp only [map_ok_eq, bind_ok_eq, arityOk, ho, if_true, Option.getD_some]
  rfl

theorem run_abs {env : List (S × A)} {a : Arg S} {p : S × A} (ha : Val sh env a p) (k : Nat → S → Prog S) :
    (Prog.op .Abs a none k).runS sh env = (k env.length (bin sh .Abs p p).1).runS sh (env ++ [bin sh .Abs p p]) := by
  have ha' : a.getS sh env = .ok p := ha
  rw [Prog.runS, ha', bind_ok_eq, Arg.getSOpt]
  simp only [bind_ok_eq, arityOk, OpCode.isUnary, if_true, Option.getD_none]
  rfl

theorem run_max {env : List (S × A)} {a b : Arg S} {p q : S × A} (ha : Val sh env a p) (hb : Val sh env b q)
    (c : Arg S → Prog S) :
    ∃ ext r, (opMax a b c).runS sh env = (c r).runS sh (env ++ ext) ∧ Val sh (env ++ ext) r (mxS sh p q) := by
  unfold opMax
  rw [run_bin rfl ha hb, run_bin rfl (ha.append _) (hb.append _), run_abs (Val.new _ _),
    run_bin rfl (((Val.new env _).append _).append _) (Val.new _ _), run_bin rfl (Val.lit sh _ _) (Val.new _ _)]
  simp only [List.append_assoc]
  refine ⟨_, _, rfl, ?_⟩
  have := Val.new (sh := sh) (env ++ ([bin sh .Add p q] ++ ([bin sh .Sub p q] ++
    ([bin sh .Abs (bin sh .Sub p q) (bin sh .Sub p q)] ++ [bin sh .Add (bin sh .Add p q)
      (bin sh .Abs (bin sh .Sub p q) (bin sh .Sub p q))])))) (mxS sh p q)
  simp only [List.append_assoc] at this
  exact this

theorem run_min {env : List (S × A)} {a b : Arg S} {p q : S × A} (ha : Val sh env a p) (hb : Val sh env b q)
    (c : Arg S → Prog S) :
    ∃ ext r, (opMin a b c).runS sh env = (c r).runS sh (env ++ ext) ∧ Val sh (env ++ ext) r (mnS sh p q) := by
  unfold opMin
  rw [run_bin rfl ha hb, run_bin rfl (ha.append _) (hb.append _), run_abs (Val.new _ _),
    run_bin rfl (((Val.new env _).append _).append _) (Val.new _ _), run_bin rfl (Val.lit sh _ _) (Val.new _ _)]
  simp only [List.append_assoc]
  refine ⟨_, _, rfl, ?_⟩
  have := Val.new (sh := sh) (env ++ ([bin sh .Add p q] ++ ([bin sh .Sub p q] ++
    ([bin sh .Abs (bin sh .Sub p q) (bin sh .Sub p q)] ++ [bin sh .Sub (bin sh .Add p q)
      (bin sh .Abs (bin sh .Sub p q) (bin sh .Sub p q))])))) (mnS sh p q)
  simp only [List.append_assoc] at this
  exact this

theorem run_light {env : List (S × A)} {a : Arg S} {p : S × A} (ha : Val sh env a p) (lo hi : S)
    (c : Arg S → Arg S → Prog S) :
    ∃ ext r r', (newLight lo hi a c).runS sh env = (c r r').runS sh (env ++ ext) ∧
      Val sh (env ++ ext) r (lightS sh lo hi p).1 ∧ Val sh (env ++ ext) r' (lightS sh lo hi p).2 := by
  unfold newLight
  obtain ⟨e1, r1, h1, h2⟩ := run_max ha (Val.lit sh env lo) fun a => opMin a (.lit hi) fun tb =>
    .op .Sub (.lit Flt.one) (some tb) fun lr _ => c tb (.var lr)
  obtain ⟨e2, r2, h3, h4⟩ := run_min h2 (Val.lit sh _ hi) fun tb =>
    .op .Sub (.lit Flt.one) (some tb) fun lr _ => c tb (.var lr)
  rw [h1, h3, run_bin rfl (Val.lit sh _ _) h4]
  have h5 := h4.append [bin sh .Sub (lit sh Flt.one) (mnS sh (mxS sh p (lit sh lo)) (lit sh hi))]
  have h6 := Val.new (sh := sh) (env ++ e1 ++ e2) (bin sh .Sub (lit sh Flt.one) (mnS sh (mxS sh p (lit sh lo)) (lit sh hi)))
  refine ⟨e1 ++ (e2 ++ [bin sh .Sub (lit sh Flt.one) (mnS sh (mxS sh p (lit sh lo)) (lit sh hi))]), r2, .var (env ++ e1 ++ e2).length, ?_, ?_, ?_⟩
  · simp only [List.append_assoc]
  · simp only [List.append_assoc] at h5
    exact h5
  · rw [← List.append_assoc, ← List.append_assoc]
    exact h6

/-- A list of operands denotes a vector. -/
def Vals (sh : Shadow S A) (env : List (S × A)) (d : List (Arg S)) (L : Nat) (F : Nat → S × A) : Prop :=
  d.length = L ∧ ∀ i < L, ∃ a, d[i]? = some a ∧ Val sh env a (F i)

theorem Vals.append {env : List (S × A)} {d : List (Arg S)} {L : Nat} {F : Nat → S × A} (h : Vals sh env d L F)
    (ext : List (S × A)) : Vals sh (env ++ ext) d L F := by
  refine ⟨h.1, fun i hi => ?_⟩
  obtain ⟨a, h1, h2⟩ := h.2 i hi
  exact ⟨a, h1, h2.append ext⟩

theorem Vals.set {env : List (S × A)} {d : List (Arg S)} {L : Nat} {F : Nat → S × A} (h : Vals sh env d L F) {k : Nat}
    {a : Arg S} {p : S × A} (ha : Val sh env a p) : Vals sh env (d.set k a) L (upd F k p) := by
  refine ⟨by rw [List.length_set, h.1], fun i hi => ?_⟩
  by_cases hik : i = k
  · subst hik
    refine ⟨a, ?_, by rw [upd_same]; exact ha⟩
    rw [List.getElem?_set_self (by rw [h.1]; exact hi)]
  · obtain ⟨b, h1, h2⟩ := h.2 i hi
    refine ⟨b, ?_, by rw [upd_ne hik]; exact h2⟩
    rw [List.getElem?_set_ne (fun e => hik e.symm)]
    exact h1

theorem Vals.mapM {env : List (S × A)} {d : List (Arg S)} {L : Nat} {F : Nat → S × A} (h : Vals sh env d L F) :
    d.mapM (Arg.getS sh env) = .ok ((List.range L).map F) := by
  obtain ⟨h1, h2⟩ := h
  induction d generalizing L F with
  | nil => simp at h1; subst h1; rfl
  | cons a d ih =>
    obtain ⟨L, rfl⟩ : ∃ l, L = l + 1 := ⟨d.length, by simpa using h1.symm⟩
    obtain ⟨b, e1, e2⟩ := h2 0 (by omega)
    simp only [List.getElem?_cons_zero, Option.some.injEq] at e1
    subst e1
    have e2' : a.getS sh env = .ok (F 0) := e2
    have := ih (L := L) (F := fun i => F (i + 1)) (by simpa using h1) (fun i hi => by
      obtain ⟨b, e1, e2⟩ := h2 (i + 1) (by omega)
      exact ⟨b, by simpa using e1, e2⟩)
    rw [List.mapM_cons, e2', bind_ok_eq, this, bind_ok_eq, List.range_succ_eq_map, List.map_cons, List.map_map]
    rfl

/-- The operands of the lights denote their quotas. -/
def LVals (sh : Shadow S A) (env : List (S × A)) (ls : List (Arg S × Arg S)) (lo hi : S) (x : Nat → S × A) : Prop :=
  ∀ i a, ls[i]? = some a → Val sh env a.1 (lightS sh lo hi (x i)).1 ∧ Val sh env a.2 (lightS sh lo hi (x i)).2

theorem LVals.append {env : List (S × A)} {ls : List (Arg S × Arg S)} {lo hi : S} {x : Nat → S × A}
    (h : LVals sh env ls lo hi x) (ext : List (S × A)) : LVals sh (env ++ ext) ls lo hi x :=
  fun i a ha => ⟨(h i a ha).1.append ext, (h i a ha).2.append ext⟩

theorem run_lights {lo hi : S} {x : Nat → S × A} (c : List (Arg S × Arg S) → Prog S) :
    ∀ (m j : Nat) (env : List (S × A)) (acc : List (Arg S × Arg S)), acc.length = j →
      (∀ i < j + m, Val sh env (.var i) (x i)) → LVals sh env acc lo hi x →
      ∃ ext ls, (newLights lo hi (List.range' j m) acc c).runS sh env = (c ls).runS sh (env ++ ext) ∧
        ls.length = j + m ∧ LVals sh (env ++ ext) ls lo hi x := by
  intro m
  induction m with
  | zero =>
    intro j env acc hj hv hl
    exact ⟨[], acc, by rw [List.append_nil]; rfl, by omega, by rw [List.append_nil]; exact hl⟩
  | succ m ih =>
    intro j env acc hj hv hl
    rw [List.range'_succ, newLights]
    obtain ⟨e1, r, r', h1, h2, h3⟩ := run_light (hv j (by omega)) lo hi
      fun tb lr => newLights lo hi (List.range' (j + 1) m) (acc ++ [(tb, lr)]) c
    obtain ⟨e2, ls, h4, h5, h6⟩ := ih (j + 1) (env ++ e1) (acc ++ [(r, r')]) (by simp [hj])
      (fun i hi => (hv i (by omega)).append _) (by
        intro i a ha
        by_cases hi : i < acc.length
        · rw [List.getElem?_append_left hi] at ha
          exact (hl.append e1) i a ha
        · rw [List.getElem?_append_right (by omega)] at ha
          have : i - acc.length = 0 := by
            have := (List.getElem?_eq_some_iff.mp ha).1
            simp at this; omega
          rw [this] at ha
          simp only [List.getElem?_cons_zero, Option.some.injEq] at ha
          subst ha
          obtain rfl : i = j := by omega
          exact ⟨h2, h3⟩)
    refine ⟨e1 ++ e2, ls, ?_, by omega, by rwa [← List.append_assoc]⟩
    rw [h1, h4, List.append_assoc]

theorem idx_lt {n i j : Nat} (hi : i < n) (hj : j < n) : i * n + j < n * n := by
  calc i * n + j < i * n + n := by omega
    _ = (i + 1) * n := by rw [Nat.add_mul, Nat.one_mul]
    _ ≤ n * n := Nat.mul_le_mul_right n hi

theorem idx_inj {n i j u v : Nat} (hj : j < n) (hv : v < n) : i * n + j = u * n + v ↔ i = u ∧ j = v := by
  constructor
  · intro h
    have h1 : (i * n + j) / n = i := by
      rw [Nat.mul_comm, Nat.mul_add_div (by omega), Nat.div_eq_of_lt hj, Nat.add_zero]
    have h2 : (u * n + v) / n = u := by
      rw [Nat.mul_comm, Nat.mul_add_div (by omega), Nat.div_eq_of_lt hv, Nat.add_zero]
    have h3 : i = u := by rw [← h1, ← h2, h]
    subst h3
    exact ⟨rfl, by omega⟩
  · rintro ⟨rfl, rfl⟩; rfl

theorem idx_split {n k : Nat} (hk : k < n * n) : ∃ i j, i < n ∧ j < n ∧ k = i * n + j := by
  have hn : 0 < n := by
    rcases Nat.eq_zero_or_pos n with rfl | h
    · simp at hk
    · exact h
  refine ⟨k / n, k % n, ?_, Nat.mod_lt _ hn, ?_⟩
  · exact Nat.div_lt_of_lt_mul hk
  · rw [Nat.mul_comm]; exact (Nat.div_add_mod k n).symm

theorem initMat_vals (n : Nat) (inf : S) (env : List (S × A)) : Vals sh env (initMat n inf) (n * n) (matS sh n inf) := by
  unfold initMat matS
  have base : Vals sh env (List.replicate (n * n) (.lit inf)) (n * n) (fun _ => lit sh inf) :=
    ⟨by simp, fun i hi => ⟨.lit inf, by simp [hi], rfl⟩⟩
  have key : ∀ (l : List Nat) d F, Vals sh env d (n * n) F →
      Vals sh env (l.foldl (fun d i => d.set (i * n + i) (.lit Flt.zero)) d) (n * n)
        (l.foldl (fun d i => upd d (i * n + i) (lit sh Flt.zero)) F) := by
    intro l
    induction l with
    | nil => intro d F h; exact h
    | cons i l ih =>
      intro d F h
      simp only [List.foldl_cons]
      exact ih _ _ (h.set (Val.lit sh env Flt.zero))
  exact key _ _ _ base

theorem run_edges (N : Net S) {x : Nat → S × A} {ls : List (Arg S × Arg S)} (c : List (Arg S) → Prog S) :
    ∀ (es : List Edge), (∀ e ∈ es, e.u < N.n ∧ e.v < N.n) → (∀ e ∈ es, e.light < ls.length) →
      ∀ (env : List (S × A)) (d : List (Arg S)) (F : Nat → S × A), LVals sh env ls N.lo N.hi x →
      Vals sh env d (N.n * N.n) F →
      ∃ ext d', (setEdges N.n ls es d c).runS sh env = (c d').runS sh (env ++ ext) ∧
        Vals sh (env ++ ext) d' (N.n * N.n) (es.foldl (fun d e =>
          upd (upd d (e.u * N.n + e.v) (edgeS sh N x e)) (e.v * N.n + e.u) (edgeS sh N x e)) F) := by
  intro es
  induction es with
  | nil =>
    intro _ _ env d F _ hd
    exact ⟨[], d, by rw [List.append_nil]; rfl, by rw [List.append_nil]; exact hd⟩
  | cons e es ih =>
    intro he hl env d F hls hd
    have hlt := hl e (by simp)
    obtain ⟨hu, hv⟩ := he e (by simp)
    have hq := List.getElem?_eq_getElem hlt
    obtain ⟨q1, q2⟩ := hls _ _ hq
    have hqv : Val sh env (if e.topBottom then ls[e.light].1 else ls[e.light].2)
        (if e.topBottom then (lightS sh N.lo N.hi (x e.light)).1 else (lightS sh N.lo N.hi (x e.light)).2) := by
      cases e.topBottom
      · exact q2
      · exact q1
    rw [setEdges, hq]
    simp only
    rw [run_bin rfl (Val.lit sh _ _) hqv, run_bin rfl (Val.lit sh _ _) (Val.new _ _)]
    have hset : ∀ a : Arg S, setEdge N.n e.u e.v a d = some ((d.set (e.u * N.n + e.v) a).set (e.v * N.n + e.u) a) := by
      intro a
      unfold setEdge
      rw [if_pos (by rw [hd.1]; exact ⟨idx_lt hu hv, idx_lt hv hu⟩)]
    rw [hset]
    simp only
    set x1 := bin sh .Div (lit sh Flt.one)
      (if e.topBottom then (lightS sh N.lo N.hi (x e.light)).1 else (lightS sh N.lo N.hi (x e.light)).2) with hx1
    have hnew : Val sh (env ++ ([x1] ++ [bin sh .Add (lit sh Flt.one) x1])) (.var (env ++ [x1]).length) (edgeS sh N x e) := by
      rw [← List.append_assoc]
      exact Val.new _ _
    obtain ⟨ext, d', h1, h2⟩ := ih (fun e he' => he e (by simp [he'])) (fun e he' => hl e (by simp [he']))
      (env ++ ([x1] ++ [bin sh .Add (lit sh Flt.one) x1])) _ _ (hls.append _)
      (((hd.append _).set (k := e.u * N.n + e.v) hnew).set (k := e.v * N.n + e.u) hnew)
    refine ⟨([x1] ++ [bin sh .Add (lit sh Flt.one) x1]) ++ ext, d', ?_, ?_⟩
    · rw [← List.append_assoc, List.append_assoc env]; exact h1
    · rw [← List.append_assoc]; exact h2

theorem run_relax {n k : Nat} (hk : k < n) (c : List (Arg S) → Prog S) :
    ∀ (ps : List (Nat × Nat)), (∀ p ∈ ps, p.1 < n ∧ p.2 < n) → ∀ (env : List (S × A)) (d : List (Arg S))
      (F : Nat → S × A), Vals sh env d (n * n) F →
      ∃ ext d', (relax n k ps d c).runS sh env = (c d').runS sh (env ++ ext) ∧
        Vals sh (env ++ ext) d' (n * n) (relaxS sh n k ps F) := by
  intro ps
  induction ps with
  | nil =>
    intro _ env d F hd
    exact ⟨[], d, by rw [List.append_nil]; rfl, by rw [List.append_nil]; exact hd⟩
  | cons p ps ih =>
    intro hp env d F hd
    obtain ⟨i, j⟩ := p
    obtain ⟨hi, hj⟩ := hp (i, j) (by simp)
    simp only at hi hj
    obtain ⟨a, a1, a2⟩ := hd.2 _ (idx_lt hi hj)
    obtain ⟨b, b1, b2⟩ := hd.2 _ (idx_lt hi hk)
    obtain ⟨e, e1, e2⟩ := hd.2 _ (idx_lt hk hj)
    rw [relax, a1, b1, e1]
    simp only
    rw [run_bin rfl b2 e2]
    obtain ⟨x1, r, h1, h2⟩ := run_min (a2.append _) (Val.new env _)
      fun r => relax n k ps (d.set (i * n + j) r) c
    rw [h1]
    obtain ⟨ext, d', h3, h4⟩ := ih (fun p hp' => hp p (by simp [hp'])) _ _ _
      (((hd.append _).append _).set h2)
    refine ⟨[bin sh .Add (F (i * n + k)) (F (k * n + j))] ++ (x1 ++ ext), d', ?_, ?_⟩
    · rw [h3]; simp only [List.append_assoc]
    · simp only [List.append_assoc] at h4
      exact h4

theorem run_squares {n : Nat} {d : List (Arg S)} {F : Nat → S × A} (c : Arg S → Prog S) :
    ∀ (ps : List (Nat × Nat)), (∀ p ∈ ps, p.1 < n ∧ p.2 < n) → ∀ (env : List (S × A)) (r : Arg S) (q : S × A),
      Vals sh env d (n * n) F → Val sh env r q →
      ∃ ext r', (sumSquares n ps d r c).runS sh env = (c r').runS sh (env ++ ext) ∧
        Val sh (env ++ ext) r' (ps.foldl (fun r p =>
          bin sh .Add r (bin sh .Mul (F (p.1 * n + p.2)) (F (p.1 * n + p.2)))) q) := by
  intro ps
  induction ps with
  | nil =>
    intro _ env r q _ hr
    exact ⟨[], r, by rw [List.append_nil]; rfl, by rw [List.append_nil]; exact hr⟩
  | cons p ps ih =>
    intro hp env r q hd hr
    obtain ⟨i, j⟩ := p
    obtain ⟨hi, hj⟩ := hp (i, j) (by simp)
    simp only at hi hj
    obtain ⟨a, a1, a2⟩ := hd.2 _ (idx_lt hi hj)
    rw [sumSquares, a1]
    simp only
    rw [run_bin rfl a2 a2, run_bin rfl (hr.append _) (Val.new _ _)]
    obtain ⟨ext, r', h3, h4⟩ := ih (fun p hp' => hp p (by simp [hp'])) _ _ _ ((hd.append _).append _) (Val.new _ _)
    refine ⟨[_] ++ ([_] ++ ext), r', by rw [h3, List.append_assoc, List.append_assoc], ?_⟩
    simp only [List.append_assoc] at h4
    exact h4

/-! ## The three functions -/

theorem evalS_simple (n m : Nat) (p : List S → Prog S) (x : List (S × A)) :
    (Func.simple n m p).evalS sh x = (p (x.map Prod.fst)).runS sh x := by
  show runProgsS sh [p] x = _
  rw [runProgsS]
  rcases (p (x.map Prod.fst)).runS sh x with e | y <;> rfl

theorem input_val (x : List (S × A)) (F : Nat → S × A) {L : Nat} (hx : x = (List.range L).map F) {i : Nat} (hi : i < L) :
    Val sh x (.var i) (F i) := by
  subst hx
  simp [Val, Arg.getS, hi]

theorem init_eval {N : Net S} (hN : N.Ok) (x : Nat → S × A) :
    (init N).evalS sh ((List.range N.lights).map x) = .ok ((List.range (N.n * N.n)).map (initS sh N x)) := by
  unfold init
  rw [evalS_simple]
  obtain ⟨e1, ls, h1, h2, h3⟩ := run_lights (sh := sh) (lo := N.lo) (hi := N.hi) (x := x)
    (fun ls => setEdges N.n ls N.edges (initMat N.n N.inf) fun d => .ret d) N.lights 0
    ((List.range N.lights).map x) [] rfl (fun i hi => input_val _ _ rfl (by omega)) (by simp [LVals])
  rw [← List.range_eq_range'] at h1
  rw [h1]
  obtain ⟨e2, d', h4, h5⟩ := run_edges N (fun d => .ret d) N.edges
    (fun e he => ⟨(hN.ends e he).1, (hN.ends e he).2.1⟩) (fun e he => by have := hN.lights e he; omega) _ _ _ h3
    (initMat_vals N.n N.inf _)
  rw [h4, Prog.runS, h5.mapM]
  rfl

theorem vars_vals (n : Nat) (F : Nat → S × A) :
    Vals sh ((List.range (n * n)).map F) ((List.range (n * n)).map .var) (n * n) F := by
  refine ⟨by simp, fun i hi => ⟨.var i, by simp [hi], input_val _ _ rfl hi⟩⟩

theorem pairs_lt {n : Nat} {p : Nat × Nat} (hp : p ∈ pairs n) : p.1 < n ∧ p.2 < n := by
  unfold pairs at hp
  simp only [List.mem_flatMap, List.mem_range, List.mem_map] at hp
  obtain ⟨i, hi, j, hj, rfl⟩ := hp
  exact ⟨hi, hj⟩

theorem step_eval {n k : Nat} (hk : k < n) (F : Nat → S × A) :
    (step n k).evalS sh ((List.range (n * n)).map F) = .ok ((List.range (n * n)).map (relaxS sh n k (pairs n) F)) := by
  unfold step
  rw [evalS_simple]
  obtain ⟨ext, d', h1, h2⟩ := run_relax hk (fun d => .ret d) (pairs n) (fun p hp => pairs_lt hp) _ _ _ (vars_vals (sh := sh) n F)
  rw [h1, Prog.runS, h2.mapM]

theorem badness_eval {n : Nat} {exits : List Nat} (hx : ∀ u ∈ exits, u < n) (F : Nat → S × A) :
    (badness n exits).evalS sh ((List.range (n * n)).map F) = .ok [badS sh n (exitPairs exits) F] := by
  unfold badness
  rw [evalS_simple]
  obtain ⟨ext, r', h1, h2⟩ := run_squares (fun r => .ret [r]) (exitPairs exits) (by
    intro p hp
    unfold exitPairs at hp
    simp only [List.mem_flatMap, List.mem_map] at hp
    obtain ⟨i, hi, j, hj, rfl⟩ := hp
    exact ⟨hx i hi, hx j hj⟩) _ (.lit Flt.zero) _ (vars_vals (sh := sh) n F) (Val.lit sh _ _)
  rw [h1, Prog.runS]
  have h3 : r'.getS sh _ = .ok _ := h2
  rw [List.mapM_cons, h3, bind_ok_eq, List.mapM_nil]
  rfl

end Adv.Fw
