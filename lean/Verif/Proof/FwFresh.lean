import Verif.Spec.FloydWarshall
import Verif.Spec.Duplicates
import Verif.Proof.Fresh
import Verif.Proof.FwRun

/-!
# Which variables the programs of the Floyd-Warshall example register

No program takes the absolute value of a variable twice. The steps and the sum register distinct variables. The tape of
the weights registers the weight of every edge twice.
-/

set_option linter.unusedSectionVars false

namespace Adv.Fw
open scoped Adv

variable {S : Type} [Flt S]

/-! ## Absolute values -/

/-- All elements are less than the bound. -/
def Below (used : List Nat) (n : Nat) : Prop := ∀ i ∈ used, i < n

theorem opMin_abs {a b : Arg S} {c : Arg S → Prog S} {n : Nat} {used : List Nat} (hu : Below used n)
    (h : ∀ used', Below used' (n + 5) → (c (.var (n + 4))).AbsOnce (n + 5) used') : (opMin a b c).AbsOnce n used := by
  refine fun _ _ => ⟨fun hm => ?_, fun _ _ _ => h _ fun i hi => ?_⟩
  · have := hu _ hm; omega
  · rcases List.mem_cons.mp hi with rfl | hi
    · omega
    · have := hu _ hi; omega

theorem opMax_abs {a b : Arg S} {c : Arg S → Prog S} {n : Nat} {used : List Nat} (hu : Below used n)
    (h : ∀ used', Below used' (n + 5) → (c (.var (n + 4))).AbsOnce (n + 5) used') : (opMax a b c).AbsOnce n used := by
  refine fun _ _ => ⟨fun hm => ?_, fun _ _ _ => h _ fun i hi => ?_⟩
  · have := hu _ hm; omega
  · rcases List.mem_cons.mp hi with rfl | hi
    · omega
    · have := hu _ hi; omega

theorem Below.mono {used : List Nat} {n m : Nat} (h : Below used n) (hm : n ≤ m) : Below used m :=
  fun i hi => by have := h i hi; omega

theorem newLights_abs (lo hi : S) {c : List (Arg S × Arg S) → Prog S}
    (h : ∀ ls n used, Below used n → (c ls).AbsOnce n used) :
    ∀ qs acc n used, Below used n → (newLights lo hi qs acc c).AbsOnce n used := by
  intro qs
  induction qs with
  | nil => intro acc n used hu; exact h acc n used hu
  | cons q qs ih =>
    intro acc n used hu
    unfold newLights newLight
    exact opMax_abs hu fun _ hu => opMin_abs hu fun _ hu => fun _ => ih _ _ _ (hu.mono (by omega))

theorem setEdges_abs (n : Nat) (ls : List (Arg S × Arg S)) {c : List (Arg S) → Prog S}
    (h : ∀ d m used, Below used m → (c d).AbsOnce m used) :
    ∀ es d m used, Below used m → (setEdges n ls es d c).AbsOnce m used := by
  intro es
  induction es with
  | nil => intro d m used hu; exact h d m used hu
  | cons e es ih =>
    intro d m used hu
    rw [setEdges]
    split
    · trivial
    · intro _ _
      beta_reduce
      split
      · trivial
      · exact ih _ _ _ (hu.mono (by omega))

theorem relax_abs (n k : Nat) {c : List (Arg S) → Prog S} (h : ∀ d m used, Below used m → (c d).AbsOnce m used) :
    ∀ ps d m used, Below used m → (relax n k ps d c).AbsOnce m used := by
  intro ps
  induction ps with
  | nil => intro d m used hu; exact h d m used hu
  | cons p ps ih =>
    intro d m used hu
    obtain ⟨i, j⟩ := p
    rw [relax]
    split
    · exact fun _ => opMin_abs (hu.mono (by omega)) fun _ hu => ih _ _ _ hu
    · trivial

theorem sumSquares_abs (n : Nat) (d : List (Arg S)) {c : Arg S → Prog S}
    (h : ∀ r m used, Below used m → (c r).AbsOnce m used) :
    ∀ ps r m used, Below used m → (sumSquares n ps d r c).AbsOnce m used := by
  intro ps
  induction ps with
  | nil => intro d m used hu; exact h d m used hu
  | cons p ps ih =>
    intro r m used hu
    obtain ⟨i, j⟩ := p
    rw [sumSquares]
    split
    · trivial
    · exact fun _ _ => ih _ _ _ (hu.mono (by omega))

/-! ## Outputs -/

/-- The operands are distinct, the variables among them are less than the bound. -/
structure Uniq (d : List (Arg S)) (m : Nat) : Prop where
  distinct : DistinctVars d
  lt : ∀ p i : Nat, d[p]? = some (.var i) → i < m

theorem getElem?_set_some {α : Type} {d : List α} {k p : Nat} {a b : α} (h : (d.set k a)[p]? = some b) :
    (p = k ∧ b = a) ∨ (p ≠ k ∧ d[p]? = some b) := by
  by_cases hk : p = k
  · subst hk
    have hl : p < d.length := by
      have := (List.getElem?_eq_some_iff.mp h).1
      simpa using this
    rw [List.getElem?_set_self hl] at h
    exact Or.inl ⟨rfl, (Option.some_inj.mp h).symm⟩
  · rw [List.getElem?_set_ne (fun e => hk e.symm)] at h
    exact Or.inr ⟨hk, h⟩

theorem Uniq.set {d : List (Arg S)} {m k i : Nat} (h : Uniq d m) (hi : m ≤ i) : Uniq (d.set k (.var i)) (i + 1) := by
  constructor
  · intro j p q hp hq
    rcases getElem?_set_some hp with ⟨h1, h2⟩ | ⟨h1, h2⟩ <;> rcases getElem?_set_some hq with ⟨h3, h4⟩ | ⟨h3, h4⟩
    · omega
    · injection h2 with h2
      have := h.lt _ _ h4; omega
    · injection h4 with h4
      have := h.lt _ _ h2; omega
    · exact h.distinct j p q h2 h4
  · intro p j hp
    rcases getElem?_set_some hp with ⟨h1, h2⟩ | ⟨h1, h2⟩
    · injection h2 with h2; omega
    · have := h.lt _ _ h2; omega

theorem relax_outs (n k : Nat) {P : List (Arg S) → Prop} (hP : ∀ d m, Uniq d m → P d) :
    ∀ ps d m, Uniq d m → (relax n k ps d fun d => .ret d).Outs P m := by
  intro ps
  induction ps with
  | nil => intro d m hd; exact hP d m hd
  | cons p ps ih =>
    intro d m hd
    obtain ⟨i, j⟩ := p
    rw [relax]
    split
    · exact fun _ _ _ _ _ _ => ih _ _ (hd.set (by omega))
    · trivial

theorem sumSquares_outs (n : Nat) (d : List (Arg S)) {P : List (Arg S) → Prop} (hP : ∀ r, P [r]) :
    ∀ ps r m, (sumSquares n ps d r fun r => .ret [r]).Outs P m := by
  intro ps
  induction ps with
  | nil => intro r m; exact hP r
  | cons p ps ih =>
    intro r m
    obtain ⟨i, j⟩ := p
    rw [sumSquares]
    split
    · trivial
    · exact fun _ _ => ih _ _

/-- The matrix of weights: symmetric, and a variable occurs only at two transposed positions. -/
structure Twice (n : Nat) (es : List Edge) (d : List (Arg S)) (m : Nat) : Prop where
  len : d.length = n * n
  lt : ∀ p i : Nat, d[p]? = some (.var i) → i < m
  sym : ∀ i < n, ∀ j < n, d[i * n + j]? = d[j * n + i]?
  inj : ∀ i < n, ∀ j < n, ∀ u < n, ∀ v < n, ∀ k : Nat, d[i * n + j]? = some (.var k) → d[u * n + v]? = some (.var k) →
    (i = u ∧ j = v) ∨ (i = v ∧ j = u)
  edge : ∀ e ∈ es, ∀ i j, e.joins i j → ∃ k : Nat, d[i * n + j]? = some (.var k)

theorem Twice.set {n : Nat} {es : List Edge} {d : List (Arg S)} {m b : Nat} (h : Twice n es d m) {e : Edge} (hu : e.u < n)
    (hv : e.v < n) (hb : m ≤ b) :
    Twice n (es ++ [e]) ((d.set (e.u * n + e.v) (.var b)).set (e.v * n + e.u) (.var b)) (b + 1) := by
  have hget : ∀ i < n, ∀ j < n, ((d.set (e.u * n + e.v) (.var b)).set (e.v * n + e.u) (.var b))[i * n + j]? =
      if e.joins i j then some (.var b) else d[i * n + j]? := by
    intro i hi j hj
    have l1 := idx_lt hu hv
    have l2 := idx_lt hv hu
    by_cases hjo : e.joins i j
    · rw [if_pos hjo]
      rcases hjo with ⟨rfl, rfl⟩ | ⟨rfl, rfl⟩
      · by_cases he : e.v * n + e.u = e.u * n + e.v
        · rw [he, List.getElem?_set_self (by simp [h.len, l1])]
        · rw [List.getElem?_set_ne he, List.getElem?_set_self (by simp [h.len, l1])]
      · rw [List.getElem?_set_self (by simp [h.len, l2])]
    · rw [if_neg hjo, List.getElem?_set_ne, List.getElem?_set_ne]
      · intro he; rw [idx_inj hv hj] at he; exact hjo (Or.inl he)
      · intro he; rw [idx_inj hu hj] at he; exact hjo (Or.inr ⟨he.2, he.1⟩)
  have jsym : ∀ i j, e.joins i j ↔ e.joins j i := fun i j => ⟨Or.symm, Or.symm⟩
  constructor
  · simp [h.len]
  · intro p i hp
    rcases getElem?_set_some hp with ⟨h1, h2⟩ | ⟨h1, h2⟩
    · injection h2 with h2; omega
    · rcases getElem?_set_some h2 with ⟨h3, h4⟩ | ⟨h3, h4⟩
      · injection h4 with h4; omega
      · have := h.lt _ _ h4; omega
  · intro i hi j hj
    rw [hget i hi j hj, hget j hj i hi, h.sym i hi j hj]
    simp only [jsym i j]
  · intro i hi j hj u hu' v hv' k h1 h2
    rw [hget i hi j hj] at h1
    rw [hget u hu' v hv'] at h2
    split_ifs at h1 h2 with c1 c2 c3
    · rcases c1 with ⟨rfl, rfl⟩ | ⟨rfl, rfl⟩ <;> rcases c2 with ⟨rfl, rfl⟩ | ⟨rfl, rfl⟩ <;> simp
    · simp only [Option.some.injEq, Arg.var.injEq] at h1
      have := h.lt _ _ h2; omega
    · simp only [Option.some.injEq, Arg.var.injEq] at h2
      have := h.lt _ _ h1; omega
    · exact h.inj i hi j hj u hu' v hv' k h1 h2
  · intro f hf i j hij
    have hij' : i < n ∧ j < n ∨ d[i * n + j]? ≠ none := by
      rcases List.mem_append.mp hf with hf | hf
      · obtain ⟨k, hk⟩ := h.edge f hf i j hij
        right; rw [hk]; simp
      · rw [List.mem_singleton] at hf
        subst hf
        left
        rcases hij with ⟨rfl, rfl⟩ | ⟨rfl, rfl⟩
        · exact ⟨hu, hv⟩
        · exact ⟨hv, hu⟩
    by_cases hr : i < n ∧ j < n
    · rw [hget i hr.1 j hr.2]
      split_ifs with hc
      · exact ⟨b, rfl⟩
      · rcases List.mem_append.mp hf with hf | hf
        · exact h.edge f hf i j hij
        · rw [List.mem_singleton] at hf
          subst hf
          exact absurd hij hc
    · rcases List.mem_append.mp hf with hf | hf
      · obtain ⟨k, hk⟩ := h.edge f hf i j hij
        by_cases c1 : i * n + j = e.v * n + e.u
        · exact ⟨b, by rw [c1, List.getElem?_set_self (by simp [h.len, idx_lt hv hu])]⟩
        · rw [List.getElem?_set_ne (fun e => c1 e.symm)]
          by_cases c2 : i * n + j = e.u * n + e.v
          · exact ⟨b, by rw [c2, List.getElem?_set_self (by simp [h.len, idx_lt hu hv])]⟩
          · rw [List.getElem?_set_ne (fun e => c2 e.symm)]
            exact ⟨k, hk⟩
      · rw [List.mem_singleton] at hf
        subst hf
        rcases hij' with h' | h'
        · exact absurd h' hr
        · rcases hij with ⟨rfl, rfl⟩ | ⟨rfl, rfl⟩
          · exact absurd ⟨hu, hv⟩ hr
          · exact absurd ⟨hv, hu⟩ hr

theorem initMat_twice (n : Nat) (inf : S) (m : Nat) : Twice n [] (initMat n inf) m := by
  have hlit : ∀ p i : Nat, (initMat n inf)[p]? ≠ some (Arg.var i) := by
    have key : ∀ (l : List Nat) (d : List (Arg S)), (∀ p i : Nat, d[p]? ≠ some (Arg.var i)) → ∀ p i : Nat,
        (l.foldl (fun d i => d.set (i * n + i) (.lit Flt.zero)) d)[p]? ≠ some (Arg.var i) := by
      intro l
      induction l with
      | nil => intro d h; exact h
      | cons a l ih =>
        intro d h
        refine ih _ fun p i hp => ?_
        rcases getElem?_set_some hp with ⟨_, h2⟩ | ⟨_, h2⟩
        · cases h2
        · exact h _ _ h2
    refine key _ _ fun p i hp => ?_
    rw [List.getElem?_replicate] at hp
    split_ifs at hp
    cases hp
  have hlen : (initMat n inf).length = n * n := (initMat_vals (sh := unitSh) n inf []).1
  have hget : ∀ i < n, ∀ j < n, (initMat n inf)[i * n + j]? = some (if i = j then .lit Flt.zero else .lit inf) := by
    intro i hi j hj
    have key : ∀ (l : List Nat), (∀ a ∈ l, a < n) → ∀ d : List (Arg S), d.length = n * n →
        (l.foldl (fun d i => d.set (i * n + i) (.lit Flt.zero)) d)[i * n + j]? =
          if i = j ∧ i ∈ l then some (.lit Flt.zero) else d[i * n + j]? := by
      intro l
      induction l with
      | nil => intro _ d _; simp
      | cons a l ih =>
        intro hl d hd
        rw [List.foldl_cons, ih (fun b hb => hl b (by simp [hb])) _ (by simp [hd])]
        by_cases h : i = j ∧ i ∈ l
        · rw [if_pos h, if_pos ⟨h.1, by simp [h.2]⟩]
        · rw [if_neg h]
          by_cases h2 : i = a ∧ j = a
          · obtain ⟨rfl, rfl⟩ := h2
            rw [List.getElem?_set_self (by rw [hd]; exact idx_lt hi hi), if_pos ⟨rfl, by simp⟩]
          · have ha := hl a (by simp)
            rw [List.getElem?_set_ne (fun e => h2 ((idx_inj hj ha).mp e.symm)), if_neg]
            rintro ⟨h3, h4⟩
            rcases List.mem_cons.mp h4 with rfl | h5
            · exact h2 ⟨rfl, h3.symm⟩
            · exact h ⟨h3, h5⟩
    rw [initMat, key _ (fun a ha => List.mem_range.mp ha) _ (by simp)]
    by_cases h : i = j
    · simp [h, hj]
    · simp [h, idx_lt hi hj]
  refine ⟨hlen, fun p i h => absurd h (hlit p i), fun i hi j hj => ?_, fun i _ j _ u _ v _ k h _ => absurd h (hlit _ _),
    fun e he => by simp at he⟩
  rw [hget i hi j hj, hget j hj i hi]
  simp only [eq_comm]

theorem setEdges_outs {n : Nat} (ls : List (Arg S × Arg S)) {P : List (Arg S) → Prop} :
    ∀ (es done : List Edge), (∀ e ∈ es, e.u < n ∧ e.v < n) → (∀ d m, Twice n (done ++ es) d m → P d) →
    ∀ d m, Twice n done d m → (setEdges n ls es d fun d => .ret d).Outs P m := by
  intro es
  induction es with
  | nil => intro done _ hP d m hd; exact hP d m (by rwa [List.append_nil])
  | cons e es ih =>
    intro done he hP d m hd
    obtain ⟨hu, hv⟩ := he e (by simp)
    rw [setEdges]
    split
    · trivial
    · intro _ _
      beta_reduce
      unfold setEdge
      rw [if_pos (by rw [hd.len]; exact ⟨idx_lt hu hv, idx_lt hv hu⟩)]
      exact ih (done ++ [e]) (fun e h => he e (by simp [h])) (by rw [← List.append_cons]; exact hP) _ _ (hd.set hu hv (by omega))

theorem newLights_outs (lo hi : S) {P : List (Arg S) → Prop} {c : List (Arg S × Arg S) → Prog S}
    (h : ∀ ls m, (c ls).Outs P m) : ∀ qs acc m, (newLights lo hi qs acc c).Outs P m := by
  intro qs
  induction qs with
  | nil => intro acc m; exact h acc m
  | cons q qs ih => intro acc m; exact fun _ _ _ _ _ _ _ _ _ _ _ => ih _ _

/-! ## No constant operations -/

theorem newLights_noConst (lo hi : S) {c : List (Arg S × Arg S) → Prog S}
    (h : ∀ ls : List (Arg S × Arg S), (∀ q ∈ ls, (∃ i, q.1 = .var i) ∧ ∃ i, q.2 = .var i) → (c ls).NoConstOps) :
    ∀ qs acc, (∀ q ∈ acc, (∃ i, q.1 = .var i) ∧ ∃ i, q.2 = .var i) → (newLights lo hi qs acc c).NoConstOps := by
  intro qs
  induction qs with
  | nil => intro acc ha; exact h acc ha
  | cons q qs ih =>
    intro acc ha
    refine ⟨Or.inl ⟨_, rfl⟩, fun _ _ => ⟨Or.inl ⟨_, rfl⟩, fun _ _ => ⟨Or.inl ⟨_, rfl⟩, fun _ _ => ⟨Or.inl ⟨_, rfl⟩, fun _ _ =>
      ⟨Or.inr ⟨_, rfl⟩, fun _ _ => ⟨Or.inl ⟨_, rfl⟩, fun _ _ => ⟨Or.inl ⟨_, rfl⟩, fun _ _ => ⟨Or.inl ⟨_, rfl⟩, fun _ _ =>
      ⟨Or.inl ⟨_, rfl⟩, fun _ _ => ⟨Or.inr ⟨_, rfl⟩, fun _ _ => ⟨Or.inr ⟨_, rfl⟩, fun _ _ => ih _ ?_⟩⟩⟩⟩⟩⟩⟩⟩⟩⟩⟩
    intro q hq
    rcases List.mem_append.mp hq with hq | hq
    · exact ha q hq
    · rw [List.mem_singleton] at hq
      subst hq
      exact ⟨⟨_, rfl⟩, ⟨_, rfl⟩⟩

theorem setEdges_noConst (n : Nat) {ls : List (Arg S × Arg S)}
    (hls : ∀ q ∈ ls, (∃ i, q.1 = .var i) ∧ ∃ i, q.2 = .var i) {c : List (Arg S) → Prog S} (h : ∀ d, (c d).NoConstOps) :
    ∀ es d, (setEdges n ls es d c).NoConstOps := by
  intro es
  induction es with
  | nil => intro d; exact h d
  | cons e es ih =>
    intro d
    rw [setEdges]
    split
    · trivial
    · rename_i q hq
      obtain ⟨⟨a, ha⟩, ⟨b, hb⟩⟩ := hls q (List.mem_of_getElem? hq)
      refine ⟨Or.inr ?_, fun _ _ => ⟨Or.inr ⟨_, rfl⟩, fun _ _ => ?_⟩⟩
      · cases e.topBottom
        · exact ⟨b, by simp [hb]⟩
        · exact ⟨a, by simp [ha]⟩
      · beta_reduce
        split
        · trivial
        · exact ih _

/-! ## The tapes -/

theorem init_ids {N : Net S} (hN : N.Ok) {x : List S} {w w' : World S} {t : Tape S} (hw : w.nextId < usizeMax)
    (ht : (init N).tape x w = (.ok t, w')) : (zIds t).Nodup ∧ t.deps.length = N.n * N.n ∧ ∀ i < N.n, ∀ j < N.n,
      (Reregistered t.deps (i * N.n + j) → i < j) ∧
      (i < j → (∃ e ∈ N.edges, e.joins i j) → Reregistered t.deps (i * N.n + j)) := by
  have hids := Func.tape_ids hw ht fun d => ∃ m, Twice N.n N.edges d m
  refine ⟨hids.abs (newLights_abs _ _ (fun _ _ _ hu => setEdges_abs _ _ (fun _ _ _ _ => by exact trivial) _ _ _ _ hu) _ _ _ _
    (by simp [Below])), ?_⟩
  obtain ⟨outs, ⟨m, h1⟩, h2, h3, h4⟩ := hids.outs (newLights_outs _ _ (fun ls m => setEdges_outs ls N.edges []
    (fun e he => ⟨(hN.ends e he).1, (hN.ends e he).2.1⟩) (fun d m h => ⟨m, h⟩) _ _ (initMat_twice _ _ _)) _ _ _)
  have hc := newLights_noConst N.lo N.hi (c := fun ls => setEdges N.n ls N.edges (initMat N.n N.inf) fun d => .ret d)
    (fun ls hls => setEdges_noConst N.n hls (fun _ => by exact trivial) _ _) (List.range N.lights) [] (by simp)
  have hl : t.deps.length = N.n * N.n := by rw [← h2, h1.len]
  refine ⟨hl, fun i hi j hj => ⟨?_, ?_⟩⟩
  · rintro ⟨k, k1, k2, k3⟩
    obtain ⟨u, v, hu, hv, rfl⟩ := idx_split (n := N.n) (k := k) (by omega)
    have hd := List.getElem?_eq_getElem k2
    rcases h3 _ _ _ hd (k3 ▸ hd) with h | ⟨a, h5, h6⟩
    · omega
    · rcases h1.inj u hu v hv i hi j hj a h5 h6 with ⟨rfl, rfl⟩ | ⟨rfl, rfl⟩
      · omega
      · by_contra hc
        have : u * N.n + v ≤ v * N.n + u := by
          have hm : (v - u) * N.n ≥ (v - u) * 1 := Nat.mul_le_mul_left _ (by omega)
          have hm2 : v * N.n = (v - u) * N.n + u * N.n := by rw [← Nat.add_mul]; congr 1; omega
          omega
        omega
  · rintro hij ⟨e, he, hj'⟩
    obtain ⟨a, ha⟩ := h1.edge e he i j hj'
    have hb := ha
    rw [h1.sym i hi j hj] at hb
    refine ⟨j * N.n + i, ?_, by rw [hl]; exact idx_lt hj hi, ?_⟩
    · have hm : (j - i) * N.n > (j - i) * 1 := Nat.mul_lt_mul_of_pos_left (by omega) (by omega)
      have hm2 : j * N.n = (j - i) * N.n + i * N.n := by rw [← Nat.add_mul]; congr 1; omega
      omega
    · exact h4 hc _ _ a hb ha

theorem nodup_of_distinct {t : Tape S} {outs : List (Arg S)} (h1 : DistinctVars outs)
    (h3 : ∀ (a b d : Nat), t.deps[a]? = some d → t.deps[b]? = some d →
      a = b ∨ ∃ i, outs[a]? = some (.var i) ∧ outs[b]? = some (.var i)) : t.deps.Nodup := by
  rw [List.nodup_iff_injective_getElem]
  rintro ⟨a, ha⟩ ⟨b, hb⟩ hab
  simp only at hab
  rcases h3 a b t.deps[a] (List.getElem?_eq_getElem ha) (by rw [hab]; exact List.getElem?_eq_getElem hb) with h | ⟨i, h4, h5⟩
  · simp [h]
  · simp [h1 i a b h4 h5]

theorem vars_uniq {L m : Nat} (h : L ≤ m) : Uniq ((List.range L).map (Arg.var : Nat → Arg S)) m := by
  have key : ∀ p i : Nat, ((List.range L).map (Arg.var : Nat → Arg S))[p]? = some (.var i) → p = i ∧ i < L := by
    intro p i hp
    have hl : p < L := by simpa using (List.getElem?_eq_some_iff.mp hp).1
    simp only [List.getElem?_map, List.getElem?_range hl, Option.map_some, Option.some.injEq, Arg.var.injEq] at hp
    omega
  exact ⟨fun i p q hp hq => (key p i hp).1.trans (key q i hq).1.symm, fun p i hp => by have := (key p i hp).2; omega⟩

theorem step_ids {n k : Nat} {x : List S} (hx : x.length = n * n) {w w' : World S} {t : Tape S} (hw : w.nextId < usizeMax)
    (ht : (step n k).tape x w = (.ok t, w')) : (zIds t).Nodup ∧ t.deps.Nodup := by
  have hids := Func.tape_ids hw ht DistinctVars
  refine ⟨hids.abs (relax_abs _ _ (fun _ _ _ _ => by exact trivial) _ _ _ _ (by simp [Below])), ?_⟩
  obtain ⟨outs, h1, -, h3, -⟩ := hids.outs (relax_outs _ _ (fun d m h => h.distinct) _ _ _ (vars_uniq (by omega)))
  exact nodup_of_distinct h1 h3

theorem badness_ids {n : Nat} {exits : List Nat} {x : List S} {w w' : World S} {t : Tape S} (hw : w.nextId < usizeMax)
    (ht : (badness n exits).tape x w = (.ok t, w')) : (zIds t).Nodup ∧ t.deps.Nodup := by
  have hids := Func.tape_ids hw ht DistinctVars
  refine ⟨hids.abs (sumSquares_abs _ _ (fun _ _ _ _ => by exact trivial) _ _ _ _ (by simp [Below])), ?_⟩
  obtain ⟨outs, h1, -, h3, -⟩ := hids.outs (sumSquares_outs _ _ (fun r i p q hp hq => by
    have := (List.getElem?_eq_some_iff.mp hp).1
    have := (List.getElem?_eq_some_iff.mp hq).1
    simp at *; omega) _ _ _)
  exact nodup_of_distinct h1 h3

end Adv.Fw
