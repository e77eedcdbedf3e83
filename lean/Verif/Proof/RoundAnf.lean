import Verif.Proof.RoundUniform
import Verif.Proof.Views

/-!
# Abs-normal drivers in machine arithmetics
-/

set_option linter.unusedSectionVars false

namespace Adv
open scoped Adv Topology
open Filter Asymptotics

variable {ι : Type*} {l : Filter ι} {S : ι → Type} {val : ∀ i, S i → Option ℝ} [A : ∀ i, Flt (S i)] {u : ι → ℝ}

/-- Families of results: none of them panics, and they are related. -/
def NearRes {α : Type} {β : ι → Type} (P : α → (∀ i, β i) → Prop) (r : Res α) (R : ∀ i, Res (β i)) : Prop :=
  ∃ a b, r = .ok a ∧ (∀ i, R i = .ok (b i)) ∧ P a b

theorem NearRes.bind {α α' : Type} {β β' : ι → Type} {P : α → (∀ i, β i) → Prop} {Q : α' → (∀ i, β' i) → Prop}
    {r : Res α} {R : ∀ i, Res (β i)} {f : α → Res α'} {g : ∀ i, β i → Res (β' i)} (h : NearRes P r R)
    (hf : ∀ a b, P a b → NearRes Q (f a) fun i => g i (b i)) : NearRes Q (r >>= f) fun i => R i >>= g i := by
  obtain ⟨a, b, h1, h2, h3⟩ := h
  obtain ⟨c, d, k1, k2, k3⟩ := hf a b h3
  refine ⟨c, d, by rw [h1]; exact k1, fun i => ?_, k3⟩
  show R i >>= g i = _
  rw [h2]; exact k2 i

/-- The same, remembering the exact result. -/
theorem NearRes.bind_of {α α' : Type} {β β' : ι → Type} {P : α → (∀ i, β i) → Prop} {Q : α' → (∀ i, β' i) → Prop}
    {r : Res α} {R : ∀ i, Res (β i)} {f : α → Res α'} {g : ∀ i, β i → Res (β' i)} {G : α'} (h : NearRes P r R)
    (hG : r >>= f = .ok G) (hf : ∀ a b, P a b → f a = .ok G → NearRes Q (f a) fun i => g i (b i)) :
    NearRes Q (r >>= f) fun i => R i >>= g i := by
  obtain ⟨a, b, h1, h2, h3⟩ := h
  obtain ⟨c, d, k1, k2, k3⟩ := hf a b h3 (by rw [h1] at hG; exact hG)
  refine ⟨c, d, by rw [h1]; exact k1, fun i => ?_, k3⟩
  show R i >>= g i = _
  rw [h2]; exact k2 i

theorem NearRes.ok {α : Type} {β : ι → Type} {P : α → (∀ i, β i) → Prop} {a : α} {b : ∀ i, β i} (h : P a b) :
    NearRes P (.ok a) fun i => .ok (b i) := ⟨a, b, rfl, fun _ => rfl, h⟩

theorem NearRes.imp {α : Type} {β : ι → Type} {P Q : α → (∀ i, β i) → Prop} {r : Res α} {R : ∀ i, Res (β i)}
    (h : NearRes P r R) (hq : ∀ a b, P a b → Q a b) : NearRes Q r R := by
  obtain ⟨a, b, h1, h2, h3⟩ := h
  exact ⟨a, b, h1, h2, hq _ _ h3⟩

theorem NearRes.assert {c : Bool} {c' : ι → Bool} (h : c = true) (h' : ∀ i, c' i = true) :
    NearRes (β := fun _ => Unit) (fun _ _ => True) (assertR c) fun i => assertR (c' i) :=
  ⟨(), fun _ => (), by rw [h]; rfl, fun i => by show assertR (c' i) = _; rw [h']; rfl, trivial⟩

variable (l val u)

/-- Families of vectors of the same length. -/
structure NearV (n : Nat) (xs : List ℝ) (X : ∀ i, List (S i)) : Prop where
  len : xs.length = n
  lens : ∀ i, (X i).length = n
  near : ∀ m : Nat, Near l val u (xs[m]?.getD 0) fun i => (X i)[m]?.getD (A i).zero

/-- Families of matrices of the same size. -/
structure NearM (r c : Nat) (M : DMat ℝ) (N : ∀ i, DMat (S i)) : Prop where
  nrows : M.nrows = r
  ncols : M.ncols = c
  nrowss : ∀ i, (N i).nrows = r
  ncolss : ∀ i, (N i).ncols = c
  near : ∀ i j, i < r → j < c → Near l val u (M.get i j) fun k => (N k).get i j

/-- Families of tapes with the same operations. -/
structure NearT (t : Tape ℝ) (T : ∀ i, Tape (S i)) : Prop where
  indeps : ∀ i, (T i).indeps = t.indeps
  deps : ∀ i, (T i).deps = t.deps
  ops : ∀ i, (T i).ops = t.ops
  len : ∀ i, (T i).vals.length = t.vals.length
  vals : NearF l val u (fn t.vals) fun i => fn (T i).vals
  exps : ∀ i, t.SameExponentsM (val i) (T i)

variable {l val u}

theorem Near.ite {a : ℝ} {g h : ∀ i, S i} (c : ι → Prop) [∀ i, Decidable (c i)] (hg : Near l val u a g)
    (hh : Near l val u a h) : Near l val u a fun i => if c i then g i else h i := by
  obtain ⟨r, h1, h2⟩ := hg
  obtain ⟨r', k1, k2⟩ := hh
  refine ⟨fun i => if c i then r i else r' i, ?_, ?_⟩
  · have h3 := h1.norm_left.add k1.norm_left
    refine IsBigO.trans (IsBigO.of_bound 1 (Eventually.of_forall fun i => ?_)) h3
    have h4 := norm_nonneg (r i - a)
    have h5 := norm_nonneg (r' i - a)
    rw [one_mul, Real.norm_of_nonneg (add_nonneg h4 h5)]
    by_cases hc : c i <;> simp only [hc, if_true, if_false]
    · linarith
    · linarith
  · filter_upwards [h2, k2] with i e1 e2
    by_cases hc : c i <;> simp only [hc, if_true, if_false]
    · exact e1
    · exact e2

/-! ## Tapes and views -/

theorem NearT.wf {t : Tape ℝ} {T : ∀ i, Tape (S i)} (h : NearT l val u t T) (hw : t.WF) (i : ι) : (T i).WF := by
  have hl := h.len i
  constructor
  · rw [h.indeps, hl]; exact hw.indeps_lt
  · rw [h.deps, hl]; exact hw.deps_lt
  · rw [h.indeps]; exact hw.indeps_nodup
  · rw [h.ops]; exact hw.arity
  · rw [h.ops, hl]; exact hw.vid_lt
  · rw [h.ops]; exact hw.args_lt
  · rw [h.ops, h.indeps]; exact hw.vid_fresh
  · rw [h.ops]; exact hw.sorted

theorem NearT.absFree {t : Tape ℝ} {T : ∀ i, Tape (S i)} (h : NearT l val u t T) (ha : t.AbsFree) (i : ι) : (T i).AbsFree := by
  unfold Tape.AbsFree; rw [h.ops]; exact ha

theorem mem_of_hops {t : Tape ℝ} {op : Operation} (h : op ∈ hops t) (ha : op.arg1 ≠ none) : op ∈ t.ops := by
  obtain ⟨o, ho, rfl⟩ := List.mem_map.mp h
  unfold AbsNormalTape.hideAbs at ha ⊢
  split
  · rename_i hc; rw [if_pos hc] at ha; exact absurd rfl ha
  · exact ho

theorem Tape.InDomain.view {t : Tape ℝ} (h : t.InDomain) (I D : List Nat) (mu : Bool) : (viewOf t I D mu).InDomain := by
  intro op hop a b ha hb
  have hop' : op ∈ t.ops := mem_of_hops hop (by rw [ha]; exact Option.some_ne_none _)
  have := h op hop' a b ha hb
  by_cases hp : op.opcode = .Powf
  · rw [hp] at this ⊢
    rcases this with h1 | ⟨⟨c, hc, h1, h2⟩, h3⟩
    · exact .inl h1
    · exact .inr ⟨⟨c, mem_hops hc (by rw [h1]; decide), h1, h2⟩, h3⟩
  · revert this
    cases ho : op.opcode <;> first | exact absurd ho hp | exact id

theorem NearT.view {t : Tape ℝ} {T : ∀ i, Tape (S i)} (h : NearT l val u t T) (I D : List Nat) (mu : Bool) :
    NearT l val u (viewOf t I D mu) fun i => viewOf (T i) I D mu where
  indeps _ := rfl
  deps _ := rfl
  ops i := by show hops (T i) = hops t; unfold hops; rw [h.ops]
  len := h.len
  vals := h.vals
  exps i op hop a b hp ha hb hle :=
    h.exps i op (mem_of_hops hop (by rw [ha]; exact Option.some_ne_none _)) a b hp ha hb hle

section ids
variable {t : Tape ℝ} {T : ∀ i, Tape (S i)} (h : NearT l val u t T)
include h

theorem NearT.absOps (i : ι) : (T i).absOps = t.absOps := by unfold Tape.absOps; rw [h.ops]
theorem NearT.zIds (i : ι) : Adv.zIds (T i) = Adv.zIds t := by unfold Adv.zIds; rw [h.absOps]
theorem NearT.wIds (i : ι) : Adv.wIds (T i) = Adv.wIds t := by unfold Adv.wIds; rw [h.absOps]
theorem NearT.numAbs (i : ι) : (T i).numAbs = t.numAbs := by rw [← absOps_length, ← absOps_length, h.absOps]
theorem NearT.numIndeps (i : ι) : (T i).numIndeps = t.numIndeps := by unfold Tape.numIndeps; rw [h.indeps]
theorem NearT.numDeps (i : ι) : (T i).numDeps = t.numDeps := by unfold Tape.numDeps; rw [h.deps]

theorem NearT.anfZ : NearT l val u (Adv.anfZ (anfOf t)) fun i => Adv.anfZ (anfOf (T i)) := by
  simp only [anfZ_eq, h.indeps, h.zIds]; exact h.view _ _ _
theorem NearT.anfL : NearT l val u (Adv.anfL (anfOf t)) fun i => Adv.anfL (anfOf (T i)) := by
  simp only [anfL_eq, h.wIds, h.zIds]; exact h.view _ _ _
theorem NearT.anfJ : NearT l val u (Adv.anfJ (anfOf t)) fun i => Adv.anfJ (anfOf (T i)) := by
  simp only [anfJ_eq, h.indeps, h.deps]; exact h.view _ _ _
theorem NearT.anfY : NearT l val u (Adv.anfY (anfOf t)) fun i => Adv.anfY (anfOf (T i)) := by
  simp only [anfY_eq, h.wIds, h.deps]; exact h.view _ _ _

end ids

theorem Tape.InDomain.anfZ {t : Tape ℝ} (h : t.InDomain) : (Adv.anfZ (anfOf t)).InDomain := by rw [anfZ_eq]; exact h.view _ _ _
theorem Tape.InDomain.anfL {t : Tape ℝ} (h : t.InDomain) : (Adv.anfL (anfOf t)).InDomain := by rw [anfL_eq]; exact h.view _ _ _
theorem Tape.InDomain.anfJ {t : Tape ℝ} (h : t.InDomain) : (Adv.anfJ (anfOf t)).InDomain := by rw [anfJ_eq]; exact h.view _ _ _
theorem Tape.InDomain.anfY {t : Tape ℝ} (h : t.InDomain) : (Adv.anfY (anfOf t)).InDomain := by rw [anfY_eq]; exact h.view _ _ _

namespace Ariths
variable (F : Ariths l val A u)
include F

/-! ## Vectors and matrices -/

theorem nearV_map {n : Nat} {α : Type} (ks : List α) (hn : ks.length = n) {f : α → ℝ} {g : ∀ i, α → S i}
    (h : ∀ k ∈ ks, Near l val u (f k) fun i => g i k) : NearV l val u n (ks.map f) fun i => ks.map (g i) := by
  refine ⟨by simp [hn], by simp [hn], fun m => ?_⟩
  by_cases hm : m < ks.length
  · simpa [hm] using h _ (List.getElem_mem hm)
  · simpa [hm] using F.near_zero

theorem nearV_get {n : Nat} {xs : List ℝ} {X : ∀ i, List (S i)} (h : NearV l val u n xs X) {f : ℝ → ℝ}
    {g : ∀ i, S i → S i} (hf : ∀ {a : ℝ} {b : ∀ i, S i}, Near l val u a b → Near l val u (f a) fun i => g i (b i)) :
    NearV l val u n (xs.map f) fun i => (X i).map (g i) := by
  refine ⟨by simp [h.len], by simp [h.lens], fun m => ?_⟩
  by_cases hm : m < n
  · have h1 := h.near m
    have e : ∀ i, m < (X i).length := fun i => by rw [h.lens]; exact hm
    have e' : m < xs.length := by rw [h.len]; exact hm
    simp only [List.getElem?_eq_getElem, e, e', Option.getD_some, List.getElem?_map, Option.map_some] at h1 ⊢
    exact hf h1
  · have e : ∀ i, ¬ m < (X i).length := fun i => by rw [h.lens]; exact hm
    have e' : ¬ m < xs.length := by rw [h.len]; exact hm
    simp only [List.getElem?_map, List.getElem?_eq_none (not_lt.mp e'), List.getElem?_eq_none (not_lt.mp (e _)),
      Option.map_none, Option.getD_none]
    exact F.near_zero

theorem nearV_zip {n : Nat} {xs ys : List ℝ} {X Y : ∀ i, List (S i)} (h : NearV l val u n xs X) (k : NearV l val u n ys Y)
    {f : ℝ → ℝ → ℝ} {g : ∀ i, S i → S i → S i} (hf : ∀ {a b : ℝ} {c d : ∀ i, S i}, Near l val u a c → Near l val u b d →
      Near l val u (f a b) fun i => g i (c i) (d i)) :
    NearV l val u n (List.zipWith f xs ys) fun i => List.zipWith (g i) (X i) (Y i) := by
  refine ⟨by simp [h.len, k.len], by simp [h.lens, k.lens], fun m => ?_⟩
  by_cases hm : m < n
  · have h1 := h.near m
    have h2 := k.near m
    have e : ∀ i, m < (X i).length := fun i => by rw [h.lens]; exact hm
    have e' : m < xs.length := by rw [h.len]; exact hm
    have d : ∀ i, m < (Y i).length := fun i => by rw [k.lens]; exact hm
    have d' : m < ys.length := by rw [k.len]; exact hm
    simp only [List.getElem?_eq_getElem, e, e', d, d', Option.getD_some] at h1 h2
    simpa [List.getElem?_zipWith, e, e', d, d'] using hf h1 h2
  · have e : ∀ i, (List.zipWith (g i) (X i) (Y i)).length ≤ m := fun i => by simp [h.lens, k.lens]; omega
    have e' : (List.zipWith f xs ys).length ≤ m := by simp [h.len, k.len]; omega
    simp only [List.getElem?_eq_none e', List.getElem?_eq_none (e _), Option.getD_none]
    exact F.near_zero

theorem vabs_near {n : Nat} {xs : List ℝ} {X : ∀ i, List (S i)} (h : NearV l val u n xs X) :
    NearV l val u n (vabs xs) fun i => vabs (X i) := F.nearV_get h F.abs
theorem vneg_near {n : Nat} {xs : List ℝ} {X : ∀ i, List (S i)} (h : NearV l val u n xs X) :
    NearV l val u n (vneg xs) fun i => vneg (X i) := F.nearV_get h F.neg

theorem vadd_near {n : Nat} {xs ys : List ℝ} {X Y : ∀ i, List (S i)} (h : NearV l val u n xs X) (k : NearV l val u n ys Y) :
    NearRes (NearV l val u n) (vadd xs ys) fun i => vadd (X i) (Y i) :=
  ⟨_, _, if_pos (by rw [h.len, k.len]), fun i => if_pos (by rw [h.lens, k.lens]),
    F.nearV_zip h k (f := Flt.add) (g := fun i => (A i).add) F.add⟩

theorem vsub_near {n : Nat} {xs ys : List ℝ} {X Y : ∀ i, List (S i)} (h : NearV l val u n xs X) (k : NearV l val u n ys Y) :
    NearRes (NearV l val u n) (vsub xs ys) fun i => vsub (X i) (Y i) :=
  ⟨_, _, if_pos (by rw [h.len, k.len]), fun i => if_pos (by rw [h.lens, k.lens]),
    F.nearV_zip h k (f := Flt.sub) (g := fun i => (A i).sub) F.sub⟩

theorem ofFn_near (r c : Nat) {f : Nat → Nat → ℝ} {g : ∀ i, Nat → Nat → S i}
    (h : ∀ i j, i < r → j < c → Near l val u (f i j) fun k => g k i j) :
    NearM l val u r c (DMat.ofFn r c f) fun i => DMat.ofFn r c (g i) := by
  refine ⟨rfl, rfl, fun _ => rfl, fun _ => rfl, fun i j hi hj => ?_⟩
  simp only [DMat.ofFn, hi, hj, and_self, if_true]
  exact h i j hi hj

theorem identity_near (n : Nat) : NearM l val u n n (DMat.identity n) fun i => DMat.identity (S := S i) n :=
  F.ofFn_near n n fun i j _ _ => by
    by_cases h : i = j
    · simp only [h, if_true]; exact F.near_one
    · simp only [h]; exact F.near_zero

theorem neg_near {r c : Nat} {M : DMat ℝ} {N : ∀ i, DMat (S i)} (h : NearM l val u r c M N) :
    NearM l val u r c M.neg fun i => (N i).neg := by
  unfold DMat.neg
  simp only [h.nrows, h.ncols, h.nrowss, h.ncolss]
  exact F.ofFn_near r c fun i j hi hj => F.neg (h.near i j hi hj)

theorem add_near {r c : Nat} {M M' : DMat ℝ} {N N' : ∀ i, DMat (S i)} (h : NearM l val u r c M N)
    (k : NearM l val u r c M' N') : NearRes (NearM l val u r c) (M.add M') fun i => (N i).add (N' i) := by
  unfold DMat.add
  simp only [h.nrows, h.ncols, h.nrowss, h.ncolss, k.nrows, k.ncols, k.nrowss, k.ncolss, and_self, if_true]
  exact .ok (F.ofFn_near r c fun i j hi hj => F.add (h.near i j hi hj) (k.near i j hi hj))

theorem sum_near {f g : Nat → ℝ} {f' g' : ∀ i, Nat → S i} : ∀ (ks : List Nat) (_ : ∀ k ∈ ks, Near l val u (f k) fun i => f' i k)
    (_ : ∀ k ∈ ks, Near l val u (g k) fun i => g' i k) {a : ℝ} {b : ∀ i, S i}, Near l val u a b →
    Near l val u (ks.foldl (fun acc k => acc +ᶠ f k *ᶠ g k) a) fun i => ks.foldl (fun acc k => acc +ᶠ f' i k *ᶠ g' i k) (b i)
  | [], _, _, _, _, h => h
  | k :: ks, h1, h2, _, _, h =>
      sum_near ks (fun k hk => h1 k (by simp [hk])) (fun k hk => h2 k (by simp [hk]))
        (F.add h (F.mul (h1 k (by simp)) (h2 k (by simp))))

theorem mulVec_near {r c : Nat} {M : DMat ℝ} {N : ∀ i, DMat (S i)} (h : NearM l val u r c M N) {xs : List ℝ}
    {X : ∀ i, List (S i)} (hx : NearV l val u c xs X) :
    NearRes (NearV l val u r) (M.mulVec xs) fun i => (N i).mulVec (X i) := by
  unfold DMat.mulVec
  simp only [h.nrows, h.ncols, h.nrowss, h.ncolss, hx.len, hx.lens, if_true]
  refine .ok (F.nearV_map _ (by simp) fun i hi => ?_)
  exact F.sum_near _ (fun k hk => h.near i k (List.mem_range.mp hi) (List.mem_range.mp hk)) (fun k _ => hx.near k) F.near_zero

theorem ofVec_near {n : Nat} {xs : List ℝ} {X : ∀ i, List (S i)} (hx : NearV l val u n xs X) :
    NearM l val u n 1 (DMat.ofVec xs) fun i => DMat.ofVec (X i) := by
  unfold DMat.ofVec
  simp only [hx.len, hx.lens]
  exact F.ofFn_near n 1 fun i j _ _ => hx.near i

theorem toVec_near {n : Nat} {M : DMat ℝ} {N : ∀ i, DMat (S i)} (h : NearM l val u n 1 M N) :
    NearRes (NearV l val u n) M.toVec fun i => (N i).toVec := by
  unfold DMat.toVec
  simp only [h.nrows, h.ncols, h.nrowss, h.ncolss, if_true]
  exact .ok (F.nearV_map _ (by simp) fun i hi => h.near i 0 (List.mem_range.mp hi) Nat.one_pos)

/-! ## Sweeps and products -/

theorem forward_near {t : Tape ℝ} {T : ∀ i, Tape (S i)} (hw : t.WF) (hd : t.InDomain) (hT : NearT l val u t T)
    {dx : List ℝ} {DX : ∀ i, List (S i)} (hx : NearV l val u t.numIndeps dx DX) :
    NearRes (NearV l val u t.numDeps) (t.firstOrderForward dx) fun i => (T i).firstOrderForward (DX i) := by
  have hs : NearF l val u (scatterFn t.indeps dx fun _ => (Flt.zero : ℝ)) fun i =>
      scatterFn t.indeps (DX i) fun _ => (A i).zero :=
    NearF.scatter A t.indeps dx (fun i => by rw [hx.lens, hx.len]) hx.near (fun _ => F.near_zero)
  have h1 := F.near_sweepF hT.vals (Ariths.exact_vals A hw hT.exps) t.ops
    (fun op hop hc => hd.op hw hop hc) (fun op hop hc => hd.exps_vid hw hop hc) hs
    (fun k hk => Eventually.of_forall fun i => by
      rw [scatterFn_not_mem (hd.exps_indeps hw hk)]; exact (F.machine i).zero)
    (fun k hk => by rw [scatterFn_not_mem (hd.exps_indeps hw hk)]; rfl)
  refine ⟨_, _, Tape.firstOrderForward_eq hw hx.len.ge, fun i => Tape.firstOrderForward_eq (hT.wf hw i) (by
    rw [hx.lens, hT.indeps]; rfl), ?_⟩
  simp only [hT.deps, hT.ops, hT.indeps]
  exact F.nearV_map _ rfl fun k _ => h1 k

theorem reverse_near {t : Tape ℝ} {T : ∀ i, Tape (S i)} (hw : t.WF) (ha : t.AbsFree) (hd : t.InDomain)
    (hT : NearT l val u t T) {yb : List ℝ} {YB : ∀ i, List (S i)} (hy : NearV l val u t.numDeps yb YB) :
    NearRes (NearV l val u t.numIndeps) (t.firstOrderReverse yb) fun i => (T i).firstOrderReverse (YB i) := by
  have hs : NearF l val u (scatterFn t.deps yb fun _ => (Flt.zero : ℝ)) fun i =>
      scatterFn t.deps (YB i) fun _ => (A i).zero :=
    NearF.scatter A t.deps yb (fun i => by rw [hy.lens, hy.len]) hy.near (fun _ => F.near_zero)
  have h1 := F.near_sweepR hT.vals (Ariths.exact_vals A hw hT.exps) t.ops
    (fun op hop hc => hd.op hw hop hc) (fun op hop hc => hd.exps_vid hw hop hc) (fun k _ => hs k)
  refine ⟨_, _, Tape.firstOrderReverse_eq hw ha hy.len.ge, fun i => Tape.firstOrderReverse_eq (hT.wf hw i) (hT.absFree ha i) (by
    rw [hy.lens, hT.deps]; rfl), ?_⟩
  simp only [hT.deps, hT.ops, hT.indeps]
  exact F.nearV_map _ rfl fun k hk => h1 k fun he => hd.exps_indeps hw he hk

theorem mulRight_near {t : Tape ℝ} {T : ∀ i, Tape (S i)} (hw : t.WF) (hd : t.InDomain) (hT : NearT l val u t T) {c : Nat}
    {B : DMat ℝ} {B' : ∀ i, DMat (S i)} (hB : NearM l val u t.numIndeps c B B') {σ : Sched} (hσ : σ.Valid) {τ : ι → Sched}
    (hτ : ∀ i, (τ i).Valid) :
    NearRes (NearM l val u t.numDeps c) (Anf.mulRight σ t B) fun i => Anf.mulRight (τ i) (T i) (B' i) := by
  refine ⟨_, _, Anf.mulRight_eq hσ hw hB.nrows.symm, fun i => Anf.mulRight_eq (hτ i) (hT.wf hw i) (by
    rw [hB.nrowss, hT.numIndeps]), ?_⟩
  simp only [hB.ncols, hB.ncolss, hT.numDeps]
  refine F.ofFn_near _ _ fun i j hi hj => ?_
  have hc : NearV l val u t.numIndeps (Anf.colOf B j) fun k => Anf.colOf (B' k) j := by
    unfold Anf.colOf
    simp only [hB.nrows, hB.nrowss]
    exact F.nearV_map _ (by simp) fun k hk => hB.near k j (List.mem_range.mp hk) hj
  obtain ⟨y, Y, h1, h2, h3⟩ := F.forward_near hw hd hT hc
  unfold Anf.mrEntry
  simp only [h1, h2]
  exact h3.near i

theorem mulLeft_near {t : Tape ℝ} {T : ∀ i, Tape (S i)} (hw : t.WF) (ha : t.AbsFree) (hd : t.InDomain)
    (hT : NearT l val u t T) {r : Nat} {C : DMat ℝ} {C' : ∀ i, DMat (S i)} (hC : NearM l val u r t.numDeps C C') {σ : Sched}
    (hσ : σ.Valid) {τ : ι → Sched} (hτ : ∀ i, (τ i).Valid) :
    NearRes (NearM l val u r t.numIndeps) (Anf.mulLeft σ t C) fun i => Anf.mulLeft (τ i) (T i) (C' i) := by
  refine ⟨_, _, Anf.mulLeft_eq hσ hw ha hC.ncols, fun i => Anf.mulLeft_eq (hτ i) (hT.wf hw i) (hT.absFree ha i) (by
    rw [hC.ncolss, hT.numDeps]), ?_⟩
  simp only [hC.nrows, hC.nrowss, hT.numIndeps]
  refine F.ofFn_near _ _ fun i j hi hj => ?_
  have hc : NearV l val u t.numDeps (Anf.rowOf C i) fun k => Anf.rowOf (C' k) i := by
    unfold Anf.rowOf
    simp only [hC.ncols, hC.ncolss]
    exact F.nearV_map _ (by simp) fun k hk => hC.near i k hi (List.mem_range.mp hk)
  obtain ⟨y, Y, h1, h2, h3⟩ := F.reverse_near hw ha hd hT hc
  unfold Anf.mlEntry
  simp only [h1, h2]
  exact h3.near j

theorem dense_near {t : Tape ℝ} {T : ∀ i, Tape (S i)} (hw : t.WF) (ha : t.AbsFree) (hd : t.InDomain)
    (hT : NearT l val u t T) {c r : Nat} (hc : t.numIndeps = c) (hr : t.numDeps = r) {σ : Sched}
    (hσ : σ.Valid) {τ : ι → Sched} (hτ : ∀ i, (τ i).Valid) :
    NearRes (NearM l val u r c) (Anf.dense σ t c r) fun i => Anf.dense (τ i) (T i) c r := by
  subst hc hr
  unfold Anf.dense
  by_cases h : t.numIndeps < t.numDeps
  · simp only [h, if_true]; exact F.mulRight_near hw hd hT (F.identity_near _) hσ hτ
  · simp only [h, if_false]; exact F.mulLeft_near hw ha hd hT (F.identity_near _) hσ hτ

end Ariths

end Adv
