import Verif.Proof.Parallel
import Verif.Proof.Eval
import Verif.Spec.Jacobian

/-! # The Jacobian drivers without schedules -/

set_option linter.unusedSectionVars false

namespace Adv
open scoped Adv

variable {S : Type} [Flt S]

theorem eVec_length (n j : Nat) : (eVec n j : List S).length = n := by simp [eVec]

theorem unitVec_eq {n j : Nat} (h : j < n) : (unitVec n j : Res (List S)) = .ok (eVec n j) := by
  unfold unitVec setR
  rw [if_pos (by simpa using h)]
  congr 1
  apply List.ext_getElem
  · simp [eVec]
  · intro k h1 h2
    simp only [List.getElem_set, List.getElem_replicate, eVec, List.getElem_map, List.getElem_range]
    by_cases hk : k = j
    · simp [hk]
    · simp [hk, Ne.symm hk]

theorem flatMap_singleton_map {α β : Type} (l : List α) (g : α → β) : l.flatMap (fun k => [g k]) = l.map g := by
  induction l with
  | nil => rfl
  | cons a l ih => simp [ih]

theorem fillColumn_eq {m n : Nat} {A : DMat S} {c : Nat × List S} {F : Nat → Nat → S} (hm : A.nrows = m)
    (hn : A.ncols = n) (hj : c.1 < n) (hl : m ≤ c.2.length) (hF : ∀ i < m, F i c.1 = c.2.getD i Flt.zero) :
    fillColumn m A c = .ok (A.over (fun i j => decide (i < m ∧ j = c.1)) F) := by
  unfold fillColumn
  rw [foldlM_over (fun i i' j' => decide (i' = i ∧ j' = c.1)) F (r := m) (c := n) ?_ A hm hn]
  · congr 2
    funext i j
    rw [Bool.eq_iff_iff]
    simp only [List.any_eq_true, List.mem_range, decide_eq_true_eq]
    constructor
    · rintro ⟨k, h1, rfl, h2⟩; exact ⟨h1, h2⟩
    · rintro ⟨h1, h2⟩; exact ⟨i, h1, rfl, h2⟩
  · intro A i hi h1 h2
    rw [List.mem_range] at hi
    have hg : getR c.2 i = .ok (F i c.1) := by
      rw [hF i hi, getR, List.getD_eq_getElem?_getD]
      have : i < c.2.length := by omega
      simp [this]
    rw [hg, bind_ok_eq, DMat.set_over (by omega) (by omega)]

theorem fillColumn_err {m n : Nat} {A : DMat S} {c : Nat × List S} (hm : A.nrows = m)
    (hn : A.ncols = n) (hj : c.1 < n) (hl : c.2.length < m) :
    fillColumn m A c = .error .indexOutOfBounds := by
  obtain ⟨k, hk⟩ : ∃ k, m = c.2.length + 1 + k := ⟨m - (c.2.length + 1), by omega⟩
  have h1 : fillColumn c.2.length A c =
      .ok (A.over (fun i j => decide (i < c.2.length ∧ j = c.1)) (fun i _ => c.2.getD i Flt.zero)) := by
    unfold fillColumn
    rw [foldlM_over (fun i i' j' => decide (i' = i ∧ j' = c.1)) (fun i _ => c.2.getD i Flt.zero) (r := m)
      (c := n) ?_ A hm hn]
    · congr 2
      funext i j
      rw [Bool.eq_iff_iff]
      simp only [List.any_eq_true, List.mem_range, decide_eq_true_eq]
      constructor
      · rintro ⟨k, h1, rfl, h2⟩; exact ⟨h1, h2⟩
      · rintro ⟨h1, h2⟩; exact ⟨i, h1, rfl, h2⟩
    · intro A i hi h1 h2
      rw [List.mem_range] at hi
      have hg : getR c.2 i = .ok (c.2.getD i Flt.zero) := by
        rw [getR, List.getD_eq_getElem?_getD]; simp [hi]
      rw [hg, bind_ok_eq]
      exact DMat.set_over (F := fun i _ => c.2.getD i Flt.zero) (by omega) (by omega)
  unfold fillColumn at h1 ⊢
  rw [hk, Nat.add_assoc, List.range_add, List.foldlM_append, h1, bind_ok_eq]
  have hr : List.range (1 + k) = 0 :: (List.range k).map (· + 1) := by
    rw [Nat.add_comm 1 k, List.range_succ_eq_map]
  rw [hr, List.map_cons, List.foldlM_cons, Nat.add_zero]
  have : getR c.2 c.2.length = .error .indexOutOfBounds := by simp [getR]
  rw [this]; rfl

theorem fillRow_eq {m n : Nat} {A : DMat S} {c : Nat × List S} {F : Nat → Nat → S} (hm : A.nrows = m)
    (hn : A.ncols = n) (hj : c.1 < m) (hl : n ≤ c.2.length) (hF : ∀ j < n, F c.1 j = c.2.getD j Flt.zero) :
    fillRow n A c = .ok (A.over (fun i j => decide (j < n ∧ i = c.1)) F) := by
  unfold fillRow
  rw [foldlM_over (fun j i' j' => decide (i' = c.1 ∧ j' = j)) F (r := m) (c := n) ?_ A hm hn]
  · congr 2
    funext i j
    rw [Bool.eq_iff_iff]
    simp only [List.any_eq_true, List.mem_range, decide_eq_true_eq]
    constructor
    · rintro ⟨k, h1, h2, rfl⟩; exact ⟨h1, h2⟩
    · rintro ⟨h1, h2⟩; exact ⟨j, h1, h2, rfl⟩
  · intro A i hi h1 h2
    rw [List.mem_range] at hi
    have hg : getR c.2 i = .ok (F c.1 i) := by
      rw [hF i hi, getR, List.getD_eq_getElem?_getD]
      have : i < c.2.length := by omega
      simp [this]
    rw [hg, bind_ok_eq, DMat.set_over (by omega) (by omega)]

/-! ## Forward -/

/-- Entry `(i, j)` of the forward Jacobian. -/
def jfEntry (f : Func S) (n : Nat) (x : List S) (i j : Nat) : S :=
  match f.evalD (x.zip (eVec n j)) with
  | .ok ys => (ys.map Prod.snd).getD i Flt.zero
  | .error _ => Flt.zero

/-- `jacobian_forward` without schedule and state. -/
def jfPure (f : Func S) (x : List S) : Res (DMat S) := do
  let n ← f.n
  let m ← f.m
  assertR (x.length = n)
  if n = 0 then return DMat.zeros m 0
  let y ← f.evalV x
  if m ≤ y.length then return DMat.ofFn m n (jfEntry f n x) else .error .indexOutOfBounds

theorem Func.evalD_ok {f : Func S} {x dx y : List S} (hl : dx.length = x.length) (hy : f.evalV x = .ok y) :
    ∃ ys, f.evalD (x.zip dx) = .ok ys ∧ ys.map Prod.fst = y := by
  have h := Func.evalD_fst f (x.zip dx)
  rw [List.map_fst_zip (by omega), hy] at h
  rcases he : f.evalD (x.zip dx) with e | ys
  · rw [he] at h; cases h
  · rw [he] at h; exact ⟨ys, rfl, by injection h⟩

theorem Func.evalD_err {f : Func S} {x dx : List S} {e : Err} (hl : dx.length = x.length)
    (hy : f.evalV x = .error e) : f.evalD (x.zip dx) = .error e := by
  have h := Func.evalD_fst f (x.zip dx)
  rw [List.map_fst_zip (by omega), hy] at h
  rcases he : f.evalD (x.zip dx) with e' | ys
  · rw [he] at h; injection h with h; rw [h]
  · rw [he] at h; cases h

theorem zeros_zero_cols (m : Nat) (F : Nat → Nat → S) : DMat.ofFn m 0 F = DMat.zeros m 0 :=
  DMat.ofFn_congr (fun _ _ j hj => absurd hj (by omega))

theorem foldlM_first_err {α β : Type} {step : α → β → Res α} {a : α} {b : β} {l : List β} {e : Err}
    (h : step a b = .error e) : (b :: l).foldlM step a = .error e := by
  rw [List.foldlM_cons, h]; rfl

theorem jacobianForward_eq {σ : Sched} (hσ : σ.Valid) (f : Func S) (x : List S) (w : World S) :
    jacobianForward σ f x w = (jfPure f x, w) := by
  unfold jacobianForward jfPure
  rcases hn : f.n with e | n
  · rw [M.bind_error (M.lift_apply _ _)]; rfl
  rcases hm : f.m with e | m
  · rw [M.bind_ok (M.lift_apply _ _), M.bind_error (M.lift_apply _ _)]; rfl
  rw [M.bind_ok (M.lift_apply _ _), M.bind_ok (M.lift_apply _ _)]
  simp only [bind_ok_eq]
  by_cases hx : x.length = n
  swap
  · have : assertR (decide (x.length = n)) = .error .assertFailed := by simp [assertR, hx]
    rw [this, M.bind_error (M.lift_apply _ _)]; rfl
  have : assertR (decide (x.length = n)) = .ok () := by simp [assertR, hx]
  rw [this, M.bind_ok (M.lift_apply _ _), bind_ok_eq]
  by_cases h0 : n = 0
  · subst h0
    have hit : ∀ k ∈ (σ [] 0).items, False := fun k hk => by have := hσ.mem.mp hk; omega
    rw [M.bind_ok (RTree.runM_ok (g := fun _ => []) (σ [] 0) (fun k hk => (hit k hk).elim))]
    have he : (σ [] 0).items = [] := List.eq_nil_iff_forall_not_mem.mpr hit
    rw [he]; rfl
  simp only [h0, if_false]
  have hcol : ∀ j < n, jacColumn f n x j w =
      ((f.evalD (x.zip (eVec n j))).map (fun ys => [(j, ys.map Prod.snd)]), w) := by
    intro j hj
    unfold jacColumn
    rw [unitVec_eq hj, M.bind_ok (M.lift_apply _ _), M.bind_apply, Func.eval_new]
    rcases f.evalD (x.zip (eVec n j)) with e | ys
    · rfl
    · simp only [map_ok_eq, M.pure_apply, List.map_map]; rfl
  rcases hy : f.evalV x with e | y
  · rw [M.bind_error (RTree.runM_error (e := e) (σ [] n) (fun k hk => by
      rw [hcol k (hσ.mem.mp hk), Func.evalD_err (by rw [eVec_length]; omega) hy]; rfl) (hσ.ne_nil (by omega)))]
    rfl
  · have hys : ∀ j, ∃ ys, f.evalD (x.zip (eVec n j)) = .ok ys ∧ ys.map Prod.fst = y :=
      fun j => Func.evalD_ok (by rw [eVec_length]; omega) hy
    choose ys h1 h2 using hys
    have hlen : ∀ j, (ys j).length = y.length := fun j => by rw [← h2 j, List.length_map]
    rw [M.bind_ok (RTree.runM_ok (g := fun j => [(j, (ys j).map Prod.snd)]) (σ [] n) (fun k hk => by
      rw [hcol k (hσ.mem.mp hk), h1]; rfl)), flatMap_singleton_map]
    simp only [bind_ok_eq, M.lift_apply]
    congr 1
    by_cases hml : m ≤ y.length
    · simp only [hml, if_true]
      rw [foldlM_over (fun (c : Nat × List S) i j => decide (i < m ∧ j = c.1)) (jfEntry f n x) (r := m)
        (c := n) ?_ _ rfl rfl, DMat.zeros_over]
      · rfl
      · intro i j
        simp only [List.any_eq_true, List.mem_map, decide_eq_true_eq]
        constructor
        · rintro ⟨_, ⟨k, hk, rfl⟩, h3, rfl⟩; exact ⟨h3, hσ.mem.mp hk⟩
        · rintro ⟨h3, h4⟩; exact ⟨_, ⟨j, hσ.mem.mpr h4, rfl⟩, h3, rfl⟩
      · intro A c hc hr hcc
        obtain ⟨k, hk, rfl⟩ := List.mem_map.mp hc
        refine fillColumn_eq hr hcc (hσ.mem.mp hk) (by simp [hlen]; exact hml) ?_
        intro i _
        simp [jfEntry, h1]
    · simp only [hml, if_false]
      have hne := hσ.ne_nil (p := []) (n := n) (by omega)
      rcases hit : (σ [] n).items with _ | ⟨k, ks⟩
      · exact absurd hit hne
      · rw [List.map_cons]
        apply foldlM_first_err
        have hk : k < n := (hσ.mem (p := [])).mp (by rw [hit]; simp)
        exact fillColumn_err rfl rfl hk (by simp [hlen]; omega)

/-! ## Reverse -/

/-- Entry `(i, j)` of the reverse Jacobian. -/
def jrEntry (t : Tape S) (i j : Nat) : S :=
  match t.firstOrderReverse (eVec t.numDeps i) with
  | .ok xbar => xbar.getD j Flt.zero
  | .error _ => Flt.zero

/-- On a well formed tape `jacobian_reverse` panics on abs, otherwise collects the entries. -/
theorem jacobianReverse_eq {σ : Sched} (hσ : σ.Valid) {t : Tape S} (hw : t.WF) (ha : t.AbsFree) :
    jacobianReverse σ t = .ok (DMat.ofFn t.numDeps t.numIndeps (jrEntry t)) := by
  unfold jacobianReverse
  have hrev : ∀ i, ∃ xbar, t.firstOrderReverse (eVec t.numDeps i) = .ok xbar ∧ xbar.length = t.numIndeps :=
    fun i => ⟨_, Tape.firstOrderReverse_eq hw ha (by rw [eVec_length]; exact Nat.le_refl _), by
      simp [Tape.numIndeps]⟩
  choose xb h1 h2 using hrev
  have hrow : ∀ i < t.numDeps, jacRow t t.numDeps i = .ok [(i, xb i)] := by
    intro i hi
    simp only [jacRow, unitVec_eq hi, bind_ok_eq, h1]; rfl
  simp only
  rw [RTree.run_ok (g := fun i => [(i, xb i)]) _ (fun k hk => hrow k (hσ.mem.mp hk)), bind_ok_eq,
    flatMap_singleton_map]
  rw [foldlM_over (fun (c : Nat × List S) i j => decide (j < t.numIndeps ∧ i = c.1)) (jrEntry t) (r := t.numDeps)
    (c := t.numIndeps) ?_ _ rfl rfl, DMat.zeros_over]
  · intro i j
    simp only [List.any_eq_true, List.mem_map, decide_eq_true_eq]
    constructor
    · rintro ⟨_, ⟨k, hk, rfl⟩, h3, rfl⟩; exact ⟨hσ.mem.mp hk, h3⟩
    · rintro ⟨h3, h4⟩; exact ⟨_, ⟨i, hσ.mem.mpr h3, rfl⟩, h4, rfl⟩
  · intro A c hc hr hcc
    obtain ⟨k, hk, rfl⟩ := List.mem_map.mp hc
    refine fillRow_eq hr hcc (hσ.mem.mp hk) (by rw [h2]; exact Nat.le_refl _) ?_
    intro i _
    simp [jrEntry, h1]

theorem jacobianReverse_err {σ : Sched} (hσ : σ.Valid) {t : Tape S} {e : Err}
    (h : ∀ ybar : List S, ybar.length = t.numDeps → t.firstOrderReverse ybar = .error e) (hm : 0 < t.numDeps) :
    jacobianReverse σ t = .error e := by
  unfold jacobianReverse
  simp only
  rw [RTree.run_error (e := e) _ ?_ (hσ.ne_nil hm)]
  · rfl
  · intro k hk
    simp only [jacRow, unitVec_eq (hσ.mem.mp hk), bind_ok_eq, h _ (eVec_length _ _)]; rfl

theorem jacobianReverse_none {σ : Sched} (hσ : σ.Valid) {t : Tape S} (hm : t.numDeps = 0) :
    jacobianReverse σ t = .ok (DMat.zeros 0 t.numIndeps) := by
  unfold jacobianReverse
  simp only [hm]
  have hit : ∀ k ∈ (σ [] 0).items, False := fun k hk => by have := hσ.mem.mp hk; omega
  have he : (σ [] 0).items = [] := List.eq_nil_iff_forall_not_mem.mpr hit
  rw [RTree.run_ok (g := fun _ => []) (σ [] 0) (fun k hk => (hit k hk).elim), he]
  rfl

end Adv
