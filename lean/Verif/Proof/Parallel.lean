import Verif.Model.AbsNormal
import Verif.Proof.Fn

/-! # Schedules and matrix assembly -/

set_option linter.unusedSectionVars false

namespace Adv
open scoped Adv

variable {S : Type}

namespace RTree

theorem run_ok {β : Type} {f : Nat → Res (List β)} {g : Nat → List β} (t : RTree)
    (h : ∀ k ∈ t.items, f k = .ok (g k)) : t.run f = .ok (t.items.flatMap g) := by
  induction t with
  | empty => rfl
  | leaf k => simp [run, items, h k (by simp [items])]
  | node b l r ihl ihr =>
    have hl := ihl (fun k hk => h k (by simp [items, hk]))
    have hr := ihr (fun k hk => h k (by simp [items, hk]))
    cases b <;> simp only [run, hl, hr, items, List.flatMap_append] <;> rfl

theorem run_error {β : Type} {f : Nat → Res (List β)} {e : Err} (t : RTree)
    (h : ∀ k ∈ t.items, f k = .error e) (hne : t.items ≠ []) : t.run f = .error e := by
  induction t with
  | empty => simp [items] at hne
  | leaf k => simp [run, h k (by simp [items])]
  | node b l r ihl ihr =>
    have hl := ihl (fun k hk => h k (by simp [items, hk]))
    have hr := ihr (fun k hk => h k (by simp [items, hk]))
    have hl' : l.items = [] → l.run f = .ok [] := fun h0 => by
      rw [run_ok (g := fun _ => []) l (by simp [h0]), h0]; rfl
    have hr' : r.items = [] → r.run f = .ok [] := fun h0 => by
      rw [run_ok (g := fun _ => []) r (by simp [h0]), h0]; rfl
    by_cases h1 : l.items = []
    · have h2 : r.items ≠ [] := by simpa [items, h1] using hne
      cases b <;> simp only [run, hl' h1, hr h2] <;> rfl
    · by_cases h2 : r.items = []
      · cases b <;> simp only [run, hl h1, hr' h2] <;> rfl
      · cases b <;> simp only [run, hl h1, hr h2] <;> rfl

theorem runM_ok {W β : Type} {f : Nat → M W (List β)} {g : Nat → List β} {w : W} (t : RTree)
    (h : ∀ k ∈ t.items, f k w = (.ok (g k), w)) : t.run f w = (.ok (t.items.flatMap g), w) := by
  induction t with
  | empty => rfl
  | leaf k => simp [run, items, h k (by simp [items])]
  | node b l r ihl ihr =>
    have hl := ihl (fun k hk => h k (by simp [items, hk]))
    have hr := ihr (fun k hk => h k (by simp [items, hk]))
    cases b
    · simp only [run]; rw [M.bind_ok hl, M.bind_ok hr]; simp [items]
    · simp only [run]; rw [M.bind_ok hr, M.bind_ok hl]; simp [items]

theorem runM_error {W β : Type} {f : Nat → M W (List β)} {e : Err} {w : W} (t : RTree)
    (h : ∀ k ∈ t.items, f k w = (.error e, w)) (hne : t.items ≠ []) : t.run f w = (.error e, w) := by
  induction t with
  | empty => simp [items] at hne
  | leaf k => simp [run, h k (by simp [items])]
  | node b l r ihl ihr =>
    have hl := ihl (fun k hk => h k (by simp [items, hk]))
    have hr := ihr (fun k hk => h k (by simp [items, hk]))
    have hl' : l.items = [] → l.run f w = (.ok [], w) := fun h0 => by
      rw [runM_ok (g := fun _ => []) l (by simp [h0]), h0]; rfl
    have hr' : r.items = [] → r.run f w = (.ok [], w) := fun h0 => by
      rw [runM_ok (g := fun _ => []) r (by simp [h0]), h0]; rfl
    by_cases h1 : l.items = []
    · have h2 : r.items ≠ [] := by simpa [items, h1] using hne
      cases b
      · simp only [run]; rw [M.bind_ok (hl' h1), M.bind_error (hr h2)]
      · simp only [run]; rw [M.bind_error (hr h2)]
    · by_cases h2 : r.items = []
      · cases b
        · simp only [run]; rw [M.bind_error (hl h1)]
        · simp only [run]; rw [M.bind_ok (hr' h2), M.bind_error (hl h1)]
      · cases b
        · simp only [run]; rw [M.bind_error (hl h1)]
        · simp only [run]; rw [M.bind_error (hr h2)]

theorem items_seqOf (l : List Nat) : (seqOf l).items = l := by
  induction l with
  | nil => rfl
  | cons k l ih => simp [seqOf, items, ih]

end RTree

theorem Sched.seq_valid : Sched.seq.Valid := fun p n => by
  simp only [Sched.seq, RTree.items_seqOf]; exact List.Perm.refl _

theorem Sched.Valid.at_ {σ : Sched} (h : σ.Valid) (k : Nat) : (σ.at_ k).Valid := fun p n => h (k :: p) n

theorem Sched.Valid.mem {σ : Sched} (h : σ.Valid) {p : List Nat} {n k : Nat} :
    k ∈ (σ p n).items ↔ k < n := by rw [(h p n).mem_iff, List.mem_range]

theorem Sched.Valid.ne_nil {σ : Sched} (h : σ.Valid) {p : List Nat} {n : Nat} (hn : 0 < n) :
    (σ p n).items ≠ [] := by
  intro h0
  have : 0 ∈ (σ p n).items := h.mem.mpr hn
  rw [h0] at this; simp at this

/-! ## Overwriting parts of a matrix -/

/-- Overwrite the entries selected by `P`. -/
def DMat.over (A : DMat S) (P : Nat → Nat → Bool) (F : Nat → Nat → S) : DMat S :=
  { A with get := fun i j => if P i j then F i j else A.get i j }

theorem foldlM_over {β : Type} {step : DMat S → β → Res (DMat S)} (P : β → Nat → Nat → Bool)
    (F : Nat → Nat → S) {l : List β} {r c : Nat}
    (h : ∀ A x, x ∈ l → A.nrows = r → A.ncols = c → step A x = .ok (A.over (P x) F)) (A : DMat S)
    (hr : A.nrows = r) (hc : A.ncols = c) :
    l.foldlM step A = .ok (A.over (fun i j => l.any fun x => P x i j) F) := by
  induction l generalizing A with
  | nil => simp [DMat.over]; rfl
  | cons x l ih =>
    rw [List.foldlM_cons, h A x (by simp) hr hc, bind_ok_eq,
      ih (fun A y hy => h A y (by simp [hy])) (A.over (P x) F) hr hc]
    congr 1
    unfold DMat.over
    congr 1
    funext i j
    simp only [List.any_cons]
    by_cases h1 : P x i j = true
    · simp [h1]
    · by_cases h2 : (l.any fun x => P x i j) = true
      · simp [h2]
      · simp [h1, h2]

theorem DMat.set_over {A : DMat S} {i j : Nat} {F : Nat → Nat → S} (hi : i < A.nrows) (hj : j < A.ncols) :
    A.set i j (F i j) = .ok (A.over (fun i' j' => decide (i' = i ∧ j' = j)) F) := by
  simp only [DMat.set, hi, hj, and_self, if_true, DMat.over]
  congr 2
  funext i' j'
  by_cases h : i' = i ∧ j' = j
  · obtain ⟨rfl, rfl⟩ := h; simp
  · simp [h]

variable [Flt S]

theorem DMat.ofFn_congr {r c : Nat} {f g : Nat → Nat → S} (h : ∀ i < r, ∀ j < c, f i j = g i j) :
    DMat.ofFn r c f = DMat.ofFn r c g := by
  unfold DMat.ofFn
  congr 1
  funext i j
  by_cases hij : i < r ∧ j < c
  · simp [hij, h i hij.1 j hij.2]
  · simp [hij]

@[simp] theorem DMat.ofFn_nrows (r c : Nat) (f : Nat → Nat → S) : (DMat.ofFn r c f).nrows = r := rfl
@[simp] theorem DMat.ofFn_ncols (r c : Nat) (f : Nat → Nat → S) : (DMat.ofFn r c f).ncols = c := rfl
theorem DMat.ofFn_get {r c : Nat} {f : Nat → Nat → S} {i j : Nat} (hi : i < r) (hj : j < c) :
    (DMat.ofFn r c f).get i j = f i j := by simp [DMat.ofFn, hi, hj]

theorem DMat.zeros_over {r c : Nat} {P : Nat → Nat → Bool} {F : Nat → Nat → S}
    (h : ∀ i j, P i j = true ↔ i < r ∧ j < c) : (DMat.zeros r c).over P F = DMat.ofFn r c F := by
  unfold DMat.over DMat.zeros DMat.ofFn
  congr 1
  funext i j
  by_cases hij : i < r ∧ j < c
  · simp [(h i j).mpr hij, hij]
  · have : P i j = false := by rw [← Bool.not_eq_true, h]; exact hij
    simp [this, hij]

/-- Filling a vector element by element. -/
theorem fill_vec {n : Nat} {f : Nat → Res S} {g : Nat → S} (h : ∀ i < n, f i = .ok (g i)) (b : S) :
    (List.range n).foldlM (fun dx i => do setR dx i (← f i)) (List.replicate n b) =
      .ok ((List.range n).map g) := by
  have key : ∀ k ≤ n, (List.range k).foldlM (fun dx i => do setR dx i (← f i)) (List.replicate n b) =
      .ok ((List.range k).map g ++ List.replicate (n - k) b) := by
    intro k hk
    induction k with
    | zero => simp; rfl
    | succ k ih =>
      rw [List.range_succ, List.foldlM_append, ih (by omega), bind_ok_eq, List.foldlM_cons, h k (by omega),
        bind_ok_eq, setR, if_pos (by simp; omega)]
      simp only [bind_ok_eq, List.foldlM_nil]
      show Except.ok _ = _
      congr 1
      rw [List.set_append_right _ _ (by simp)]
      simp only [List.length_map, List.length_range, Nat.sub_self, List.map_append, List.map_cons, List.map_nil,
        List.append_assoc]
      congr 1
      have : n - k = (n - (k + 1)) + 1 := by omega
      rw [this, List.replicate_succ, List.set_cons_zero]
      rfl
  simpa using key n (Nat.le_refl n)

end Adv
