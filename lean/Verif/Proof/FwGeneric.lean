import Verif.Proof.FwDeriv
import Verif.Proof.KernelRfl
import Verif.Spec.DemoFw

/-!
# Parameters at which the example is differentiable

A table of natural numbers for the times, multiplied by a common denominator, decides `Net.Generic`.
-/

namespace Adv.Fw
open Adv

/-- The network with real numbers. -/
noncomputable def Net.toReal (N : Net ℚ) : Net ℝ where
  n := N.n
  lights := N.lights
  edges := N.edges
  exits := N.exits
  lo := N.lo
  hi := N.hi
  inf := N.inf

theorem Net.Ok.toReal {N : Net ℚ} (h : N.Ok) : N.toReal.Ok := ⟨h.ends, h.lights, h.exits⟩

theorem getD_cast (l : List ℚ) (i : Nat) : (l.map fun x : ℚ => (x : ℝ)).getD i 0 = ((l.getD i 0 : ℚ) : ℝ) := by
  rw [List.getD_eq_getElem?_getD, List.getD_eq_getElem?_getD, List.getElem?_map]
  cases l[i]? <;> simp

theorem quota_toReal (N : Net ℚ) (l : List ℚ) (e : Edge) :
    N.toReal.quota (l.map fun x : ℚ => (x : ℝ)) e = ((N.quota l e : ℚ) : ℝ) := by
  simp only [Net.quota, getD_cast, Net.toReal]
  split_ifs <;> push_cast <;> rfl

theorem weight_toReal (N : Net ℚ) (l : List ℚ) (i j : Nat) :
    N.toReal.weight (l.map fun x : ℚ => (x : ℝ)) i j = ((N.weight l i j : ℚ) : ℝ) := by
  simp only [Net.weight, quota_toReal, show N.toReal.edges = N.edges from rfl]
  rcases hf : N.edges.reverse.find? fun e => decide (e.joins i j) with _ | e
  · simp only [hf]
    split_ifs <;> simp [Net.toReal]
  · simp only [hf]
    push_cast
    rfl

theorem after_cast (wt : Nat → Nat → ℚ) (k i j : Nat) :
    after (fun i j => (wt i j : ℝ)) k i j = ((after wt k i j : ℚ) : ℝ) := by
  induction k generalizing i j with
  | zero => rfl
  | succ k ih => simp only [after, ih]; push_cast; rfl

theorem Net.Generic.toReal {N : Net ℚ} {l : List ℚ} (h : N.Generic l) : N.toReal.Generic (l.map fun x : ℚ => (x : ℝ)) := by
  have hw : N.toReal.weight (l.map fun x : ℚ => (x : ℝ)) = fun i j => ((N.weight l i j : ℚ) : ℝ) :=
    funext fun i => funext fun j => weight_toReal N l i j
  constructor
  · intro e he
    obtain ⟨h1, h2⟩ := h.kink e he
    rw [getD_cast]
    exact ⟨fun h => h1 (Rat.cast_injective h), fun h => h2 (Rat.cast_injective h)⟩
  · intro k hk i hi j hj h1 h2 h3
    rw [hw, after_cast, after_cast, after_cast]
    exact_mod_cast h.tie k hk i hi j hj h1 h2 h3

/-- An entry of a table. -/
def ent (t : List (List Nat)) (i j : Nat) : Nat := (t.getD i []).getD j 0

/-- The smaller number. -/
def least (x y : Nat) : Nat := cond (Nat.ble x y) x y

theorem least_eq (x y : Nat) : least x y = min x y := by
  unfold least
  rcases h : Nat.ble x y with _ | _
  · have : ¬x ≤ y := fun c => by rw [Nat.ble_eq_true_of_le c] at h; exact absurd h (by decide)
    simp only [cond_false]
    omega
  · have := Nat.le_of_ble_eq_true h
    simp only [cond_true]
    omega

/-- One step of the algorithm. -/
def stepTab (k : Nat) (t : List (List Nat)) : List (List Nat) :=
  t.map fun row => List.zipWith (fun x y => least x (Nat.add (row.getD k 0) y)) row (t.getD k [])

/-- No ties in a row, from column `j`. -/
def rowFree (k i a : Nat) : List Nat → List Nat → Nat → Bool
  | x :: xs, y :: ys, j => (Nat.beq j k || Nat.beq i j || !Nat.beq x (Nat.add a y)) && rowFree k i a xs ys (Nat.succ j)
  | _, _, _ => true

theorem rowFree_spec {k i a : Nat} {xs ys : List Nat} {j : Nat} (h : rowFree k i a xs ys j = true) {m : Nat}
    (h1 : m < xs.length) (h2 : m < ys.length) (n1 : j + m ≠ k) (n2 : i ≠ j + m) : xs.getD m 0 ≠ a + ys.getD m 0 := by
  induction xs generalizing ys j m with
  | nil => simp at h1
  | cons x xs ih =>
    cases ys with
    | nil => simp at h2
    | cons y ys =>
      simp only [rowFree, Bool.and_eq_true] at h
      cases m with
      | zero =>
        have := h.1
        simp only [add_zero] at n1 n2
        simp only [Bool.or_eq_true, Nat.beq_eq, n1, n2, false_or, Bool.not_eq_true', Nat.add_eq, ← Bool.not_eq_true] at this
        simpa using this
      | succ m =>
        have := ih h.2 (m := m) (by simpa using h1) (by simpa using h2) (by omega) (by omega)
        simpa using this

/-- No ties in the rows from row `i`. -/
def rowsFree (k : Nat) (rk : List Nat) : List (List Nat) → Nat → Bool
  | row :: rows, i => (Nat.beq i k || rowFree k i (row.getD k 0) row rk 0) && rowsFree k rk rows (Nat.succ i)
  | [], _ => true

theorem rowsFree_spec {k : Nat} {rk : List Nat} {t : List (List Nat)} {i : Nat} (h : rowsFree k rk t i = true) {m : Nat}
    (h1 : m < t.length) (n1 : i + m ≠ k) : rowFree k (i + m) ((t.getD m []).getD k 0) (t.getD m []) rk 0 = true := by
  induction t generalizing i m with
  | nil => simp at h1
  | cons x xs ih =>
    simp only [rowsFree, Bool.and_eq_true] at h
    cases m with
    | zero =>
      have := h.1
      simp only [add_zero] at n1
      simp only [Bool.or_eq_true, Nat.beq_eq, n1, false_or] at this
      simpa using this
    | succ m =>
      have := ih h.2 (m := m) (by simpa using h1) (by omega)
      simpa [Nat.add_assoc, Nat.add_comm 1] using this

/-- No ties in the next steps. -/
def tieFreeFrom : Nat → Nat → List (List Nat) → Bool
  | 0, _, _ => true
  | f + 1, k, t => rowsFree k (t.getD k []) t 0 && tieFreeFrom f (Nat.succ k) (stepTab k t)

/-- The table holds the times after `k` steps, `L` times. -/
structure TabOf (L : ℚ) (n : Nat) (wt : Nat → Nat → ℚ) (k : Nat) (t : List (List Nat)) : Prop where
  len : t.length = n
  row : ∀ i < n, (t.getD i []).length = n
  val : ∀ i < n, ∀ j < n, (ent t i j : ℚ) = L * after wt k i j

theorem TabOf.step {L : ℚ} (hL : 0 < L) {n : Nat} {wt : Nat → Nat → ℚ} {k : Nat} {t : List (List Nat)} (h : TabOf L n wt k t)
    (hk : k < n) : TabOf L n wt (k + 1) (stepTab k t) := by
  have hr : ∀ i, i < n → (stepTab k t).getD i [] =
      List.zipWith (fun x y => least x ((t.getD i []).getD k 0 + y)) (t.getD i []) (t.getD k []) := by
    intro i hi
    have hi' : i < t.length := h.len ▸ hi
    simp [stepTab, hi']
  refine ⟨by simp [stepTab, h.len], fun i hi => ?_, fun i hi j hj => ?_⟩
  · rw [hr i hi, List.length_zipWith, h.row i hi, h.row k hk, min_self]
  · have h1 : j < (t.getD i []).length := by rw [h.row i hi]; exact hj
    have h2 : j < (t.getD k []).length := by rw [h.row k hk]; exact hj
    have e : ent (stepTab k t) i j = min (ent t i j) (ent t i k + ent t k j) := by
      unfold ent
      rw [hr i hi, List.getD_eq_getElem _ _ (by rw [List.length_zipWith]; omega), List.getElem_zipWith,
        ← List.getD_eq_getElem _ 0 h1, ← List.getD_eq_getElem _ 0 h2, least_eq]
    rw [e, after, mul_min_of_nonneg _ _ hL.le, mul_add, ← h.val i hi j hj, ← h.val i hi k hk, ← h.val k hk j hj]
    push_cast
    rfl

theorem TabOf.tie {L : ℚ} (hL : 0 < L) {n : Nat} {wt : Nat → Nat → ℚ} {f k : Nat} {t : List (List Nat)} (h : TabOf L n wt k t)
    (hf : k + f ≤ n) (hc : tieFreeFrom f k t = true) : ∀ m, k ≤ m → m < k + f → ∀ i < n, ∀ j < n, i ≠ m → j ≠ m → i ≠ j →
      after wt m i j ≠ after wt m i m + after wt m m j := by
  induction f generalizing k t with
  | zero => intro m h1 h2; omega
  | succ f ih =>
    simp only [tieFreeFrom, Bool.and_eq_true] at hc
    intro m h1 h2 i hi j hj n1 n2 n3 e
    rcases h1.eq_or_lt with rfl | h1
    · have hk : k < n := by omega
      have := rowFree_spec (rowsFree_spec hc.1 (m := i) (by rw [h.len]; exact hi) (by omega)) (m := j)
        (by rw [h.row i hi]; exact hj) (by rw [h.row k hk]; exact hj) (by omega) (by omega)
      refine this ?_
      have : (ent t i j : ℚ) = ent t i k + ent t k j := by
        rw [h.val i hi j hj, h.val i hi k hk, h.val k hk j hj, e, mul_add]
      exact_mod_cast this
    · exact ih (h.step hL (by omega)) (by omega) hc.2 m h1 (by omega) i hi j hj n1 n2 n3 e

theorem generic_of_tab {N : Net ℚ} {l : List ℚ} {L : ℚ} (hL : 0 < L) {t : List (List Nat)} (ht : t.length = N.n)
    (hr : ∀ i < N.n, (t.getD i []).length = N.n) (hv : ∀ i < N.n, ∀ j < N.n, (ent t i j : ℚ) = L * N.weight l i j)
    (hk : ∀ e ∈ N.edges, l.getD e.light 0 ≠ N.lo ∧ l.getD e.light 0 ≠ N.hi) (hc : tieFreeFrom N.n 0 t = true) :
    N.Generic l := by
  have h : TabOf L N.n (N.weight l) 0 t := ⟨ht, hr, hv⟩
  exact ⟨hk, fun k hk => h.tie hL (by omega) hc k (by omega) (by omega)⟩

theorem coord_const (L i : Nat) (h : i < L) (c : ℝ) : coord L i (fun _ => c) = c := by
  simp [coord, h]

theorem weightD_eq (N : Net ℝ) (e0 : Fin N.lights → ℝ) (i j : Nat) (v : Fin N.lights → ℝ) :
    weightD N e0 i j v = match N.edges.reverse.find? fun e => decide (e.joins i j) with
      | some ed => -quotaD N ed (coord N.lights ed.light e0) / N.quota (List.ofFn e0) ed ^ 2 * coord N.lights ed.light v
      | none => 0 := by
  unfold weightD
  rcases hf : N.edges.reverse.find? fun e => decide (e.joins i j) with _ | ed <;> simp only [hf] <;> rfl

theorem totalD_eq (N : Net ℝ) (e0 v : Fin N.lights → ℝ) :
    totalD N e0 v = ((exitPairs N.exits).map fun p => 2 * after (N.weight (List.ofFn e0)) N.n p.1 p.2 *
      probe (N.weight (List.ofFn e0)) (fun i j => weightD N e0 i j v) N.n p.1 p.2).sum := by
  unfold totalD
  induction exitPairs N.exits with
  | nil => rfl
  | cons p ps ih =>
    rw [List.map_cons, List.map_cons, List.sum_cons, List.sum_cons, ← ih, ← probe_apply]
    rfl

/-- The table of a network. -/
def table (L : ℚ) (N : Net ℚ) (l : List ℚ) : List (List Nat) :=
  (List.range N.n).map fun i => (List.range N.n).map fun j => (L * N.weight l i j).num.toNat

end Adv.Fw
