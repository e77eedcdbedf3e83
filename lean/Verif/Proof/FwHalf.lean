import Verif.Proof.FwGradient

/-!
# `calculate_gradient` computes half of the derivative

The derivative of the algorithm in the direction of a symmetric matrix `P + Pᵀ` is twice that in the direction `P`.
-/

set_option linter.unusedSectionVars false

namespace Adv.Fw
open Finset
open scoped Adv

variable {K : Type} [Field K] [LinearOrder K] [IsStrictOrderedRing K] [Flt K] [LawfulFlt K]

/-! ## Selections -/

theorem mnS_sel (p q : K × K) : (mnS selSh p q).2 = if q.1 < p.1 then q.2 else p.2 := by
  simp only [mnS, bin, lit, zfun, selSh, ffun, pieceSign, LawfulFlt.half_eq, LawfulFlt.add_eq, LawfulFlt.sub_eq,
    LawfulFlt.mul_eq, LawfulFlt.abs_eq, if_true, reduceCtorEq, if_false, sub_pos]
  split_ifs <;> ring

theorem mxS_sel (p q : K × K) : (mxS selSh p q).2 = if q.1 < p.1 then p.2 else q.2 := by
  simp only [mxS, bin, lit, zfun, selSh, ffun, pieceSign, LawfulFlt.half_eq, LawfulFlt.add_eq, LawfulFlt.sub_eq,
    LawfulFlt.mul_eq, LawfulFlt.abs_eq, if_true, reduceCtorEq, if_false, sub_pos]
  split_ifs <;> ring

theorem add_sel (p q : K × K) : bin selSh .Add p q = (p.1 + q.1, p.2 + q.2) := by
  simp [bin, zfun, selSh, ffun, LawfulFlt.add_eq]

theorem mul_sel (p q : K × K) : bin selSh .Mul p q = (p.1 * q.1, p.2 * q.1 + p.1 * q.2) := by
  simp [bin, zfun, selSh, ffun, LawfulFlt.add_eq, LawfulFlt.mul_eq]

/-! ## The algorithm -/

section probe
variable {M : Type} [AddCommMonoid M]

/-- Directions after `k` steps: those of the ways that are selected. -/
def probe (wt : Nat → Nat → K) (P : Nat → Nat → M) : Nat → Nat → Nat → M
  | 0, i, j => P i j
  | k + 1, i, j => if after wt k i k + after wt k k j < after wt k i j then probe wt P k i k + probe wt P k k j
      else probe wt P k i j

theorem probe_add (wt : Nat → Nat → K) (P Q : Nat → Nat → M) (k i j : Nat) :
    probe wt (fun i j => P i j + Q i j) k i j = probe wt P k i j + probe wt Q k i j := by
  induction k generalizing i j with
  | zero => rfl
  | succ k ih =>
    simp only [probe, ih]
    split_ifs
    · exact add_add_add_comm _ _ _ _
    · rfl

theorem probe_congr {n : Nat} (wt : Nat → Nat → K) {P Q : Nat → Nat → M} (h : ∀ i < n, ∀ j < n, P i j = Q i j) {k : Nat}
    (hk : k ≤ n) : ∀ i < n, ∀ j < n, probe wt P k i j = probe wt Q k i j := by
  induction k with
  | zero => exact h
  | succ k ih =>
    intro i hi j hj
    simp only [probe, ih (by omega) i hi k (by omega), ih (by omega) k (by omega) j hj, ih (by omega) i hi j hj]

theorem after_symm {wt : Nat → Nat → K} (h : ∀ i j, wt i j = wt j i) (k i j : Nat) : after wt k i j = after wt k j i := by
  induction k generalizing i j with
  | zero => exact h i j
  | succ k ih => simp only [after]; rw [ih i j, ih i k, ih k j, add_comm]

theorem probe_transpose {wt : Nat → Nat → K} (h : ∀ i j, wt i j = wt j i) (P : Nat → Nat → M) (k i j : Nat) :
    probe wt (fun i j => P j i) k i j = probe wt P k j i := by
  induction k generalizing i j with
  | zero => rfl
  | succ k ih =>
    simp only [probe, ih]
    rw [after_symm h k i k, after_symm h k k j, after_symm h k i j, add_comm (after wt k k i), add_comm (probe wt P k k i)]

end probe

theorem after_nonneg {wt : Nat → Nat → K} (h : ∀ i j, 0 ≤ wt i j) (k i j : Nat) : 0 ≤ after wt k i j := by
  induction k generalizing i j with
  | zero => exact h i j
  | succ k ih => exact le_min (ih _ _) (add_nonneg (ih _ _) (ih _ _))

theorem after_diag {wt : Nat → Nat → K} (h : ∀ i j, 0 ≤ wt i j) (hd : ∀ i, wt i i = 0) (k i : Nat) : after wt k i i = 0 := by
  induction k with
  | zero => exact hd i
  | succ k ih =>
    rw [after, ih]
    exact min_eq_left (add_nonneg (after_nonneg h _ _ _) (after_nonneg h _ _ _))

/-- One step in place is one step. -/
theorem relaxS_sel {n k : Nat} (hk : k < n) {H : Nat → K × K} (h0 : (H (k * n + k)).1 = 0) {i j : Nat} (hi : i < n)
    (hj : j < n) : relaxS selSh n k (pairs n) H (i * n + j) =
      mnS selSh (H (i * n + j)) (bin selSh .Add (H (i * n + k)) (H (k * n + j))) := by
  let T : Nat → Nat → K × K := fun i j => mnS selSh (H (i * n + j)) (bin selSh .Add (H (i * n + k)) (H (k * n + j)))
  have hT1 : ∀ i, T i k = H (i * n + k) := by
    intro i
    apply Prod.ext
    · simp only [T, mnS_fst, add_sel, h0, add_zero, min_self]
    · simp only [T, mnS_sel, add_sel, h0, add_zero, lt_irrefl, if_false]
  have hT2 : ∀ j, T k j = H (k * n + j) := by
    intro j
    apply Prod.ext
    · simp only [T, mnS_fst, add_sel, h0, zero_add, min_self]
    · simp only [T, mnS_sel, add_sel, h0, zero_add, lt_irrefl, if_false]
  have key : ∀ (ps done : List (Nat × Nat)), (done ++ ps).Nodup → (∀ p ∈ ps, p.1 < n ∧ p.2 < n) → ∀ G : Nat → K × K,
      (∀ i < n, ∀ j < n, G (i * n + j) = if (i, j) ∈ done then T i j else H (i * n + j)) →
      ∀ i < n, ∀ j < n, relaxS selSh n k ps G (i * n + j) = if (i, j) ∈ done ++ ps then T i j else H (i * n + j) := by
    intro ps
    induction ps with
    | nil => intro done _ _ G hG; rwa [List.append_nil]
    | cons p ps ih =>
      intro done hnd hps G hG
      obtain ⟨h1, h2⟩ := hps p (by simp)
      rw [List.append_cons]
      refine ih (done ++ [p]) (by rwa [← List.append_cons]) (fun q hq => hps q (by simp [hq])) _ ?_
      intro i hi j hj
      beta_reduce
      have hpd : p ∉ done := by
        rw [List.nodup_append] at hnd
        intro hp
        exact hnd.2.2 p hp p (by simp) rfl
      have g1 : G (p.1 * n + k) = H (p.1 * n + k) := by
        rw [hG _ h1 _ hk]; split_ifs
        · exact hT1 _
        · rfl
      have g2 : G (k * n + p.2) = H (k * n + p.2) := by
        rw [hG _ hk _ h2]; split_ifs
        · exact hT2 _
        · rfl
      by_cases hp : i = p.1 ∧ j = p.2
      · obtain ⟨rfl, rfl⟩ := hp
        rw [upd_same, g1, g2, hG _ h1 _ h2, if_neg hpd, if_pos (by simp)]
      · rw [upd_ne (by rw [Ne, idx_inj hj h2]; exact hp), hG i hi j hj]
        have : (i, j) ≠ p := fun e => hp ⟨congrArg Prod.fst e, congrArg Prod.snd e⟩
        simp [this]
  have hnd : (pairs n).Nodup := List.nodup_range.product List.nodup_range
  rw [key (pairs n) [] (by simpa using hnd) (fun p hp => pairs_lt hp) H (fun i _ j _ => by simp) i hi j hj,
    List.nil_append, if_pos (mem_pairs hi hj)]

/-- The algorithm, with directions. -/
theorem foldl_sel {n : Nat} {wt P : Nat → Nat → K} (hwt : ∀ i j, 0 ≤ wt i j) (hd : ∀ i, wt i i = 0) {H : Nat → K × K}
    (hH : ∀ i < n, ∀ j < n, H (i * n + j) = (wt i j, P i j)) {k : Nat} (hk : k ≤ n) : ∀ i < n, ∀ j < n,
      (List.range k).foldl (fun d k => relaxS selSh n k (pairs n) d) H (i * n + j) = (after wt k i j, probe wt P k i j) := by
  induction k with
  | zero => exact hH
  | succ k ih =>
    intro i hi j hj
    have hk' : k < n := by omega
    have ih := ih (by omega)
    rw [List.range_succ, List.foldl_append, List.foldl_cons, List.foldl_nil,
      relaxS_sel hk' (by rw [ih k hk' k hk']; exact after_diag hwt hd k k) hi hj, ih i hi j hj, ih i hi k hk', ih k hk' j hj]
    apply Prod.ext
    · rw [mnS_fst, add_sel]; rfl
    · rw [mnS_sel, add_sel]; rfl

theorem badS_sel {n : Nat} {ps : List (Nat × Nat)} (F : Nat → K × K) :
    (badS selSh n ps F).2 = (ps.map fun p => 2 * (F (p.1 * n + p.2)).1 * (F (p.1 * n + p.2)).2).sum := by
  have key : ∀ (ps : List (Nat × Nat)) (r : K × K), (ps.foldl (fun r p =>
      bin selSh .Add r (bin selSh .Mul (F (p.1 * n + p.2)) (F (p.1 * n + p.2)))) r).2 =
        r.2 + (ps.map fun p => 2 * (F (p.1 * n + p.2)).1 * (F (p.1 * n + p.2)).2).sum := by
    intro ps
    induction ps with
    | nil => intro r; simp
    | cons p ps ih =>
      intro r
      rw [List.foldl_cons, ih, List.map_cons, List.sum_cons, add_sel, mul_sel]
      ring
  rw [badS, key]
  simp [lit, selSh]

/-! ## The derivative as computed -/

/-- The links from `k + 1` on. -/
theorem lin_tail {N : Net K} (x : Nat → K) : ∀ (m k : Nat), k + m = N.n → ∀ G : Nat → K,
    lin N x (m + 1) (k + 1) G = (badS selSh N.n (exitPairs N.exits)
      ((List.range' k m).foldl (fun d k => relaxS selSh N.n k (pairs N.n) d) fun i => (valS N x k i, G i))).2 := by
  intro m
  induction m with
  | zero =>
    intro k hk G
    obtain rfl : k = N.n := by omega
    simp only [lin, mask, linkOut, if_neg (show ¬ (N.n + 1 = 0 ∧ 0 / N.n < 0 % N.n) by omega),
      if_neg (show ¬ N.n + 1 = 0 by omega), if_neg (show ¬ N.n + 1 < N.n + 1 by omega), List.range'_zero, List.foldl_nil]
  | succ m ih =>
    intro k hk G
    rw [lin, ih (k + 1) (by omega), List.range'_succ, List.foldl_cons]
    congr 3
    funext i
    have hout : linkOut N x (k + 1) G = relaxS selSh N.n k (pairs N.n) fun i => (valS N x k i, G i) := by
      simp only [linkOut, if_neg (show ¬ k + 1 = 0 by omega), if_pos (show k + 1 < N.n + 1 by omega), Nat.add_sub_cancel]
    have hfst := linkOut_fst (N := N) x (show k + 1 < N.n + 2 by omega) G i
    simp only [linkVal, if_neg (show ¬ k + 1 + 1 = 0 by omega), if_pos (show k + 1 + 1 < N.n + 2 by omega),
      Nat.add_sub_cancel] at hfst
    rw [← hfst, hout, mask, if_neg (by omega)]

theorem weight_symm (N : Net K) (params : List K) (i j : Nat) : N.weight params i j = N.weight params j i := by
  unfold Net.weight
  have : (fun e : Edge => decide (e.joins i j)) = fun e => decide (e.joins j i) := by
    funext e
    exact decide_eq_decide.mpr ⟨Or.symm, Or.symm⟩
  rw [this]
  simp only [eq_comm]

theorem initS_symm {N : Net K} (hN : N.Ok) (x : Nat → K × K) {i j : Nat} (hi : i < N.n) (hj : j < N.n) :
    initS selSh N x (i * N.n + j) = initS selSh N x (j * N.n + i) := by
  rw [initS_eq hN x hi hj, initS_eq hN x hj hi]
  have : (fun e : Edge => decide (e.joins i j)) = fun e => decide (e.joins j i) := by
    funext e
    exact decide_eq_decide.mpr ⟨Or.symm, Or.symm⟩
  rw [this]
  simp only [eq_comm]

theorem initS_diag {N : Net K} (hN : N.Ok) (x : Nat → K × K) {i : Nat} (hi : i < N.n) :
    (initS selSh N x (i * N.n + i)).2 = 0 := by
  rw [initS_eq hN x hi hi]
  rcases hf : N.edges.reverse.find? fun e => decide (e.joins i i) with _ | e
  · simp only [hf, if_true]; rfl
  · have h1 := List.find?_some hf
    have h2 := List.mem_reverse.mp (List.mem_of_find?_eq_some hf)
    have h3 := (hN.ends e h2).2.2
    simp only [decide_eq_true_eq] at h1
    rcases h1 with ⟨h, h'⟩ | ⟨h, h'⟩ <;> exact absurd (h.trans h'.symm) h3

theorem sum_comm_list {α β : Type} (l : List α) (m : List β) (g : α → β → K) :
    (l.map fun a => (m.map fun b => g a b).sum).sum = (m.map fun b => (l.map fun a => g a b).sum).sum := by
  induction l with
  | nil => simp
  | cons a l ih => simp only [List.map_cons, List.sum_cons, ih, List.sum_map_add]

theorem sum_exitPairs (exits : List Nat) (g : Nat → Nat → K) :
    ((exitPairs exits).map fun p => g p.1 p.2).sum = ((exitPairs exits).map fun p => g p.2 p.1).sum := by
  have key : ∀ (l m : List Nat) (g : Nat → Nat → K), ((l.flatMap fun u => m.map fun v => (u, v)).map fun p => g p.1 p.2).sum =
      (l.map fun a => (m.map fun b => g a b).sum).sum := by
    intro l m g
    induction l with
    | nil => simp
    | cons a l ih => simp only [List.flatMap_cons, List.map_append, List.sum_append, ih, List.map_cons, List.sum_cons,
        List.map_map, Function.comp_def]
  have h1 := key exits exits g
  have h2 := key exits exits fun a b => g b a
  rw [exitPairs, h1, h2, sum_comm_list]

/-- The derivative of the sum of squares in the direction given by changes of the weights. -/
def sumD (N : Net K) (params : List K) (P : Nat → Nat → K) : K :=
  ((exitPairs N.exits).map fun p => 2 * after (N.weight params) N.n p.1 p.2 * probe (N.weight params) P N.n p.1 p.2).sum

theorem exitPairs_lt {exits : List Nat} {n : Nat} (h : ∀ u ∈ exits, u < n) {p : Nat × Nat} (hp : p ∈ exitPairs exits) :
    p.1 < n ∧ p.2 < n := by
  unfold exitPairs at hp
  simp only [List.mem_flatMap, List.mem_map] at hp
  obtain ⟨i, hi, j, hj, rfl⟩ := hp
  exact ⟨h i hi, h j hj⟩

theorem valS_zero {N : Net K} (hN : N.Ok) (x : Nat → K) {i j : Nat} (hi : i < N.n) (hj : j < N.n) :
    valS N x 0 (i * N.n + j) = N.weight ((List.range N.lights).map x) i j :=
  initS_fst (sh := unitSh) hN _ (fun i hi => by rw [getD_map_range _ _ hi]) hi hj

variable {N : Net K}

theorem bad_foldl (hN : N.Ok) (hlo : 0 < N.lo) (hhi : N.hi < 1) (hle : N.lo ≤ N.hi) (hinf : 0 ≤ N.inf) (x : Nat → K)
    (G : Nat → K) : (badS selSh N.n (exitPairs N.exits)
      ((List.range N.n).foldl (fun d k => relaxS selSh N.n k (pairs N.n) d) fun i => (valS N x 0 i, G i))).2 =
        sumD N ((List.range N.lights).map x) fun i j => G (i * N.n + j) := by
  rw [badS_sel, sumD]
  congr 1
  apply List.map_congr_left
  intro p hp
  obtain ⟨h1, h2⟩ := exitPairs_lt hN.exits hp
  rw [foldl_sel (wt := N.weight ((List.range N.lights).map x)) (P := fun i j => G (i * N.n + j))
    (weight_nonneg hlo hhi (hlo.trans_le hle) hinf _) (weight_diag hN _)
    (fun i hi j hj => by rw [valS_zero hN x hi hj]) le_rfl _ h1 _ h2]

/-- The change of the weights. -/
def dWeight (N : Net K) (x F : Nat → K) (i j : Nat) : K := (initS selSh N (fun i => (x i, F i)) (i * N.n + j)).2

/-- The result of `calculate_gradient` is half of the derivative. -/
theorem lin_half (hN : N.Ok) (hlo : 0 < N.lo) (hhi : N.hi < 1) (hle : N.lo ≤ N.hi) (hinf : 0 ≤ N.inf) (x : Nat → K)
    (F : Nat → K) : sumD N ((List.range N.lights).map x) (dWeight N x F) = 2 * lin N x (N.n + 2) 0 F := by
  set W := N.weight ((List.range N.lights).map x) with hW
  have h1 : lin N x (N.n + 2) 0 F = sumD N ((List.range N.lights).map x)
      fun i j => mask N 0 (linkOut N x 0 F) (i * N.n + j) := by
    rw [lin, lin_tail x N.n 0 (by omega), ← List.range_eq_range']
    exact bad_foldl hN hlo hhi hle hinf x _
  have hm : ∀ i < N.n, ∀ j < N.n, mask N 0 (linkOut N x 0 F) (i * N.n + j) = if i < j then 0 else dWeight N x F i j := by
    intro i _ j hj
    simp only [mask, true_and, (divMod hj).1, (divMod hj).2, linkOut, if_true, dWeight]
  set P : Nat → Nat → K := fun i j => if i < j then 0 else dWeight N x F i j with hP
  have h2 : ∀ i < N.n, ∀ j < N.n, dWeight N x F i j = P i j + P j i := by
    intro i hi j hj
    simp only [hP]
    rcases lt_trichotomy i j with h | rfl | h
    · rw [if_pos h, if_neg (by omega), zero_add]; exact congrArg Prod.snd (initS_symm hN _ hi hj)
    · rw [if_neg (lt_irrefl i)]
      have : dWeight N x F i i = 0 := initS_diag hN _ hi
      rw [this, add_zero]
    · rw [if_neg (by omega), if_pos h, add_zero]
  have e1 : sumD N ((List.range N.lights).map x) (dWeight N x F) =
      sumD N ((List.range N.lights).map x) P + sumD N ((List.range N.lights).map x) fun i j => P j i := by
    unfold sumD
    rw [← List.sum_map_add]
    congr 1
    apply List.map_congr_left
    intro p hp
    obtain ⟨l1, l2⟩ := exitPairs_lt hN.exits hp
    rw [probe_congr _ h2 le_rfl _ l1 _ l2, probe_add]
    ring
  have e2 : (sumD N ((List.range N.lights).map x) fun i j => P j i) = sumD N ((List.range N.lights).map x) P := by
    unfold sumD
    have := sum_exitPairs N.exits fun u v => 2 * after W N.n u v * probe W P N.n u v
    beta_reduce at this
    rw [this]
    congr 1
    apply List.map_congr_left
    intro p _
    rw [probe_transpose (weight_symm N _), after_symm (weight_symm N _) N.n p.1 p.2]
  have e3 : sumD N ((List.range N.lights).map x) P = lin N x (N.n + 2) 0 F := by
    rw [h1]
    unfold sumD
    congr 1
    apply List.map_congr_left
    intro p hp
    obtain ⟨l1, l2⟩ := exitPairs_lt hN.exits hp
    rw [probe_congr _ (fun i hi j hj => hm i hi j hj) le_rfl _ l1 _ l2]
  rw [e1, e2, e3]
  ring

end Adv.Fw
