import Verif.Proof.CkptLog
import Verif.Proof.Jet
import Verif.Spec.CkptCost
import Mathlib.Algebra.BigOperators.Intervals
import Mathlib.Data.Nat.Choose.Sum

/-! # The number of calls of `forward` is minimal -/

set_option linter.unusedSectionVars false

namespace Adv.Ckpt
open Adv Finset

/-! ## The cost function -/

theorem ch_pascal (c k : Nat) :
    Nat.choose (c + 1 + (k + 1)) (c + 1) = Nat.choose (c + 1 + k) (c + 1) + Nat.choose (c + (k + 1)) c := by
  rw [show c + 1 + (k + 1) = (c + 1 + k) + 1 by omega, Nat.choose_succ_succ, show c + (k + 1) = c + 1 + k by omega]
  exact Nat.add_comm _ _

theorem ch_zero (c : Nat) : Nat.choose (c + 0) c = 1 := by simp

theorem revCost_one (c : Nat) : revCost 1 c = 0 := by simp [revCost]

/-- The terms beyond `r` vanish. -/
theorem revCost_range {r c b : Nat} (hc : 1 ≤ c) (hb : r ≤ b) :
    ∑ k ∈ range b, (r - Nat.choose (c + k) c) = revCost r c := by
  unfold revCost
  symm
  apply sum_subset (by simpa using hb)
  intro k _ hk
  have := lt_choose (t := k) hc
  simp only [mem_range] at hk
  omega

theorem revCost_anti (r c : Nat) : revCost r (c + 1) ≤ revCost r c := by
  unfold revCost
  apply sum_le_sum
  intro k _
  have := choose_mono_c (t := k) (show c ≤ c + 1 by omega)
  omega

theorem revCost_shift {y c b : Nat} (hy : 1 ≤ y) (hc : c = 0 → y = 1) (hb : y ≤ b + 1) :
    (y - 1) + ∑ j ∈ range b, (y - Nat.choose (c + (j + 1)) c) = revCost y c := by
  have h : ∑ k ∈ range (b + 1), (y - Nat.choose (c + k) c) = revCost y c := by
    by_cases h0 : c = 0
    · subst h0
      obtain rfl := hc rfl
      simp [revCost]
    · exact revCost_range (by omega) hb
  rw [← h, sum_range_succ', ch_zero]
  omega

/-- Splitting a sequence. -/
theorem revCost_split {x y c : Nat} (hx : 1 ≤ x) (hy : 1 ≤ y) (hc : c = 0 → y = 1) :
    revCost (x + y) (c + 1) ≤ x + revCost x (c + 1) + revCost y c := by
  obtain ⟨b, hb⟩ : ∃ b, x + y = b + 1 := ⟨x + y - 1, by omega⟩
  have e1 : revCost (x + y) (c + 1) =
      (x + y - 1) + ∑ j ∈ range b, (x + y - Nat.choose (c + 1 + (j + 1)) (c + 1)) := by
    unfold revCost
    rw [hb, sum_range_succ', ch_zero]
    omega
  have e2 := revCost_range (r := x) (c := c + 1) (b := b) (by omega) (by omega)
  have e3 := revCost_shift (c := c) (b := b) hy hc (by omega)
  have e4 : ∑ j ∈ range b, (x + y - Nat.choose (c + 1 + (j + 1)) (c + 1)) ≤
      ∑ j ∈ range b, (x - Nat.choose (c + 1 + j) (c + 1)) + ∑ j ∈ range b, (y - Nat.choose (c + (j + 1)) c) := by
    rw [← sum_add_distrib]
    apply sum_le_sum
    intro j _
    rw [ch_pascal]
    omega
  omega

/-- Splitting a sequence at an optimal place. -/
theorem revCost_split_eq {x y c : Nat} (hx : 1 ≤ x) (hy : 1 ≤ y) (hc : c = 0 → y = 1)
    (h : ∀ j, (Nat.choose (c + 1 + j) (c + 1) ≤ x ∧ Nat.choose (c + (j + 1)) c ≤ y) ∨
      (x ≤ Nat.choose (c + 1 + j) (c + 1) ∧ y ≤ Nat.choose (c + (j + 1)) c)) :
    revCost (x + y) (c + 1) = x + revCost x (c + 1) + revCost y c := by
  obtain ⟨b, hb⟩ : ∃ b, x + y = b + 1 := ⟨x + y - 1, by omega⟩
  have e1 : revCost (x + y) (c + 1) =
      (x + y - 1) + ∑ j ∈ range b, (x + y - Nat.choose (c + 1 + (j + 1)) (c + 1)) := by
    unfold revCost
    rw [hb, sum_range_succ', ch_zero]
    omega
  have e2 := revCost_range (r := x) (c := c + 1) (b := b) (by omega) (by omega)
  have e3 := revCost_shift (c := c) (b := b) hy hc (by omega)
  have e4 : ∑ j ∈ range b, (x + y - Nat.choose (c + 1 + (j + 1)) (c + 1)) =
      ∑ j ∈ range b, (x - Nat.choose (c + 1 + j) (c + 1)) + ∑ j ∈ range b, (y - Nat.choose (c + (j + 1)) c) := by
    rw [← sum_add_distrib]
    apply sum_congr rfl
    intro j _
    rw [ch_pascal]
    have := h j
    omega
  omega

/-- The optimal places in terms of the number of repetitions. -/
theorem revCost_split_t {x y c t : Nat} (hx : 1 ≤ x) (hy : 1 ≤ y) (hc : 1 ≤ c)
    (h1 : Nat.choose (c + 1 + t) (c + 1) ≤ x) (h2 : x ≤ Nat.choose (c + 1 + (t + 1)) (c + 1))
    (h3 : Nat.choose (c + (t + 1)) c ≤ y) (h4 : y ≤ Nat.choose (c + (t + 2)) c) :
    revCost (x + y) (c + 1) = x + revCost x (c + 1) + revCost y c := by
  apply revCost_split_eq hx hy (by omega)
  intro j
  by_cases hj : j ≤ t
  · exact Or.inl ⟨(choose_mono_t hj).trans h1, (choose_mono_t (by omega)).trans h3⟩
  · exact Or.inr ⟨h2.trans (choose_mono_t (by omega)), h4.trans (choose_mono_t (by omega))⟩

/-- All states fit: one forward pass. -/
theorem revCost_split_fits {y c : Nat} (hy : 1 ≤ y) (hyc : y ≤ c + 1) :
    revCost (1 + y) (c + 1) = 1 + revCost 1 (c + 1) + revCost y c := by
  apply revCost_split_eq (le_refl 1) hy (by omega)
  intro j
  refine Or.inr ⟨?_, ?_⟩
  · exact Nat.choose_pos (by omega)
  · have : Nat.choose (c + 1) c = c + 1 := by rw [Nat.choose_symm_add, Nat.choose_one_right]
    calc y ≤ Nat.choose (c + 1) c := by omega
      _ ≤ _ := choose_mono_t (by omega)

/-- Room for one state only. -/
theorem revCost_split_one {x : Nat} (hx : 1 ≤ x) : revCost (x + 1) 1 = x + revCost x 1 + revCost 1 0 := by
  apply revCost_split_eq hx (le_refl 1) (by omega)
  intro j
  simp only [Nat.zero_add, Nat.choose_zero_right, Nat.choose_one_right]
  omega

theorem revCost_closed {c r t : Nat} (hc : 1 ≤ c) (hr : 1 ≤ r) (h : IsLeastT c r t) :
    revCost r c + Nat.choose (c + t) (t - 1) = t * r := by
  obtain ⟨u, rfl⟩ : ∃ u, t = u + 1 := ⟨t - 1, by have := h.1; omega⟩
  have e1 : revCost r c = ∑ k ∈ range (u + 1), (r - Nat.choose (c + k) c) := by
    unfold revCost
    rcases Nat.lt_or_ge r (u + 1) with hlt | hge
    · apply sum_subset (by simpa using hlt.le)
      intro k _ hk
      have := lt_choose (t := k) hc
      simp only [mem_range] at hk
      omega
    · symm
      apply sum_subset (by simpa using hge)
      intro k _ hk
      simp only [mem_range] at hk
      have := choose_mono_t (c := c) (show u + 1 ≤ k by omega)
      have := h.2.1
      omega
  have e2 : ∑ k ∈ range (u + 1), Nat.choose (c + k) c = Nat.choose (c + (u + 1)) u := by
    have := Nat.sum_range_add_choose u c
    rw [show c + (u + 1) = u + (c + 1) by omega, Nat.choose_symm_add, show u + (c + 1) = u + c + 1 by omega, ← this]
    apply sum_congr rfl
    intro k _
    rw [Nat.add_comm]
  have e3 : ∀ k ∈ range (u + 1), r - Nat.choose (c + k) c + Nat.choose (c + k) c = r := by
    intro k hk
    simp only [mem_range] at hk
    apply Nat.sub_add_cancel
    by_cases h0 : k = 0
    · subst h0; rw [ch_zero]; exact hr
    · have := h.pred hr hk
      unfold B at this
      rw [if_neg (by omega)] at this
      omega
  rw [Nat.add_sub_cancel, e1, ← e2, ← sum_add_distrib, sum_congr rfl e3]
  simp

/-! ## Lower bound -/

theorem Play.zero_mem {N : Nat} {S : Finset Nat} {r k : Nat} (h : Play N S r k) (hr : 1 ≤ r) : 0 ∈ S := by
  induction h with
  | done => omega
  | step hi hN h ih => simpa using ih hr
  | slide hi h ih =>
    have := ih hr
    simp only [mem_insert, mem_erase] at this
    rcases this with h | h
    · omega
    · exact h.2
  | drop h ih => exact mem_of_mem_erase (ih hr)
  | @reverse S r k hm h ih =>
    rcases Nat.eq_zero_or_pos r with rfl | h0
    · exact hm
    · exact ih h0

/-- A way to go on: the states at which the sequence is cut are computed from stored ones, and then each part is
reversed with the memory that is left. -/
inductive Plan (S : Finset Nat) : (c u r : Nat) → Nat → Prop
  | last {c u r : Nat} (hu : u < r) (hc : c = 0 → r = u + 1) : Plan S c u r (revCost (r - u) c)
  | cons {c u v r s K : Nat} (huv : u < v) (hvr : v < r) (hs : s = u ∨ (s ∈ S ∧ u < s ∧ s ≤ v)) (h : Plan S c v r K) :
      Plan S (c + 1) u r (revCost (v - u) (c + 1) + (v - s) + K)

theorem Plan.lt {S : Finset Nat} {c u r K : Nat} (h : Plan S c u r K) : u < r := by
  cases h with
  | last hu => exact hu
  | cons huv hvr => omega

/-- Computing a successor saves at most one step. -/
theorem Plan.step {S S' : Finset Nat} {i : Nat} (hi : i ∈ S) (hS : ∀ s ∈ S', s = i + 1 ∨ s ∈ S) {c u r K : Nat}
    (h : Plan S' c u r K) : ∃ K', Plan S c u r K' ∧ K' ≤ K + if u < i + 1 then 1 else 0 := by
  induction h with
  | last hu hc => exact ⟨_, .last hu hc, by omega⟩
  | @cons c u v r s K huv hvr hs h ih =>
    obtain ⟨K', h1, h2⟩ := ih
    have key : ∃ s', (s' = u ∨ (s' ∈ S ∧ u < s' ∧ s' ≤ v)) ∧
        (v - s') + (if v < i + 1 then 1 else 0) ≤ (v - s) + if u < i + 1 then 1 else 0 := by
      rcases hs with rfl | ⟨hs, h3, h4⟩
      · exact ⟨s, Or.inl rfl, by split_ifs <;> omega⟩
      · rcases hS s hs with rfl | hs
        · rcases Nat.lt_or_ge u i with h5 | h5
          · exact ⟨i, Or.inr ⟨hi, h5, by omega⟩, by split_ifs <;> omega⟩
          · exact ⟨u, Or.inl rfl, by split_ifs <;> omega⟩
        · exact ⟨s, Or.inr ⟨hs, h3, h4⟩, by split_ifs <;> omega⟩
    obtain ⟨s', h3, h4⟩ := key
    exact ⟨_, .cons huv hvr h3 h1, by omega⟩

theorem Plan.subset {S S' : Finset Nat} (hS : S' ⊆ S) {c u r K : Nat} (h : Plan S' c u r K) : Plan S c u r K := by
  induction h with
  | last hu hc => exact .last hu hc
  | cons huv hvr hs h ih => exact .cons huv hvr (hs.imp id fun h => ⟨hS h.1, h.2⟩) ih

/-- With room for one more state the last stored state can be kept as well. -/
theorem Plan.room {S : Finset Nat} {c u r K : Nat} (hr : r ∈ S) (h : Plan S c u r K) :
    ∃ K', Plan S (c + 1) u (r + 1) K' ∧ K' ≤ K := by
  induction h with
  | @last c u r hu hc =>
    refine ⟨_, .cons hu (Nat.lt_succ_self r) (Or.inr ⟨hr, hu, le_refl _⟩) (.last (Nat.lt_succ_self r) (fun _ => rfl)), ?_⟩
    rw [show r + 1 - r = 1 by omega, revCost_one]
    have := revCost_anti (r - u) c
    omega
  | @cons c u v r s K huv hvr hs h ih =>
    obtain ⟨K', h1, h2⟩ := ih hr
    refine ⟨_, .cons huv (by omega) hs h1, ?_⟩
    have := revCost_anti (v - u) (c + 1)
    omega

/-- Either the last stored state can be kept as well, or memory is full of states that are used. -/
theorem Plan.extend {S : Finset Nat} {c u r K : Nat} (hr : r ∈ S) (h : Plan S c u r K) :
    (∃ K', Plan S c u (r + 1) K' ∧ K' ≤ K) ∨
    (c ≤ (S.filter fun s => u < s ∧ s < r).card ∧ ∀ u0, u0 < u →
      ∃ K', Plan S (c + 1) u0 (r + 1) K' ∧ K' ≤ revCost (u - u0) (c + 1) + (u - u0) + K) := by
  induction h with
  | @last c u r hu hc =>
    rcases Nat.eq_zero_or_pos c with rfl | hc'
    · have := hc rfl
      subst this
      refine Or.inr ⟨Nat.zero_le _, fun u0 h0 => ?_⟩
      refine ⟨_, .cons (show u0 < u + 1 by omega) (Nat.lt_succ_self _) (Or.inr ⟨hr, by omega, le_refl _⟩)
        (.last (Nat.lt_succ_self _) (fun _ => rfl)), ?_⟩
      rw [show u + 1 + 1 - (u + 1) = 1 by omega, revCost_one, show u + 1 - u = 1 by omega, revCost_one]
      have := revCost_split_one (x := u - u0) (by omega)
      rw [revCost_one] at this
      rw [show u + 1 - u0 = (u - u0) + 1 by omega]
      simp only [Nat.zero_add]
      omega
    · obtain ⟨c, rfl⟩ : ∃ c', c = c' + 1 := ⟨c - 1, by omega⟩
      refine Or.inl ⟨_, .cons hu (Nat.lt_succ_self r) (Or.inr ⟨hr, hu, le_refl _⟩)
        (.last (Nat.lt_succ_self r) (fun _ => rfl)), ?_⟩
      rw [show r + 1 - r = 1 by omega, revCost_one]
      omega
  | @cons c u v r s K huv hvr hs h ih =>
    rcases ih hr with ⟨K', h1, h2⟩ | ⟨h1, h2⟩
    · exact Or.inl ⟨_, .cons huv (by omega) hs h1, by omega⟩
    · rcases hs with rfl | ⟨hs, h3, h4⟩
      · exact Or.inl (by obtain ⟨K', k1, k2⟩ := h2 s huv; exact ⟨K', k1, by omega⟩)
      · refine Or.inr ⟨?_, ?_⟩
        · have hlt : (S.filter fun s => v < s ∧ s < r).card < (S.filter fun s => u < s ∧ s < r).card := by
            apply card_lt_card
            refine ⟨fun a ha => ?_, fun hsub => ?_⟩
            · simp only [mem_filter] at ha ⊢
              exact ⟨ha.1, by omega, ha.2.2⟩
            · have := hsub (mem_filter.mpr ⟨hs, h3, by omega⟩)
              simp only [mem_filter] at this
              omega
          omega
        · intro u0 h0
          obtain ⟨K', k1, k2⟩ := h.room hr
          refine ⟨_, .cons (show u0 < v by omega) (by omega) (Or.inr ⟨hs, by omega, h4⟩) k1, ?_⟩
          have := revCost_split (x := u - u0) (y := v - u) (c := c + 1) (by omega) (by omega) (by omega)
          rw [show u - u0 + (v - u) = v - u0 by omega] at this
          omega

/-- Every way of playing is at least as expensive as some plan. -/
theorem Play.plan {N : Nat} {S : Finset Nat} {r k : Nat} (h : Play N S r k) (hr : 1 ≤ r) (hN : S.card ≤ N) (h2 : 2 ≤ N) :
    ∃ K, Plan S (N - 1) 0 r K ∧ K ≤ k := by
  induction h with
  | done => omega
  | @step S i r k hi hc h ih =>
    obtain ⟨K, h1, h2⟩ := ih hr hc
    obtain ⟨K', h3, h4⟩ := h1.step hi (by simp)
    exact ⟨K', h3, by simp at h4; omega⟩
  | @slide S i r k hi h ih =>
    obtain ⟨K, h1, h2⟩ := ih hr (by
      refine (card_insert_le _ _).trans ?_
      rw [card_erase_of_mem hi]
      have := card_pos.mpr ⟨i, hi⟩
      omega)
    obtain ⟨K', h3, h4⟩ := h1.step hi (by
      intro s hs
      simp only [mem_insert, mem_erase] at hs
      exact hs.imp id fun h => h.2)
    exact ⟨K', h3, by simp at h4; omega⟩
  | @drop S i r k h ih =>
    obtain ⟨K, h1, h2⟩ := ih hr ((card_le_card (erase_subset _ _)).trans hN)
    exact ⟨K, h1.subset (erase_subset _ _), h2⟩
  | @reverse S r k hm h ih =>
    rcases Nat.eq_zero_or_pos r with rfl | h0
    · exact ⟨_, .last (by omega) (fun _ => rfl), by rw [show 0 + 1 - 0 = 1 from rfl, revCost_one]; omega⟩
    · obtain ⟨K, k1, k2⟩ := ih h0 hN
      rcases k1.extend hm with ⟨K', h1, h3⟩ | ⟨h1, -⟩
      · exact ⟨K', h1, by omega⟩
      · exfalso
        have hz := h.zero_mem h0
        have hsub : (S.filter fun s => 0 < s ∧ s < r) ⊆ (S.erase r).erase 0 := by
          intro a ha
          simp only [mem_filter, mem_erase] at ha ⊢
          exact ⟨by omega, by omega, ha.1⟩
        have := card_le_card hsub
        rw [card_erase_of_mem (mem_erase.mpr ⟨by omega, hz⟩), card_erase_of_mem hm] at this
        omega

theorem Plan.cost {c u r K : Nat} (h : Plan {0} c u r K) : revCost (r - u) c ≤ K := by
  induction h with
  | last hu hc => exact le_refl _
  | @cons c u v r s K huv hvr hs h ih =>
    have hsu : s = u := by
      rcases hs with h | ⟨h, h1, -⟩
      · exact h
      · simp only [mem_singleton] at h; omega
    subst hsu
    have hc : c = 0 → r - v = 1 := by
      rintro rfl
      cases h with
      | last hu hc => have := hc rfl; omega
    have := revCost_split (x := v - s) (y := r - v) (c := c) (by omega) (by omega) hc
    rw [show v - s + (r - v) = r - s by omega] at this
    omega

/-- No way of playing is cheaper. -/
theorem Play.cost {N n k : Nat} (hN : 2 ≤ N) (h : Play N {0} (n + 1) k) : revCost (n + 1) (N - 1) ≤ k := by
  obtain ⟨K, h1, h2⟩ := h.plan (by omega) (by simp; omega) hN
  have := h1.cost
  simp only [Nat.sub_zero] at this
  omega

/-! ## The code splits at optimal places -/

theorem nextCheckpoint_eq {est : Int → Int → Int} (hest : SoundEst est) {c r t : Nat} (hc : 2 ≤ c) (hr : 1 ≤ r)
    (hb : r * (c + 1) < 2 ^ 63) (h : IsLeastT c r t) : nextCheckpoint est c r = .ok (
      if r ≤ B c (t - 1) + B (c - 2) (t - 1) then B c (t - 2)
      else if B c t - B (c - 3) t ≤ r then B c (t - 1)
      else r - B (c - 1) (t - 1) - B (c - 2) (t - 1)) := by
  have hbd := h.bound hr (by omega)
  have hc' : c < 2 ^ 63 := by nlinarith
  have ht : t < 2 ^ 63 := lt_of_lt_of_le (lt_choose (by omega)) (hbd.trans hb.le)
  have h1 := h.1
  have hB : B c t = Nat.choose (c + t) c := by unfold B; rw [if_neg (by omega)]
  unfold nextCheckpoint
  rw [findT_ok hest hc hr hc' h (by omega), bind_ok_eq]
  simp only [toISize_of_lt hc', toISize_of_lt ht]
  have sub : ∀ (a b : Nat) , b ≤ 3 → subI (a : Int) b = .ok ((a : Int) - b) := by
    intro a b hb; unfold subI; rw [if_pos (by omega)]
  have be : ∀ (i j : Nat), i ≤ 3 → j ≤ 3 →
      beta ((c : Int) - i) ((t : Int) - j) = .ok (B (c - i) (t - j)) := by
    intro i j hi hj
    have e1 : ((c : Int) - i).toNat = c - i := by omega
    have e2 : ((t : Int) - j).toNat = t - j := by omega
    have := B_mono (show c - i ≤ c by omega) (show t - j ≤ t by omega)
    rw [beta_nat] <;> simp only [e1, e2]
    omega
  have b00 := be 0 0 (by omega) (by omega)
  have b01 := be 0 1 (by omega) (by omega)
  have b02 := be 0 2 (by omega) (by omega)
  have b21 := be 2 1 (by omega) (by omega)
  have b11 := be 1 1 (by omega) (by omega)
  have b30 := be 3 0 (by omega) (by omega)
  simp only [Nat.cast_zero, Nat.cast_one, Nat.cast_ofNat, sub_zero, Nat.sub_zero] at b00 b01 b02 b21 b11 b30
  have s1 := sub t 1 (by omega)
  have s2 := sub t 2 (by omega)
  have s3 := sub c 1 (by omega)
  have s4 := sub c 2 (by omega)
  have s5 := sub c 3 (by omega)
  simp only [Nat.cast_one, Nat.cast_ofNat] at s1 s2 s3 s4 s5
  have p1 := h.pred hr (show t - 1 < t by omega)
  have p2 := B_mono (show c - 2 ≤ c by omega) (le_refl (t - 1))
  have p3 := B_mono (show c - 3 ≤ c by omega) (le_refl t)
  have p4 := B_mono (show c - 1 ≤ c by omega) (le_refl (t - 1))
  rw [if_neg (by omega)]
  simp only [s1, s2, s3, s4, s5, b00, b01, b02, b21, b11, b30, bind_ok_eq, addU, subU]
  rw [if_pos (show B c (t - 1) + B (c - 2) (t - 1) < 2 ^ 64 by nlinarith), bind_ok_eq]
  split
  · rfl
  · rename_i hn
    rw [bind_ok_eq]
    split
    · rfl
    · rw [if_pos (by omega), bind_ok_eq, if_pos (by omega)]

theorem B_pos {c t : Nat} (hc : 1 ≤ c) (ht : 1 ≤ t) : B c t = Nat.choose (c + t) c := by
  unfold B; rw [if_neg (by omega)]

theorem B_le (c t : Nat) : B c t ≤ Nat.choose (c + t) c := by
  unfold B; split <;> omega

/-- The distance to the next checkpoint is optimal. -/
theorem partialCp_opt {est : Int → Int → Int} (hest : SoundEst est) {c r p : Nat} (hr : 1 < r)
    (hfit : Fits (c + 1) r) (e : partialCp est (c + 1) r = .ok p) :
    revCost r (c + 1) = p + revCost p (c + 1) + revCost (r - p) c := by
  have hp := partialCp_range hr e
  unfold partialCp at e
  split at e
  · rename_i h
    injection e with e
    subst e
    have := revCost_split_fits (y := r - 1) (c := c) (by omega) (by omega)
    rwa [show 1 + (r - 1) = r by omega] at this
  · rename_i hrc
    split at e
    · rename_i hc
      obtain rfl : c = 0 := by omega
      obtain rfl : p = r - 1 := hp.2.2.1 rfl
      have := revCost_split_one (x := r - 1) (by omega)
      rw [show r - 1 + 1 = r by omega] at this
      rwa [show r - (r - 1) = 1 by omega]
    · rename_i hc
      rw [if_pos (by omega)] at e
      obtain ⟨d, rfl⟩ : ∃ d, c = d + 1 := ⟨c - 1, by omega⟩
      have hb : r * (d + 1 + 1 + 1) < 2 ^ 63 := by rcases hfit with h | h <;> omega
      obtain ⟨t, ht⟩ := exists_leastT (c := d + 1 + 1) (by omega) r
      have ht1 := ht.1
      have hle := ht.2.1
      have ht2 : t ≠ 1 := by
        rintro rfl
        have : Nat.choose (d + 1 + 1 + 1) (d + 1 + 1) = d + 1 + 1 + 1 := by
          rw [Nat.choose_symm_add, Nat.choose_one_right]
        omega
      obtain ⟨u, rfl⟩ : ∃ u, t = u + 2 := ⟨t - 2, by omega⟩
      rw [nextCheckpoint_eq hest (by omega) (by omega) hb ht, bind_ok_eq] at e
      have hpred := ht.pred (by omega) (show u + 1 < u + 2 by omega)
      rw [B_pos (by omega) (by omega)] at hpred
      injection e with e
      have key : Nat.choose (d + 1 + 1 + u) (d + 1 + 1) ≤ p ∧ p ≤ Nat.choose (d + 1 + 1 + (u + 1)) (d + 1 + 1) ∧
          Nat.choose (d + 1 + (u + 1)) (d + 1) ≤ r - p ∧ r - p ≤ Nat.choose (d + 1 + (u + 2)) (d + 1) := by
        have e1 : u + 2 - 1 = u + 1 := by omega
        have e2 : u + 2 - 2 = u := by omega
        have e3 : d + 1 + 1 - 1 = d + 1 := by omega
        have e4 : d + 1 + 1 - 2 = d := by omega
        have e5 : d + 1 + 1 - 3 = d - 1 := by omega
        rw [e1, e2, e3, e4, e5] at e
        have P1 : Nat.choose (d + 1 + 1 + (u + 2)) (d + 1 + 1) = _ := ch_pascal (d + 1) (u + 1)
        have P2 := ch_pascal (d + 1) u
        have P3 : Nat.choose (d + 1 + (u + 2)) (d + 1) = _ := ch_pascal d (u + 1)
        rw [show u + 1 + 1 = u + 2 by omega] at P1 P3
        rw [B_pos (show 1 ≤ d + 1 + 1 by omega) (show 1 ≤ u + 1 by omega),
          B_pos (show 1 ≤ d + 1 + 1 by omega) (show 1 ≤ u + 2 by omega),
          B_pos (show 1 ≤ d + 1 by omega) (show 1 ≤ u + 1 by omega)] at e
        have Q4 : max (B (d + 1 + 1) u) 1 = Nat.choose (d + 1 + 1 + u) (d + 1 + 1) := by
          have := Nat.choose_pos (show d + 1 + 1 ≤ d + 1 + 1 + u by omega)
          rcases Nat.eq_zero_or_pos u with rfl | hu
          · simp [B]
          · rw [B_pos (by omega) hu]; omega
        have Q5 : B d (u + 1) ≤ Nat.choose (d + (u + 2)) d := (B_le d (u + 1)).trans (choose_mono_t (by omega))
        have Q7 : B (d - 1) (u + 2) ≤ Nat.choose (d + (u + 2)) d :=
          (B_mono (show d - 1 ≤ d by omega) (le_refl _)).trans (B_le _ _)
        have Q8 : Nat.choose (d + (u + 2)) d ≤ B d (u + 1) + B (d - 1) (u + 2) + 1 := by
          rcases d with _ | _ | d
          · simp
          · rw [B_pos (by omega) (by omega), show 0 + 1 + (u + 2) = u + 3 by omega, show 0 + 1 + (u + 1) = u + 2 by omega,
              show 0 + 1 = 1 by omega, Nat.choose_one_right, Nat.choose_one_right]
            omega
          · rw [B_pos (by omega) (by omega), show d + 1 + 1 - 1 = d + 1 by omega, B_pos (by omega) (by omega)]
            have := ch_pascal (d + 1) (u + 1)
            rw [show u + 1 + 1 = u + 2 by omega] at this
            omega
        have hQ := Nat.choose_pos (show d + 1 + 1 ≤ d + 1 + 1 + u by omega)
        generalize Nat.choose (d + 1 + 1 + (u + 2)) (d + 1 + 1) = C2 at *
        generalize Nat.choose (d + 1 + 1 + (u + 1)) (d + 1 + 1) = C1 at *
        generalize Nat.choose (d + 1 + 1 + u) (d + 1 + 1) = C0 at *
        generalize Nat.choose (d + 1 + (u + 2)) (d + 1) = D2 at *
        generalize Nat.choose (d + 1 + (u + 1)) (d + 1) = D1 at *
        generalize Nat.choose (d + (u + 2)) d = E at *
        generalize B d (u + 1) = b at *
        generalize B (d - 1) (u + 2) = g at *
        generalize B (d + 1 + 1) u = b0 at *
        clear hfit hp hb ht ht2 ht1 hest
        split at e
        · rename_i h1
          rw [Q4] at e
          omega
        · rename_i h1
          split at e
          · omega
          · omega
      have hxy : 1 ≤ r - p := by omega
      have := revCost_split_t (x := p) (y := r - p) (c := d + 1) (t := u) hp.1 hxy (by omega) key.1 key.2.1 key.2.2.1
        key.2.2.2
      rwa [show p + (r - p) = r by omega] at this

/-! ## Counting the calls -/

variable {W T R : Type}

/-- The cost of reversing `r` elements if the elements with the given indices (last one first) are stored. -/
def pot (N : Nat) : Nat → List Nat → Nat
  | _, [] => 0
  | r, p :: l => revCost (r - p) (N - (l.length + 1)) + pot N p l

theorem advance_pot {est : Int → Int → Int} (hest : SoundEst est) {forward : T → M W T} {base r N : Nat}
    (hr : r < 2 ^ 64) : ∀ (c off : Nat) (x : T) (cps : List (Nat × T)) (s : World W) (l : List (Nat × T)) (s' : World W)
      (rest : List Nat), off < r → Fits c (r - off) → cps.map Prod.fst = (base + off) :: rest →
      N - (rest.length + 1) = c → (1 ≤ c ∨ off + 1 = r) →
      advance est forward base r c off (r - off) off x cps s = (.ok l, s') →
      pot N (base + r) (cps.map Prod.fst) = (r - 1 - off) + pot N (base + r) (l.map Prod.fst) := by
  have stop : ∀ (c off : Nat) (x : T) (cps : List (Nat × T)) (s : World W), off + 1 = r →
      advance est forward base r c off (r - off) off x cps s = (.ok cps, s) := by
    intro c off x cps s h
    have e : ∀ c, schedNext est r off c (r - off) = .ok none := fun c => schedNext_none _ _ _ _ (Or.inl (by omega))
    cases c <;> · unfold advance; rw [e]; rfl
  intro c
  induction c with
  | zero =>
    intro off x cps s l s' rest h1 hfit hcps hN hc e
    rw [stop _ _ _ _ _ (by omega)] at e
    injection e with e _
    injection e with e
    subst e
    omega
  | succ c ih =>
    intro off x cps s l s' rest h1 hfit hcps hN hc e
    by_cases hend : off + 1 = r
    · rw [stop _ _ _ _ _ hend] at e
      injection e with e _
      injection e with e
      subst e
      omega
    · obtain ⟨p, ep⟩ := partialCp_ok hest (c := c + 1) (by omega) hfit
      have hp := partialCp_range (by omega) ep
      have es := schedNext_some (by omega) (by omega) hr ep (r := r)
      have hfit' := hfit.step hp.1
      rw [show r - off - p = r - (off + p) by omega] at hfit'
      have hopt := partialCp_opt hest (by omega) hfit ep
      unfold advance at e
      rw [M.bind_ok (w' := s) (a := some (off + p, r - (off + p))) (by rw [es]; rfl)] at e
      simp only at e
      obtain ⟨z, s1, -, e⟩ := M.bind_ok_iff.mp e
      obtain ⟨i, s2, e2, e⟩ := M.bind_ok_iff.mp e
      have hi : i = base + (off + p) := by
        unfold addU at e2
        split at e2
        · injection e2 with e2 _; injection e2 with e2; exact e2.symm
        · cases e2
      subst hi
      rw [pushBack_bind] at e
      have := ih (off + p) z _ _ l s' ((base + off) :: rest) (by omega) hfit' (by simp [hcps]) (by simp; omega)
        (by rcases Nat.eq_zero_or_pos c with rfl | h
            · right; have := hp.2.2.1 rfl; omega
            · left; exact h) e
      rw [List.map_cons, hcps] at this
      rw [hcps]
      simp only [pot, List.length_cons, hN, show N - (rest.length + 1 + 1) = c by omega,
        show base + r - (base + (off + p)) = r - (off + p) by omega,
        show base + (off + p) - (base + off) = p by omega,
        show base + r - (base + off) = r - off by omega] at this ⊢
      rw [show r - off - p = r - (off + p) by omega] at hopt
      omega

theorem toEnd_pot {est : Int → Int → Int} (hest : SoundEst est) {forward : T → M W T} {P : Nat → T → Prop} {n N r : Nat}
    (hn : n + 1 < 2 ^ 64) (hsz : SizeOk n N) (hr : r ≤ n) {cps : List (Nat × T)} (hI : Inv P n N (r + 1) cps)
    {s s' : World W} {l : List (Nat × T)} (e : toEnd est forward N (r + 1) cps s = (.ok l, s')) {base : Nat}
    (hb : cps.head?.map Prod.fst = some base) :
    pot N (r + 1) (cps.map Prod.fst) = (r - base) + pot N (r + 1) (l.map Prod.fst) := by
  obtain ⟨⟨base', x⟩, tl, rfl⟩ : ∃ q tl, cps = q :: tl := by
    cases cps with
    | nil => have := hI.zero (by omega); simp at this
    | cons q tl => exact ⟨q, tl, rfl⟩
  simp only [List.head?_cons, Option.map_some, Option.some.injEq] at hb
  subst hb
  have hb : base' ≤ r := by
    have := hI.lt (base', x) (by simp)
    simp only at this; omega
  have hlen := hI.len
  have hun : toEnd est forward N (r + 1) ((base', x) :: tl) s =
      advance est forward base' (r + 1 - base') (N - (tl.length + 1)) 0 (r + 1 - base' - 0) 0 x ((base', x) :: tl) s := by
    unfold toEnd
    simp only [List.head?_cons, unwrap, lift_ok_bind, subU]
    rw [if_pos (by omega), lift_ok_bind, if_pos (by simpa using hlen.le), lift_ok_bind, if_pos (by omega)]
    rfl
  rw [hun] at e
  simp only [List.length_cons] at hlen
  have hfit : Fits (N - (tl.length + 1)) (r + 1 - base' - 0) := by
    rcases hsz with h | h
    · left
      have := hI.contig h
      rw [List.length_cons, range_reverse_succ, List.map_cons] at this
      injection this with h1 h2
      simp only at h1
      omega
    · right
      calc (r + 1 - base' - 0) * (N - (tl.length + 1) + 1) ≤ (n + 1) * N := Nat.mul_le_mul (by omega) (by omega)
        _ < _ := h
  have := advance_pot hest (N := N) (by omega) _ _ _ _ _ _ _ (tl.map Prod.fst) (by omega) hfit (by simp) (by simp)
    (by omega) e
  rw [show base' + (r + 1 - base') = r + 1 by omega, show r + 1 - base' - 1 - 0 = r - base' by omega] at this
  exact this

section log
variable (f : T → T) (rev : T → R → R) (idn : T → R) (x0 : T)

/-- Calls of `forward` by the main loop after the first element was reversed. -/
theorem mainLoop_count {est : Int → Int → Int} (hest : SoundEst est) {n N : Nat} (hn : n + 1 < 2 ^ 64)
    (hsz : SizeOk n N) : ∀ (r : Nat) (cps : List (Nat × T)) (s : World (List (Call T R))) (y : R), r ≤ n →
      Inv (fun i x => x = f^[i] x0) n N r cps →
      ∃ res extra p, mainLoop est (fun x => logged (.fwd x) (f x)) (fun x y => logged (.rev x y) (rev x y))
          (fun x => logged (.idn x) (idn x)) N r cps (some y) s = (.ok res, ⟨s.w ++ extra, p⟩) ∧
        extra.countP (·.isFwd) = pot N r (cps.map Prod.fst) := by
  intro r
  induction r with
  | zero =>
    intro cps s y _ hI
    have : cps = [] := by
      cases cps with
      | nil => rfl
      | cons q tl => have := hI.lt q (by simp); omega
    subst this
    exact ⟨y, [], s.peak, by simp [mainLoop, unwrap], rfl⟩
  | succ r ih =>
    intro cps s y0 hr hI
    obtain ⟨base, x, tl, hcps, hb, hx, hte⟩ := toEnd_spec hest
      (logged_fwOk f x0 _ (fun _ => True) (fun _ _ h => h)) hn hsz (by omega) hI (s := s) (fun _ _ => trivial)
    rcases hte with ⟨e, s', -, k2, -⟩ | ⟨y, rest, s', k1, -, k3, k4, k5, k6⟩
    · exact k2.elim
    · subst hx
      have hpot := toEnd_pot hest hn hsz (by omega) hI k1 (base := base) (by simp [hcps])
      rw [iterM_logged] at k3
      unfold mainLoop
      rw [M.bind_ok k1]
      simp only [decide_true, assertR, if_true, lift_ok_bind]
      rw [call_logged_bind]
      obtain ⟨res, extra, p, e1, e2⟩ := ih rest ⟨s'.w ++ [.rev y y0], s'.peak⟩ (rev y y0) (by omega) k5
      refine ⟨res, fwdCalls f x0 base (r - base) ++ .rev y y0 :: extra, p, ?_, ?_⟩
      · rw [e1, k3]
        simp
      · rw [List.countP_append, List.countP_cons, fwdCalls_count, hpot, e2]
        simp only [isFwd_rev, Bool.false_eq_true, if_false, Nat.add_zero, List.map_cons, pot]
        rw [show r + 1 - r = 1 by omega, revCost_one]
        omega

theorem reverseSequence_count {est : Int → Int → Int} (hest : SoundEst est) {n N capMax : Nat} (hn : n + 1 < 2 ^ 64)
    (hsz : SizeOk n N) (hN : 2 ≤ N) (hcap : N ≤ capMax) (s : World (List (Call T R))) :
    ∃ res extra p, reverseSequence est capMax x0 n N (fun x => logged (.fwd x) (f x))
        (fun x y => logged (.rev x y) (rev x y)) (fun x => logged (.idn x) (idn x)) s =
        (.ok res, ⟨s.w ++ extra, p⟩) ∧ extra.countP (·.isFwd) = revCost (n + 1) (N - 1) := by
  rw [reverseSequence_unfold est x0 _ _ _ s hN hcap hn]
  have hI := inv_start (fun i x => x = f^[i] x0) (x := x0) (n := n) rfl hN
  obtain ⟨base, x, tl, hcps, -, hx, hte⟩ := toEnd_spec hest
    (logged_fwOk (R := R) f x0 _ (fun _ => True) (fun _ _ h => h)) hn hsz (le_refl n) hI
    (s := { s with peak := max s.peak 1 }) (fun _ _ => trivial)
  injection hcps with hcps _
  injection hcps with h1 h2
  subst h1; subst h2
  rcases hte with ⟨e, s', -, k2, -⟩ | ⟨y, rest, s', k1, -, k3, k4, k5, k6⟩
  · exact k2.elim
  · have h3 := iterM_logged (R := R) f x0 (n - 0) 0 s.w
    rw [Function.iterate_zero, id] at h3
    rw [h3] at k3
    have hpot := toEnd_pot hest hn hsz (le_refl n) hI k1 (base := 0) (by simp)
    unfold mainLoop
    rw [M.bind_ok k1]
    simp only [decide_true, assertR, if_true, lift_ok_bind]
    rw [call_logged_bind]
    obtain ⟨res, extra, p, e1, e2⟩ := mainLoop_count f rev idn x0 hest hn hsz n rest
      ⟨s'.w ++ [.idn y], s'.peak⟩ (idn y) (le_refl n) k5
    refine ⟨res, fwdCalls f x0 0 (n - 0) ++ .idn y :: extra, p, ?_, ?_⟩
    · rw [e1, k3]
      simp
    · rw [List.countP_append, List.countP_cons, fwdCalls_count, e2]
      simp only [isFwd_idn, Bool.false_eq_true, if_false, Nat.add_zero]
      simp only [List.map_cons, List.map_nil, pot, List.length_nil, Nat.sub_zero, Nat.zero_add, Nat.add_zero,
        show n + 1 - n = 1 by omega, revCost_one] at hpot
      omega

end log

/-! ## The bound is attained -/

theorem revCost_exists_split {r c : Nat} (hr : 2 ≤ r) :
    ∃ x, 1 ≤ x ∧ x < r ∧ (c = 0 → r - x = 1) ∧ revCost r (c + 1) = x + revCost x (c + 1) + revCost (r - x) c := by
  rcases Nat.eq_zero_or_pos c with rfl | hc
  · refine ⟨r - 1, by omega, by omega, by omega, ?_⟩
    have := revCost_split_one (x := r - 1) (by omega)
    rw [show r - (r - 1) = 1 by omega]
    rwa [show r - 1 + 1 = r by omega] at this
  obtain ⟨t, ht⟩ := exists_leastT (c := c + 1) (by omega) r
  have ht1 := ht.1
  have hle := ht.2.1
  by_cases ht2 : t = 1
  · subst ht2
    have : Nat.choose (c + 1 + 1) (c + 1) = c + 2 := by rw [Nat.choose_symm_add, Nat.choose_one_right]
    refine ⟨1, by omega, by omega, by omega, ?_⟩
    have := revCost_split_fits (y := r - 1) (c := c) (by omega) (by omega)
    rwa [show 1 + (r - 1) = r by omega] at this
  · obtain ⟨u, rfl⟩ : ∃ u, t = u + 2 := ⟨t - 2, by omega⟩
    have hpred := ht.pred (by omega) (show u + 1 < u + 2 by omega)
    rw [B_pos (by omega) (by omega)] at hpred
    have P1 : Nat.choose (c + 1 + (u + 2)) (c + 1) = _ := ch_pascal c (u + 1)
    have P2 := ch_pascal c u
    have P3 : Nat.choose (c + (u + 1)) c ≤ Nat.choose (c + (u + 1 + 1)) c := choose_mono_t (by omega)
    have P4 := Nat.choose_pos (show c + 1 ≤ c + 1 + u by omega)
    have P5 := Nat.choose_pos (show c ≤ c + (u + 1) by omega)
    refine ⟨max (Nat.choose (c + 1 + u) (c + 1)) (r - Nat.choose (c + (u + 1 + 1)) c), by omega, by omega, by omega, ?_⟩
    have := revCost_split_t (x := max (Nat.choose (c + 1 + u) (c + 1)) (r - Nat.choose (c + (u + 1 + 1)) c))
      (y := r - max (Nat.choose (c + 1 + u) (c + 1)) (r - Nat.choose (c + (u + 1 + 1)) c)) (c := c) (t := u)
      (by omega) (by omega) hc (by omega) (by omega) (by omega) (by rw [show u + 2 = u + 1 + 1 by omega]; omega)
    rwa [show max (Nat.choose (c + 1 + u) (c + 1)) (r - Nat.choose (c + (u + 1 + 1)) c) +
      (r - max (Nat.choose (c + 1 + u) (c + 1)) (r - Nat.choose (c + (u + 1 + 1)) c)) = r by omega] at this

/-- Moving the last state of memory forward. -/
theorem Play.slides {N : Nat} {S : Finset Nat} {i r k : Nat} (hS : ∀ s ∈ S, s < i) : ∀ x,
    Play N (insert (i + x) S) r k → Play N (insert i S) r (k + x) := by
  intro x
  induction x generalizing k with
  | zero => exact id
  | succ x ih =>
    intro h
    have hne : i + x ∉ S := fun hm => by have := hS _ hm; omega
    have := Play.slide (N := N) (S := insert (i + x) S) (i := i + x) (r := r) (k := k) (by simp)
      (by rw [erase_insert hne]; exact h)
    have := ih this
    rwa [show k + 1 + x = k + (x + 1) by omega] at this

theorem Play.attained {N : Nat} : ∀ (r c : Nat) (S : Finset Nat) (b k : Nat), 1 ≤ r → (c = 0 → r = 1) →
    b ∈ S → (∀ s ∈ S, s ≤ b) → S.card + c ≤ N → Play N S b k → Play N S (b + r) (k + revCost r c) := by
  intro r
  induction r using Nat.strongRecOn with
  | _ r ih =>
    intro c S b k hr hc hb hS hN h
    by_cases h1 : r = 1
    · subst h1
      rw [revCost_one]
      exact .reverse hb h
    obtain ⟨c, rfl⟩ : ∃ d, c = d + 1 := ⟨c - 1, by omega⟩
    obtain ⟨x, hx1, hx2, hx3, hx4⟩ := revCost_exists_split (r := r) (c := c) (by omega)
    have hne : b + x ∉ S := fun hm => by have := hS _ hm; omega
    -- the left part, later
    have hl := ih x hx2 (c + 1) S b k hx1 (by omega) hb hS hN h
    have hl' : Play N (insert (b + x) S) (b + x) (k + revCost x (c + 1)) := by
      apply Play.drop (i := b + x)
      rw [erase_insert hne]
      exact hl
    have hr' := ih (r - x) (by omega) c (insert (b + x) S) (b + x) _ (by omega) hx3 (by simp)
      (by intro s hs; rcases mem_insert.mp hs with rfl | hs
          · exact le_refl _
          · have := hS s hs; omega)
      (by rw [card_insert_of_notMem hne]; omega) hl'
    rw [show b + x + (r - x) = b + r by omega] at hr'
    have hne' : b + 1 ∉ S := fun hm => by have := hS _ hm; omega
    have hs := Play.slides (i := b + 1) (S := S) (fun s hs => by have := hS s hs; omega) (x - 1)
      (by rw [show b + 1 + (x - 1) = b + x by omega]; exact hr')
    have := Play.step (i := b) hb (by rw [card_insert_of_notMem hne']; omega) hs
    rwa [show k + revCost x (c + 1) + revCost (r - x) c + (x - 1) + 1 = k + revCost r (c + 1) by omega] at this

end Adv.Ckpt
