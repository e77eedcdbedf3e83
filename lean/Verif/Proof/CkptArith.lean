import Verif.Model.Checkpointing
import Verif.Spec.Checkpointing
import Verif.Proof.Fn
import Mathlib.Analysis.SpecialFunctions.Stirling
import Mathlib.Data.Nat.Choose.Bounds
import Mathlib.Tactic.Linarith
import Mathlib.Tactic.Positivity
import Mathlib.Tactic.FieldSimp

/-! # Integer arithmetic of the checkpointing code -/

namespace Adv.Ckpt
open Adv

theorem toISize_of_lt {x : Nat} (h : x < 2 ^ 63) : toISize x = x := by unfold toISize; rw [if_pos h]

theorem toUSize_of_nat {x : Nat} (h : x < 2 ^ 64) : toUSize (x : Int) = x := by
  unfold toUSize
  rw [Int.emod_eq_of_lt (by omega) (by omega)]
  omega

/-- `beta` on natural numbers, before the overflow check. -/
def B (c t : Nat) : Nat := if c = 0 ∨ t = 0 then 0 else Nat.choose (c + t) c

theorem beta_nat {c t : Int} (h : B c.toNat t.toNat < 2 ^ 64) : beta c t = .ok (B c.toNat t.toNat) := by
  unfold beta
  unfold B at h ⊢
  by_cases h0 : c ≤ 0 ∨ t ≤ 0
  · rw [if_pos h0, if_pos (by omega)]
  · have h1 : ¬ (c.toNat = 0 ∨ t.toNat = 0) := by omega
    rw [if_neg h1] at h
    rw [if_neg h0, if_neg h1]
    simp only
    rw [if_pos h]

theorem choose_mono_t {c t t' : Nat} (h : t ≤ t') : Nat.choose (c + t) c ≤ Nat.choose (c + t') c :=
  Nat.choose_le_choose c (by omega)

theorem choose_mono_c {c c' t : Nat} (h : c ≤ c') : Nat.choose (c + t) c ≤ Nat.choose (c' + t) c' := by
  rw [Nat.choose_symm_add, Nat.choose_symm_add (a := c')]
  exact Nat.choose_le_choose t (by omega)

theorem B_mono {c c' t t' : Nat} (hc : c ≤ c') (ht : t ≤ t') : B c t ≤ B c' t' := by
  unfold B
  by_cases h0 : c = 0 ∨ t = 0
  · rw [if_pos h0]; omega
  · rw [if_neg h0, if_neg (by omega)]
    exact (choose_mono_t ht).trans (choose_mono_c hc)

theorem lt_choose {c t : Nat} (hc : 1 ≤ c) : t < Nat.choose (c + t) c := by
  calc t < Nat.choose (1 + t) 1 := by rw [Nat.choose_one_right]; omega
    _ ≤ _ := choose_mono_c hc

theorem exists_leastT {c : Nat} (hc : 1 ≤ c) (r : Nat) : ∃ t, IsLeastT c r t := by
  classical
  have hex : ∃ t, 1 ≤ t ∧ r ≤ Nat.choose (c + t) c := ⟨r + 1, by omega, by have := lt_choose (t := r + 1) hc; omega⟩
  refine ⟨Nat.find hex, (Nat.find_spec hex).1, (Nat.find_spec hex).2, ?_⟩
  intro t' h1 h2
  exact Nat.find_min' hex ⟨h1, h2⟩

theorem IsLeastT.unique {c r t t' : Nat} (h : IsLeastT c r t) (h' : IsLeastT c r t') : t = t' :=
  le_antisymm (h.2.2 t' h'.1 h'.2.1) (h'.2.2 t h.1 h.2.1)

theorem IsLeastT.pred {c r t t' : Nat} (h : IsLeastT c r t) (hr : 1 ≤ r) (ht : t' < t) : B c t' < r := by
  unfold B
  by_cases h0 : c = 0 ∨ t' = 0
  · rw [if_pos h0]; omega
  · rw [if_neg h0]
    by_contra hc
    have := h.2.2 t' (by omega) (by omega)
    omega

/-- The binomial at the least `t` is at most about `c + 1` times too large. -/
theorem IsLeastT.bound {c r t : Nat} (h : IsLeastT c r t) (hr : 1 ≤ r) (hc : 1 ≤ c) :
    Nat.choose (c + t) c ≤ r * (c + 1) := by
  obtain ⟨u, rfl⟩ : ∃ u, t = u + 1 := ⟨t - 1, by have := h.1; omega⟩
  rcases Nat.eq_zero_or_pos u with rfl | hu
  · simp only [Nat.zero_add]
    have : Nat.choose (c + 1) c = c + 1 := by rw [Nat.choose_symm_add, Nat.choose_one_right]
    rw [this]; nlinarith
  · have hp := h.pred hr (show u < u + 1 by omega)
    unfold B at hp
    rw [if_neg (by omega)] at hp
    have hs := Nat.add_one_mul_choose_eq (c + u) u
    rw [Nat.choose_symm_add] at hp
    rw [Nat.choose_symm_add, show c + (u + 1) = (c + u).succ by omega]
    have : (c + u + 1) ≤ (c + 1) * (u + 1) := by nlinarith
    have h3 : (c + u).succ.choose (u + 1) * (u + 1) ≤ r * (c + 1) * (u + 1) := by
      rw [← hs]
      calc (c + u).succ * (c + u).choose u ≤ ((c + 1) * (u + 1)) * r :=
            Nat.mul_le_mul this hp.le
        _ = _ := by ring
    exact Nat.le_of_mul_le_mul_right h3 (by omega)

theorem findTLoop_ok {c r t : Nat} (hc : 1 ≤ c) (hr : 1 ≤ r) (h : IsLeastT c r t)
    (hb : Nat.choose (c + t) c < 2 ^ 63) : ∀ (k : Nat) (t0 : Int), t0 ≤ t → (t : Int) - t0 ≤ k →
      findTLoop c r k t0 = .ok t := by
  have stop : ∀ k, findTLoop c r k (t : Int) = .ok (t : Int) := by
    intro k
    have hB : B c t = Nat.choose (c + t) c := by unfold B; rw [if_neg (by have := h.1; omega)]
    have e : beta (c : Int) (t : Int) = .ok (Nat.choose (c + t) c) := by
      rw [beta_nat] <;> simp only [Int.toNat_natCast, hB]
      omega
    have hn : ¬ ((r : Int) > toISize (Nat.choose (c + t) c)) := by
      rw [toISize_of_lt hb]; have := h.2.1; omega
    cases k <;> · unfold findTLoop; rw [e, bind_ok_eq, if_neg hn]
  intro k
  induction k with
  | zero =>
    intro t0 h1 h2
    obtain rfl : t0 = t := by omega
    exact stop 0
  | succ k ih =>
    intro t0 h1 h2
    by_cases heq : t0 = t
    · rw [heq]; exact stop _
    · have hlt : t0.toNat < t := by have := h.1; omega
      have hp := h.pred hr hlt
      have hle := h.2.1
      have e : beta (c : Int) t0 = .ok (B c t0.toNat) := by
        rw [beta_nat] <;> simp only [Int.toNat_natCast]
        omega
      unfold findTLoop
      rw [e, bind_ok_eq, if_pos]
      · exact ih (t0 + 1) (by omega) (by push_cast at h2; omega)
      · rw [toISize_of_lt (by omega)]; omega

theorem findT_ok {est : Int → Int → Int} (hest : SoundEst est) {c r t : Nat} (hc : 2 ≤ c) (hr : 1 ≤ r)
    (hc' : c < 2 ^ 63) (h : IsLeastT c r t) (hb : Nat.choose (c + t) c < 2 ^ 63) :
    findT est c r = .ok t := by
  have hr' : r < 2 ^ 63 := lt_of_le_of_lt h.2.1 hb
  have ht : t < 2 ^ 63 := lt_trans (lt_choose (by omega)) hb
  unfold findT
  simp only [toISize_of_lt hc', toISize_of_lt hr']
  rw [if_neg (by omega)]
  have hE := hest c r hc hc' hr hr' t h.1 h.2.1
  have h1 : satISize (est c r) ≤ t := by unfold satISize; omega
  have hB : B c t = Nat.choose (c + t) c := by unfold B; rw [if_neg (by have := h.1; omega)]
  have e : beta (c : Int) (t : Int) = .ok (Nat.choose (c + t) c) := by
    rw [beta_nat] <;> simp only [Int.toNat_natCast, hB]
    omega
  have hp := h.pred hr (show t - 1 < t by have := h.1; omega)
  have e1 : beta (c : Int) ((t : Int) - 1) = .ok (B c (t - 1)) := by
    have : ((t : Int) - 1).toNat = t - 1 := by omega
    rw [beta_nat] <;> simp only [Int.toNat_natCast, this]
    omega
  rw [findTLoop_ok (by omega) hr h hb _ _ h1 (by unfold satISize; omega), bind_ok_eq]
  unfold subI
  rw [if_pos (by omega), bind_ok_eq, e1, bind_ok_eq, toISize_of_lt (by omega)]
  unfold assertR
  rw [if_pos (by simp; omega), bind_ok_eq, e, bind_ok_eq, toISize_of_lt hb,
    if_pos (by have := h.2.1; simp; omega), bind_ok_eq, toUSize_of_nat (by omega)]
  rfl

theorem findT_one (est : Int → Int → Int) {r : Nat} (hr : r < 2 ^ 63) : findT est 1 r = .ok (r - 1) := by
  unfold findT
  simp only [toISize_of_lt hr, toISize_of_lt (show 1 < 2 ^ 63 by omega)]
  rw [if_pos (by rfl)]
  by_cases h : r = 0
  · subst h; rfl
  · rw [if_pos (by omega), show ((r : Int) - 1) = ((r - 1 : Nat) : Int) by omega, toUSize_of_nat (by omega)]

theorem nextCheckpoint_ok {est : Int → Int → Int} (hest : SoundEst est) {c r : Nat} (hc : 2 ≤ c) (hr : 1 ≤ r)
    (hb : r * (c + 1) < 2 ^ 63) : ∃ p, nextCheckpoint est c r = .ok p := by
  obtain ⟨t, h⟩ := exists_leastT (c := c) (by omega) r
  have hbd := h.bound hr (by omega)
  have hc' : c < 2 ^ 63 := by nlinarith
  have ht : t < 2 ^ 63 := lt_of_lt_of_le (lt_choose (by omega)) (hbd.trans hb.le)
  have h1 := h.1
  have hB : B c t = Nat.choose (c + t) c := by unfold B; rw [if_neg (by omega)]
  unfold nextCheckpoint
  rw [findT_ok hest hc hr hc' h (by omega), bind_ok_eq]
  simp only [toISize_of_lt hc', toISize_of_lt ht]
  have sub : ∀ (a b : Nat) , b ≤ 3 → subI (a : Int) b = .ok ((a : Int) - b) := by
    intro a b hb; unfold subI; rw [if_pos (by omega)]
  have be : ∀ (i j : Nat), i ≤ 3 → j ≤ 3 →
      beta ((c : Int) - i) ((t : Int) - j) = .ok (B (c - i) (t - j)) := by
    intro i j hi hj
    have e1 : ((c : Int) - i).toNat = c - i := by omega
    have e2 : ((t : Int) - j).toNat = t - j := by omega
    have := B_mono (show c - i ≤ c by omega) (show t - j ≤ t by omega)
    rw [beta_nat] <;> simp only [e1, e2]
    omega
  have b00 := be 0 0 (by omega) (by omega)
  have b01 := be 0 1 (by omega) (by omega)
  have b02 := be 0 2 (by omega) (by omega)
  have b21 := be 2 1 (by omega) (by omega)
  have b11 := be 1 1 (by omega) (by omega)
  have b30 := be 3 0 (by omega) (by omega)
  simp only [Nat.cast_zero, Nat.cast_one, Nat.cast_ofNat, sub_zero, Nat.sub_zero] at b00 b01 b02 b21 b11 b30
  have s1 := sub t 1 (by omega)
  have s2 := sub t 2 (by omega)
  have s3 := sub c 1 (by omega)
  have s4 := sub c 2 (by omega)
  have s5 := sub c 3 (by omega)
  simp only [Nat.cast_one, Nat.cast_ofNat] at s1 s2 s3 s4 s5
  have p1 := h.pred hr (show t - 1 < t by omega)
  have p2 := B_mono (show c - 2 ≤ c by omega) (le_refl (t - 1))
  have p3 := B_mono (show c - 3 ≤ c by omega) (le_refl t)
  have p4 := B_mono (show c - 1 ≤ c by omega) (le_refl (t - 1))
  rw [if_neg (by omega)]
  simp only [s1, s2, s3, s4, s5, b00, b01, b02, b21, b11, b30, bind_ok_eq, addU, subU]
  rw [if_pos (show B c (t - 1) + B (c - 2) (t - 1) < 2 ^ 64 by nlinarith), bind_ok_eq]
  split
  · exact ⟨_, rfl⟩
  · rename_i hn
    rw [bind_ok_eq]
    split
    · exact ⟨_, rfl⟩
    · rw [if_pos (by omega), bind_ok_eq, if_pos (by omega)]
      exact ⟨_, rfl⟩

theorem partialCp_range {est : Int → Int → Int} {c r p : Nat} (hr : 1 < r) (e : partialCp est c r = .ok p) :
    1 ≤ p ∧ p ≤ r - 1 ∧ (c = 1 → p = r - 1) ∧ (r - 1 ≤ c → p = 1) := by
  unfold partialCp at e
  split at e
  · injection e with e; subst e; omega
  · split at e
    · injection e with e; subst e; omega
    · split at e
      · rcases hn : nextCheckpoint est c r with _ | n
        · rw [hn] at e; cases e
        · rw [hn, bind_ok_eq] at e
          injection e with e
          subst e
          omega
      · injection e with e; subst e; omega

theorem partialCp_ok {est : Int → Int → Int} (hest : SoundEst est) {c r : Nat} (hc : 1 ≤ c)
    (hb : r - 1 ≤ c ∨ r * (c + 1) < 2 ^ 63) : ∃ p, partialCp est c r = .ok p := by
  unfold partialCp
  split
  · exact ⟨_, rfl⟩
  · split
    · exact ⟨_, rfl⟩
    · split
      · obtain ⟨p, hp⟩ := nextCheckpoint_ok hest (c := c) (r := r) (by omega) (by omega)
          (by rcases hb with hb | hb <;> omega)
        rw [hp]
        exact ⟨_, rfl⟩
      · exact ⟨_, rfl⟩

end Adv.Ckpt
