import Verif.Proof.AbsSystem
import Verif.Proof.GenJacPiece
import Verif.Spec.Real
import Batteries.Data.Nat.Lemmas

/-! # The piecewise linear model of a tape as a system of absolute values -/

namespace Adv
open Finset

theorem DMat.linear_apply (G : DMat ℝ) {n m : ℕ} (v : Fin n → ℝ) (i : Fin m) :
    G.linear n m v i = ∑ j : Fin n, G.get i j * v j := by
  simp [DMat.linear]

theorem getD_ofFn {n : ℕ} (v : Fin n → ℝ) {j : ℕ} (hj : j < n) : (List.ofFn v).getD j 0 = v ⟨j, hj⟩ := by
  simp [List.getD_eq_getElem?_getD, hj]

theorem sum_range_ofFn {n : ℕ} (f : ℕ → ℝ) (v : Fin n → ℝ) :
    ∑ j ∈ range n, f j * (List.ofFn v).getD j 0 = ∑ j : Fin n, f j * v j := by
  rw [Finset.sum_range]
  exact Finset.sum_congr rfl fun j _ => by rw [getD_ofFn v j.isLt]

/-- The switching values along a direction. -/
noncomputable def zAt (t : Tape ℝ) (i : ℕ) (v : Fin t.numIndeps → ℝ) : ℝ := zHat t (List.ofFn v) i

/-- The model as a function. -/
noncomputable def absSystem {t : Tape ℝ} (h : t.WF) {D : (Fin t.numIndeps → ℝ) → Fin t.numDeps → ℝ}
    (hD : ∀ d, t.firstOrderForward (List.ofFn d) = .ok (List.ofFn (D d))) : AbsSystem t.numAbs (zAt t) D where
  c i := zVal t i - ∑ k ∈ range t.numAbs, tmat (anfL (anfOf t)) i k * |zVal t k|
  A i := ∑ j : Fin t.numIndeps, tmat (anfZ (anfOf t)) i j • ContinuousLinearMap.proj j
  l i k := tmat (anfL (anfOf t)) i k
  b i := -(∑ k ∈ range t.numAbs, tmat (anfY (anfOf t)) i k * |zVal t k|)
  J := ContinuousLinearMap.pi fun i => ∑ j : Fin t.numIndeps, tmat (anfJ (anfOf t)) i j • ContinuousLinearMap.proj j
  y k i := tmat (anfY (anfOf t)) i k
  hZ i hi v := by
    rw [zAt, zHat_eq h (by rw [List.length_ofFn]; rfl) i hi, cVec, sum_range_ofFn]
    have e : ∑ k ∈ range t.numAbs, tmat (anfL (anfOf t)) i k * |zHat t (List.ofFn v) k| =
        ∑ k ∈ range i, tmat (anfL (anfOf t)) i k * |zAt t k v| := by
      symm
      apply Finset.sum_subset
      · intro k hk; simp only [mem_range] at hk ⊢; omega
      · intro k hk hk'
        simp only [mem_range] at hk hk'
        rw [tmat_L_tri h i hi k hk (by omega), zero_mul]
    rw [e]
    simp
  hD v := by
    have h1 := hD v
    rw [forward_dy h (by simp)] at h1
    injection h1 with h1
    funext i
    have h2 := congrArg (fun l => l.getD i.val 0) h1
    simp only [getD_map_range _ i.isLt, getD_ofFn (D v) i.isLt, sum_range_ofFn] at h2
    simp only [Pi.add_apply, Finset.sum_apply, Pi.smul_apply, smul_eq_mul, ContinuousLinearMap.coe_pi',
      _root_.sum_apply, _root_.smul_apply, ContinuousLinearMap.proj_apply]
    rw [← h2]
    congr 1
    exact Finset.sum_congr rfl fun k _ => by rw [mul_comm]; rfl

/-! ## Sign bits -/

/-- Bytes with given bits. -/
theorem exists_bytes (p : ℕ → Bool) (N : ℕ) : ∃ bytes : List UInt8, ∀ q < N, bitAt bytes q = p q := by
  refine ⟨(List.range N).map fun k => UInt8.ofNat (Nat.ofBits fun j : Fin 8 => p (8 * k + j)), fun q hq => ?_⟩
  have hq8 : q / 8 < N := by omega
  unfold bitAt
  rw [List.getD_eq_getElem?_getD, List.getElem?_map, List.getElem?_range hq8]
  simp only [Option.map_some, Option.getD_some, UInt8.toNat_ofNat']
  rw [Nat.mod_eq_of_lt (Nat.ofBits_lt_two_pow _), Nat.testBit_ofBits_lt _ _ (by omega)]
  congr 1
  simp only
  omega

/-- Every signature that fits the values that do not vanish is selected by some sign bits. -/
theorem exists_bits (zhat : List ℝ) (s : ℕ) (p : Fin s → Bool) (h : ∀ i < s, 0 ≤ pattern p i * zhat.getD i 0) :
    ∃ bytes, ∀ i < s, signature bytes zhat i = pattern p i := by
  classical
  obtain ⟨bytes, hb⟩ := exists_bytes (fun q => decide (∃ i : Fin s, zhat.getD i 0 = 0 ∧ zerosBefore zhat i = q ∧ p i))
    (zerosBefore zhat s + 1)
  refine ⟨bytes, fun i hi => ?_⟩
  have h0 := h i hi
  unfold signature
  unfold pattern at h0 ⊢
  rw [dif_pos hi] at h0 ⊢
  split_ifs with h1 h2 h3 h4 h5 h6 h7 <;> try rfl
  · rw [if_pos h2] at h0; linarith
  · rw [if_neg h4] at h0; linarith
  all_goals
    have hz : zhat.getD i 0 = 0 := le_antisymm (not_lt.mp h3) (not_lt.mp h1)
    have hmono : ∀ a b : ℕ, a ≤ b → zerosBefore zhat a ≤ zerosBefore zhat b := by
      intro a b hab
      exact Finset.card_le_card (Finset.filter_subset_filter _ (Finset.range_mono hab))
    have hinj : ∀ a b : ℕ, zhat.getD a 0 = 0 → a < b → zerosBefore zhat a < zerosBefore zhat b := by
      intro a b ha hab
      apply Finset.card_lt_card
      refine ⟨Finset.filter_subset_filter _ (Finset.range_mono hab.le), fun hs => ?_⟩
      have := hs (Finset.mem_filter.mpr ⟨Finset.mem_range.mpr hab, ha⟩)
      simp at this
    have hbi := hb (zerosBefore zhat i) (by have := hmono i s hi.le; omega)
  · rw [h5, eq_comm, decide_eq_true_eq] at hbi
    obtain ⟨j, hj1, hj2, hj3⟩ := hbi
    have : j.val = i := by
      rcases Nat.lt_trichotomy j.val i with hlt | heq | hgt
      · have := hinj _ _ hj1 hlt; omega
      · exact heq
      · have := hinj _ _ hz hgt; omega
    have : j = ⟨i, hi⟩ := Fin.ext this
    subst this
    exact absurd hj3 h6
  · rw [Bool.not_eq_true] at h5
    rw [h5, eq_comm, decide_eq_false_iff_not] at hbi
    exact absurd ⟨⟨i, hi⟩, hz, rfl, h7⟩ hbi

end Adv
