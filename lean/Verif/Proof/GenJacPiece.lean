import Verif.Proof.GenJac
import Mathlib.Tactic.LinearCombination
import Mathlib.Tactic.Linarith
import Mathlib.Tactic.Positivity
import Mathlib.Tactic.FieldSimp
import Mathlib.Algebra.Order.BigOperators.Ring.Finset
import Mathlib.Algebra.Order.BigOperators.Group.Finset

/-! # Generalized Jacobian: composition, affine pieces, neighbourhoods -/

set_option linter.unusedSectionVars false
set_option linter.unusedSimpArgs false

namespace Adv
open scoped Adv
open Finset

variable {K : Type} [Field K] [LinearOrder K] [IsStrictOrderedRing K] [Flt K] [LawfulFlt K]

theorem gj_none (σ : Sched) (t : Tape K) (dx : List K) (bits : List UInt8) :
    generalizedJacobianTape σ t dx bits none =
      generalizedJacobianTape σ t dx bits (some ⟨DMat.identity t.numDeps, List.replicate t.numDeps Flt.zero, 0⟩) := by
  unfold generalizedJacobianTape
  simp only [Nat.add_zero]

theorem sum_identity {m i : Nat} (hi : i < m) (f : Nat → K) :
    ∑ k ∈ range m, (DMat.identity m : DMat K).get i k * f k = f i := by
  rw [Finset.sum_eq_single i]
  · rw [identity_get hi hi]; simp
  · intro k hk hne
    rw [identity_get hi (Finset.mem_range.mp hk), if_neg (Ne.symm hne), zero_mul]
  · intro hn; exact absurd (Finset.mem_range.mpr hi) hn

theorem replicate_getD (m i : Nat) : (List.replicate m (Flt.zero : K)).getD i 0 = 0 := by
  rw [List.getD_eq_getElem?_getD, List.getElem?_replicate]
  split <;> simp [LawfulFlt.zero_eq]

theorem gj_none_core {σ : Sched} (hσ : σ.Valid) {t : Tape K} (h : t.WF) {dx : List K} (hx : dx.length = t.numIndeps)
    (bits : List UInt8) :
    ∃ U, IsU t t.numDeps (DMat.identity t.numDeps : DMat K).get (signature bits (zHatV t dx)) U ∧
      generalizedJacobianTape σ t dx bits none =
        .ok ⟨homOf t t.numDeps (DMat.identity t.numDeps : DMat K).get U,
          inhOf t t.numDeps (DMat.identity t.numDeps : DMat K).get (fun _ => 0) U,
          zerosBefore (zHatV t dx) t.numAbs⟩ := by
  rw [gj_none]
  obtain ⟨U, h1, h2⟩ := gj_core hσ h hx bits (G2 := DMat.identity t.numDeps) rfl
    (γ2 := List.replicate t.numDeps Flt.zero) (by simp [DMat.identity]) 0
  refine ⟨U, h1, ?_⟩
  rw [h2]
  simp only [replicate_getD]
  rfl

/-- `U` of a composition. -/
theorem isU_comp {t : Tape K} (h : t.WF) {r : Nat} {g2 : Nat → Nat → K} {sg : Nat → K} {U U' : Nat → Nat → K}
    (hU : IsU t t.numDeps (DMat.identity t.numDeps : DMat K).get sg U) (hU' : IsU t r g2 sg U') :
    ∀ i < r, ∀ j < t.numAbs, U' i j = ∑ k ∈ range t.numDeps, g2 i k * U k j := by
  intro i hi
  refine u_unique (rmat_L_tri h) (sg := sg) (hU' i hi) ?_
  intro j hj
  have e : ∀ k ∈ range t.numDeps, g2 i k * U k j = g2 i k * (∑ l ∈ range t.numAbs, U k l * rmat (anfL (anfOf t)) l j) *
      sg j + g2 i k * rmat (anfY (anfOf t)) k j * sg j := by
    intro k hk
    rw [Finset.mem_range] at hk
    rw [hU k hk j hj, sum_identity hk]
    ring
  rw [Finset.sum_congr rfl e, Finset.sum_add_distrib, ← Finset.sum_mul, ← Finset.sum_mul]
  congr 2
  simp only [Finset.mul_sum, Finset.sum_mul]
  rw [Finset.sum_comm]
  apply Finset.sum_congr rfl
  intro l _
  apply Finset.sum_congr rfl
  intro k _
  ring

theorem gj_comp {σ σ' : Sched} (hσ : σ.Valid) (hσ' : σ'.Valid) {t : Tape K} (h : t.WF) {dx : List K}
    (hx : dx.length = t.numIndeps) (bits : List UInt8) {next : GenJac K}
    (hG : next.homogenous.ncols = t.numDeps) (hγ : next.inhomogenous.length = next.homogenous.nrows) :
    ∃ R R', generalizedJacobianTape σ t dx bits none = .ok R ∧
      generalizedJacobianTape σ' t dx bits (some next) = .ok R' ∧
      IsMul R'.homogenous next.homogenous R.homogenous ∧
      R'.inhomogenous = (List.range next.homogenous.nrows).map (fun i =>
        next.inhomogenous.getD i 0 + mv next.homogenous R.inhomogenous i) ∧
      R'.multiplicity = R.multiplicity + next.multiplicity ∧
      R.homogenous.nrows = t.numDeps ∧ R.homogenous.ncols = t.numIndeps ∧ R.inhomogenous.length = t.numDeps := by
  obtain ⟨U, hU, e1⟩ := gj_none_core hσ h hx bits
  obtain ⟨U', hU', e2⟩ := gj_core hσ' h hx bits hG hγ next.multiplicity
  have hc := isU_comp h hU hU'
  refine ⟨_, _, e1, e2, ⟨hG, rfl, rfl, ?_⟩, ?_, rfl, rfl, rfl, by simp [inhOf]⟩
  · intro i hi j hj
    change j < t.numIndeps at hj
    simp only [homOf]
    rw [DMat.ofFn_get hi hj, hG]
    have e : ∀ k ∈ range t.numDeps, next.homogenous.get i k * (DMat.ofFn t.numDeps t.numIndeps fun i j =>
        ∑ k ∈ range t.numDeps, (DMat.identity t.numDeps : DMat K).get i k * rmat (anfJ (anfOf t)) k j +
        ∑ k ∈ range t.numAbs, U i k * rmat (anfZ (anfOf t)) k j).get k j =
        next.homogenous.get i k * rmat (anfJ (anfOf t)) k j +
        ∑ l ∈ range t.numAbs, next.homogenous.get i k * U k l * rmat (anfZ (anfOf t)) l j := by
      intro k hk
      rw [Finset.mem_range] at hk
      rw [DMat.ofFn_get hk hj, sum_identity hk, mul_add, Finset.mul_sum]
      congr 1
      apply Finset.sum_congr rfl
      intro l _
      ring
    rw [Finset.sum_congr rfl e, Finset.sum_add_distrib]
    congr 1
    rw [Finset.sum_comm]
    apply Finset.sum_congr rfl
    intro l hl
    rw [hc i hi l (Finset.mem_range.mp hl), Finset.sum_mul]
  · simp only [inhOf]
    apply List.map_congr_left
    intro i hi
    rw [List.mem_range] at hi
    rw [add_assoc]
    congr 1
    unfold mv
    rw [hG]
    have e : ∀ k ∈ range t.numDeps, next.homogenous.get i k * ((List.range t.numDeps).map fun i =>
        0 + ∑ k ∈ range t.numDeps, (DMat.identity t.numDeps : DMat K).get i k * (anfForm t).b.getD k 0 +
        ∑ k ∈ range t.numAbs, U i k * (anfForm t).a.getD k 0).getD k 0 =
        next.homogenous.get i k * (anfForm t).b.getD k 0 +
        ∑ l ∈ range t.numAbs, next.homogenous.get i k * U k l * (anfForm t).a.getD l 0 := by
      intro k hk
      rw [Finset.mem_range] at hk
      rw [getD_map_range _ hk, sum_identity hk, zero_add, mul_add, Finset.mul_sum]
      congr 1
      apply Finset.sum_congr rfl
      intro l _
      ring
    rw [Finset.sum_congr rfl e, Finset.sum_add_distrib]
    congr 1
    rw [Finset.sum_comm]
    apply Finset.sum_congr rfl
    intro l hl
    rw [hc i hi l (Finset.mem_range.mp hl), Finset.sum_mul]

/-- A `next` with the wrong number of columns panics. -/
theorem gj_bad_next {σ : Sched} (hσ : σ.Valid) {t : Tape K} (h : t.WF) {dx : List K} (hx : dx.length = t.numIndeps)
    (bits : List UInt8) {next : GenJac K} (hG : next.homogenous.ncols ≠ t.numDeps) :
    generalizedJacobianTape σ t dx bits (some next) = .error .assertFailed := by
  have hz : (anfOf t).z = .ok ((List.range t.numAbs).map (zVal t)) := by rw [z_eq h, zVec_eq]
  have e1 : assertR (decide (dx.length = t.numIndeps)) = .ok () := by simp [assertR, hx]
  have eL := mulRight_vec (hσ.at_ 0) (anfL_wf h) (anfL_absFree t) (v := (List.range t.numAbs).map fun i => |zVal t i|)
    (by simp)
  have eY := mulRight_vec (hσ.at_ 1) (anfY_wf h) (anfY_absFree t) (v := (List.range t.numAbs).map fun i => |zVal t i|)
    (by simp)
  have eZ := mulRight_vec (hσ.at_ 2) (anfZ_wf h) (anfZ_absFree t) (v := dx) (by simpa using hx)
  rw [L_numDeps, L_numIndeps] at eL
  rw [Z_numDeps] at eZ
  have ec : ((List.range t.numAbs).map fun i => zVal t i - ∑ k ∈ range t.numAbs, tmat (anfL (anfOf t)) i k *
      ((List.range t.numAbs).map fun i => |zVal t i|).getD k 0 +
      ∑ k ∈ range (anfZ (anfOf t)).numIndeps, tmat (anfZ (anfOf t)) i k * dx.getD k 0) =
      (List.range t.numAbs).map (cVec t dx) := by
    apply List.map_congr_left
    intro i _
    unfold cVec
    rw [Z_numIndeps]
    congr 2
    apply Finset.sum_congr rfl
    intro k hk
    rw [getD_map_range _ (Finset.mem_range.mp hk)]
  have edz := dzLoop_eq (hσ.at_ 3) h hx t.numAbs (cVec t dx) (by intro i hi; omega)
  have hsl : sigmaLoop bits t.numAbs (zHatV t dx) = .ok ((List.range t.numAbs).map (signature bits (zHatV t dx)),
      zerosBefore (zHatV t dx) t.numAbs) := sigmaLoop_eq bits (zHat t dx) t.numAbs
  have eYl : Anf.mulLeft (σ.at_ 4) (anfY (anfOf t)) next.homogenous = .error .assertFailed :=
    Anf.mulLeft_err (by rwa [Y_numDeps])
  unfold generalizedJacobianTape
  simp only [e1, bind_ok_eq, AbsNormalTape.new_eq h, hz, vabs_range, eL, toVec_ofFn, vsub_range, eY, vneg_range,
    eZ, vadd_range, ec, edz, hsl, eYl]
  rfl

/-! ## Affine pieces -/

/-- An affine piece agrees with the piecewise linear function wherever its signature fits. -/
theorem piece_increment {F : AbsNormalForm K} {n m s : Nat} (hs : F.Shape n m s) {sg : Nat → K} {G : DMat K}
    {γ dx zhat : List K} (hp : IsPiece F sg G γ) (hz : SwitchEq F dx zhat)
    (hsg : ∀ i < s, sg i * zhat.getD i 0 = |zhat.getD i 0|) : affine G γ dx = F.increment dx zhat := by
  obtain ⟨U, h1, h2, h3, h4, -, h6⟩ := hp
  unfold affine AbsNormalForm.increment
  rw [h2]
  apply List.map_congr_left
  intro i hi
  rw [List.mem_range] at hi
  have ea := hs.a
  rw [h6 i hi]
  have eZ : ∀ k < s, mv F.zmat dx k = ∑ j ∈ range n, F.zmat.get k j * dx.getD j 0 := by
    intro k _; unfold mv; rw [hs.zmat.2]
  have eG : mv G dx i = mv F.jmat dx i + ∑ k ∈ range s, U i k * mv F.zmat dx k := by
    unfold mv
    rw [h3, hs.jmat.2, hs.zmat.2]
    simp only [Finset.mul_sum]
    rw [Finset.sum_comm, ← Finset.sum_add_distrib]
    apply Finset.sum_congr rfl
    intro j hj
    rw [h4 i hi j (by rw [hs.jmat.2]; exact Finset.mem_range.mp hj), add_mul, Finset.sum_mul, ea]
    congr 1
    apply Finset.sum_congr rfl
    intro k _
    ring
  have eUz : ∑ k ∈ range s, U i k * zhat.getD k 0 = ∑ k ∈ range s, U i k * mv F.lmat (absV zhat) k +
      mv F.ymat (absV zhat) i := by
    have e : ∀ k ∈ range s, U i k * zhat.getD k 0 =
        (∑ l ∈ range s, U i l * F.lmat.get l k) * |zhat.getD k 0| + F.ymat.get i k * |zhat.getD k 0| := by
      intro k hk
      rw [Finset.mem_range] at hk
      rw [h1 i hi k (by rw [ea]; exact hk), mul_assoc, hsg k hk, ea]
      ring
    rw [Finset.sum_congr rfl e, Finset.sum_add_distrib]
    unfold mv
    rw [hs.lmat.2, hs.ymat.2]
    simp only [Finset.mul_sum, Finset.sum_mul, absV_getD]
    rw [Finset.sum_comm]
    congr 1
    apply Finset.sum_congr rfl
    intro l _
    apply Finset.sum_congr rfl
    intro k _
    ring
  have eUa : ∑ k ∈ range s, U i k * zhat.getD k 0 = ∑ k ∈ range s, U i k * F.a.getD k 0 +
      ∑ k ∈ range s, U i k * mv F.zmat dx k + ∑ k ∈ range s, U i k * mv F.lmat (absV zhat) k := by
    rw [← Finset.sum_add_distrib, ← Finset.sum_add_distrib]
    apply Finset.sum_congr rfl
    intro k hk
    rw [Finset.mem_range] at hk
    rw [hz.eq k (by rw [ea]; exact hk)]
    ring
  rw [eG, ea]
  linear_combination eUz - eUa

theorem signature_mul_self (bits : List UInt8) (zhat : List K) (i : Nat) :
    signature bits zhat i * signature bits zhat i = 1 := by
  unfold signature; split
  · ring
  · split
    · ring
    · split <;> ring

theorem signature_fits (bits : List UInt8) (zhat : List K) (i : Nat) :
    signature bits zhat i * zhat.getD i 0 = |zhat.getD i 0| := by
  unfold signature
  split
  · rename_i h; rw [abs_of_neg h]; ring
  · rename_i h
    split
    · rename_i h'; rw [abs_of_pos h']; ring
    · rename_i h'
      have : zhat.getD i 0 = 0 := le_antisymm (not_lt.mp h') (not_lt.mp h)
      rw [this]; simp

theorem sign_fits {sg z : K} (h1 : sg * sg = 1) (h2 : 0 ≤ sg * z) : sg * z = |z| := by
  have h : sg = 1 ∨ sg = -1 := by
    have : (sg - 1) * (sg + 1) = 0 := by linear_combination h1
    rcases mul_eq_zero.mp this with h | h
    · exact Or.inl (by linear_combination h)
    · exact Or.inr (by linear_combination h)
  rcases h with rfl | rfl
  · rw [one_mul] at *; exact (abs_of_nonneg h2).symm
  · have : z ≤ 0 := by linarith
    rw [abs_of_nonpos this]; ring

theorem gj_piece {σ : Sched} (hσ : σ.Valid) {t : Tape K} (h : t.WF) (hz : (zIds t).Nodup) (hd : t.deps.Nodup)
    {dx : List K} (hx : dx.length = t.numIndeps) (bits : List UInt8) :
    ∃ R, generalizedJacobianTape σ t dx bits none = .ok R ∧
      IsPiece (anfForm t) (signature bits (zHatV t dx)) R.homogenous R.inhomogenous ∧
      R.multiplicity = zerosBefore (zHatV t dx) t.numAbs := by
  obtain ⟨U, hU, e1⟩ := gj_none_core hσ h hx bits
  refine ⟨_, e1, ⟨U, ?_, ?_, ?_, ?_, ?_, ?_⟩, rfl⟩
  · intro i hi j hj
    rw [(anfForm_shape t).b] at hi
    rw [(anfForm_shape t).a] at hj ⊢
    rw [hU i hi j hj, sum_identity hi, ← add_mul]
    congr 1
    show _ = ∑ k ∈ range t.numAbs, U i k * (tMatD (anfL (anfOf t))).get k j + (tMatD (anfY (anfOf t))).get i j
    rw [tMatD, tMatD, DMat.ofFn_get (by simpa using hi) (by simpa using hj),
      rmat_eq_tmat (anfY_wf h) (anfY_absFree t) (by simpa using hd) (by simpa using hi) (by simpa using hj)]
    congr 1
    apply Finset.sum_congr rfl
    intro k hk
    rw [Finset.mem_range] at hk
    rw [DMat.ofFn_get (by simpa using hk) (by simpa using hj),
      rmat_eq_tmat (anfL_wf h) (anfL_absFree t) (by simpa using hz) (by simpa using hk) (by simpa using hj)]
  · rw [(anfForm_shape t).b]; rfl
  · rw [(anfForm_shape t).jmat.2]; rfl
  · intro i hi j hj
    rw [(anfForm_shape t).b] at hi
    rw [(anfForm_shape t).jmat.2] at hj
    rw [(anfForm_shape t).a]
    simp only [homOf]
    rw [DMat.ofFn_get hi hj, sum_identity hi]
    show _ = (tMatD (anfJ (anfOf t))).get i j + ∑ k ∈ range t.numAbs, U i k * (tMatD (anfZ (anfOf t))).get k j
    rw [tMatD, tMatD, DMat.ofFn_get (by simpa using hi) (by simpa using hj),
      rmat_eq_tmat (anfJ_wf h) (anfJ_absFree t) (by simpa using hd) (by simpa using hi) (by simpa using hj)]
    congr 1
    apply Finset.sum_congr rfl
    intro k hk
    rw [Finset.mem_range] at hk
    rw [DMat.ofFn_get (by simpa using hk) (by simpa using hj),
      rmat_eq_tmat (anfZ_wf h) (anfZ_absFree t) (by simpa using hz) (by simpa using hk) (by simpa using hj)]
  · rw [(anfForm_shape t).b]; simp [inhOf]
  · intro i hi
    rw [(anfForm_shape t).b] at hi
    rw [(anfForm_shape t).a]
    simp only [inhOf]
    rw [getD_map_range _ hi, sum_identity hi, zero_add]

/-! ## Neighbourhoods -/

/-- Switching values depend Lipschitz continuously on the direction. -/
theorem zHat_lipschitz {t : Tape K} (h : t.WF) :
    ∃ C : K, 0 < C ∧ ∀ (dx dx' : List K) (δ : K), dx.length = t.numIndeps → dx'.length = t.numIndeps →
      0 ≤ δ → (∀ j < t.numIndeps, |dx'.getD j 0 - dx.getD j 0| ≤ δ) →
      ∀ i < t.numAbs, |zHat t dx' i - zHat t dx i| ≤ C * δ := by
  have key : ∀ i, ∃ C : K, 0 ≤ C ∧ (i < t.numAbs → ∀ (dx dx' : List K) (δ : K), dx.length = t.numIndeps →
      dx'.length = t.numIndeps → 0 ≤ δ → (∀ j < t.numIndeps, |dx'.getD j 0 - dx.getD j 0| ≤ δ) →
      |zHat t dx' i - zHat t dx i| ≤ C * δ) := by
    intro i
    induction i using Nat.strongRecOn with
    | _ i ih =>
      choose C hC0 hC using ih
      refine ⟨∑ j ∈ range t.numIndeps, |tmat (anfZ (anfOf t)) i j| +
        ∑ k ∈ range t.numAbs, |tmat (anfL (anfOf t)) i k| * (if hk : k < i then C k hk else 0), ?_, ?_⟩
      · apply add_nonneg
        · exact Finset.sum_nonneg fun _ _ => abs_nonneg _
        · apply Finset.sum_nonneg
          intro k _
          apply mul_nonneg (abs_nonneg _)
          split
          · exact hC0 _ _
          · exact le_refl _
      · intro hi dx dx' δ hx hx' hδ hb
        rw [zHat_eq h hx' i hi, zHat_eq h hx i hi]
        have e : cVec t dx' i + ∑ k ∈ range t.numAbs, tmat (anfL (anfOf t)) i k * |zHat t dx' k| -
            (cVec t dx i + ∑ k ∈ range t.numAbs, tmat (anfL (anfOf t)) i k * |zHat t dx k|) =
            ∑ j ∈ range t.numIndeps, tmat (anfZ (anfOf t)) i j * (dx'.getD j 0 - dx.getD j 0) +
            ∑ k ∈ range t.numAbs, tmat (anfL (anfOf t)) i k * (|zHat t dx' k| - |zHat t dx k|) := by
          unfold cVec
          simp only [mul_sub, Finset.sum_sub_distrib]
          ring
        rw [e, add_mul, Finset.sum_mul, Finset.sum_mul]
        refine (abs_add_le _ _).trans (add_le_add ?_ ?_)
        · refine (Finset.abs_sum_le_sum_abs _ _).trans (Finset.sum_le_sum ?_)
          intro j hj
          rw [abs_mul]
          exact mul_le_mul_of_nonneg_left (hb j (Finset.mem_range.mp hj)) (abs_nonneg _)
        · refine (Finset.abs_sum_le_sum_abs _ _).trans (Finset.sum_le_sum ?_)
          intro k hk
          rw [Finset.mem_range] at hk
          rw [abs_mul]
          by_cases hki : k < i
          · rw [dif_pos hki, mul_assoc]
            apply mul_le_mul_of_nonneg_left _ (abs_nonneg _)
            exact (abs_abs_sub_abs_le_abs_sub _ _).trans (hC k hki hk dx dx' δ hx hx' hδ hb)
          · rw [tmat_L_tri h i hi k hk (by omega)]; simp
  choose C hC0 hC using key
  refine ⟨∑ i ∈ range t.numAbs, C i + 1, ?_, ?_⟩
  · have := Finset.sum_nonneg (s := range t.numAbs) (fun i _ => hC0 i)
    linarith
  · intro dx dx' δ hx hx' hδ hb i hi
    refine (hC i hi dx dx' δ hx hx' hδ hb).trans ?_
    apply mul_le_mul_of_nonneg_right _ hδ
    have := Finset.single_le_sum (f := C) (s := range t.numAbs) (fun i _ => hC0 i) (Finset.mem_range.mpr hi)
    linarith

/-- If no switching value vanishes at `dx`, the signs are the same near `dx`. -/
theorem signs_locally_constant {t : Tape K} (h : t.WF) {dx : List K} (hx : dx.length = t.numIndeps)
    (h0 : ∀ i < t.numAbs, zHat t dx i ≠ 0) :
    ∃ ε : K, 0 < ε ∧ ∀ dx' : List K, dx'.length = t.numIndeps →
      (∀ j < t.numIndeps, |dx'.getD j 0 - dx.getD j 0| ≤ ε) → ∀ i < t.numAbs, 0 < zHat t dx i * zHat t dx' i := by
  obtain ⟨C, hC0, hC⟩ := zHat_lipschitz h
  have hmin : ∃ μ : K, 0 < μ ∧ ∀ i < t.numAbs, μ ≤ |zHat t dx i| := by
    have : ∀ n, n ≤ t.numAbs → ∃ μ : K, 0 < μ ∧ ∀ i < n, μ ≤ |zHat t dx i| := by
      intro n
      induction n with
      | zero => intro _; exact ⟨1, one_pos, fun i hi => absurd hi (by omega)⟩
      | succ n ih =>
        intro hn
        obtain ⟨μ, h1, h2⟩ := ih (by omega)
        refine ⟨min μ |zHat t dx n|, lt_min h1 (abs_pos.mpr (h0 n (by omega))), ?_⟩
        intro i hi
        rcases Nat.lt_succ_iff_lt_or_eq.mp hi with h | rfl
        · exact (min_le_left _ _).trans (h2 i h)
        · exact min_le_right _ _
    exact this _ (Nat.le_refl _)
  obtain ⟨μ, hμ, hmu⟩ := hmin
  refine ⟨μ / (2 * C), by positivity, ?_⟩
  intro dx' hx' hb i hi
  have h1 := hC dx dx' (μ / (2 * C)) hx hx' (by positivity) hb i hi
  have h2 : C * (μ / (2 * C)) = μ / 2 := by field_simp
  rw [h2] at h1
  have h3 := hmu i hi
  have h4 := abs_le.mp h1
  rcases lt_or_gt_of_ne (h0 i hi) with hn | hp
  · rw [abs_of_neg hn] at h3
    exact mul_pos_of_neg_of_neg hn (by linarith)
  · rw [abs_of_pos hp] at h3
    exact mul_pos hp (by linarith)

end Adv
