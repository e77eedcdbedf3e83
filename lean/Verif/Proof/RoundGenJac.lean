import Verif.Proof.RoundAnf
import Verif.Proof.GenJac

/-!
# Abs-normal forms and generalized Jacobians in machine arithmetics
-/

set_option linter.unusedSectionVars false

namespace Adv
open scoped Adv Topology
open Filter Asymptotics

variable {ι : Type*} {l : Filter ι} {S : ι → Type} {val : ∀ i, S i → Option ℝ} [A : ∀ i, Flt (S i)] {u : ι → ℝ}

variable (l val u) in
/-- Families of abs-normal forms. -/
structure NearForm (n m s : Nat) (F : AbsNormalForm ℝ) (G : ∀ i, AbsNormalForm (S i)) : Prop where
  a : NearV l val u s F.a fun i => (G i).a
  zmat : NearM l val u s n F.zmat fun i => (G i).zmat
  lmat : NearM l val u s s F.lmat fun i => (G i).lmat
  b : NearV l val u m F.b fun i => (G i).b
  jmat : NearM l val u m n F.jmat fun i => (G i).jmat
  ymat : NearM l val u m s F.ymat fun i => (G i).ymat

variable (l val u) in
/-- Families of generalized Jacobians. -/
structure NearGen (r c : Nat) (F : GenJac ℝ) (G : ∀ i, GenJac (S i)) : Prop where
  homogenous : NearM l val u r c F.homogenous fun i => (G i).homogenous
  inhomogenous : NearV l val u r F.inhomogenous fun i => (G i).inhomogenous
  multiplicity : ∀ᶠ i in l, (G i).multiplicity = F.multiplicity

namespace Ariths
variable (F : Ariths l val A u)
include F

theorem z_near {t : Tape ℝ} {T : ∀ i, Tape (S i)} (hw : t.WF) (hT : NearT l val u t T) :
    NearRes (NearV l val u t.numAbs) (anfOf t).z fun i => (anfOf (T i)).z := by
  refine ⟨_, _, z_eq hw, fun i => z_eq (hT.wf hw i), ?_⟩
  simp only [hT.zIds]
  exact F.nearV_map _ (zIds_length t) fun k _ => hT.vals k

theorem absNormalTape_near {t : Tape ℝ} {T : ∀ i, Tape (S i)} (hw : t.WF) (hd : t.InDomain) (hT : NearT l val u t T)
    {σ : Sched} (hσ : σ.Valid) {τ : ι → Sched} (hτ : ∀ i, (τ i).Valid) :
    NearRes (NearForm l val u t.numIndeps t.numDeps t.numAbs) (absNormalTape σ (anfOf t)) fun i =>
      absNormalTape (τ i) (anfOf (T i)) := by
  have e1 : ∀ i, (anfOf (T i)).n = t.numIndeps := fun i => hT.numIndeps i
  have e2 : ∀ i, (anfOf (T i)).m = t.numDeps := fun i => hT.numDeps i
  have e3 : ∀ i, (anfOf (T i)).s = t.numAbs := fun i => hT.numAbs i
  unfold absNormalTape
  simp only [e1, e2, e3]
  refine NearRes.bind (F.dense_near (anfZ_wf hw) (anfZ_absFree t) hd.anfZ hT.anfZ (Z_numIndeps t) (Z_numDeps t) (hσ.at_ 0)
    fun i => (hτ i).at_ 0) fun zm ZM hzm => ?_
  refine NearRes.bind (F.mulLeft_near (anfL_wf hw) (anfL_absFree t) hd.anfL hT.anfL (r := t.numAbs)
    (by rw [L_numDeps]; exact F.identity_near _) (hσ.at_ 1) fun i => (hτ i).at_ 1) fun lm LM hlm => ?_
  rw [L_numIndeps] at hlm
  refine NearRes.bind (F.dense_near (anfJ_wf hw) (anfJ_absFree t) hd.anfJ hT.anfJ (J_numIndeps t) (J_numDeps t) (hσ.at_ 2)
    fun i => (hτ i).at_ 2) fun jm JM hjm => ?_
  refine NearRes.bind (F.dense_near (anfY_wf hw) (anfY_absFree t) hd.anfY hT.anfY (Y_numIndeps t) (Y_numDeps t) (hσ.at_ 3)
    fun i => (hτ i).at_ 3) fun ym YM hym => ?_
  refine NearRes.bind (F.z_near hw hT) fun z Z hz => ?_
  refine NearRes.bind (F.mulVec_near hlm (F.vabs_near hz)) fun lz LZ hlz => ?_
  refine NearRes.bind (F.vsub_near hz hlz) fun a Aa ha => ?_
  refine NearRes.bind (F.mulVec_near (F.neg_near hym) (F.vabs_near hz)) fun b B hb => ?_
  exact .ok ⟨ha, hzm, hlm, hb, hjm, hym⟩

/-! ## Comparisons -/

theorem near_ne {a b : ℝ} {g h : ∀ i, S i} (hg : Near l val u a g) (hh : Near l val u b h) (hne : a ≠ b) :
    ∀ᶠ i in l, ¬ Flt.eq (g i) (h i) = true := by
  obtain ⟨r, h1, h2⟩ := hg
  obtain ⟨s, k1, k2⟩ := hh
  have := ((F.near_tendsto h1).sub (F.near_tendsto k1)).eventually_ne (sub_ne_zero.mpr hne)
  filter_upwards [this, h2, k2] with i q q1 q2
  rw [(F.machine i).eq q1 q2]
  exact sub_ne_zero.mp q

theorem near_lt {a b : ℝ} {g h : ∀ i, S i} (hg : Near l val u a g) (hh : Near l val u b h) (hlt : a < b) :
    ∀ᶠ i in l, Flt.lt (g i) (h i) = true ∧ ¬ Flt.lt (h i) (g i) = true := by
  obtain ⟨r, h1, h2⟩ := hg
  obtain ⟨s, k1, k2⟩ := hh
  have := ((F.near_tendsto k1).sub (F.near_tendsto h1)).eventually (lt_mem_nhds (sub_pos.mpr hlt))
  filter_upwards [this, h2, k2] with i q q1 q2
  rw [(F.machine i).lt q1 q2, (F.machine i).lt q2 q1]
  exact ⟨sub_pos.mp q, (sub_pos.mp q).le.not_gt⟩

omit F in
theorem nearV_ite {n : Nat} {xs : List ℝ} {X Y : ∀ i, List (S i)} (c : ι → Bool)
    (hX : NearV l val u n xs X) (hY : NearV l val u n xs Y) :
    NearV l val u n xs fun i => if c i = true then X i else Y i := by
  refine ⟨hX.len, fun i => by split; exacts [hX.lens i, hY.lens i], fun m => ?_⟩
  refine (Near.ite (fun i => c i = true) (hX.near m) (hY.near m)).congr (Eventually.of_forall fun i => ?_)
  by_cases h : c i = true <;> simp [h]

omit F in
/-- The branch that is not taken for small unit roundoffs. -/
theorem nearV_ite_false {n : Nat} {xs : List ℝ} {X Y : ∀ i, List (S i)} (c : ι → Bool) (hl : ∀ i, (X i).length = n)
    (hc : ∀ᶠ i in l, ¬ c i = true) (hY : NearV l val u n xs Y) :
    NearV l val u n xs fun i => if c i = true then X i else Y i := by
  refine ⟨hY.len, fun i => by split; exacts [hl i, hY.lens i], fun m => ?_⟩
  refine (hY.near m).congr (hc.mono fun i hi => by simp [hi])

omit F in
theorem nearM_ite {r c : Nat} {M : DMat ℝ} {X Y : ∀ i, DMat (S i)} (b : ι → Bool) (hX : NearM l val u r c M X)
    (hY : NearM l val u r c M Y) : NearM l val u r c M fun i => if b i = true then X i else Y i := by
  refine ⟨hX.nrows, hX.ncols, fun i => by split; exacts [hX.nrowss i, hY.nrowss i],
    fun i => by split; exacts [hX.ncolss i, hY.ncolss i], fun i j hi hj => ?_⟩
  refine (Near.ite (fun k => b k = true) (hX.near i j hi hj) (hY.near i j hi hj)).congr (Eventually.of_forall fun k => ?_)
  by_cases h : b k = true <;> simp [h]

omit F in
theorem nearM_ite_false {r c : Nat} {M : DMat ℝ} {X Y : ∀ i, DMat (S i)} (b : ι → Bool) (hr : ∀ i, (X i).nrows = r)
    (hn : ∀ i, (X i).ncols = c) (hc : ∀ᶠ i in l, ¬ b i = true) (hY : NearM l val u r c M Y) :
    NearM l val u r c M fun i => if b i = true then X i else Y i := by
  refine ⟨hY.nrows, hY.ncols, fun i => by split; exacts [hr i, hY.nrowss i],
    fun i => by split; exacts [hn i, hY.ncolss i], fun i j hi hj => ?_⟩
  refine (hY.near i j hi hj).congr (hc.mono fun i hi => by simp [hi])

theorem vbeq_near {n : Nat} {xs ys : List ℝ} {X Y : ∀ i, List (S i)} (hX : NearV l val u n xs X)
    (hY : NearV l val u n ys Y) (hne : xs ≠ ys) : ∀ᶠ i in l, ¬ vbeq (X i) (Y i) = true := by
  have : ∃ m : Nat, m < n ∧ xs[m]?.getD 0 ≠ ys[m]?.getD 0 := by
    by_contra hcon
    push Not at hcon
    apply hne
    apply List.ext_getElem (by rw [hX.len, hY.len])
    intro m h1 h2
    have := hcon m (hX.len ▸ h1)
    simpa [h1, h2] using this
  obtain ⟨m, hm, hne⟩ := this
  refine (F.near_ne (hX.near m) (hY.near m) hne).mono fun i hi hb => hi ?_
  have e1 : m < (X i).length := by rw [hX.lens]; exact hm
  have e2 : m < (Y i).length := by rw [hY.lens]; exact hm
  unfold vbeq at hb
  simp only [Bool.and_eq_true, List.all_eq_true] at hb
  have hl : m < (List.zipWith Flt.eq (X i) (Y i)).length := by simp; omega
  have := hb.2 (List.zipWith Flt.eq (X i) (Y i))[m] (List.getElem_mem hl)
  simpa [e1, e2] using this

theorem beq_near {r c : Nat} {M M' : DMat ℝ} {X Y : ∀ i, DMat (S i)} (hX : NearM l val u r c M X)
    (hY : NearM l val u r c M' Y) (hne : ¬ M.beq M' = true) : ∀ᶠ i in l, ¬ (X i).beq (Y i) = true := by
  have : ∃ i < r, ∃ j < c, M.get i j ≠ M'.get i j := by
    by_contra hcon
    push Not at hcon
    apply hne
    unfold DMat.beq
    simp only [hX.nrows, hX.ncols, hY.nrows, hY.ncols, beq_self_eq_true, Bool.true_and, List.all_eq_true, List.mem_range]
    intro i hi j hj
    exact (LawfulFlt.eq_iff _ _).mpr (hcon i hi j hj)
  obtain ⟨i, hi, j, hj, hne⟩ := this
  refine (F.near_ne (hX.near i j hi hj) (hY.near i j hi hj) hne).mono fun k hk hb => hk ?_
  unfold DMat.beq at hb
  simp only [hX.nrowss, hX.ncolss, Bool.and_eq_true, List.all_eq_true, List.mem_range] at hb
  exact hb.2 i hi j hj

/-! ## The iteration for `Δz` -/

end Ariths

/-- One iteration. -/
def dzStep {S : Type} [Flt S] (σ : Sched) (t : Tape S) (dzt dz : List S) : Res (List S) := do
  vadd dzt (← (← Anf.mulRight σ t (DMat.ofVec (vabs dz))).toVec)

theorem dzLoop_succ {S : Type} [Flt S] (σ : Sched) (t : Tape S) (dzt : List S) (k : Nat) (dz : List S) :
    dzLoop σ t dzt (k + 1) dz = dzStep (σ.at_ k) t dzt dz >>= fun dz' =>
      if vbeq dz' dz = true then .ok dz' else dzLoop σ t dzt k dz' := by
  simp only [dzLoop, dzStep, bind_assoc]
  rfl

theorem dzStep_sched {S : Type} [Flt S] {σ σ' : Sched} (hσ : σ.Valid) (hσ' : σ'.Valid) {t : Tape S} (h : t.WF)
    (dzt dz : List S) : dzStep σ t dzt dz = dzStep σ' t dzt dz := by
  simp only [dzStep, Anf.mulRight_sched hσ hσ' h]

theorem vbeq_iff {xs ys : List ℝ} : vbeq xs ys = true ↔ xs = ys := by
  unfold vbeq
  constructor
  · intro h
    simp only [Bool.and_eq_true, beq_iff_eq, List.all_eq_true] at h
    apply List.ext_getElem h.1
    intro m h1 h2
    have hl : m < (List.zipWith Flt.eq xs ys).length := by simp; omega
    have := h.2 (List.zipWith Flt.eq xs ys)[m] (List.getElem_mem hl)
    simp only [List.getElem_zipWith, id] at this
    exact (LawfulFlt.eq_iff _ _).mp this
  · rintro rfl
    simp only [beq_self_eq_true, Bool.true_and, List.all_eq_true, id]
    intro b hb
    obtain ⟨m, hm, rfl⟩ := List.getElem_of_mem hb
    simp only [List.getElem_zipWith]
    exact (LawfulFlt.eq_iff _ _).mpr rfl

theorem dzLoop_fixed {σ σ' : Sched} (hσ : σ.Valid) (hσ' : σ'.Valid) {t : Tape ℝ} (h : t.WF) {dzt dz : List ℝ}
    (hs : dzStep σ' t dzt dz = .ok dz) : ∀ k, dzLoop σ t dzt k dz = .ok dz
  | 0 => rfl
  | k + 1 => by
      rw [dzLoop_succ, dzStep_sched (hσ.at_ k) hσ' h, hs, bind_ok_eq, if_pos (vbeq_iff.mpr rfl)]

namespace Ariths
variable (F : Ariths l val A u)
include F

theorem dzStep_near {t : Tape ℝ} {T : ∀ i, Tape (S i)} (hw : t.WF) (hd : t.InDomain) (hT : NearT l val u t T) {s : Nat}
    (hn : t.numIndeps = s) (hm : t.numDeps = s) {dzt dz : List ℝ} {DZT DZ : ∀ i, List (S i)} (h1 : NearV l val u s dzt DZT)
    (h2 : NearV l val u s dz DZ) {σ : Sched} (hσ : σ.Valid) {τ : ι → Sched} (hτ : ∀ i, (τ i).Valid) :
    NearRes (NearV l val u s) (dzStep σ t dzt dz) fun i => dzStep (τ i) (T i) (DZT i) (DZ i) := by
  unfold dzStep
  refine NearRes.bind (F.mulRight_near hw hd hT (c := 1) (by rw [hn]; exact F.ofVec_near (F.vabs_near h2)) hσ hτ)
    fun m M hM => ?_
  refine NearRes.bind (F.toVec_near hM) fun v V hV => ?_
  exact F.vadd_near h1 (hm ▸ hV)

theorem dzLoop_near {t : Tape ℝ} {T : ∀ i, Tape (S i)} (hw : t.WF) (hd : t.InDomain) (hT : NearT l val u t T) {s : Nat}
    (hn : t.numIndeps = s) (hm : t.numDeps = s) {dzt : List ℝ} {DZT : ∀ i, List (S i)} (h1 : NearV l val u s dzt DZT)
    {σ : Sched} (hσ : σ.Valid) {τ : ι → Sched} (hτ : ∀ i, (τ i).Valid) : ∀ (k : Nat) {dz : List ℝ} {DZ : ∀ i, List (S i)},
    NearV l val u s dz DZ →
    NearRes (NearV l val u s) (dzLoop σ t dzt k dz) fun i => dzLoop (τ i) (T i) (DZT i) k (DZ i)
  | 0, _, _, h2 => .ok h2
  | k + 1, dz, DZ, h2 => by
      simp only [dzLoop_succ]
      obtain ⟨v, V, e1, e2, e3⟩ := F.dzStep_near hw hd hT hn hm h1 h2 (hσ.at_ k) fun i => (hτ i).at_ k
      obtain ⟨x, X, k1, k2, k3⟩ := dzLoop_near hw hd hT hn hm h1 hσ hτ k e3
      by_cases hb : vbeq v dz = true
      · have hv := vbeq_iff.mp hb
        subst hv
        rw [dzLoop_fixed hσ (hσ.at_ k) hw e1 k] at k1
        injection k1 with k1
        subst k1
        refine ⟨v, fun i => if vbeq (V i) (DZ i) = true then V i else X i, by rw [e1, bind_ok_eq, if_pos hb], fun i => ?_,
          nearV_ite _ e3 k3⟩
        have q : dzStep ((τ i).at_ k) (T i) (DZT i) (DZ i) = .ok (V i) := e2 i
        show dzStep _ _ _ _ >>= _ = _
        rw [q, bind_ok_eq]
        by_cases hc : vbeq (V i) (DZ i) = true
        · simp only [hc, if_true]
        · simp only [hc]; exact k2 i
      · refine ⟨x, fun i => if vbeq (V i) (DZ i) = true then V i else X i, by rw [e1, bind_ok_eq, if_neg hb, k1],
          fun i => ?_, nearV_ite_false _ e3.lens (F.vbeq_near e3 h2 fun h => hb (vbeq_iff.mpr h)) k3⟩
        have q : dzStep ((τ i).at_ k) (T i) (DZT i) (DZ i) = .ok (V i) := e2 i
        show dzStep _ _ _ _ >>= _ = _
        rw [q, bind_ok_eq]
        by_cases hc : vbeq (V i) (DZ i) = true
        · simp only [hc, if_true]
        · simp only [hc]; exact k2 i

end Ariths

/-! ## The iteration for `U` -/

/-- One iteration. -/
def uStep {S : Type} [Flt S] (σ : Sched) (t : Tape S) (ys : DMat S) (r s : Nat) (sigma : List S) (u2 : DMat S) :
    Res (DMat S) := do
  let u1 ← Anf.mulLeft σ t u2
  let u1 ← scaleCols u1 r s sigma
  u1.add ys

theorem uLoop_succ {S : Type} [Flt S] (σ : Sched) (t : Tape S) (ys : DMat S) (r s : Nat) (sigma : List S) (k : Nat)
    (u2 : DMat S) : uLoop σ t ys r s sigma (k + 1) u2 = uStep (σ.at_ k) t ys r s sigma u2 >>= fun u1 =>
      if u1.beq u2 = true then .ok u1 else uLoop σ t ys r s sigma k u1 := by
  simp only [uLoop, uStep, bind_assoc]
  rfl

theorem scaleCols_ok {S : Type} [Flt S] {m : DMat S} {r s : Nat} {sigma : List S} (h1 : m.nrows = r) (h2 : m.ncols = s)
    (h3 : sigma.length = s) : scaleCols m r s sigma = .ok ⟨m.nrows, m.ncols, fun i j =>
      if i < r ∧ j < s then (m.get i j) *ᶠ sigma.getD j Flt.zero else m.get i j⟩ :=
  if_pos (.inr (.inr ⟨h1.ge, h2.ge, h3.ge⟩))

theorem uStep_eq {S : Type} [Flt S] {σ : Sched} (hσ : σ.Valid) {t : Tape S} (h : t.WF) (ha : t.AbsFree) {ys u2 : DMat S}
    {r s : Nat} {sigma : List S} (hn : t.numIndeps = s) (hm : t.numDeps = s) (y1 : ys.nrows = r) (y2 : ys.ncols = s)
    (hs : sigma.length = s) (u1 : u2.nrows = r) (u2' : u2.ncols = s) :
    uStep σ t ys r s sigma u2 = .ok (DMat.ofFn r s fun i j =>
      Anf.mlEntry t u2 i j *ᶠ sigma.getD j Flt.zero +ᶠ ys.get i j) := by
  unfold uStep
  rw [Anf.mulLeft_eq hσ h ha (u2'.trans hm.symm), bind_ok_eq, scaleCols_ok (by rw [← u1]; rfl) (by rw [← hn]; rfl) hs,
    bind_ok_eq, DMat.add, if_pos ⟨by rw [y1, ← u1]; rfl, by rw [y2, ← hn]; rfl⟩]
  congr 1
  subst u1 hn
  show DMat.ofFn u2.nrows t.numIndeps _ = _
  apply DMat.ofFn_congr
  intro i hi j hj
  simp [DMat.ofFn, hi, hj]

theorem uStep_congr {σ σ' : Sched} (hσ : σ.Valid) (hσ' : σ'.Valid) {t : Tape ℝ} (h : t.WF) (ha : t.AbsFree)
    {ys u2 u3 : DMat ℝ} {r s : Nat} {sigma : List ℝ} (hn : t.numIndeps = s) (hm : t.numDeps = s) (y1 : ys.nrows = r)
    (y2 : ys.ncols = s) (hs : sigma.length = s) (u1 : u2.nrows = r) (u2' : u2.ncols = s) (u3r : u3.nrows = r)
    (u3c : u3.ncols = s) (he : ∀ i < r, ∀ j < s, u2.get i j = u3.get i j) :
    uStep σ t ys r s sigma u2 = uStep σ' t ys r s sigma u3 := by
  rw [uStep_eq hσ h ha hn hm y1 y2 hs u1 u2', uStep_eq hσ' h ha hn hm y1 y2 hs u3r u3c]
  congr 1
  apply DMat.ofFn_congr
  intro i hi j hj
  have : Anf.rowOf u2 i = Anf.rowOf u3 i := by
    unfold Anf.rowOf
    rw [u2', u3c]
    exact List.map_congr_left fun k hk => he i hi k (List.mem_range.mp hk)
  unfold Anf.mlEntry
  rw [this]

theorem beq_iff {M N : DMat ℝ} : M.beq N = true ↔ MatEq M N := by
  unfold DMat.beq
  constructor
  · intro h
    simp only [Bool.and_eq_true, beq_iff_eq, List.all_eq_true, List.mem_range] at h
    exact ⟨h.1.1, h.1.2, fun i hi j hj => (LawfulFlt.eq_iff _ _).mp (h.2 i hi j hj)⟩
  · intro h
    simp only [Bool.and_eq_true, beq_iff_eq, List.all_eq_true, List.mem_range]
    exact ⟨⟨h.nrows, h.ncols⟩, fun i hi j hj => (LawfulFlt.eq_iff _ _).mpr (h.get i hi j hj)⟩

theorem uLoop_fixed {σ σ' : Sched} (hσ : σ.Valid) (hσ' : σ'.Valid) {t : Tape ℝ} (h : t.WF) (ha : t.AbsFree)
    {ys u1 u2 : DMat ℝ} {r s : Nat} {sigma : List ℝ} (hn : t.numIndeps = s) (hm : t.numDeps = s) (y1 : ys.nrows = r)
    (y2 : ys.ncols = s) (hs : sigma.length = s) (u1r : u1.nrows = r) (u1c : u1.ncols = s)
    (hu : uStep σ' t ys r s sigma u2 = .ok u1) (hb : u1.beq u2 = true) :
    ∀ k, uLoop σ t ys r s sigma k u1 = .ok u1
  | 0 => rfl
  | k + 1 => by
      have hb := beq_iff.mp hb
      rw [uLoop_succ, uStep_congr (hσ.at_ k) hσ' h ha hn hm y1 y2 hs u1r u1c (hb.nrows ▸ u1r) (hb.ncols ▸ u1c)
        (fun i hi j hj => hb.get i (by omega) j (by omega)), hu, bind_ok_eq,
        if_pos (beq_iff.mpr ⟨rfl, rfl, fun _ _ _ _ => rfl⟩)]

namespace Ariths
variable (F : Ariths l val A u)
include F

theorem scaleCols_near {r s : Nat} {M : DMat ℝ} {N : ∀ i, DMat (S i)} (h : NearM l val u r s M N) {sigma : List ℝ}
    {Sg : ∀ i, List (S i)} (hs : NearV l val u s sigma Sg) :
    NearRes (NearM l val u r s) (scaleCols M r s sigma) fun i => scaleCols (N i) r s (Sg i) := by
  refine ⟨_, _, scaleCols_ok h.nrows h.ncols hs.len, fun i => scaleCols_ok (h.nrowss i) (h.ncolss i) (hs.lens i),
    h.nrows, h.ncols, h.nrowss, h.ncolss, fun i j hi hj => ?_⟩
  simp only [hi, hj, and_self, if_true]
  exact F.mul (h.near i j hi hj) (hs.near j)

theorem uStep_near {t : Tape ℝ} {T : ∀ i, Tape (S i)} (hw : t.WF) (ha : t.AbsFree) (hd : t.InDomain)
    (hT : NearT l val u t T) {r s : Nat} (hn : t.numIndeps = s) (hm : t.numDeps = s) {ys u2 : DMat ℝ}
    {Ys U2 : ∀ i, DMat (S i)} {sigma : List ℝ} {Sg : ∀ i, List (S i)} (hy : NearM l val u r s ys Ys)
    (hs : NearV l val u s sigma Sg) (hu : NearM l val u r s u2 U2) {σ : Sched} (hσ : σ.Valid) {τ : ι → Sched}
    (hτ : ∀ i, (τ i).Valid) :
    NearRes (NearM l val u r s) (uStep σ t ys r s sigma u2) fun i => uStep (τ i) (T i) (Ys i) r s (Sg i) (U2 i) := by
  unfold uStep
  refine NearRes.bind (F.mulLeft_near hw ha hd hT (by rw [hm]; exact hu) hσ hτ) fun m M hM => ?_
  rw [hn] at hM
  refine NearRes.bind (F.scaleCols_near hM hs) fun v V hV => ?_
  exact F.add_near hV hy

theorem uLoop_near {t : Tape ℝ} {T : ∀ i, Tape (S i)} (hw : t.WF) (ha : t.AbsFree) (hd : t.InDomain)
    (hT : NearT l val u t T) {r s : Nat} (hn : t.numIndeps = s) (hm : t.numDeps = s) {ys : DMat ℝ}
    {Ys : ∀ i, DMat (S i)} {sigma : List ℝ} {Sg : ∀ i, List (S i)} (hy : NearM l val u r s ys Ys)
    (hs : NearV l val u s sigma Sg) {σ : Sched} (hσ : σ.Valid) {τ : ι → Sched}
    (hτ : ∀ i, (τ i).Valid) : ∀ (k : Nat) {u2 : DMat ℝ} {U2 : ∀ i, DMat (S i)}, NearM l val u r s u2 U2 →
    NearRes (NearM l val u r s) (uLoop σ t ys r s sigma k u2) fun i => uLoop (τ i) (T i) (Ys i) r s (Sg i) k (U2 i)
  | 0, _, _, h => .ok h
  | k + 1, u2, U2, h => by
      simp only [uLoop_succ]
      obtain ⟨v, V, e1, e2, e3⟩ := F.uStep_near hw ha hd hT hn hm hy hs h (hσ.at_ k) fun i => (hτ i).at_ k
      obtain ⟨x, X, k1, k2, k3⟩ := uLoop_near hw ha hd hT hn hm hy hs hσ hτ k e3
      have hi : ∀ i, (uStep ((τ i).at_ k) (T i) (Ys i) r s (Sg i) (U2 i) >>= fun u1 =>
          if u1.beq (U2 i) = true then .ok u1 else uLoop (τ i) (T i) (Ys i) r s (Sg i) k u1) =
          .ok (if (V i).beq (U2 i) = true then V i else X i) := by
        intro i
        have q : uStep ((τ i).at_ k) (T i) (Ys i) r s (Sg i) (U2 i) = .ok (V i) := e2 i
        rw [q, bind_ok_eq]
        by_cases hc : (V i).beq (U2 i) = true
        · simp only [hc, if_true]
        · simp only [hc]; exact k2 i
      by_cases hb : v.beq u2 = true
      · rw [uLoop_fixed hσ (hσ.at_ k) hw ha hn hm hy.nrows hy.ncols hs.len e3.nrows e3.ncols e1 hb k] at k1
        injection k1 with k1
        subst k1
        exact ⟨v, fun i => if (V i).beq (U2 i) = true then V i else X i, by rw [e1, bind_ok_eq, if_pos hb], hi,
          nearM_ite _ e3 k3⟩
      · exact ⟨x, fun i => if (V i).beq (U2 i) = true then V i else X i, by rw [e1, bind_ok_eq, if_neg hb, k1], hi,
          nearM_ite_false _ e3.nrowss e3.ncolss (F.beq_near e3 h hb) k3⟩

end Ariths

/-! ## The signature -/

theorem sigma_signs {S : Type} [Flt S] (bytes : List UInt8) : ∀ (dz acc : List S) (mult idx : Nat),
    (∀ d ∈ dz, Flt.lt d Flt.zero = true ∨ Flt.lt Flt.zero d = true) →
    dz.foldl (sigmaStep bytes) (acc, mult, idx) =
      (acc ++ dz.map fun d => if Flt.lt d Flt.zero = true then Flt.neg Flt.one else Flt.one, mult, idx)
  | [], acc, mult, idx, _ => by simp
  | d :: dz, acc, mult, idx, h => by
      rw [List.foldl_cons]
      have h1 := h d (by simp)
      have : sigmaStep bytes (acc, mult, idx) d =
          (acc ++ [if Flt.lt d Flt.zero = true then Flt.neg Flt.one else Flt.one], mult, idx) := by
        unfold sigmaStep
        by_cases hd : Flt.lt d Flt.zero = true
        · simp [hd]
        · simp [hd, h1.resolve_left hd]
      rw [this, sigma_signs bytes dz _ _ _ fun e he => h e (by simp [he])]
      simp

theorem sigma_length {S : Type} [Flt S] (bytes : List UInt8) : ∀ (dz : List S) (st : List S × Nat × Nat),
    (dz.foldl (sigmaStep bytes) st).1.length = st.1.length + dz.length
  | [], st => by simp
  | d :: dz, st => by
      rw [List.foldl_cons, sigma_length bytes dz]
      have : (sigmaStep bytes st d).1.length = st.1.length + 1 := by
        obtain ⟨a, b, c⟩ := st
        unfold sigmaStep
        dsimp only
        split
        · simp
        · split <;> simp
      rw [this, List.length_cons]; omega

theorem sigmaLoop_ok {S : Type} [Flt S] (bytes : List UInt8) {s : Nat} {dz : List S} (h : dz.length = s) :
    sigmaLoop bytes s dz = .ok ((dz.foldl (sigmaStep bytes) ([], 0, 0)).1, (dz.foldl (sigmaStep bytes) ([], 0, 0)).2.1) := by
  have hg : (List.range s).mapM (getR dz) = .ok ((List.range s).map fun i => dz.getD i Flt.zero) := by
    apply mapM_ok_eq
    intro i hi
    rw [List.mem_range] at hi
    have : i < dz.length := by omega
    simp [getR, this]
  have e : ((List.range s).map fun i => dz.getD i Flt.zero) = dz := by
    apply List.ext_getElem (by simp [h])
    intro i h1 h2
    simp [h2]
  rw [sigmaLoop, hg, bind_ok_eq, e]
  rfl

theorem sigma_nonzero {bytes : List UInt8} {dz : List ℝ} (h : (dz.foldl (sigmaStep bytes) ([], 0, 0)).2.1 = 0) :
    ∀ d ∈ dz, d ≠ 0 := by
  have e : ((List.range dz.length).map fun i => dz.getD i 0) = dz := by
    apply List.ext_getElem (by simp)
    intro i h1 h2
    simp [h2]
  intro d hd h0
  subst h0
  obtain ⟨i, hi, hd⟩ := List.getElem_of_mem hd
  rw [← e, sigma_foldl] at h
  simp only [Finset.card_eq_zero, Finset.filter_eq_empty_iff, Finset.mem_range] at h
  exact h hi (by simp [hi, hd])

namespace Ariths
variable (F : Ariths l val A u)
include F

theorem sigma_near (bytes : List UInt8) {s : Nat} {dz : List ℝ} {DZ : ∀ i, List (S i)} (h : NearV l val u s dz DZ)
    (h0 : ∀ d ∈ dz, d ≠ 0) :
    NearV l val u s (dz.foldl (sigmaStep bytes) ([], 0, 0)).1 (fun i => ((DZ i).foldl (sigmaStep bytes) ([], 0, 0)).1) ∧
    (dz.foldl (sigmaStep bytes) ([], 0, 0)).2.1 = 0 ∧
    ∀ᶠ i in l, ((DZ i).foldl (sigmaStep bytes) ([], 0, 0)).2.1 = 0 := by
  have hne : ∀ m < s, dz[m]?.getD 0 ≠ 0 := by
    intro m hm
    have : m < dz.length := by rw [h.len]; exact hm
    simpa [this] using h0 _ (List.getElem_mem this)
  have hx : ∀ d ∈ dz, Flt.lt d Flt.zero = true ∨ Flt.lt Flt.zero d = true := by
    intro d hd
    rw [LawfulFlt.lt_iff, LawfulFlt.lt_iff, LawfulFlt.zero_eq]
    exact lt_or_gt_of_ne (h0 d hd)
  have hz : Near l val u 0 fun i => (A i).zero := F.near_zero
  have hX : ∀ᶠ i in l, ∀ m ∈ Finset.range s, Flt.lt ((DZ i)[m]?.getD (A i).zero) (A i).zero = true ∨
      Flt.lt (A i).zero ((DZ i)[m]?.getD (A i).zero) = true := by
    rw [Filter.eventually_all_finset]
    intro m hm
    rcases lt_or_gt_of_ne (hne m (Finset.mem_range.mp hm)) with h1 | h1
    · exact (F.near_lt (h.near m) hz h1).mono fun i hi => .inl hi.1
    · exact (F.near_lt hz (h.near m) h1).mono fun i hi => .inr hi.1
  have hE : ∀ᶠ i in l, (DZ i).foldl (sigmaStep bytes) ([], 0, 0) =
      ([] ++ (DZ i).map fun d => if Flt.lt d Flt.zero = true then Flt.neg Flt.one else Flt.one, 0, 0) := by
    filter_upwards [hX] with i hi
    apply sigma_signs
    intro d hd
    obtain ⟨m, hm, rfl⟩ := List.getElem_of_mem hd
    have := hi m (Finset.mem_range.mpr (by rw [← h.lens i]; exact hm))
    simpa [hm] using this
  have hx' := sigma_signs bytes dz [] 0 0 hx
  refine ⟨⟨by rw [sigma_length]; simpa using h.len, fun i => by rw [sigma_length]; simpa using h.lens i, fun m => ?_⟩,
    by rw [hx'], hE.mono fun i hi => by rw [hi]⟩
  rw [hx']
  have key : Near l val u ((dz.map fun d => if Flt.lt d (Flt.zero : ℝ) = true then Flt.neg (Flt.one : ℝ) else Flt.one)[m]?.getD 0)
      fun i => ((DZ i).map fun d => if Flt.lt d Flt.zero = true then Flt.neg Flt.one else Flt.one)[m]?.getD (A i).zero := by
    by_cases hm : m < s
    · have hl : m < dz.length := by rw [h.len]; exact hm
      have hL : ∀ i, m < (DZ i).length := fun i => by rw [h.lens]; exact hm
      have h1 := h.near m
      have h2 := hne m hm
      simp only [List.getElem?_map, List.getElem?_eq_getElem, hl, hL, Option.getD_some, Option.map_some] at h1 h2 ⊢
      rcases lt_or_gt_of_ne h2 with h3 | h3
      · have e : Flt.lt dz[m] (Flt.zero : ℝ) = true := by rw [LawfulFlt.lt_iff, LawfulFlt.zero_eq]; exact h3
        rw [if_pos e]
        exact (F.neg F.near_one).congr ((F.near_lt h1 hz h3).mono fun i hi => by rw [if_pos hi.1])
      · have e : ¬ Flt.lt dz[m] (Flt.zero : ℝ) = true := by
          rw [LawfulFlt.lt_iff, LawfulFlt.zero_eq]; exact h3.le.not_gt
        rw [if_neg e]
        exact F.near_one.congr ((F.near_lt hz h1 h3).mono fun i hi => by rw [if_neg hi.2])
    · have e : ∀ i, (DZ i).length ≤ m := fun i => by rw [h.lens]; omega
      have e' : dz.length ≤ m := by rw [h.len]; omega
      simp only [List.getElem?_map, List.getElem?_eq_none e', List.getElem?_eq_none (e _), Option.map_none, Option.getD_none]
      exact F.near_zero
  refine key.congr (hE.mono fun i hi => ?_)
  rw [hi, List.nil_append]

end Ariths

/-! ## The driver -/

/-- `generalizedJacobianTape` with the default for `next` filled in. -/
def gjCore {S : Type} [Flt S] (σ : Sched) (tape : Tape S) (dx : List S) (signBits : List UInt8) (g2 : DMat S) (gamma2 : List S)
    (m0 : Nat) : Res (GenJac S) := do
  let n := tape.numIndeps
  let s := tape.numAbs
  assertR (dx.length = n)
  let absTape ← AbsNormalTape.new tape
  let zTape := anfZ absTape
  let lTape := anfL absTape
  let jTape := anfJ absTape
  let yTape := anfY absTape
  let z ← absTape.z
  let zAbs := vabs z
  let a ← vsub z (← (← Anf.mulRight (σ.at_ 0) lTape (DMat.ofVec zAbs)).toVec)
  let b := vneg (← (← Anf.mulRight (σ.at_ 1) yTape (DMat.ofVec zAbs)).toVec)
  let dzt ← vadd a (← (← Anf.mulRight (σ.at_ 2) zTape (DMat.ofVec dx)).toVec)
  let dz ← dzLoop (σ.at_ 3) lTape dzt s dzt
  let sm ← sigmaLoop signBits s dz
  let ys ← scaleCols (← Anf.mulLeft (σ.at_ 4) yTape g2) g2.nrows s sm.1
  let u ← uLoop (σ.at_ 5) lTape ys g2.nrows s sm.1 s ys
  let homogenous ← (← Anf.mulLeft (σ.at_ 6) jTape g2).add (← Anf.mulLeft (σ.at_ 7) zTape u)
  let inhomogenous ← vadd (← vadd gamma2 (← g2.mulVec b)) (← u.mulVec a)
  return { homogenous, inhomogenous, multiplicity := sm.2 + m0 }

/-- The seed for a tape with `m` dependents. -/
def nextOr {S : Type} [Flt S] (m : Nat) (next : Option (GenJac S)) : GenJac S :=
  next.getD ⟨DMat.identity m, List.replicate m Flt.zero, 0⟩

theorem generalizedJacobianTape_core {S : Type} [Flt S] (σ : Sched) (t : Tape S) (dx : List S) (bits : List UInt8)
    (next : Option (GenJac S)) : generalizedJacobianTape σ t dx bits next =
      gjCore σ t dx bits (nextOr t.numDeps next).homogenous (nextOr t.numDeps next).inhomogenous
        (nextOr t.numDeps next).multiplicity := by
  cases next <;> rfl

theorem res_bind_ok {α β : Type} {r : Res α} {f : α → Res β} {b : β} (h : r >>= f = .ok b) : ∃ a, f a = .ok b := by
  cases r with
  | error e => cases h
  | ok a => exact ⟨a, h⟩

namespace Ariths
variable (F : Ariths l val A u)
include F

theorem gjCore_near {t : Tape ℝ} {T : ∀ i, Tape (S i)} (hw : t.WF) (hd : t.InDomain) (hT : NearT l val u t T)
    {dx : List ℝ} {DX : ∀ i, List (S i)} (hx : NearV l val u t.numIndeps dx DX) (bits : List UInt8) {r : Nat} {N : GenJac ℝ}
    {N' : ∀ i, GenJac (S i)} (hN : NearGen l val u r t.numDeps N N') {σ : Sched} (hσ : σ.Valid) {τ : ι → Sched}
    (hτ : ∀ i, (τ i).Valid) {G : GenJac ℝ}
    (hG : gjCore σ t dx bits N.homogenous N.inhomogenous N.multiplicity = .ok G) (hmul : G.multiplicity = N.multiplicity) :
    NearRes (NearGen l val u r t.numIndeps) (gjCore σ t dx bits N.homogenous N.inhomogenous N.multiplicity) fun i =>
      gjCore (τ i) (T i) (DX i) bits (N' i).homogenous (N' i).inhomogenous (N' i).multiplicity := by
  unfold gjCore at hG ⊢
  have eN : ∀ i, AbsNormalTape.new (T i) = .ok (anfOf (T i)) := fun i => AbsNormalTape.new_eq (hT.wf hw i)
  simp only [AbsNormalTape.new_eq hw, eN, bind_ok_eq, hT.numAbs, hN.homogenous.nrowss, hN.homogenous.nrows] at hG ⊢
  refine NearRes.bind_of (NearRes.assert (by simp [hx.len]) fun i => by simp [hx.lens, hT.numIndeps]) hG fun _ _ _ hG => ?_
  refine NearRes.bind_of (F.z_near hw hT) hG fun z Z hz hG => ?_
  refine NearRes.bind_of (F.mulRight_near (anfL_wf hw) hd.anfL hT.anfL (c := 1)
    (by rw [L_numIndeps]; exact F.ofVec_near (F.vabs_near hz)) (hσ.at_ 0) fun i => (hτ i).at_ 0) hG fun m1 M1 h1 hG => ?_
  rw [L_numDeps] at h1
  refine NearRes.bind_of (F.toVec_near h1) hG fun v1 V1 h2 hG => ?_
  refine NearRes.bind_of (F.vsub_near hz h2) hG fun a Aa ha hG => ?_
  refine NearRes.bind_of (F.mulRight_near (anfY_wf hw) hd.anfY hT.anfY (c := 1)
    (by rw [Y_numIndeps]; exact F.ofVec_near (F.vabs_near hz)) (hσ.at_ 1) fun i => (hτ i).at_ 1) hG fun m2 M2 h3 hG => ?_
  rw [Y_numDeps] at h3
  refine NearRes.bind_of (F.toVec_near h3) hG fun v2 V2 h4 hG => ?_
  refine NearRes.bind_of (F.mulRight_near (anfZ_wf hw) hd.anfZ hT.anfZ (c := 1)
    (by rw [Z_numIndeps]; exact F.ofVec_near hx) (hσ.at_ 2) fun i => (hτ i).at_ 2) hG fun m3 M3 h5 hG => ?_
  rw [Z_numDeps] at h5
  refine NearRes.bind_of (F.toVec_near h5) hG fun v3 V3 h6 hG => ?_
  refine NearRes.bind_of (F.vadd_near ha h6) hG fun dzt DZT h7 hG => ?_
  refine NearRes.bind_of (F.dzLoop_near (anfL_wf hw) hd.anfL hT.anfL (L_numIndeps t) (L_numDeps t) h7 (hσ.at_ 3)
    (fun i => (hτ i).at_ 3) t.numAbs h7) hG fun dz DZ h8 hG => ?_
  simp only [sigmaLoop_ok bits h8.len, sigmaLoop_ok bits (h8.lens _), bind_ok_eq] at hG ⊢
  have hm0 : (dz.foldl (sigmaStep bits) ([], 0, 0)).2.1 = 0 := by
    obtain ⟨_, hG⟩ := res_bind_ok hG
    obtain ⟨_, hG⟩ := res_bind_ok hG
    obtain ⟨_, hG⟩ := res_bind_ok hG
    obtain ⟨_, hG⟩ := res_bind_ok hG
    obtain ⟨_, hG⟩ := res_bind_ok hG
    obtain ⟨_, hG⟩ := res_bind_ok hG
    obtain ⟨_, hG⟩ := res_bind_ok hG
    obtain ⟨_, hG⟩ := res_bind_ok hG
    obtain ⟨_, hG⟩ := res_bind_ok hG
    obtain ⟨_, hG⟩ := res_bind_ok hG
    injection hG with hG
    rw [← hG] at hmul
    simpa using hmul
  clear hG
  obtain ⟨h9, -, h10⟩ := F.sigma_near bits h8 (sigma_nonzero hm0)
  refine NearRes.bind (F.mulLeft_near (anfY_wf hw) (anfY_absFree t) hd.anfY hT.anfY (r := r)
    (by rw [Y_numDeps]; exact hN.homogenous) (hσ.at_ 4) fun i => (hτ i).at_ 4) fun m4 M4 h11 => ?_
  rw [Y_numIndeps] at h11
  refine NearRes.bind (F.scaleCols_near h11 h9) fun ys Ys h12 => ?_
  refine NearRes.bind (F.uLoop_near (anfL_wf hw) (anfL_absFree t) hd.anfL hT.anfL (L_numIndeps t) (L_numDeps t) h12 h9 (hσ.at_ 5)
    (fun i => (hτ i).at_ 5) t.numAbs h12) fun uu UU h13 => ?_
  refine NearRes.bind (F.mulLeft_near (anfJ_wf hw) (anfJ_absFree t) hd.anfJ hT.anfJ (r := r)
    (by rw [J_numDeps]; exact hN.homogenous) (hσ.at_ 6) fun i => (hτ i).at_ 6) fun m5 M5 h14 => ?_
  rw [J_numIndeps] at h14
  refine NearRes.bind (F.mulLeft_near (anfZ_wf hw) (anfZ_absFree t) hd.anfZ hT.anfZ (r := r)
    (by rw [Z_numDeps]; exact h13) (hσ.at_ 7) fun i => (hτ i).at_ 7) fun m6 M6 h15 => ?_
  rw [Z_numIndeps] at h15
  refine NearRes.bind (F.add_near h14 h15) fun hh HH h16 => ?_
  refine NearRes.bind (F.mulVec_near hN.homogenous (F.vneg_near h4)) fun v4 V4 h17 => ?_
  refine NearRes.bind (F.vadd_near hN.inhomogenous h17) fun v5 V5 h18 => ?_
  refine NearRes.bind (F.mulVec_near h13 ha) fun v6 V6 h19 => ?_
  refine NearRes.bind (F.vadd_near h18 h19) fun v7 V7 h20 => ?_
  refine .ok ⟨h16, h20, ?_⟩
  filter_upwards [h10, hN.multiplicity] with i q1 q2
  show _ + _ = _ + _
  rw [q1, q2, hm0]

end Ariths
end Adv
