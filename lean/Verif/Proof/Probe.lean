import Verif.Proof.Chain

/-!
# Evaluating the piece of a generalized Jacobian

The affine piece of a function can be evaluated at a probe vector by running the function on triples of a value,
an increment and a probe: abs takes the sign that the increment selects and applies it to the probe.
-/

set_option linter.unusedSectionVars false

namespace Adv
open Finset
open scoped Adv

/-! ## Solutions of the equations of a tape -/

section solve
variable {S A : Type} [Flt S]

/-- The writes of a sweep with the operations of a shadow. -/
def gS (sh : Shadow S A) (v : Nat → S) (op : Operation) (f : Nat → A) : Option A :=
  if op.opcode.computes then some (sh.op op.opcode (v op.a1) (v op.a2) (f op.a1) (f op.a2))
  else if op.opcode = .Const then some (sh.cst (v op.vid)) else none

theorem gS_local (sh : Shadow S A) (v : Nat → S) : LocalG (gS sh v) := by
  constructor
  · intro op f f' h1 h2; simp only [gS, h1, h2]
  · intro op f h; simp [gS, h, OpCode.computes, OpCode.isBinary, OpCode.isUnary]

/-- The equations of a tape have a solution with given values of the inputs. -/
theorem exists_solves (sh : Shadow S A) {ops : List Operation} (hs : SSA ops) (v : Nat → S) (init : Nat → A) :
    ∃ I, Solves sh I ops v ∧ ∀ k, (∀ op ∈ activeOps ops, op.vid ≠ k) → I k = init k := by
  refine ⟨sweepG (gS sh v) ops init, ?_, fun k hk => sweepG_other (gS_local sh v) hk init⟩
  have hw : ∀ op (f : Nat → A), op.opcode.computes = false → ∀ f', gS sh v op f = gS sh v op f' := by
    intro op f hc f'
    simp [gS, hc]
  intro op hop
  constructor
  · intro hc
    have hne : op.opcode ≠ .Nop := by rw [hc]; decide
    rw [sweepG_eq (gS_local sh v) hs hw init hop hne]
    simp [gS, hc, OpCode.computes, OpCode.isBinary, OpCode.isUnary]
  · intro hc
    have hne : op.opcode ≠ .Nop := ((OpCode.computes_iff _).mp hc).1
    rw [sweepG_eq (gS_local sh v) hs hw init hop hne]
    simp [gS, hc]

end solve

variable {K : Type} [Field K] [LinearOrder K] [IsStrictOrderedRing K] [Flt K] [LawfulFlt K]

/-! ## Probes -/

/-- The sign that a switching value selects if all sign bits are clear. -/
def pieceSign (z : K) : K := if 0 < z then 1 else -1

/-- Increments, and images of a probe under the piece that the increments select. -/
def probeSh : Shadow K (K × K) where
  cst _ := (0, 0)
  op o a b p q := (ffun o a b p.1 q.1,
    if o = .Abs then pieceSign (a + p.1) * (a + p.2) - |a| else ffun o a b p.2 q.2)

theorem pieceSign_mul (z : K) : pieceSign z * z = |z| := by
  unfold pieceSign
  split_ifs with h
  · rw [abs_of_pos h, one_mul]
  · rw [abs_of_nonpos (not_lt.mp h), neg_one_mul]

theorem signature_zero_bits (zhat : List K) (i : Nat) : signature [0] zhat i = pieceSign (zhat.getD i 0) := by
  have hb : ∀ q, bitAt [0] q = false := by
    intro q
    unfold bitAt
    rcases Nat.eq_zero_or_pos (q / 8) with h | h
    · rw [h]; simp
    · rw [List.getD_eq_default _ _ h]; simp
  unfold signature pieceSign
  rw [hb]
  split_ifs with h1 h2 h3 h4 <;> first | rfl | contradiction | (exfalso; linarith)

theorem probeSh_closed : (probeSh : Shadow K (K × K)).ConstClosed := by
  intro o a b hc
  show (ffun o a b 0 0, if o = .Abs then pieceSign (a + 0) * (a + 0) - |a| else ffun o a b 0 0) = (0, 0)
  have h0 : ffun o a b (0 : K) 0 = 0 := by
    have := Props.zeroTangent_of_lawful (K := K) o a b hc
    rwa [LawfulFlt.zero_eq] at this
  rw [h0]
  split_ifs
  · rw [add_zero, pieceSign_mul, sub_self]
  · rfl

/-- A piece evaluated with its switching values. -/
theorem piece_eval {F : AbsNormalForm K} {n m s : Nat} (hs : F.Shape n m s) {sg : Nat → K} {G : DMat K}
    {γ v : List K} {ζ : Nat → K} (hp : IsPiece F sg G γ)
    (hz : ∀ i < s, ζ i = F.a.getD i 0 + mv F.zmat v i + ∑ k ∈ range s, F.lmat.get i k * (sg k * ζ k)) :
    ∀ i < m, mv G v i + γ.getD i 0 =
      F.b.getD i 0 + mv F.jmat v i + ∑ k ∈ range s, F.ymat.get i k * (sg k * ζ k) := by
  obtain ⟨U, h1, h2, h3, h4, -, h6⟩ := hp
  intro i hi
  rw [hs.b] at h1 h4 h6
  have ea := hs.a
  rw [h6 i hi]
  have eZ : ∀ k < s, mv F.zmat v k = ∑ j ∈ range n, F.zmat.get k j * v.getD j 0 := by
    intro k _; unfold mv; rw [hs.zmat.2]
  have eG : mv G v i = mv F.jmat v i + ∑ k ∈ range s, U i k * mv F.zmat v k := by
    unfold mv
    rw [h3, hs.jmat.2, hs.zmat.2]
    simp only [Finset.mul_sum]
    rw [Finset.sum_comm, ← Finset.sum_add_distrib]
    apply Finset.sum_congr rfl
    intro j hj
    rw [h4 i hi j (by rw [hs.jmat.2]; exact Finset.mem_range.mp hj), add_mul, Finset.sum_mul, ea]
    congr 1
    apply Finset.sum_congr rfl
    intro k _
    ring
  have eUz : ∑ k ∈ range s, U i k * ζ k =
      ∑ k ∈ range s, U i k * (∑ l ∈ range s, F.lmat.get k l * (sg l * ζ l)) +
      ∑ k ∈ range s, F.ymat.get i k * (sg k * ζ k) := by
    have e : ∀ k ∈ range s, U i k * ζ k =
        (∑ l ∈ range s, U i l * F.lmat.get l k) * (sg k * ζ k) + F.ymat.get i k * (sg k * ζ k) := by
      intro k hk
      rw [Finset.mem_range] at hk
      rw [h1 i hi k (by rw [ea]; exact hk), ea]
      ring
    rw [Finset.sum_congr rfl e, Finset.sum_add_distrib]
    simp only [Finset.mul_sum, Finset.sum_mul]
    rw [Finset.sum_comm]
    congr 1
    apply Finset.sum_congr rfl
    intro l _
    apply Finset.sum_congr rfl
    intro k _
    ring
  have eUa : ∑ k ∈ range s, U i k * ζ k = ∑ k ∈ range s, U i k * F.a.getD k 0 +
      ∑ k ∈ range s, U i k * mv F.zmat v k +
      ∑ k ∈ range s, U i k * (∑ l ∈ range s, F.lmat.get k l * (sg l * ζ l)) := by
    rw [← Finset.sum_add_distrib, ← Finset.sum_add_distrib]
    apply Finset.sum_congr rfl
    intro k hk
    rw [Finset.mem_range] at hk
    conv_lhs => rw [hz k hk]
    ring
  rw [eG, ea]
  linear_combination eUz - eUa

/-- The increments computed along with a probe are those of the forward sweep. -/
theorem probe_fst {t : Tape K} (h : t.WF) {dx : List K} {I : Nat → K × K} (hI : Solves probeSh I t.ops (fn t.vals))
    (h0 : ∀ k, (∀ op ∈ activeOps t.ops, op.vid ≠ k) → (I k).1 = scatterFn t.indeps dx (fun _ => 0) k) (k : Nat) :
    (I k).1 = sweepF (fn t.vals) t.ops (scatterFn t.indeps dx (fun _ => 0)) k := by
  induction k using Nat.strongRecOn with
  | _ k ih =>
    by_cases hop : ∃ op ∈ activeOps t.ops, op.vid = k
    · obtain ⟨op, hop, rfl⟩ := hop
      have hop' := (mem_activeOps.mp hop).1
      by_cases hc : op.opcode.computes = true
      · rw [sweepF_computes h.ssa _ hop' hc, (hI op hop').2 hc, ← ih _ (h.ssa.a1_lt op hop hc),
          ← ih _ (h.ssa.a2_lt op hop hc)]
        rfl
      · have hc' : op.opcode = .Const := by
          by_contra hne
          exact hc ((OpCode.computes_iff _).mpr ⟨(mem_activeOps.mp hop).2, hne⟩)
        rw [sweepF_const h.ssa _ hop' hc', (hI op hop').1 hc', LawfulFlt.zero_eq]
        rfl
    · have hne : ∀ op ∈ activeOps t.ops, op.vid ≠ k := fun op ho e => hop ⟨op, ho, e⟩
      rw [sweepF_other hne, h0 k hne]

/-- The probe of an abs result. -/
theorem probe_abs {t : Tape K} (h : t.WF) {dx : List K} {I : Nat → K × K} (hI : Solves probeSh I t.ops (fn t.vals))
    (h0 : ∀ k, (∀ op ∈ activeOps t.ops, op.vid ≠ k) → (I k).1 = scatterFn t.indeps dx (fun _ => 0) k) {i : Nat}
    (hi : i < t.numAbs) :
    (I ((wIds t).getD i 0)).2 = pieceSign (zHat t dx i) * (zVal t i + (I ((zIds t).getD i 0)).2) - |zVal t i| := by
  obtain ⟨op, ho, e1, e2⟩ := zId_eq hi
  obtain ⟨h1, h2⟩ := mem_absOps.mp ho
  unfold zHat zVal
  rw [← probe_fst h hI h0, e1, e2, (hI op h1).2 (by rw [h2]; rfl)]
  simp only [probeSh, h2, if_true]

/-- The equations of the hidden values of a probe. -/
theorem probe_hidden {t : Tape K} {dx v : List K} {I : Nat → K × K} (hI : Solves probeSh I t.ops (fn t.vals))
    (h0 : ∀ k, (∀ op ∈ activeOps t.ops, op.vid ≠ k) →
      I k = (scatterFn t.indeps dx (fun _ => 0) k, scatterFn t.indeps v (fun _ => 0) k)) :
    HiddenSolution t v (fun k => (I k).2) := by
  constructor
  · intro op hop hc
    rw [(hI op hop).1 hc]
    rfl
  · intro op hop ha hc
    rw [(hI op hop).2 hc]
    simp only [probeSh, if_neg ha]
  · intro k hk
    rw [h0 k hk]

theorem probe_w {t : Tape K} (h : t.WF) {dx v : List K} {I : Nat → K × K} (hI : Solves probeSh I t.ops (fn t.vals))
    (h0 : ∀ k, (∀ op ∈ activeOps t.ops, op.vid ≠ k) →
      I k = (scatterFn t.indeps dx (fun _ => 0) k, scatterFn t.indeps v (fun _ => 0) k)) {k : Nat} (hk : k < t.numAbs) :
    (I ((wIds t).getD k 0)).2 =
      signature [0] (zHatV t dx) k * (zVal t k + (I ((zIds t).getD k 0)).2) - |zVal t k| := by
  rw [probe_abs h hI (fun k hk => congrArg Prod.fst (h0 k hk)) hk, signature_zero_bits, zHatV_getD hk]

/-- The switching values of a solution that is on a piece. -/
theorem hidden_zeta {t : Tape K} (h : t.WF) {v : List K} (hv : v.length = t.numIndeps) {p : Nat → K}
    (hS : HiddenSolution t v p) {sg : Nat → K}
    (hw : ∀ k < t.numAbs, p ((wIds t).getD k 0) = sg k * (zVal t k + p ((zIds t).getD k 0)) - |zVal t k|) :
    ∀ i < t.numAbs, zVal t i + p ((zIds t).getD i 0) = (anfForm t).a.getD i 0 + mv (anfForm t).zmat v i +
      ∑ k ∈ range t.numAbs, (anfForm t).lmat.get i k *
        (sg k * (zVal t k + p ((zIds t).getD k 0))) := by
  have split := hidden_split h hv hS
  set ζ : Nat → K := fun i => zVal t i + p ((zIds t).getD i 0) with hζ
  have hw : ∀ k < t.numAbs, p ((wIds t).getD k 0) = sg k * ζ k - |zVal t k| := hw
  intro i hi
  have e1 : (anfForm t).a.getD i 0 = zVal t i - ∑ k ∈ range t.numAbs, tmat (anfL (anfOf t)) i k * |zVal t k| :=
    getD_map_range _ hi _
  have e2 : mv (anfForm t).zmat v i = ∑ j ∈ range t.numIndeps, tmat (anfZ (anfOf t)) i j * v.getD j 0 := by
    show mv (tMatD _) _ _ = _
    rw [mv_tMatD (by simpa using hi)]
    simp only [Z_numIndeps]
  have e3 : ∀ k ∈ range t.numAbs, (anfForm t).lmat.get i k = tmat (anfL (anfOf t)) i k := by
    intro k hk
    show (tMatD _).get i k = _
    rw [tMatD, DMat.ofFn_get (by simpa using hi) (by simpa using hk)]
  have eS : ∑ k ∈ range t.numAbs, (anfForm t).lmat.get i k * (sg k * ζ k) =
      ∑ k ∈ range t.numAbs, tmat (anfL (anfOf t)) i k * (sg k * ζ k) :=
    Finset.sum_congr rfl fun k hk => by rw [e3 k hk]
  have eI : ∑ k ∈ range t.numAbs, tmat (anfL (anfOf t)) i k * p ((wIds t).getD k 0) =
      ∑ k ∈ range t.numAbs, tmat (anfL (anfOf t)) i k * (sg k * ζ k) -
      ∑ k ∈ range t.numAbs, tmat (anfL (anfOf t)) i k * |zVal t k| := by
    rw [← Finset.sum_sub_distrib]
    exact Finset.sum_congr rfl fun k hk => by rw [hw k (Finset.mem_range.mp hk), mul_sub]
  have hsp := split ((zIds t).getD i 0)
  simp only [← tmat_Z, ← tmat_L] at hsp
  rw [eI] at hsp
  rw [e1, e2, eS]
  show zVal t i + p ((zIds t).getD i 0) = _
  rw [hsp]
  ring

/-- The dependents of a solution that is on a piece. -/
theorem hidden_row {t : Tape K} (h : t.WF) {v : List K} (hv : v.length = t.numIndeps) {p : Nat → K}
    (hS : HiddenSolution t v p) {sg : Nat → K}
    (hw : ∀ k < t.numAbs, p ((wIds t).getD k 0) = sg k * (zVal t k + p ((zIds t).getD k 0)) - |zVal t k|) {i : Nat} (hi : i < t.numDeps) :
    p (t.deps.getD i 0) = (anfForm t).b.getD i 0 + mv (anfForm t).jmat v i +
      ∑ k ∈ range t.numAbs, (anfForm t).ymat.get i k *
        (sg k * (zVal t k + p ((zIds t).getD k 0))) := by
  have split := hidden_split h hv hS
  set ζ : Nat → K := fun i => zVal t i + p ((zIds t).getD i 0) with hζ
  have hw : ∀ k < t.numAbs, p ((wIds t).getD k 0) = sg k * ζ k - |zVal t k| := hw
  have e1 : (anfForm t).b.getD i 0 = -(∑ k ∈ range t.numAbs, tmat (anfY (anfOf t)) i k * |zVal t k|) :=
    getD_map_range _ hi _
  have e2 : mv (anfForm t).jmat v i = ∑ j ∈ range t.numIndeps, tmat (anfJ (anfOf t)) i j * v.getD j 0 := by
    show mv (tMatD _) _ _ = _
    rw [mv_tMatD (by simpa using hi)]
    simp only [J_numIndeps]
  have e3 : ∀ k ∈ range t.numAbs, (anfForm t).ymat.get i k = tmat (anfY (anfOf t)) i k := by
    intro k hk
    show (tMatD _).get i k = _
    rw [tMatD, DMat.ofFn_get (by simpa using hi) (by simpa using hk)]
  have eS : ∑ k ∈ range t.numAbs, (anfForm t).ymat.get i k * (sg k * ζ k) =
      ∑ k ∈ range t.numAbs, tmat (anfY (anfOf t)) i k * (sg k * ζ k) :=
    Finset.sum_congr rfl fun k hk => by rw [e3 k hk]
  have eI : ∑ k ∈ range t.numAbs, tmat (anfY (anfOf t)) i k * p ((wIds t).getD k 0) =
      ∑ k ∈ range t.numAbs, tmat (anfY (anfOf t)) i k * (sg k * ζ k) -
      ∑ k ∈ range t.numAbs, tmat (anfY (anfOf t)) i k * |zVal t k| := by
    rw [← Finset.sum_sub_distrib]
    exact Finset.sum_congr rfl fun k hk => by rw [hw k (Finset.mem_range.mp hk), mul_sub]
  have hsp := split (t.deps.getD i 0)
  simp only [← tmat_J, ← tmat_Y] at hsp
  rw [eI] at hsp
  rw [e1, e2, eS, hsp]
  ring

/-- The piece of a tape, evaluated by a solution. -/
theorem hidden_tape {t : Tape K} (h : t.WF) {v : List K} (hv : v.length = t.numIndeps) {p : Nat → K}
    (hS : HiddenSolution t v p) {sg : Nat → K}
    (hw : ∀ k < t.numAbs, p ((wIds t).getD k 0) = sg k * (zVal t k + p ((zIds t).getD k 0)) - |zVal t k|)
    {G : DMat K} {γ : List K} (hP : IsPiece (anfForm t) (sg) G γ) :
    affine G γ v = t.deps.map p := by
  have hs := anfForm_shape t
  obtain ⟨U, -, h2, -⟩ := id hP
  unfold affine
  rw [h2, hs.b]
  apply List.ext_getElem
  · simp [Tape.numDeps]
  intro i h3 h4
  have hi : i < t.numDeps := by simpa using h3
  rw [List.getElem_map, List.getElem_map, List.getElem_range, piece_eval hs hP (hidden_zeta h hv hS hw) i hi]
  have e0 : t.deps[i]'(by simpa using h4) = t.deps.getD i 0 := by rw [getD_lt]
  rw [e0, hidden_row h hv hS hw hi]

/-- The switching values of a probe. -/
theorem probe_zeta {t : Tape K} (h : t.WF) {dx v : List K} (hv : v.length = t.numIndeps) {I : Nat → K × K}
    (hI : Solves probeSh I t.ops (fn t.vals))
    (h0 : ∀ k, (∀ op ∈ activeOps t.ops, op.vid ≠ k) →
      I k = (scatterFn t.indeps dx (fun _ => 0) k, scatterFn t.indeps v (fun _ => 0) k)) :
    ∀ i < t.numAbs, zVal t i + (I ((zIds t).getD i 0)).2 = (anfForm t).a.getD i 0 + mv (anfForm t).zmat v i +
      ∑ k ∈ range t.numAbs, (anfForm t).lmat.get i k *
        (signature [0] (zHatV t dx) k * (zVal t k + (I ((zIds t).getD k 0)).2)) :=
  hidden_zeta h hv (probe_hidden hI h0) (fun _ hk => probe_w h hI h0 hk)

/-- The probe of a dependent. -/
theorem probe_row {t : Tape K} (h : t.WF) {dx v : List K} (hv : v.length = t.numIndeps) {I : Nat → K × K}
    (hI : Solves probeSh I t.ops (fn t.vals))
    (h0 : ∀ k, (∀ op ∈ activeOps t.ops, op.vid ≠ k) →
      I k = (scatterFn t.indeps dx (fun _ => 0) k, scatterFn t.indeps v (fun _ => 0) k)) {i : Nat} (hi : i < t.numDeps) :
    (I (t.deps.getD i 0)).2 = (anfForm t).b.getD i 0 + mv (anfForm t).jmat v i +
      ∑ k ∈ range t.numAbs, (anfForm t).ymat.get i k *
        (signature [0] (zHatV t dx) k * (zVal t k + (I ((zIds t).getD k 0)).2)) :=
  hidden_row h hv (probe_hidden hI h0) (fun _ hk => probe_w h hI h0 hk) hi

/-- The piece of a tape, evaluated at a probe. -/
theorem probe_tape {t : Tape K} (h : t.WF) {dx v : List K} (hv : v.length = t.numIndeps) {I : Nat → K × K}
    (hI : Solves probeSh I t.ops (fn t.vals))
    (h0 : ∀ k, (∀ op ∈ activeOps t.ops, op.vid ≠ k) →
      I k = (scatterFn t.indeps dx (fun _ => 0) k, scatterFn t.indeps v (fun _ => 0) k))
    {G : DMat K} {γ : List K} (hp : IsPiece (anfForm t) (signature [0] (zHatV t dx)) G γ) :
    affine G γ v = t.deps.map fun d => (I d).2 :=
  hidden_tape h hv (probe_hidden hI h0) (fun _ hk => probe_w h hI h0 hk) hp

/-- The piece of a function, evaluated at a probe. -/
theorem TapeOf.probe {f : Func K} {x : List K} {t : Tape K} (h : TapeOf f x t) {dx v : List K}
    (hdx : dx.length = x.length) (hv : v.length = x.length) {G : DMat K} {γ : List K}
    (hp : IsPiece (anfForm t) (signature [0] (zHatV t dx)) G γ) :
    ∃ ys, f.evalS probeSh (x.zip (dx.zip v)) = .ok ys ∧
      f.evalD (x.zip dx) = .ok (ys.map fun s => (s.1, s.2.1)) ∧ affine G γ v = ys.map fun s => s.2.2 := by
  have hni : t.numIndeps = x.length := by simp [Tape.numIndeps, h.indeps]
  obtain ⟨I, hI, h0⟩ := exists_solves probeSh h.wf.ssa (fn t.vals) fun k =>
    (scatterFn t.indeps dx (fun _ => (0 : K)) k, scatterFn t.indeps v (fun _ => (0 : K)) k)
  obtain ⟨ys, y1, y2, y3⟩ := h.shadow _ probeSh I (x.zip (dx.zip v)) (Or.inl probeSh_closed) hI
    (by rw [List.map_fst_zip]; simp [hdx, hv]) (by
      intro k s hs
      obtain ⟨hk, hs'⟩ := List.getElem?_eq_some_iff.mp hs
      have hk' : k < x.length := by simp only [List.length_zip] at hk; omega
      have hki : k < t.indeps.length := by rw [← Tape.numIndeps, hni]; exact hk'
      have hid : t.indeps[k] = k := by simp [h.indeps]
      have hne : ∀ op ∈ activeOps t.ops, op.vid ≠ k := by
        intro op hop he
        exact h.wf.vid_fresh op hop (by rw [he, h.indeps]; simpa using hk')
      have g1 := scatterFn_get (xs := dx) (f := fun _ => (0 : K)) h.wf.indeps_nodup hki (by omega)
      have g2 := scatterFn_get (xs := v) (f := fun _ => (0 : K)) h.wf.indeps_nodup hki (by omega)
      rw [hid] at g1 g2
      rw [h0 k hne, g1, g2, ← hs']
      simp)
  refine ⟨ys, y1, ?_, ?_⟩
  · obtain ⟨ds, d1, d2, d3⟩ := h.forward_eval (Or.inl Props.zeroTangent_of_lawful) hdx
    rw [d1]
    congr 1
    have hq := fun k hk => congrArg Prod.fst (h0 k hk)
    have e1 : ds.map Prod.fst = ys.map Prod.fst := by
      rw [Tape.y_eq h.wf] at d3
      injection d3 with d3
      rw [← d3, y2]
    have e2 : ds.map Prod.snd = ys.map fun s => s.2.1 := by
      rw [Tape.firstOrderForward_eq h.wf (by rw [hdx, ← hni]; rfl)] at d2
      injection d2 with d2
      have := congrArg (List.map Prod.fst) y3
      rw [List.map_map, List.map_map] at this
      rw [← d2, show (ys.map fun s => s.2.1) = ys.map (Prod.fst ∘ Prod.snd) from rfl, this]
      apply List.map_congr_left
      intro k _
      rw [LawfulFlt.zero_eq]
      exact (probe_fst h.wf hI hq k).symm
    have hz : ds = (ds.map Prod.fst).zip (ds.map Prod.snd) := by rw [List.zip_map']; simp
    rw [hz, e1, e2, List.zip_map']
  · rw [probe_tape h.wf (by omega) hI h0 hp]
    have := congrArg (List.map Prod.snd) y3
    rw [List.map_map, List.map_map] at this
    exact this.symm

/-! ## Chains -/

mutual
theorem Func.progs_flatten {S : Type} : ∀ f : Func S, Func.progsAll f.flatten = f.progs
  | .simple n m f => by simp [Func.flatten, Func.progsAll, Func.progs]
  | .chain fs => by rw [Func.flatten, Func.progs]; exact Func.progsAll_flattenAll fs
theorem Func.progsAll_flattenAll {S : Type} : ∀ fs : List (Func S), Func.progsAll (Func.flattenAll fs) = Func.progsAll fs
  | [] => by simp [Func.flattenAll, Func.progsAll]
  | f :: fs => by
      rw [Func.flattenAll, Func.progsAll_append, Func.progs_flatten f, Func.progsAll_flattenAll fs, Func.progsAll]
theorem Func.progsAll_append {S : Type} : ∀ fs gs : List (Func S),
    Func.progsAll (fs ++ gs) = Func.progsAll fs ++ Func.progsAll gs
  | [], gs => by simp [Func.progsAll]
  | f :: fs, gs => by simp [Func.progsAll, Func.progsAll_append fs gs]
end

theorem runProgsS_append {S A : Type} [Flt S] (sh : Shadow S A) (ps qs : List (List S → Prog S)) (x : List (S × A)) :
    runProgsS sh (ps ++ qs) x = (runProgsS sh ps x >>= fun y => runProgsS sh qs y) := by
  induction ps generalizing x with
  | nil => rfl
  | cons p ps ih =>
    simp only [List.cons_append, runProgsS]
    rcases (p (x.map Prod.fst)).runS sh x with e | y
    · rfl
    · exact ih y

/-- The piece computed by the fold over the links, evaluated at a probe. -/
theorem gjList_probe {w0 : World K} (hw0 : w0.nextId < usizeMax) : ∀ (fs : List (Func K)) (x dx v : List K)
    (R : GenJac K), dx.length = x.length → v.length = x.length → gjList w0 fs x dx = .ok R →
    LinkTapes w0 (fun t => t.switching.deps.Nodup ∧ t.deps.Nodup) fs x →
    ∃ ys, runProgsS probeSh (Func.progsAll fs) (x.zip (dx.zip v)) = .ok ys ∧
      affine R.homogenous R.inhomogenous v = ys.map fun s => s.2.2
  | [], x, dx, v, R, hl, hv, h, _ => by
      injection h with h
      subst h
      refine ⟨_, rfl, ?_⟩
      unfold chainIdentity
      rw [affine_identity _ _ hv, show (fun s : K × K × K => s.2.2) = Prod.snd ∘ Prod.snd from rfl, ← List.map_map,
        List.map_snd_zip (by simp [hl, hv]), List.map_snd_zip (by omega)]
  | f :: fs, x, dx, v, R', hl, hv, h, hL => by
      rw [gjList] at h
      rcases hy : f.evalD (x.zip dx) with e | ys
      · rw [hy] at h; cases h
      rw [hy, bind_ok_eq] at h
      rcases hg : gjList w0 fs (ys.map Prod.fst) (ys.map Prod.snd) with e | g
      · rw [hg] at h; cases h
      rw [hg, bind_ok_eq] at h
      obtain ⟨-, i2, i3, -⟩ := gjList_ok hw0 fs _ _ g (by simp) hg
      rw [List.length_map] at i2
      obtain ⟨R, t, k1, k2, k3, k4, k5, k6, k7, -⟩ := gjPure_ok hw0 hl hy i2 i3 h
      obtain ⟨n1, n2⟩ := hL.1 t k1
      have hT : TapeOf f x t := by
        have hs := (Func.tape_spec f x w0 hw0).2
        rw [k1] at hs
        obtain ⟨_, -, hT⟩ := hs.ok_left
        exact hT
      have hni : t.numIndeps = x.length := by simp [Tape.numIndeps, hT.indeps]
      obtain ⟨R2, e1, e2, -⟩ := gj_piece Sched.seq_valid hT.wf (by rw [← switching_deps hT.wf]; exact n1) n2
        (dx := dx) (by omega) [0]
      have hR : R2 = R := by
        have := Props.gj_func (σ := Sched.seq) f (dx := dx) (Prod.ext k1 rfl : f.tape x w0 = (.ok t, _)) k2 [0] none
        rw [this, e1] at k3
        injection k3
      subst hR
      obtain ⟨zs, z1, z2, z3⟩ := hT.probe hl hv e2
      rw [hy] at z2
      injection z2 with z2
      have hv' : (f.evalFloat x w0).1 = .ok (ys.map Prod.fst) := by
        rw [Func.evalFloat_eq]
        have := Func.evalD_fst f (x.zip dx)
        rw [hy, List.map_fst_zip (by omega)] at this
        exact this.symm
      obtain ⟨us, u1, u2⟩ := gjList_probe hw0 fs (ys.map Prod.fst) (ys.map Prod.snd) (zs.map fun s => s.2.2) g
        (by simp) (by rw [z2]; simp) hg (hL.2 _ hv')
      refine ⟨us, ?_, ?_⟩
      · rw [Func.progsAll, runProgsS_append]
        have : runProgsS probeSh f.progs (x.zip (dx.zip v)) = .ok zs := z1
        rw [this, bind_ok_eq, ← u1]
        congr 1
        rw [z2]
        simp only [List.map_map, List.zip_map']
        simp
      · rw [affine_comp k4, z3, u2]

/-- Affine functions with the same values have the same coefficients. -/
theorem affine_ext {G H : DMat K} {γ δ : List K} (hc : G.ncols = H.ncols) (hγ : γ.length = G.nrows)
    (hδ : δ.length = H.nrows) (h : ∀ v : List K, v.length = G.ncols → affine G γ v = affine H δ v) :
    G.toRows = H.toRows ∧ γ = δ := by
  have hr : G.nrows = H.nrows := by
    have := congrArg List.length (h (List.replicate G.ncols 0) (by simp))
    simpa [affine] using this
  have hi : ∀ v : List K, v.length = G.ncols → ∀ i < G.nrows, mv G v i + γ.getD i 0 = mv H v i + δ.getD i 0 := by
    intro v hv i hi
    have := congrArg (fun l => l.getD i 0) (h v hv)
    simp only [affine] at this
    rwa [getD_map_range _ hi, getD_map_range _ (by omega)] at this
  have e0 : ∀ (A : DMat K) (n i : Nat), mv A (List.replicate n 0) i = 0 := by
    intro A n i
    unfold mv
    apply Finset.sum_eq_zero
    intro j _
    have : (List.replicate n (0 : K)).getD j 0 = 0 := by
      simp only [List.getD_eq_getElem?_getD, List.getElem?_replicate]
      split_ifs <;> rfl
    rw [this, mul_zero]
  have hg : ∀ i < G.nrows, γ.getD i 0 = δ.getD i 0 := by
    intro i hi'
    have := hi (List.replicate G.ncols 0) (by simp) i hi'
    rwa [e0, e0, zero_add, zero_add] at this
  have e1 : ∀ (A : DMat K) (n i j : Nat), A.ncols = n → j < n →
      mv A ((List.range n).map fun k => if k = j then 1 else 0) i = A.get i j := by
    intro A n i j hn hj
    unfold mv
    rw [hn, Finset.sum_eq_single j]
    · rw [getD_map_range _ hj]; simp
    · intro k hk hne
      rw [getD_map_range _ (Finset.mem_range.mp hk), if_neg hne, mul_zero]
    · intro hne; exact absurd (Finset.mem_range.mpr hj) hne
  constructor
  · unfold DMat.toRows
    rw [hr, hc]
    apply List.map_congr_left
    intro i hi'
    rw [List.mem_range] at hi'
    apply List.map_congr_left
    intro j hj
    rw [List.mem_range] at hj
    have := hi ((List.range G.ncols).map fun k => if k = j then 1 else 0) (by simp) i (by omega)
    rw [e1 G _ i j rfl (by omega), e1 H _ i j hc.symm (by omega), hg i (by omega)] at this
    exact add_right_cancel this
  · apply List.ext_getElem (by omega)
    intro i h1 h2
    have := hg i (by omega)
    rwa [getD_lt h1, getD_lt h2] at this

end Adv
