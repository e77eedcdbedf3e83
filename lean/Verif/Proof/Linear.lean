import Verif.Proof.Sweeps
import Verif.Spec.Linear
import Mathlib.Algebra.BigOperators.Group.Finset.Basic
import Mathlib.Algebra.BigOperators.Ring.Finset
import Mathlib.Algebra.BigOperators.Intervals
import Mathlib.Algebra.Order.BigOperators.Ring.Finset

/-!
# Linearity of the forward sweep and adjointness of the reverse sweep
-/

set_option linter.unusedSectionVars false
set_option linter.unusedSimpArgs false

namespace Adv
open scoped Adv
open Finset

variable {K : Type} [Field K] [LinearOrder K] [IsStrictOrderedRing K] [Flt K] [LawfulFlt K]

/-- Partial derivative with respect to the first operand. -/
def pd1 (o : OpCode) (a b : K) : K :=
  match o with
  | .Add => 1
  | .Sub => 1
  | .Mul => b
  | .Div => b⁻¹
  | .Powf => b * Flt.powf a (b - 1)
  | o => ffun o a b 1 1

/-- Partial derivative with respect to the second operand (0 for unary operations). -/
def pd2 (o : OpCode) (a b : K) : K :=
  match o with
  | .Add => 1
  | .Sub => -1
  | .Mul => a
  | .Div => -a / b ^ 2
  | .Powf => Flt.ln a * Flt.powf a b
  | _ => 0

theorem feq_false_iff (x y : K) : Flt.eq x y = false ↔ x ≠ y := by
  rw [← Bool.not_eq_true, LawfulFlt.eq_iff]

theorem inv_of_sq (b : K) : b / b ^ 2 = b⁻¹ := by
  by_cases h : b = 0
  · simp [h]
  · field_simp

theorem ffun_linear {o : OpCode} (h : o ≠ .Abs) (hc : o.computes = true) (a b da db : K) :
    ffun o a b da db = pd1 o a b * da + pd2 o a b * db := by
  have e2 : ∀ x : K, x ^ (2 : ℤ) = x ^ 2 := fun x => by norm_cast
  cases o <;> simp only [OpCode.computes, OpCode.isBinary, OpCode.isUnary, Bool.or_self, Bool.false_eq_true,
      ne_eq, not_true_eq_false] at h hc <;>
    simp only [ffun, pd1, pd2, LawfulFlt.zero_eq, LawfulFlt.one_eq, LawfulFlt.add_eq, LawfulFlt.sub_eq,
      LawfulFlt.mul_eq, LawfulFlt.div_eq, LawfulFlt.neg_eq, LawfulFlt.powi_eq, e2] <;>
    try ring1
  · rw [sub_div, mul_div_assoc, inv_of_sq b]; ring
  · by_cases h1 : da = 0 <;> by_cases h2 : db = 0 <;>
      simp [(feq_false_iff _ _).mpr, h1, h2]

theorem rfun1_eq {o : OpCode} (h : o ≠ .Abs) (hc : o.computes = true) (a b x : K) :
    rfun1 o a b x = pd1 o a b * x := by
  cases o <;> simp only [OpCode.computes, OpCode.isBinary, OpCode.isUnary, Bool.or_self, Bool.false_eq_true,
      ne_eq, not_true_eq_false] at h hc <;>
    simp only [rfun1, pd1, LawfulFlt.one_eq, LawfulFlt.add_eq, LawfulFlt.sub_eq,
      LawfulFlt.mul_eq, LawfulFlt.div_eq, LawfulFlt.neg_eq] <;>
    ring

theorem rfun2_eq {o : OpCode} (hc : o.isBinary = true) (a b x : K) :
    rfun2 o a b x = pd2 o a b * x := by
  have e2 : ∀ x : K, x ^ (2 : ℤ) = x ^ 2 := fun x => by norm_cast
  cases o <;> simp only [OpCode.isBinary, Bool.false_eq_true] at hc <;>
    simp only [rfun2, pd2, LawfulFlt.add_eq, LawfulFlt.sub_eq, LawfulFlt.powi_eq, e2,
      LawfulFlt.mul_eq, LawfulFlt.div_eq, LawfulFlt.neg_eq] <;>
    ring

theorem pd2_unary {o : OpCode} (hc : o.isUnary = true) (a b : K) : pd2 o a b = 0 := by
  cases o <;> simp only [OpCode.isUnary, Bool.false_eq_true] at hc <;> rfl

/-! ## Forward -/

theorem stepF_comb {v : Nat → K} {op : Operation} (h : op.opcode ≠ .Abs) (c d : K) (f g : Nat → K) :
    stepF v op (fun i => c * f i + d * g i) = fun i => c * stepF v op f i + d * stepF v op g i := by
  unfold stepF
  by_cases hc : op.opcode.computes = true
  · simp only [hc, if_true]
    funext i
    by_cases hi : i = op.vid
    · subst hi
      rw [upd_same, upd_same, upd_same, ffun_linear h hc, ffun_linear h hc, ffun_linear h hc]; ring
    · rw [upd_ne hi, upd_ne hi, upd_ne hi]
  · simp only [hc, Bool.false_eq_true, if_false]
    by_cases hk : op.opcode = .Const
    · simp only [hk, if_true]
      funext i
      by_cases hi : i = op.vid
      · subst hi; rw [upd_same, upd_same, upd_same, LawfulFlt.zero_eq]; ring
      · rw [upd_ne hi, upd_ne hi, upd_ne hi]
    · simp only [hk, if_false]

theorem sweepF_comb {v : Nat → K} {ops : List Operation} (h : ∀ op ∈ ops, op.opcode ≠ .Abs) (c d : K)
    (f g : Nat → K) :
    sweepF v ops (fun i => c * f i + d * g i) = fun i => c * sweepF v ops f i + d * sweepF v ops g i := by
  induction ops generalizing f g with
  | nil => rfl
  | cons op ops ih =>
    show sweepF v ops (stepF v op _) = fun i => c * sweepF v ops (stepF v op f) i +
      d * sweepF v ops (stepF v op g) i
    rw [stepF_comb (h op (by simp)), ih (fun o ho => h o (by simp [ho]))]

theorem scatterFn_comb {ids : List Nat} {xs ys : List K} (h : xs.length = ys.length) (c d : K) (f g : Nat → K) :
    scatterFn ids (lcomb c d xs ys) (fun i => c * f i + d * g i) =
      fun i => c * scatterFn ids xs f i + d * scatterFn ids ys g i := by
  induction ids generalizing xs ys f g with
  | nil => simp [scatterFn]
  | cons k ids ih =>
    match xs, ys, h with
    | [], [], _ => simp [lcomb, scatterFn]
    | x :: xs, y :: ys, h =>
      have hu : upd (fun i => c * f i + d * g i) k (c * x + d * y) =
          fun i => c * upd f k x i + d * upd g k y i := by
        funext i
        by_cases hi : i = k
        · subst hi; rw [upd_same, upd_same, upd_same]
        · rw [upd_ne hi, upd_ne hi, upd_ne hi]
      simp only [lcomb, List.zipWith_cons_cons, scatterFn, hu]
      exact ih (by simpa using h) _ _

/-! ## Reverse -/

/-- Inner product of two arrays of length `n`. -/
def ip (n : Nat) (f g : Nat → K) : K := ∑ i ∈ range n, f i * g i

theorem ip_upd_left {n : Nat} {f g : Nat → K} {k : Nat} {x : K} (hk : k < n) :
    ip n (upd f k (f k + x)) g = ip n f g + x * g k := by
  unfold ip
  have e : ∀ i, upd f k (f k + x) i * g i = f i * g i + (if i = k then x * g k else 0) := by
    intro i
    by_cases h : i = k
    · subst h; rw [upd_same, if_pos rfl]; ring
    · rw [upd_ne h, if_neg h]; ring
  simp only [e, Finset.sum_add_distrib]
  rw [Finset.sum_ite_eq' (range n) k, if_pos (mem_range.mpr hk)]

theorem ip_upd_right {n : Nat} {f g : Nat → K} {k : Nat} {x : K} (hk : k < n) (h0 : g k = 0) :
    ip n f (upd g k x) = ip n f g + f k * x := by
  unfold ip
  have e : ∀ i, f i * upd g k x i = f i * g i + (if i = k then f k * x else 0) := by
    intro i
    by_cases h : i = k
    · subst h; rw [upd_same, if_pos rfl, h0]; ring
    · rw [upd_ne h, if_neg h]; ring
  simp only [e, Finset.sum_add_distrib]
  rw [Finset.sum_ite_eq' (range n) k, if_pos (mem_range.mpr hk)]

/-- One operation. -/
theorem stepR_adjoint {v : Nat → K} {op : Operation} {n : Nat} (hin : op.InB n) (hna : op.opcode ≠ .Abs)
    (h1 : op.opcode.computes = true → op.a1 < op.vid) (h2 : op.opcode.computes = true → op.a2 < op.vid)
    {f g : Nat → K} (h0 : op.opcode ≠ .Nop → f op.vid = 0) :
    ip n (stepR v op g) f = ip n g (stepF v op f) := by
  unfold stepF
  rcases hin.cases with hb | ⟨hb, hv⟩ | ⟨hb, hv, -, -, l1, l2⟩ | ⟨hb, hv, -, -, e2, l1⟩
  · simp [stepR, hb, OpCode.computes, OpCode.isBinary, OpCode.isUnary]
  · have hf : upd f op.vid Flt.zero = f := by
      funext i
      by_cases hi : i = op.vid
      · subst hi; rw [upd_same, LawfulFlt.zero_eq, h0 (by simp [hb])]
      · rw [upd_ne hi]
    simp [stepR, hb, OpCode.computes, OpCode.isBinary, OpCode.isUnary, hf]
  · have hc := OpCode.isBinary_computes hb
    have n1 := h1 hc
    have n2 := h2 hc
    have hz := h0 ((OpCode.computes_iff _).mp hc).1
    simp only [stepR, hb, if_true, hc, LawfulFlt.add_eq]
    rw [upd_ne (by omega : op.vid ≠ op.a1), ip_upd_left l2, ip_upd_left l1, ip_upd_right hv hz,
      ffun_linear hna hc, rfun1_eq hna hc, rfun2_eq hb]
    ring
  · have hc := OpCode.isUnary_computes hb
    have hz := h0 ((OpCode.computes_iff _).mp hc).1
    simp only [stepR, hb, OpCode.isUnary_not_binary hb, Bool.false_eq_true, if_false, if_true, hc,
      LawfulFlt.add_eq]
    rw [ip_upd_left l1, ip_upd_right hv hz, ffun_linear hna hc, rfun1_eq hna hc, pd2_unary hb]
    ring

theorem stepF_ne {v : Nat → K} {op : Operation} {f : Nat → K} {k : Nat} (h : k ≠ op.vid) :
    stepF v op f k = f k := by
  unfold stepF
  by_cases hc : op.opcode.computes = true
  · simp only [hc, if_true, upd_ne h]
  · by_cases hk : op.opcode = .Const
    · simp only [hk, if_true]; split <;> rw [upd_ne h]
    · simp only [hc, hk, Bool.false_eq_true, if_false]

theorem sweepR_adjoint {v : Nat → K} {ops : List Operation} {n : Nat} (hin : ∀ op ∈ ops, op.InB n)
    (hna : ∀ op ∈ ops, op.opcode ≠ .Abs) (hs : SSA ops) {f g : Nat → K}
    (h0 : ∀ op ∈ activeOps ops, f op.vid = 0) :
    ip n (sweepR v ops g) f = ip n g (sweepF v ops f) := by
  induction ops generalizing f with
  | nil => rfl
  | cons op ops ih =>
    have hs' : SSA ops := by
      by_cases hn : op.opcode = .Nop
      · have : activeOps (op :: ops) = activeOps ops := by simp [activeOps, hn]
        exact ⟨this ▸ hs.sorted, this ▸ hs.a1_lt, this ▸ hs.a2_lt⟩
      · have : activeOps (op :: ops) = op :: activeOps ops := activeOps_cons hn ops
        obtain ⟨s1, s2, s3⟩ := hs
        rw [this] at s1 s2 s3
        exact ⟨(List.pairwise_cons.mp s1).2, fun o ho => s2 o (by simp [ho]), fun o ho => s3 o (by simp [ho])⟩
    show ip n (stepR v op (sweepR v ops g)) f = ip n g (sweepF v ops (stepF v op f))
    have hmem : op.opcode ≠ .Nop → op ∈ activeOps (op :: ops) := fun h => by simp [mem_activeOps, h]
    have hc : op.opcode.computes = true → op.opcode ≠ .Nop := fun h => ((OpCode.computes_iff _).mp h).1
    rw [stepR_adjoint (hin op (by simp)) (hna op (by simp)) (fun h => hs.a1_lt op (hmem (hc h)) h)
      (fun h => hs.a2_lt op (hmem (hc h)) h) (fun h => h0 op (hmem h)),
      ih (fun o ho => hin o (by simp [ho])) (fun o ho => hna o (by simp [ho])) hs']
    intro o ho
    have ho' : o ∈ activeOps (op :: ops) := by
      rw [mem_activeOps] at ho ⊢; exact ⟨by simp [ho.1], ho.2⟩
    by_cases hn : op.opcode = .Nop
    · have : stepF v op f = f := by
        unfold stepF; simp [hn, OpCode.computes, OpCode.isBinary, OpCode.isUnary]
      rw [this]; exact h0 o ho'
    · have hlt : op.vid < o.vid := by
        have := hs.sorted
        rw [activeOps_cons hn, List.map_cons, List.pairwise_cons] at this
        exact this.1 _ (List.mem_map.mpr ⟨o, ho, rfl⟩)
      rw [stepF_ne (by omega)]; exact h0 o ho'

/-! ## Inner products with scattered vectors -/

theorem ip_zero_left (n : Nat) (g : Nat → K) : ip n (fun _ => 0) g = 0 := by simp [ip]

theorem ip_scatter {n : Nat} {ids : List Nat} (hnd : ids.Nodup) (hlt : ∀ i ∈ ids, i < n) {xs : List K}
    {f g : Nat → K} (h0 : ∀ i ∈ ids, f i = 0) :
    ip n (scatterFn ids xs f) g = ip n f g + dot xs (ids.map g) := by
  induction ids generalizing xs f with
  | nil => simp [scatterFn, dot]
  | cons k ids ih =>
    cases xs with
    | nil => simp [scatterFn, dot]
    | cons x xs =>
      simp only [List.nodup_cons] at hnd
      rw [scatterFn, ih hnd.2 (fun i hi => hlt i (by simp [hi])) (by
        intro i hi
        have : i ≠ k := by rintro rfl; exact hnd.1 hi
        rw [upd_ne this]; exact h0 i (by simp [hi]))]
      have hk := h0 k (by simp)
      have e : upd f k x = upd f k (f k + x) := by rw [hk, zero_add]
      rw [e, ip_upd_left (hlt k (by simp))]
      simp only [dot, List.map_cons, List.zipWith_cons_cons, List.sum_cons]
      ring

theorem ip_comm (n : Nat) (f g : Nat → K) : ip n f g = ip n g f := by
  unfold ip; exact Finset.sum_congr rfl (fun i _ => mul_comm _ _)

theorem dot_comm (a b : List K) : dot a b = dot b a := by
  unfold dot
  rw [List.zipWith_comm]
  congr 1
  simp only [mul_comm]

/-- The adjoint identity on a well formed tape. -/
theorem Tape.WF.adjoint {t : Tape K} (h : t.WF) (hna : t.AbsFree) (hnd : t.deps.Nodup) (ybar dx : List K) :
    dot ybar (t.deps.map (sweepF (fn t.vals) t.ops (scatterFn t.indeps dx (fun _ => Flt.zero)))) =
    dot (t.indeps.map (sweepR (fn t.vals) t.ops (scatterFn t.deps ybar (fun _ => Flt.zero)))) dx := by
  have key := sweepR_adjoint (v := fn t.vals) (n := t.vals.length) h.inB hna h.ssa
    (f := scatterFn t.indeps dx (fun _ => Flt.zero)) (g := scatterFn t.deps ybar (fun _ => Flt.zero)) (by
      intro op hop
      rw [scatterFn_not_mem (h.vid_fresh op hop), LawfulFlt.zero_eq])
  rw [ip_scatter hnd h.deps_lt (fun _ _ => LawfulFlt.zero_eq), ip_comm,
    ip_scatter h.indeps_nodup h.indeps_lt (fun _ _ => LawfulFlt.zero_eq)] at key
  simp only [LawfulFlt.zero_eq, ip_zero_left, zero_add] at key
  simp only [LawfulFlt.zero_eq]
  rw [dot_comm _ dx, key]

end Adv
