import Verif.Proof.Ckpt
import Verif.Spec.CkptLog
import Mathlib.Logic.Function.Iterate

/-! # Budget and calls of the closures of `reverse_sequence` -/

set_option linter.unusedSectionVars false

namespace Adv.Ckpt
open Adv

variable {W T R : Type}

theorem toEnd_peak (est : Int → Int → Int) (forward : T → M W T) (N r : Nat) (cps : List (Nat × T)) (s : World W)
    (hs : s.peak ≤ N) :
    (toEnd est forward N r cps s).2.peak ≤ N ∧ ∀ l, (toEnd est forward N r cps s).1 = .ok l → l.length ≤ N := by
  unfold toEnd
  cases cps with
  | nil =>
    simp only [List.head?_nil, unwrap]
    rw [lift_error_bind]
    exact ⟨hs, fun l hl => by cases hl⟩
  | cons q tl =>
    obtain ⟨base, x⟩ := q
    simp only [List.head?_cons, unwrap, lift_ok_bind]
    unfold subU
    by_cases h1 : base ≤ r
    · rw [if_pos h1, lift_ok_bind]
      by_cases h2 : ((base, x) :: tl).length ≤ N
      · rw [if_pos h2, lift_ok_bind]
        by_cases h3 : r - base > 0
        · rw [if_pos h3]
          exact advance_peak est forward base _ N _ _ _ _ _ _ _ (by omega) hs
        · rw [if_neg h3]
          refine ⟨hs, fun l hl => ?_⟩
          have : (base, x) :: tl = l := by injection hl
          rw [← this]; exact h2
      · rw [if_neg h2, lift_error_bind]
        exact ⟨hs, fun l hl => by cases hl⟩
    · rw [if_neg h1, lift_error_bind]
      exact ⟨hs, fun l hl => by cases hl⟩

theorem call_peak {α : Type} (m : M W α) (s : World W) : (call m s).2.peak = s.peak := rfl

theorem mainLoop_peak (est : Int → Int → Int) (forward : T → M W T) (reverse : T → R → M W R) (identity : T → M W R)
    (N : Nat) : ∀ (r : Nat) (cps : List (Nat × T)) (result : Option R) (s : World W), s.peak ≤ N →
      (mainLoop est forward reverse identity N r cps result s).2.peak ≤ N := by
  intro r
  induction r with
  | zero => intro cps result s hs; exact hs
  | succ r ih =>
    intro cps result s hs
    unfold mainLoop
    obtain ⟨h1, -⟩ := toEnd_peak est forward N (r + 1) cps s hs
    rw [M.bind_apply]
    rcases ht : toEnd est forward N (r + 1) cps s with ⟨e | l, s1⟩
    · rw [ht] at h1; exact h1
    · rw [ht] at h1
      simp only at h1 ⊢
      rcases l with _ | ⟨⟨i, cp⟩, rest⟩
      · exact h1
      · simp only
        by_cases hi : i = r
        · simp only [hi, decide_true, assertR, if_true, lift_ok_bind]
          have hcall : ∀ m : M W R, ((call m >>= fun a =>
              mainLoop est forward reverse identity N r rest (some a)) s1).2.peak ≤ N := by
            intro m
            rw [M.bind_apply]
            have hp := call_peak m s1
            rcases hc : call m s1 with ⟨e | a, s2⟩
            · rw [hc] at hp; simp only at hp ⊢; omega
            · rw [hc] at hp
              simp only at hp ⊢
              exact ih rest (some a) s2 (by omega)
          cases result with
          | none => exact hcall _
          | some right => exact hcall _
        · simp only [hi, decide_false, assertR, if_false, Bool.false_eq_true]
          rw [lift_error_bind]
          exact h1

theorem reverseSequence_peak (est : Int → Int → Int) (capMax : Nat) (x : T) (n N : Nat)
    (forward : T → M W T) (reverse : T → R → M W R) (identity : T → M W R) (s : World W) (hs : s.peak ≤ N) :
    (reverseSequence est capMax x n N forward reverse identity s).2.peak ≤ N := by
  unfold reverseSequence
  by_cases h1 : N ≥ 2
  · simp only [h1, decide_true, assertR, if_true, lift_ok_bind]
    by_cases h2 : N ≤ capMax
    · rw [if_pos h2, lift_ok_bind, pushBack_bind]
      have : max s.peak (List.length ([] : List (Nat × T)) + 1) ≤ N := by simp; omega
      unfold addU
      by_cases h3 : n + 1 < 2 ^ 64
      · rw [if_pos h3, lift_ok_bind]
        exact mainLoop_peak est forward reverse identity N _ _ _ _ this
      · rw [if_neg h3, lift_error_bind]
        exact this
    · rw [if_neg h2, lift_error_bind]
      exact hs
  · simp only [h1, decide_false, assertR, if_false, Bool.false_eq_true]
    rw [lift_error_bind]
    exact hs

/-- If the last element of the remaining sequence is stored, nothing happens. -/
theorem toEnd_idle (est : Int → Int → Int) (forward : T → M W T) (N r : Nat) (cps : List (Nat × T)) (s : World W)
    (h : cps.head?.map Prod.fst = some r) (hlen : cps.length < N) :
    toEnd est forward N (r + 1) cps s = (.ok cps, s) := by
  cases cps with
  | nil => simp at h
  | cons q tl =>
    obtain ⟨base, x⟩ := q
    simp only [List.head?_cons, Option.map_some, Option.some.injEq] at h
    subst h
    unfold toEnd
    simp only [List.head?_cons, unwrap, lift_ok_bind, subU]
    rw [if_pos (by omega), lift_ok_bind, if_pos (by omega), lift_ok_bind, if_pos (by omega)]
    have e : ∀ c, schedNext est (base + 1 - base) 0 c (base + 1 - base) = .ok none :=
      fun c => schedNext_none _ _ _ _ (Or.inl (by omega))
    rcases N - ((base, x) :: tl).length with _ | c <;> · unfold advance; rw [e]; rfl

/-! ## Calls -/

section log
variable (f : T → T) (rev : T → R → R) (idn : T → R) (x0 : T)

/-- The calls of `forward` on `k` elements from `x_i` on. -/
def fwdCalls (i : Nat) : Nat → List (Call T R)
  | 0 => []
  | k + 1 => .fwd (f^[i] x0) :: fwdCalls (i + 1) k

theorem iterM_logged : ∀ (k i : Nat) (w : List (Call T R)),
    iterM (fun x => logged (R := R) (.fwd x) (f x)) k (f^[i] x0) w =
      (.ok (f^[i + k] x0), w ++ fwdCalls f x0 i k) := by
  intro k
  induction k with
  | zero => intro i w; simp [iterM, fwdCalls]
  | succ k ih =>
    intro i w
    unfold iterM
    rw [M.bind_ok (w' := w ++ [.fwd (f^[i] x0)]) (a := f^[i + 1] x0) (by
      unfold logged; rw [Function.iterate_succ_apply'])]
    rw [ih (i + 1)]
    simp [fwdCalls, show i + 1 + k = i + (k + 1) by omega]

theorem fwdCalls_length (i k : Nat) : (fwdCalls (R := R) f x0 i k).length = k := by
  induction k generalizing i with
  | zero => rfl
  | succ k ih => simp [fwdCalls, ih]

theorem fwdCalls_isFwd (i k : Nat) : ∀ c ∈ fwdCalls (R := R) f x0 i k, c.isFwd = true := by
  induction k generalizing i with
  | zero => simp [fwdCalls]
  | succ k ih =>
    intro c hc
    rcases List.mem_cons.mp hc with rfl | hc
    · rfl
    · exact ih (i + 1) c hc

theorem fwdCalls_filter (i k : Nat) : (fwdCalls (R := R) f x0 i k).filter (fun c => !c.isFwd) = [] := by
  rw [List.filter_eq_nil_iff]
  intro c hc
  simp [fwdCalls_isFwd f x0 i k c hc]

theorem fwdCalls_count (i k : Nat) : (fwdCalls (R := R) f x0 i k).countP (·.isFwd) = k := by
  rw [List.countP_eq_length.mpr (fwdCalls_isFwd f x0 i k), fwdCalls_length]

theorem logged_fwOk (n : Nat) (J : List (Call T R) → Prop) (hJ : ∀ l c, J l → J (l ++ [c])) :
    FwOk (fun _ => J) (fun i x => x = f^[i] x0) (fun _ => False) (fun x => logged (R := R) (.fwd x) (f x)) n := by
  intro w i x _ hx h
  refine ⟨?_, fun e he => by cases he⟩
  intro y hy
  injection hy with hy
  refine ⟨?_, hJ _ _ h⟩
  show y = f^[i + 1] x0
  rw [← hy, hx, Function.iterate_succ_apply']

theorem call_logged_bind {α β : Type} (c : Call T R) (a : α) (g : α → M (World (List (Call T R))) β)
    (s : World (List (Call T R))) : (call (logged c a) >>= g) s = g a ⟨s.w ++ [c], s.peak⟩ := rfl

theorem isFwd_rev (x : T) (y : R) : (Call.rev x y).isFwd = false := rfl
theorem isFwd_idn (x : T) : (Call.idn x : Call T R).isFwd = false := rfl

/-- Calls made by the main loop after the first sweep. -/
theorem mainLoop_log {est : Int → Int → Int} (hest : SoundEst est) {n N : Nat} (hn : n + 1 < 2 ^ 64)
    (hsz : SizeOk n N) : ∀ (r : Nat) (cps : List (Nat × T)) (s : World (List (Call T R))), r ≤ n →
      Inv (fun i x => x = f^[i] x0) n N r cps → (n + 1 ≤ N → cps.length = r) →
      ∃ extra p, mainLoop est (fun x => logged (.fwd x) (f x)) (fun x y => logged (.rev x y) (rev x y))
          (fun x => logged (.idn x) (idn x)) N r cps (some (foldFrom f rev idn x0 n (n - r))) s =
          (.ok (foldFrom f rev idn x0 n n), ⟨s.w ++ extra, p⟩) ∧
        extra.filter (fun c => !c.isFwd) = revCalls f rev idn x0 n r ∧
        (n + 1 ≤ N → extra.countP (·.isFwd) = 0) ∧ 2 * extra.countP (·.isFwd) ≤ r * (r - 1) := by
  intro r
  induction r with
  | zero =>
    intro cps s _ hI hfull
    exact ⟨[], s.peak, by simp [mainLoop, unwrap], rfl, fun _ => rfl, by simp⟩
  | succ r ih =>
    intro cps s hr hI hfull
    obtain ⟨base, x, tl, hcps, hb, hx, hte⟩ := toEnd_spec hest
      (logged_fwOk f x0 _ (fun _ => True) (fun _ _ h => h)) hn hsz (by omega) hI (s := s) (fun _ _ => trivial)
    rcases hte with ⟨e, s', -, k2, -⟩ | ⟨y, rest, s', k1, -, k3, k4, k5, k6⟩
    · exact k2.elim
    · subst hx
      rw [iterM_logged] at k3
      unfold mainLoop
      rw [M.bind_ok k1]
      simp only [decide_true, assertR, if_true, lift_ok_bind]
      subst k4
      have hfr : rev (f^[r] x0) (foldFrom f rev idn x0 n (n - (r + 1))) = foldFrom f rev idn x0 n (n - r) := by
        rw [show n - r = (n - (r + 1)) + 1 by omega, foldFrom, show n - (n - (r + 1) + 1) = r by omega]
      have hrest : n + 1 ≤ N → rest.length = r ∧ r - base = 0 := by
        intro h
        have c1 := hI.contig h
        have c2 := hfull h
        rw [hcps] at c1 c2
        rw [List.length_cons] at c1 c2
        rw [range_reverse_succ, List.map_cons] at c1
        injection c1 with c1 _
        have c4 : base = r := by simp only at c1; omega
        exact ⟨k6 h, by omega⟩
      rw [call_logged_bind, hfr]
      obtain ⟨extra, p, e1, e2, e3, e4⟩ := ih rest
        ⟨s'.w ++ [.rev (f^[r] x0) (foldFrom f rev idn x0 n (n - (r + 1)))], s'.peak⟩ (by omega) k5
        (fun h => (hrest h).1)
      refine ⟨fwdCalls f x0 base (r - base) ++
        .rev (f^[r] x0) (foldFrom f rev idn x0 n (n - (r + 1))) :: extra, p, ?_, ?_, ?_, ?_⟩
      · rw [e1, k3]
        simp
      · rw [List.filter_append, fwdCalls_filter, List.nil_append, List.filter_cons]
        simp only [isFwd_rev, Bool.not_false, if_true, e2, revCalls]
      · intro h
        rw [List.countP_append, List.countP_cons, fwdCalls_count, e3 h, (hrest h).2]
        simp [Call.isFwd]
      · rw [List.countP_append, List.countP_cons, fwdCalls_count]
        simp only [isFwd_rev, Bool.false_eq_true, if_false, Nat.add_zero]
        have : (r + 1) * (r + 1 - 1) = r * (r - 1) + 2 * r := by
          cases r with
          | zero => rfl
          | succ r => simp only [Nat.add_sub_cancel]; ring
        omega

theorem reverseSequence_log {est : Int → Int → Int} (hest : SoundEst est) {n N capMax : Nat} (hn : n + 1 < 2 ^ 64)
    (hsz : SizeOk n N) (hN : 2 ≤ N) (hcap : N ≤ capMax) (s : World (List (Call T R))) :
    ∃ extra p, reverseSequence est capMax x0 n N (fun x => logged (.fwd x) (f x))
        (fun x y => logged (.rev x y) (rev x y)) (fun x => logged (.idn x) (idn x)) s =
        (.ok (foldFrom f rev idn x0 n n), ⟨s.w ++ (fwdCalls f x0 0 n ++ .idn (f^[n] x0) :: extra), p⟩) ∧
      extra.filter (fun c => !c.isFwd) = revCalls f rev idn x0 n n ∧
      (n + 1 ≤ N → extra.countP (·.isFwd) = 0) ∧ 2 * extra.countP (·.isFwd) ≤ n * (n - 1) := by
  rw [reverseSequence_unfold est x0 _ _ _ s hN hcap hn]
  have hI := inv_start (fun i x => x = f^[i] x0) (x := x0) (n := n) rfl hN
  obtain ⟨base, x, tl, hcps, -, hx, hte⟩ := toEnd_spec hest
    (logged_fwOk (R := R) f x0 _ (fun _ => True) (fun _ _ h => h)) hn hsz (le_refl n) hI
    (s := { s with peak := max s.peak 1 }) (fun _ _ => trivial)
  injection hcps with hcps _
  injection hcps with h1 h2
  subst h1; subst h2
  rcases hte with ⟨e, s', -, k2, -⟩ | ⟨y, rest, s', k1, -, k3, k4, k5, k6⟩
  · exact k2.elim
  · have h3 := iterM_logged (R := R) f x0 (n - 0) 0 s.w
    rw [Function.iterate_zero, id] at h3
    rw [h3] at k3
    unfold mainLoop
    rw [M.bind_ok k1]
    simp only [decide_true, assertR, if_true, lift_ok_bind]
    rw [call_logged_bind]
    obtain ⟨extra, p, e1, e2, e3, e4⟩ := mainLoop_log f rev idn x0 hest hn hsz n rest
      ⟨s'.w ++ [.idn y], s'.peak⟩ (le_refl n) k5 k6
    rw [Nat.sub_self] at e1
    subst k4
    refine ⟨extra, p, ?_, e2, e3, e4⟩
    rw [show idn (f^[n] x0) = foldFrom f rev idn x0 n 0 from rfl, e1, k3]
    simp

end log
end Adv.Ckpt
