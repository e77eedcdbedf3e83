import Verif.Proof.CkptLog
import Verif.Proof.CkptEst

/-!
# Checkpointing: C26 – C31

`est` is the value of the floating point estimate of line 34 of checkpointing.rs. `SoundEst est` says that it does
not exceed the number of repetitions; `C30_estimate_sound` shows that every estimate with an error of at most one
half is sound. `SizeOk n N` is the machine word limit: all states fit into the budget, or the binomial
coefficients fit into a word.
-/

set_option linter.unusedSectionVars false

namespace Adv.Props
open Adv Adv.Ckpt

variable {W T R : Type}

/-- A sound estimate, used in examples. -/
def lowEst : Int → Int → Int := fun _ _ => 1

theorem lowEst_sound : SoundEst lowEst := by
  intro c r _ _ _ _ t ht _
  unfold lowEst
  omega

/-! ## C26 -/

/-- C26 for closures without effects; they may panic. -/
theorem C26_reverse_fold {est : Int → Int → Int} (hest : SoundEst est) {n N capMax : Nat} (hn : n + 1 < 2 ^ 64)
    (hsz : SizeOk n N) (hN : 2 ≤ N) (hcap : N ≤ capMax) (fwd : T → Res T) (rev : T → R → Res R) (idn : T → Res R)
    (x : T) (s : Ckpt.World W) :
    (reverseSequence est capMax x n N (fun x => M.lift (fwd x)) (fun x r => M.lift (rev x r))
      (fun x => M.lift (idn x)) s).1 = revFold fwd rev idn n x :=
  (reverseSequence_fold hest (J := fun _ _ => True) (x0 := x) (fwd := fwd) (rev := rev) (idn := idn)
    (forward := fun x => M.lift (fwd x)) (reverse := fun x r => M.lift (rev x r))
    (identity := fun x => M.lift (idn x)) (s := s) hn hsz hN hcap (fun _ _ _ _ _ _ _ => ⟨rfl, fun _ _ => trivial⟩)
    (fun _ _ _ _ => ⟨rfl, fun _ _ => trivial⟩) (fun _ _ _ _ _ _ _ _ _ _ => ⟨rfl, fun _ _ => trivial⟩)
    trivial).1

/-- C26 for closures with effects on a world `W`: it suffices that their results do not depend on the world as
long as it satisfies an invariant `J r`, `r` being the number of elements that are not yet reversed. -/
theorem C26_reverse_fold_effects {est : Int → Int → Int} (hest : SoundEst est) {J : Nat → W → Prop}
    {forward : T → M W T} {reverse : T → R → M W R} {identity : T → M W R}
    {fwd : T → Res T} {rev : T → R → Res R} {idn : T → Res R} {x0 : T}
    {n N capMax : Nat} (hn : n + 1 < 2 ^ 64) (hsz : SizeOk n N) (hN : 2 ≤ N) (hcap : N ≤ capMax)
    (hf : ∀ r i x w, i < n → state fwd i x0 = .ok x → J r w →
      (forward x w).1 = fwd x ∧ ∀ y, fwd x = .ok y → J r (forward x w).2)
    (hid : ∀ x w, state fwd n x0 = .ok x → J (n + 1) w →
      (identity x w).1 = idn x ∧ ∀ y, idn x = .ok y → J n (identity x w).2)
    (hrv : ∀ r x x' right w, r < n → state fwd r x0 = .ok x → fwd x = .ok x' →
      revFold fwd rev idn (n - (r + 1)) x' = .ok right → J (r + 1) w →
      (reverse x right w).1 = rev x right ∧ ∀ y, rev x right = .ok y → J r (reverse x right w).2)
    {s : Ckpt.World W} (hs : J (n + 1) s.w) :
    (reverseSequence est capMax x0 n N forward reverse identity s).1 = revFold fwd rev idn n x0 :=
  (reverseSequence_fold hest hn hsz hN hcap hf hid hrv hs).1

/-- The Gauss sum of the test, and a step that panics. -/
example : SoundEst lowEst ∧ SizeOk 37 9 ∧ revFold (T := Nat) (R := Nat) (fun x => .ok (x + 1))
    (fun x y => .ok (x + y)) .ok 37 0 = .ok 703 ∧
    revFold (T := Nat) (R := Nat) (fun x => if x = 20 then .error .user else .ok (x + 1))
    (fun x y => .ok (x + y)) .ok 37 0 = .error .user :=
  ⟨lowEst_sound, Or.inr (by decide), by decide +kernel, by decide +kernel⟩

/-! ## C27 -/

/-- C27: at no point are more than `ncheckpoints` states stored, whatever the closures do (they may panic, have
effects and be nondeterministic), and whatever the estimate is. The ghost variable `peak` is the largest number of
states that were stored at the same time. -/
theorem C27_budget (est : Int → Int → Int) (capMax : Nat) (x : T) (n N : Nat)
    (forward : T → M W T) (reverse : T → R → M W R) (identity : T → M W R) (w : W) :
    (reverseSequence est capMax x n N forward reverse identity ⟨w, 0⟩).2.peak ≤ N :=
  reverseSequence_peak est capMax x n N forward reverse identity ⟨w, 0⟩ (Nat.zero_le _)

/-- The budget is used. -/
example : (reverseSequence (W := Unit) lowEst 1000 0 37 9 (fun x => pure (x + 1)) (fun x y => pure (x + y))
    (fun x => pure x) ⟨(), 0⟩).2.peak = 9 := by decide +kernel

/-! ## C28 -/

/-- C28: if the closures do not panic, `reverse_sequence` does not panic (and it terminates, because the model is a
total function). -/
theorem C28_total {est : Int → Int → Int} (hest : SoundEst est) {n N capMax : Nat} (hn : n + 1 < 2 ^ 64)
    (hsz : SizeOk n N) (hN : 2 ≤ N) (hcap : N ≤ capMax) (x : T)
    (forward : T → M W T) (reverse : T → R → M W R) (identity : T → M W R)
    (hf : ∀ x w e, (forward x w).1 ≠ .error e) (hr : ∀ x r w e, (reverse x r w).1 ≠ .error e)
    (hi : ∀ x w e, (identity x w).1 ≠ .error e) (s : Ckpt.World W) :
    ∃ y s', reverseSequence est capMax x n N forward reverse identity s = (.ok y, s') := by
  rcases reverseSequence_spec hest (J := fun _ _ => True) (P := fun _ _ => True) (Q := fun _ _ => True)
    (E := fun _ => False) hn hsz hN hcap
    (fun _ _ w i x _ _ _ => ⟨fun _ _ => ⟨trivial, trivial⟩, fun e he => hf x w e he⟩)
    (fun x w _ _ => ⟨fun _ _ => ⟨trivial, trivial⟩, fun e he => hi x w e he⟩)
    (fun r x right w _ _ _ _ => ⟨fun _ _ => ⟨trivial, trivial⟩, fun e he => hr x right w e he⟩)
    (x := x) trivial (s := s) trivial with ⟨y, s', h, -⟩ | ⟨e, s', -, h⟩
  · exact ⟨y, s', h⟩
  · exact h.elim

/-- C28: with fewer than two checkpoints it panics, before calling any closure. -/
theorem C28_too_few_checkpoints (est : Int → Int → Int) (capMax : Nat) (x : T) (n : Nat) {N : Nat} (hN : N < 2)
    (forward : T → M W T) (reverse : T → R → M W R) (identity : T → M W R) (s : Ckpt.World W) :
    reverseSequence est capMax x n N forward reverse identity s = (.error .assertFailed, s) := by
  unfold reverseSequence
  have : ¬ (N ≥ 2) := by omega
  simp only [this, decide_false, assertR, if_false, Bool.false_eq_true]
  rfl

example : (∀ x w e, ((fun x => pure (x + 1) : Nat → M Unit Nat) x w).1 ≠ .error e) ∧ SizeOk 1000000 1000 :=
  ⟨fun _ _ _ h => (by cases h), Or.inr (by decide)⟩

/-- The word limit `SizeOk` is needed: with 2³³+1 checkpoints and 2³³+1 steps the binomial coefficient of the
first call of `find_t` does not fit into a word, and `reverse_sequence` panics although the closures do not. -/
theorem C28_word_limit_counterexample {est : Int → Int → Int} (hest : SoundEst est) {capMax c : Nat}
    (hc : c = 2 ^ 33) (hcap : c + 1 ≤ capMax) (x : T) (forward : T → M W T) (reverse : T → R → M W R)
    (identity : T → M W R) (s : Ckpt.World W) :
    (reverseSequence est capMax x (c + 1) (c + 1) forward reverse identity s).1 = .error .overflow := by
  have hc2 : Nat.choose (c + 2) c = 36893488160304005121 := by
    rw [Nat.choose_symm_add, Nat.choose_two_right, hc]
    norm_num
  have hc1 : Nat.choose (c + 1) c = c + 1 := by
    rw [Nat.choose_symm_add, Nat.choose_one_right]
  have b2 : beta (c : Int) 2 = .error .overflow := by
    unfold beta
    rw [if_neg (by omega)]
    simp only [Int.toNat_natCast, show (2 : Int).toNat = 2 from rfl, hc2]
    rw [if_neg (by omega)]
  have blt : ∀ t : Int, t < 2 → ∃ b, beta (c : Int) t = .ok b ∧ b ≤ c + 1 := by
    intro t ht
    by_cases h : t ≤ 0
    · exact ⟨0, by unfold beta; rw [if_pos (by omega)], by omega⟩
    · obtain rfl : t = 1 := by omega
      refine ⟨c + 1, ?_, le_refl _⟩
      unfold beta
      rw [if_neg (by omega)]
      simp only [Int.toNat_natCast, show (1 : Int).toNat = 1 from rfl, hc1]
      rw [if_pos (by omega)]
  have hloop : ∀ (k : Nat) (t : Int), t ≤ 2 → 2 - t ≤ k →
      findTLoop (c : Int) ((c + 2 : Nat) : Int) k t = .error .overflow := by
    intro k
    induction k with
    | zero =>
      intro t h1 h2
      obtain rfl : t = 2 := by omega
      unfold findTLoop
      rw [b2]; rfl
    | succ k ih =>
      intro t h1 h2
      by_cases ht : t = 2
      · subst ht
        unfold findTLoop
        rw [b2]; rfl
      · obtain ⟨b, e, hb⟩ := blt t (by omega)
        unfold findTLoop
        rw [e, bind_ok_eq, toISize_of_lt (by omega), if_pos (by omega)]
        exact ih (t + 1) (by omega) (by push_cast at h2; omega)
  have hE := hest c (c + 2) (by omega) (by omega) (by omega) (by omega) 2 (by omega) (by rw [hc2]; omega)
  have hfind : findT est c (c + 2) = .error .overflow := by
    unfold findT
    simp only [toISize_of_lt (show c < 2 ^ 63 by omega), toISize_of_lt (show c + 2 < 2 ^ 63 by omega)]
    rw [if_neg (by omega), hloop _ _ (by unfold satISize; omega) (by unfold satISize; omega)]
    rfl
  have hcp : partialCp est c (c + 2) = .error .overflow := by
    unfold partialCp nextCheckpoint
    rw [if_neg (by omega), if_neg (by omega), if_pos (by omega), hfind]
    rfl
  have hs : schedNext est (c + 2) 0 c (c + 2) = .error .overflow := by
    unfold schedNext
    rw [if_pos (by omega), hcp]
    rfl
  have ha : ∀ cps s, advance est forward 0 (c + 2) c 0 (c + 2) 0 x cps s = (.error .overflow, s) := by
    intro cps s
    cases c with
    | zero => omega
    | succ k =>
      unfold advance
      rw [hs]
      rfl
  rw [reverseSequence_unfold est x forward reverse identity s (by omega) hcap (by omega)]
  unfold mainLoop toEnd
  simp only [List.head?_cons, unwrap, lift_ok_bind, subU]
  rw [M.bind_error (e := .overflow) (w' := { s with peak := max s.peak 1 })]
  rw [if_pos (by omega), lift_ok_bind, if_pos (by simp), lift_ok_bind, if_pos (by omega)]
  exact ha _ _

/-! ## C29 -/

/-- C29: shape of the schedules. -/
theorem C29_schedule {est : Int → Int → Int} (hest : SoundEst est) {c r : Nat} (hr : r < 2 ^ 64)
    (hfit : r - 1 ≤ c ∨ r * (c + 1) < 2 ^ 63) :
    ∃ l, schedule est c r = .ok l ∧ l.Pairwise (· < ·) ∧ l.length ≤ c ∧ (∀ i ∈ l, 1 ≤ i ∧ i ≤ r - 1) ∧
      (l = [] ↔ c = 0 ∨ r ≤ 1) ∧ (l ≠ [] → l.getLast? = some (r - 1)) ∧
      (r - 1 ≤ c → l = List.range' 1 (r - 1)) := by
  by_cases h0 : r = 0
  · subst h0
    refine ⟨[], ?_, by simp, by simp, by simp, by simp, by simp, by simp⟩
    have e : ∀ c, schedNext est 0 0 c 0 = .ok none := fun c => schedNext_none _ _ _ _ (Or.inl (by omega))
    unfold schedule
    cases c <;> · unfold schedFrom; rw [e]; rfl
  · obtain ⟨l, hl⟩ := schedFrom_total hest hr c 0 (by omega) hfit
    obtain ⟨h1, h2, h3, h4, h5, h6⟩ := schedFrom_shape hr c 0 l (by omega) hl
    refine ⟨l, hl, h1, h3, fun i hi => by have := h2 i hi; omega, ?_, h5, ?_⟩
    · rw [h4]; omega
    · intro h
      have := h6 (by omega)
      simpa using this

/-- C29: the tail of a schedule is the shifted schedule for the remaining problem. -/
theorem C29_tail {est : Int → Int → Int} {c r cp : Nat} {l : List Nat} (hr : r < 2 ^ 64)
    (e : schedule est c r = .ok (cp :: l)) :
    (schedule est (c - 1) (r - cp)).map (List.map (· + cp)) = .ok l := by
  have h0 : r ≠ 0 := by
    rintro rfl
    have e' : ∀ c, schedNext est 0 0 c 0 = .ok none := fun c => schedNext_none _ _ _ _ (Or.inl (by omega))
    unfold schedule at e
    cases c <;> · unfold schedFrom at e; rw [e'] at e; injection e with e; cases e
  have hsh := schedFrom_shape hr c 0 _ (by omega) e
  have hcp := hsh.2.1 cp (by simp)
  unfold schedule at e ⊢
  cases c with
  | zero =>
    have := hsh.2.2.1
    simp at this
  | succ c =>
    unfold schedFrom at e
    have hr1 : ¬ (0 + 1 = r) := fun h => by
      have := hsh.2.2.2.1.mpr (Or.inr h)
      simp at this
    rcases ep : partialCp est (c + 1) r with er | p
    · unfold schedNext at e
      rw [if_pos (by omega), ep] at e
      cases e
    · have es := schedNext_some (off := 0) (by omega) (by omega) hr ep
      rw [Nat.sub_zero] at es
      rw [es] at e
      simp only [bind_ok_eq, Nat.zero_add] at e
      rcases hl : schedFrom est r c p (r - p) with er | l'
      · rw [hl] at e; cases e
      · rw [hl, bind_ok_eq] at e
        injection e with e
        injection e with e1 e2
        subst e1; subst e2
        have := schedFrom_shift est c r p 0 (by omega) hr
        rw [Nat.add_zero, hl] at this
        rw [Nat.add_sub_cancel, this, Nat.sub_zero]

/-- The schedules of the tests. -/
example : schedule lowEst 0 100 = .ok [] ∧ schedule lowEst 1 100 = .ok [99] ∧ schedule lowEst 2 100 = .ok [87, 99] ∧
    schedule lowEst 5 100 = .ok [45, 70, 86, 96, 99] ∧ schedule lowEst 42 4 = .ok [1, 2, 3] := by decide +kernel

/-! ## C30 -/

/-- C30: for `c ≥ 2` and `r ≥ 1` `find_t` returns the least `t ≥ 1` with `r ≤ binomial(c+t, c)`. -/
theorem C30_find_t {est : Int → Int → Int} (hest : SoundEst est) {c r : Nat} (hc : 2 ≤ c) (hr : 1 ≤ r)
    (hfit : r * (c + 1) < 2 ^ 63) : ∃ t, findT est c r = .ok t ∧ IsLeastT c r t := by
  obtain ⟨t, h⟩ := exists_leastT (c := c) (by omega) r
  have hb := h.bound hr (by omega)
  exact ⟨t, findT_ok hest hc hr (by nlinarith) h (by omega), h⟩

/-- C30: for `c = 1` it is `max(r-1, 0)`. -/
theorem C30_find_t_one (est : Int → Int → Int) {r : Nat} (hr : r < 2 ^ 63) : findT est 1 r = .ok (r - 1) :=
  findT_one est hr

/-- C30: an estimate that approximates the exact real value of the expression in line 34 with an error of at most
one half, rounded up, is sound. -/
theorem C30_estimate_sound {est : Int → Int → Int} {approx : ℕ → ℕ → ℝ}
    (hest : ∀ c r : ℕ, est c r = ⌈approx c r⌉)
    (h : ∀ c r : ℕ, 2 ≤ c → c < 2 ^ 63 → 1 ≤ r → r < 2 ^ 63 → |approx c r - exactEst c r| ≤ 1 / 2) : SoundEst est :=
  soundEst_of_approx hest h

/-- C30: in particular the exactly computed estimate is sound, so the assertions of `find_t` cannot fail. -/
theorem C30_exact_estimate {c r : Nat} (hc : 2 ≤ c) (hr : 1 ≤ r) (hfit : r * (c + 1) < 2 ^ 63) :
    ∃ t, findT (fun c r => ⌈exactEst c r⌉) c r = .ok t ∧ IsLeastT c r t :=
  C30_find_t (C30_estimate_sound (approx := fun c r => exactEst c r) (fun _ _ => by simp)
    (fun _ _ _ _ _ _ => by simp)) hc hr hfit

/-- An estimate that is too large makes the assertion fail. -/
example : findT lowEst 3 100 = .ok 7 ∧ findT (fun _ _ => 8) 3 100 = .error .assertFailed := by decide +kernel

/-! ## C31 -/

/-- C31: the calls of the closures. `log` is the chronological list of calls. First `forward` is called on
`x_0, …, x_{n-1}`, then `identity` on `x_n`; ignoring the calls of `forward`, `reverse` is then called on
`x_{n-1}, …, x_0`. `forward` is called at least `n` times, exactly `n` times if `ncheckpoints > nsteps`, and never more than
`n(n+1)/2` times. -/
theorem C31_calls {est : Int → Int → Int} (hest : SoundEst est) {n N capMax : Nat} (hn : n + 1 < 2 ^ 64)
    (hsz : SizeOk n N) (hN : 2 ≤ N) (hcap : N ≤ capMax) (f : T → T) (rev : T → R → R) (idn : T → R) (x0 : T) :
    ∃ log p, reverseSequence est capMax x0 n N (fun x => logged (.fwd x) (f x))
        (fun x y => logged (.rev x y) (rev x y)) (fun x => logged (.idn x) (idn x)) ⟨[], 0⟩ =
        (.ok (foldFrom f rev idn x0 n n), ⟨log, p⟩) ∧
      log.take n = (List.range n).map (fun i => .fwd (f^[i] x0)) ∧
      log.filter (fun c => !c.isFwd) = .idn (f^[n] x0) :: revCalls f rev idn x0 n n ∧
      n ≤ log.countP (·.isFwd) ∧ (n < N → log.countP (·.isFwd) = n) ∧ 2 * log.countP (·.isFwd) ≤ n * (n + 1) := by
  obtain ⟨extra, p, h1, h2, h3, h4⟩ := reverseSequence_log (R := R) f rev idn x0 hest hn hsz hN hcap ⟨[], 0⟩
  have hcnt : (fwdCalls (R := R) f x0 0 n ++ .idn (f^[n] x0) :: extra).countP (·.isFwd) =
      n + extra.countP (·.isFwd) := by
    rw [List.countP_append, List.countP_cons, fwdCalls_count]
    simp [isFwd_idn]
  refine ⟨_, p, h1, ?_, ?_, ?_, ?_, ?_⟩
  · have hl := fwdCalls_length (R := R) f x0 0 n
    rw [List.nil_append, List.take_append_of_le_length (by omega), List.take_of_length_le (by omega)]
    have : ∀ k i, fwdCalls (R := R) f x0 i k = (List.range' i k).map (fun i => .fwd (f^[i] x0)) := by
      intro k
      induction k with
      | zero => intro i; rfl
      | succ k ih => intro i; rw [fwdCalls, ih, List.range'_succ]; rfl
    rw [this, List.range_eq_range']
  · rw [List.nil_append, List.filter_append, fwdCalls_filter, List.nil_append, List.filter_cons]
    simp only [isFwd_idn, Bool.not_false, if_true, h2]
  · rw [List.nil_append, hcnt]; omega
  · intro h
    rw [List.nil_append, hcnt, h3 h]; rfl
  · rw [List.nil_append, hcnt]
    have : n * (n + 1) = n * (n - 1) + 2 * n := by
      cases n with
      | zero => rfl
      | succ n => simp only [Nat.add_sub_cancel]; ring
    omega

example : (reverseSequence lowEst 1000 0 3 2 (fun x => logged (.fwd x) (x + 1)) (fun x y => logged (.rev x y) (x + y))
    (fun x => logged (.idn x) x) ⟨[], 0⟩).2.w =
    [.fwd 0, .fwd 1, .fwd 2, .idn 3, .fwd 0, .fwd 1, .rev 2 3, .fwd 0, .rev 1 5, .rev 0 6] := by decide +kernel

end Adv.Props
