import Verif.Proof.CkptCost

/-! # `reverse_sequence` with closures that may be called a limited number of times -/

namespace Adv.Ckpt
open Adv

variable {W T R : Type}

/-- The main loop for closures described by pre- and postconditions; `J k` says that `k` more calls of `forward` and
`reverse` are possible. -/
theorem mainLoop_budget {est : Int → Int → Int} (hest : SoundEst est) {J : Nat → W → Prop} {P : Nat → T → Prop}
    {Q : Nat → R → Prop} {E : Err → Prop} {forward : T → M W T} {reverse : T → R → M W R} {identity : T → M W R}
    {n N : Nat} (hn : n + 1 < 2 ^ 64) (hsz : SizeOk n N)
    (hf : ∀ k i x w, i < n → P i x → J (k + 1) w →
      (∀ y, (forward x w).1 = .ok y → P (i + 1) y ∧ J k (forward x w).2) ∧ (∀ e, (forward x w).1 = .error e → E e))
    (hid : ∀ k x w, P n x → J k w → (∀ y, (identity x w).1 = .ok y → Q n y ∧ J k (identity x w).2) ∧
      (∀ e, (identity x w).1 = .error e → E e))
    (hrv : ∀ k r x right w, r < n → P r x → Q (r + 1) right → J (k + 1) w →
      (∀ y, (reverse x right w).1 = .ok y → Q r y ∧ J k (reverse x right w).2) ∧
      (∀ e, (reverse x right w).1 = .error e → E e)) :
    ∀ (r : Nat) (cps : List (Nat × T)) (result : Option R) (s : World W), r ≤ n + 1 → Inv P n N r cps →
      J (pot N r (cps.map Prod.fst) + min r n) s.w →
      (r = n + 1 ∧ result = none ∨ r ≤ n ∧ ∃ y, result = some y ∧ Q r y) →
      (∃ y s', mainLoop est forward reverse identity N r cps result s = (.ok y, s') ∧ Q 0 y ∧ J 0 s'.w) ∨
      (∃ e s', mainLoop est forward reverse identity N r cps result s = (.error e, s') ∧ E e) := by
  intro r
  induction r with
  | zero =>
    intro cps result s h1 hI hJ hres
    have hcps : cps = [] := by
      cases cps with
      | nil => rfl
      | cons q tl => have := hI.lt q (by simp); omega
    subst hcps
    rcases hres with ⟨h, -⟩ | ⟨-, y, rfl, hy⟩
    · omega
    · refine Or.inl ⟨y, s, rfl, hy, ?_⟩
      simpa [pot] using hJ
  | succ r ih =>
    intro cps result s h1 hI hJ hres
    obtain ⟨base, x, tl, hcps⟩ : ∃ base x tl, cps = (base, x) :: tl := by
      cases cps with
      | nil => have := hI.zero (by omega); simp at this
      | cons q tl => exact ⟨q.1, q.2, tl, rfl⟩
    have hb : base ≤ r := by
      have := hI.lt (base, x) (by simp [hcps])
      simp only at this; omega
    set K := pot N (r + 1) (cps.map Prod.fst) + min (r + 1) n with hK
    have hKr : r - base ≤ K - min (r + 1) n := by
      have : revCost (r + 1 - base) (N - (tl.length + 1)) ≥ r - base := by
        unfold revCost
        have h0 : r + 1 - base = (r - base) + 1 := by omega
        rw [h0, Finset.sum_range_succ']
        simp
      rw [hK, hcps]
      simp only [List.map_cons, pot, List.length_map]
      omega
    obtain ⟨base', x', tl', hcps', -, hx, hte⟩ := toEnd_spec hest (P := P) (E := E) (forward := forward) (n := n)
      (N := N) (r := r) (cps := cps) (s := s)
      (J := fun i w => base ≤ i ∧ J (K - (i - base)) w)
      (fun w i x hi hx hJ' => by
        obtain ⟨hbi, hJ'⟩ := hJ'
        rw [show K - (i - base) = (K - (i + 1 - base)) + 1 by omega] at hJ'
        obtain ⟨g1, g2⟩ := hf _ i x w (by omega) hx hJ'
        exact ⟨fun y hy => ⟨(g1 y hy).1, by omega, (g1 y hy).2⟩, g2⟩)
      hn hsz (by omega) hI (by
        intro b hb'
        simp only [hcps, List.head?_cons, Option.map_some, Option.mem_def, Option.some.injEq] at hb'
        subst hb'
        exact ⟨le_refl _, by simpa using hJ⟩)
    rw [hcps] at hcps'
    injection hcps' with h2 h3
    injection h2 with h2 h4
    subst h2; subst h3; subst h4
    unfold mainLoop
    rcases hte with ⟨e, s', k1, k2, -⟩ | ⟨y, rest, s', k1, k2, -, k4, k5, -⟩
    · right
      rw [M.bind_error k1]
      exact ⟨e, s', rfl, k2⟩
    · have hpot := toEnd_pot hest hn hsz (by omega) hI k1 (base := base) (by simp [hcps])
      have hp2 : pot N (r + 1) (((r, y) :: rest).map Prod.fst) = pot N r (rest.map Prod.fst) := by
        simp only [List.map_cons, pot, show r + 1 - r = 1 by omega, revCost_one, Nat.zero_add]
      have hK2 : K - (r - base) = pot N r (rest.map Prod.fst) + min (r + 1) n := by omega
      have hJ2 : J (pot N r (rest.map Prod.fst) + min (r + 1) n) s'.w := by rw [← hK2]; exact k2.2
      rw [M.bind_ok k1]
      simp only [decide_true, assertR, if_true, lift_ok_bind]
      rcases hres with ⟨h, rfl⟩ | ⟨h, right, rfl, hq⟩
      · obtain rfl : r = n := by omega
        obtain ⟨g1, g2⟩ := hid _ y s'.w k4 hJ2
        simp only
        rw [M.bind_apply]
        unfold call
        rcases hi : identity y s'.w with ⟨e | z, w1⟩
        · rw [hi] at g2
          exact Or.inr ⟨e, _, rfl, g2 e rfl⟩
        · rw [hi] at g1
          simp only
          obtain ⟨q1, q2⟩ := g1 z rfl
          refine ih rest (some z) _ (by omega) k5 ?_ (Or.inr ⟨le_refl _, z, rfl, q1⟩)
          rw [show min r r = min (r + 1) r by omega]
          exact q2
      · have e2 : pot N r (rest.map Prod.fst) + min (r + 1) n = (pot N r (rest.map Prod.fst) + min r n) + 1 := by omega
        rw [e2] at hJ2
        obtain ⟨g1, g2⟩ := hrv _ r y right s'.w (by omega) k4 hq hJ2
        simp only
        rw [M.bind_apply]
        unfold call
        rcases hi : reverse y right s'.w with ⟨e | z, w1⟩
        · rw [hi] at g2
          exact Or.inr ⟨e, _, rfl, g2 e rfl⟩
        · rw [hi] at g1
          simp only
          obtain ⟨q1, q2⟩ := g1 z rfl
          exact ih rest (some z) _ (by omega) k5 q2 (Or.inr ⟨by omega, z, rfl, q1⟩)

/-- `reverse_sequence` with closures that do not fail as long as they are not called too often. -/
theorem reverseSequence_budget {est : Int → Int → Int} (hest : SoundEst est) {J : Nat → W → Prop} {P : Nat → T → Prop}
    {Q : Nat → R → Prop} {E : Err → Prop} {forward : T → M W T} {reverse : T → R → M W R} {identity : T → M W R}
    {n N capMax : Nat} (hn : n + 1 < 2 ^ 64) (hsz : SizeOk n N) (hN : 2 ≤ N) (hcap : N ≤ capMax)
    (hf : ∀ k i x w, i < n → P i x → J (k + 1) w →
      (∀ y, (forward x w).1 = .ok y → P (i + 1) y ∧ J k (forward x w).2) ∧ (∀ e, (forward x w).1 = .error e → E e))
    (hid : ∀ k x w, P n x → J k w → (∀ y, (identity x w).1 = .ok y → Q n y ∧ J k (identity x w).2) ∧
      (∀ e, (identity x w).1 = .error e → E e))
    (hrv : ∀ k r x right w, r < n → P r x → Q (r + 1) right → J (k + 1) w →
      (∀ y, (reverse x right w).1 = .ok y → Q r y ∧ J k (reverse x right w).2) ∧
      (∀ e, (reverse x right w).1 = .error e → E e)) {x : T} (hx : P 0 x) {s : World W}
    (hs : J (revCost (n + 1) (N - 1) + n) s.w) :
    (∃ y s', reverseSequence est capMax x n N forward reverse identity s = (.ok y, s') ∧ Q 0 y ∧ J 0 s'.w) ∨
    (∃ e s', reverseSequence est capMax x n N forward reverse identity s = (.error e, s') ∧ E e) := by
  rw [reverseSequence_unfold est x forward reverse identity s hN hcap hn]
  refine mainLoop_budget hest hn hsz hf hid hrv (n + 1) _ none _ (le_refl _) (inv_start P hx hN) ?_ (Or.inl ⟨rfl, rfl⟩)
  simpa [pot] using hs

end Adv.Ckpt
