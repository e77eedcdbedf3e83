import Verif.Proof.Ckpt

/-! # `reverse_sequence` with arbitrary schedules -/

namespace Adv.Ckpt
open Adv

variable {W T R : Type}

/-- Results of the closures stay inside of a family of relations, whatever they do to the world. -/
structure Steps (P : Nat → T → Prop) (Q : Nat → R → Prop) (n : Nat) (forward : T → M W T) (reverse : T → R → M W R)
    (identity : T → M W R) : Prop where
  fwd : ∀ i x w y, P i x → (forward x w).1 = .ok y → P (i + 1) y
  idn : ∀ x w y, P n x → (identity x w).1 = .ok y → Q n y
  rev : ∀ i x right w y, i < n → P i x → Q (i + 1) right → (reverse x right w).1 = .ok y → Q i y

theorem iterM_any {P : Nat → T → Prop} {forward : T → M W T}
    (hf : ∀ i x w y, P i x → (forward x w).1 = .ok y → P (i + 1) y) : ∀ (k i : Nat) (x : T) (w : W) (y : T), P i x →
      (iterM forward k x w).1 = .ok y → P (i + k) y := by
  intro k
  induction k with
  | zero =>
    intro i x w y hx h
    have : x = y := by injection h
    exact this ▸ hx
  | succ k ih =>
    intro i x w y hx h
    unfold iterM at h
    rw [M.bind_apply] at h
    rcases e : forward x w with ⟨e' | z, w'⟩
    · rw [e] at h; cases h
    · rw [e] at h
      have := ih (i + 1) z w' y (hf i x w z hx (by rw [e])) h
      rwa [show i + 1 + k = i + (k + 1) by omega] at this

/-- The schedule never goes back. -/
theorem schedNext_ge {est : Int → Int → Int} {r off c r_ cp r' : Nat}
    (h : schedNext est r off c r_ = .ok (some (cp, r'))) : off ≤ cp := by
  unfold schedNext at h
  split at h
  · rcases e : partialCp est c r_ with e' | p
    · rw [e] at h; cases h
    · rw [e, bind_ok_eq] at h
      unfold addU at h
      split at h
      · rw [bind_ok_eq] at h
        rcases e2 : subU r (off + p) with e' | q
        · rw [e2] at h; cases h
        · rw [e2, bind_ok_eq] at h
          have : (off + p, q) = (cp, r') := by injection h with h; injection h
          have := congrArg Prod.fst this
          simp only at this
          omega
      · cases h
  · injection h with h; cases h

theorem advance_any {est : Int → Int → Int} {P : Nat → T → Prop} {forward : T → M W T} {base r : Nat}
    (hf : ∀ i x w y, P i x → (forward x w).1 = .ok y → P (i + 1) y) :
    ∀ (c off r_ : Nat) (x : T) (cps l : List (Nat × T)) (s : World W), P (base + off) x → (∀ p ∈ cps, P p.1 p.2) →
      (advance est forward base r c off r_ off x cps s).1 = .ok l → ∀ p ∈ l, P p.1 p.2 := by
  intro c
  induction c with
  | zero =>
    intro off r_ x cps l s hx hc h
    unfold advance at h
    rcases e : schedNext est r off 0 r_ with e' | o
    · rw [e] at h; cases h
    · rw [e, lift_ok_bind] at h
      cases o with
      | none =>
        have : cps = l := by injection h
        exact this ▸ hc
      | some q => cases h
  | succ c ih =>
    intro off r_ x cps l s hx hc h
    unfold advance at h
    rcases e : schedNext est r off (c + 1) r_ with e' | o
    · rw [e] at h; cases h
    · rw [e, lift_ok_bind] at h
      rcases o with _ | ⟨cp, r'⟩
      · have : cps = l := by injection h
        exact this ▸ hc
      · simp only at h
        have hge := schedNext_ge e
        rw [M.bind_apply, forwardN_eq] at h
        rcases e2 : iterM forward (cp - off) x s.w with ⟨e' | y, w'⟩
        · rw [e2] at h; cases h
        · rw [e2] at h
          simp only at h
          have hy := iterM_any hf (cp - off) (base + off) x s.w y hx (by rw [e2])
          rw [show base + off + (cp - off) = base + cp by omega] at hy
          unfold addU at h
          split at h
          · rw [lift_ok_bind, pushBack_bind] at h
            refine ih cp r' y _ l _ hy ?_ h
            intro p hp
            rcases List.mem_cons.mp hp with rfl | hp
            · exact hy
            · exact hc p hp
          · cases h

theorem toEnd_any {est : Int → Int → Int} {P : Nat → T → Prop} {forward : T → M W T} {N r : Nat}
    (hf : ∀ i x w y, P i x → (forward x w).1 = .ok y → P (i + 1) y) {cps l : List (Nat × T)} {s : World W}
    (hc : ∀ p ∈ cps, P p.1 p.2) (h : (toEnd est forward N r cps s).1 = .ok l) : ∀ p ∈ l, P p.1 p.2 := by
  unfold toEnd at h
  rcases cps with _ | ⟨⟨base, x⟩, tl⟩
  · cases h
  · simp only [List.head?_cons, unwrap, lift_ok_bind] at h
    unfold subU at h
    split at h
    · rw [lift_ok_bind] at h
      split at h
      · rw [lift_ok_bind] at h
        split at h
        · exact advance_any hf _ 0 _ x _ l s (hc (base, x) (by simp)) hc h
        · have : (base, x) :: tl = l := by injection h
          exact this ▸ hc
      · cases h
    · cases h

theorem mainLoop_any {est : Int → Int → Int} {P : Nat → T → Prop} {Q : Nat → R → Prop} {n N : Nat}
    {forward : T → M W T} {reverse : T → R → M W R} {identity : T → M W R} (hst : Steps P Q n forward reverse identity) :
    ∀ (r : Nat) (cps : List (Nat × T)) (res : Option R) (s : World W) (v : R), r ≤ n + 1 → (∀ p ∈ cps, P p.1 p.2) →
      (res = none → r = n + 1) → (∀ right, res = some right → r ≤ n ∧ Q r right) →
      (mainLoop est forward reverse identity N r cps res s).1 = .ok v → Q 0 v := by
  intro r
  induction r with
  | zero =>
    intro cps res s v hr hc h1 h2 h
    cases res with
    | none => cases h
    | some right =>
      have : right = v := by injection h
      exact this ▸ (h2 right rfl).2
  | succ r ih =>
    intro cps res s v hr hc h1 h2 h
    unfold mainLoop at h
    rw [M.bind_apply] at h
    rcases e : toEnd est forward N (r + 1) cps s with ⟨e' | l, s'⟩
    · rw [e] at h; cases h
    · rw [e] at h
      have hl := toEnd_any hst.fwd hc (l := l) (by rw [e])
      rcases l with _ | ⟨⟨i, cp⟩, tl⟩
      · cases h
      · simp only at h
        by_cases hi : i = r
        · subst hi
          simp only [assertR, decide_true, if_true, lift_ok_bind] at h
          have hcp := hl (i, cp) (by simp)
          have htl : ∀ p ∈ tl, P p.1 p.2 := fun p hp => hl p (by simp [hp])
          cases res with
          | none =>
            have hn : i = n := by have := h1 rfl; omega
            subst hn
            simp only at h
            rw [M.bind_apply] at h
            unfold call at h
            rcases e2 : identity cp s'.w with ⟨e' | y, w'⟩
            · rw [e2] at h; cases h
            · rw [e2] at h
              exact ih tl (some y) _ v (by omega) htl (fun h => by cases h)
                (fun right hr => by
                  injection hr with hr
                  subst hr
                  exact ⟨le_refl _, hst.idn cp s'.w _ hcp (by rw [e2])⟩) h
          | some right =>
            have hq := h2 right rfl
            simp only at h
            rw [M.bind_apply] at h
            unfold call at h
            rcases e2 : reverse cp right s'.w with ⟨e' | y, w'⟩
            · rw [e2] at h; cases h
            · rw [e2] at h
              exact ih tl (some y) _ v (by omega) htl (fun h => by cases h)
                (fun right' hr => by
                  injection hr with hr
                  subst hr
                  exact ⟨by omega, hst.rev i cp right s'.w _ (by omega) hcp hq.2 (by rw [e2])⟩) h
        · have ha : assertR (decide (i = r)) = .error .assertFailed := by simp [assertR, hi]
          rw [ha] at h
          cases h

theorem reverseSequence_any (est : Int → Int → Int) {P : Nat → T → Prop} {Q : Nat → R → Prop} {n N capMax : Nat}
    {forward : T → M W T} {reverse : T → R → M W R} {identity : T → M W R} (hst : Steps P Q n forward reverse identity)
    {x : T} (hx : P 0 x) {s : World W} {v : R}
    (h : (reverseSequence est capMax x n N forward reverse identity s).1 = .ok v) : Q 0 v := by
  unfold reverseSequence at h
  simp only [assertR] at h
  split at h
  · rw [lift_ok_bind] at h
    split at h
    · rw [lift_ok_bind, pushBack_bind] at h
      unfold addU at h
      split at h
      · rw [lift_ok_bind] at h
        exact mainLoop_any hst (n + 1) _ none _ v (le_refl _) (by simpa using hx) (fun _ => rfl)
          (fun _ h => by cases h) h
      · cases h
    · cases h
  · cases h

end Adv.Ckpt
