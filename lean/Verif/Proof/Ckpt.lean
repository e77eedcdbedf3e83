import Verif.Proof.CkptArith
import Mathlib.Data.List.Range

/-! # The schedule, and one sweep of `reverse_sequence` -/

set_option linter.unusedSectionVars false

namespace Adv.Ckpt
open Adv

/-- The estimate is sound and the binomials fit into a word. -/
def Fits (c r : Nat) : Prop := r - 1 ≤ c ∨ r * (c + 1) < 2 ^ 63

theorem Fits.mono {c r c' r' : Nat} (h : r * (c + 1) < 2 ^ 63) (hc : c' ≤ c) (hr : r' ≤ r) :
    r' * (c' + 1) < 2 ^ 63 := lt_of_le_of_lt (Nat.mul_le_mul hr (by omega)) h

theorem Fits.step {c r p : Nat} (h : Fits (c + 1) r) (hp : 1 ≤ p) : Fits c (r - p) := by
  rcases h with h | h
  · left; omega
  · right; exact Fits.mono h (by omega) (by omega)

theorem schedNext_none (est : Int → Int → Int) (r off c : Nat) {r_ : Nat} (h : r_ ≤ 1 ∨ c = 0) :
    schedNext est r off c r_ = .ok none := by
  unfold schedNext; rw [if_neg (by omega)]

theorem schedNext_some {est : Int → Int → Int} {r off c p : Nat} (h : off + 1 < r) (hc : 0 < c) (hr : r < 2 ^ 64)
    (e : partialCp est c (r - off) = .ok p) :
    schedNext est r off c (r - off) = .ok (some (off + p, r - (off + p))) := by
  have hp := partialCp_range (by omega) e
  unfold schedNext
  rw [if_pos (by omega), e, bind_ok_eq]
  unfold addU subU
  rw [if_pos (by omega), bind_ok_eq, if_pos (by omega), bind_ok_eq]
  rfl

/-- The tail of a schedule is a shifted schedule. -/
theorem schedFrom_shift (est : Int → Int → Int) : ∀ (c r d off : Nat), d + off < r → r < 2 ^ 64 →
    schedFrom est r c (d + off) (r - (d + off)) =
      (schedFrom est (r - d) c off (r - d - off)).map (List.map (· + d)) := by
  intro c
  induction c with
  | zero =>
    intro r d off h hr
    unfold schedFrom
    rw [schedNext_none _ _ _ _ (Or.inr rfl), schedNext_none _ _ _ _ (Or.inr rfl)]
    rfl
  | succ c ih =>
    intro r d off h hr
    unfold schedFrom
    by_cases h1 : r - (d + off) ≤ 1
    · rw [schedNext_none _ _ _ _ (Or.inl h1), schedNext_none _ _ _ _ (Or.inl (by omega))]
      rfl
    · rcases e : partialCp est (c + 1) (r - (d + off)) with er | p
      · have : ∀ rr oo, schedNext est rr oo (c + 1) (r - (d + off)) = .error er := by
          intro rr oo
          unfold schedNext
          rw [if_pos (by omega), e]
          rfl
        rw [this, show r - d - off = r - (d + off) by omega, this]
        rfl
      · have hp := partialCp_range (by omega) e
        rw [schedNext_some (by omega) (by omega) hr e]
        have e' : partialCp est (c + 1) (r - d - off) = .ok p := by
          rw [show r - d - off = r - (d + off) by omega]; exact e
        rw [schedNext_some (by omega) (by omega) (by omega) e']
        simp only [bind_ok_eq]
        have := ih r d (off + p) (by omega) hr
        rw [show d + off + p = d + (off + p) by omega, this,
          show r - d - (off + p) = r - d - (off + p) from rfl]
        rcases schedFrom est (r - d) c (off + p) (r - d - (off + p)) with er | l
        · rfl
        · simp only [map_ok_eq, bind_ok_eq]
          show Except.ok _ = Except.ok _
          rw [List.map_cons, show d + (off + p) = off + p + d by omega]

/-- Shape of a schedule. -/
theorem schedFrom_shape {est : Int → Int → Int} {r : Nat} (hr : r < 2 ^ 64) : ∀ (c off : Nat) (l : List Nat),
    off < r → schedFrom est r c off (r - off) = .ok l →
    l.Pairwise (· < ·) ∧ (∀ i ∈ l, off < i ∧ i < r) ∧ l.length ≤ c ∧ (l = [] ↔ c = 0 ∨ off + 1 = r) ∧
      (l ≠ [] → l.getLast? = some (r - 1)) ∧ (r - off - 1 ≤ c → l = List.range' (off + 1) (r - off - 1)) := by
  intro c
  induction c with
  | zero =>
    intro off l h e
    unfold schedFrom at e
    rw [schedNext_none _ _ _ _ (Or.inr rfl)] at e
    injection e with e
    subst e
    refine ⟨List.Pairwise.nil, by simp, by simp, by simp, by simp, ?_⟩
    intro h1
    rw [show r - off - 1 = 0 by omega]; rfl
  | succ c ih =>
    intro off l h e
    unfold schedFrom at e
    by_cases h1 : off + 1 = r
    · rw [schedNext_none _ _ _ _ (Or.inl (by omega))] at e
      injection e with e
      subst e
      refine ⟨List.Pairwise.nil, by simp, by simp, by simp [h1], by simp, ?_⟩
      intro _
      rw [show r - off - 1 = 0 by omega]; rfl
    · rcases ep : partialCp est (c + 1) (r - off) with er | p
      · unfold schedNext at e
        rw [if_pos (by omega), ep] at e
        cases e
      · have hp := partialCp_range (by omega) ep
        rw [schedNext_some (by omega) (by omega) hr ep] at e
        simp only [bind_ok_eq] at e
        rcases hl : schedFrom est r c (off + p) (r - (off + p)) with er | l'
        · rw [hl] at e; cases e
        · rw [hl, bind_ok_eq] at e
          injection e with e
          subst e
          obtain ⟨i1, i2, i3, i4, i5, i6⟩ := ih (off + p) l' (by omega) hl
          refine ⟨?_, ?_, by simp; omega, by simp [h1], ?_, ?_⟩
          · rw [List.pairwise_cons]
            exact ⟨fun i hi => (i2 i hi).1, i1⟩
          · intro i hi
            rcases List.mem_cons.mp hi with rfl | hi
            · omega
            · have := i2 i hi; omega
          · intro _
            by_cases hl' : l' = []
            · subst hl'
              have := i4.mp rfl
              simp only [List.getLast?_singleton, Option.some.injEq]
              rcases this with rfl | this
              · have := hp.2.2.1 rfl; omega
              · omega
            · rw [List.getLast?_cons, i5 hl']; rfl
          · intro h2
            have hp1 := hp.2.2.2 (by omega)
            subst hp1
            rw [i6 (by omega), show r - off - 1 = (r - (off + 1) - 1) + 1 by omega, List.range'_succ]

theorem schedFrom_total {est : Int → Int → Int} (hest : SoundEst est) {r : Nat} (hr : r < 2 ^ 64) :
    ∀ (c off : Nat), off < r → Fits c (r - off) → ∃ l, schedFrom est r c off (r - off) = .ok l := by
  intro c
  induction c with
  | zero =>
    intro off h _
    unfold schedFrom
    rw [schedNext_none _ _ _ _ (Or.inr rfl)]
    exact ⟨_, rfl⟩
  | succ c ih =>
    intro off h hf
    unfold schedFrom
    by_cases h1 : off + 1 = r
    · rw [schedNext_none _ _ _ _ (Or.inl (by omega))]
      exact ⟨_, rfl⟩
    · obtain ⟨p, ep⟩ := partialCp_ok hest (c := c + 1) (by omega) hf
      have hp := partialCp_range (by omega) ep
      rw [schedNext_some (by omega) (by omega) hr ep]
      have hf' := hf.step hp.1
      rw [show r - off - p = r - (off + p) by omega] at hf'
      obtain ⟨l, hl⟩ := ih (off + p) (by omega) hf'
      simp only [bind_ok_eq, hl]
      exact ⟨_, rfl⟩

variable {W T R : Type}

theorem lift_ok_bind {V α β : Type} (a : α) (f : α → M V β) : (M.lift (.ok a) >>= f) = f a := rfl

theorem lift_error_bind {V α β : Type} (e : Err) (f : α → M V β) (s : V) :
    (M.lift (.error e) >>= f) s = (.error e, s) := rfl

theorem pushBack_bind {β : Type} (cps : List (Nat × T)) (x : Nat × T) (f : List (Nat × T) → M (World W) β)
    (s : World W) :
    (pushBack cps x >>= f) s = f (x :: cps) { s with peak := max s.peak (cps.length + 1) } := rfl

/-- The state sequence can be split. -/
theorem state_add (fwd : T → Res T) (x0 : T) (i k : Nat) :
    state fwd (i + k) x0 = (state fwd i x0 >>= state fwd k) := by
  induction k with
  | zero =>
    show state fwd i x0 = _
    rcases state fwd i x0 <;> rfl
  | succ k ih =>
    show (state fwd (i + k) x0 >>= fwd) = _
    rw [ih]
    rcases state fwd i x0 <;> rfl

theorem state_succ (fwd : T → Res T) (x0 : T) (k : Nat) :
    state fwd (k + 1) x0 = (fwd x0 >>= state fwd k) := by
  rw [Nat.add_comm, state_add]
  rfl

/-- `k` calls of `forward` in the world of the closures. -/
def iterM (forward : T → M W T) : Nat → T → M W T
  | 0, x => pure x
  | k + 1, x => forward x >>= iterM forward k

theorem iterM_add (forward : T → M W T) (j k : Nat) (x : T) :
    iterM forward (j + k) x = (iterM forward j x >>= iterM forward k) := by
  induction j generalizing x with
  | zero => rw [Nat.zero_add]; rfl
  | succ j ih =>
    rw [show j + 1 + k = (j + k) + 1 by omega]
    show (forward x >>= iterM forward (j + k)) = ((forward x >>= iterM forward j) >>= iterM forward k)
    rw [bind_assoc]
    congr 1
    funext y
    exact ih y

/-- `forwardN` is `iterM`; the ghost variable does not change. -/
theorem forwardN_eq (forward : T → M W T) (k : Nat) (x : T) (s : World W) :
    forwardN forward k x s = ((iterM forward k x s.w).1, ⟨(iterM forward k x s.w).2, s.peak⟩) := by
  induction k generalizing x s with
  | zero => rfl
  | succ k ih =>
    unfold forwardN iterM
    rw [M.bind_apply, M.bind_apply]
    unfold call
    rcases h : forward x s.w with ⟨_ | y, w'⟩
    · rfl
    · simp only
      rw [ih]

/-- What is assumed of `forward`: it maps states with `P i` to states with `P (i+1)` or panics with an error
satisfying `E`, as long as the world satisfies `J i`, and then it satisfies `J (i+1)`. -/
def FwOk (J : Nat → W → Prop) (P : Nat → T → Prop) (E : Err → Prop) (forward : T → M W T) (n : Nat) : Prop :=
  ∀ w i x, i < n → P i x → J i w →
    (∀ y, (forward x w).1 = .ok y → P (i + 1) y ∧ J (i + 1) (forward x w).2) ∧ (∀ e, (forward x w).1 = .error e → E e)

theorem FwOk.mono {J : Nat → W → Prop} {P : Nat → T → Prop} {E : Err → Prop} {forward : T → M W T} {n m : Nat}
    (h : FwOk J P E forward n) (hm : m ≤ n) : FwOk J P E forward m :=
  fun w i x hi => h w i x (by omega)

theorem iterM_spec {J : Nat → W → Prop} {P : Nat → T → Prop} {E : Err → Prop} {forward : T → M W T} {n : Nat}
    (hf : FwOk J P E forward n) : ∀ (k i : Nat) (x : T) (w : W), i + k ≤ n → P i x → J i w →
      (∀ y, (iterM forward k x w).1 = .ok y → P (i + k) y ∧ J (i + k) (iterM forward k x w).2) ∧
      (∀ e, (iterM forward k x w).1 = .error e → E e) := by
  intro k
  induction k with
  | zero =>
    intro i x w _ hx hJ
    exact ⟨fun y hy => (by injection hy with hy; subst hy; exact ⟨hx, hJ⟩), fun e he => (by cases he)⟩
  | succ k ih =>
    intro i x w hik hx hJ
    obtain ⟨h1, h2⟩ := hf w i x (by omega) hx hJ
    unfold iterM
    rw [M.bind_apply]
    rcases h : forward x w with ⟨e | y, w'⟩
    · rw [h] at h2
      exact ⟨fun y hy => (by cases hy), fun e' he' => h2 e' he'⟩
    · rw [h] at h1
      obtain ⟨p1, p2⟩ := h1 y rfl
      have := ih (i + 1) y w' (by omega) p1 p2
      rw [show i + 1 + k = i + (k + 1) by omega] at this
      exact this

/-- A sweep to the end of the sequence. -/
theorem advance_spec {est : Int → Int → Int} (hest : SoundEst est) {J : Nat → W → Prop} {P : Nat → T → Prop}
    {E : Err → Prop} {forward : T → M W T} {n base r : Nat} (hf : FwOk J P E forward n) (hbr : base + r ≤ n + 1)
    (hn : n + 1 < 2 ^ 64) :
    ∀ (c off : Nat) (x : T) (cps : List (Nat × T)) (s : World W), off < r → (1 ≤ c ∨ off + 1 = r) →
      Fits c (r - off) → P (base + off) x → J (base + off) s.w →
      (∃ e s', advance est forward base r c off (r - off) off x cps s = (.error e, s') ∧ E e ∧
          s'.w = (iterM forward (r - 1 - off) x s.w).2) ∨
      (∃ new s', advance est forward base r c off (r - off) off x cps s = (.ok (new ++ cps), s') ∧
          J (base + (r - 1)) s'.w ∧
          s'.w = (iterM forward (r - 1 - off) x s.w).2 ∧
          (∀ p ∈ new, P p.1 p.2) ∧ (new.map Prod.fst).Pairwise (· > ·) ∧
          (∀ p ∈ new, base + off < p.1 ∧ p.1 < base + r) ∧ new.length ≤ c ∧
          (new = [] ∧ off + 1 = r ∨ ∃ y l, new = (base + (r - 1), y) :: l) ∧
          (r - off - 1 ≤ c → new.map Prod.fst = (List.range' (base + off + 1) (r - off - 1)).reverse)) := by
  have stop : ∀ (c off : Nat) (x : T) (cps : List (Nat × T)) (s : World W), off + 1 = r →
      advance est forward base r c off (r - off) off x cps s = (.ok cps, s) := by
    intro c off x cps s h
    have e : ∀ c, schedNext est r off c (r - off) = .ok none := fun c => schedNext_none _ _ _ _ (Or.inl (by omega))
    cases c <;> · unfold advance; rw [e]; rfl
  intro c
  induction c with
  | zero =>
    intro off x cps s h1 h2 hfit hx hJ
    have h : off + 1 = r := by omega
    refine Or.inr ⟨[], s, by rw [stop 0 off x cps s h]; rfl, by rwa [show r - 1 = off by omega], ?_, by simp, by simp, by simp, by simp,
      Or.inl ⟨rfl, h⟩, ?_⟩
    · rw [show r - 1 - off = 0 by omega]; rfl
    · intro _
      rw [show r - off - 1 = 0 by omega]; rfl
  | succ c ih =>
    intro off x cps s h1 h2 hfit hx hJ
    by_cases hend : off + 1 = r
    · refine Or.inr ⟨[], s, by rw [stop _ off x cps s hend]; rfl, by rwa [show r - 1 = off by omega], ?_, by simp, by simp, by simp, by simp,
        Or.inl ⟨rfl, hend⟩, ?_⟩
      · rw [show r - 1 - off = 0 by omega]; rfl
      · intro _
        rw [show r - off - 1 = 0 by omega]; rfl
    · obtain ⟨p, ep⟩ := partialCp_ok hest (c := c + 1) (by omega) hfit
      have hp := partialCp_range (by omega) ep
      have es := schedNext_some (by omega) (by omega) (by omega) ep (r := r)
      have hfit' := hfit.step hp.1
      rw [show r - off - p = r - (off + p) by omega] at hfit'
      obtain ⟨f1, f2⟩ := iterM_spec hf p (base + off) x s.w (by omega) hx hJ
      rw [show base + off + p = base + (off + p) by omega] at f1
      have hun : advance est forward base r (c + 1) off (r - off) off x cps s =
          (forwardN forward p x >>= fun z => do
            let cps ← pushBack cps (base + (off + p), z)
            advance est forward base r c (off + p) (r - (off + p)) (off + p) z cps) s := by
        conv_lhs => unfold advance
        rw [M.bind_ok (w' := s) (a := some (off + p, r - (off + p))) (by rw [es]; rfl)]
        simp only
        rw [show off + p - off = p by omega]
        have : addU base (off + p) = .ok (base + (off + p)) := by
          unfold addU
          rw [if_pos (by omega)]
        rw [this]
        rfl
      have hsplit : (iterM forward (r - 1 - off) x s.w) =
          (iterM forward p x >>= iterM forward (r - 1 - (off + p))) s.w := by
        rw [← iterM_add, show p + (r - 1 - (off + p)) = r - 1 - off by omega]
      rw [hun, M.bind_apply, forwardN_eq, hsplit, M.bind_apply]
      rcases hi : iterM forward p x s.w with ⟨e | z, w1⟩
      · -- a step panics
        rw [hi] at f2
        exact Or.inl ⟨e, _, rfl, f2 e rfl, rfl⟩
      · rw [hi] at f1
        obtain ⟨hz, hJ'⟩ := f1 z rfl
        simp only at hz hJ' ⊢
        rw [pushBack_bind]
        simp only
        rcases ih (off + p) z ((base + (off + p), z) :: cps)
          ⟨w1, max s.peak (cps.length + 1)⟩ (by omega)
          (by rcases Nat.eq_zero_or_pos c with rfl | h
              · right; have := hp.2.2.1 rfl; omega
              · left; exact h) hfit' hz hJ' with ⟨e, s', k1, k2, k3⟩ | ⟨new, s', k1, k2, k3, k4, k5, k6, k7, k8, k9⟩
        · exact Or.inl ⟨e, s', k1, k2, k3⟩
        · refine Or.inr ⟨new ++ [(base + (off + p), z)], s', by rw [k1, List.append_assoc]; rfl, k2, k3,
            ?_, ?_, ?_, by simp; omega, Or.inr ?_, ?_⟩
          · intro q hq
            rcases List.mem_append.mp hq with hq | hq
            · exact k4 q hq
            · rw [List.mem_singleton] at hq
              subst hq
              exact hz
          · rw [List.map_append, List.pairwise_append]
            refine ⟨k5, by simp, ?_⟩
            intro a ha b hb
            obtain ⟨q, hq, rfl⟩ := List.mem_map.mp ha
            simp only [List.map_cons, List.map_nil, List.mem_singleton] at hb
            subst hb
            exact (k6 q hq).1
          · intro q hq
            rcases List.mem_append.mp hq with hq | hq
            · have := k6 q hq; omega
            · rw [List.mem_singleton] at hq
              subst hq
              simp only
              omega
          · rcases k8 with ⟨rfl, k8⟩ | ⟨y, l, rfl⟩
            · refine ⟨z, [], ?_⟩
              have e1 : r - 1 = off + p := by omega
              rw [e1]; rfl
            · exact ⟨y, l ++ [(base + (off + p), z)], rfl⟩
          · intro h3
            have hp1 := hp.2.2.2 (by omega)
            subst hp1
            rw [List.map_append, k9 (by omega), show r - off - 1 = (r - (off + 1) - 1) + 1 by omega,
              List.range'_succ, List.reverse_cons]
            rfl

/-- The number of stored states never exceeds the budget, whatever the closures do. -/
theorem advance_peak (est : Int → Int → Int) (forward : T → M W T) (base r N : Nat) :
    ∀ (c off r_ i : Nat) (x : T) (cps : List (Nat × T)) (s : World W), cps.length + c ≤ N → s.peak ≤ N →
      (advance est forward base r c off r_ i x cps s).2.peak ≤ N ∧
      ∀ l, (advance est forward base r c off r_ i x cps s).1 = .ok l → l.length ≤ N := by
  intro c
  induction c with
  | zero =>
    intro off r_ i x cps s h1 h2
    unfold advance
    rw [schedNext_none _ _ _ _ (Or.inr rfl)]
    refine ⟨h2, ?_⟩
    intro l hl
    have : cps = l := by injection hl
    subst this; omega
  | succ c ih =>
    intro off r_ i x cps s h1 h2
    unfold advance
    rcases es : schedNext est r off (c + 1) r_ with e | _ | ⟨cp, r2⟩
    · rw [lift_error_bind]
      exact ⟨h2, fun l hl => by cases hl⟩
    · rw [lift_ok_bind]
      refine ⟨h2, ?_⟩
      intro l hl
      have : cps = l := by injection hl
      subst this; omega
    · rw [lift_ok_bind]
      simp only
      rw [M.bind_apply, forwardN_eq]
      rcases (iterM forward (cp - i) x s.w).1 with e | y
      · exact ⟨h2, fun l hl => by cases hl⟩
      · simp only
        rcases ea : addU base cp with e | j
        · rw [lift_error_bind]
          exact ⟨h2, fun l hl => by cases hl⟩
        · rw [lift_ok_bind, pushBack_bind]
          apply ih
          · simp; omega
          · simp only
            omega

/-- The invariant of the main loop with `r` elements left: `checkpoints` holds admissible states at decreasing
indices below `r`, index 0 among them, and there is room for one more. -/
structure Inv (P : Nat → T → Prop) (n N r : Nat) (cps : List (Nat × T)) : Prop where
  good : ∀ p ∈ cps, P p.1 p.2
  sorted : (cps.map Prod.fst).Pairwise (· > ·)
  lt : ∀ p ∈ cps, p.1 < r
  zero : 0 < r → 0 ∈ cps.map Prod.fst
  len : cps.length < N
  contig : n + 1 ≤ N → cps.map Prod.fst = (List.range cps.length).reverse

/-- Condition on the sizes: every state fits into the budget, or the binomials fit into a word. -/
def SizeOk (n N : Nat) : Prop := n + 1 ≤ N ∨ (n + 1) * N < 2 ^ 63

theorem range_reverse_succ (k : Nat) : (List.range (k + 1)).reverse = k :: (List.range k).reverse := by
  rw [List.range_succ, List.reverse_append]; rfl

theorem toEnd_spec {est : Int → Int → Int} (hest : SoundEst est) {J : Nat → W → Prop} {P : Nat → T → Prop}
    {E : Err → Prop} {forward : T → M W T} {n N r : Nat} (hf : FwOk J P E forward r)
    (hn : n + 1 < 2 ^ 64) (hsz : SizeOk n N) (hr : r ≤ n) {cps : List (Nat × T)} (hI : Inv P n N (r + 1) cps)
    {s : World W} (hJ : ∀ base ∈ cps.head?.map Prod.fst, J base s.w) :
    ∃ base x tl, cps = (base, x) :: tl ∧ base ≤ r ∧ P base x ∧
      ((∃ e s', toEnd est forward N (r + 1) cps s = (.error e, s') ∧ E e ∧
          s'.w = (iterM forward (r - base) x s.w).2) ∨
       (∃ y rest s', toEnd est forward N (r + 1) cps s = (.ok ((r, y) :: rest), s') ∧ J r s'.w ∧
          s'.w = (iterM forward (r - base) x s.w).2 ∧ P r y ∧ Inv P n N r rest ∧ (n + 1 ≤ N → rest.length = r))) := by
  obtain ⟨⟨base, x⟩, tl, rfl⟩ : ∃ q tl, cps = q :: tl := by
    cases cps with
    | nil => have := hI.zero (by omega); simp at this
    | cons q tl => exact ⟨q, tl, rfl⟩
  have hb : base ≤ r := by
    have := hI.lt (base, x) (by simp)
    simp only at this; omega
  have hx : P base x := hI.good (base, x) (by simp)
  refine ⟨base, x, tl, rfl, hb, hx, ?_⟩
  have hlen := hI.len
  have hun : toEnd est forward N (r + 1) ((base, x) :: tl) s =
      advance est forward base (r + 1 - base) (N - (tl.length + 1)) 0 (r + 1 - base - 0) 0 x ((base, x) :: tl) s := by
    unfold toEnd
    simp only [List.head?_cons, unwrap, lift_ok_bind, subU]
    rw [if_pos (by omega), lift_ok_bind, if_pos (by simpa using hlen.le), lift_ok_bind, if_pos (by omega)]
    rfl
  rw [hun]
  simp only [List.length_cons] at hlen
  have hcont : n + 1 ≤ N → base = tl.length ∧ tl.map Prod.fst = (List.range tl.length).reverse := by
    intro h
    have := hI.contig h
    rw [List.length_cons, range_reverse_succ, List.map_cons] at this
    injection this with h1 h2
    exact ⟨h1, h2⟩
  have hfit : Fits (N - (tl.length + 1)) (r + 1 - base - 0) := by
    rcases hsz with h | h
    · left
      have := (hcont h).1
      omega
    · right
      calc (r + 1 - base - 0) * (N - (tl.length + 1) + 1) ≤ (n + 1) * N := Nat.mul_le_mul (by omega) (by omega)
        _ < _ := h
  rcases advance_spec hest hf (base := base) (r := r + 1 - base) (by omega) (by omega) (N - (tl.length + 1)) 0 x
    ((base, x) :: tl) s (by omega) (by omega) hfit hx (hJ base (by simp)) with
    ⟨e, s', k1, k2, k3⟩ | ⟨new, s', k1, k2, k3, k4, k5, k6, k7, k8, k9⟩
  · exact Or.inl ⟨e, s', k1, k2, by rw [k3, show r + 1 - base - 1 - 0 = r - base by omega]⟩
  · right
    rw [show r + 1 - base - 1 - 0 = r - base by omega] at k3
    rw [show base + (r + 1 - base - 1) = r by omega] at k2
    have hs2 : (base :: tl.map Prod.fst).Pairwise (· > ·) := hI.sorted
    rw [List.pairwise_cons] at hs2
    rcases k8 with ⟨rfl, k8⟩ | ⟨y, l, rfl⟩
    · obtain rfl : base = r := by omega
      refine ⟨x, tl, s', k1, k2, k3, hx, ?_, fun h => (hcont h).1.symm⟩
      refine ⟨fun p hp => hI.good p (by simp [hp]), hs2.2, ?_, ?_, by omega, fun h => (hcont h).2⟩
      · intro p hp
        exact hs2.1 p.1 (List.mem_map.mpr ⟨p, hp, rfl⟩)
      · intro h
        have := hI.zero (by omega)
        simp only [List.map_cons, List.mem_cons] at this
        rcases this with h0 | h0
        · omega
        · exact h0
    · have hbr : base + (r + 1 - base - 1) = r := by omega
      rw [hbr] at k1 k4 k5 k6 k9
      rw [List.map_cons, List.pairwise_cons] at k5
      simp only [List.length_cons] at k7
      have hnew : n + 1 ≤ N → l.map Prod.fst = (List.range' (base + 1) (r - 1 - base)).reverse ∧
          l.length = r - 1 - base ∧ base < r := by
        intro h
        have hbr' : base < r := by have := (k6 (r, y) (by simp)).1; simp only at this; omega
        obtain ⟨c1, c2⟩ := hcont h
        have h9 := k9 (by omega)
        rw [show r + 1 - base - 0 - 1 = (r - 1 - base) + 1 by omega, List.range'_concat, List.reverse_append,
          List.map_cons] at h9
        injection h9 with h10 h11
        have h11' : l.map Prod.fst = (List.range' (base + 1) (r - 1 - base)).reverse := h11
        refine ⟨h11', ?_, hbr'⟩
        have := congrArg List.length h11'
        simpa using this
      refine ⟨y, l ++ (base, x) :: tl, s', k1, k2, k3, k4 (r, y) (by simp), ?_, ?_⟩
      rotate_left
      · intro h
        have h1 := hnew h
        have h2 := hcont h
        simp only [List.length_append, List.length_cons]; omega
      refine ⟨?_, ?_, ?_, ?_, ?_, ?_⟩
      · intro p hp
        rcases List.mem_append.mp hp with hp | hp
        · exact k4 p (by simp [hp])
        · exact hI.good p hp
      · rw [List.map_append, List.pairwise_append]
        refine ⟨k5.2, hI.sorted, ?_⟩
        intro a ha b hb'
        obtain ⟨p, hp, rfl⟩ := List.mem_map.mp ha
        have h1 := (k6 p (by simp [hp])).1
        simp only [List.map_cons, List.mem_cons] at hb'
        rcases hb' with rfl | hb'
        · omega
        · have := hs2.1 b hb'; omega
      · intro p hp
        rcases List.mem_append.mp hp with hp | hp
        · exact k5.1 p.1 (List.mem_map.mpr ⟨p, hp, rfl⟩)
        · have h1 : base < r := by have := (k6 (r, y) (by simp)).1; simp only at this; omega
          rcases List.mem_cons.mp hp with rfl | hp
          · exact h1
          · have := hs2.1 p.1 (List.mem_map.mpr ⟨p, hp, rfl⟩); omega
      · intro _
        rw [List.map_append, List.mem_append]
        exact Or.inr (hI.zero (by omega))
      · simp only [List.length_append, List.length_cons]; omega
      · intro h
        obtain ⟨c1, c2⟩ := hcont h
        obtain ⟨h11', hl, -⟩ := hnew h
        rw [List.map_append, h11', List.map_cons, c2, List.length_append, List.length_cons, hl, ← c1,
          show r - 1 - base + (base + 1) = (base + 1) + (r - 1 - base) by omega]
        have h13 : base :: (List.range base).reverse = (List.range (base + 1)).reverse :=
          (range_reverse_succ base).symm
        simp only
        rw [h13, ← List.reverse_append, List.range_eq_range', List.range_eq_range']
        congr 1
        have := List.range'_append_1 (s := 0) (m := base + 1) (n := r - 1 - base)
        rw [Nat.zero_add] at this
        exact this

/-- The main loop, for closures described by pre- and postconditions. -/
theorem mainLoop_spec {est : Int → Int → Int} (hest : SoundEst est) {J : Nat → W → Prop} {P : Nat → T → Prop}
    {Q : Nat → R → Prop} {E : Err → Prop} {forward : T → M W T} {reverse : T → R → M W R} {identity : T → M W R}
    {n N : Nat} (hn : n + 1 < 2 ^ 64) (hsz : SizeOk n N)
    (hf : ∀ r ≤ n, FwOk (fun _ => J (r + 1)) P E forward n)
    (hid : ∀ x w, P n x → J (n + 1) w → (∀ y, (identity x w).1 = .ok y → Q n y ∧ J n (identity x w).2) ∧
      (∀ e, (identity x w).1 = .error e → E e))
    (hrv : ∀ r x right w, r < n → P r x → Q (r + 1) right → J (r + 1) w →
      (∀ y, (reverse x right w).1 = .ok y → Q r y ∧ J r (reverse x right w).2) ∧
      (∀ e, (reverse x right w).1 = .error e → E e)) :
    ∀ (r : Nat) (cps : List (Nat × T)) (result : Option R) (s : World W), r ≤ n + 1 → Inv P n N r cps → J r s.w →
      (r = n + 1 ∧ result = none ∨ r ≤ n ∧ ∃ y, result = some y ∧ Q r y) →
      (∃ y s', mainLoop est forward reverse identity N r cps result s = (.ok y, s') ∧ Q 0 y ∧ J 0 s'.w) ∨
      (∃ e s', mainLoop est forward reverse identity N r cps result s = (.error e, s') ∧ E e) := by
  intro r
  induction r with
  | zero =>
    intro cps result s h1 hI hJ hres
    rcases hres with ⟨h, -⟩ | ⟨-, y, rfl, hy⟩
    · omega
    · exact Or.inl ⟨y, s, rfl, hy, hJ⟩
  | succ r ih =>
    intro cps result s h1 hI hJ hres
    obtain ⟨base, x, tl, -, hb, hx, hte⟩ := toEnd_spec hest ((hf r (by omega)).mono (by omega)) hn hsz (by omega) hI (fun _ _ => hJ)
    unfold mainLoop
    rcases hte with ⟨e, s', k1, k2, -⟩ | ⟨y, rest, s', k1, k2, -, k4, k5, -⟩
    · right
      rw [M.bind_error k1]
      exact ⟨e, s', rfl, k2⟩
    · rw [M.bind_ok k1]
      simp only [decide_true, assertR, if_true, lift_ok_bind]
      rcases hres with ⟨h, rfl⟩ | ⟨h, right, rfl, hq⟩
      · obtain rfl : r = n := by omega
        obtain ⟨g1, g2⟩ := hid y s'.w k4 k2
        simp only
        rw [M.bind_apply]
        unfold call
        rcases hi : identity y s'.w with ⟨e | z, w1⟩
        · rw [hi] at g2
          exact Or.inr ⟨e, _, rfl, g2 e rfl⟩
        · rw [hi] at g1
          simp only
          obtain ⟨q1, q2⟩ := g1 z rfl
          exact ih rest (some z) _ (by omega) k5 q2 (Or.inr ⟨le_refl _, z, rfl, q1⟩)
      · obtain ⟨g1, g2⟩ := hrv r y right s'.w (by omega) k4 hq k2
        simp only
        rw [M.bind_apply]
        unfold call
        rcases hi : reverse y right s'.w with ⟨e | z, w1⟩
        · rw [hi] at g2
          exact Or.inr ⟨e, _, rfl, g2 e rfl⟩
        · rw [hi] at g1
          simp only
          obtain ⟨q1, q2⟩ := g1 z rfl
          exact ih rest (some z) _ (by omega) k5 q2 (Or.inr ⟨by omega, z, rfl, q1⟩)

theorem inv_start (P : Nat → T → Prop) {x : T} {n N : Nat} (hx : P 0 x) (hN : 2 ≤ N) :
    Inv P n N (n + 1) [(0, x)] :=
  ⟨by simpa using hx, by simp, by simp, by simp, by simp; omega, fun _ => by simp⟩

theorem reverseSequence_unfold (est : Int → Int → Int) {capMax : Nat} (x : T) {n N : Nat}
    (forward : T → M W T) (reverse : T → R → M W R) (identity : T → M W R) (s : World W) (hN : 2 ≤ N)
    (hcap : N ≤ capMax) (hn : n + 1 < 2 ^ 64) :
    reverseSequence est capMax x n N forward reverse identity s =
      mainLoop est forward reverse identity N (n + 1) [(0, x)] none { s with peak := max s.peak 1 } := by
  unfold reverseSequence
  simp only [ge_iff_le, hN, decide_true, assertR, if_true, lift_ok_bind, hcap, addU]
  rw [pushBack_bind, if_pos hn, lift_ok_bind]
  rfl

/-- `reverse_sequence`, for closures described by pre- and postconditions. -/
theorem reverseSequence_spec {est : Int → Int → Int} (hest : SoundEst est) {J : Nat → W → Prop} {P : Nat → T → Prop}
    {Q : Nat → R → Prop} {E : Err → Prop} {forward : T → M W T} {reverse : T → R → M W R} {identity : T → M W R}
    {n N capMax : Nat} (hn : n + 1 < 2 ^ 64) (hsz : SizeOk n N) (hN : 2 ≤ N) (hcap : N ≤ capMax)
    (hf : ∀ r ≤ n, FwOk (fun _ => J (r + 1)) P E forward n)
    (hid : ∀ x w, P n x → J (n + 1) w → (∀ y, (identity x w).1 = .ok y → Q n y ∧ J n (identity x w).2) ∧
      (∀ e, (identity x w).1 = .error e → E e))
    (hrv : ∀ r x right w, r < n → P r x → Q (r + 1) right → J (r + 1) w →
      (∀ y, (reverse x right w).1 = .ok y → Q r y ∧ J r (reverse x right w).2) ∧
      (∀ e, (reverse x right w).1 = .error e → E e)) {x : T} (hx : P 0 x) {s : World W} (hs : J (n + 1) s.w) :
    (∃ y s', reverseSequence est capMax x n N forward reverse identity s = (.ok y, s') ∧ Q 0 y ∧ J 0 s'.w) ∨
    (∃ e s', reverseSequence est capMax x n N forward reverse identity s = (.error e, s') ∧ E e) := by
  rw [reverseSequence_unfold est x forward reverse identity s hN hcap hn]
  exact mainLoop_spec hest hn hsz hf hid hrv (n + 1) _ none _ (le_refl _) (inv_start P hx hN) hs (Or.inl ⟨rfl, rfl⟩)

/-- Errors of a later part of the fold are errors of the fold. -/
theorem revFold_error {fwd : T → Res T} {rev : T → R → Res R} {idn : T → Res R} {x0 : T} {n : Nat} {e : Err} :
    ∀ {i : Nat} {x : T}, i ≤ n → state fwd i x0 = .ok x → revFold fwd rev idn (n - i) x = .error e →
      revFold fwd rev idn n x0 = .error e := by
  intro i
  induction i with
  | zero =>
    intro x _ hx h
    injection hx with hx
    subst hx
    exact h
  | succ i ih =>
    intro x hi hx h
    have hx' : (state fwd i x0 >>= fwd) = .ok x := hx
    rcases hs : state fwd i x0 with e' | z
    · rw [hs] at hx'; cases hx'
    · rw [hs, bind_ok_eq] at hx'
      apply ih (by omega) hs
      rw [show n - i = (n - (i + 1)) + 1 by omega]
      unfold revFold
      rw [hx', bind_ok_eq, h]
      rfl

/-- `reverse_sequence` is the plain fold. -/
theorem reverseSequence_fold {est : Int → Int → Int} (hest : SoundEst est) {J : Nat → W → Prop}
    {forward : T → M W T} {reverse : T → R → M W R} {identity : T → M W R}
    {fwd : T → Res T} {rev : T → R → Res R} {idn : T → Res R} {x0 : T}
    {n N capMax : Nat} (hn : n + 1 < 2 ^ 64) (hsz : SizeOk n N) (hN : 2 ≤ N) (hcap : N ≤ capMax)
    (hf : ∀ k i x w, i < n → state fwd i x0 = .ok x → J k w →
      (forward x w).1 = fwd x ∧ ∀ y, fwd x = .ok y → J k (forward x w).2)
    (hid : ∀ x w, state fwd n x0 = .ok x → J (n + 1) w →
      (identity x w).1 = idn x ∧ ∀ y, idn x = .ok y → J n (identity x w).2)
    (hrv : ∀ r x x' right w, r < n → state fwd r x0 = .ok x → fwd x = .ok x' →
      revFold fwd rev idn (n - (r + 1)) x' = .ok right → J (r + 1) w →
      (reverse x right w).1 = rev x right ∧ ∀ y, rev x right = .ok y → J r (reverse x right w).2)
    {s : World W} (hs : J (n + 1) s.w) :
    (reverseSequence est capMax x0 n N forward reverse identity s).1 = revFold fwd rev idn n x0 ∧
      ((revFold fwd rev idn n x0).isOk → J 0 (reverseSequence est capMax x0 n N forward reverse identity s).2.w) := by
  have key := reverseSequence_spec hest (J := J) (P := fun i x => state fwd i x0 = .ok x)
    (Q := fun r y => ∃ x, state fwd r x0 = .ok x ∧ revFold fwd rev idn (n - r) x = .ok y)
    (E := fun e => revFold fwd rev idn n x0 = .error e) (forward := forward) (reverse := reverse)
    (identity := identity) hn hsz hN hcap ?_ ?_ ?_ (x := x0) rfl (s := s) hs
  · rcases key with ⟨y, s', k1, k2, k3⟩ | ⟨e, s', k1, k2⟩
    · rw [k1]
      obtain ⟨x, hx, this⟩ := k2
      injection hx with hx
      subst hx
      rw [Nat.sub_zero] at this
      exact ⟨this.symm, fun _ => k3⟩
    · rw [k1, k2]
      exact ⟨rfl, fun h => by cases h⟩
  · intro r hr w i x hi hx hJ
    obtain ⟨h1, h2⟩ := hf (r + 1) i x w hi hx hJ
    constructor
    · intro y hy
      rw [h1] at hy
      refine ⟨?_, h2 y hy⟩
      show (state fwd i x0 >>= fwd) = _
      rw [hx, bind_ok_eq, hy]
    · intro e he
      rw [h1] at he
      apply revFold_error (by omega) hx
      rw [show n - i = (n - (i + 1)) + 1 by omega]
      unfold revFold
      rw [he]
      rfl
  · intro x w hx hJ
    obtain ⟨h1, h2⟩ := hid x w hx hJ
    constructor
    · intro y hy
      rw [h1] at hy
      refine ⟨⟨x, hx, ?_⟩, h2 y hy⟩
      rw [Nat.sub_self]
      exact hy
    · intro e he
      rw [h1] at he
      apply revFold_error (le_refl n) hx
      rw [Nat.sub_self]
      exact he
  · intro r x right w hr hx hq hJ
    obtain ⟨x', hx', hq⟩ := hq
    have hfx : fwd x = .ok x' := by
      have : (state fwd r x0 >>= fwd) = .ok x' := hx'
      rwa [hx, bind_ok_eq] at this
    obtain ⟨h1, h2⟩ := hrv r x x' right w hr hx hfx hq hJ
    have hfold : revFold fwd rev idn (n - r) x = rev x right := by
      rw [show n - r = (n - (r + 1)) + 1 by omega]
      unfold revFold
      rw [hfx, bind_ok_eq, hq, bind_ok_eq]
    constructor
    · intro y hy
      rw [h1] at hy
      exact ⟨⟨x, hx, by rw [hfold, hy]⟩, h2 y hy⟩
    · intro e he
      rw [h1] at he
      exact revFold_error (by omega) hx (by rw [hfold, he])

end Adv.Ckpt
