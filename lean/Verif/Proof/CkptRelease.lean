import Verif.Model.CkptRelease
import Verif.Proof.Ckpt

/-! # The checkpointing code in debug and in release builds -/

namespace Adv.Ckpt
open Adv

variable {W T R : Type}

/-- Two computations return the same results; the kinds of their panics can differ. -/
def Same {α : Type} (a b : Res α) : Prop := ∀ v, a = .ok v ↔ b = .ok v

theorem Same.rfl' {α : Type} (a : Res α) : Same a a := fun _ => Iff.rfl

theorem Same.errors {α : Type} (e e' : Err) : Same (.error e : Res α) (.error e') :=
  fun _ => ⟨(nomatch ·), (nomatch ·)⟩

theorem Same.bind {α β : Type} {a b : Res α} {f g : α → Res β} (h : Same a b)
    (hfg : ∀ x, a = .ok x → Same (f x) (g x)) : Same (a >>= f) (b >>= g) := by
  rcases a with e | x
  · rcases b with e' | y
    · exact Same.errors e e'
    · exact absurd ((h y).mpr rfl) (by simp)
  · rw [(h x).mp rfl]
    exact hfg x rfl

/-! ## Integers -/

theorem addW_eq {a b : Nat} (h : a + b < 2 ^ 64) : addW a b = a + b := Nat.mod_eq_of_lt h

theorem subW_eq {a b : Nat} (h : b ≤ a) (ha : a < 2 ^ 64) : subW a b = a - b := by
  unfold subW
  rw [show (a : Int) - b = ((a - b : Nat) : Int) by omega, toUSize_of_nat (by omega)]

theorem wrapI_eq {x : Int} (h1 : -2 ^ 63 ≤ x) (h2 : x < 2 ^ 63) : wrapI x = x := by
  unfold wrapI toISize toUSize
  split <;> omega

theorem wrapI_range (x : Int) : -2 ^ 63 ≤ wrapI x ∧ wrapI x < 2 ^ 63 := by
  unfold wrapI toISize toUSize
  split <;> omega

theorem toISize_range {x : Nat} (h : x < 2 ^ 64) : -2 ^ 63 ≤ toISize x ∧ toISize x < 2 ^ 63 := by
  unfold toISize
  split <;> omega

theorem satISize_range (x : Int) : -2 ^ 63 ≤ satISize x ∧ satISize x < 2 ^ 63 := by
  unfold satISize
  omega

theorem toISize_toUSize {x : Int} (h1 : -2 ^ 63 ≤ x) (h2 : x < 2 ^ 63) : toISize (toUSize x) = x := wrapI_eq h1 h2

theorem beta_zero {c t : Int} (h : c ≤ 0 ∨ t ≤ 0) : beta c t = .ok 0 := by
  unfold beta; rw [if_pos h]

theorem beta_inv {c t : Int} {b : Nat} (h : beta c t = .ok b) : b = B c.toNat t.toNat ∧ b < 2 ^ 64 := by
  unfold beta at h
  unfold B
  split at h
  · rename_i h0
    injection h with h
    rw [if_pos (by omega)]; omega
  · rename_i h0
    simp only at h
    split at h
    · rename_i h1
      injection h with h
      rw [if_neg (by omega)]
      exact ⟨h.symm, h ▸ h1⟩
    · cases h

/-- At the largest `t` the binomial does not fit. -/
theorem beta_max {c : Int} (hc : 2 ≤ c) : beta c (2 ^ 63 - 1) = .error .overflow := by
  unfold beta
  rw [if_neg (by omega)]
  have h : Nat.choose (2 + (2 ^ 63 - 1)) 2 ≤ Nat.choose (c.toNat + (2 ^ 63 - 1)) c.toNat := choose_mono_c (by omega)
  rw [Nat.choose_two_right] at h
  have e : ((2 : Int) ^ 63 - 1).toNat = 2 ^ 63 - 1 := rfl
  rw [e]
  simp only
  rw [if_neg (by omega)]

theorem findTLoopW_forever {c r : Int} (hc : c ≤ 0) (hr : 0 < r) : ∀ (k : Nat) (t : Int),
    findTLoopW c r k t = .error .diverges := by
  intro k
  induction k with
  | zero => intro t; rfl
  | succ k ih =>
    intro t
    unfold findTLoopW
    rw [beta_zero (Or.inl hc), bind_ok_eq, if_pos (by simpa [toISize] using hr)]
    exact ih _

theorem findTLoop_same {c r : Int} (hc : c ≠ 1) : ∀ (k k' : Nat) (t : Int), -2 ^ 63 ≤ t → t + k = 2 ^ 63 - 1 →
    k < k' → Same (findTLoop c r k t) (findTLoopW c r k' t) := by
  intro k
  induction k with
  | zero =>
    intro k' t h1 h2 hk
    obtain ⟨k', rfl⟩ : ∃ j, k' = j + 1 := ⟨k' - 1, by omega⟩
    obtain rfl : t = 2 ^ 63 - 1 := by simpa using h2
    unfold findTLoop findTLoopW
    by_cases hc0 : c ≤ 0
    · rw [beta_zero (Or.inl hc0), bind_ok_eq, bind_ok_eq]
      split
      · rename_i hr
        rw [findTLoopW_forever hc0 (by simpa [toISize] using hr)]
        exact Same.errors _ _
      · exact Same.rfl' _
    · rw [beta_max (by omega)]
      exact Same.errors _ _
  | succ k ih =>
    intro k' t h1 h2 hk
    obtain ⟨k', rfl⟩ : ∃ j, k' = j + 1 := ⟨k' - 1, by omega⟩
    unfold findTLoop findTLoopW
    refine Same.bind (Same.rfl' _) fun b _ => ?_
    split
    · rw [wrapI_eq (by omega) (by push_cast at h2; omega)]
      exact ih k' (t + 1) (by omega) (by push_cast at h2; omega) (by omega)
    · exact Same.rfl' _

theorem findTLoop_range {c r : Int} : ∀ (k : Nat) (t t' : Int), t + k ≤ 2 ^ 63 - 1 → findTLoop c r k t = .ok t' →
    t ≤ t' ∧ t' < 2 ^ 63 := by
  intro k
  induction k with
  | zero =>
    intro t t' h2 h
    unfold findTLoop at h
    rcases e : beta c t with e' | b
    · rw [e] at h; cases h
    · rw [e, bind_ok_eq] at h
      split at h
      · cases h
      · injection h with h; subst h; omega
  | succ k ih =>
    intro t t' h2 h
    unfold findTLoop at h
    rcases e : beta c t with e' | b
    · rw [e] at h; cases h
    · rw [e, bind_ok_eq] at h
      split at h
      · have := ih (t + 1) t' (by push_cast at h2; omega) h
        omega
      · injection h with h; subst h; push_cast at h2; omega

theorem findT_same (est : Int → Int → Int) {c r : Nat} (hr : r < 2 ^ 64) :
    Same (findT est c r) (findTW est c r) := by
  unfold findT findTW
  simp only
  have hrr := toISize_range hr
  split
  · split
    · rw [wrapI_eq (by omega) (by omega)]
      exact Same.rfl' _
    · exact Same.rfl' _
  · rename_i hc
    have hs := satISize_range (est (toISize c) (toISize r))
    refine Same.bind (findTLoop_same hc _ _ _ hs.1 (by omega) (by omega)) fun t ht => ?_
    have htr := findTLoop_range _ _ _ (by omega) ht
    by_cases hmin : t = -2 ^ 63
    · have e1 : subI t 1 = .error .overflow := by unfold subI; rw [if_neg (by omega)]
      rw [e1]
      have e2 : wrapI (t - 1) = 2 ^ 63 - 1 := by subst hmin; rfl
      rw [e2]
      by_cases hc0 : toISize c ≤ 0
      · rw [beta_zero (Or.inl hc0), beta_zero (Or.inl hc0), bind_ok_eq, bind_ok_eq]
        by_cases h0 : toISize 0 < toISize r
        · have h0' : ¬ toISize r ≤ toISize 0 := by omega
          simp only [h0, h0', assertR, decide_true, decide_false, if_true, Bool.false_eq_true, if_false]
          exact Same.errors _ _
        · simp only [h0, assertR, decide_false, Bool.false_eq_true, if_false]
          exact Same.errors _ _
      · rw [beta_max (by omega)]
        exact Same.errors _ _
    · have e1 : subI t 1 = .ok (t - 1) := by unfold subI; rw [if_pos (by omega)]
      rw [e1, bind_ok_eq, wrapI_eq (by omega) (by omega)]
      exact Same.rfl' _

/-- What `find_t` has checked when it returns. -/
theorem findT_inv {est : Int → Int → Int} {c r t : Nat} (hc : toISize c ≠ 1) (h : findT est c r = .ok t) :
    ∃ (u : Int) (a b : Nat), toISize t = u ∧ -2 ^ 63 < u ∧ u < 2 ^ 63 ∧ beta (toISize c) (u - 1) = .ok a ∧
      beta (toISize c) u = .ok b ∧ toISize a < toISize r ∧ toISize r ≤ toISize b := by
  unfold findT at h
  simp only at h
  rw [if_neg hc] at h
  have hs := satISize_range (est (toISize c) (toISize r))
  generalize satISize (est (toISize c) (toISize r)) = t0 at h hs
  rcases e0 : findTLoop (toISize c) (toISize r) (2 ^ 63 - 1 - t0).toNat t0 with e' | u
  · rw [e0] at h; cases h
  · rw [e0, bind_ok_eq] at h
    have hu := findTLoop_range _ _ _ (by omega) e0
    unfold subI at h
    split at h
    · rename_i hm
      rw [bind_ok_eq] at h
      rcases ea : beta (toISize c) (u - 1) with e' | a
      · rw [ea] at h; cases h
      · rw [ea, bind_ok_eq] at h
        by_cases h1 : toISize a < toISize r
        · simp only [h1, assertR, decide_true, if_true, bind_ok_eq] at h
          rcases eb : beta (toISize c) u with e' | b
          · rw [eb] at h; cases h
          · rw [eb, bind_ok_eq] at h
            by_cases h2 : toISize r ≤ toISize b
            · simp only [h2, decide_true, if_true, bind_ok_eq] at h
              injection h with h
              subst h
              exact ⟨u, a, b, toISize_toUSize (by omega) (by omega), by omega, by omega, ea, eb, h1, h2⟩
            · simp only [h2, decide_false, Bool.false_eq_true, if_false] at h
              cases h
        · simp only [h1, assertR, decide_false, Bool.false_eq_true, if_false] at h
          cases h
    · cases h

/-- Pascal's rule for `B`, as an inequality. -/
theorem B_pascal {c t : Nat} (hc : 2 ≤ c) (ht : 1 ≤ t) : B c (t - 1) + B (c - 2) (t - 1) ≤ B c t := by
  obtain ⟨c, rfl⟩ : ∃ d, c = d + 1 := ⟨c - 1, by omega⟩
  obtain ⟨t, rfl⟩ : ∃ u, t = u + 1 := ⟨t - 1, by omega⟩
  have h1 : B (c + 1) (t + 1) = B (c + 1) t + B c (t + 1) + (if t = 0 then 1 else 0) := by
    unfold B
    rw [if_neg (by omega)]
    have hp : (c + 1 + (t + 1)).choose (c + 1) = (c + (t + 1)).choose c + (c + 1 + t).choose (c + 1) := by
      rw [show c + 1 + (t + 1) = (c + (t + 1)) + 1 by omega, Nat.choose_succ_succ,
        show c + (t + 1) = c + 1 + t by omega]
    by_cases h0 : t = 0
    · subst h0
      rw [if_pos (by omega), if_neg (by omega), if_pos rfl, hp]
      simp
    · rw [if_neg (by omega), if_neg (by omega), if_neg h0, hp]
      omega
  have h2 : B (c + 1 - 2) t ≤ B c (t + 1) := B_mono (by omega) (by omega)
  simp only [Nat.add_sub_cancel]
  omega

theorem nextCheckpoint_same (est : Int → Int → Int) {c r : Nat} (hc : toISize c ≠ 1) (hc' : c < 2 ^ 64)
    (hr : r < 2 ^ 64) : Same (nextCheckpoint est c r) (nextCheckpointW est c r) := by
  unfold nextCheckpoint nextCheckpointW
  refine Same.bind (findT_same est hr) fun t ht => ?_
  simp only
  split
  · exact Same.rfl' _
  · rename_i hn
    obtain ⟨u, a, b, hu, hu1, hu2, ea, eb, h1, h2⟩ := findT_inv hc ht
    have hcr := toISize_range hc'
    rw [hu]
    generalize toISize c = c at *
    have hc2 : 2 ≤ c := by omega
    have hpos : 1 ≤ u := by
      by_contra hcon
      rw [beta_zero (Or.inr (by omega))] at ea eb
      injection ea with ea
      injection eb with eb
      subst ea eb
      omega
    have sub : ∀ (x y : Int), 0 ≤ x → x < 2 ^ 63 → 0 ≤ y → y ≤ 3 → subI x y = .ok (x - y) ∧ wrapI (x - y) = x - y := by
      intro x y _ _ _ _
      exact ⟨by unfold subI; rw [if_pos (by omega)], wrapI_eq (by omega) (by omega)⟩
    obtain ⟨t1, t1'⟩ := sub u 1 (by omega) hu2 (by omega) (by omega)
    obtain ⟨t2, t2'⟩ := sub u 2 (by omega) hu2 (by omega) (by omega)
    obtain ⟨c1, c1'⟩ := sub c 1 (by omega) hcr.2 (by omega) (by omega)
    obtain ⟨c2, c2'⟩ := sub c 2 (by omega) hcr.2 (by omega) (by omega)
    obtain ⟨c3, c3'⟩ := sub c 3 (by omega) hcr.2 (by omega) (by omega)
    simp only [t1, t1', t2, t2', c1, c1', c2, c2', c3, c3', bind_ok_eq, ea, eb]
    obtain ⟨hA, hA'⟩ := beta_inv ea
    obtain ⟨hB, hB'⟩ := beta_inv eb
    have et : (u - 1).toNat = u.toNat - 1 := by omega
    have hp := B_pascal (c := c.toNat) (t := u.toNat) (by omega) (by omega)
    rw [et] at hA
    rcases e21 : beta (c - 2) (u - 1) with e' | b21
    · exact Same.errors _ _
    obtain ⟨h21, -⟩ := beta_inv e21
    rw [et, show (c - 2).toNat = c.toNat - 2 by omega] at h21
    have hlt : a + b21 < 2 ^ 64 := by omega
    simp only [bind_ok_eq, addU, addW_eq hlt, if_pos hlt]
    split
    · exact Same.rfl' _
    · rename_i hgt
      rcases e30 : beta (c - 3) u with e' | b30
      · exact Same.errors _ _
      obtain ⟨h30, -⟩ := beta_inv e30
      have hle : b30 ≤ b := by
        rw [h30, hB]; exact B_mono (by omega) (le_refl _)
      simp only [bind_ok_eq, subU, subW_eq hle hB', if_pos hle]
      split
      · exact Same.rfl' _
      · rcases e11 : beta (c - 1) (u - 1) with e' | b11
        · exact Same.errors _ _
        obtain ⟨h11, -⟩ := beta_inv e11
        have hle2 : b11 ≤ a := by
          rw [h11, hA, et]; exact B_mono (by omega) (le_refl _)
        have hle3 : b11 ≤ r := by omega
        have hle4 : b21 ≤ r - b11 := by omega
        rw [bind_ok_eq, bind_ok_eq, if_pos hle3, bind_ok_eq, if_pos hle4, subW_eq hle3 hr,
          subW_eq hle4 (by omega)]
        exact Same.rfl' _

theorem partialCp_same (est : Int → Int → Int) {c r : Nat} (hc' : c < 2 ^ 64) (hr1 : 1 ≤ r) (hr : r < 2 ^ 64) :
    Same (partialCp est c r) (partialCpW est c r) := by
  unfold partialCp partialCpW
  rw [subW_eq hr1 hr]
  split
  · exact Same.rfl' _
  · split
    · exact Same.rfl' _
    · rename_i hc
      split
      · refine Same.bind (nextCheckpoint_same est (fun h => ?_) hc' hr) fun _ _ => Same.rfl' _
        unfold toISize at h
        split at h <;> omega
      · exact Same.rfl' _

theorem schedNext_same (est : Int → Int → Int) {r off c : Nat} (hc : c < 2 ^ 64) (ho : off < r) (hr : r < 2 ^ 64) :
    Same (schedNext est r off c (r - off)) (schedNextW est r off c (r - off)) := by
  unfold schedNext schedNextW
  split
  · refine Same.bind (partialCp_same est hc (by omega) (by omega)) fun p hp => ?_
    have := partialCp_range (by omega) hp
    unfold addU subU
    rw [if_pos (by omega), bind_ok_eq, if_pos (by omega), bind_ok_eq, addW_eq (by omega)]
    simp only
    rw [subW_eq (by omega) hr]
    exact Same.rfl' _
  · exact Same.rfl' _

theorem schedNext_inv {est : Int → Int → Int} {r off c cp r' : Nat} (ho : off < r)
    (h : schedNext est r off c (r - off) = .ok (some (cp, r'))) : off < cp ∧ cp < r ∧ r' = r - cp := by
  unfold schedNext at h
  split at h
  · rcases e : partialCp est c (r - off) with e' | p
    · rw [e] at h; cases h
    · rw [e, bind_ok_eq] at h
      have hp := partialCp_range (by omega) e
      unfold addU subU at h
      split at h
      · rw [bind_ok_eq] at h
        split at h
        · rw [bind_ok_eq] at h
          injection h with h
          injection h with h
          have h1 := congrArg Prod.fst h
          have h2 := congrArg Prod.snd h
          simp only at h1 h2
          omega
        · cases h
      · cases h
  · injection h with h; cases h

/-! ## Computations with effects -/

/-- From the state `s`, two computations have the same effects and return the same results. -/
def SameM {V α : Type} (m m' : M V α) (s : V) : Prop := (m s).2 = (m' s).2 ∧ Same (m s).1 (m' s).1

theorem SameM.rfl' {V α : Type} (m : M V α) (s : V) : SameM m m s := ⟨rfl, Same.rfl' _⟩

theorem SameM.lift {V α : Type} {a b : Res α} (h : Same a b) (s : V) : SameM (M.lift a) (M.lift b) s := ⟨rfl, h⟩

theorem SameM.bind {V α β : Type} {m m' : M V α} {f g : α → M V β} {s : V} (h : SameM m m' s)
    (hfg : ∀ a s', m s = (.ok a, s') → SameM (f a) (g a) s') : SameM (m >>= f) (m' >>= g) s := by
  unfold SameM
  rw [M.bind_apply, M.bind_apply]
  obtain ⟨h1, h2⟩ := h
  rcases e : m s with ⟨e1 | a, s1⟩ <;> rcases e' : m' s with ⟨e2 | b, s2⟩ <;> rw [e, e'] at h1 h2
  · exact ⟨h1, Same.errors _ _⟩
  · exact absurd ((h2 b).mpr rfl) (by simp)
  · exact absurd ((h2 a).mp rfl) (by simp)
  · have hab : b = a := by have := (h2 a).mp rfl; injection this
    simp only at h1
    subst hab h1
    exact hfg b s1 e

theorem advance_same (est : Int → Int → Int) (forward : T → M W T) {base r : Nat} (hb : base + r < 2 ^ 64) :
    ∀ (c off : Nat) (x : T) (cps : List (Nat × T)) (s : World W), c < 2 ^ 64 → off < r →
      SameM (advance est forward base r c off (r - off) off x cps)
        (advanceW est forward base r c off (r - off) off x cps) s := by
  intro c
  induction c with
  | zero =>
    intro off x cps s hc ho
    unfold advance advanceW
    refine SameM.bind (SameM.lift (schedNext_same est hc ho (by omega)) s) fun o s' _ => ?_
    cases o <;> exact SameM.rfl' _ _
  | succ c ih =>
    intro off x cps s hc ho
    unfold advance advanceW
    refine SameM.bind (SameM.lift (schedNext_same est hc ho (by omega)) s) fun o s' h => ?_
    rcases o with _ | ⟨cp, r'⟩
    · exact SameM.rfl' _ _
    · have hs : schedNext est r off (c + 1) (r - off) = .ok (some (cp, r')) := congrArg Prod.fst h
      obtain ⟨h1, h2, rfl⟩ := schedNext_inv ho hs
      simp only
      refine SameM.bind (SameM.rfl' _ _) fun y s2 _ => ?_
      have e : addU base cp = .ok (base + cp) := by unfold addU; rw [if_pos (by omega)]
      rw [e, lift_ok_bind, addW_eq (by omega)]
      exact SameM.bind (SameM.rfl' _ _) fun l s3 _ => ih cp y l s3 (by omega) h2

/-- Indices of the stack of checkpoints decrease from the top, are less than `r`, and there are at most `N`. -/
structure Good (N r : Nat) (cps : List (Nat × T)) : Prop where
  len : cps.length ≤ N
  sorted : cps.Pairwise fun p q => q.1 < p.1
  lt : ∀ p ∈ cps, p.1 < r

theorem advance_good {est : Int → Int → Int} {forward : T → M W T} {base r N : Nat} :
    ∀ (c off : Nat) (x : T) (cps l : List (Nat × T)) (s s' : World W), off < r → cps.length + c ≤ N →
      Good N (base + off + 1) cps → advance est forward base r c off (r - off) off x cps s = (.ok l, s') →
      Good N (base + r) l := by
  intro c
  induction c with
  | zero =>
    intro off x cps l s s' ho hl hg h
    unfold advance at h
    rw [schedNext_none est r off 0 (Or.inr rfl), lift_ok_bind] at h
    have : cps = l := by injection h with h; injection h
    subst this
    exact ⟨hg.len, hg.sorted, fun p hp => by have := hg.lt p hp; omega⟩
  | succ c ih =>
    intro off x cps l s s' ho hl hg h
    unfold advance at h
    rcases e : schedNext est r off (c + 1) (r - off) with e' | o
    · rw [e] at h; cases h
    · rw [e, lift_ok_bind] at h
      rcases o with _ | ⟨cp, r'⟩
      · have : cps = l := by injection h with h; injection h
        subst this
        exact ⟨hg.len, hg.sorted, fun p hp => by have := hg.lt p hp; omega⟩
      · obtain ⟨h1, h2, rfl⟩ := schedNext_inv ho e
        simp only at h
        rw [M.bind_apply] at h
        rcases e2 : forwardN forward (cp - off) x s with ⟨e' | y, s2⟩
        · rw [e2] at h; cases h
        · rw [e2] at h
          simp only at h
          unfold addU at h
          split at h
          · rw [lift_ok_bind, pushBack_bind] at h
            refine ih cp y _ l _ s' h2 (by simp only [List.length_cons]; omega) ⟨?_, ?_, ?_⟩ h
            · simp only [List.length_cons]; omega
            · exact List.pairwise_cons.mpr ⟨fun p hp => by have := hg.lt p hp; simp only; omega, hg.sorted⟩
            · intro p hp
              rcases List.mem_cons.mp hp with rfl | hp
              · simp only; omega
              · have := hg.lt p hp; omega
          · cases h

theorem toEnd_same (est : Int → Int → Int) (forward : T → M W T) {N r : Nat} (hN : N < 2 ^ 64) (hr : r < 2 ^ 64)
    {cps : List (Nat × T)} (hg : Good N r cps) (s : World W) :
    SameM (toEnd est forward N r cps) (toEndW est forward N r cps) s ∧
      ∀ l s', toEnd est forward N r cps s = (.ok l, s') → Good N r l := by
  unfold toEnd toEndW
  rcases cps with _ | ⟨⟨base, x⟩, tl⟩
  · exact ⟨SameM.rfl' _ _, fun l s' h => by cases h⟩
  · have hb : base < r := hg.lt (base, x) (by simp)
    have hl := hg.len
    simp only [List.head?_cons, unwrap, lift_ok_bind]
    rw [subW_eq hb.le hr, subW_eq hl hN]
    unfold subU
    rw [if_pos hb.le, if_pos hl, lift_ok_bind, lift_ok_bind, if_pos (by omega), if_pos (by omega)]
    constructor
    · exact advance_same est forward (by omega) _ 0 x _ s (by omega) (by omega)
    · intro l s' h
      have := advance_good (N := N) _ 0 x _ l s s' (by omega) (by omega)
        ⟨hl, hg.sorted, fun p hp => by
          rcases List.mem_cons.mp hp with rfl | hp
          · simp
          · have := (List.pairwise_cons.mp hg.sorted).1 p hp
            simp only at this
            omega⟩ h
      rwa [show base + (r - base) = r by omega] at this

theorem mainLoop_same (est : Int → Int → Int) (forward : T → M W T) (reverse : T → R → M W R) (identity : T → M W R)
    {N : Nat} (hN : N < 2 ^ 64) : ∀ (r : Nat) (cps : List (Nat × T)) (res : Option R) (s : World W), r < 2 ^ 64 →
      Good N r cps → SameM (mainLoop est forward reverse identity N r cps res)
        (mainLoopW est forward reverse identity N r cps res) s := by
  intro r
  induction r with
  | zero => intro cps res s _ _; exact SameM.rfl' _ _
  | succ r ih =>
    intro cps res s hr hg
    unfold mainLoop mainLoopW
    obtain ⟨h1, h2⟩ := toEnd_same est forward hN hr hg s
    refine SameM.bind h1 fun l s' hl => ?_
    have hgl := h2 l s' hl
    rcases l with _ | ⟨⟨i, cp⟩, tl⟩
    · exact SameM.rfl' _ _
    · simp only
      refine SameM.bind (SameM.rfl' _ _) fun _ s2 hi => ?_
      have hir : i = r := by
        by_contra hne
        have ha : assertR (decide (i = r)) = .error .assertFailed := by simp [assertR, hne]
        rw [ha] at hi
        cases hi
      subst hir
      have hp := List.pairwise_cons.mp hgl.sorted
      cases res <;> exact SameM.bind (SameM.rfl' _ _) fun v s3 _ => ih tl (some v) s3 (by omega)
        ⟨by have := hgl.len; simp only [List.length_cons] at this; omega, hp.2, fun p h => hp.1 p h⟩

theorem reverseSequence_same (est : Int → Int → Int) {capMax n N : Nat} (x : T) (forward : T → M W T)
    (reverse : T → R → M W R) (identity : T → M W R) (hn : n < 2 ^ 64) (hN : N < 2 ^ 64) (s : World W) :
    SameM (reverseSequence est capMax x n N forward reverse identity)
      (reverseSequenceW est capMax x n N forward reverse identity) s := by
  unfold reverseSequence reverseSequenceW
  refine SameM.bind (SameM.rfl' _ _) fun _ s1 h1 => ?_
  have hN2 : 2 ≤ N := by
    by_contra hne
    have ha : assertR (decide (N ≥ 2)) = .error .assertFailed := by simp [assertR, hne]
    rw [ha] at h1
    cases h1
  refine SameM.bind (SameM.rfl' _ _) fun _ s2 _ => ?_
  refine SameM.bind (SameM.rfl' _ _) fun cps s3 h3 => ?_
  have hc : cps = [(0, x)] := by
    injection h3 with h3
    injection h3 with h3
    exact h3.symm
  subst hc
  unfold addU addW
  by_cases hm : n + 1 < 2 ^ 64
  · rw [if_pos hm, lift_ok_bind, Nat.mod_eq_of_lt hm]
    exact mainLoop_same est forward reverse identity hN _ _ _ _ hm
      ⟨by simp only [List.length_cons, List.length_nil]; omega, by simp, by simp⟩
  · rw [if_neg hm, show (n + 1) % 2 ^ 64 = 0 by omega]
    exact ⟨rfl, Same.errors _ _⟩

end Adv.Ckpt
