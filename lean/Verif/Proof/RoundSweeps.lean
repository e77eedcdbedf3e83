import Verif.Proof.RoundFamily

/-!
# Sweeps over tapes in machine arithmetics
-/

set_option linter.unusedSectionVars false

namespace Adv
open scoped Adv Topology
open Filter Asymptotics

variable {ι : Type*} {l : Filter ι} {S : ι → Type} {val : ∀ i, S i → Option ℝ} {A : ∀ i, Flt (S i)} {u : ι → ℝ}

/-- Families of functions on ids. -/
def NearF (l : Filter ι) (val : ∀ i, S i → Option ℝ) (u : ι → ℝ) (f : Nat → ℝ) (g : ∀ i, Nat → S i) : Prop :=
  ∀ k, Near l val u (f k) fun i => g i k

theorem NearF.upd {f : Nat → ℝ} {g : ∀ i, Nat → S i} (h : NearF l val u f g) (k : Nat) {a : ℝ} {b : ∀ i, S i}
    (hb : Near l val u a b) : NearF l val u (upd f k a) fun i => Adv.upd (g i) k (b i) := by
  intro j
  by_cases hj : j = k
  · subst hj; simpa [Adv.upd] using hb
  · simpa [Adv.upd, hj] using h j

theorem NearF.scatter (A : ∀ i, Flt (S i)) : ∀ (ids : List Nat) (xs : List ℝ) {X : ∀ i, List (S i)} {f : Nat → ℝ}
    {g : ∀ i, Nat → S i}, (∀ i, (X i).length = xs.length) →
    (∀ m : Nat, Near l val u (xs[m]?.getD 0) fun i => (X i)[m]?.getD (A i).zero) → NearF l val u f g →
    NearF l val u (scatterFn ids xs f) fun i => scatterFn ids (X i) (g i)
  | [], xs, X, f, g, _, _, h => by
      have : ∀ xs, scatterFn [] xs f = f := fun xs => by cases xs <;> rfl
      have h2 : ∀ i, scatterFn [] (X i) (g i) = g i := fun i => by cases X i <;> rfl
      simp only [h2]; rw [this]; exact h
  | k :: ids, [], X, f, g, hl, _, h => by
      have h2 : ∀ i, X i = [] := fun i => List.length_eq_zero_iff.mp (hl i)
      simp only [h2]; exact h
  | k :: ids, x :: xs, X, f, g, hl, hx, h => by
      have h2 : ∀ i, X i = (X i)[0]?.getD (A i).zero :: (X i).tail := fun i => by
        rcases hX : X i with _ | ⟨y, ys⟩
        · have := hl i; rw [hX] at this; simp at this
        · rfl
      have h3 := NearF.scatter A ids xs (X := fun i => (X i).tail) (f := Adv.upd f k x)
        (g := fun i => Adv.upd (g i) k ((X i)[0]?.getD (A i).zero)) (fun i => by rw [List.length_tail, hl i]; rfl)
        (fun m => by simpa using hx (m + 1)) (h.upd k (by simpa using hx 0))
      have h4 : (fun i => scatterFn (k :: ids) (X i) (g i)) =
          fun i => scatterFn ids (X i).tail (Adv.upd (g i) k ((X i)[0]?.getD (A i).zero)) := by
        funext i; rw [h2 i]; rfl
      rw [h4]; exact h3

/-- The second operand as in a program. -/
def OpCode.fakeArg (o : OpCode) : Option (Arg ℝ) := if o.isBinary then some (.var 0) else none

theorem OpCode.fakeArg_ok {o : OpCode} (h : o.computes = true) : arityOk o o.fakeArg = true := by
  cases o <;> first | rfl | cases h

theorem OpCode.fakeArg_lit (o : OpCode) (c : ℝ) : o.fakeArg ≠ some (.lit c) := by
  cases o <;> simp [OpCode.fakeArg, OpCode.isBinary]

theorem Dom.smooth {o : OpCode} {a b : ℝ} (h : Dom o a b) : SmoothOp o o.fakeArg a (o.fakeArg.map fun _ => b) := by
  unfold Dom at h
  unfold SmoothOp
  cases o
  case Div => simpa [OpCode.fakeArg, OpCode.isBinary] using h
  case Powf => exact .inl h
  all_goals exact h

/-- The condition of `Tape.InDomain` for one operation; the ids in `E` hold exact constants. -/
def OpDom (E : Nat → Prop) (v : Nat → ℝ) (op : Operation) : Prop :=
  Dom op.opcode (v op.a1) (v op.a2) ∨ (E op.a2 ∧ IntPow op.opcode (v op.a1) (v op.a2))

/-- The operand as in a program. -/
theorem OpDom.arg {E : Nat → Prop} {v : Nat → ℝ} {op : Operation} (h : OpDom E v op) (hc : op.opcode.computes = true) :
    ∃ arg, arityOk op.opcode arg = true ∧ SmoothOp op.opcode arg (v op.a1) (arg.map fun _ => v op.a2) ∧
      ∀ c, arg = some (.lit c) → v op.a2 = c ∧ E op.a2 := by
  rcases h with h | ⟨h1, h2, n, h3, h4⟩
  · exact ⟨_, OpCode.fakeArg_ok hc, h.smooth, fun c h => absurd h (OpCode.fakeArg_lit _ c)⟩
  · refine ⟨some (.lit (v op.a2)), by rw [h2]; rfl, ?_, ?_⟩
    · rw [h2]
      exact .inr ⟨n, by rw [h3], h4⟩
    · rintro c ⟨⟩; exact ⟨rfl, h1⟩

/-- Families of functions on ids, except for the ids in `E`. -/
def NearOff (l : Filter ι) (val : ∀ i, S i → Option ℝ) (u : ι → ℝ) (E : Nat → Prop) (f : Nat → ℝ) (g : ∀ i, Nat → S i) : Prop :=
  ∀ k, ¬ E k → Near l val u (f k) fun i => g i k

theorem NearOff.upd {E : Nat → Prop} {f : Nat → ℝ} {g : ∀ i, Nat → S i} (h : NearOff l val u E f g) (k : Nat) {a : ℝ}
    {b : ∀ i, S i} (hb : ¬ E k → Near l val u a b) : NearOff l val u E (upd f k a) fun i => Adv.upd (g i) k (b i) := by
  intro j he
  by_cases hj : j = k
  · subst hj; simpa [Adv.upd] using hb he
  · simpa [Adv.upd, hj] using h j he

/-- The values with ids in `E` are exact. -/
def ExactOn (l : Filter ι) (val : ∀ i, S i → Option ℝ) (E : Nat → Prop) (f : Nat → ℝ) (g : ∀ i, Nat → S i) : Prop :=
  ∀ k, E k → ∀ᶠ i in l, val i (g i k) = some (f k)

namespace Ariths
variable (F : Ariths l val A u) {E : Nat → Prop}
include F

theorem powf_pred {a b : ℝ} {g h : ∀ i, S i} (hg : Near l val u a g) {n : ℤ} (hs : a ≠ 0 ∨ 1 ≤ n) (hb : b = n)
    (h3 : ∀ᶠ i in l, val i (h i) = some b) :
    Near l val u (a ^ (b - 1)) fun i => (A i).powf (g i) ((A i).sub (h i) (A i).one) := by
  have hn : ∀ᶠ i in l, val i ((A i).sub (h i) (A i).one) = some ((n - 1 : ℤ) : ℝ) := by
    have h4 : Tendsto (fun i => |(n : ℝ)| * u i) l (𝓝 0) := by simpa using F.tendsto.const_mul |(n : ℝ)|
    filter_upwards [h4.eventually (gt_mem_nhds one_pos), h3] with i hi h3
    rw [(F.machine i).pred (h3.trans (by rw [hb])) hi]
    push_cast; rfl
  have e : a ^ (b - 1) = a ^ (n - 1) := by
    rw [hb, ← Real.rpow_intCast a (n - 1)]; push_cast; rfl
  rw [e]
  exact F.powf_int (n := n - 1) hg (hs.imp id fun h => by omega) hn

theorem near_rfun {v : Nat → ℝ} {V : ∀ i, Nat → S i} (hv : NearF l val u v V) (hx : ExactOn l val E v V) {op : Operation}
    (hc : op.opcode.computes = true) (hd : OpDom E v op) {b : ℝ} {B : ∀ i, S i} (hb : Near l val u b B) :
    Near l val u (rfun1 op.opcode (v op.a1) (v op.a2) b) (fun i => @rfun1 (S i) (A i) op.opcode (V i op.a1) (V i op.a2) (B i)) ∧
    (¬ E op.a2 → Near l val u (rfun2 op.opcode (v op.a1) (v op.a2) b)
      fun i => @rfun2 (S i) (A i) op.opcode (V i op.a1) (V i op.a2) (B i)) := by
  have h1 := hv op.a1
  have h2 := hv op.a2
  rcases hd with hd | ⟨hE, ho, n, hn, hd⟩
  swap
  · refine ⟨?_, fun h => absurd hE h⟩
    rw [ho]
    exact F.mul (F.mul hb h2) (F.powf_pred h1 hd hn (hx _ hE))
  have hff := F.ffun (OpCode.fakeArg_ok hc) h1 h2 F.near_one F.near_one hd.smooth
    (fun c h => absurd h (OpCode.fakeArg_lit _ c))
  suffices h : Near l val u (rfun1 op.opcode (v op.a1) (v op.a2) b) (fun i => @rfun1 (S i) (A i) op.opcode (V i op.a1) (V i op.a2) (B i)) ∧
      Near l val u (rfun2 op.opcode (v op.a1) (v op.a2) b) fun i => @rfun2 (S i) (A i) op.opcode (V i op.a1) (V i op.a2) (B i) from
    ⟨h.1, fun _ => h.2⟩
  unfold Dom at hd
  rcases hop : op.opcode <;> rw [hop] at hc hff <;> simp only [hop] at hd
  case Nop => cases hc
  case Const => cases hc
  case Add => exact ⟨hb, hb⟩
  case Sub => exact ⟨hb, F.neg hb⟩
  case Mul => exact ⟨F.mul hb h2, F.mul hb h1⟩
  case Div =>
    exact ⟨F.div (F.mul hb F.near_one) h2 hd,
      F.mul hb (F.div (F.neg h1) (F.powi h2 (n := 2) (.inr (by norm_num))) (zpow_ne_zero 2 hd))⟩
  case Powf =>
    exact ⟨F.mul (F.mul hb h2) (F.powf h1 (F.sub h2 F.near_one) hd), F.mul (F.mul hb (F.ln h1 hd)) (F.powf h1 h2 hd)⟩
  all_goals exact ⟨F.mul hb hff, hb⟩

theorem near_stepF {v : Nat → ℝ} {V : ∀ i, Nat → S i} (hv : NearF l val u v V) (hx : ExactOn l val E v V) {op : Operation}
    (hd : op.opcode.computes = true → OpDom E v op) (he : op.opcode.computes = true → ¬ E op.vid)
    {f : Nat → ℝ} {g : ∀ i, Nat → S i} (h : NearF l val u f g) (hz : ExactOn l val E (fun _ => 0) g) (hz0 : ∀ k, E k → f k = 0) :
    NearF l val u (stepF v op f) (fun i => @stepF (S i) (A i) (V i) op (g i)) ∧
    ExactOn l val E (fun _ => 0) (fun i => @stepF (S i) (A i) (V i) op (g i)) ∧ ∀ k, E k → stepF v op f k = 0 := by
  unfold stepF
  by_cases hc : op.opcode.computes = true
  · simp only [hc, if_true]
    obtain ⟨arg, h1, h2, h3⟩ := (hd hc).arg hc
    refine ⟨h.upd _ (F.ffun h1 (hv _) (hv _) (h _) (h _) h2 ?_), ?_, ?_⟩
    · intro c hlit
      obtain ⟨k1, k2⟩ := h3 c hlit
      refine ⟨k1, hz0 _ k2, ?_⟩
      filter_upwards [hx _ k2, hz _ k2] with i j1 j2
      exact ⟨j1.trans (by rw [k1]), j2⟩
    · intro k hk
      have hne : k ≠ op.vid := fun e => he hc (e ▸ hk)
      filter_upwards [hz k hk] with i hi
      simpa [Adv.upd, hne] using hi
    · intro k hk
      have hne : k ≠ op.vid := fun e => he hc (e ▸ hk)
      simpa [Adv.upd, hne] using hz0 k hk
  · simp only [hc]
    by_cases hk : op.opcode = .Const
    · simp only [hk, if_true]
      refine ⟨h.upd _ F.near_zero, ?_, ?_⟩
      · intro k hk
        filter_upwards [hz k hk] with i hi
        by_cases e : k = op.vid
        · simpa [Adv.upd, e] using (F.machine i).zero
        · simpa [Adv.upd, e] using hi
      · intro k hk
        by_cases e : k = op.vid
        · subst e; simp only [Bool.false_eq_true, if_false, upd_same]; rfl
        · simpa [Adv.upd, e] using hz0 k hk
    · simp only [hk]; exact ⟨h, hz, hz0⟩

theorem near_stepR {v : Nat → ℝ} {V : ∀ i, Nat → S i} (hv : NearF l val u v V) (hx : ExactOn l val E v V) {op : Operation}
    (hd : op.opcode.computes = true → OpDom E v op) (he : op.opcode.computes = true → ¬ E op.vid)
    {f : Nat → ℝ} {g : ∀ i, Nat → S i} (h : NearOff l val u E f g) :
    NearOff l val u E (stepR v op f) fun i => @stepR (S i) (A i) (V i) op (g i) := by
  unfold stepR
  by_cases hb : op.opcode.isBinary = true
  · have hc := OpCode.isBinary_computes hb
    simp only [hb, if_true]
    have h1 := h.upd op.a1 fun e => F.add (h op.a1 e) (F.near_rfun hv hx hc (hd hc) (h op.vid (he hc))).1
    exact h1.upd op.a2 fun e => F.add (h1 op.a2 e) ((F.near_rfun hv hx hc (hd hc) (h1 op.vid (he hc))).2 e)
  · simp only [hb]
    by_cases hu : op.opcode.isUnary = true
    · have hc := OpCode.isUnary_computes hu
      simp only [hu, if_true]
      exact h.upd op.a1 fun e => F.add (h op.a1 e) (F.near_rfun hv hx hc (hd hc) (h op.vid (he hc))).1
    · simp only [hu]; exact h

theorem near_sweepF {v : Nat → ℝ} {V : ∀ i, Nat → S i} (hv : NearF l val u v V) (hx : ExactOn l val E v V) : ∀ (ops : List Operation),
    (∀ op ∈ ops, op.opcode.computes = true → OpDom E v op) → (∀ op ∈ ops, op.opcode.computes = true → ¬ E op.vid) →
    ∀ {f : Nat → ℝ} {g : ∀ i, Nat → S i}, NearF l val u f g → ExactOn l val E (fun _ => 0) g → (∀ k, E k → f k = 0) →
    NearF l val u (sweepF v ops f) fun i => @sweepF (S i) (A i) (V i) ops (g i)
  | [], _, _, _, _, h, _, _ => h
  | op :: ops, hd, he, f, g, h, hz, hz0 => by
      obtain ⟨h1, h2, h3⟩ := F.near_stepF hv hx (hd op (by simp)) (he op (by simp)) h hz hz0
      exact near_sweepF hv hx ops (fun o ho => hd o (by simp [ho])) (fun o ho => he o (by simp [ho])) h1 h2 h3

theorem near_sweepR {v : Nat → ℝ} {V : ∀ i, Nat → S i} (hv : NearF l val u v V) (hx : ExactOn l val E v V) : ∀ (ops : List Operation),
    (∀ op ∈ ops, op.opcode.computes = true → OpDom E v op) → (∀ op ∈ ops, op.opcode.computes = true → ¬ E op.vid) →
    ∀ {f : Nat → ℝ} {g : ∀ i, Nat → S i}, NearOff l val u E f g →
    NearOff l val u E (sweepR v ops f) fun i => @sweepR (S i) (A i) (V i) ops (g i)
  | [], _, _, _, _, h => h
  | op :: ops, hd, he, f, g, h => F.near_stepR hv hx (hd op (by simp)) (he op (by simp))
      (near_sweepR hv hx ops (fun o ho => hd o (by simp [ho])) (fun o ho => he o (by simp [ho])) h)

omit F in
/-- Values that no operation computes. -/
theorem _root_.Adv.sweepZ_keep {T : Type} (B : Flt T) {ops : List Operation} (hs : SSA ops) (f : Nat → T) {k : Nat}
    (h : ∀ op ∈ ops, op.opcode.computes = true → op.vid ≠ k) : @sweepZ T B ops f k = f k := by
  by_cases hk : ∃ op ∈ activeOps ops, op.vid = k
  · obtain ⟨op, hop, rfl⟩ := hk
    have hop' := mem_activeOps.mp hop
    refine @sweepZ_const T B ops hs f op hop'.1 ?_
    by_contra hne
    exact h op hop'.1 ((OpCode.computes_iff _).mpr ⟨hop'.2, hne⟩) rfl
  · exact @sweepZ_other T B ops k (fun op ho e => hk ⟨op, ho, e⟩) f

/-- Replay; the operations are in their domains at the new values. -/
theorem near_sweepZ {ops : List Operation} (hs : SSA ops) {f : Nat → ℝ} {g : ∀ i, Nat → S i} (h : NearF l val u f g)
    (hx : ExactOn l val E f g) (he : ∀ op ∈ ops, op.opcode.computes = true → ¬ E op.vid)
    (hd : ∀ op ∈ ops, op.opcode.computes = true → OpDom E (sweepZ ops f) op) :
    NearF l val u (sweepZ ops f) fun i => @sweepZ (S i) (A i) ops (g i) := by
  intro k
  induction k using Nat.strongRecOn with
  | _ k ih =>
    by_cases hk : ∃ op ∈ ops, op.opcode.computes = true ∧ op.vid = k
    · obtain ⟨op, hop, hc, rfl⟩ := hk
      have hact := mem_activeOps.mpr ⟨hop, ((OpCode.computes_iff _).mp hc).1⟩
      rw [sweepZ_computes hs f hop hc]
      have e : (fun i => @sweepZ (S i) (A i) ops (g i) op.vid) = fun i => @Adv.zfun (S i) (A i) op.opcode
          (@sweepZ (S i) (A i) ops (g i) op.a1) (@sweepZ (S i) (A i) ops (g i) op.a2) := by
        funext i; exact @sweepZ_computes (S i) (A i) ops hs (g i) op hop hc
      rw [e]
      obtain ⟨arg, h1, h2, h3⟩ := (hd op hop hc).arg hc
      refine F.zfun h1 (ih _ (hs.a1_lt op hact hc)) (ih _ (hs.a2_lt op hact hc)) h2 ?_
      intro c hlit
      obtain ⟨k1, k2⟩ := h3 c hlit
      refine ⟨k1, ?_⟩
      have hkeep : ∀ o ∈ ops, o.opcode.computes = true → o.vid ≠ op.a2 := fun o ho hco e => he o ho hco (e ▸ k2)
      rw [sweepZ_keep _ hs f hkeep] at k1
      filter_upwards [hx _ k2] with i hi
      rw [sweepZ_keep _ hs _ hkeep, hi, k1]
    · have hk' : ∀ op ∈ ops, op.opcode.computes = true → op.vid ≠ k := fun op ho hc e => hk ⟨op, ho, hc, e⟩
      rw [sweepZ_keep _ hs f hk']
      have e : (fun i => @sweepZ (S i) (A i) ops (g i) k) = fun i => g i k := by
        funext i; exact sweepZ_keep _ hs _ hk'
      rw [e]; exact h _

omit F in
theorem _root_.Adv.WithinM.near {C a : ℝ} {g : ∀ i, S i} (h : ∀ i, WithinM (val i) (C * u i) a (g i)) : Near l val u a g := by
  choose r h1 h2 using h
  refine ⟨r, IsBigO.of_bound |C| (Eventually.of_forall fun i => ?_), Eventually.of_forall h1⟩
  rw [Real.norm_eq_abs, Real.norm_eq_abs, ← abs_mul, abs_sub_comm]
  exact (h2 i).trans (le_abs_self _)

/-- Lists of close numbers. -/
theorem near_within {C : ℝ} {xs : List ℝ} {X : ∀ i, List (S i)} (h : ∀ i, List.Forall₂ (WithinM (val i) (C * u i)) xs (X i))
    (m : Nat) : Near l val u (xs[m]?.getD 0) fun i => (X i)[m]?.getD (A i).zero := by
  by_cases hm : m < xs.length
  · refine WithinM.near (C := C) fun i => ?_
    have hl := (h i).length_eq
    have := (List.forall₂_iff_get.mp (h i)).2 m hm (by omega)
    have hX : m < (X i).length := by omega
    simp only [List.get_eq_getElem] at this
    simp only [List.getElem?_eq_getElem hm, List.getElem?_eq_getElem hX, Option.getD_some]
    exact this
  · have : ∀ i, (X i)[m]?.getD (A i).zero = (A i).zero := fun i => by
      have hl := (h i).length_eq
      rw [List.getElem?_eq_none (by omega)]; rfl
    simp only [this]
    rw [List.getElem?_eq_none (by omega)]
    exact F.near_zero

theorem near_fn {C : ℝ} {xs : List ℝ} {X : ∀ i, List (S i)} (h : ∀ i, List.Forall₂ (WithinM (val i) (C * u i)) xs (X i)) :
    NearF l val u (fn xs) fun i => @fn (S i) (A i) (X i) := fun k => F.near_within h k

theorem within_map_off {E : Nat → Prop} {f : Nat → ℝ} {g : ∀ i, Nat → S i} (h : NearOff l val u E f g) : ∀ ks : List Nat,
    (∀ k ∈ ks, ¬ E k) → ∃ K, 0 ≤ K ∧ ∀ᶠ i in l, List.Forall₂ (WithinM (val i) (K * u i)) (ks.map f) (ks.map (g i))
  | [], _ => ⟨0, le_refl _, Eventually.of_forall fun _ => .nil⟩
  | k :: ks, he => by
      have h0 : ∀ i, 0 ≤ u i := fun i => (F.machine i).nonneg
      obtain ⟨K1, k1, h1⟩ := (h k (he k (by simp))).bound h0
      obtain ⟨K2, k2, h2⟩ := within_map_off h ks fun j hj => he j (by simp [hj])
      refine ⟨max K1 K2, le_max_of_le_left k1, ?_⟩
      filter_upwards [h1, h2] with i a b
      refine .cons (a.mono (mul_le_mul_of_nonneg_right (le_max_left _ _) (h0 i))) (b.imp fun x y hxy => ?_)
      exact hxy.mono (mul_le_mul_of_nonneg_right (le_max_right _ _) (h0 i))

theorem within_map {f : Nat → ℝ} {g : ∀ i, Nat → S i} (h : NearF l val u f g) (ks : List Nat) :
    ∃ K, 0 ≤ K ∧ ∀ᶠ i in l, List.Forall₂ (WithinM (val i) (K * u i)) (ks.map f) (ks.map (g i)) :=
  F.within_map_off (E := fun _ => False) (fun k _ => h k) ks (fun _ _ h => h)

end Ariths

/-- The exponents of powers whose base is not positive. -/
def Tape.Exps (t : Tape ℝ) (k : Nat) : Prop := ∃ op ∈ t.ops, op.opcode = .Powf ∧ op.a2 = k ∧ fn t.vals op.a1 ≤ 0

theorem fn_getD (v : List ℝ) (k : Nat) : fn v k = v.getD k 0 := by rw [List.getD_eq_getElem?_getD]; rfl

theorem Tape.WF.arg1 {S : Type} {t : Tape S} (hw : t.WF) {op : Operation} (hop : op ∈ t.ops) (hc : op.opcode.computes = true) :
    op.arg1 = some op.a1 := by
  rcases (hw.inB op hop).cases with h0 | ⟨h0, -⟩ | ⟨_, _, h3, _⟩ | ⟨_, _, h3, _⟩
  · rw [h0] at hc; cases hc
  · rw [h0] at hc; cases hc
  · exact h3
  · exact h3

theorem Tape.InDomain.op {t : Tape ℝ} (h : t.InDomain) (hw : t.WF) {op : Operation} (hop : op ∈ t.ops)
    (hc : op.opcode.computes = true) : OpDom t.Exps (fn t.vals) op := by
  have := h op hop op.a1 op.a2 (hw.arg1 hop hc) rfl
  by_cases hp : op.opcode = .Powf
  · rw [hp] at this
    simp only [← fn_getD] at this
    by_cases hpos : 0 < fn t.vals op.a1
    · left; rw [hp]; exact hpos
    · obtain ⟨-, n, h1, h2⟩ := this.resolve_left hpos
      exact .inr ⟨⟨op, hop, hp, rfl, not_lt.mp hpos⟩, hp, n, h1, h2⟩
  · left
    unfold Dom
    simp only [fn_getD]
    rcases hop : op.opcode <;> simp only [hop] at this ⊢ <;> first | exact this | exact absurd hop hp

theorem Tape.InDomain.exps {t : Tape ℝ} (h : t.InDomain) (hw : t.WF) {k : Nat} (hk : t.Exps k) :
    ∃ c ∈ t.ops, c.opcode = .Const ∧ c.vid = k := by
  obtain ⟨op, hop, hp, rfl, hle⟩ := hk
  have := h op hop op.a1 op.a2 (hw.arg1 hop (by rw [hp]; rfl)) rfl
  rw [hp] at this
  simp only [← fn_getD] at this
  exact (this.resolve_left (not_lt.mpr hle)).1

theorem Tape.InDomain.exps_vid {t : Tape ℝ} (h : t.InDomain) (hw : t.WF) {op : Operation} (hop : op ∈ t.ops)
    (hc : op.opcode.computes = true) : ¬ t.Exps op.vid := by
  intro hk
  obtain ⟨c, h1, h2, h3⟩ := h.exps hw hk
  have hs : ((activeOps t.ops).map Operation.vid).Nodup := hw.sorted.imp (fun hlt => Nat.ne_of_lt hlt)
  have := List.inj_on_of_nodup_map hs (mem_activeOps.mpr ⟨h1, by simp [h2]⟩)
    (mem_activeOps.mpr ⟨hop, ((OpCode.computes_iff _).mp hc).1⟩) h3
  rw [← this, h2] at hc
  cases hc

theorem Tape.InDomain.exps_indeps {t : Tape ℝ} (h : t.InDomain) (hw : t.WF) {k : Nat} (hk : t.Exps k) : k ∉ t.indeps := by
  obtain ⟨c, h1, h2, rfl⟩ := h.exps hw hk
  exact hw.vid_fresh c (mem_activeOps.mpr ⟨h1, by simp [h2]⟩)

theorem Tape.SameExponentsM.exact {S : Type} {val : S → Option ℝ} (B : Flt S) {t : Tape ℝ} {t' : Tape S}
    (h : t.SameExponentsM val t') (hw : t.WF) {k : Nat} (hk : t.Exps k) : val (@fn S B t'.vals k) = some (fn t.vals k) := by
  obtain ⟨op, hop, hp, rfl, hle⟩ := hk
  rw [fn_getD] at hle
  have h2 : op.arg2 = some op.a2 := by
    have := (hw.arity op (mem_activeOps.mpr ⟨hop, by simp [hp]⟩)).1 (by rw [hp]; rfl)
    obtain ⟨b, hb⟩ := Option.isSome_iff_exists.mp this.2
    simp [Operation.a2, hb]
  obtain ⟨s, h3, h4⟩ := h op hop _ _ hp (hw.arg1 hop (by rw [hp]; rfl)) h2 hle
  rw [fn_getD, ← h4]
  simp [fn, h3]

/-- A machine arithmetic with data. -/
structure MachineCase (β : Type → Type) (cond : ∀ S : Type, (S → Option ℝ) → ℝ → β S → Prop) : Type 1 where
  S : Type
  val : S → Option ℝ
  A : Flt S
  u : ℝ
  b : β S
  machine : Machine val A u
  cond : cond S val u b

/-- From families to uniform bounds. -/
theorem machine_uniform {β : Type → Type} {cond : ∀ S : Type, (S → Option ℝ) → ℝ → β S → Prop}
    {concl : ℝ → ∀ S : Type, (S → Option ℝ) → Flt S → ℝ → β S → Prop}
    (h : ∀ {ι : Type 1} {l : Filter ι} {S : ι → Type} {val : ∀ i, S i → Option ℝ} {A : ∀ i, Flt (S i)} {u : ι → ℝ}
      (b : ∀ i, β (S i)), Ariths l val A u → (∀ i, cond (S i) (val i) (u i) (b i)) →
      ∃ K, 0 ≤ K ∧ ∀ᶠ i in l, concl K (S i) (val i) (A i) (u i) (b i)) :
    ∃ K u₀, 0 ≤ K ∧ 0 < u₀ ∧ ∀ (S : Type) (val : S → Option ℝ) (A : Flt S) (u : ℝ) (b : β S), Machine val A u → u ≤ u₀ →
      cond S val u b → concl K S val A u b := by
  obtain ⟨K, hK, hev⟩ := h (ι := MachineCase β cond) (l := comap (fun i => i.u) (𝓝 0)) (S := fun i => i.S)
    (val := fun i => i.val) (A := fun i => i.A) (u := fun i => i.u) (fun i => i.b)
    ⟨fun i => i.machine, tendsto_comap⟩ (fun i => i.cond)
  obtain ⟨s, hs, hsub⟩ := hev
  obtain ⟨ε, he, hb⟩ := Metric.mem_nhds_iff.mp hs
  refine ⟨K, ε / 2, hK, by positivity, fun S val A u b hA hu hc => ?_⟩
  have hm : (⟨S, val, A, u, b, hA, hc⟩ : MachineCase β cond) ∈ (fun i : MachineCase β cond => i.u) ⁻¹' s := by
    apply hb
    show dist u 0 < ε
    rw [Real.dist_eq, sub_zero, abs_of_nonneg hA.nonneg]
    linarith
  exact hsub hm

end Adv
