import Verif.Proof.CkptBudget
import Verif.Proof.FloydWarshall
import Verif.Proof.FwFresh
import Verif.Proof.Selection
import Verif.Props.Replay

/-! # What `calculate_gradient` of the Floyd-Warshall example computes -/

set_option linter.unusedSectionVars false

namespace Adv.Fw
open Finset
open scoped Adv

variable {K : Type} [Field K] [LinearOrder K] [IsStrictOrderedRing K] [Flt K] [LawfulFlt K]

theorem getD_map_range {α : Type} (F : Nat → α) (d : α) {L i : Nat} (hi : i < L) : ((List.range L).map F).getD i d = F i := by
  simp [List.getD_eq_getElem?_getD, hi]

open Classical in
/-- One link of the sequence, differentiated. -/
theorem link {f : Func K} (hf : f.StraightLine) {L M : Nat} {w w' : World K} {t : Tape K} (hw : w.nextId < usizeMax)
    (e : f.tape (List.replicate L Flt.zero) w = (.ok t, w')) (V : Nat → K) (Y : (Nat → K) → Nat → K × K)
    (hev : ∀ F : Nat → K, f.evalS selSh ((List.range L).map fun i => (V i, F i)) = .ok ((List.range M).map (Y F)))
    (hz : ∀ (t1 : Tape K) (w1 : World K), f.tape ((List.range L).map V) w = (.ok t1, w1) → (zIds t1).Nodup)
    {next : GenJac K} (hc : next.homogenous.ncols = M) (hi : next.inhomogenous.length = next.homogenous.nrows)
    {σ : Sched} (hσ : σ.Valid) :
    ∃ t1 R w1, t.zeroOrder ((List.range L).map V) = .ok t1 ∧ f.tape ((List.range L).map V) w = (.ok t1, w1) ∧
      generalizedJacobianTape σ t1 (List.replicate L Flt.zero) [0] (some next) = .ok R ∧
      R.homogenous.nrows = next.homogenous.nrows ∧ R.homogenous.ncols = L ∧
      R.inhomogenous.length = next.homogenous.nrows ∧
      ∀ (F : Nat → K), ∀ i < next.homogenous.nrows, ∑ j ∈ range L, R.homogenous.get i j * F j =
        ∑ k ∈ range M, next.homogenous.get i k * if Reregistered t1.deps k then 0 else (Y F k).2 := by
  obtain ⟨t1, e1, e2⟩ := Props.C58_replay_is_rerecording f hf (x1 := (List.range L).map V) (by simp) hw hw e
  have ht : TapeOf f ((List.range L).map V) t1 := by
    have := (Func.tape_spec f ((List.range L).map V) w hw).2
    rw [e2] at this
    obtain ⟨_, -, h⟩ := this.ok_left
    exact h
  have hni : t1.numIndeps = L := by simp [Tape.numIndeps, ht.indeps]
  have hzip : ∀ F : Nat → K, ((List.range L).map V).zip ((List.range L).map F) = (List.range L).map fun i => (V i, F i) :=
    fun F => List.zip_map'
  have hnod := hz t1 _ e2
  have hrow : ∀ {m : Nat} {G : DMat K} {γ : List K},
      IsPiece (lastForm t1) (signature [0] (zHatV t1 (List.replicate m 0))) G γ → ∀ F : Nat → K,
      M = t1.numDeps ∧ ∀ i < M, mv G ((List.range L).map F) i = if Reregistered t1.deps i then 0 else (Y F i).2 := by
    intro m G γ hp F
    obtain ⟨h1, h2⟩ := ht.selection hnod (v := (List.range L).map F) (by simp) hp (by rw [hzip]; exact hev F)
    have h1' : M = t1.numDeps := by simpa using h1
    refine ⟨h1', fun i hi' => ?_⟩
    rw [h2 i (by omega), getD_map_range _ _ hi']
  have hdx : (List.replicate L (Flt.zero : K)).length = t1.numIndeps := by simp [hni]
  obtain ⟨R0, g1, g2, -⟩ := gj_piece_last hσ ht.wf hdx [0]
  rw [LawfulFlt.zero_eq] at g2
  obtain ⟨R, R', k1, k2, k3, k4, -, k6, k7, -⟩ := gj_comp hσ hσ ht.wf hdx [0] (next := next)
    (by rw [hc]; exact (hrow g2 fun _ => 0).1) hi
  rw [g1] at k1
  injection k1 with k1
  subst k1
  refine ⟨t1, R', _, e1, e2, k2, k3.nrows, by rw [k3.ncols, k7, hni], by rw [k4]; simp, fun F i hi' => ?_⟩
  have hm := mv_congr_comp k3 (v := (List.range L).map F) hi'
  have e3 : mv R'.homogenous ((List.range L).map F) i = ∑ j ∈ range L, R'.homogenous.get i j * F j := by
    unfold mv
    rw [k3.ncols, k7, hni]
    exact Finset.sum_congr rfl fun j hj => by rw [getD_map_range _ _ (mem_range.mp hj)]
  rw [← e3, hm, hc]
  exact Finset.sum_congr rfl fun k hk => by rw [(hrow g2 F).2 k (mem_range.mp hk)]

/-! ## Values -/

section values
variable {A B : Type} {sh : Shadow K A} {sh' : Shadow K B}

theorem relaxS_fst (n k : Nat) : ∀ (ps : List (Nat × Nat)) {F : Nat → K × A} {F' : Nat → K × B},
    (∀ i, (F i).1 = (F' i).1) → ∀ i, (relaxS sh n k ps F i).1 = (relaxS sh' n k ps F' i).1 := by
  intro ps
  induction ps with
  | nil => intro F F' h; exact h
  | cons p ps ih =>
    intro F F' h
    refine ih fun i => ?_
    beta_reduce
    by_cases hi : i = p.1 * n + p.2
    · subst hi
      rw [upd_same, upd_same, mnS_fst, mnS_fst]
      simp only [bin, h]
    · rw [upd_ne hi, upd_ne hi, h]

theorem edgeS_fst_congr (N : Net K) {x : Nat → K × A} {x' : Nat → K × B} {e : Edge} (h : (x e.light).1 = (x' e.light).1) :
    (edgeS sh N x e).1 = (edgeS sh' N x' e).1 := by
  have := edgeS_fst (sh := sh) N x e (params := List.replicate (e.light + 1) (x e.light).1) (by simp)
  have h2 := edgeS_fst (sh := sh') N x' e (params := List.replicate (e.light + 1) (x e.light).1) (by simp [h])
  rw [this, h2]

theorem initS_fst_congr (N : Net K) {x : Nat → K × A} {x' : Nat → K × B} (h : ∀ i, (x i).1 = (x' i).1) (i : Nat) :
    (initS sh N x i).1 = (initS sh' N x' i).1 := by
  have key : ∀ (es : List Edge) {F : Nat → K × A} {F' : Nat → K × B}, (∀ i, (F i).1 = (F' i).1) → ∀ i,
      (es.foldl (fun d e => upd (upd d (e.u * N.n + e.v) (edgeS sh N x e)) (e.v * N.n + e.u) (edgeS sh N x e)) F i).1 =
      (es.foldl (fun d e => upd (upd d (e.u * N.n + e.v) (edgeS sh' N x' e)) (e.v * N.n + e.u) (edgeS sh' N x' e)) F' i).1 := by
    intro es
    induction es with
    | nil => intro F F' h; exact h
    | cons e es ih =>
      intro F F' hF
      refine ih fun i => ?_
      beta_reduce
      have he := edgeS_fst_congr (sh := sh) (sh' := sh') N (h e.light)
      by_cases h1 : i = e.v * N.n + e.u
      · subst h1; rw [upd_same, upd_same, he]
      · rw [upd_ne h1, upd_ne h1]
        by_cases h2 : i = e.u * N.n + e.v
        · subst h2; rw [upd_same, upd_same, he]
        · rw [upd_ne h2, upd_ne h2, hF]
  refine key _ (fun i => ?_) i
  have key2 : ∀ (l : List Nat) {F : Nat → K × A} {F' : Nat → K × B}, (∀ i, (F i).1 = (F' i).1) → ∀ i,
      (l.foldl (fun d i => upd d (i * N.n + i) (lit sh Flt.zero)) F i).1 =
      (l.foldl (fun d i => upd d (i * N.n + i) (lit sh' Flt.zero)) F' i).1 := by
    intro l
    induction l with
    | nil => intro F F' h; exact h
    | cons a l ih =>
      intro F F' hF
      refine ih fun i => ?_
      beta_reduce
      by_cases h1 : i = a * N.n + a
      · subst h1; rw [upd_same, upd_same]; rfl
      · rw [upd_ne h1, upd_ne h1, hF]
  exact key2 _ (fun _ => rfl) i

theorem distS_fst (N : Net K) {x : Nat → K × A} {x' : Nat → K × B} (h : ∀ i, (x i).1 = (x' i).1) (k i : Nat) :
    (distS sh N x k i).1 = (distS sh' N x' k i).1 := by
  induction k generalizing i with
  | zero => exact initS_fst_congr N h i
  | succ k ih => rw [distS_succ, distS_succ]; exact relaxS_fst _ _ _ ih i

end values

/-- The value of entry `i` after `k` steps. -/
def valS (N : Net K) (x : Nat → K) (k i : Nat) : K := (distS unitSh N (fun i => (x i, ())) k i).1

/-! ## The sequence -/

/-- The functions of the sequence. -/
def linkF (N : Net K) (r : Nat) : Func K :=
  if r = 0 then init N else if r < N.n + 1 then step N.n (r - 1) else badness N.n N.exits

/-- The lengths of the vectors in the sequence. -/
def linkLen (N : Net K) (r : Nat) : Nat := if r = 0 then N.lights else if r < N.n + 2 then N.n * N.n else 1

/-- The vectors in the sequence. -/
def linkVal (N : Net K) (x : Nat → K) (r : Nat) : Nat → K :=
  if r = 0 then x else if r < N.n + 2 then valS N x (r - 1) else
    fun _ => (badS unitSh N.n (exitPairs N.exits) fun i => (valS N x N.n i, ())).1

/-- The functions of the sequence, on values and probes. -/
def linkOut (N : Net K) (x : Nat → K) (r : Nat) (F : Nat → K) : Nat → K × K :=
  if r = 0 then initS selSh N fun i => (x i, F i)
  else if r < N.n + 1 then relaxS selSh N.n (r - 1) (pairs N.n) fun i => (valS N x (r - 1) i, F i)
  else fun _ => badS selSh N.n (exitPairs N.exits) fun i => (valS N x N.n i, F i)

theorem linkF_straight (N : Net K) (r : Nat) : (linkF N r).StraightLine := by
  unfold linkF
  split_ifs
  · exact init_straight N
  · exact step_straight _ _
  · exact badness_straight _ _

theorem link_eval {N : Net K} (hN : N.Ok) (x : Nat → K) {r : Nat} (hr : r < N.n + 2) (F : Nat → K) :
    (linkF N r).evalS selSh ((List.range (linkLen N r)).map fun i => (linkVal N x r i, F i)) =
      .ok ((List.range (linkLen N (r + 1))).map (linkOut N x r F)) := by
  rcases Nat.eq_zero_or_pos r with rfl | h0
  · simp only [linkF, linkLen, linkVal, linkOut, if_true, if_neg (show ¬ (0 + 1 = 0) by omega),
      if_pos (show 0 + 1 < N.n + 2 by omega)]
    exact init_eval hN _
  · by_cases h1 : r < N.n + 1
    · simp only [linkF, linkLen, linkVal, linkOut, if_neg (show ¬ r = 0 by omega), if_pos h1, if_pos hr,
        if_neg (show ¬ (r + 1 = 0) by omega), if_pos (show r + 1 < N.n + 2 by omega)]
      exact step_eval (by omega) _
    · have : r = N.n + 1 := by omega
      subst this
      simp only [linkF, linkLen, linkVal, linkOut, if_neg (show ¬ N.n + 1 = 0 by omega), if_neg h1, if_pos hr,
        if_neg (show ¬ (N.n + 1 + 1 = 0) by omega), if_neg (show ¬ N.n + 1 + 1 < N.n + 2 by omega), Nat.add_sub_cancel]
      exact badness_eval hN.exits _

theorem linkOut_fst {N : Net K} (x : Nat → K) {r : Nat} (hr : r < N.n + 2) (F : Nat → K) (i : Nat) :
    (linkOut N x r F i).1 = linkVal N x (r + 1) i := by
  rcases Nat.eq_zero_or_pos r with rfl | h0
  · simp only [linkVal, linkOut, if_true, if_neg (show ¬ (0 + 1 = 0) by omega), if_pos (show 0 + 1 < N.n + 2 by omega)]
    exact initS_fst_congr (sh := selSh) (sh' := unitSh) (x := fun i => (x i, F i)) (x' := fun i => (x i, ())) N (fun _ => rfl) i
  · by_cases h1 : r < N.n + 1
    · simp only [linkVal, linkOut, if_neg (show ¬ r = 0 by omega), if_pos h1,
        if_neg (show ¬ (r + 1 = 0) by omega), if_pos (show r + 1 < N.n + 2 by omega), Nat.add_sub_cancel]
      obtain ⟨k, rfl⟩ : ∃ k, r = k + 1 := ⟨r - 1, by omega⟩
      rw [valS, distS_succ]
      exact relaxS_fst (sh := selSh) (sh' := unitSh) (F := fun i => (valS N x (k + 1 - 1) i, F i))
        (F' := distS unitSh N (fun i => (x i, ())) k) _ _ _ (fun _ => rfl) i
    · have : r = N.n + 1 := by omega
      subst this
      simp only [linkVal, linkOut, if_neg (show ¬ N.n + 1 = 0 by omega), if_neg h1,
        if_neg (show ¬ (N.n + 1 + 1 = 0) by omega), if_neg (show ¬ N.n + 1 + 1 < N.n + 2 by omega)]
      rw [badS_fst, badS_fst]

/-- The tape of a link, with all independents 0. -/
def LinkTape (N : Net K) (r : Nat) (t : Tape K) : Prop :=
  ∃ w w' : World K, w.nextId < usizeMax ∧ (linkF N r).tape (List.replicate (linkLen N r) Flt.zero) w = (.ok t, w')

theorem record_tapes {N : Net K} (hN : N.Ok) {w w' : World K} (hw : w.nextId + 2 ≤ usizeMax) {tapes : Tape K × Tape K}
    (h : record N w = (.ok tapes, w')) : LinkTape N 0 tapes.1 ∧ LinkTape N (N.n + 1) tapes.2 := by
  have h1 := evalV_of_evalS (init_eval (sh := unitSh) hN fun _ => ((Flt.zero : K), ()))
  have h2 := evalV_of_evalS (badness_eval (sh := unitSh) hN.exits fun _ => ((Flt.zero : K), ()))
  rw [← zeros_eq] at h1 h2
  obtain ⟨t1, e1, k1⟩ := tape_ok h1 (w := w) (by omega)
  have n1 : w.afterTape.nextId = w.nextId + 1 := afterTape_nextId (by omega)
  obtain ⟨t2, e2, k2⟩ := tape_ok h2 (w := w.afterTape) (by omega)
  rw [record, M.bind_ok e1, M.bind_ok e2] at h
  injection h with h _
  injection h with h
  subst h
  refine ⟨⟨w, w.afterTape, by omega, ?_⟩, ⟨w.afterTape, w.afterTape.afterTape, by omega, ?_⟩⟩
  · simpa only [linkF, linkLen, if_true] using e1
  · simpa only [linkF, linkLen, if_neg (show ¬ N.n + 1 = 0 by omega), if_neg (show ¬ N.n + 1 < N.n + 1 by omega),
      if_pos (show N.n + 1 < N.n + 2 by omega)] using e2

theorem pick_ok {N : Net K} {tapes : Tape K × Tape K} (h0 : LinkTape N 0 tapes.1) (h1 : LinkTape N (N.n + 1) tapes.2)
    {r : Nat} (hr : r < N.n + 2) {w : World K} (hw : w.nextId < usizeMax) :
    ∃ t w', pick N tapes r w = (.ok t, w') ∧ w'.nextId ≤ w.nextId + 1 ∧ LinkTape N r t := by
  unfold pick
  rcases Nat.eq_zero_or_pos r with rfl | h2
  · exact ⟨_, w, rfl, by omega, h0⟩
  · rw [if_neg (by omega)]
    by_cases h3 : r < N.n + 1
    · rw [if_pos h3]
      obtain ⟨t, e, -⟩ := tapeStep_ok (show r - 1 < N.n by omega) hw
      refine ⟨t, _, e, by rw [afterTape_nextId hw], w, w.afterTape, hw, ?_⟩
      simp only [linkF, linkLen, if_neg (show ¬ r = 0 by omega), if_pos h3, if_pos hr]
      exact e
    · rw [if_neg h3]
      have : r = N.n + 1 := by omega
      subst this
      exact ⟨_, w, rfl, by omega, h1⟩

theorem linkTape_ids {N : Net K} {r : Nat} (hN : N.Ok) (hr : r < N.n + 2) {x : List K} (hx : x.length = linkLen N r)
    {w w' : World K} {t : Tape K} (hw : w.nextId < usizeMax) (ht : (linkF N r).tape x w = (.ok t, w')) :
    (zIds t).Nodup ∧ (r ≠ 0 → t.deps.Nodup) := by
  rcases Nat.eq_zero_or_pos r with rfl | h2
  · exact ⟨(init_ids hN hw (by simpa only [linkF, if_true] using ht)).1, fun h => absurd rfl h⟩
  · by_cases h3 : r < N.n + 1
    · simp only [linkF, linkLen, if_neg (show ¬ r = 0 by omega), if_pos h3, if_pos hr] at ht hx
      have := step_ids hx hw ht
      exact ⟨this.1, fun _ => this.2⟩
    · simp only [linkF, if_neg (show ¬ r = 0 by omega), if_neg h3] at ht
      have := badness_ids hw ht
      exact ⟨this.1, fun _ => this.2⟩

/-- Entries above the diagonal of the matrix of weights are ignored. -/
def mask (N : Net K) (r : Nat) (Y : Nat → K × K) (k : Nat) : K := if r = 0 ∧ k / N.n < k % N.n then 0 else (Y k).2

/-- The derivative of the last `m` links, starting with link `r`, as computed. -/
def lin (N : Net K) (x : Nat → K) : Nat → Nat → (Nat → K) → K
  | 0, _, F => F 0
  | m + 1, r, F => lin N x m (r + 1) (mask N r (linkOut N x r F))

/-- What is known about the result for the links from `r` on. -/
structure Grad (N : Net K) (x : Nat → K) (r : Nat) (g : GenJac K) : Prop where
  nrows : g.homogenous.nrows = 1
  ncols : g.homogenous.ncols = linkLen N r
  inh : g.inhomogenous.length = 1
  eq : ∀ F : Nat → K, ∑ j ∈ range (linkLen N r), g.homogenous.get 0 j * F j = lin N x (N.n + 2 - r) r F

theorem divMod {n i j : Nat} (hj : j < n) : (i * n + j) / n = i ∧ (i * n + j) % n = j := by
  constructor
  · rw [Nat.mul_comm, Nat.mul_add_div (by omega), Nat.div_eq_of_lt hj, Nat.add_zero]
  · rw [Nat.mul_comm, Nat.mul_add_mod, Nat.mod_eq_of_lt hj]

open Classical in
theorem mask_eq {N : Net K} (hN : N.Ok) {x : Nat → K} {r : Nat} (hr : r < N.n + 2) {X : List K} (hX : X.length = linkLen N r)
    {w w' : World K} {t : Tape K} (hw : w.nextId < usizeMax) (ht : (linkF N r).tape X w = (.ok t, w')) (F : Nat → K) {k : Nat}
    (hk : k < linkLen N (r + 1)) (hkd : linkLen N (r + 1) = t.deps.length) :
    (if Reregistered t.deps k then 0 else (linkOut N x r F k).2) = mask N r (linkOut N x r F) k := by
  unfold mask
  by_cases h0 : r = 0
  · subst h0
    simp only [true_and]
    obtain ⟨-, -, h3⟩ := init_ids hN hw (by simpa only [linkF, if_true] using ht)
    rw [linkLen, if_neg (by omega), if_pos (by omega)] at hk
    obtain ⟨i, j, hi, hj, rfl⟩ := idx_split hk
    obtain ⟨h4, h5⟩ := h3 i hi j hj
    rw [(divMod hj).1, (divMod hj).2]
    by_cases hij : i < j
    · rw [if_pos hij]
      split_ifs with hre
      · rfl
      · simp only [linkOut, if_true]
        rw [initS_eq hN _ hi hj]
        rcases hf : N.edges.reverse.find? fun e => decide (e.joins i j) with _ | e
        · simp only [hf, if_neg (show ¬ i = j by omega)]; rfl
        · refine absurd (h5 hij ⟨e, List.mem_reverse.mp (List.mem_of_find?_eq_some hf), ?_⟩) hre
          simpa using List.find?_some hf
    · rw [if_neg hij, if_neg fun h => hij (h4 h)]
  · have := (linkTape_ids hN hr hX hw ht).2 h0
    rw [if_neg (not_reregistered_of_nodup this (by omega)), if_neg (by tauto)]

theorem forward_ok {N : Net K} (hN : N.Ok) {tapes : Tape K × Tape K} (h0 : LinkTape N 0 tapes.1)
    (h1 : LinkTape N (N.n + 1) tapes.2) (x : Nat → K) {r : Nat} (hr : r < N.n + 2) {w : World K} (hw : w.nextId < usizeMax) :
    ∃ w', forward N tapes (r, (List.range (linkLen N r)).map (linkVal N x r)) w =
      (.ok (r + 1, (List.range (linkLen N (r + 1))).map (linkVal N x (r + 1))), w') ∧ w'.nextId ≤ w.nextId + 1 := by
  obtain ⟨t, w', e1, n1, w1, w1', hw1, e2⟩ := pick_ok h0 h1 hr hw
  have ht : TapeOf (linkF N r) (List.replicate (linkLen N r) Flt.zero) t := by
    have := (Func.tape_spec (linkF N r) (List.replicate (linkLen N r) Flt.zero) w1 hw1).2
    rw [e2] at this
    obtain ⟨_, -, h⟩ := this.ok_left
    exact h
  obtain ⟨t1, e3, e4⟩ := replay (linkF_straight N r) ht (link_eval hN x hr fun _ => 0) (by simp)
  rw [map_fst_eq] at e3 e4
  refine ⟨w', ?_, n1⟩
  unfold forward
  simp only
  rw [M.bind_ok e1, e3, Ckpt.lift_ok_bind, e4, Ckpt.lift_ok_bind]
  simp only [linkOut_fst x hr]
  rfl

theorem reverse_ok {N : Net K} (hN : N.Ok) {tapes : Tape K × Tape K} (h0 : LinkTape N 0 tapes.1)
    (h1 : LinkTape N (N.n + 1) tapes.2) (x : Nat → K) {σ : Sched} (hσ : σ.Valid) {r : Nat} (hr : r < N.n + 2)
    {next : GenJac K} (hg : Grad N x (r + 1) next) {w : World K} (hw : w.nextId < usizeMax) :
    ∃ g w', reverse σ N tapes (r, (List.range (linkLen N r)).map (linkVal N x r)) next w = (.ok g, w') ∧
      w'.nextId ≤ w.nextId + 1 ∧ Grad N x r g := by
  classical
  obtain ⟨t, w', e1, n1, w1, w1', hw1, e2⟩ := pick_ok h0 h1 hr hw
  obtain ⟨t1, R, w2, k1, k2, k3, k4, k5, k6, k7⟩ := link (linkF_straight N r) hw1 e2 (linkVal N x r) (linkOut N x r)
    (link_eval hN x hr) (fun t1 w2 h => (linkTape_ids hN hr (by simp) hw1 h).1) (next := next) hg.ncols
    (by rw [hg.inh, hg.nrows]) (hσ.at_ r)
  refine ⟨R, w', ?_, n1, ⟨by rw [k4, hg.nrows], k5, by rw [k6, hg.nrows], fun F => ?_⟩⟩
  · unfold reverse
    simp only
    rw [M.bind_ok e1, k1, Ckpt.lift_ok_bind]
    simp only [List.length_map, List.length_range]
    rw [k3]
    rfl
  · have hd : linkLen N (r + 1) = t1.deps.length := by
      have ho := (Func.tape_spec (linkF N r) ((List.range (linkLen N r)).map (linkVal N x r)) w1 hw1).2
      rw [k2] at ho
      obtain ⟨y, ho1, ho2⟩ := ho.ok_left
      have e3 := evalV_of_evalS (link_eval hN x hr fun _ => 0)
      rw [map_fst_eq, ho2.out] at e3
      injection e3 with e3
      have := congrArg List.length e3
      simpa using this.symm
    rw [k7 F 0 (by rw [hg.nrows]; omega), show N.n + 2 - r = (N.n + 2 - (r + 1)) + 1 by omega, lin, ← hg.eq]
    refine Finset.sum_congr rfl fun k hk => ?_
    rw [mask_eq hN hr (by simp) hw1 k2 F (mem_range.mp hk) hd]

/-- `calculate_gradient` returns a column; its product with a direction is the derivative of the sequence in which the
entries above the diagonal of the matrix of weights are ignored. -/
theorem calculateGradient_lin {N : Net K} (hN : N.Ok) {tapes : Tape K × Tape K} (h0 : LinkTape N 0 tapes.1)
    (h1 : LinkTape N (N.n + 1) tapes.2) (x : Nat → K) {σ : Sched} (hσ : σ.Valid) {est : Int → Int → Int}
    (hest : Ckpt.SoundEst est) {capMax : Nat} (hn : 2 ≤ N.n) (hcap : N.n ≤ capMax) (hsz : Ckpt.SizeOk (N.n + 2) N.n)
    (hlt : N.n + 3 < 2 ^ 64) {s : Ckpt.World (World K)}
    (hw : s.w.nextId + (Ckpt.revCost (N.n + 3) (N.n - 1) + (N.n + 2)) ≤ usizeMax) :
    ∃ g s', calculateGradient σ est capMax N tapes ((List.range N.lights).map x) s = (.ok g, s') ∧
      s'.w.nextId ≤ s.w.nextId + (Ckpt.revCost (N.n + 3) (N.n - 1) + (N.n + 2)) ∧
      g.nrows = N.lights ∧ g.ncols = 1 ∧ ∀ F : Nat → K, ∑ j ∈ range N.lights, g.get j 0 * F j = lin N x (N.n + 2) 0 F := by
  have hl0 : linkLen N 0 = N.lights := by simp [linkLen]
  have hv0 : linkVal N x 0 = x := by simp [linkVal]
  rcases Ckpt.reverseSequence_budget hest (J := fun k (w : World K) => w.nextId + k ≤
      s.w.nextId + (Ckpt.revCost (N.n + 3) (N.n - 1) + (N.n + 2)))
    (P := fun r st => st = (r, (List.range (linkLen N r)).map (linkVal N x r))) (Q := Grad N x) (E := fun _ => False)
    (forward := forward N tapes) (reverse := reverse σ N tapes) (identity := fun _ => pure identity) (n := N.n + 2) (N := N.n)
    (capMax := capMax) hlt hsz hn hcap
    (by
      rintro k i _ w hi rfl hJ
      obtain ⟨w', e, hn'⟩ := forward_ok hN h0 h1 x hi (w := w) (by omega)
      rw [e]
      exact ⟨fun y hy => by injection hy with hy; exact ⟨hy.symm, by simp only; omega⟩, fun e h => by cases h⟩)
    (by
      rintro k _ w rfl hJ
      refine ⟨fun y hy => ?_, fun e h => by cases h⟩
      injection hy with hy
      subst hy
      refine ⟨⟨rfl, ?_, rfl, fun F => ?_⟩, hJ⟩
      · rw [linkLen, if_neg (by omega), if_neg (by omega)]; rfl
      · rw [linkLen, if_neg (by omega), if_neg (by omega), Nat.sub_self, lin]
        simp [identity, DMat.identity, DMat.ofFn, LawfulFlt.one_eq])
    (by
      rintro k r _ right w hr rfl hq hJ
      obtain ⟨g, w', e, hn', hg⟩ := reverse_ok hN h0 h1 x hσ hr hq (w := w) (by omega)
      rw [e]
      exact ⟨fun y hy => by injection hy with hy; subst hy; exact ⟨hg, by simp only; omega⟩, fun e h => by cases h⟩)
    (x := (0, (List.range N.lights).map x)) (by rw [hl0, hv0]) (s := s) (le_refl _) with ⟨y, s', e, hq, hJ⟩ | ⟨_, _, _, h⟩
  · refine ⟨{ nrows := y.homogenous.ncols, ncols := y.homogenous.nrows, get := fun i j => y.homogenous.get j i }, s',
      ?_, hJ, ?_, hq.nrows, ?_⟩
    · unfold calculateGradient
      rw [M.bind_ok e]
      rfl
    · show y.homogenous.ncols = N.lights
      rw [hq.ncols, hl0]
    · intro F
      have := hq.eq F
      rw [hl0] at this
      exact this
  · exact h.elim

end Adv.Fw
