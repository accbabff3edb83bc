import Verif.Spec
import Mathlib.Algebra.BigOperators.Group.Finset.Basic
import Mathlib.Algebra.Order.BigOperators.Group.Finset
import Mathlib.Tactic.Ring
import Mathlib.Tactic.Linarith
/-
Basic lemmas on graphs, sums and cuts.
-/
namespace Poros
open Res Finset

/-! ### sums over lists and ranges -/

theorem sum_map_range' {β} (f : Nat → β) [AddCommMonoid β] (n : Nat) :
    ((List.range n).map f).sum = ∑ i ∈ range n, f i := by
  induction n with
  | zero => simp
  | succ n ih => rw [List.range_succ, List.map_append, List.sum_append, ih, Finset.sum_range_succ]; simp

theorem sum_eq_sum_nth (w : List Nat) : w.sum = ∑ i ∈ range w.length, nth w i := by
  induction w using List.reverseRecOn with
  | nil => simp
  | append_singleton l a ih =>
    rw [List.sum_append, List.length_append, List.length_singleton, Finset.sum_range_succ, ih]
    congr 1
    · exact Finset.sum_congr rfl fun i hi => (nth_append_left (Finset.mem_range.mp hi)).symm
    · simp [nth]

theorem list_sum_map_add {α} (l : List α) (f g : α → Nat) :
    (l.map fun x => f x + g x).sum = (l.map f).sum + (l.map g).sum := by
  induction l with
  | nil => rfl
  | cons x xs ih => simp [ih]; omega

theorem list_sum_map_le {α} (l : List α) (f g : α → Nat) (h : ∀ x ∈ l, f x ≤ g x) :
    (l.map f).sum ≤ (l.map g).sum := by
  induction l with
  | nil => simp
  | cons x xs ih =>
    have := h x (by simp)
    have := ih fun y hy => h y (by simp [hy])
    simp; omega

theorem list_sum_map_const_zero {α} (l : List α) : (l.map fun _ => 0).sum = 0 := by
  induction l <;> simp_all

theorem list_sum_map_finset {α ι} (l : List α) (s : Finset ι) (f : ι → α → Nat) :
    (l.map fun x => ∑ i ∈ s, f i x).sum = ∑ i ∈ s, (l.map (f i)).sum := by
  induction l with
  | nil => simp
  | cons x xs ih => simp [ih, Finset.sum_add_distrib]

/-! ### the constructor -/

theorem sumWeights_eq {n : Nat} {w : List Nat} (hw : w.length = n) :
    sumWeights n w = ok ((∑ i ∈ range n, nth w i) % M32, decide (∀ i, i < n → nth w i = 1)) := by
  unfold sumWeights
  split
  · rename_i hn
    rw [if_neg (by omega)]
    have : ∀ m, m ≤ n → (List.range m).foldlM (fun (s : Nat × Bool) i => do
        let x ← rd w i
        .ok (uadd s.1 x, if x ≠ 1 then false else s.2)) (0, true) =
        ok ((∑ i ∈ range m, nth w i) % M32, decide (∀ i, i < m → nth w i = 1)) := by
      intro m
      induction m with
      | zero => intro _; simp
      | succ m ih =>
        intro hm
        rw [List.range_succ, List.foldlM_append, ih (by omega), ok_bind, List.foldlM_cons,
          rd_of_lt (by omega), ok_bind, ok_bind, List.foldlM_nil, Finset.sum_range_succ]
        show ok _ = ok _
        congr 2
        · simp [uadd, Nat.add_mod]
        · by_cases h1 : nth w m = 1
          · simp only [h1, ne_eq, not_true_eq_false, if_false]
            congr 1
            refine propext ⟨fun h i hi => ?_, fun h i hi => h i (by omega)⟩
            rcases Nat.lt_succ_iff_lt_or_eq.mp hi with h' | h'
            · exact h i h'
            · rw [h']; exact h1
          · simp only [ne_eq, h1, not_false_eq_true, if_true]
            symm
            rw [decide_eq_false_iff_not]
            exact fun h => h1 (h m (by omega))
    exact this n (le_refl _)
  · have : n = 0 := by omega
    subst this
    simp

theorem sumWeights_nil {n : Nat} : sumWeights n [] = ok (n % M32, true) := by
  unfold sumWeights
  split
  · simp
  · have : n = 0 := by omega
    simp [this]

/-! ### adjacency -/

namespace Graph
variable {g : Graph}

theorem xadj_le (h : g.WF) {u v : Nat} (huv : u ≤ v) (hv : v ≤ g.nv) : nth g.xadj u ≤ nth g.xadj v := by
  induction v, huv using Nat.le_induction with
  | base => exact le_refl _
  | succ v _ ih => exact (ih (by omega)).trans (h.xadj_mono v (by omega))

theorem xadj_le_ne (h : g.WF) {v : Nat} (hv : v ≤ g.nv) : nth g.xadj v ≤ g.ne := by
  rw [← h.xadj_last]; exact xadj_le h hv (le_refl _)

theorem edgesOf_eq (h : g.WF) {v : Nat} (hv : v < g.nv) :
    g.edgesOf v = ok (List.range' (nth g.xadj v) (nth g.xadj (v + 1) - nth g.xadj v)) := by
  unfold edgesOf
  rw [rd_of_lt (by have := h.xadj_len; omega), ok_bind, rd_of_lt (by have := h.xadj_len; omega), ok_bind,
    if_pos (h.xadj_mono v hv)]

theorem slot_lt (h : g.WF) {v e : Nat} (hv : v < g.nv)
    (he : e ∈ List.range' (nth g.xadj v) (nth g.xadj (v + 1) - nth g.xadj v)) : e < g.ne := by
  have h1 := xadj_le_ne h (v := v + 1) hv
  have h2 := h.xadj_mono v hv
  simp [List.mem_range'] at he
  omega

theorem dest_eq (h : g.WF) {e : Nat} (he : e < g.ne) : g.dest e = ok (nth g.adjncy e) :=
  rd_of_lt (by rw [h.adj_len]; exact he)

theorem ewgt_eq (h : g.WF) {e : Nat} (he : e < g.ne) : g.ewgt (!g.unitEdge) e = ok (g.ew e) := by
  unfold ewgt ew
  cases hu : g.unitEdge
  · simp; exact rd_of_lt (by rw [h.adjwgt_len hu]; exact he)
  · simp

theorem vwgtOf_eq (h : g.WF) {v : Nat} (hv : v < g.nv) : g.vwgtOf (!g.unitVtx) v = ok (g.vw v) := by
  unfold vwgtOf vw
  cases hu : g.unitVtx
  · simp; exact rd_of_lt (by rw [h.vwgt_len hu]; exact hv)
  · simp

/-- Reading the vertex weight array is also correct on unit weight graphs if the array is there. -/
theorem vwgtOf_true_eq (h : g.WF) (hp : g.vwgt.length = g.nv) {v : Nat} (hv : v < g.nv) :
    g.vwgtOf true v = ok (g.vw v) := by
  unfold vwgtOf vw
  simp only [if_true]
  rw [rd_of_lt (by omega)]
  cases hu : g.unitVtx
  · simp
  · simp [h.vwgt_unit hu v (by omega)]

theorem ewgt_true_eq (h : g.WF) (hp : g.adjwgt.length = g.ne) {e : Nat} (he : e < g.ne) :
    g.ewgt true e = ok (g.ew e) := by
  unfold ewgt ew
  simp only [if_true]
  rw [rd_of_lt (by omega)]
  cases hu : g.unitEdge
  · simp
  · simp [h.adjwgt_unit hu e (by omega)]

theorem nbrsOf_eq (h : g.WF) {v : Nat} (hv : v < g.nv) : g.nbrsOf (!g.unitEdge) v = ok (g.nbrs v) := by
  unfold nbrsOf nbrs
  rw [edgesOf_eq h hv, ok_bind]
  refine mapM_ok_eq_map fun e he => ?_
  rw [dest_eq h (slot_lt h hv he), ok_bind, ewgt_eq h (slot_lt h hv he), ok_bind]

theorem nbrsOf_true_eq (h : g.WF) (hp : g.adjwgt.length = g.ne) {v : Nat} (hv : v < g.nv) :
    g.nbrsOf true v = ok (g.nbrs v) := by
  unfold nbrsOf nbrs
  rw [edgesOf_eq h hv, ok_bind]
  refine mapM_ok_eq_map fun e he => ?_
  rw [dest_eq h (slot_lt h hv he), ok_bind, ewgt_true_eq h hp (slot_lt h hv he), ok_bind]

theorem nbrsOf_false_eq (h : g.WF) {v : Nat} (hv : v < g.nv) :
    g.nbrsOf false v = ok ((g.nbrs v).map fun q => (q.1, 1)) := by
  unfold nbrsOf nbrs
  rw [edgesOf_eq h hv, ok_bind, List.map_map]
  refine mapM_ok_eq_map fun e he => ?_
  rw [dest_eq h (slot_lt h hv he), ok_bind]
  rfl

theorem nbrs_lt (h : g.WF) {v : Nat} (hv : v < g.nv) {q : Nat × Nat} (hq : q ∈ g.nbrs v) : q.1 < g.nv := by
  unfold nbrs at hq
  rw [List.mem_map] at hq
  obtain ⟨e, he, rfl⟩ := hq
  exact h.dest_lt e (slot_lt h hv he)

theorem nbrs_length (g : Graph) (v : Nat) : (g.nbrs v).length = nth g.xadj (v + 1) - nth g.xadj v := by
  simp [nbrs]

/-! ### weights -/

theorem wsum_eq_sum (h : g.WF) {v : Nat} (hv : v < g.nv) (p : Nat → Bool) :
    g.wsum v p = ∑ u ∈ range g.nv, if p u then g.wt v u else 0 := by
  have : ∀ u, (if p u then g.wt v u else 0)
      = ((g.nbrs v).map fun q => if p u ∧ q.1 = u then q.2 else 0).sum := by
    intro u
    unfold wt wsum
    by_cases hp : p u = true
    · simp [hp]
    · simp [hp]
  simp_rw [this]
  rw [← list_sum_map_finset]
  unfold wsum
  congr 1
  refine List.map_congr_left fun q hq => ?_
  have hlt := nbrs_lt h hv hq
  rw [Finset.sum_eq_single q.1]
  · simp
  · intro b _ hb; simp [Ne.symm hb]
  · intro hn; simp at hn; omega

theorem wsum_not (v : Nat) (p : Nat → Bool) :
    g.wsum v p + g.wsum v (fun u => !p u) = g.wsum v (fun _ => true) := by
  unfold wsum
  rw [← list_sum_map_add]
  congr 1
  refine List.map_congr_left fun q _ => ?_
  by_cases hp : p q.1 = true <;> simp [hp]

theorem wsum_le (v : Nat) (p : Nat → Bool) : g.wsum v p ≤ g.wsum v (fun _ => true) := by
  rw [← wsum_not v p]; omega

theorem wsum_congr (h : g.WF) {v : Nat} (hv : v < g.nv) {p q : Nat → Bool}
    (hpq : ∀ u, u < g.nv → p u = q u) : g.wsum v p = g.wsum v q := by
  unfold wsum
  congr 1
  exact List.map_congr_left fun x hx => by rw [hpq _ (nbrs_lt h hv hx)]

theorem wdeg_le {v : Nat} (hv : v < g.nv) : g.wsum v (fun _ => true) ≤ g.sumEdge :=
  Finset.single_le_sum (f := fun v => g.wsum v fun _ => true) (fun _ _ => Nat.zero_le _)
    (Finset.mem_range.mpr hv)

theorem wt_le {v u : Nat} : g.wt v u ≤ g.wsum v (fun _ => true) := wsum_le v _

theorem vw_le {v : Nat} (hv : v < g.nv) : g.vw v ≤ g.sumVtx :=
  Finset.single_le_sum (f := g.vw) (fun _ _ => Nat.zero_le _) (Finset.mem_range.mpr hv)

theorem wt_self (hl : g.NoLoop) {v : Nat} (hv : v < g.nv) : g.wt v v = 0 := by
  unfold wt wsum
  rw [← list_sum_map_const_zero (g.nbrs v)]
  congr 1
  refine List.map_congr_left fun q hq => ?_
  have := hl v hv q hq
  simp [this]

theorem edge_le_wsum {v : Nat} {q : Nat × Nat} (hq : q ∈ g.nbrs v) :
    q.2 ≤ g.wsum v (fun _ => true) := by
  unfold wsum
  refine List.single_le_sum (by simp) _ ?_
  exact List.mem_map.mpr ⟨q, hq, by simp⟩

end Graph

/-! ### cuts -/

theorem internal_eq_wsum {g : Graph} (h : g.WF) (lab : Nat → Nat) {v : Nat} (hv : v < g.nv) :
    internalWeight g lab v = g.wsum v (fun u => lab u == lab v) := by
  rw [Graph.wsum_eq_sum h hv]; unfold internalWeight; simp

theorem external_eq_wsum {g : Graph} (h : g.WF) (lab : Nat → Nat) {v : Nat} (hv : v < g.nv) :
    externalWeight g lab v = g.wsum v (fun u => lab u != lab v) := by
  rw [Graph.wsum_eq_sum h hv]; unfold externalWeight; simp

theorem internal_add_external {g : Graph} (h : g.WF) (lab : Nat → Nat) {v : Nat} (hv : v < g.nv) :
    internalWeight g lab v + externalWeight g lab v = g.wsum v (fun _ => true) := by
  rw [internal_eq_wsum h lab hv, external_eq_wsum h lab hv, ← Graph.wsum_not v (fun u => lab u == lab v)]
  rfl

/-- Sum over ordered pairs = twice the sum over unordered pairs, plus the diagonal. -/
theorem sum_pairs_symm (n : Nat) (f : Nat → Nat → Nat) (hs : ∀ v u, v < n → u < n → f v u = f u v) :
    ∑ v ∈ range n, ∑ u ∈ range n, f v u =
      2 * (∑ v ∈ range n, ∑ u ∈ range v, f v u) + ∑ v ∈ range n, f v v := by
  induction n with
  | zero => simp
  | succ n ih =>
    have ih := ih fun v u hv hu => hs v u (by omega) (by omega)
    rw [Finset.sum_range_succ, Finset.sum_range_succ (f := fun v => ∑ u ∈ range v, f v u),
      Finset.sum_range_succ (f := fun v => f v v)]
    simp_rw [Finset.sum_range_succ (n := n)]
    rw [Finset.sum_add_distrib, ih]
    have : ∑ x ∈ range n, f x n = ∑ u ∈ range n, f n u :=
      Finset.sum_congr rfl fun x hx => hs x n (by have := Finset.mem_range.mp hx; omega) (by omega)
    rw [this]; ring

/-- The sum of the external weights counts every cut edge twice. -/
theorem sum_external {g : Graph} (hs : g.Symm) (lab : Nat → Nat) :
    ∑ v ∈ range g.nv, externalWeight g lab v = 2 * cutWeight g lab := by
  unfold externalWeight cutWeight
  rw [sum_pairs_symm g.nv (fun v u => if lab u ≠ lab v then g.wt v u else 0)]
  · simp
  · intro v u hv hu
    simp only [ne_eq, hs v u hv hu]
    by_cases he : lab u = lab v
    · simp [he]
    · simp [he, Ne.symm he]

theorem cutWeight_congr {g : Graph} {lab lab' : Nat → Nat} (h : ∀ v, v < g.nv → lab v = lab' v) :
    cutWeight g lab = cutWeight g lab' := by
  unfold cutWeight
  refine Finset.sum_congr rfl fun v hv => Finset.sum_congr rfl fun u hu => ?_
  have hv := Finset.mem_range.mp hv
  have hu := Finset.mem_range.mp hu
  rw [h v hv, h u (by omega)]

theorem partWeight_congr {g : Graph} {lab lab' : Nat → Nat} (h : ∀ v, v < g.nv → lab v = lab' v) (p : Nat) :
    partWeight g lab p = partWeight g lab' p := by
  unfold partWeight
  exact Finset.sum_congr rfl fun v hv => by rw [h v (Finset.mem_range.mp hv)]

theorem externalWeight_congr {g : Graph} {lab lab' : Nat → Nat} (h : ∀ v, v < g.nv → lab v = lab' v)
    {v : Nat} (hv : v < g.nv) : externalWeight g lab v = externalWeight g lab' v := by
  unfold externalWeight
  exact Finset.sum_congr rfl fun u hu => by rw [h u (Finset.mem_range.mp hu), h v hv]

theorem internalWeight_congr {g : Graph} {lab lab' : Nat → Nat} (h : ∀ v, v < g.nv → lab v = lab' v)
    {v : Nat} (hv : v < g.nv) : internalWeight g lab v = internalWeight g lab' v := by
  unfold internalWeight
  exact Finset.sum_congr rfl fun u hu => by rw [h u (Finset.mem_range.mp hu), h v hv]

theorem two_cut_le {g : Graph} (h : g.WF) (hs : g.Symm) (lab : Nat → Nat) :
    2 * cutWeight g lab ≤ g.sumEdge := by
  rw [← sum_external hs lab]
  unfold Graph.sumEdge
  refine Finset.sum_le_sum fun v hv => ?_
  rw [← internal_add_external h lab (Finset.mem_range.mp hv)]; omega

/-- Splitting a double sum at one index. -/
theorem sum_split_at (n : Nat) (v : Nat) (hv : v < n) (f : Nat → Nat → Nat)
    (hs : ∀ x y, x < n → y < n → f x y = f y x) :
    ∑ x ∈ range n, ∑ y ∈ range n, f x y =
      f v v + 2 * (∑ y ∈ (range n).erase v, f v y) +
        ∑ x ∈ (range n).erase v, ∑ y ∈ (range n).erase v, f x y := by
  have hm : v ∈ range n := Finset.mem_range.mpr hv
  rw [← Finset.add_sum_erase _ _ hm, ← Finset.add_sum_erase _ (fun y => f v y) hm]
  have : ∑ x ∈ (range n).erase v, ∑ y ∈ range n, f x y =
      ∑ x ∈ (range n).erase v, (f v x + ∑ y ∈ (range n).erase v, f x y) := by
    refine Finset.sum_congr rfl fun x hx => ?_
    rw [← Finset.add_sum_erase _ _ hm, hs x v (Finset.mem_range.mp (Finset.mem_of_mem_erase hx)) hv]
  rw [this, Finset.sum_add_distrib]; ring

/-- Effect of relabelling one vertex on the cut. -/
theorem cut_update {g : Graph} (hs : g.Symm) (lab lab' : Nat → Nat) {v : Nat}
    (hv : v < g.nv) (h : ∀ u, u < g.nv → u ≠ v → lab' u = lab u) :
    cutWeight g lab' + (∑ u ∈ (range g.nv).erase v, if lab u ≠ lab v then g.wt v u else 0) =
      cutWeight g lab + (∑ u ∈ (range g.nv).erase v, if lab u ≠ lab' v then g.wt v u else 0) := by
  have key : ∀ l : Nat → Nat, 2 * cutWeight g l =
      2 * (∑ u ∈ (range g.nv).erase v, if l u ≠ l v then g.wt v u else 0) +
        ∑ x ∈ (range g.nv).erase v, ∑ u ∈ (range g.nv).erase v, if l u ≠ l x then g.wt x u else 0 := by
    intro l
    rw [← sum_external hs l]
    unfold externalWeight
    rw [sum_split_at g.nv v hv (fun x y => if l y ≠ l x then g.wt x y else 0)]
    · simp
    · intro x y hx hy
      simp only [ne_eq, hs x y hx hy]
      by_cases he : l x = l y
      · simp [he]
      · simp [he, Ne.symm he]
  have k1 := key lab
  have k2 := key lab'
  have e1 : (∑ u ∈ (range g.nv).erase v, if lab' u ≠ lab' v then g.wt v u else 0) =
      ∑ u ∈ (range g.nv).erase v, if lab u ≠ lab' v then g.wt v u else 0 := by
    refine Finset.sum_congr rfl fun u hu => ?_
    rw [h u (Finset.mem_range.mp (Finset.mem_of_mem_erase hu)) (Finset.ne_of_mem_erase hu)]
  have e2 : (∑ x ∈ (range g.nv).erase v, ∑ u ∈ (range g.nv).erase v, if lab' u ≠ lab' x then g.wt x u else 0) =
      ∑ x ∈ (range g.nv).erase v, ∑ u ∈ (range g.nv).erase v, if lab u ≠ lab x then g.wt x u else 0 := by
    refine Finset.sum_congr rfl fun x hx => Finset.sum_congr rfl fun u hu => ?_
    rw [h u (Finset.mem_range.mp (Finset.mem_of_mem_erase hu)) (Finset.ne_of_mem_erase hu),
      h x (Finset.mem_range.mp (Finset.mem_of_mem_erase hx)) (Finset.ne_of_mem_erase hx)]
  rw [e1, e2] at k2
  omega

theorem sum_erase_wt {g : Graph} (hl : g.NoLoop) {v : Nat} (hv : v < g.nv) (p : Nat → Prop)
    [DecidablePred p] :
    (∑ u ∈ (range g.nv).erase v, if p u then g.wt v u else 0) =
      ∑ u ∈ range g.nv, if p u then g.wt v u else 0 := by
  rw [← Finset.add_sum_erase (range g.nv) (fun u => if p u then g.wt v u else 0)
    (Finset.mem_range.mpr hv)]
  simp [Graph.wt_self hl hv]

/-- Moving `v` to the other side of a bisection trades its external for its internal weight. -/
theorem cut_flip {g : Graph} (hs : g.Symm) (hl : g.NoLoop) (lab lab' : Nat → Nat) {v : Nat}
    (hv : v < g.nv) (h : ∀ u, u < g.nv → u ≠ v → lab' u = lab u)
    (h2 : ∀ u, u < g.nv → lab u < 2) (h2' : lab' v = 1 - lab v) :
    cutWeight g lab' + externalWeight g lab v = cutWeight g lab + internalWeight g lab v := by
  have k := cut_update hs lab lab' hv h
  have e1 : (∑ u ∈ (range g.nv).erase v, if lab u ≠ lab v then g.wt v u else 0)
      = externalWeight g lab v := sum_erase_wt hl hv (fun u => lab u ≠ lab v)
  have e2 : (∑ u ∈ (range g.nv).erase v, if lab u ≠ lab' v then g.wt v u else 0)
      = internalWeight g lab v := by
    rw [sum_erase_wt hl hv (fun u => lab u ≠ lab' v)]
    unfold internalWeight
    refine Finset.sum_congr rfl fun u hu => ?_
    have a := h2 u (Finset.mem_range.mp hu)
    have b := h2 v hv
    by_cases he : lab u = lab v
    · rw [if_pos he, if_pos (by omega)]
    · rw [if_neg he, if_neg (by omega)]
  rw [e1, e2] at k
  exact k

end Poros
