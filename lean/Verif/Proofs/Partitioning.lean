import Verif.SpecPart
import Verif.Proofs.Graph
/-
Lemmas about partitionings.
-/
namespace Poros
open Res Finset

/-- Changing the label of one vertex moves its weight. -/
theorem mapWeight_update {g : Graph} (f f' : Nat → Option Nat) {v : Nat} (hv : v < g.nv)
    (h : ∀ u, u < g.nv → u ≠ v → f' u = f u) (q : Nat) :
    mapWeight g f' q + (if f v = some q then g.vw v else 0) =
      mapWeight g f q + (if f' v = some q then g.vw v else 0) := by
  unfold mapWeight
  rw [← Finset.add_sum_erase _ _ (Finset.mem_range.mpr hv),
    ← Finset.add_sum_erase (range g.nv) (fun v => if f v = some q then g.vw v else 0)
      (Finset.mem_range.mpr hv)]
  have : (∑ x ∈ (range g.nv).erase v, if f' x = some q then g.vw x else 0) =
      ∑ x ∈ (range g.nv).erase v, if f x = some q then g.vw x else 0 :=
    Finset.sum_congr rfl fun u hu => by
      rw [h u (Finset.mem_range.mp (Finset.mem_of_mem_erase hu)) (Finset.ne_of_mem_erase hu)]
  rw [this]; omega

theorem mapWeight_congr {g : Graph} {f f' : Nat → Option Nat} (h : ∀ u, u < g.nv → f u = f' u) (q : Nat) :
    mapWeight g f q = mapWeight g f' q := by
  unfold mapWeight
  exact Finset.sum_congr rfl fun v hv => by rw [h v (Finset.mem_range.mp hv)]

theorem mapWeight_le {g : Graph} (f : Nat → Option Nat) (q : Nat) : mapWeight g f q ≤ g.sumVtx := by
  unfold mapWeight Graph.sumVtx
  refine Finset.sum_le_sum fun v _ => ?_
  split <;> omega

theorem partWeight_eq_mapWeight (g : Graph) (lab : Nat → Nat) (q : Nat) :
    partWeight g lab q = mapWeight g (fun v => some (lab v)) q := by
  unfold partWeight mapWeight; simp

theorem partWeight_le {g : Graph} (lab : Nat → Nat) (q : Nat) : partWeight g lab q ≤ g.sumVtx := by
  rw [partWeight_eq_mapWeight]; exact mapWeight_le _ _

theorem partWeight_update {g : Graph} (lab lab' : Nat → Nat) {v : Nat} (hv : v < g.nv)
    (h : ∀ u, u < g.nv → u ≠ v → lab' u = lab u) (q : Nat) :
    partWeight g lab' q + (if lab v = q then g.vw v else 0) =
      partWeight g lab q + (if lab' v = q then g.vw v else 0) := by
  have := mapWeight_update (fun v => some (lab v)) (fun v => some (lab' v)) hv
    (fun u hu hne => by simp [h u hu hne]) q
  simpa [← partWeight_eq_mapWeight] using this

/-- The decoded label: `NULL_PID` means unassigned. -/
def decodeLab (a : Nat) : Option Nat := if a = NULL32 then none else some a

/-- Relation between the stored state and the abstract map. -/
structure Tracks (g : Graph) (k : Nat) (f : Nat → Option Nat) (p : Partitioning) : Prop where
  asg_len : p.asg.length = g.nv
  pw_len : p.pw.length = k
  asg : ∀ v, v < g.nv → decodeLab (nth p.asg v) = f v
  lt : ∀ v, v < g.nv → ∀ q, f v = some q → q < k
  weights : ∀ q, q < k → nth p.pw q = mapWeight g f q % M32

theorem Tracks.fresh {g : Graph} {k : Nat} : Tracks g k (fun _ => none) (Partitioning.fresh k g) where
  asg_len := by simp [Partitioning.fresh]
  pw_len := by simp [Partitioning.fresh]
  asg v hv := by simp [Partitioning.fresh, nth_replicate hv, decodeLab]
  lt v hv q h := by simp at h
  weights q hq := by simp [Partitioning.fresh, nth_replicate hq, mapWeight]

theorem decodeLab_some {a q : Nat} (h : decodeLab a = some q) : a = q := by
  unfold decodeLab at h; split at h <;> simp_all

theorem decodeLab_lt {q : Nat} (h : q < NULL32) : decodeLab q = some q := by
  unfold decodeLab; rw [if_neg (by omega)]

/-- One cell of an array of 32-bit sums is bumped. -/
theorem nth_pw_add {pw : List Nat} {part : Nat} (hp : part < pw.length) (w q : Nat) :
    nth (pw.set part (uadd (nth pw part) w)) q =
      if q = part then uadd (nth pw q) w else nth pw q := by
  rw [nth_set hp]
  split
  · subst_vars; rfl
  · rfl

theorem nth_pw_sub {pw : List Nat} {part : Nat} (hp : part < pw.length) (w q : Nat) :
    nth (pw.set part (usub (nth pw part) w)) q =
      if q = part then usub (nth pw q) w else nth pw q := by
  rw [nth_set hp]
  split
  · subst_vars; rfl
  · rfl

theorem Tracks.assign {g : Graph} (hg : g.WF) {k : Nat} (hk : k ≤ NULL32) {f : Nat → Option Nat} {p : Partitioning}
    (h : Tracks g k f p) {v q : Nat} (hv : v < g.nv) (hq : q < k) (hf : f v = none) :
    Sat (p.assign g v q) (Tracks g k (fun u => if u = v then some q else f u)) := by
  unfold Partitioning.assign
  rw [Graph.vwgtOf_eq hg hv, ok_bind, rd_of_lt (by rw [h.pw_len]; exact hq), ok_bind,
    wr_of_lt (by rw [h.pw_len]; exact hq), ok_bind, wr_of_lt (by rw [h.asg_len]; exact hv), ok_bind]
  refine ⟨by simp [h.asg_len], by simp [h.pw_len], ?_, ?_, ?_⟩
  · intro u hu
    show decodeLab (nth (p.asg.set v q) u) = _
    rw [nth_set (by rw [h.asg_len]; exact hv)]
    split
    · exact decodeLab_lt (by omega)
    · exact h.asg u hu
  · intro u hu q' h'
    split at h'
    · simp at h'; omega
    · exact h.lt u hu q' h'
  · intro r hr
    show nth (p.pw.set q (uadd (nth p.pw q) (g.vw v))) r = _
    rw [nth_pw_add (by rw [h.pw_len]; exact hq), h.weights r hr]
    have hu := mapWeight_update f (fun u => if u = v then some q else f u) hv
      (fun u _ hne => by simp [hne]) r
    simp only [hf, if_true] at hu
    by_cases hrq : r = q
    · subst hrq
      simp at hu
      simp [uadd, hu, Nat.add_mod]
    · have : ¬ (some q = some r) := by simp; omega
      simp [Ne.symm hrq] at hu
      simp [hrq, hu]

theorem sub_mod_of_add {a b w : Nat} (h : b + w = a) : usub (a % M32) w = b % M32 := by
  unfold usub; omega

theorem Tracks.unassign {g : Graph} (hg : g.WF) {k : Nat} {f : Nat → Option Nat} {p : Partitioning}
    (h : Tracks g k f p) {v : Nat} (hv : v < g.nv) (hf : f v ≠ none) :
    Sat (p.unassign g v) (Tracks g k (fun u => if u = v then none else f u)) := by
  obtain ⟨c, hc⟩ := Option.ne_none_iff_exists'.mp hf
  have hck := h.lt v hv c hc
  have hac : nth p.asg v = c := decodeLab_some ((h.asg v hv).trans hc)
  unfold Partitioning.unassign
  rw [rd_of_lt (by rw [h.asg_len]; exact hv), ok_bind, Graph.vwgtOf_eq hg hv, ok_bind, hac,
    rd_of_lt (by rw [h.pw_len]; exact hck), ok_bind,
    wr_of_lt (by rw [h.pw_len]; exact hck), ok_bind, wr_of_lt (by rw [h.asg_len]; exact hv), ok_bind]
  refine ⟨by simp [h.asg_len], by simp [h.pw_len], ?_, ?_, ?_⟩
  · intro u hu
    show decodeLab (nth (p.asg.set v NULL32) u) = _
    rw [nth_set (by rw [h.asg_len]; exact hv)]
    split
    · rfl
    · exact h.asg u hu
  · intro u hu q' h'
    split at h'
    · simp at h'
    · exact h.lt u hu q' h'
  · intro r hr
    show nth (p.pw.set c (usub (nth p.pw c) (g.vw v))) r = _
    rw [nth_pw_sub (by rw [h.pw_len]; exact hck), h.weights r hr]
    have hu := mapWeight_update f (fun u => if u = v then none else f u) hv
      (fun u _ hne => by simp [hne]) r
    simp only [hc, if_true] at hu
    by_cases hrq : r = c
    · subst hrq
      simp at hu
      simp only [if_true]
      exact sub_mod_of_add hu
    · simp [Ne.symm hrq] at hu
      simp [hrq, hu]

theorem Tracks.move {g : Graph} (hg : g.WF) {k : Nat} (hk : k ≤ NULL32) {f : Nat → Option Nat} {p : Partitioning}
    (h : Tracks g k f p) {v q : Nat} (hv : v < g.nv) (hq : q < k) (hf : f v ≠ none) (hfq : f v ≠ some q) :
    Sat (p.move g v q) (Tracks g k (fun u => if u = v then some q else f u)) := by
  obtain ⟨c, hc⟩ := Option.ne_none_iff_exists'.mp hf
  have hck := h.lt v hv c hc
  have hcq : c ≠ q := fun e => hfq (e ▸ hc)
  have hac : nth p.asg v = c := decodeLab_some ((h.asg v hv).trans hc)
  unfold Partitioning.move
  rw [Graph.vwgtOf_eq hg hv, ok_bind, rd_of_lt (by rw [h.asg_len]; exact hv), ok_bind, hac,
    rd_of_lt (by rw [h.pw_len]; exact hck), ok_bind,
    wr_of_lt (by rw [h.pw_len]; exact hck), ok_bind,
    rd_of_lt (by rw [List.length_set, h.pw_len]; exact hq), ok_bind,
    wr_of_lt (by rw [List.length_set, h.pw_len]; exact hq), ok_bind,
    wr_of_lt (by rw [h.asg_len]; exact hv), ok_bind]
  refine ⟨by simp [h.asg_len], by simp [h.pw_len], ?_, ?_, ?_⟩
  · intro u hu
    show decodeLab (nth (p.asg.set v q) u) = _
    rw [nth_set (by rw [h.asg_len]; exact hv)]
    split
    · exact decodeLab_lt (by omega)
    · exact h.asg u hu
  · intro u hu q' h'
    split at h'
    · simp at h'; omega
    · exact h.lt u hu q' h'
  · intro r hr
    show nth ((p.pw.set c (usub (nth p.pw c) (g.vw v))).set q _) r = _
    rw [nth_pw_add (by rw [List.length_set, h.pw_len]; exact hq),
      nth_pw_sub (by rw [h.pw_len]; exact hck), h.weights r hr]
    have hu := mapWeight_update f (fun u => if u = v then some q else f u) hv
      (fun u _ hne => by simp [hne]) r
    simp only [hc, if_true, Option.some.injEq] at hu
    by_cases hrc : r = c
    · have hrq : ¬ r = q := by omega
      have hqr : ¬ q = r := by omega
      have hcr : c = r := hrc.symm
      rw [if_pos hcr, if_neg hqr] at hu
      rw [if_neg hrq, if_pos hrc]
      exact sub_mod_of_add hu
    · by_cases hrq : r = q
      · have h1 : ¬ c = r := by omega
        have h2 : q = r := hrq.symm
        rw [if_neg h1, if_pos h2] at hu
        rw [if_pos hrq, if_neg hrc]
        simp only [uadd]; omega
      · have h1 : ¬ c = r := by omega
        have h2 : ¬ q = r := by omega
        rw [if_neg h1, if_neg h2] at hu
        rw [if_neg hrq, if_neg hrc]
        omega

theorem Tracks.assignAll {g : Graph} (hg : g.WF) {k : Nat} (hk : k ≤ NULL32) {f : Nat → Option Nat} {p : Partitioning}
    (h : Tracks g k f p) {q : Nat} (hq : q < k) :
    Sat (p.assignAll g q) (Tracks g k (fun _ => some q)) := by
  unfold Partitioning.assignAll
  rw [wr_of_lt (by simp [h.pw_len, hq]), ok_bind]
  refine ⟨by simp [h.asg_len], by simp [h.pw_len], ?_, ?_, ?_⟩
  · intro u hu
    show decodeLab (nth (List.replicate _ _) u) = _
    rw [nth_replicate (by rw [h.asg_len]; exact hu)]
    exact decodeLab_lt (by omega)
  · intro u hu q' h'; simp at h'; omega
  · intro r hr
    show nth (List.set _ _ _) r = _
    rw [nth_set (by simp [h.pw_len, hq]), nth_replicate (by rw [h.pw_len]; exact hr), hg.tot_vtx]
    by_cases hrq : r = q
    · simp [hrq, mapWeight, Graph.sumVtx]
    · simp [hrq, mapWeight, Ne.symm hrq]

theorem Tracks.unassignAll {g : Graph} {k : Nat} {f : Nat → Option Nat} {p : Partitioning}
    (h : Tracks g k f p) : Tracks g k (fun _ => none) p.unassignAll where
  asg_len := by simp [Partitioning.unassignAll, h.asg_len]
  pw_len := by simp [Partitioning.unassignAll, h.pw_len]
  asg v hv := by simp [Partitioning.unassignAll, nth_replicate (h.asg_len ▸ hv), decodeLab]
  lt v hv q h := by simp at h
  weights q hq := by simp [Partitioning.unassignAll, nth_replicate (h.pw_len ▸ hq), mapWeight]

theorem Tracks.setCut {g : Graph} {k : Nat} {f : Nat → Option Nat} {p : Partitioning}
    (h : Tracks g k f p) (c : Nat) : Tracks g k f { p with cut := c } :=
  ⟨h.asg_len, h.pw_len, h.asg, h.lt, h.weights⟩

/-! ### weights and cut from labels -/

/-- Conditional 32-bit accumulation. -/
theorem foldlM_uadd {α} (l : List α) (w : α → Nat) (c : α → Res Bool) (cc : α → Bool)
    (hc : ∀ x ∈ l, c x = ok (cc x)) (a0 : Nat) :
    l.foldlM (fun acc x => do
      let b ← c x
      if b then .ok (uadd acc (w x)) else .ok acc) (a0 % M32) =
      ok ((a0 + (l.map fun x => if cc x then w x else 0).sum) % M32) := by
  induction l generalizing a0 with
  | nil => simp
  | cons x xs ih =>
    rw [List.foldlM_cons, hc x (by simp), ok_bind]
    have ih := ih fun y hy => hc y (by simp [hy])
    cases hx : cc x
    · simp [hx]
      exact ih a0
    · simp [hx]
      have : uadd (a0 % M32) (w x) = (a0 + w x) % M32 := by unfold uadd; omega
      rw [this, ih (a0 + w x), Nat.add_assoc]

theorem foldlM_congr' {α σ : Type} {f f' : σ → α → Res σ} {l : List α} {s : σ}
    (h : ∀ s x, x ∈ l → f s x = f' s x) : l.foldlM f s = l.foldlM f' s := by
  induction l generalizing s with
  | nil => rfl
  | cons x xs ih =>
    rw [List.foldlM_cons, List.foldlM_cons, h s x (by simp)]
    congr 1; funext a
    exact ih fun s y hy => h s y (by simp [hy])

theorem sumCut_inner {g : Graph} (hg : g.WF) {asg : List Nat} (ha : asg.length = g.nv) {v : Nat} (hv : v < g.nv)
    (home a0 : Nat) :
    (g.nbrs v).foldlM (fun acc q => do
      let other ← rd asg q.1
      if other ≠ home then (.ok (uadd acc q.2) : Res Nat) else .ok acc) (a0 % M32) =
      ok ((a0 + g.wsum v (fun u => nth asg u != home)) % M32) := by
  have := foldlM_uadd (g.nbrs v) (fun q => q.2) (fun q => ok (nth asg q.1 != home))
    (fun q => nth asg q.1 != home) (fun _ _ => rfl) a0
  unfold Graph.wsum
  rw [← this]
  refine foldlM_congr' fun s q hq => ?_
  rw [rd_of_lt (by rw [ha]; exact Graph.nbrs_lt hg hv hq), ok_bind, ok_bind]
  by_cases h : nth asg q.1 = home <;> simp [h]

theorem sumCut_eq {g : Graph} (hg : g.WF) {asg : List Nat} (ha : asg.length = g.nv) :
    sumCutEdgeWeight g (!g.unitEdge) asg =
      ok ((∑ v ∈ range g.nv, externalWeight g (nth asg) v) % M32 / 2) := by
  unfold sumCutEdgeWeight
  have : ∀ n, n ≤ g.nv → (List.range n).foldlM (fun acc v => do
      let home ← rd asg v
      let ns ← g.nbrsOf (!g.unitEdge) v
      ns.foldlM (fun acc q => do
        let other ← rd asg q.1
        if other ≠ home then (.ok (uadd acc q.2) : Res Nat) else .ok acc) acc) 0 =
      ok ((∑ v ∈ range n, externalWeight g (nth asg) v) % M32) := by
    intro n
    induction n with
    | zero => intro _; simp
    | succ n ih =>
      intro hn
      rw [List.range_succ, List.foldlM_append, ih (by omega), ok_bind, List.foldlM_cons,
        rd_of_lt (by omega), ok_bind, Graph.nbrsOf_eq hg (by omega), ok_bind,
        sumCut_inner hg ha (by omega), ok_bind, List.foldlM_nil, Finset.sum_range_succ,
        external_eq_wsum hg _ (by omega)]
      rfl
  rw [this g.nv (le_refl _), ok_bind]

theorem sumCut_exact {g : Graph} (hg : g.WF) (hs : g.Symm) (hm : g.sumEdge < M32) {asg : List Nat}
    (ha : asg.length = g.nv) :
    sumCutEdgeWeight g (!g.unitEdge) asg = ok (cutWeight g (nth asg)) := by
  rw [sumCut_eq hg ha, sum_external hs]
  have := two_cut_le hg hs (nth asg)
  congr 1; omega

theorem sumPartitionWeight_spec {g : Graph} (hg : g.WF) {k : Nat} {asg : List Nat} (ha : asg.length = g.nv)
    (hl : ∀ v, v < g.nv → nth asg v < k) :
    Sat (sumPartitionWeight g (!g.unitVtx) asg (List.replicate k 0)) (fun pw =>
      pw.length = k ∧ ∀ q, q < k → nth pw q = partWeight g (nth asg) q % M32) := by
  unfold sumPartitionWeight
  refine Post.mono (Post_foldlM_range (fun n pw => pw.length = k ∧ ∀ q, q < k →
    nth pw q = (∑ v ∈ range n, if nth asg v = q then g.vw v else 0) % M32) ?_ ?_) (fun pw h => h)
  · refine ⟨by simp, fun q hq => by simp [nth_replicate hq]⟩
  · intro v pw hv ⟨hlen, hw⟩
    have hlv := hl v hv
    rw [rd_of_lt (by omega), ok_bind, Graph.vwgtOf_eq hg hv, ok_bind, rd_of_lt (by omega), ok_bind,
      wr_of_lt (by omega)]
    refine ⟨by simp [hlen], fun q hq => ?_⟩
    rw [nth_pw_add (by omega), hw q hq, Finset.sum_range_succ]
    by_cases h : q = nth asg v
    · rw [if_pos h, if_pos h.symm]; unfold uadd; omega
    · rw [if_neg h, if_neg (Ne.symm h)]; simp

theorem ofLabels_spec {g : Graph} (hg : g.WF) {k : Nat} {labels : List Nat} (ha : labels.length = g.nv)
    (hl : ∀ v, v < g.nv → nth labels v < k) :
    Sat (Partitioning.ofLabels k g labels) (fun p => p.asg = labels ∧ p.pw.length = k ∧
      (∀ q, q < k → nth p.pw q = partWeight g (nth labels) q % M32) ∧
      p.cut = (∑ v ∈ range g.nv, externalWeight g (nth labels) v) % M32 / 2) := by
  unfold Partitioning.ofLabels
  refine (sumPartitionWeight_spec hg ha hl).bind fun pw h => ?_
  rw [sumCut_eq hg ha, ok_bind]
  exact ⟨rfl, h.1, h.2, rfl⟩

theorem ofLabels_exact {g : Graph} (hg : g.WF) (hs : g.Symm) (hm : g.Small) {k : Nat} {labels : List Nat}
    (ha : labels.length = g.nv) (hl : ∀ v, v < g.nv → nth labels v < k) :
    Sat (Partitioning.ofLabels k g labels) (fun p => p.asg = labels ∧ IsExact g k p) := by
  refine (ofLabels_spec hg ha hl).mono fun p h => ⟨h.1, ?_⟩
  obtain ⟨h1, h2, h3, h4⟩ := h
  have hlab : p.lab = nth labels := by unfold Partitioning.lab; rw [h1]
  refine ⟨by rw [h1, ha], h2, by rw [hlab]; exact hl, ?_, ?_⟩
  · intro q hq
    rw [h3 q hq, hlab, Nat.mod_eq_of_lt]
    exact lt_of_le_of_lt (partWeight_le _ _) hm.vtx
  · rw [h4, hlab, sum_external hs]
    have := two_cut_le hg hs (nth labels)
    have := hm.edge
    omega

theorem Tracks.recalcCut {g : Graph} (hg : g.WF) {k : Nat} {f : Nat → Option Nat} {p : Partitioning}
    (h : Tracks g k f p) : Sat (p.recalcCut g) (fun p' => Tracks g k f p' ∧ p'.asg = p.asg ∧ p'.pw = p.pw ∧
      p'.cut = (∑ v ∈ range g.nv, externalWeight g (nth p.asg) v) % M32 / 2) := by
  unfold Partitioning.recalcCut
  rw [sumCut_eq hg h.asg_len, ok_bind]
  exact ⟨h.setCut _, rfl, rfl, rfl⟩

/-- Every operation follows the abstract map. -/
theorem Tracks.run {g : Graph} (hg : g.WF) {k : Nat} (hk : k ≤ NULL32) {f : Nat → Option Nat} {p : Partitioning}
    (h : Tracks g k f p) (op : POp) (hop : op.Legal g.nv k f) :
    Sat (op.run g p) (Tracks g k (op.spec f)) := by
  cases op with
  | assign v q => exact h.assign hg hk hop.1 hop.2.1 hop.2.2
  | move v q => exact h.move hg hk hop.1 hop.2.1 hop.2.2.1 hop.2.2.2
  | unassign v => exact h.unassign hg hop.1 hop.2
  | assignAll q => exact h.assignAll hg hk hop
  | unassignAll => exact h.unassignAll
  | recalcCut => exact (h.recalcCut hg).mono fun p h => h.1
  | setCut w => exact h.setCut _
  | addCut d => exact h.setCut _

theorem Tracks.history {g : Graph} (hg : g.WF) {k : Nat} (hk : k ≤ NULL32) (ops : List POp)
    {f : Nat → Option Nat} {p : Partitioning}
    (h : Tracks g k f p) (hops : LegalHistory g.nv k f ops) :
    Sat (ops.foldlM (POp.run g) p) (Tracks g k (ops.foldl POp.spec f)) := by
  induction ops generalizing f p with
  | nil => exact h
  | cons op ops ih =>
    rw [List.foldlM_cons]
    exact (h.run hg hk op hops.1).bind fun p' h' => ih h' hops.2

/-- An exact partitioning tracks its own labels. -/
theorem IsExact.tracks {g : Graph} {k : Nat} (hk : k ≤ NULL32) {p : Partitioning} (hm : g.Small)
    (h : IsExact g k p) : Tracks g k (fun v => some (p.lab v)) p where
  asg_len := h.asg_len
  pw_len := h.pw_len
  asg v hv := decodeLab_lt (by have := h.complete v hv; unfold Partitioning.lab at this; omega)
  lt v hv q hq := by have := h.complete v hv; simp at hq; omega
  weights q hq := by
    rw [h.weights q hq, ← partWeight_eq_mapWeight, Nat.mod_eq_of_lt]
    exact lt_of_le_of_lt (partWeight_le _ _) hm.vtx

theorem Tracks.exact {g : Graph} {k : Nat} {p : Partitioning} {lab : Nat → Nat} (hm : g.Small)
    (h : Tracks g k (fun v => some (lab v)) p) (hc : p.cut = cutWeight g lab) : IsExact g k p := by
  have hlab : ∀ v, v < g.nv → p.lab v = lab v := fun v hv => decodeLab_some (h.asg v hv)
  refine ⟨h.asg_len, h.pw_len, ?_, ?_, ?_⟩
  · intro v hv; rw [hlab v hv]; exact h.lt v hv _ rfl
  · intro q hq
    rw [h.weights q hq, ← partWeight_eq_mapWeight, partWeight_congr (g := g) hlab, Nat.mod_eq_of_lt]
    exact lt_of_le_of_lt (partWeight_le _ _) hm.vtx
  · rw [hc]; exact (cutWeight_congr hlab).symm

end Poros
