import Verif.Proofs.Partitioning
import Verif.Proofs.Csr
import Verif.Examples
/-
C19–C22: partitionings.
-/
namespace Poros
open Finset Res

/-- **C19.** Every legal history of operations on a fresh partitioning runs without undefined behaviour, the
assignment reported for each vertex is the one the history prescribes, and the reported weight of each
partition is the 32-bit sum of the weights of the vertices currently in it. -/
theorem C19_history {g : Graph} (hg : g.WF) {k : Nat} (hk : k ≤ NULL32) (ops : List POp)
    (hops : LegalHistory g.nv k (fun _ => none) ops) :
    ∃ p, ops.foldlM (POp.run g) (Partitioning.fresh k g) = ok p ∧
      (∀ v, v < g.nv → nth p.asg v = ((ops.foldl POp.spec (fun _ => none)) v).getD NULL32) ∧
      (∀ q, q < k → nth p.pw q = mapWeight g (ops.foldl POp.spec (fun _ => none)) q % 2 ^ 32) := by
  obtain ⟨p, hp, ht⟩ := sat_iff.mp (Tracks.history hg hk ops Tracks.fresh hops)
  refine ⟨p, hp, ?_, ht.weights⟩
  intro v hv
  have := ht.asg v hv
  rw [← this]
  unfold decodeLab
  split <;> simp_all

/-- With weights whose total fits in 32 bits the reported weights are the plain sums. -/
theorem C19_history_exact {g : Graph} (hg : g.WF) (hm : g.Small) {k : Nat} (hk : k ≤ NULL32) (ops : List POp)
    (hops : LegalHistory g.nv k (fun _ => none) ops) :
    ∃ p, ops.foldlM (POp.run g) (Partitioning.fresh k g) = ok p ∧
      (∀ q, q < k → nth p.pw q = mapWeight g (ops.foldl POp.spec (fun _ => none)) q) := by
  obtain ⟨p, hp, -, hw⟩ := C19_history hg hk ops hops
  refine ⟨p, hp, fun q hq => ?_⟩
  rw [hw q hq, Nat.mod_eq_of_lt]
  exact lt_of_le_of_lt (mapWeight_le _ _) hm.vtx

/-- a legal history that uses every operation -/
example : LegalHistory Ex.tri2.nv 3 (fun _ => none)
    [.assign 0 2, .assign 3 1, .setCut 5, .move 0 1, .unassign 3, .assignAll 2, .addCut (-1), .move 1 0,
      .recalcCut, .unassignAll, .assign 5 0] := by
  simp [LegalHistory, POp.Legal, POp.spec, Ex.tri2]

/-- **C20.** Constructing a partitioning from any valid label vector gives exactly the labels, the true
partition weights and the true cut. -/
theorem C20_from_labels {g : Graph} (hg : g.WF) (hs : g.Symm) (hm : g.Small) {k : Nat} {labels : List Nat}
    (ha : labels.length = g.nv) (hl : ∀ v, v < g.nv → nth labels v < k) :
    ∃ p, Partitioning.ofLabels k g labels = ok p ∧ p.asg = labels ∧
      (∀ q, q < k → nth p.pw q = partWeight g (nth labels) q) ∧
      p.cut = cutWeight g (nth labels) := by
  obtain ⟨p, hp, h1, h2⟩ := sat_iff.mp (ofLabels_exact hg hs hm ha hl)
  subst h1
  exact ⟨p, hp, rfl, h2.weights, h2.cut_eq⟩

example : ∃ p, Partitioning.ofLabels 3 Ex.tri2 [0, 1, 2, 2, 1, 0] = ok p ∧ p.cut = 14 ∧ p.pw = [2, 3, 4] :=
  ⟨{ cut := 14, pw := [2, 3, 4], asg := [0, 1, 2, 2, 1, 0] }, by decide +kernel⟩

/-- **C21.** Recalculating the cut stores the true cut of the current assignment, whatever was stored before,
and changes nothing else. Unassigned vertices count as one further part. -/
theorem C21_recalc_cut {g : Graph} (hg : g.WF) (hs : g.Symm) (hm : g.sumEdge < 2 ^ 32) {p : Partitioning}
    (ha : p.asg.length = g.nv) :
    p.recalcCut g = ok { p with cut := cutWeight g p.lab } := by
  unfold Partitioning.recalcCut
  rw [sumCut_exact hg hs hm ha]
  rfl

example : Partitioning.recalcCut Ex.tri2 { Ex.badPart with cut := 12345 } = ok Ex.badPart := by
  decide +kernel

/-- Number of vertices of `g` with label `q`. -/
def numWithLabel (n : Nat) (lab : Nat → Nat) (q : Nat) : Nat := ((range n).filter fun v => lab v = q).card

theorem countP_eq_numWithLabel (l : List Nat) (q : Nat) :
    l.countP (fun a => decide (a = q)) = numWithLabel l.length (nth l) q := by
  unfold numWithLabel
  rw [card_filter, ← sum_map_range' (fun i => if nth l i = q then 1 else 0)]
  have : l = (List.range l.length).map (nth l) := by
    refine list_ext_nth (by simp) fun i hi => ?_
    rw [nth_map (by simpa using hi), nth_range hi]
  conv_lhs => rw [this]
  rw [List.countP_map]
  generalize List.range l.length = r
  induction r with
  | nil => rfl
  | cons a r ih =>
    rw [List.countP_cons, List.map_cons, List.sum_cons, ih]
    simp [Function.comp]
    omega

theorem calcVertexCounts_spec {k : Nat} (asg : List Nat) (hl : ∀ a ∈ asg, a < k) (hn : asg.length < M32) :
    Sat (asg.foldlM (fun counts part => do
      let old ← rd counts part
      wr counts part (uadd old 1)) (List.replicate k 0)) (fun counts => counts.length = k ∧
        ∀ q, q < k → nth counts q = asg.countP (fun a => decide (a = q))) := by
  refine Post_foldlM (P := fun pre counts => counts.length = k ∧
    ∀ q, q < k → nth counts q = pre.countP (fun a => decide (a = q))) ?_ ?_
  · simp
    intro q hq; rw [nth_replicate hq]
  · intro pre x post counts he ⟨hc, hq⟩
    have hx : x < k := hl x (by simp [he])
    have hlen : pre.length + 1 ≤ asg.length := by simp [he]
    rw [rd_of_lt (by omega), ok_bind, wr_of_lt (by omega)]
    refine ⟨by simpa using hc, fun q hqk => ?_⟩
    rw [nth_set (by omega), List.countP_append]
    by_cases h : q = x
    · subst h
      have := List.countP_le_length (p := fun a => decide (a = q)) (l := pre)
      rw [if_pos rfl, hq q hqk, uadd_eq (by omega)]
      simp
    · rw [if_neg h, hq q hqk]; simp [Ne.symm h]

/-- **C22.** The vertex counts are the numbers of vertices with each label, and they add up to the number of
vertices. -/
theorem C22_vertex_counts {n k : Nat} {p : Partitioning} (ha : p.asg.length = n) (hp : p.pw.length = k)
    (hn : n < 2 ^ 32) (hl : ∀ v, v < n → p.lab v < k) :
    ∃ counts, p.calcVertexCounts = ok counts ∧ counts.length = k ∧
      (∀ q, q < k → nth counts q = numWithLabel n p.lab q) ∧ counts.sum = n := by
  have hmem : ∀ a ∈ p.asg, a < k := by
    intro a hm
    obtain ⟨i, hi, rfl⟩ := List.mem_iff_getElem.mp hm
    have := hl i (by omega)
    unfold Partitioning.lab at this
    rwa [nth_eq_getElem hi] at this
  obtain ⟨counts, hc, hlen, hq⟩ := sat_iff.mp (calcVertexCounts_spec p.asg hmem (by omega))
  refine ⟨counts, ?_, hlen, ?_, ?_⟩
  · unfold Partitioning.calcVertexCounts; rw [hp]; exact hc
  · intro q hqk; rw [hq q hqk, countP_eq_numWithLabel, ha]; rfl
  · rw [sum_eq_sum_nth, hlen]
    rw [sum_congr rfl fun q hqk => (hq q (mem_range.mp hqk))]
    clear hq hc hl
    rw [← ha]
    generalize p.asg = l at hmem ⊢
    induction l with
    | nil => simp
    | cons a l ih =>
      simp only [List.countP_cons, List.length_cons]
      rw [sum_add_distrib, ih fun b hb => hmem b (by simp [hb])]
      simp [hmem a (by simp)]

example : Ex.badPart.calcVertexCounts = ok [4, 2] := by decide +kernel

end Poros
