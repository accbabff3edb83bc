import Verif.Proofs.OneStep
import Verif.Proofs.Csr
/-
Graphs stored as a concatenation of adjacency lists.
-/
namespace Poros
open Finset Res

attribute [-simp] List.length_flatten List.map_flatten

theorem split_at {α} [Inhabited α] {l : List α} {v : Nat} (h : v < l.length) :
    l = l.take v ++ nth l v :: l.drop (v + 1) := by
  conv_lhs => rw [← List.take_append_drop v l]
  rw [List.drop_eq_getElem_cons h, nth_eq_getElem h]

theorem take_succ_flatten {α} {l : List (List α)} {v : Nat} (h : v < l.length) :
    (l.take (v + 1)).flatten = (l.take v).flatten ++ nth l v := by
  rw [List.take_succ_eq_append_getElem h, nth_eq_getElem h, List.flatten_append]
  simp

theorem nth_flatten {α} [Inhabited α] {l : List (List α)} {v i : Nat} (h : v < l.length)
    (hi : i < (nth l v).length) : nth l.flatten ((l.take v).flatten.length + i) = nth (nth l v) i := by
  have e : l.flatten = (l.take v).flatten ++ (nth l v ++ (l.drop (v + 1)).flatten) := by
    conv_lhs => rw [split_at h]
    rw [List.flatten_append, List.flatten_cons]
  rw [e, nth_append_right (by omega), nth_append_left (by omega)]
  congr 1; omega

/-- `cg` stores the adjacency lists `blocks`. -/
structure Stores (cg : Graph) (blocks : List (List (Nat × Nat))) : Prop where
  nv : cg.nv = blocks.length
  ne : cg.ne = blocks.flatten.length
  xadj_len : cg.xadj.length = cg.nv + 1
  xadj : ∀ i, i ≤ blocks.length → nth cg.xadj i = (blocks.take i).flatten.length
  adj : cg.adjncy = keysOf blocks.flatten
  ew : ∀ e, e < blocks.flatten.length → cg.ew e = (nth blocks.flatten e).2

variable {cg : Graph} {blocks : List (List (Nat × Nat))}

theorem Stores.mono (h : Stores cg blocks) {v : Nat} (hv : v < cg.nv) :
    nth cg.xadj v ≤ nth cg.xadj (v + 1) := by
  have hv' : v < blocks.length := by rw [← h.nv]; exact hv
  rw [h.xadj v (by omega), h.xadj (v + 1) (by omega), take_succ_flatten hv', List.length_append]
  omega

theorem Stores.nbrs (h : Stores cg blocks) {v : Nat} (hv : v < blocks.length) : cg.nbrs v = nth blocks v := by
  have hlen : (cg.nbrs v).length = (nth blocks v).length := by
    rw [Graph.nbrs_length, h.xadj v (by omega), h.xadj (v + 1) (by omega), take_succ_flatten hv,
      List.length_append]
    omega
  refine list_ext_nth hlen fun i hi => ?_
  rw [hlen] at hi
  have hlen' : nth cg.xadj (v + 1) - nth cg.xadj v = (nth blocks v).length := by
    rw [← hlen, Graph.nbrs_length]
  have hb : (blocks.take v).flatten.length + i < blocks.flatten.length := by
    have : blocks.flatten.length = (blocks.take v).flatten.length + ((nth blocks v).length +
        (blocks.drop (v + 1)).flatten.length) := by
      conv_lhs => rw [split_at hv]
      simp only [List.flatten_append, List.flatten_cons, List.length_append]
    omega
  unfold Graph.nbrs
  rw [hlen', nth_map (by simpa using hi)]
  have hr : nth (List.range' (nth cg.xadj v) (nth blocks v).length) i = (blocks.take v).flatten.length + i := by
    rw [nth_eq_getElem (by simpa using hi), List.getElem_range', h.xadj v (by omega)]; omega
  rw [hr, h.ew _ hb, h.adj]
  unfold keysOf
  rw [nth_map hb, nth_flatten hv hi]

theorem Stores.wf (h : Stores cg blocks) (hnv : blocks.length < NULL32) (hne : blocks.flatten.length < NULL32)
    (hd : ∀ b ∈ blocks, ∀ q ∈ b, q.1 < blocks.length)
    (hvl : cg.unitVtx = false → cg.vwgt.length = cg.nv)
    (hvu : cg.unitVtx = true → ∀ v, v < cg.vwgt.length → nth cg.vwgt v = 1)
    (hel : cg.unitEdge = false → cg.adjwgt.length = cg.ne)
    (heu : cg.unitEdge = true → ∀ e, e < cg.adjwgt.length → nth cg.adjwgt e = 1)
    (htv : cg.totVtx = cg.sumVtx % M32) (hte : cg.totEdge = wAll blocks.flatten % M32) : cg.WF := by
  have hx0 : nth cg.xadj 0 = 0 := by rw [h.xadj 0 (by omega)]; simp
  have hxl : nth cg.xadj cg.nv = cg.ne := by rw [h.nv, h.xadj _ le_rfl, h.ne, List.take_length]
  refine { nv_lt := by rw [h.nv]; exact hnv, ne_lt := by rw [h.ne]; exact hne, xadj_len := h.xadj_len,
           adj_len := ?_, xadj_zero := hx0, xadj_mono := fun v hv => h.mono hv, xadj_last := hxl,
           dest_lt := ?_, vwgt_len := hvl, vwgt_unit := hvu, adjwgt_len := hel, adjwgt_unit := heu,
           tot_vtx := htv, tot_edge := ?_ }
  · rw [h.adj, h.ne]; simp
  · intro e he
    rw [h.ne] at he
    rw [h.adj, h.nv]
    unfold keysOf
    rw [nth_map he]
    obtain ⟨b, hb, hq⟩ := List.mem_flatten.mp (nth_mem he)
    exact hd b hb _ hq
  · rw [hte, sumEdge_eq_slots hx0 hxl fun v hv => h.mono hv]
    congr 1
    unfold wAll
    rw [sum_eq_sum_nth, List.length_map, h.ne]
    refine sum_congr rfl fun e he => ?_
    have he := mem_range.mp he
    rw [nth_map he, h.ew e he]

theorem Stores.sumEdge (h : Stores cg blocks) : cg.sumEdge = wAll blocks.flatten := by
  have hx0 : nth cg.xadj 0 = 0 := by rw [h.xadj 0 (by omega)]; simp
  have hxl : nth cg.xadj cg.nv = cg.ne := by rw [h.nv, h.xadj _ le_rfl, h.ne, List.take_length]
  rw [sumEdge_eq_slots hx0 hxl fun v hv => h.mono hv]
  unfold wAll
  rw [sum_eq_sum_nth, List.length_map, h.ne]
  refine sum_congr rfl fun e he => ?_
  have he := mem_range.mp he
  rw [nth_map he, h.ew e he]

theorem Stores.wt (h : Stores cg blocks) {v : Nat} (hv : v < blocks.length) (d : Nat) :
    cg.wt v d = wOf (nth blocks v) d := by
  unfold Graph.wt Graph.wsum wOf
  rw [h.nbrs hv]
  simp only [beq_iff_eq]

end Poros
