import Verif.SpecCsr
import Verif.Proofs.Graph
import Mathlib.Tactic.Ring
namespace Poros
open Finset Res

theorem nth_take {α} [Inhabited α] {l : List α} {n i : Nat} (h : i < n) : nth (l.take n) i = nth l i := by
  simp [nth, h]

/-- One half of the pointer constructor. -/
theorem sumWeights_opt {n : Nat} {w : Option (List Nat)} (hs : ¬ shorter w n) :
    sumWeights n ((emptyIfNull w).take n) =
      ok ((∑ i ∈ range n, weightAt w i) % M32, decide (∀ i, i < n → weightAt w i = 1)) := by
  cases w with
  | none =>
    simp only [emptyIfNull, List.take_nil, sumWeights_nil, weightAt]
    simp
  | some l =>
    simp only [shorter, not_lt] at hs
    have hl : (l.take n).length = n := by simp [hs]
    simp only [emptyIfNull, weightAt]
    rw [sumWeights_eq hl]
    congr 2
    · congr 1
      refine sum_congr rfl fun i hi => ?_
      rw [nth_take (mem_range.mp hi)]
    · apply decide_eq_decide.mpr
      refine forall_congr' fun i => forall_congr' fun hi => ?_
      rw [nth_take hi]

/-- What the constructed graph looks like. -/
structure Represents (nv ne : Nat) (xadj adjncy : List Nat) (vw aw : Option (List Nat)) (g : Graph) : Prop where
  nv_eq : g.nv = nv
  ne_eq : g.ne = ne
  xadj_eq : g.xadj = xadj.take (nv + 1)
  adj_eq : g.adjncy = adjncy.take ne
  vwgt_eq : g.vwgt = (emptyIfNull vw).take nv
  adjwgt_eq : g.adjwgt = (emptyIfNull aw).take ne
  totVtx_eq : g.totVtx = (∑ i ∈ range nv, weightAt vw i) % M32
  totEdge_eq : g.totEdge = (∑ i ∈ range ne, weightAt aw i) % M32
  unitVtx_iff : g.unitVtx = true ↔ ∀ i, i < nv → weightAt vw i = 1
  unitEdge_iff : g.unitEdge = true ↔ ∀ i, i < ne → weightAt aw i = 1

theorem ofPtrs_spec {nv ne : Nat} {xadj adjncy : List Nat} {vw aw : Option (List Nat)}
    (hnv : nv < NULL32) (hx : nv + 1 ≤ xadj.length) (ha : ne ≤ adjncy.length)
    (hv : ¬ shorter vw nv) (he : ¬ shorter aw ne) :
    ∃ g, Graph.ofPtrs nv ne xadj adjncy vw aw = ok g ∧ Represents nv ne xadj adjncy vw aw g := by
  have hc : ¬ (xadj.length < nv + 1 ∨ adjncy.length < ne ∨ shorter vw nv ∨ shorter aw ne) := by
    rintro (h | h | h | h)
    · omega
    · omega
    · exact hv h
    · exact he h
  have hxl : (xadj.take (nv + 1)).length = nv + 1 := by simp; omega
  have hal : (adjncy.take ne).length = ne := by simp; omega
  have hu : usub (nv + 1) 1 = nv := by unfold usub; omega
  unfold Graph.ofPtrs
  rw [if_neg hc]
  simp only [Graph.make, hxl, hal, hu, sumWeights_opt hv, sumWeights_opt he, ok_bind]
  exact ⟨_, rfl, ⟨rfl, rfl, rfl, rfl, rfl, rfl, rfl, rfl, by simp, by simp⟩⟩

namespace Represents
variable {nv ne : Nat} {xadj adjncy : List Nat} {vw aw : Option (List Nat)} {g : Graph}

theorem vw_at (h : Represents nv ne xadj adjncy vw aw g) {v : Nat} (hv : v < nv) : g.vw v = weightAt vw v := by
  unfold Graph.vw
  split
  · rename_i hu; exact ((h.unitVtx_iff.mp hu) v hv).symm
  · rename_i hu
    cases vw with
    | none => exact absurd (h.unitVtx_iff.mpr (by intros; rfl)) hu
    | some l => rw [h.vwgt_eq]; simp only [emptyIfNull, weightAt]; rw [nth_take hv]

theorem ew_at (h : Represents nv ne xadj adjncy vw aw g) {e : Nat} (he : e < ne) : g.ew e = weightAt aw e := by
  unfold Graph.ew
  split
  · rename_i hu; exact ((h.unitEdge_iff.mp hu) e he).symm
  · rename_i hu
    cases aw with
    | none => exact absurd (h.unitEdge_iff.mpr (by intros; rfl)) hu
    | some l => rw [h.adjwgt_eq]; simp only [emptyIfNull, weightAt]; rw [nth_take he]

theorem xadj_at (h : Represents nv ne xadj adjncy vw aw g) {v : Nat} (hv : v ≤ nv) :
    nth g.xadj v = nth xadj v := by
  rw [h.xadj_eq, nth_take (by omega)]

theorem adj_at (h : Represents nv ne xadj adjncy vw aw g) {e : Nat} (he : e < ne) :
    nth g.adjncy e = nth adjncy e := by
  rw [h.adj_eq, nth_take he]

end Represents

theorem CSR.xadj_le {nv ne : Nat} {xadj adjncy : List Nat} {vw aw : Option (List Nat)}
    (h : CSR nv ne xadj adjncy vw aw) {u v : Nat} (huv : u ≤ v) (hv : v ≤ nv) : nth xadj u ≤ nth xadj v := by
  induction v with
  | zero => obtain rfl : u = 0 := by omega
            exact le_refl _
  | succ v ih =>
    rcases Nat.lt_or_ge u (v + 1) with hlt | hge
    · exact le_trans (ih (by omega) (by omega)) (h.mono v (by omega))
    · obtain rfl : u = v + 1 := by omega
      exact le_refl _

theorem sum_list_range' {f : Nat → Nat} {a b : Nat} (h : a ≤ b) :
    ((List.range' a (b - a)).map f).sum = ∑ e ∈ Ico a b, f e := by
  have : ∀ n, ((List.range' a n).map f).sum = ∑ e ∈ Ico a (a + n), f e := by
    intro n
    induction n with
    | zero => simp
    | succ n ih =>
      rw [List.range'_1_concat, List.map_append, List.sum_append, ih, ← Nat.add_assoc,
        Finset.sum_Ico_succ_top (by omega)]
      simp
  rw [this, show a + (b - a) = b by omega]

theorem sum_Ico_blocks (x : Nat → Nat) (f : Nat → Nat) (n : Nat) (hm : ∀ v, v < n → x v ≤ x (v + 1)) :
    ∑ v ∈ range n, ∑ e ∈ Ico (x v) (x (v + 1)), f e = ∑ e ∈ Ico (x 0) (x n), f e := by
  have h0 : ∀ n, (∀ v, v < n → x v ≤ x (v + 1)) → x 0 ≤ x n := by
    intro n
    induction n with
    | zero => intro _; exact le_refl _
    | succ n ih => intro h; exact le_trans (ih fun v hv => h v (by omega)) (h n (by omega))
  induction n with
  | zero => simp
  | succ n ih =>
    rw [sum_range_succ, ih fun v hv => hm v (by omega)]
    rw [Finset.sum_Ico_consecutive _ (h0 n fun v hv => hm v (by omega)) (hm n (by omega))]

theorem wsum_eq_Ico {g : Graph} {v : Nat} (hm : nth g.xadj v ≤ nth g.xadj (v + 1)) (p : Nat → Bool) :
    g.wsum v p = ∑ e ∈ Ico (nth g.xadj v) (nth g.xadj (v + 1)), if p (nth g.adjncy e) then g.ew e else 0 := by
  unfold Graph.wsum Graph.nbrs
  rw [List.map_map, ← sum_list_range' hm]
  rfl

theorem sumEdge_eq_slots {g : Graph} (h0 : nth g.xadj 0 = 0) (hl : nth g.xadj g.nv = g.ne)
    (hm : ∀ v, v < g.nv → nth g.xadj v ≤ nth g.xadj (v + 1)) :
    g.sumEdge = ∑ e ∈ range g.ne, g.ew e := by
  unfold Graph.sumEdge
  rw [sum_congr rfl fun v hv => wsum_eq_Ico (hm v (mem_range.mp hv)) _]
  simp only [if_true]
  rw [sum_Ico_blocks (nth g.xadj) g.ew g.nv hm, h0, hl, range_eq_Ico]

theorem CSR.wf {nv ne : Nat} {xadj adjncy : List Nat} {vw aw : Option (List Nat)}
    (h : CSR nv ne xadj adjncy vw aw) {g : Graph} (hr : Represents nv ne xadj adjncy vw aw g) : g.WF := by
  have hnv := hr.nv_eq
  have hne := hr.ne_eq
  have hmono : ∀ v, v < g.nv → nth g.xadj v ≤ nth g.xadj (v + 1) := by
    intro v hv
    rw [hr.xadj_at (by omega), hr.xadj_at (by omega)]
    exact h.mono v (by omega)
  have hz : nth g.xadj 0 = 0 := by rw [hr.xadj_at (by omega)]; exact h.zero
  have hlast : nth g.xadj g.nv = g.ne := by rw [hnv, hr.xadj_at (le_refl _), hne]; exact h.last
  refine ⟨by rw [hnv]; exact h.nv_lt, by rw [hne]; exact h.ne_lt, ?_, ?_, hz, hmono, hlast, ?_, ?_, ?_, ?_, ?_, ?_, ?_⟩
  · rw [hr.xadj_eq, hnv]; have := h.xadj_len; simp; omega
  · rw [hr.adj_eq, hne]; have := h.adj_len; simp; omega
  · intro e he
    rw [hr.adj_at (by omega), hnv]; exact h.dest e (by omega)
  · intro hu
    rw [hr.vwgt_eq, hnv]
    have := h.vw_len
    cases vw with
    | none => exact absurd (hr.unitVtx_iff.mpr (by intros; rfl)) (by simp [hu])
    | some l => simp only [shorter, not_lt] at this; simp [emptyIfNull, this]
  · intro hu v hv
    have hv' : v < nv := by rw [hr.vwgt_eq] at hv; simp at hv; omega
    have := hr.unitVtx_iff.mp hu v hv'
    rw [hr.vwgt_eq, nth_take hv']
    cases vw with
    | none => rw [hr.vwgt_eq] at hv; simp [emptyIfNull] at hv
    | some l => exact this
  · intro hu
    rw [hr.adjwgt_eq, hne]
    have := h.aw_len
    cases aw with
    | none => exact absurd (hr.unitEdge_iff.mpr (by intros; rfl)) (by simp [hu])
    | some l => simp only [shorter, not_lt] at this; simp [emptyIfNull, this]
  · intro hu v hv
    have hv' : v < ne := by rw [hr.adjwgt_eq] at hv; simp at hv; omega
    have := hr.unitEdge_iff.mp hu v hv'
    rw [hr.adjwgt_eq, nth_take hv']
    cases aw with
    | none => rw [hr.adjwgt_eq] at hv; simp [emptyIfNull] at hv
    | some l => exact this
  · rw [hr.totVtx_eq]
    unfold Graph.sumVtx
    rw [hnv]
    congr 1
    exact sum_congr rfl fun v hv => (hr.vw_at (mem_range.mp hv)).symm
  · rw [hr.totEdge_eq, sumEdge_eq_slots hz hlast hmono, hne]
    congr 1
    exact sum_congr rfl fun v hv => (hr.ew_at (mem_range.mp hv)).symm

theorem CSR.wt_eq {nv ne : Nat} {xadj adjncy : List Nat} {vw aw : Option (List Nat)}
    (h : CSR nv ne xadj adjncy vw aw) {g : Graph} (hr : Represents nv ne xadj adjncy vw aw g) {v : Nat}
    (hv : v < nv) (u : Nat) : g.wt v u = csrWt xadj adjncy aw v u := by
  have hm := h.mono v hv
  have hl : nth xadj (v + 1) ≤ ne := by rw [← h.last]; exact h.xadj_le (by omega) (le_refl _)
  unfold Graph.wt csrWt
  rw [wsum_eq_Ico (by rw [hr.xadj_at (by omega), hr.xadj_at (by omega)]; exact hm),
    hr.xadj_at (by omega), hr.xadj_at (by omega)]
  refine sum_congr rfl fun e he => ?_
  have he' : e < ne := by rw [mem_Ico] at he; omega
  rw [hr.adj_at he', hr.ew_at he']
  simp

theorem CSR.cut_eq {nv ne : Nat} {xadj adjncy : List Nat} {vw aw : Option (List Nat)}
    (h : CSR nv ne xadj adjncy vw aw) {g : Graph} (hr : Represents nv ne xadj adjncy vw aw g)
    (lab : Nat → Nat) : cutWeight g lab = csrCut nv xadj adjncy aw lab := by
  unfold cutWeight csrCut
  rw [hr.nv_eq]
  refine sum_congr rfl fun v hv => sum_congr rfl fun u hu => ?_
  rw [h.wt_eq hr (mem_range.mp hv)]

end Poros
