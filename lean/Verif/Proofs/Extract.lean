import Verif.Proofs.Subgraph
/-
Subgraph extraction: the main theorem.
-/
namespace Poros
open Finset Res

attribute [-simp] List.length_flatten List.map_flatten

instance : Inhabited Graph := ⟨⟨true, true, 0, 0, 0, 0, [0], [], [], []⟩⟩
instance : Inhabited Subgraph := ⟨⟨[], default⟩⟩

/-- What extraction delivers for part `p`. -/
structure SubOK (g : Graph) (lab : Nat → Nat) (labels : Option (List Nat)) (p : Nat) (s : Subgraph) : Prop where
  superMap : s.superMap = (vertsOf g lab p).map (superOf labels)
  induced : IsInduced g lab p s.graph
  wf : s.graph.WF
  weights : g.unitVtx = false → s.graph.vwgt.length = s.graph.nv
  noWeights : g.unitVtx = true → s.graph.vwgt = []

theorem subNbrs_total {g : Graph} (hg : g.WF) (lab : Nat → Nat) (p : Nat) :
    startOf (fun j => (insertedAt ((fiber lab g.nv p).flatMap (insOf g lab)) j).length)
      (fiber lab g.nv p).length ≤ g.ne := by
  unfold startOf
  rw [← sum_nbrs_length hg]
  have h1 : ∀ j ∈ range (fiber lab g.nv p).length,
      (insertedAt ((fiber lab g.nv p).flatMap (insOf g lab)) j).length =
        nth ((fiber lab g.nv p).map fun v => (subNbrs g lab v).length) j := by
    intro j hj
    have hj := mem_range.mp hj
    rw [insertedAt_fiber, if_pos hj, nth_map hj]
  rw [sum_congr rfl h1]
  have h2 := sum_eq_sum_nth ((fiber lab g.nv p).map fun v => (subNbrs g lab v).length)
  rw [List.length_map] at h2
  rw [← h2, sum_over_fiber]
  refine sum_le_sum fun v _ => ?_
  split
  · unfold subNbrs; rw [List.length_map]; exact List.length_filter_le _ _
  · exact Nat.zero_le _

theorem insOf_lt {g : Graph} {lab : Nat → Nat} {p : Nat} {i : Ins}
    (hi : i ∈ (fiber lab g.nv p).flatMap (insOf g lab)) : i.v < (fiber lab g.nv p).length := by
  obtain ⟨v, hv, hi⟩ := List.mem_flatMap.mp hi
  obtain ⟨hv1, hv2⟩ := mem_fiber.mp hv
  unfold insOf at hi
  obtain ⟨q, _, rfl⟩ := List.mem_map.mp hi
  have := subOf_lt (lab := lab) hv1
  rw [hv2] at this
  exact this

theorem fiber_le (lab : Nat → Nat) (n p : Nat) : (fiber lab n p).length ≤ n := by
  have := List.length_filter_le (fun v => decide (lab v = p)) (List.range n)
  simpa [fiber] using this

/-- The number of vertices of part `p`. -/
def subN (g : Graph) (lab : Nat → Nat) (p : Nat) : Nat := (fiber lab g.nv p).length

/-- The edges inserted into the builder of part `p`. -/
def subIns (g : Graph) (lab : Nat → Nat) (p : Nat) : List Ins := (fiber lab g.nv p).flatMap (insOf g lab)

/-- The degrees declared to the builder of part `p`. -/
def subDeg (g : Graph) (lab : Nat → Nat) (p j : Nat) : Nat := (insertedAt (subIns g lab p) j).length

/-- The vertex weights declared to the builder of part `p`. -/
def subWgt (g : Graph) (lab : Nat → Nat) (p : Nat) : Nat → Option Nat :=
  if g.unitVtx then fun _ => none else (wgtOps g lab g.nv p).foldl VOp.wgt fun _ => none

/-- The last loop of extraction. -/
def assemble (m : List Nat × List Mem × Mem) (bs : List TwoStep) (pid : Nat) : Res Subgraph := do
  let b ← rd bs pid
  let sm ← rd m.2.1 pid
  let sg ← b.finish
  let sm ← sm.freeze
  .ok { superMap := sm, graph := sg }

/-- The states that extraction goes through. -/
structure Stages (g : Graph) (part : Partitioning) (k : Nat) (labels : Option (List Nat)) (counts : List Nat)
    (m : List Nat × List Mem × Mem) (bs1 bs2 bs3 bs4 : List TwoStep) (subs : List Subgraph) : Prop where
  cnt : part.calcVertexCounts = ok counts
  countsLen : counts.length = k
  countsEq : ∀ p, p < k → nth counts p = subN g part.lab p
  maps : fillMaps g part labels (List.replicate counts.length 0, counts.map Mem.alloc, Mem.alloc g.nv) = ok m
  sub : ∀ v, v < g.nv → m.2.2.rd v = ok (subOf part.lab v)
  e1 : maybeFillWeights g part m.2.2 (counts.map (TwoStep.configured g)) = ok bs1
  l1 : bs1.length = k
  i1 : ∀ p, p < k → VInv (subN g part.lab p) g.unitVtx g.unitEdge (fun _ => 0) (subWgt g part.lab p) (nth bs1 p)
  e2 : countSubEdges g part m.2.2 bs1 = ok bs2
  l2 : bs2.length = k
  i2 : ∀ p, p < k → VInv (subN g part.lab p) g.unitVtx g.unitEdge (subDeg g part.lab p) (subWgt g part.lab p) (nth bs2 p)
  e3 : bs2.mapM TwoStep.beginEdgePhase = ok bs3
  l3 : bs3.length = k
  i3 : ∀ p, p < k → EInv (subN g part.lab p) g.unitVtx g.unitEdge (subDeg g part.lab p) (subWgt g part.lab p) [] (nth bs3 p)
  e4 : fillSubEdges g (!g.unitEdge) part m.2.2 bs3 = ok bs4
  l4 : bs4.length = k
  i4 : ∀ p, p < k → EInv (subN g part.lab p) g.unitVtx g.unitEdge (subDeg g part.lab p) (subWgt g part.lab p)
    (subIns g part.lab p) (nth bs4 p)
  fin : (List.range counts.length).mapM (assemble m bs4) = ok subs
  subsLen : subs.length = k
  subsOK : ∀ p, p < k → SubOK g part.lab labels p (nth subs p)

theorem extract_stages {g : Graph} {part : Partitioning} {k : Nat} {labels : Option (List Nat)}
    (hg : g.WF) (ha : part.asg.length = g.nv) (hk : part.pw.length = k)
    (hl : ∀ v, v < g.nv → part.lab v < k) (hlab : LabelsOK g.nv labels) :
    ∃ counts m bs1 bs2 bs3 bs4 subs, Stages g part k labels counts m bs1 bs2 bs3 bs4 subs := by
  have hn := hg.nv_lt
  have hne := hg.ne_lt
  obtain ⟨counts, hc1, hc2, hc3, -⟩ := C22_vertex_counts ha hk (by omega) hl
  have hc3 : ∀ p, p < k → nth counts p = (fiber part.lab g.nv p).length := fun p hp => by
    rw [hc3 p hp, numWithLabel_eq_fiber]
  obtain ⟨m, hm1, hm2, hm3, hm4⟩ := fillMaps_spec hg ha hl hlab hc2 hc3
  set lab := part.lab with hlabdef
  -- abbreviations
  let N := fun p => (fiber lab g.nv p).length
  let L := fun p => (fiber lab g.nv p).flatMap (insOf g lab)
  let D := fun p j => (insertedAt (L p) j).length
  let W := fun p : Nat => (if g.unitVtx then (fun _ => none) else
    (wgtOps g lab g.nv p).foldl VOp.wgt (fun _ => none) : Nat → Option Nat)
  have hN : ∀ p, N p < NULL32 := fun p => lt_of_le_of_lt (fiber_le lab g.nv p) hn
  have hD : ∀ p, startOf (D p) (N p) < M32 := fun p =>
    lt_of_le_of_lt (subNbrs_total hg lab p) (by omega)
  -- configuration
  have hb0 : ∀ p, p < k → VInv (N p) g.unitVtx g.unitEdge (fun _ => 0) (fun _ => none)
      (nth (counts.map (TwoStep.configured g)) p) := by
    intro p hp
    rw [nth_map (by omega), hc3 p hp]
    exact VInv.begin (hN p) _ _
  have hl0 : (counts.map (TwoStep.configured g)).length = k := by simp [hc2]
  -- vertex weights
  have htag : ∀ {ι : Type} (F : Nat → List ι) (bs : List TwoStep), bs.length = k →
      ∀ o ∈ (List.range g.nv).flatMap (fun v => (F v).map fun x => (lab v, x)), o.1 < bs.length := by
    intro ι F bs hbs o ho
    obtain ⟨v, hv, ho⟩ := List.mem_flatMap.mp ho
    obtain ⟨x, _, rfl⟩ := List.mem_map.mp ho
    rw [hbs]; exact hl v (List.mem_range.mp hv)
  have hb1 : ∃ bs, maybeFillWeights g part m.2.2 (counts.map (TwoStep.configured g)) = ok bs ∧ bs.length = k ∧
      ∀ p, p < k → VInv (N p) g.unitVtx g.unitEdge (fun _ => 0) (W p) (nth bs p) := by
    unfold maybeFillWeights
    cases hu : g.unitVtx with
    | true =>
      refine ⟨_, rfl, hl0, fun p hp => ?_⟩
      have := hb0 p hp
      rw [hu] at this
      simpa [W, hu] using this
    | false =>
      simp only [Bool.not_false, if_true]
      rw [fillVertexWeights_flat hg hu ha hm4]
      have := foldlM_onNth_ex (fun b o => VOp.run b o) _ (counts.map (TwoStep.configured g))
        (htag (fun v => [VOp.setWeight (subOf lab v) (g.vw v)]) _ hl0)
        (fun p b => VInv (N p) false g.unitEdge (fun _ => 0) (W p) b) ?_
      · obtain ⟨bs, h1, h2, h3⟩ := this
        exact ⟨bs, h1, by omega, fun p hp => h3 p (by omega)⟩
      · intro p hp
        rw [hl0] at hp
        rw [filter_tagged]
        have e : (fiber lab g.nv p).flatMap (fun v => [VOp.setWeight (subOf lab v) (g.vw v)]) = wgtOps g lab g.nv p := by
          unfold wgtOps
          exact List.flatMap_pure_eq_map (fun v => VOp.setWeight (subOf lab v) (g.vw v)) _
        rw [e]
        have h0 := hb0 p hp
        rw [hu] at h0
        obtain ⟨b', h1, h2⟩ := h0.runs (H := wgtOps g lab g.nv p) (hist_wgtOps fun v hv => by
          obtain ⟨hv1, hv2⟩ := mem_fiber.mp hv
          have := subOf_lt (lab := lab) hv1
          rwa [hv2] at this)
        rw [deg_wgtOps] at h2
        refine ⟨b', h1, ?_⟩
        simpa [W, hu] using h2
  obtain ⟨bs1, hb1e, hb1l, hb1⟩ := hb1
  -- degrees
  have hb2 : ∃ bs, countSubEdges g part m.2.2 bs1 = ok bs ∧ bs.length = k ∧
      ∀ p, p < k → VInv (N p) g.unitVtx g.unitEdge (D p) (W p) (nth bs p) := by
    rw [countSubEdges_flat hg ha hm4]
    have := foldlM_onNth_ex (fun b o => VOp.run b o) _ bs1
      (htag (fun v => (insOf g lab v).map fun i => VOp.incDegree i.v) _ hb1l)
      (fun p b => VInv (N p) g.unitVtx g.unitEdge (D p) (W p) b) ?_
    · obtain ⟨bs, h1, h2, h3⟩ := this
      exact ⟨bs, h1, by omega, fun p hp => h3 p (by omega)⟩
    · intro p hp
      rw [hb1l] at hp
      rw [filter_tagged]
      have e : (fiber lab g.nv p).flatMap (fun v => (insOf g lab v).map fun i => VOp.incDegree i.v) =
          (L p).map fun i => VOp.incDegree i.v := by
        rw [List.map_flatMap]
      rw [e]
      obtain ⟨b', h1, h2⟩ := (hb1 p hp).runs (H := (L p).map fun i => VOp.incDegree i.v)
        (hist_incs (fun i hi => insOf_lt hi) (fun j => by
          by_cases hj : j < N p
          · have h1 := startOf_mono (f := D p) (show j + 1 ≤ N p by omega)
            rw [startOf_succ] at h1
            have h2 := hD p
            show 0 + D p j < M32
            omega
          · show 0 + (insertedAt (L p) j).length < M32
            rw [show insertedAt (L p) j = [] by
              show insertedAt ((fiber lab g.nv p).flatMap (insOf g lab)) j = []
              rw [insertedAt_fiber, if_neg hj]]
            simp))
      have hdeg : ((L p).map fun i => VOp.incDegree i.v).foldl VOp.deg (fun _ => 0) = D p := by
        funext j
        rw [deg_incs]; exact Nat.zero_add _
      rw [wgt_incs, hdeg] at h2
      exact ⟨b', h1, h2⟩
  obtain ⟨bs2, hb2e, hb2l, hb2⟩ := hb2
  -- edge phase
  have hb3 : ∃ bs, bs2.mapM TwoStep.beginEdgePhase = ok bs ∧ bs.length = k ∧
      ∀ p, p < k → EInv (N p) g.unitVtx g.unitEdge (D p) (W p) [] (nth bs p) := by
    have hx : ∀ b ∈ bs2, ∃ b', b.beginEdgePhase = ok b' ∧ ∀ p, p < k → nth bs2 p = b →
        EInv (N p) g.unitVtx g.unitEdge (D p) (W p) [] b' := by
      intro b hb
      obtain ⟨i, hi, rfl⟩ := List.mem_iff_getElem.mp hb
      obtain ⟨b', h1, h2⟩ := (hb2 i (by omega)).beginEdge (hD i)
      rw [nth_eq_getElem hi] at h1
      refine ⟨b', h1, fun p hp hpe => ?_⟩
      obtain ⟨b'', h3, h4⟩ := (hb2 p hp).beginEdge (hD p)
      rw [hpe, h1] at h3
      cases h3
      exact h4
    have := sat_iff.mp (Post_mapM (B := False) (f := TwoStep.beginEdgePhase) (l := bs2)
      (fun b b' => ∀ p, p < k → nth bs2 p = b → EInv (N p) g.unitVtx g.unitEdge (D p) (W p) [] b')
      (fun b hb => by obtain ⟨b', h1, h2⟩ := hx b hb; rw [h1]; exact h2))
    obtain ⟨bs, h1, h2, h3⟩ := this
    refine ⟨bs, h1, by omega, fun p hp => ?_⟩
    rw [nth_eq_getElem (show p < bs.length by omega)]
    exact h3 p (by omega) (by omega) p hp (nth_eq_getElem _)
  obtain ⟨bs3, hb3e, hb3l, hb3⟩ := hb3
  -- insertions
  have hb4 : ∃ bs, fillSubEdges g (!g.unitEdge) part m.2.2 bs3 = ok bs ∧ bs.length = k ∧
      ∀ p, p < k → EInv (N p) g.unitVtx g.unitEdge (D p) (W p) (L p) (nth bs p) := by
    rw [fillSubEdges_flat hg ha hm4]
    have := foldlM_onNth_ex (fun (b : TwoStep) (o : Ins) => b.addEdgeToVertex o.v o.dest o.w) _ bs3
      (htag (insOf g lab) _ hb3l)
      (fun p b => EInv (N p) g.unitVtx g.unitEdge (D p) (W p) (L p) b) ?_
    · obtain ⟨bs, h1, h2, h3⟩ := this
      exact ⟨bs, h1, by omega, fun p hp => h3 p (by omega)⟩
    · intro p hp
      rw [hb3l] at hp
      rw [filter_tagged]
      exact (hb3 p hp).addEdges (hD p) (fun i hi => insOf_lt hi) (fun _ _ => le_rfl)
  obtain ⟨bs4, hb4e, hb4l, hb4⟩ := hb4
  -- assembling
  have hfin : ∀ p, p < k → ∃ s : Subgraph, (do
        let b ← rd bs4 p
        let sm ← rd m.2.1 p
        let sg ← b.finish
        let sm ← sm.freeze
        .ok { superMap := sm, graph := sg } : Res Subgraph) = ok s ∧ SubOK g lab labels p s := by
    intro p hp
    obtain ⟨sg, h1, h2, h3, h4, h5, h6, h7, h8, h9, h10, h11, h12⟩ := (hb4 p hp).finish (hN p) (fun _ _ => rfl)
      (by
        intro hu j hj
        show W p j ≠ none
        simp only [W, hu, Bool.false_eq_true, if_false]
        rw [wgt_fiber hj]; simp)
    refine ⟨{ superMap := (fiber lab g.nv p).map (superOf labels), graph := sg }, ?_, ?_⟩
    · rw [rd_of_lt (by omega), ok_bind, rd_of_lt (by omega), ok_bind, h1, ok_bind, hm3 p hp, ok_bind]
    have hnv : sg.nv = N p := by rw [h2.nv]; simp
    have hblk : ∀ j, j < N p → nth ((List.range (N p)).map (storedAt g.unitEdge (L p))) j =
        subNbrs g lab (nth (fiber lab g.nv p) j) := by
      intro j hj
      rw [nth_map (by simpa using hj), nth_range hj]
      unfold storedAt
      have e : insertedAt (L p) j = subNbrs g lab (nth (fiber lab g.nv p) j) := by
        show insertedAt ((fiber lab g.nv p).flatMap (insOf g lab)) j = _
        rw [insertedAt_fiber, if_pos hj]
      rw [e]
      cases hu : g.unitEdge with
      | false => simp
      | true =>
        conv_rhs => rw [← List.map_id (subNbrs g lab (nth (fiber lab g.nv p) j))]
        refine List.map_congr_left fun q hq => ?_
        unfold subNbrs at hq
        obtain ⟨q', hq', rfl⟩ := List.mem_map.mp hq
        have hq' := (List.mem_filter.mp hq').1
        unfold Graph.nbrs at hq'
        obtain ⟨e, _, rfl⟩ := List.mem_map.mp hq'
        simp [Graph.ew, hu]
    have hnb : ∀ j, j < N p → sg.nbrs j = subNbrs g lab (nth (fiber lab g.nv p) j) := by
      intro j hj
      rw [h2.nbrs (by simpa using hj), hblk j hj]
    have hmem : ∀ j, j < N p → nth (fiber lab g.nv p) j < g.nv ∧ lab (nth (fiber lab g.nv p) j) = p :=
      fun j hj => mem_fiber.mp (nth_mem hj)
    have hsn : ∀ j, j < N p → ∀ q ∈ subNbrs g lab (nth (fiber lab g.nv p) j), q.1 < N p := by
      intro j hj q hq
      obtain ⟨hv1, hv2⟩ := hmem j hj
      unfold subNbrs at hq
      obtain ⟨q', hq', rfl⟩ := List.mem_map.mp hq
      obtain ⟨hq1, hq2⟩ := List.mem_filter.mp hq'
      have := subOf_lt (lab := lab) (Graph.nbrs_lt hg hv1 hq1)
      rwa [of_decide_eq_true hq2, hv2] at this
    have hvw : ∀ j, j < N p → sg.vw j = g.vw (nth (fiber lab g.nv p) j) := by
      intro j hj
      rw [h3 j hj]
      cases hu : g.unitVtx with
      | true => simp [Graph.vw, hu]
      | false =>
        show (W p j).getD 0 = _
        simp only [W, hu, Bool.false_eq_true, if_false]
        rw [wgt_fiber hj]; rfl
    have hnel : ((List.range (N p)).map (storedAt g.unitEdge (L p))).flatten.length ≤ g.ne := by
      have := take_storedAt (unitE := g.unitEdge) (L := L p) (f := D p) (n := N p) (fun _ _ => rfl) le_rfl
      rw [List.take_of_length_le (by simp)] at this
      rw [this]; exact subNbrs_total hg lab p
    have hwf : sg.WF := by
      refine h2.wf (by simpa using hN p) (by omega) ?_ (fun hu => ?_) h9 (fun hu => ?_) h12 ?_ h6
      · intro b hb q hq
        obtain ⟨j, hj, rfl⟩ := List.mem_map.mp hb
        have hj := List.mem_range.mp hj
        have e := hblk j hj
        rw [nth_map (by simpa using hj), nth_range hj] at e
        rw [e] at hq
        simpa using hsn j hj q hq
      · rw [hnv]
        cases huv : g.unitVtx with
        | false => exact h8 huv
        | true =>
          exfalso
          have := h4.mpr fun v hv => by rw [h3 v hv, huv]; rfl
          rw [hu] at this; cases this
      · cases hue : g.unitEdge with
        | false => exact h11 hue
        | true => have := (h10 hue).2; rw [hu] at this; cases this
      · rw [h5]; unfold Graph.sumVtx; rw [hnv]
    refine { superMap := rfl, induced := ⟨hnv, ?_, ?_, ?_, ?_⟩, wf := ?_, weights := fun hu => ?_, noWeights := h7 }
    · intro i hi; exact hvw i (by simpa [hnv] using hi)
    · intro i hi q hq
      simp only [hnv] at hi hq ⊢
      rw [hnb i hi] at hq
      exact hsn i hi q hq
    · intro i hi
      simp only [hnv] at hi
      show (sg.nbrs i).map _ = _
      rw [hnb i hi]
      obtain ⟨hv1, hv2⟩ := hmem i hi
      unfold subNbrs
      rw [List.map_map, hv2]
      conv_rhs => rw [← List.map_id (List.filter _ _)]
      refine List.map_congr_left fun q hq => ?_
      obtain ⟨hq1, hq2⟩ := List.mem_filter.mp hq
      have := nth_fiber_subOf (lab := lab) (Graph.nbrs_lt hg hv1 hq1)
      rw [of_decide_eq_true hq2] at this
      show (nth (fiber lab g.nv p) (subOf lab q.1), q.2) = q
      rw [this]
    · exact hwf
    · exact hwf
    · show sg.vwgt.length = sg.nv
      rw [hnv]; exact h8 hu
  have hall := sat_iff.mp (Post_mapM (B := False) (l := List.range counts.length)
    (f := fun pid => (do
        let b ← rd bs4 pid
        let sm ← rd m.2.1 pid
        let sg ← b.finish
        let sm ← sm.freeze
        .ok { superMap := sm, graph := sg } : Res Subgraph))
    (fun p s => SubOK g lab labels p s) (fun p hp => by
      have hp : p < k := by simpa [hc2] using hp
      obtain ⟨s, h1, h2⟩ := hfin p hp
      rw [h1]; exact h2))
  obtain ⟨subs, hs1, hs2, hs3⟩ := hall
  refine ⟨counts, m, bs1, bs2, bs3, bs4, subs, hc1, hc2, hc3, hm1, hm4, hb1e, hb1l, hb1, hb2e, hb2l, hb2, hb3e, hb3l, hb3,
    hb4e, hb4l, hb4, hs1, by simpa [hc2] using hs2, fun p hp => ?_⟩
  have hp' : p < subs.length := by rw [hs2]; simpa [hc2] using hp
  have := hs3 p (by simpa [hc2] using hp) hp'
  rw [List.getElem_range] at this
  rwa [nth_eq_getElem hp']

theorem Stages.extract {g : Graph} {part : Partitioning} {k : Nat} {labels : Option (List Nat)} {counts : List Nat}
    {m : List Nat × List Mem × Mem} {bs1 bs2 bs3 bs4 : List TwoStep} {subs : List Subgraph}
    (h : Stages g part k labels counts m bs1 bs2 bs3 bs4 subs) : extractPartitions g part labels = ok subs := by
  unfold extractPartitions
  rw [h.cnt, ok_bind, h.maps, ok_bind]
  show (maybeFillWeights g part m.2.2 (counts.map (TwoStep.configured g)) >>= _) = _
  rw [h.e1, ok_bind, h.e2, ok_bind, h.e3, ok_bind, h.e4, ok_bind]
  exact h.fin

theorem extract_spec {g : Graph} {part : Partitioning} {k : Nat} {labels : Option (List Nat)}
    (hg : g.WF) (ha : part.asg.length = g.nv) (hk : part.pw.length = k)
    (hl : ∀ v, v < g.nv → part.lab v < k) (hlab : LabelsOK g.nv labels) :
    ∃ subs, extractPartitions g part labels = ok subs ∧ subs.length = k ∧
      ∀ p, p < k → SubOK g part.lab labels p (nth subs p) := by
  obtain ⟨_, _, _, _, _, _, subs, h⟩ := extract_stages hg ha hk hl hlab
  exact ⟨subs, h.extract, h.subsLen, h.subsOK⟩

/-! ### Consequences -/

section
variable {g s : Graph} {lab : Nat → Nat} {p : Nat}

theorem IsInduced.wsum (h : IsInduced g lab p s) (_hg : g.WF) {i : Nat} (hi : i < s.nv) (c : Nat → Bool) :
    s.wsum i (fun j => c (nth (vertsOf g lab p) j)) =
      g.wsum (nth (vertsOf g lab p) i) (fun u => decide (lab u = p) && c u) := by
  unfold Graph.wsum
  have h1 := congrArg (fun l => (l.map fun q : Nat × Nat => if c q.1 then q.2 else 0).sum) (h.nbrs i hi)
  simp only [List.map_map, Function.comp_def] at h1
  rw [h1]
  clear h1
  induction g.nbrs (nth (vertsOf g lab p) i) with
  | nil => rfl
  | cons q l ih =>
    rw [List.map_cons, List.sum_cons, ← ih]
    by_cases hq : lab q.1 = p
    · rw [List.filter_cons_of_pos (by simpa using hq), List.map_cons, List.sum_cons]; simp [hq]
    · rw [List.filter_cons_of_neg (by simpa using hq)]; simp [hq]

theorem IsInduced.wt (h : IsInduced g lab p s) (hg : g.WF) {i j : Nat} (hi : i < s.nv) (hj : j < s.nv) :
    s.wt i j = g.wt (nth (vertsOf g lab p) i) (nth (vertsOf g lab p) j) := by
  have hnd : (vertsOf g lab p).Nodup := fiber_nodup lab g.nv p
  have hjm := mem_fiber.mp (nth_mem (l := vertsOf g lab p) (i := j) (by rw [← h.nv]; exact hj))
  have h1 := h.wsum hg hi (fun u => u == nth (vertsOf g lab p) j)
  have e1 : s.wsum i (fun x => nth (vertsOf g lab p) x == nth (vertsOf g lab p) j) = s.wt i j := by
    unfold Graph.wt Graph.wsum
    congr 1
    refine List.map_congr_left fun q hq => ?_
    have hq1 := h.dest i hi q hq
    have : (nth (vertsOf g lab p) q.1 == nth (vertsOf g lab p) j) = (q.1 == j) := by
      rw [Bool.eq_iff_iff]
      simp only [beq_iff_eq]
      rw [nth_eq_getElem (show q.1 < (vertsOf g lab p).length by rw [← h.nv]; exact hq1),
        nth_eq_getElem (show j < (vertsOf g lab p).length by rw [← h.nv]; exact hj)]
      exact List.Nodup.getElem_inj_iff hnd
    simp only [this]
  rw [e1] at h1
  rw [h1]
  unfold Graph.wt
  congr 1
  funext u
  by_cases hu : u = nth (vertsOf g lab p) j
  · subst hu; simp [hjm.2]
  · simp [hu]

theorem IsInduced.sumVtx (h : IsInduced g lab p s) : s.sumVtx = partWeight g lab p := by
  unfold Graph.sumVtx partWeight
  rw [← sum_over_fiber lab g.nv p g.vw, sum_eq_sum_nth, List.length_map, h.nv]
  refine sum_congr rfl fun i hi => ?_
  have hi := mem_range.mp hi
  rw [nth_map hi, h.vw i (by rw [h.nv]; exact hi)]
  rfl

theorem IsInduced.sumEdge_le (h : IsInduced g lab p s) (hg : g.WF) : s.sumEdge ≤ g.sumEdge := by
  unfold Graph.sumEdge
  have h1 : ∀ i ∈ range s.nv, s.wsum i (fun _ => true) ≤
      nth ((vertsOf g lab p).map fun v => g.wsum v fun _ => true) i := by
    intro i hi
    have hi := mem_range.mp hi
    have := h.wsum hg hi (fun _ => true)
    rw [this, nth_map (by rw [← h.nv]; exact hi)]
    unfold Graph.wsum
    refine list_sum_map_le _ _ _ fun q _ => ?_
    by_cases hq : lab q.1 = p <;> simp [hq]
  refine (sum_le_sum h1).trans ?_
  have h2 := sum_eq_sum_nth ((vertsOf g lab p).map fun v => g.wsum v fun _ => true)
  rw [List.length_map] at h2
  rw [h.nv, ← h2]
  show ((fiber lab g.nv p).map _).sum ≤ _
  rw [sum_over_fiber]
  refine sum_le_sum fun v _ => ?_
  split <;> simp

theorem IsInduced.noLoop (h : IsInduced g lab p s) (hn : g.NoLoop) : s.NoLoop := by
  intro i hi q hq he
  have hm := mem_fiber.mp (nth_mem (l := vertsOf g lab p) (i := i) (by rw [← h.nv]; exact hi))
  have : (nth (vertsOf g lab p) q.1, q.2) ∈ (s.nbrs i).map (fun q => (nth (vertsOf g lab p) q.1, q.2)) :=
    List.mem_map.mpr ⟨q, hq, rfl⟩
  rw [h.nbrs i hi] at this
  exact hn _ hm.1 _ (List.mem_filter.mp this).1 (by rw [he])

theorem IsInduced.symm (h : IsInduced g lab p s) (hg : g.WF) (hs : g.Symm) : s.Symm := by
  intro i j hi hj
  have hm : ∀ i, i < s.nv → nth (vertsOf g lab p) i < g.nv := fun i hi =>
    (mem_fiber.mp (nth_mem (l := vertsOf g lab p) (i := i) (by rw [← h.nv]; exact hi))).1
  rw [h.wt hg hi hj, h.wt hg hj hi, hs _ _ (hm i hi) (hm j hj)]

theorem IsInduced.symmAdj (h : IsInduced g lab p s) (hs : g.SymmAdj) : s.SymmAdj := by
  have hm : ∀ i, i < s.nv → nth (vertsOf g lab p) i < g.nv ∧ lab (nth (vertsOf g lab p) i) = p := fun i hi =>
    mem_fiber.mp (nth_mem (l := vertsOf g lab p) (i := i) (by rw [← h.nv]; exact hi))
  have key : ∀ i j, i < s.nv → j < s.nv → (s.Adj i j ↔ g.Adj (nth (vertsOf g lab p) i) (nth (vertsOf g lab p) j)) := by
    intro i j hi hj
    constructor
    · rintro ⟨w, hw⟩
      have : (nth (vertsOf g lab p) j, w) ∈ (s.nbrs i).map (fun q => (nth (vertsOf g lab p) q.1, q.2)) :=
        List.mem_map.mpr ⟨_, hw, rfl⟩
      rw [h.nbrs i hi] at this
      exact ⟨w, (List.mem_filter.mp this).1⟩
    · rintro ⟨w, hw⟩
      have : (nth (vertsOf g lab p) j, w) ∈ (g.nbrs (nth (vertsOf g lab p) i)).filter fun q => decide (lab q.1 = p) :=
        List.mem_filter.mpr ⟨hw, by simp [(hm j hj).2]⟩
      rw [← h.nbrs i hi] at this
      obtain ⟨q, hq, he⟩ := List.mem_map.mp this
      simp only [Prod.mk.injEq] at he
      have hq1 := h.dest i hi q hq
      have : q.1 = j := by
        have e := he.1
        rw [nth_eq_getElem (show q.1 < (vertsOf g lab p).length by rw [← h.nv]; exact hq1),
          nth_eq_getElem (show j < (vertsOf g lab p).length by rw [← h.nv]; exact hj)] at e
        exact (List.Nodup.getElem_inj_iff (fiber_nodup lab g.nv p)).mp e
      exact ⟨q.2, by rw [← this]; exact hq⟩
  intro i j hi hj hA
  rw [key j i hj hi]
  exact hs _ _ (hm i hi).1 (hm j hj).1 ((key i j hi hj).mp hA)

theorem IsInduced.small (h : IsInduced g lab p s) (hg : g.WF) (hs : g.Small) : s.Small :=
  ⟨by rw [h.sumVtx]; exact lt_of_le_of_lt (partWeight_le lab p) hs.vtx,
   lt_of_le_of_lt (h.sumEdge_le hg) hs.edge⟩

end

end Poros
