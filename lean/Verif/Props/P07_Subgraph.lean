import Verif.Proofs.Extract
import Verif.Props.P12_Aggregation
import Verif.Examples
/-
C07-C11: the two-step builder, subgraph extraction and mapping labels back.
-/
namespace Poros
open Finset Res

attribute [-simp] List.length_flatten List.map_flatten

/-- **C07.** For all legal vertex-phase histories `H` and all sequences `L` of edge insertions that insert at every
vertex exactly the declared number of edges, building succeeds and the graph lists for each vertex exactly the
inserted pairs in insertion order (all with weight one if the builder was told that edge weights are one), and the
declared vertex weights. It is a valid graph if the inserted destinations are vertices. -/
theorem C07_two_step_builder {n : Nat} (hn : n < NULL32) {unitV unitE : Bool} {H : List VOp} {L : List Ins}
    (hH : VHistory n unitV (fun _ => 0) H)
    (hw : unitV = false → ∀ v, v < n → declaredWgt H v ≠ none)
    (hL : ∀ i ∈ L, i.v < n) (hd : ∀ v, v < n → (insertedAt L v).length = declaredDeg H v)
    (hs : ∑ v ∈ range n, declaredDeg H v < NULL32) :
    ∃ g, buildTwoStep n unitV unitE H L = ok g ∧ g.nv = n ∧ g.ne = L.length ∧
      (∀ v, v < n → g.nbrs v = (insertedAt L v).map fun q => (q.1, if unitE then 1 else q.2)) ∧
      (∀ v, v < n → some (g.vw v) = if unitV then some 1 else declaredWgt H v) ∧
      ((∀ i ∈ L, i.dest < n) → g.WF) := by
  obtain ⟨b1, h1, h2⟩ := (VInv.begin hn unitV unitE).runs hH
  obtain ⟨b2, h3, h4⟩ := h2.beginEdge (show startOf (declaredDeg H) n < M32 by
    have : startOf (declaredDeg H) n < NULL32 := hs
    omega)
  obtain ⟨b3, h5, h6⟩ := h4.addEdges (L := L) (show startOf (declaredDeg H) n < M32 by
    have : startOf (declaredDeg H) n < NULL32 := hs
    omega) hL (fun v hv => le_of_eq (hd v hv))
  obtain ⟨g, g1, g2, g3, g4, g5, g6, g7, g8, g9, g10, g11, g12⟩ := h6.finish hn hd hw
  have hnv : g.nv = n := by rw [g2.nv]; simp
  have hfl : ((List.range n).map (storedAt unitE L)).flatten.length = startOf (declaredDeg H) n := by
    have := take_storedAt (unitE := unitE) (L := L) (f := declaredDeg H) (n := n) hd le_rfl
    rwa [List.take_of_length_le (by simp)] at this
  refine ⟨g, ?_, hnv, ?_, ?_, ?_, ?_⟩
  · unfold buildTwoStep
    simp only
    rw [h1, ok_bind, h3, ok_bind, h5, ok_bind, g1]
  · rw [g2.ne, hfl]
    unfold startOf
    rw [sum_congr rfl fun v hv => (hd v (mem_range.mp hv)).symm]
    clear hd hs h1 h2 h3 h4 h5 h6 g1 g2 g3 g4 g5 g6 g7 g8 g9 g10 g11 g12 hfl hnv
    induction L with
    | nil => simp [insertedAt]
    | cons i L ih =>
      have e : ∀ v, (insertedAt (i :: L) v).length = (if i.v = v then 1 else 0) + (insertedAt L v).length := by
        intro v
        rw [show insertedAt (i :: L) v = insertedAt [i] v ++ insertedAt L v from insertedAt_append' [i] L v,
          List.length_append]
        congr 1
        unfold insertedAt
        by_cases h : i.v = v <;> simp [h]
      simp only [e, sum_add_distrib]
      rw [ih fun x hx => hL x (by simp [hx]), sum_ite_eq, if_pos (mem_range.mpr (hL i (by simp)))]
      simp; omega
  · intro v hv
    rw [g2.nbrs (by simpa using hv), nth_map (by simpa using hv), nth_range hv]
    rfl
  · intro v hv
    rw [g3 v hv]
    cases hu : unitV with
    | true => simp
    | false =>
      simp only [Bool.false_eq_true, if_false]
      have := hw hu v hv
      unfold declaredWgt at this ⊢
      cases hx : H.foldl VOp.wgt (fun _ => none) v with
      | none => exact absurd hx this
      | some x => rfl
  · intro hdest
    refine g2.wf (by simpa using hn) (by rw [hfl]; exact hs) ?_ (fun hu => ?_) g9 (fun hu => ?_) g12 ?_ g6
    · intro b hb q hq
      obtain ⟨j, hj, rfl⟩ := List.mem_map.mp hb
      unfold storedAt at hq
      obtain ⟨q', hq', rfl⟩ := List.mem_map.mp hq
      unfold insertedAt at hq'
      obtain ⟨i, hi, rfl⟩ := List.mem_map.mp hq'
      simpa using hdest i (List.mem_filter.mp hi).1
    · rw [hnv]
      cases huv : unitV with
      | false => exact g8 huv
      | true =>
        exfalso
        have := g4.mpr fun v hv => by rw [g3 v hv, huv]; rfl
        rw [hu] at this; cases this
    · cases hue : unitE with
      | false => exact g11 hue
      | true => have := (g10 hue).2; rw [hu] at this; cases this
    · rw [g5]; unfold Graph.sumVtx; rw [hnv]

/-- The hypotheses are met by a history that overwrites a degree and insertions in an interleaved order. -/
example :
    let H := [VOp.setDegree 0 5, .incDegree 1, .setWeight 1 7, .setDegree 0 2, .setWeight 2 4, .incDegree 2,
      .setWeight 0 3]
    let L := [Ins.mk 2 0 9, ⟨0, 1, 8⟩, ⟨1, 0, 8⟩, ⟨0, 2, 9⟩]
    VHistory 3 false (fun _ => 0) H ∧ (∀ v, v < 3 → declaredWgt H v ≠ none) ∧ (∀ i ∈ L, i.v < 3) ∧
      (∀ v, v < 3 → (insertedAt L v).length = declaredDeg H v) ∧
      buildTwoStep 3 false false H L = Graph.make [0, 2, 3, 4] [1, 2, 0, 0] [3, 7, 4] [8, 9, 8, 9] := by
  refine ⟨?_, by decide +kernel, by decide +kernel, by decide +kernel, by decide +kernel⟩
  simp [VHistory, VOp.Legal, VOp.deg]

/-- A complete partitioning of `g` into `k` parts. -/
structure CompletePart (g : Graph) (k : Nat) (part : Partitioning) : Prop where
  asg_len : part.asg.length = g.nv
  pw_len : part.pw.length = k
  lt : ∀ v, v < g.nv → part.lab v < k

/-- **C08.** Extraction succeeds on every valid graph and complete partitioning, for any number of parts, and the
`p`-th result is exactly the subgraph induced by part `p`; its super-map lists the vertices of the part in
increasing order (translated through `labels` if given). -/
theorem C08_extraction_is_induced {g : Graph} {part : Partitioning} {k : Nat} {labels : Option (List Nat)}
    (hg : g.WF) (hp : CompletePart g k part) (hlab : LabelsOK g.nv labels) :
    ∃ subs, extractPartitions g part labels = ok subs ∧ subs.length = k ∧
      ∀ p, p < k → (nth subs p).superMap = (vertsOf g part.lab p).map (superOf labels) ∧
        IsInduced g part.lab p (nth subs p).graph := by
  obtain ⟨subs, h1, h2, h3⟩ := extract_spec hg hp.asg_len hp.pw_len hp.lt hlab
  exact ⟨subs, h1, h2, fun p hpk => ⟨(h3 p hpk).superMap, (h3 p hpk).induced⟩⟩

/-- **C08, weights and edges in matrix form.** The weight between two vertices of the `p`-th subgraph is the weight
between the corresponding vertices of the graph, and its total vertex weight is the weight of the part. -/
theorem C08_extraction_weights {g : Graph} {part : Partitioning} {k : Nat} {labels : Option (List Nat)}
    (hg : g.WF) (hp : CompletePart g k part) (hlab : LabelsOK g.nv labels) :
    ∃ subs, extractPartitions g part labels = ok subs ∧ ∀ p, p < k →
      (∀ i j, i < (nth subs p).graph.nv → j < (nth subs p).graph.nv → (nth subs p).graph.wt i j =
        g.wt (nth (vertsOf g part.lab p) i) (nth (vertsOf g part.lab p) j)) ∧
      (nth subs p).graph.sumVtx = partWeight g part.lab p := by
  obtain ⟨subs, h1, h2, h3⟩ := extract_spec hg hp.asg_len hp.pw_len hp.lt hlab
  exact ⟨subs, h1, fun p hpk => ⟨fun i j hi hj => (h3 p hpk).induced.wt hg hi hj, (h3 p hpk).induced.sumVtx⟩⟩

/-- **C09.** Without labels, every vertex of the graph occurs in the super-maps exactly once, in that of its own
part. -/
theorem C09_extraction_partitions_vertices {g : Graph} {part : Partitioning} {k : Nat}
    (hg : g.WF) (hp : CompletePart g k part) :
    ∃ subs, extractPartitions g part none = ok subs ∧ subs.length = k ∧
      (subs.map fun s => s.superMap).flatten.Perm (List.range g.nv) ∧
      ∀ v p, v < g.nv → p < k → (v ∈ (nth subs p).superMap ↔ part.lab v = p) := by
  obtain ⟨subs, h1, h2, h3⟩ := extract_spec (labels := none) hg hp.asg_len hp.pw_len hp.lt trivial
  have hsm : ∀ p, p < k → (nth subs p).superMap = fiber part.lab g.nv p := by
    intro p hpk
    rw [(h3 p hpk).superMap]
    exact List.map_id _
  refine ⟨subs, h1, h2, ?_, ?_⟩
  · have e : subs.map (fun s => s.superMap) = (List.range k).map (fiber part.lab g.nv) := by
      refine list_ext_nth (by simp [h2]) fun i hi => ?_
      have hi : i < k := by simpa [h2] using hi
      rw [nth_map (by omega), nth_map (by simpa using hi), nth_range hi, hsm i hi]
    rw [e]
    exact fibers_perm hp.lt
  · intro v p hv hpk
    rw [hsm p hpk, mem_fiber]
    exact ⟨fun h => h.2, fun h => ⟨hv, h⟩⟩

/-- **C10.** Extracted subgraphs of a symmetric graph are valid and symmetric (weights and adjacency), have no self
loops if the graph has none, and stay within the 32-bit limits if the graph does. -/
theorem C10_extraction_preserves {g : Graph} {part : Partitioning} {k : Nat} {labels : Option (List Nat)}
    (hg : g.WF) (hp : CompletePart g k part) (hlab : LabelsOK g.nv labels) :
    ∃ subs, extractPartitions g part labels = ok subs ∧ ∀ p, p < k →
      (nth subs p).graph.WF ∧ (g.Symm → (nth subs p).graph.Symm) ∧ (g.SymmAdj → (nth subs p).graph.SymmAdj) ∧
      (g.NoLoop → (nth subs p).graph.NoLoop) ∧ (g.Small → (nth subs p).graph.Small) := by
  obtain ⟨subs, h1, h2, h3⟩ := extract_spec hg hp.asg_len hp.pw_len hp.lt hlab
  exact ⟨subs, h1, fun p hpk => ⟨(h3 p hpk).wf, (h3 p hpk).induced.symm hg, (h3 p hpk).induced.symmAdj,
    (h3 p hpk).induced.noLoop, (h3 p hpk).induced.small hg⟩⟩

/-- The hypotheses are met, and one result is as expected: the first part of `tri2` without its bridge. -/
example : CompletePart Ex.tri2 3 { cut := 0, pw := [0, 0, 0], asg := [2, 0, 2, 2, 0, 0] } ∧
    LabelsOK Ex.tri2.nv (some [9, 8, 7, 6, 5, 4]) ∧
    extractPartitions Ex.tri2 { cut := 0, pw := [0, 0, 0], asg := [2, 0, 2, 2, 0, 0] }
        (some [9, 8, 7, 6, 5, 4]) = ok
      [⟨[8, 5, 4], ⟨false, false, 3, 2, 4, 4, [0, 0, 1, 2], [2, 1], [2, 1, 1], [2, 2]⟩⟩,
       ⟨[], ⟨true, true, 0, 0, 0, 0, [0], [], [], []⟩⟩,
       ⟨[9, 7, 6], ⟨true, false, 3, 4, 5, 4, [0, 1, 3, 4], [1, 0, 2, 1], [1, 1, 3], [1, 1, 1, 1]⟩⟩] :=
  ⟨by constructor <;> decide +kernel, by unfold LabelsOK; decide +kernel, by decide +kernel⟩

theorem mapLoop_spec {n : Nat} {asg sm : List Nat} {labels : Mem} {offset : Nat}
    (ha : asg.length = n) (hs : sm.length = n) (hlt : ∀ v, v < n → nth sm v < labels.length)
    (hnd : ∀ u v, u < n → v < n → nth sm u = nth sm v → u = v) :
    ∃ out, (List.range n).foldlM (fun labels v => do
        let a ← rd asg v
        let sup ← rd sm v
        Mem.wr labels sup (uadd a offset)) labels = ok out ∧ out.length = labels.length ∧
      (∀ v, v < n → nth out (nth sm v) = some ((nth asg v + offset) % 2 ^ 32)) ∧
      (∀ x, (∀ v, v < n → nth sm v ≠ x) → nth out x = nth labels x) := by
  refine sat_iff.mp (Post_foldlM_range (P := fun i out => out.length = labels.length ∧
    (∀ v, v < i → nth out (nth sm v) = some ((nth asg v + offset) % 2 ^ 32)) ∧
    (∀ x, (∀ v, v < i → nth sm v ≠ x) → nth out x = nth labels x)) ⟨rfl, by omega, fun _ _ => rfl⟩ ?_)
  intro i out hi ⟨h1, h2, h3⟩
  rw [rd_of_lt (by omega), ok_bind, rd_of_lt (by omega), ok_bind, Mem.wr_of_lt (by rw [h1]; exact hlt i hi)]
  refine ⟨by simpa using h1, ?_, ?_⟩
  · intro v hv
    rw [nth_set (by rw [h1]; exact hlt i hi)]
    by_cases hvi : v = i
    · subst hvi; rw [if_pos rfl]; rfl
    · rw [if_neg (fun h => hvi (hnd v i (by omega) hi h)), h2 v (by omega)]
  · intro x hx
    rw [nth_set_ne (hx i (by omega)), h3 x fun v hv => hx v (by omega)]

/-- **C11.** Mapping a partitioning of a subgraph back into a label array writes `label + offset` (32 bit) at the
super-vertex of every vertex and leaves every other entry alone. -/
theorem C11_subgraph_map {s : Subgraph} {p : Partitioning} {labels : Mem} {offset : Nat}
    (ha : p.asg.length = s.graph.nv) (hs : s.superMap.length = s.graph.nv)
    (hlt : ∀ v, v < s.graph.nv → nth s.superMap v < labels.length)
    (hnd : ∀ u v, u < s.graph.nv → v < s.graph.nv → nth s.superMap u = nth s.superMap v → u = v) :
    ∃ out, s.mapPartitioning p labels offset = ok out ∧ out.length = labels.length ∧
      (∀ v, v < s.graph.nv → nth out (nth s.superMap v) = some ((p.lab v + offset) % 2 ^ 32)) ∧
      (∀ x, (∀ v, v < s.graph.nv → nth s.superMap v ≠ x) → nth out x = nth labels x) :=
  mapLoop_spec ha hs hlt hnd

/-- **C11, whole graph.** The wrapper around a whole graph uses the identity map. -/
theorem C11_wrapper_map {g : Graph} {p : Partitioning} {labels : Mem} {offset : Nat}
    (ha : p.asg.length = g.nv) (hlt : g.nv ≤ labels.length) :
    ∃ out, wrapperMapPartitioning g p labels offset = ok out ∧ out.length = labels.length ∧
      (∀ v, v < g.nv → nth out v = some ((p.lab v + offset) % 2 ^ 32)) ∧
      (∀ x, g.nv ≤ x → nth out x = nth labels x) := by
  obtain ⟨out, h1, h2, h3, h4⟩ := mapLoop_spec (n := g.nv) (asg := p.asg) (sm := List.range g.nv)
    (labels := labels) (offset := offset) ha (by simp) (fun v hv => by rw [nth_range hv]; omega)
    (fun u v hu hv h => by rwa [nth_range hu, nth_range hv] at h)
  refine ⟨out, ?_, h2, fun v hv => ?_, fun x hx => h4 x fun v hv => by rw [nth_range hv]; omega⟩
  · rw [← h1]
    unfold wrapperMapPartitioning
    have hf : ∀ (l : List Nat) (s : Mem), (∀ v ∈ l, v < g.nv) →
        l.foldlM (fun labels v => do
          let a ← rd p.asg v
          Mem.wr labels v (uadd a offset)) s =
        l.foldlM (fun labels v => do
          let a ← rd p.asg v
          let sup ← rd (List.range g.nv) v
          Mem.wr labels sup (uadd a offset)) s := by
      intro l
      induction l with
      | nil => intros; rfl
      | cons v l ih =>
        intro s hv
        rw [List.foldlM_cons, List.foldlM_cons]
        have hvv := hv v (by simp)
        simp only [rd_of_lt (show v < p.asg.length by omega), ok_bind,
          rd_of_lt (show v < (List.range g.nv).length by simpa using hvv), nth_range hvv]
        congr 1
        funext s'
        exact ih s' fun u hu => hv u (by simp [hu])
    exact hf _ _ fun v hv => List.mem_range.mp hv
  · have := h3 v hv
    rwa [nth_range hv] at this

/-- **C11, identity.** `Subgraph(graph)` has the identity super-map, so extraction of a one-part partitioning and the
wrapper agree. -/
theorem C11_ofGraph {g : Graph} : (Subgraph.ofGraph g).superMap.length = g.nv ∧
    ∀ v, v < g.nv → nth (Subgraph.ofGraph g).superMap v = v :=
  ⟨by simp [Subgraph.ofGraph], fun v hv => nth_range hv⟩

/-- Concrete case: mapping the labels of a three-vertex subgraph with offset 5. -/
example : (Subgraph.mk [4, 0, 2] Ex.triU).mapPartitioning { cut := 0, pw := [2, 1], asg := [0, 1, 0] }
    [none, some 9, none, none, some 1] 5 = ok [some 6, some 9, some 5, none, some 5] := by decide +kernel

end Poros
