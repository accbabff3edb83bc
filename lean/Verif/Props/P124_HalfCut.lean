import Verif.Props.P122_LocalCall
import Verif.Props.P123_Connected
/-
C124: where every vertex would fit on the other side, a refined bisection keeps at least half of the edge weight of each vertex
inside its part, and so cuts at most half of the edge weight of the graph.
-/
namespace Poros
open Finset Res Concrete

variable {pq : PQImpl} {set : SetImpl} {rng : RngImpl}

/-- The weight of the edges of `v` in the caller's graph to vertices with the label of `v`. -/
def Input.inside (i : Input) (lab : Nat → Nat) (v : Nat) : Nat :=
  ∑ u ∈ range i.numVertices, if lab u = lab v then i.wt v u else 0

/-- The weight of the edges of `v` in the caller's graph to vertices with another label. -/
def Input.outside (i : Input) (lab : Nat → Nat) (v : Nat) : Nat :=
  ∑ u ∈ range i.numVertices, if lab u ≠ lab v then i.wt v u else 0

/-- The weight of the undirected edges of the caller's graph. -/
def Input.edgeTotal (i : Input) : Nat := ∑ v ∈ range i.numVertices, ∑ u ∈ range v, i.wt v u

/-- The weight of the undirected edges of a graph. -/
def edgeTotal (g : Graph) : Nat := ∑ v ∈ range g.nv, ∑ u ∈ range v, g.wt v u

theorem wt_self {g : Graph} (hl : g.NoLoop) {v : Nat} (hv : v < g.nv) : g.wt v v = 0 := by
  unfold Graph.wt Graph.wsum
  rw [List.sum_eq_zero]
  intro x hx
  obtain ⟨q, hq, rfl⟩ := List.mem_map.mp hx
  rw [if_neg]
  simpa using hl v hv q hq

/-- Labelling every vertex differently cuts every edge. -/
theorem cutWeight_all (g : Graph) : cutWeight g (fun v => v) = edgeTotal g := by
  unfold cutWeight edgeTotal
  refine sum_congr rfl fun v _ => sum_congr rfl fun u hu => if_pos ?_
  have := mem_range.mp hu
  show u ≠ v
  omega

theorem sum_in_out {g : Graph} (hs : g.Symm) (hl : g.NoLoop) (lab : Nat → Nat) :
    ∑ v ∈ range g.nv, (externalWeight g lab v + internalWeight g lab v) = 2 * edgeTotal g := by
  rw [← cutWeight_all, ← sum_external hs]
  refine sum_congr rfl fun v hv => ?_
  unfold externalWeight internalWeight
  rw [← sum_add_distrib]
  refine sum_congr rfl fun u _ => ?_
  by_cases e : u = v
  · subst e; simp [wt_self hl (mem_range.mp hv)]
  · by_cases h : lab u = lab v <;> simp [h, e]

/-- If no single move lowers the cut, every vertex has at least half of its edge weight inside its part, and the cut is at most
half of the weight of all edges. -/
theorem half_of_local {g : Graph} (hs : g.Symm) (hl : g.NoLoop) {lab : Nat → Nat} (h2 : ∀ u, u < g.nv → lab u < 2)
    (h : ∀ v, v < g.nv → cutWeight g lab ≤ cutWeight g (flip lab v)) :
    (∀ v, v < g.nv → externalWeight g lab v ≤ internalWeight g lab v) ∧ 2 * cutWeight g lab ≤ edgeTotal g := by
  have h1 : ∀ v, v < g.nv → externalWeight g lab v ≤ internalWeight g lab v := by
    intro v hv
    have := cut_flip hs hl lab (flip lab v) hv (fun u _ hne => flip_ne lab hne) h2 (flip_self lab v)
    have := h v hv
    omega
  refine ⟨h1, ?_⟩
  have e1 := sum_in_out hs hl lab
  have e2 := sum_external hs lab
  rw [sum_add_distrib] at e1
  have e3 : ∑ v ∈ range g.nv, externalWeight g lab v ≤ ∑ v ∈ range g.nv, internalWeight g lab v :=
    sum_le_sum fun v hv => h1 v (mem_range.mp hv)
  omega

/-- **C124.** Refining a bisection within the limits of a target, if it lowers the cut by less than the number of its passes and
ends where every vertex would fit on the other side, leaves each vertex with at least half of its edge weight inside its part,
and the cut is at most half of the weight of all edges. -/
theorem C124_refined {E : Env} {g : Graph} (hg : g.Good) {t : Target E.fp} (ht : t.Two)
    (hcons : Consistent t g.totVtx) (maxIters : Nat) {maxMoves : Nat} (hm : 0 < maxMoves) {p : Partitioning} {c : Conn E.set}
    (hp : IsExact g 2 p) (hc : ConnExact g p.lab c) (hbal : Balanced g t p.lab) {r : Partitioning × Conn E.set}
    (hr : fmRefine g t maxIters maxMoves p c = ok r) (hcut : p.cut < r.1.cut + maxIters)
    (hroom : ∀ v, v < g.nv → Balanced g t (flip r.1.lab v)) :
    (∀ v, v < g.nv → externalWeight g r.1.lab v ≤ internalWeight g r.1.lab v) ∧ 2 * r.1.cut ≤ edgeTotal g := by
  have hloc := C121_with_room hg ht hcons maxIters hm hp hc hbal hr hcut hroom
  have hex : IsExact g 2 r.1 := ((C26_fm_exact hg ht maxIters maxMoves hp hc).1 r hr).1
  rw [hex.cut_eq]
  exact half_of_local hg.symm hg.noLoop hex.complete hloc

theorem Input.Describes.inside {i : Input} (hv : i.Valid) {g : Graph} (h : i.Describes g) {lab lab' : Nat → Nat}
    (hl : ∀ v, v < i.numVertices → lab' v = lab v) {v : Nat} (hv' : v < i.numVertices) :
    i.inside lab' v = internalWeight g lab v := by
  unfold Input.inside internalWeight
  rw [h.nv]
  refine sum_congr rfl fun u hu => ?_
  rw [hl u (mem_range.mp hu), hl v hv', h.wt_eq hv hv']

theorem Input.Describes.outside {i : Input} (hv : i.Valid) {g : Graph} (h : i.Describes g) {lab lab' : Nat → Nat}
    (hl : ∀ v, v < i.numVertices → lab' v = lab v) {v : Nat} (hv' : v < i.numVertices) :
    i.outside lab' v = externalWeight g lab v := by
  unfold Input.outside externalWeight
  rw [h.nv]
  refine sum_congr rfl fun u hu => ?_
  rw [hl u (mem_range.mp hu), hl v hv', h.wt_eq hv hv']

theorem Input.Describes.edgeTotal {i : Input} (hv : i.Valid) {g : Graph} (h : i.Describes g) :
    i.edgeTotal = Poros.edgeTotal g := by
  unfold Input.edgeTotal Poros.edgeTotal
  rw [h.nv]
  exact sum_congr rfl fun v hv' => sum_congr rfl fun u _ => h.wt_eq hv (mem_range.mp hv')

/-- Moving a vertex of a bisection to the other side, in terms of the weights of the sides. -/
theorem Input.partWeight_flip (i : Input) {lab : Nat → Nat} {v : Nat} (hv : v < i.numVertices) (h2 : lab v < 2) :
    (∀ q, q < 2 → i.partWeight (flip lab v) q ≤ i.partWeight lab q + (if q = lab v then 0 else weightAt i.vertexWeights v)) := by
  intro q hq
  unfold Input.partWeight
  rw [← add_sum_erase _ _ (mem_range.mpr hv), ← add_sum_erase (range i.numVertices) (fun u => if lab u = q then _ else _) (mem_range.mpr hv)]
  have e : ∑ u ∈ (range i.numVertices).erase v, (if flip lab v u = q then weightAt i.vertexWeights u else 0) =
      ∑ u ∈ (range i.numVertices).erase v, (if lab u = q then weightAt i.vertexWeights u else 0) :=
    sum_congr rfl fun u hu => by rw [flip_ne _ (ne_of_mem_erase hu)]
  rw [e, flip_self]
  by_cases h : q = lab v
  · subst h
    rw [if_neg (by omega)]
    omega
  · rw [if_neg h]
    split <;> omega

/-- **C124, calls.** For a call for two parts of a graph with more than twenty vertices and some edge: if one of the eight
candidates grown for the coarsest graph is within the limits, and its cut exceeds the one written by less than eight, and every
vertex would fit on the other side, then each vertex has at least half of its edge weight inside its part and the cut written is
at most half of the weight of all edges. -/
theorem C124_written [Concrete.Log2Impl] {i : Input} (hv : i.Valid) (hk : i.numPartitions = 2)
    (hn : 20 < i.numVertices) (he : 0 < i.numEdges)
    {o : Options Concrete.fp} (hc : 0 < o.numGlobalCuts) {out out' : Out}
    (h : partGraphRecursive (dblEnv pq set rng) i (some o) out = (out', ok 1)) :
    ∃ (g : Graph) (s : Scheme) (tw mx : List Nat) (bt : Target Concrete.fp) (r : rng.S) (lab : Nat → Nat) (r' : rng.S)
      (cg : Graph) (cs : List (Nat → Nat)), i.Describes g ∧ EvenShares Concrete.fp 2 i.totalWeight tw mx ∧
      IsHalvesTarget tw mx bt ∧ (∀ v, v < i.numVertices → nth out'.asg v = lab v) ∧
      MLGrownFrom (dblEnv pq set rng) s bt g r lab r' cg cs ∧
      ∀ c ∈ cs, (∀ q, q < 2 → partWeight cg c q ≤ nth mx q) → cutWeight cg c < out'.cut + 8 →
        (∀ v, v < i.numVertices →
          i.partWeight (nth out'.asg) (1 - nth out'.asg v) + weightAt i.vertexWeights v ≤ nth mx (1 - nth out'.asg v)) →
        (∀ v, v < i.numVertices → i.outside (nth out'.asg) v ≤ i.inside (nth out'.asg) v) ∧ 2 * out'.cut ≤ i.edgeTotal := by
  obtain ⟨g, s, tw, mx, bt, r, lab, r', cg, cs, h1, h2, h3, h4, h5, h6⟩ := C122_written hv hk hn he hc h
  refine ⟨g, s, tw, mx, bt, r, lab, r', cg, cs, h1, h2, h3, h4, h5, fun c hcs hb hlt hroom => ?_⟩
  obtain ⟨hbal, hor⟩ := h6 c hcs hb
  have hsym : g.Symm := fun v u hv' hu' => by
    rw [h1.nv] at hv' hu'
    rw [← h1.wt_eq hv hv', ← h1.wt_eq hv hu']
    exact hv.symm v u hv' hu'
  have hnl : g.NoLoop := by
    intro v hv' q hq
    rw [h1.nv] at hv'
    rw [h1.nbrs v hv'] at hq
    obtain ⟨e, he, rfl⟩ := List.mem_map.mp hq
    have := List.mem_range'_1.mp he
    exact hv.noLoop v hv' e this.1 (by have := hv.csr.mono v hv'; omega)
  obtain ⟨hlt2, hcut, -, -⟩ := C38_valid_output hv (by omega) (by omega) hc h
  rw [hk] at hlt2
  have hloc : ∀ v, v < i.numVertices → i.cut (nth out'.asg) ≤ i.cut (flip (nth out'.asg) v) := by
    rcases hor with (k | ⟨v, m1, m2, q, m3, m4⟩) | k
    · exact k
    · exfalso
      have a1 := i.partWeight_flip m1 (hlt2 v m1) q m3
      have a2 := hlt2 v m1
      by_cases e : q = nth out'.asg v
      · rw [if_pos e] at a1
        have := hbal q m3
        omega
      · rw [if_neg e] at a1
        have := hroom v m1
        have e' : 1 - nth out'.asg v = q := by omega
        rw [e'] at this
        omega
    · omega
  have hd : ∀ v, v < g.nv → cutWeight g (nth out'.asg) ≤ cutWeight g (flip (nth out'.asg) v) := fun v hv' => by
    rw [← h1.cut hv (fun _ _ => rfl), ← h1.cut hv (fun _ _ => rfl)]
    exact hloc v (by rw [← h1.nv]; exact hv')
  obtain ⟨k1, k2⟩ := half_of_local hsym hnl (fun u hu => hlt2 u (by rw [← h1.nv]; exact hu)) hd
  refine ⟨fun v hv' => ?_, ?_⟩
  · rw [h1.inside hv (fun _ _ => rfl) hv', h1.outside hv (fun _ _ => rfl) hv']
    exact k1 v (by rw [h1.nv]; exact hv')
  · rw [hcut, h1.cut hv (fun _ _ => rfl), h1.edgeTotal hv]
    exact k2

/-- A path of 72 vertices without weights. -/
def Ex.path72In : Input :=
  { numVertices := 72, edgePrefix := (List.range 73).map fun v => if v = 0 then 0 else if v = 72 then 142 else 2 * v - 1,
    edgeList := (List.range 72).flatMap fun v => (if v = 0 then [] else [v - 1]) ++ (if v = 71 then [] else [v + 1]),
    vertexWeights := none, edgeWeights := none, numPartitions := 2 }

/-- The hypotheses are met by a call for two parts of a path of 72 vertices: the limits are 37 and both parts get 36, so every
vertex would fit on the other side. -/
example : Ex.path72In.Valid ∧ Ex.path72In.numPartitions = 2 ∧ 20 < Ex.path72In.numVertices ∧ 0 < Ex.path72In.numEdges ∧
    0 < (Ex.cuts 1).numGlobalCuts ∧
    partGraphRecursive Concrete.env Ex.path72In (some (Ex.cuts 1)) { cut := 0, asg := List.replicate 72 0 } =
      ({ cut := 1, asg := List.replicate 36 0 ++ List.replicate 36 1 }, ok 1) ∧
    EvenShares Concrete.fp 2 Ex.path72In.totalWeight [36, 36] [37, 37] ∧
    (∀ v, v < 72 → Ex.path72In.partWeight (nth (List.replicate 36 0 ++ List.replicate 36 1))
      (1 - nth (List.replicate 36 0 ++ List.replicate 36 1) v) + weightAt Ex.path72In.vertexWeights v ≤
        nth [37, 37] (1 - nth (List.replicate 36 0 ++ List.replicate 36 1) v)) ∧ Ex.path72In.edgeTotal = 71 := by
  refine ⟨Ex.valid_of (by constructor <;> decide +kernel) (by decide +kernel) (by decide +kernel) (by decide +kernel)
    (by decide +kernel), rfl, by decide, by decide, by decide, by decide +kernel, ⟨⟨rfl, rfl⟩, ?_, ?_⟩, by decide +kernel,
    by decide +kernel⟩
  · intro q hq
    obtain rfl | rfl : q = 0 ∨ q = 1 := by omega
    all_goals decide +kernel
  · intro q hq
    obtain rfl | rfl : q = 0 ∨ q = 1 := by omega
    all_goals decide +kernel

/-- The hypotheses of the theorem on refinement are those of `C121_with_room`, met by the example beside it; there the cut is 1
of a total edge weight of 15 and the first vertex keeps all of its edges inside. -/
example : cutWeight Ex.tri2 (nth [0, 0, 0, 1, 1, 1]) = 1 ∧ edgeTotal Ex.tri2 = 15 ∧
    internalWeight Ex.tri2 (nth [0, 0, 0, 1, 1, 1]) 0 = 3 ∧ externalWeight Ex.tri2 (nth [0, 0, 0, 1, 1, 1]) 0 = 0 := by
  decide +kernel

end Poros
