import Verif.Props.P114_Directed
import Verif.Props.P85_KWay
/-
C116: balance of the parts, and safe calls for more than two parts, without symmetry.

Balance is a matter of vertex weights. The greedy matching, the growing of the first side and the rule that refinement
never trades a balanced bisection for a worse one bound the weights of the parts whatever the edges are; an edge may be
listed at one end point only, or with a different weight at each.
-/
namespace Poros
open Finset Res

variable {pq : PQImpl} {set : SetImpl} {rng : RngImpl}

theorem Input.Arcs.weight {i : Input} (h : i.Arcs) : i.totalWeight < 4294967296 := by
  have := h.vtxFits
  norm_num at this
  exact this

/-- What the preparations of a call on such a graph give. -/
theorem Input.Arcs.prepared {E : Env} {i : Input} (h : i.Arcs) (o : Options E.fp) :
    ∃ g, g.Free ∧ Represents i.numVertices i.numEdges i.edgePrefix i.edgeList i.vertexWeights i.edgeWeights g ∧
      prepare E i o = (do
        let s ← makeScheme o.aggregationScheme
        let t ← Target.uniform i.numPartitions i.totalWeight (E.fp.lit 3 2)
        .ok { graph := g, scheme := s, target := t }) := by
  obtain ⟨g, hg, hfree, hr⟩ := h.free
  have hs : g.sumVtx = i.totalWeight := (Input.describes_of h.csr hr).sumVtx
  refine ⟨g, hfree, hr, ?_⟩
  unfold prepare
  rw [rd_of_lt (by have := h.csr.xadj_len; omega), ok_bind]
  rw [show nth i.edgePrefix i.numVertices = i.numEdges from rfl, hg, ok_bind, hfree.wf.tot_vtx, hs,
    Nat.mod_eq_of_lt (by have := h.weight; exact this)]
  rfl

/-- One run of the recursive bisection that finished. -/
theorem partitioner_loose [Concrete.Log2Impl] (s : Scheme) {t : Target Concrete.fp} (hk : 2 ≤ t.k) (hk' : t.k < 2 ^ 32)
    (htw : t.tw.length = t.k) (hmx : t.mx.length = t.k) {g : Graph} (hg : g.Free) {r : rng.S} {p : Partitioning}
    {r' : rng.S} (h : partitioner (dblEnv pq set rng) s t g r = ok (p, r')) :
    p.asg.length = g.nv ∧ LooseRun pq set rng s t.tw t.mx g r p.lab r' :=
  (rbExecute_gen (E := dblEnv pq set rng) (bu := True) (be := True) (bd := True) free_closed
    (R := fun bt g _ lab _ => LooseBis (dblEnv pq set rng) s bt g lab) (S := g.sumVtx) (M := NULL32) (by decide)
    (fun _ _ _ => True) (fun _ _ _ _ _ _ _ _ _ _ _ _ _ => ⟨fun _ _ => trivial, fun _ _ => trivial⟩)
    (fun tw mx bt g r _ _ hg _ hb _ _ => Wp.post.mpr (execute_loose (B := True) s hg (fun _ => trivial) hb r))
    hk (by simpa using hk') htw hmx (Or.inr ⟨trivial, rfl⟩) trivial hg (le_refl _) r).elim_ok h

/-- A successful call on a directed graph. -/
theorem looseCall [Concrete.Log2Impl] {i : Input} (hi : i.Arcs) (hk : 2 ≤ i.numPartitions) (hk' : i.numPartitions < 2 ^ 32)
    {o : Options Concrete.fp} (hc : 0 < o.numGlobalCuts) {out out' : Out}
    (h : partGraphRecursive (dblEnv pq set rng) i (some o) out = (out', ok 1)) :
    ∃ g s tw mx lab r r', LooseCall pq set rng i out' g s tw mx lab r r' := by
  obtain ⟨g, hfree, hr, hp⟩ := hi.prepared (E := dblEnv pq set rng) o
  obtain ⟨P, hP, -⟩ := call_ok h
  rw [hP] at hp
  obtain ⟨s, h1, hp⟩ := bind_eq_ok hp.symm
  obtain ⟨t, h2, hp⟩ := bind_eq_ok hp
  cases hp
  obtain ⟨-, h3, -, h4, h5, -⟩ := ofFractions_shape h2
  obtain ⟨lab, ⟨r, r', hrun⟩, hlab⟩ := call_labels hP (n0 := g.nv)
    (Q := fun lab => ∃ r r', LooseRun pq set rng s t.tw t.mx g r lab r')
    (fun r p r' hr => by
      have := partitioner_loose s (by rw [h3]; exact hk) (by rw [h3]; exact hk') (by rw [h3]; exact h4)
        (by rw [h3]; exact h5) hfree hr
      exact ⟨this.1, r, r', this.2⟩) hc h
  exact ⟨g, s, t.tw, t.mx, lab, r, r', Input.describes_of hi.csr hr, hfree.wf, hfree.noLoop, evenShares h2, hrun,
    fun v hv => hlab v (by rw [hr.nv_eq]; exact hv)⟩

/-- **C116, two parts.** On a directed graph too, neither part of a successful call for two parts is heavier than 48.5 per
cent of the total weight plus the larger of 7.5 per cent and the heaviest vertex, plus 2. -/
theorem C116_two_parts [Concrete.Log2Impl] {i : Input} (hi : i.Arcs) (hk : i.numPartitions = 2) {o : Options Concrete.fp}
    (hc : 0 < o.numGlobalCuts) {out out' : Out}
    (h : partGraphRecursive (dblEnv pq set rng) i (some o) out = (out', ok 1)) (hW : i.totalWeight < 4294967295)
    {M : Nat} (hM : ∀ v, v < i.numVertices → weightAt i.vertexWeights v ≤ M) :
    ∀ q, q < 2 → 200 * i.partWeight (nth out'.asg) q ≤ 97 * i.totalWeight + 200 * max (3 * i.totalWeight / 40) M + 400 := by
  obtain ⟨g, s, tw, mx, lab, r, r', hl⟩ := looseCall hi (by omega) (by omega) hc h
  exact hl.two_parts hk hW hM

/-- **C116, no empty part.** With two to four parts, total weight at least 1000 and no vertex heavier than a twentieth of
it, every part of a successful call has a vertex. -/
theorem C116_no_empty_part [Concrete.Log2Impl] {i : Input} (hi : i.Arcs) (hk : 2 ≤ i.numPartitions) (hk' : i.numPartitions ≤ 4)
    {o : Options Concrete.fp} (hc : 0 < o.numGlobalCuts) {out out' : Out}
    (h : partGraphRecursive (dblEnv pq set rng) i (some o) out = (out', ok 1)) (hW : 1000 ≤ i.totalWeight)
    (hW' : i.totalWeight < 4294967295)
    (hheavy : ∀ v, v < i.numVertices → 20 * weightAt i.vertexWeights v ≤ i.totalWeight) :
    ∀ q, q < i.numPartitions → ∃ v, v < i.numVertices ∧ nth out'.asg v = q := by
  obtain ⟨g, s, tw, mx, lab, r, r', hl⟩ := looseCall hi hk (by omega) hc h
  exact hl.nonempty hk hk' hW hW' hheavy

/-- **C116, 2^d parts.** No part of a successful call for `2 ^ d` parts is heavier than `W/k + 1.08^d (0.17 W + k)`. -/
theorem C116_power_of_two [Concrete.Log2Impl] {i : Input} (hi : i.Arcs) {d : Nat} (hd : 1 ≤ d) (hk : i.numPartitions = 2 ^ d)
    {o : Options Concrete.fp} (hc : 0 < o.numGlobalCuts) {out out' : Out}
    (h : partGraphRecursive (dblEnv pq set rng) i (some o) out = (out', ok 1))
    (hW : 34 * i.numPartitions ≤ i.totalWeight) (hW' : i.totalWeight + i.numPartitions < 2 ^ 32)
    (hlight : ∀ v, v < i.numVertices → 40 * (i.numPartitions * weightAt i.vertexWeights v) ≤ 3 * i.totalWeight) :
    ∀ q, (i.partWeight (nth out'.asg) q : ℚ) ≤ (i.totalWeight : ℚ) / i.numPartitions +
      (108 / 100) ^ d * (17 / 100 * i.totalWeight + i.numPartitions) := by
  have h2 : 2 ≤ i.numPartitions := by
    rw [hk]
    exact le_trans (show 2 ≤ 2 ^ 1 by decide) (Nat.pow_le_pow_right (by decide) hd)
  obtain ⟨g, s, tw, mx, lab, r, r', hl⟩ := looseCall hi h2 (by omega) hc h
  exact hl.power_of_two hd hk hW hW' hlight

/-- **C116, any number of parts.** No part of a successful call for at most `2 ^ d` parts is heavier than
`W/k + 1.16^d (0.37 W + k)`. -/
theorem C116_any_number [Concrete.Log2Impl] {i : Input} (hi : i.Arcs) {d : Nat} (hk : 2 ≤ i.numPartitions)
    (hd : i.numPartitions ≤ 2 ^ d) {o : Options Concrete.fp} (hc : 0 < o.numGlobalCuts) {out out' : Out}
    (h : partGraphRecursive (dblEnv pq set rng) i (some o) out = (out', ok 1))
    (hW : 34 * i.numPartitions ≤ i.totalWeight) (hW' : i.totalWeight + i.numPartitions < 2 ^ 32)
    (hlight : ∀ v, v < i.numVertices → 40 * (i.numPartitions * weightAt i.vertexWeights v) ≤ 3 * i.totalWeight) :
    ∀ q, (i.partWeight (nth out'.asg) q : ℚ) ≤ (i.totalWeight : ℚ) / i.numPartitions +
      (116 / 100) ^ d * (37 / 100 * i.totalWeight + i.numPartitions) := by
  obtain ⟨g, s, tw, mx, lab, r, r', hl⟩ := looseCall hi hk (by omega) hc h
  exact hl.any_number hk hd hW hW' hlight

/-- **C116, up to eight parts.** Calls for two to eight parts of a directed graph with explicit vertex weights, none of
them 1 and none more than a twentieth of the total, of total weight at least 1000, return 1. -/
theorem C116_up_to_eight [Concrete.Log2Impl] (pq : PQImpl) (set : SetImpl) (rng : RngImpl) {i : Input} (hi : i.Arcs)
    (hk : 2 ≤ i.numPartitions) (hk' : i.numPartitions ≤ 8) (hw : i.vertexWeights.isSome)
    (hW : 1000 ≤ i.totalWeight) (hW' : i.totalWeight < 4294967295)
    (hone : ∀ v, v < i.numVertices → weightAt i.vertexWeights v ≠ 1)
    (hheavy : ∀ v, v < i.numVertices → 20 * weightAt i.vertexWeights v ≤ i.totalWeight)
    {o : Options Concrete.fp} (ho : o.Known) {out : Out} (hb : i.numVertices ≤ out.asg.length) :
    (partGraphRecursive (dblEnv pq set rng) i (some o) out).2 = ok 1 := by
  obtain ⟨g, hfree, hr, hp⟩ := hi.prepared (E := dblEnv pq set rng) o
  obtain ⟨s, hs⟩ := makeScheme_known ho
  obtain ⟨t, ht, hfit⟩ := Concrete.uniformOK.uniform i.numPartitions i.totalWeight hk (by omega) hi.weight
  rw [hs, ok_bind, show Target.uniform i.numPartitions i.totalWeight ((dblEnv pq set rng).fp.lit 3 2) = ok t from ht,
    ok_bind] at hp
  obtain ⟨-, h3, -, h4, h5, -⟩ := ofFractions_shape ht
  obtain ⟨a, b, ht1, ht2, he⟩ := equalParts hk hk' hW' ht
  have hnv := hr.nv_eq
  have hlen : g.vwgt.length = g.nv := by
    rw [hr.vwgt_eq]
    obtain ⟨l, hl⟩ := Option.isSome_iff_exists.mp hw
    have := hi.csr.vw_len
    rw [hl] at this ⊢
    simp only [shorter, not_lt] at this
    simp only [emptyIfNull, List.length_take]
    omega
  have hvw : ∀ v, v < g.nv → g.vw v = weightAt i.vertexWeights v := fun v hv => hr.vw_at (by omega)
  have hn0 : 0 < g.nv := by
    by_contra h
    have hz : i.numVertices = 0 := by omega
    unfold Input.totalWeight at hW
    rw [hz] at hW
    simp at hW
  refine call_total hp (fun r => ?_) (by show g.nv ≤ _; omega)
  have := rbExecute_gen (E := dblEnv pq set rng) (bu := False) (be := False) (bd := False) free_closed
    (bis := (makeMultilevel (dblEnv pq set rng) s).execute)
    (R := fun bt g _ lab _ => LooseBis (dblEnv pq set rng) s bt g lab) (S := g.sumVtx) (M := NULL32) (by decide)
    (SafeNode i.numPartitions i.totalWeight (i.totalWeight / 20) a b)
    (fun tw mx bt g r lab r' labels sub hg hi hbt hr => SafeNode.step hk' hW hW' he (by omega) hg.wf hg.noLoop hi hbt hr)
    (fun tw mx bt g r hi hbt hg _ hb2 _ _ =>
      Wp.of_sat (execute_loose (B := False) s hg (fun h => h ⟨hi.2.2.1, fun _ _ => hi.1⟩) hb2 r))
    (t := t) (by rw [h3]; exact hk) (by rw [h3]; omega) (by rw [h3]; exact h4) (by rw [h3]; exact h5)
    (Or.inl ⟨Concrete.recursiveOK, hfit⟩)
    (g := g) ⟨hlen, fun v hv => ?_, hn0, i.numPartitions, ht1, ht2,
      Or.inl ⟨rfl, (Input.describes_of hi.csr hr).sumVtx⟩⟩ hfree (le_refl _) r
  · obtain ⟨x, hx, hex, -⟩ := sat_iff.mp (Wp.post.mp this)
    exact ⟨x.1, x.2, hx, hex⟩
  · rw [hvw v hv]
    have := hheavy v (by omega)
    exact ⟨hone v (by omega), by omega⟩

/-- A directed ring of twenty vertices of weight 50, every edge listed at its tail only. -/
def wheel20 (k : Nat) : Input :=
  { numVertices := 20, edgePrefix := List.range 21, edgeList := (List.range 20).map fun v => (v + 1) % 20,
    vertexWeights := some (List.replicate 20 50), edgeWeights := none, numPartitions := k }

theorem wheel20_arcs : (wheel20 8).Arcs ∧ (wheel20 4).Arcs :=
  ⟨⟨by constructor <;> decide +kernel, by decide +kernel, by decide +kernel, by decide +kernel⟩,
    ⟨by constructor <;> decide +kernel, by decide +kernel, by decide +kernel, by decide +kernel⟩⟩

/-- The hypotheses are met by a directed ring of twenty vertices, which is not a valid undirected graph: it can be divided
into eight parts. -/
example : (wheel20 8).Arcs ∧ 2 ≤ (wheel20 8).numPartitions ∧ (wheel20 8).numPartitions ≤ 8 ∧
    (wheel20 8).vertexWeights.isSome ∧ 1000 ≤ (wheel20 8).totalWeight ∧ (wheel20 8).totalWeight < 4294967295 ∧
    (∀ v, v < (wheel20 8).numVertices → weightAt (wheel20 8).vertexWeights v ≠ 1) ∧
    (∀ v, v < (wheel20 8).numVertices → 20 * weightAt (wheel20 8).vertexWeights v ≤ (wheel20 8).totalWeight) ∧
    csrWt (wheel20 8).edgePrefix (wheel20 8).edgeList (wheel20 8).edgeWeights 0 1 ≠
      csrWt (wheel20 8).edgePrefix (wheel20 8).edgeList (wheel20 8).edgeWeights 1 0 :=
  ⟨wheel20_arcs.1, by decide, by decide, rfl, by decide +kernel, by decide +kernel, by decide +kernel, by decide +kernel,
    by decide +kernel⟩

/-- So such calls succeed, and none of four parts is empty. -/
example : (∃ out', partGraphRecursive Concrete.env (wheel20 4) (some (defaultOptions Concrete.fp))
      ⟨0, List.replicate 20 0⟩ = (out', ok 1) ∧ ∀ q, q < 4 → ∃ v, v < 20 ∧ nth out'.asg v = q) ∧
    0 < (defaultOptions Concrete.fp).numGlobalCuts := by
  refine ⟨⟨(partGraphRecursive Concrete.env (wheel20 4) (some (defaultOptions Concrete.fp)) ⟨0, List.replicate 20 0⟩).1, ?_⟩,
    by decide⟩
  have h := C116_up_to_eight Concrete.pq Concrete.set Concrete.rng wheel20_arcs.2 (by decide) (by decide) rfl
    (by decide +kernel) (by decide +kernel) (by decide +kernel) (by decide +kernel) (o := defaultOptions Concrete.fp)
    (Or.inr rfl) (out := ⟨0, List.replicate 20 0⟩) (by decide)
  have he : partGraphRecursive Concrete.env (wheel20 4) (some (defaultOptions Concrete.fp)) ⟨0, List.replicate 20 0⟩ =
    ((partGraphRecursive Concrete.env (wheel20 4) (some (defaultOptions Concrete.fp)) ⟨0, List.replicate 20 0⟩).1, ok 1) :=
    Prod.ext rfl h
  exact ⟨he, C116_no_empty_part (pq := Concrete.pq) (set := Concrete.set) (rng := Concrete.rng) wheel20_arcs.2 (by decide)
    (by decide) (by decide) he (by decide +kernel) (by decide +kernel) (by decide +kernel)⟩

/-- A directed ring of sixty vertices of weight 50. -/
def wheel60 (k : Nat) : Input :=
  { numVertices := 60, edgePrefix := List.range 61, edgeList := (List.range 60).map fun v => (v + 1) % 60,
    vertexWeights := some (List.replicate 60 50), edgeWeights := none, numPartitions := k }

theorem wheel60_arcs (k : Nat) (h : k = 2 ∨ k = 4) : (wheel60 k).Arcs := by
  rcases h with rfl | rfl <;>
    exact ⟨by constructor <;> decide +kernel, by decide +kernel, by decide +kernel, by decide +kernel⟩

theorem returned {x : Out × Res Nat} (h : x.2 = ok 1) : ∃ out', x = (out', ok 1) := ⟨x.1, Prod.ext rfl h⟩

theorem wheel60_call (k : Nat) (h : k = 2 ∨ k = 4) :
    ∃ out', partGraphRecursive Concrete.env (wheel60 k) (some (defaultOptions Concrete.fp))
      { cut := 0, asg := List.replicate 60 0 } = (out', ok 1) := by
  rcases h with rfl | rfl <;>
    exact returned (C116_up_to_eight Concrete.pq Concrete.set Concrete.rng (wheel60_arcs _ (by decide)) (by decide)
      (by decide) rfl (by decide +kernel) (by decide +kernel) (by decide +kernel) (by decide +kernel)
      (o := defaultOptions Concrete.fp) (Or.inr rfl) (by decide))

/-- The hypotheses of the bounds are met by calls for two and for four parts of a directed ring of sixty vertices; its
halves weigh at most 1682 of 3000, and each of four parts less than half of the total. -/
example : (∃ out', partGraphRecursive Concrete.env (wheel60 2) (some (defaultOptions Concrete.fp))
      { cut := 0, asg := List.replicate 60 0 } = (out', ok 1) ∧
      ∀ q, q < 2 → (wheel60 2).partWeight (nth out'.asg) q ≤ 1682) ∧
    (∃ out', partGraphRecursive Concrete.env (wheel60 4) (some (defaultOptions Concrete.fp))
      { cut := 0, asg := List.replicate 60 0 } = (out', ok 1) ∧
      (∀ q, 2 * (wheel60 4).partWeight (nth out'.asg) q < (wheel60 4).totalWeight) ∧
      ∀ q, ((wheel60 4).partWeight (nth out'.asg) q : ℚ) ≤ (3000 : ℚ) / 4 + (116 / 100) ^ 2 * (37 / 100 * 3000 + 4)) := by
  have hW2 : (wheel60 2).totalWeight = 3000 := by decide +kernel
  have hW : (wheel60 4).totalWeight = 3000 := by decide +kernel
  have c1 : 34 * (wheel60 4).numPartitions ≤ (wheel60 4).totalWeight := by rw [hW]; decide
  have c2 : (wheel60 4).totalWeight + (wheel60 4).numPartitions < 2 ^ 32 := by rw [hW]; decide
  have c3 : ∀ v, v < (wheel60 4).numVertices →
      40 * ((wheel60 4).numPartitions * weightAt (wheel60 4).vertexWeights v) ≤ 3 * (wheel60 4).totalWeight := by
    rw [hW]; decide +kernel
  obtain ⟨o2, h2⟩ := wheel60_call 2 (by decide)
  obtain ⟨o4, h4⟩ := wheel60_call 4 (by decide)
  refine ⟨⟨o2, h2, fun q hq => ?_⟩, o4, h4, fun q => ?_, fun q => ?_⟩
  · have := C116_two_parts (wheel60_arcs 2 (by decide)) rfl (by decide) h2 (by omega) (M := 50)
      (by decide +kernel) q hq
    rw [hW2] at this
    simp only [Nat.reduceMul, Nat.reduceDiv] at this
    omega
  · have := C116_power_of_two (wheel60_arcs 4 (by decide)) (d := 2) (by decide) rfl (by decide) h4 c1 c2 c3 q
    rw [hW, show (wheel60 4).numPartitions = 4 from rfl] at this
    rw [hW]
    have h2 : 2 * ((wheel60 4).partWeight (nth o4.asg) q : ℚ) < 3000 := by
      refine lt_of_le_of_lt (mul_le_mul_of_nonneg_left this (by norm_num)) ?_
      norm_num
    exact_mod_cast h2
  · have := C116_any_number (wheel60_arcs 4 (by decide)) (d := 2) (by decide) (by decide) (by decide) h4 c1 c2 c3 q
    rw [hW, show (wheel60 4).numPartitions = 4 from rfl] at this
    exact_mod_cast this

end Poros
