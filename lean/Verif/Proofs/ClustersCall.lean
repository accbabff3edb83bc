import Verif.Proofs.ClustersRun
import Verif.Props.P89_NullSafe
/-
Calls on graphs that consist of clusters of equal weight.
-/
namespace Poros
open Finset Res Concrete

theorem clusters_call_of [Concrete.Log2Impl] (pq : PQImpl) (set : SetImpl) (rng : RngImpl) {i : Input} (hv : i.Valid)
    (hk : 2 ≤ i.numPartitions) (hk' : i.numPartitions < 4294967296)
    (hrt : RoundTrip i.numPartitions) {comp : Nat → Nat} {j c θ : Nat} (hj : 0 < j) (hc : 0 < c)
    (hlab : ∀ v, v < i.numVertices → comp v < i.numPartitions * j)
    (hw : ∀ q, q < i.numPartitions * j → i.partWeight comp q = c)
    (hcl : ∀ g, i.Describes g → Clustered g comp (range (i.numPartitions * j)) c θ ∧ (g.nv ≤ 20 ∨ Closed g comp))
    {o : Options Concrete.fp} (ho : o.Known)
    (hcuts : 0 < o.numGlobalCuts) {out : Out} (hb : i.numVertices ≤ out.asg.length) :
    ∃ out', partGraphRecursive (dblEnv pq set rng) i (some o) out = (out', ok 1) ∧
      (∀ v u, v < i.numVertices → u < i.numVertices → comp v = comp u → nth out'.asg v = nth out'.asg u) ∧
      ∀ q, q < i.numPartitions → i.partWeight (nth out'.asg) q = j * c := by
  obtain ⟨P, hp, hfit⟩ := prepare_total (E := dblEnv pq set rng) Concrete.uniformOK hv (by omega) (by omega) ho
  have hP := prepare_ok hv hp
  have htot : i.totalWeight = i.numPartitions * (j * c) := by
    unfold Input.totalWeight
    have h1 : ∀ v ∈ range i.numVertices, weightAt i.vertexWeights v =
        ∑ q ∈ range (i.numPartitions * j), if comp v = q then weightAt i.vertexWeights v else 0 := fun v hv' => by
      rw [sum_ite_eq, if_pos (mem_range.mpr (hlab v (mem_range.mp hv')))]
    rw [sum_congr rfl h1, sum_comm, sum_const_nat (m := c), card_range, Nat.mul_assoc]
    exact fun q hq => hw q (mem_range.mp hq)
  have hlt := hv.vtxFits
  rw [show (∑ v ∈ range i.numVertices, weightAt i.vertexWeights v) = i.totalWeight from rfl, htot] at hlt
  have hlt' : i.numPartitions * (j * c) < 4294967296 := by simpa using hlt
  have ht := hP.target
  rw [htot] at ht
  obtain ⟨b, etw, emx, hcb, hb'⟩ := exact_shares_of hk hk' hrt hlt' ht
  have hr : (partGraphRecursive (dblEnv pq set rng) i (some o) out).2 = ok 1 :=
    call_total (E := dblEnv pq set rng) hp (fun r => partitioner_clusters P.scheme hk hP.k etw emx hc hj hcb hb' hlt' hfit
      hP.good (hcl _ (hv.describes hP.rep)).1 (hcl _ (hv.describes hP.rep)).2 (card_range _) r) (by rw [hP.rep.nv_eq]; exact hb)
  obtain ⟨out', hcall'⟩ : ∃ out', partGraphRecursive (dblEnv pq set rng) i (some o) out = (out', ok 1) := ⟨_, Prod.ext rfl hr⟩
  refine ⟨out', hcall', ?_⟩
  obtain ⟨g, s, tw, mx, labs, jj, hcall⟩ := C75_call (pq := pq) (set := set) (rng := rng) hv hk (by omega) hcuts hcall'
  obtain ⟨r', hrep⟩ := hcall.runs
  obtain ⟨r0, r1, hrun⟩ := hrep.all _ (nth_mem hcall.index)
  have hes := evenShares ht
  have htw : tw = List.replicate i.numPartitions (j * c) := by
    refine list_ext_nth (by rw [hcall.shares.len.1]; simp) fun q h1 => ?_
    rw [hcall.shares.len.1] at h1
    have h4 := hcall.shares.target q h1
    rw [htot] at h4
    have := toU32_inj h4 (hes.target q h1)
    rw [this, etw]
  have hmx : mx = List.replicate i.numPartitions b := by
    refine list_ext_nth (by rw [hcall.shares.len.2]; simp) fun q h1 => ?_
    rw [hcall.shares.len.2] at h1
    have h4 := hcall.shares.limit q h1
    rw [htot] at h4
    have := toU32_inj h4 (hes.limit q h1)
    rw [this, emx]
  obtain ⟨hcl, hcd⟩ := hcl _ hcall.graph
  obtain ⟨hsame, hwt⟩ := hrun.clusters hc hj hcb _ htw hmx hcall.good hb' hlt' comp _ hcl hcd (card_range _)
  rw [hcall.graph.nv] at hsame
  refine ⟨fun v u hv' hu h => ?_, fun q hq => ?_⟩
  · rw [hcall.labels v hv', hcall.labels u hu]
    exact hsame v u hv' hu h
  · rw [hcall.graph.partWeight (fun v hv' => hcall.labels v hv') q]
    exact hwt q hq

theorem clusters_call [Concrete.Log2Impl] (pq : PQImpl) (set : SetImpl) (rng : RngImpl) {i : Input} (hv : i.Valid)
    (hk : 2 ≤ i.numPartitions) (hk' : i.numPartitions ≤ 48) {comp : Nat → Nat} {j c θ : Nat} (hj : 0 < j) (hc : 0 < c)
    (hlab : ∀ v, v < i.numVertices → comp v < i.numPartitions * j)
    (hw : ∀ q, q < i.numPartitions * j → i.partWeight comp q = c)
    (hcl : ∀ g, i.Describes g → Clustered g comp (range (i.numPartitions * j)) c θ ∧ (g.nv ≤ 20 ∨ Closed g comp))
    {o : Options Concrete.fp} (ho : o.Known)
    (hcuts : 0 < o.numGlobalCuts) {out : Out} (hb : i.numVertices ≤ out.asg.length) :
    ∃ out', partGraphRecursive (dblEnv pq set rng) i (some o) out = (out', ok 1) ∧
      (∀ v u, v < i.numVertices → u < i.numVertices → comp v = comp u → nth out'.asg v = nth out'.asg u) ∧
      ∀ q, q < i.numPartitions → i.partWeight (nth out'.asg) q = j * c :=
  clusters_call_of pq set rng hv hk (by omega) (RoundTrip.of_le (by omega) hk') hj hc hlab hw hcl ho hcuts hb

/-- With as many clusters as parts, the parts are the clusters. -/
theorem clusters_are_parts {i : Input} {comp lab : Nat → Nat} {c : Nat} (hc : 0 < c)
    (hcl : ∀ v, v < i.numVertices → comp v < i.numPartitions) (hw : ∀ q, q < i.numPartitions → i.partWeight comp q = c)
    (hl : ∀ v, v < i.numVertices → lab v < i.numPartitions) (hp : ∀ q, q < i.numPartitions → i.partWeight lab q = c)
    (h3 : ∀ v u, v < i.numVertices → u < i.numVertices → comp v = comp u → lab v = lab u) {v u : Nat}
    (hv' : v < i.numVertices) (hu : u < i.numVertices) : lab v = lab u ↔ comp v = comp u := by
  refine ⟨fun h => ?_, h3 v u hv' hu⟩
  by_contra hne
  have e1 := hw _ (hcl v hv')
  have e2 := hw _ (hcl u hu)
  have e3 := hp _ (hl v hv')
  have : i.partWeight comp (comp v) + i.partWeight comp (comp u) ≤ i.partWeight lab (lab v) := by
    unfold Input.partWeight
    rw [← sum_add_distrib]
    refine sum_le_sum fun w hw => ?_
    have hw := mem_range.mp hw
    by_cases k1 : comp w = comp v
    · rw [if_pos k1, if_neg (fun k2 => hne (k1.symm.trans k2)), if_pos (h3 w v hw hv' k1)]
      omega
    · by_cases k2 : comp w = comp u
      · rw [if_neg k1, if_pos k2, if_pos ((h3 w u hw hu k2).trans h.symm)]
        omega
      · rw [if_neg k1, if_neg k2]
        omega
  omega

end Poros
