import Verif.Props.P125_Clusters
/-
C126: groups that are tied more strongly inside than outside are found on small graphs.
-/
namespace Poros
open Finset Res Concrete

/-- The vertices of the caller's graph fall into `K` groups: `comp v` is the group of vertex `v`. Each group has weight `c` and is
connected along edges of weight at least `θ`; each vertex is joined to vertices of other groups by edges of total weight less
than `θ`; no vertex has weight zero. -/
structure Input.Groups (i : Input) (comp : Nat → Nat) (K c θ : Nat) : Prop where
  lt : ∀ v, v < i.numVertices → comp v < K
  weight : ∀ q, q < K → i.partWeight comp q = c
  pos : ∀ v, v < i.numVertices → 0 < weightAt i.vertexWeights v
  apart : ∀ v, v < i.numVertices → (∑ u ∈ range i.numVertices, if comp u = comp v then 0 else i.wt u v) < θ
  linked : ∀ q, q < K → LinkedIn i.numVertices (fun v u => if θ ≤ i.wt v u then i.wt v u else 0) fun v => comp v = q

theorem Input.Describes.groups {i : Input} (hv : i.Valid) {g : Graph} (h : i.Describes g) {comp : Nat → Nat} {K c θ : Nat}
    (hc : i.Groups comp K c θ) : Clustered g comp (range K) c θ := by
  refine ⟨fun v hv' => ?_, fun q hq => ?_, fun v hv' => ?_, fun v hv' => ?_, fun q hq => ?_⟩
  · rw [h.nv] at hv'
    exact mem_range.mpr (hc.lt v hv')
  · rw [← hc.weight q (mem_range.mp hq)]
    exact (h.partWeight (fun _ _ => rfl) q).symm
  · rw [h.nv] at hv'
    rw [h.vw v hv']
    exact hc.pos v hv'
  · rw [h.nv] at hv' ⊢
    refine lt_of_le_of_lt (le_of_eq ?_) (hc.apart v hv')
    exact sum_congr rfl fun u hu => by rw [h.wt_eq hv (mem_range.mp hu)]
  · rw [h.nv]
    refine (hc.linked q (mem_range.mp hq)).congr fun v u hv' => ?_
    rw [h.wt_eq hv hv']

/-- The cut of labels that are equal wherever others are is at most theirs. -/
theorem Input.cut_mono {i : Input} {lab lab' : Nat → Nat}
    (h : ∀ v u, v < i.numVertices → u < i.numVertices → lab v = lab u → lab' v = lab' u) : i.cut lab' ≤ i.cut lab := by
  unfold Input.cut csrCut
  refine sum_le_sum fun v hv => sum_le_sum fun u hu => ?_
  have hv := mem_range.mp hv
  have hu := mem_range.mp hu
  by_cases e : lab u = lab v
  · rw [if_neg (fun k => k (h u v (by omega) hv e)), if_neg (fun k => k e)]
  · rw [if_pos e]
    split
    · exact le_refl _
    · exact Nat.zero_le _

/-- There are no more groups than vertices. -/
theorem Input.Groups.card_le {i : Input} {comp : Nat → Nat} {K c θ : Nat} (hcomp : i.Groups comp K c θ) (hc : 0 < c) :
    K ≤ i.numVertices := by
  have h1 : ∀ q, q < K → ∃ v, v < i.numVertices ∧ comp v = q := by
    intro q hq
    by_contra k
    push Not at k
    have := hcomp.weight q hq
    unfold Input.partWeight at this
    rw [sum_eq_zero fun v hv' => if_neg (k v (mem_range.mp hv'))] at this
    omega
  choose! f hf using h1
  have := card_le_card_of_injOn f (s := range (K)) (t := range i.numVertices)
    (fun q hq => mem_coe.mpr (mem_range.mpr (hf q (mem_range.mp (mem_coe.mp hq))).1)) fun a ha b hb' e => by
      rw [← (hf a (mem_range.mp (mem_coe.mp ha))).2, ← (hf b (mem_range.mp (mem_coe.mp hb'))).2, e]
  simpa using this

/-- **C126.** For every valid input of at most 20 vertices that fall into groups of equal weight, `j` times as many as there are
parts, each connected along edges of weight at least `θ` while every vertex is tied to other groups by less than `θ` in all, and
whatever the random engine, containers, seed, known scheme and positive number of cuts: the call returns 1, no group is split,
every part has exactly the same weight, and the cut is at most the weight of the edges between groups. -/
theorem C126_grouped [Concrete.Log2Impl] (pq : PQImpl) (set : SetImpl) (rng : RngImpl) {i : Input} (hv : i.Valid)
    (hn : i.numVertices ≤ 20) (hk : 2 ≤ i.numPartitions) {comp : Nat → Nat} {j c θ : Nat}
    (hj : 0 < j) (hc : 0 < c) (hcomp : i.Groups comp (i.numPartitions * j) c θ) {o : Options Concrete.fp} (ho : o.Known)
    (hcuts : 0 < o.numGlobalCuts) {out : Out} (hb : i.numVertices ≤ out.asg.length) :
    ∃ out', partGraphRecursive (dblEnv pq set rng) i (some o) out = (out', ok 1) ∧
      (∀ v u, v < i.numVertices → u < i.numVertices → comp v = comp u → nth out'.asg v = nth out'.asg u) ∧
      (∀ q, q < i.numPartitions → i.partWeight (nth out'.asg) q = j * c) ∧ out'.cut ≤ i.cut comp := by
  have hle := hcomp.card_le hc
  have hk' : i.numPartitions ≤ 48 := by
    have := Nat.le_mul_of_pos_right i.numPartitions hj
    omega
  obtain ⟨out', h1, h2, h3⟩ := clusters_call pq set rng hv hk hk' hj hc hcomp.lt hcomp.weight
    (fun g hg => ⟨hg.groups hv hcomp, Or.inl (by rw [hg.nv]; exact hn)⟩) ho hcuts hb
  refine ⟨out', h1, h2, h3, ?_⟩
  obtain ⟨-, hcut, -⟩ := C38_valid_output (E := dblEnv pq set rng) hv hk (by omega) hcuts h1
  rw [hcut]
  exact Input.cut_mono h2

/-- **C126, as many groups as parts.** The parts are the groups, and the cut is the weight of the edges between them. -/
theorem C126_groups [Concrete.Log2Impl] (pq : PQImpl) (set : SetImpl) (rng : RngImpl) {i : Input} (hv : i.Valid)
    (hn : i.numVertices ≤ 20) (hk : 2 ≤ i.numPartitions) {comp : Nat → Nat} {c θ : Nat}
    (hc : 0 < c) (hcomp : i.Groups comp i.numPartitions c θ) {o : Options Concrete.fp} (ho : o.Known)
    (hcuts : 0 < o.numGlobalCuts) {out : Out} (hb : i.numVertices ≤ out.asg.length) :
    ∃ out', partGraphRecursive (dblEnv pq set rng) i (some o) out = (out', ok 1) ∧ out'.cut = i.cut comp ∧
      ∀ v u, v < i.numVertices → u < i.numVertices → (nth out'.asg v = nth out'.asg u ↔ comp v = comp u) := by
  obtain ⟨out', h1, h3, h4, h5⟩ := C126_grouped pq set rng hv hn hk (j := 1) (by decide) hc
    (by rw [Nat.mul_one]; exact hcomp) ho hcuts hb
  have hk' := C38_valid_output (E := dblEnv pq set rng) hv hk (by have := hcomp.card_le hc; omega) hcuts h1
  have hiff : ∀ v u, v < i.numVertices → u < i.numVertices → (nth out'.asg v = nth out'.asg u ↔ comp v = comp u) :=
    fun v u hv' hu => clusters_are_parts hc hcomp.lt hcomp.weight hk'.1 (fun q hq => by rw [h4 q hq, one_mul]) h3 hv' hu
  refine ⟨out', h1, le_antisymm h5 ?_, hiff⟩
  rw [hk'.2.1]
  exact Input.cut_mono fun v u hv' hu e => (hiff v u hv' hu).mp e

namespace Ex

/-- A prism: two rings of `m` vertices with edges of weight `a`, and edges of weight 1 between opposite vertices of the rings.
The even vertices are one ring, the odd ones the other. -/
def prismIn (m a : Nat) : Input :=
  { numVertices := 2 * m, edgePrefix := (List.range (2 * m + 1)).map fun v => 3 * v,
    edgeList := (List.range (2 * m)).flatMap fun v => [v ^^^ 1, (v + 2) % (2 * m), (v + 2 * m - 2) % (2 * m)],
    vertexWeights := none, edgeWeights := some ((List.range (2 * m)).flatMap fun _ => [1, a, a]), numPartitions := 2 }

/-- One cut with random matching. -/
def randomOnce : Options Concrete.env.fp := { cuts 1 with aggregationScheme := 0 }

theorem prism_valid : (prismIn 10 9).Valid :=
  valid_of (by constructor <;> decide +kernel) (by decide +kernel) (by decide +kernel) (by decide +kernel)
    (by decide +kernel)

theorem prism_groups : (prismIn 10 9).Groups (fun v => v % 2) 2 10 9 := by
  refine ⟨by decide +kernel, by decide +kernel, by decide +kernel, by decide +kernel, fun q hq => ?_⟩
  refine linked_of_next (fun v => (v + 2) % 20) ?_ ?_
  · have : ∀ v, v < 20 → 0 < if 9 ≤ (prismIn 10 9).wt v ((v + 2) % 20) then (prismIn 10 9).wt v ((v + 2) % 20) else 0 := by
      decide +kernel
    intro v hv e
    exact ⟨Nat.mod_lt _ (by decide), by show (v + 2) % 20 % 2 = q; omega, this v hv⟩
  · have : ∀ v, v < 20 → ∀ u, u < 20 → v % 2 = u % 2 → ∃ j, j < 20 ∧ (fun v => (v + 2) % 20)^[j] v = u := by
      decide +kernel
    exact fun v hv u hu e1 e2 => this v hv u hu (e1.trans e2.symm)

theorem bigPrism_valid : (prismIn 14 9).Valid :=
  valid_of (by constructor <;> decide +kernel) (by decide +kernel) (by decide +kernel) (by decide +kernel)
    (by decide +kernel)

theorem bigPrism_groups : (prismIn 14 9).Groups (fun v => v % 2) 2 14 9 := by
  refine ⟨by decide +kernel, by decide +kernel, by decide +kernel, by decide +kernel, fun q hq => ?_⟩
  refine linked_of_next (fun v => (v + 2) % 28) ?_ ?_
  · have : ∀ v, v < 28 → 0 < if 9 ≤ (prismIn 14 9).wt v ((v + 2) % 28) then (prismIn 14 9).wt v ((v + 2) % 28) else 0 := by
      decide +kernel
    intro v hv e
    exact ⟨Nat.mod_lt _ (by decide), by show (v + 2) % 28 % 2 = q; omega, this v hv⟩
  · have : ∀ v, v < 28 → ∀ u, u < 28 → v % 2 = u % 2 → ∃ j, j < 28 ∧ (fun v => (v + 2) % 28)^[j] v = u := by
      decide +kernel
    exact fun v hv u hu e1 e2 => this v hv u hu (e1.trans e2.symm)

end Ex

/-- **C126, larger graphs.** On 28 vertices random matching may join vertices of different groups, so that both groups are split:
the cut is 36, while the edges between the groups weigh 14. -/
theorem C126_larger : (Ex.prismIn 14 9).Valid ∧ (Ex.prismIn 14 9).Groups (fun v => v % 2) 2 14 9 ∧
    partGraphRecursive Concrete.env (Ex.prismIn 14 9) (some Ex.randomOnce) { cut := 0, asg := List.replicate 28 0 } =
      ({ cut := 36, asg := (List.range 28).map (· / 14) }, ok 1) ∧ (Ex.prismIn 14 9).cut (fun v => v % 2) = 14 :=
  ⟨Ex.bigPrism_valid, Ex.bigPrism_groups, by decide +kernel, by decide +kernel⟩

/-- The hypotheses are met by a prism of 20 vertices. -/
example : (Ex.prismIn 10 9).Valid ∧ (Ex.prismIn 10 9).numVertices ≤ 20 ∧ (Ex.prismIn 10 9).numPartitions = 2 ∧
    (Ex.prismIn 10 9).Groups (fun v => v % 2) 2 10 9 ∧ Ex.randomOnce.Known ∧ 0 < Ex.randomOnce.numGlobalCuts ∧
    partGraphRecursive Concrete.env (Ex.prismIn 10 9) (some Ex.randomOnce) { cut := 0, asg := List.replicate 20 0 } =
      ({ cut := 10, asg := (List.range 20).map (· % 2) }, ok 1) :=
  ⟨Ex.prism_valid, by decide, rfl, Ex.prism_groups, Or.inl rfl, by decide, by decide +kernel⟩

end Poros
