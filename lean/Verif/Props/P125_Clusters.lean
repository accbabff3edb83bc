import Verif.Proofs.ClustersCall
/-
C125: connected components of equal weight are found.
-/
namespace Poros
open Finset Res Concrete

/-- The caller's graph consists of `K` connected components: `comp v` is the component of vertex `v`. Each is connected along
edges of positive weight, no listed edge leads to another one, each has weight `c`, and no vertex has weight zero. -/
structure Input.Components (i : Input) (comp : Nat → Nat) (K c : Nat) : Prop where
  lt : ∀ v, v < i.numVertices → comp v < K
  weight : ∀ q, q < K → i.partWeight comp q = c
  pos : ∀ v, v < i.numVertices → 0 < weightAt i.vertexWeights v
  closed : ∀ v, v < i.numVertices → ∀ e, nth i.edgePrefix v ≤ e → e < nth i.edgePrefix (v + 1) →
    comp (nth i.edgeList e) = comp v
  linked : ∀ q, q < K → LinkedIn i.numVertices i.wt fun v => comp v = q

theorem Input.Describes.closed {i : Input} {g : Graph} (h : i.Describes g) {comp : Nat → Nat} {K c : Nat}
    (hc : i.Components comp K c) : Closed g comp := by
  intro v u hv' hvu
  rw [h.nv] at hv'
  obtain ⟨w, hw⟩ := hvu
  rw [h.nbrs v hv'] at hw
  obtain ⟨e, he, heq⟩ := List.mem_map.mp hw
  have h1 := List.mem_range'_1.mp he
  have := hc.closed v hv' e h1.1 (by omega)
  rw [show nth i.edgeList e = u from congrArg Prod.fst heq] at this
  exact this

theorem Input.Describes.clustered {i : Input} (hv : i.Valid) {g : Graph} (h : i.Describes g) {comp : Nat → Nat} {K c : Nat}
    (hc : i.Components comp K c) : Clustered g comp (range K) c 1 := by
  refine ⟨fun v hv' => ?_, fun q hq => ?_, fun v hv' => ?_, fun v hv' => ?_, fun q hq => ?_⟩
  · rw [h.nv] at hv'
    exact mem_range.mpr (hc.lt v hv')
  · rw [← hc.weight q (mem_range.mp hq)]
    exact (h.partWeight (fun _ _ => rfl) q).symm
  · rw [h.nv] at hv'
    rw [h.vw v hv']
    exact hc.pos v hv'
  · refine Nat.lt_one_iff.mpr (sum_eq_zero fun w hw => ?_)
    split
    · rfl
    · next k =>
      by_contra hn
      exact k (h.closed hc w v (mem_range.mp hw) (adj_of_wt (Nat.pos_of_ne_zero hn))).symm
  · rw [h.nv]
    refine (hc.linked q (mem_range.mp hq)).congr fun v u hv' => ?_
    rw [h.wt_eq hv hv']
    split <;> omega

/-- **C125** for any number of parts whose rounded reciprocal is close enough. -/
theorem grouped_of [Concrete.Log2Impl] (pq : PQImpl) (set : SetImpl) (rng : RngImpl) {i : Input} (hv : i.Valid)
    (hk : 2 ≤ i.numPartitions) (hk' : i.numPartitions < 4294967296)
    (hrt : RoundTrip i.numPartitions) {comp : Nat → Nat} {j c : Nat} (hj : 0 < j) (hc : 0 < c)
    (hcomp : i.Components comp (i.numPartitions * j) c) {o : Options Concrete.fp} (ho : o.Known)
    (hcuts : 0 < o.numGlobalCuts) {out : Out} (hb : i.numVertices ≤ out.asg.length) :
    ∃ out', partGraphRecursive (dblEnv pq set rng) i (some o) out = (out', ok 1) ∧ out'.cut = 0 ∧
      (∀ v u, v < i.numVertices → u < i.numVertices → comp v = comp u → nth out'.asg v = nth out'.asg u) ∧
      ∀ q, q < i.numPartitions → i.partWeight (nth out'.asg) q = j * c := by
  obtain ⟨out', h1, h2, h3⟩ := clusters_call_of pq set rng hv hk hk' hrt hj hc hcomp.lt hcomp.weight
    (fun g hg => ⟨hg.clustered hv hcomp, Or.inr (hg.closed hcomp)⟩) ho hcuts hb
  refine ⟨out', h1, ?_, h2, h3⟩
  obtain ⟨-, hcut, -⟩ := C38_valid_output (E := dblEnv pq set rng) hv hk (by omega) hcuts h1
  obtain ⟨g, -, -, hr, -⟩ := hv.good
  have hg := hv.describes hr
  rw [hcut, hg.cut hv (fun _ _ => rfl)]
  unfold cutWeight
  refine sum_eq_zero fun v hv' => sum_eq_zero fun u hu => ?_
  have hv' := mem_range.mp hv'
  have hu := mem_range.mp hu
  have hn := hg.nv
  split
  · next hne =>
    by_contra hw
    exact hne (h2 u v (by omega) (by omega) (hg.closed hcomp v u hv' (adj_of_wt (Nat.pos_of_ne_zero hw))))
  · rfl

/-- **C125.** For every valid input whose graph consists of connected components, `j` times as many as there are parts (2 to 48),
all of the same weight and without vertices of weight zero, whatever its size, the random engine, containers, seed, known scheme
and positive number of cuts: the call returns 1, the cut is 0, no component is split, and every part has exactly the same
weight. -/
theorem C125_grouped [Concrete.Log2Impl] (pq : PQImpl) (set : SetImpl) (rng : RngImpl) {i : Input} (hv : i.Valid)
    (hk : 2 ≤ i.numPartitions) (hk' : i.numPartitions ≤ 48) {comp : Nat → Nat} {j c : Nat} (hj : 0 < j) (hc : 0 < c)
    (hcomp : i.Components comp (i.numPartitions * j) c) {o : Options Concrete.fp} (ho : o.Known)
    (hcuts : 0 < o.numGlobalCuts) {out : Out} (hb : i.numVertices ≤ out.asg.length) :
    ∃ out', partGraphRecursive (dblEnv pq set rng) i (some o) out = (out', ok 1) ∧ out'.cut = 0 ∧
      (∀ v u, v < i.numVertices → u < i.numVertices → comp v = comp u → nth out'.asg v = nth out'.asg u) ∧
      ∀ q, q < i.numPartitions → i.partWeight (nth out'.asg) q = j * c :=
  grouped_of pq set rng hv hk (by omega) (RoundTrip.of_le (by omega) hk') hj hc hcomp ho hcuts hb

/-- **C125, as many components as parts.** The parts are the components. -/
theorem C125_components [Concrete.Log2Impl] (pq : PQImpl) (set : SetImpl) (rng : RngImpl) {i : Input} (hv : i.Valid)
    (hk : 2 ≤ i.numPartitions) (hk' : i.numPartitions ≤ 48) {comp : Nat → Nat} {c : Nat} (hc : 0 < c)
    (hcomp : i.Components comp i.numPartitions c) {o : Options Concrete.fp} (ho : o.Known)
    (hcuts : 0 < o.numGlobalCuts) {out : Out} (hb : i.numVertices ≤ out.asg.length) :
    ∃ out', partGraphRecursive (dblEnv pq set rng) i (some o) out = (out', ok 1) ∧ out'.cut = 0 ∧
      ∀ v u, v < i.numVertices → u < i.numVertices → (nth out'.asg v = nth out'.asg u ↔ comp v = comp u) := by
  obtain ⟨out', h1, h2, h3, h4⟩ := C125_grouped pq set rng hv hk hk' (j := 1) (by decide) hc
    (by rw [Nat.mul_one]; exact hcomp) ho hcuts hb
  exact ⟨out', h1, h2, fun v u hv' hu => clusters_are_parts hc hcomp.lt hcomp.weight
    (C38_valid_output (E := dblEnv pq set rng) hv hk (by omega) hcuts h1).1 (fun q hq => by rw [h4 q hq, one_mul]) h3 hv' hu⟩

namespace Ex

/-- `k` interleaved rings of `m` vertices: vertex `v` belongs to ring `v % k`. -/
def ringsIn (k m : Nat) : Input :=
  { numVertices := k * m, edgePrefix := (List.range (k * m + 1)).map fun v => 2 * v,
    edgeList := (List.range (k * m)).flatMap fun v => [(v + k) % (k * m), (v + k * m - k) % (k * m)],
    vertexWeights := none, edgeWeights := none, numPartitions := k }

theorem linked_of_next {n : Nat} {wt : Nat → Nat → Nat} {P : Nat → Prop} (next : Nat → Nat)
    (h1 : ∀ v, v < n → P v → next v < n ∧ P (next v) ∧ 0 < wt v (next v))
    (h2 : ∀ v, v < n → ∀ u, u < n → P v → P u → ∃ j, j < n ∧ next^[j] v = u) : LinkedIn n wt P := by
  intro v u hv hu pv pu
  obtain ⟨j, -, rfl⟩ := h2 v hv u hu pv pu
  have key : ∀ j, next^[j] v < n ∧ P (next^[j] v) ∧
      Relation.ReflTransGen (fun a b => b < n ∧ P b ∧ 0 < wt a b) v (next^[j] v) := by
    intro j
    induction j with
    | zero => exact ⟨hv, pv, .refl⟩
    | succ j ih =>
      obtain ⟨i1, i2, i3⟩ := ih
      rw [Function.iterate_succ_apply']
      obtain ⟨k1, k2, k3⟩ := h1 _ i1 i2
      exact ⟨k1, k2, i3.tail ⟨k1, k2, k3⟩⟩
  exact (key j).2.2

theorem rings_valid : (ringsIn 3 8).Valid :=
  valid_of (by constructor <;> decide +kernel) (by decide +kernel) (by decide +kernel) (by decide +kernel)
    (by decide +kernel)

theorem rings_components : (ringsIn 3 8).Components (fun v => v % 3) 3 8 := by
  refine ⟨by decide +kernel, by decide +kernel, by decide +kernel, ?_, fun q hq => ?_⟩
  · have : ∀ v, v < 24 → ∀ e, e < 48 → nth (ringsIn 3 8).edgePrefix v ≤ e → e < nth (ringsIn 3 8).edgePrefix (v + 1) →
        nth (ringsIn 3 8).edgeList e % 3 = v % 3 := by decide +kernel
    intro v hv e h1 h2
    refine this v hv e ?_ h1 h2
    have h3 : ∀ v, v < 24 → nth (ringsIn 3 8).edgePrefix (v + 1) ≤ 48 := by decide +kernel
    have := h3 v hv
    omega
  · refine linked_of_next (fun v => (v + 3) % 24) ?_ ?_
    · have : ∀ v, v < 24 → 0 < (ringsIn 3 8).wt v ((v + 3) % 24) := by decide +kernel
      intro v hv e
      exact ⟨Nat.mod_lt _ (by decide), by show (v + 3) % 24 % 3 = q; omega, this v hv⟩
    · have : ∀ v, v < 24 → ∀ u, u < 24 → v % 3 = u % 3 → ∃ j, j < 24 ∧ (fun v => (v + 3) % 24)^[j] v = u := by
        decide +kernel
      exact fun v hv u hu e1 e2 => this v hv u hu (e1.trans e2.symm)

/-- Four rings of six vertices, to be divided into two parts. -/
def pairsIn : Input := { ringsIn 4 6 with numPartitions := 2 }

theorem pairs_valid : pairsIn.Valid :=
  valid_of (by constructor <;> decide +kernel) (by decide +kernel) (by decide +kernel) (by decide +kernel)
    (by decide +kernel)

theorem pairs_components : pairsIn.Components (fun v => v % 4) 4 6 := by
  refine ⟨by decide +kernel, by decide +kernel, by decide +kernel, ?_, fun q hq => ?_⟩
  · have : ∀ v, v < 24 → ∀ e, e < 48 → nth pairsIn.edgePrefix v ≤ e → e < nth pairsIn.edgePrefix (v + 1) →
        nth pairsIn.edgeList e % 4 = v % 4 := by decide +kernel
    intro v hv e h1 h2
    refine this v hv e ?_ h1 h2
    have h3 : ∀ v, v < 24 → nth pairsIn.edgePrefix (v + 1) ≤ 48 := by decide +kernel
    have := h3 v hv
    omega
  · refine linked_of_next (fun v => (v + 4) % 24) ?_ ?_
    · have : ∀ v, v < 24 → 0 < pairsIn.wt v ((v + 4) % 24) := by decide +kernel
      intro v hv e
      exact ⟨Nat.mod_lt _ (by decide), by show (v + 4) % 24 % 4 = q; omega, this v hv⟩
    · have : ∀ v, v < 24 → ∀ u, u < 24 → v % 4 = u % 4 → ∃ j, j < 24 ∧ (fun v => (v + 4) % 24)^[j] v = u := by
        decide +kernel
      exact fun v hv u hu e1 e2 => this v hv u hu (e1.trans e2.symm)

/-- A vertex of weight 100 and a path of vertices of weights 2, 98, 2. -/
def unevenIn : Input :=
  { numVertices := 4, edgePrefix := [0, 0, 1, 3, 4], edgeList := [2, 1, 3, 2], vertexWeights := some [100, 2, 98, 2],
    edgeWeights := none, numPartitions := 2 }

theorem unevenIn_valid : unevenIn.Valid :=
  valid_of (by constructor <;> decide +kernel) (by decide +kernel) (by decide +kernel) (by decide +kernel)
    (by decide +kernel)

end Ex

/-- **C125, unequal components.** Components whose weights differ only a little may be cut, although the split along them cuts
nothing and is within the limits: here of weights 100 and 102, with limits of 104. -/
theorem C125_unequal : Ex.unevenIn.Valid ∧
    partGraphRecursive Concrete.env Ex.unevenIn (some (Ex.cuts 1)) { cut := 0, asg := [0, 0, 0, 0] } =
      ({ cut := 1, asg := [0, 1, 1, 0] }, ok 1) ∧
    EvenShares Concrete.fp 2 Ex.unevenIn.totalWeight [101, 101] [104, 104] ∧
    Ex.unevenIn.cut (nth [0, 1, 1, 1]) = 0 ∧ Ex.unevenIn.partWeight (nth [0, 1, 1, 1]) 0 = 100 ∧
    Ex.unevenIn.partWeight (nth [0, 1, 1, 1]) 1 = 102 := by
  refine ⟨Ex.unevenIn_valid, by decide +kernel, ⟨⟨rfl, rfl⟩, ?_, ?_⟩, by decide +kernel, by decide +kernel, by decide +kernel⟩
  · intro q hq
    obtain rfl | rfl : q = 0 ∨ q = 1 := by omega
    all_goals decide +kernel
  · intro q hq
    obtain rfl | rfl : q = 0 ∨ q = 1 := by omega
    all_goals decide +kernel

/-- The hypotheses are met by three interleaved rings of eight vertices, a graph that is coarsened. -/
example : (Ex.ringsIn 3 8).Valid ∧ (Ex.ringsIn 3 8).numPartitions = 3 ∧ (Ex.ringsIn 3 8).Components (fun v => v % 3) 3 8 ∧
    20 < (Ex.ringsIn 3 8).numVertices ∧ (Ex.cuts 1).Known ∧ 0 < (Ex.cuts 1).numGlobalCuts ∧
    partGraphRecursive Concrete.env (Ex.ringsIn 3 8) (some (Ex.cuts 1)) { cut := 7, asg := List.replicate 24 0 } =
      ({ cut := 0, asg := (List.range 24).map (· % 3) }, ok 1) :=
  ⟨Ex.rings_valid, rfl, Ex.rings_components, by decide, Or.inr rfl, by decide, by decide +kernel⟩

/-- The hypotheses of `C125_grouped` are met by four rings divided into two parts. -/
example : Ex.pairsIn.Valid ∧ Ex.pairsIn.numPartitions = 2 ∧
    Ex.pairsIn.Components (fun v => v % 4) (Ex.pairsIn.numPartitions * 2) 6 ∧ 20 < Ex.pairsIn.numVertices ∧
    partGraphRecursive Concrete.env Ex.pairsIn (some (Ex.cuts 1)) { cut := 7, asg := List.replicate 24 0 } =
      ({ cut := 0, asg := (List.range 24).map fun v => if v % 4 = 0 ∨ v % 4 = 3 then 0 else 1 }, ok 1) :=
  ⟨Ex.pairs_valid, rfl, Ex.pairs_components, by decide, by decide +kernel⟩

end Poros
