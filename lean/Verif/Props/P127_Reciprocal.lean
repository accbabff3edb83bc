import Verif.Props.P125_Clusters
/-
C127: the number of parts for which even shares are exact, without the bound of 48.
-/
namespace Poros
open Finset Res Concrete

/-- **C127, which numbers of parts.** In doubles `1.0 / k * k` is 1 for every `k` from 1 to 48 and every power of two, and not
for 49, 98, 103, 107 and 161. -/
theorem C127_which [Concrete.Log2Impl] : (∀ k, 1 ≤ k → k ≤ 48 → RoundTrip k) ∧ (∀ d, d < 32 → RoundTrip (2 ^ d)) ∧
    ∀ k ∈ [49, 98, 103, 107, 161], ¬ RoundTrip k := by
  refine ⟨fun _ h h' => RoundTrip.of_le h h', fun _ h => RoundTrip.two_pow h, ?_⟩
  have h : ∀ k : Nat, k ∈ [49, 98, 103, 107, 161] → k < 200 ∧
      (match F64.mul (F64.div (F64.fin 1) (F64.fin k)) (F64.fin k) with
        | .fin f => decide (f < 1)
        | _ => false) = true := by decide +kernel
  intro k hk hr
  obtain ⟨h1, h2⟩ := h k hk
  unfold RoundTrip at hr
  rw [lit_one, ofNat_exact (by omega)] at hr
  rw [show F64.mul (F64.div (F64.fin 1) (F64.fin k)) (F64.fin k) = F64.fin 1 from hr] at h2
  exact absurd h2 (by decide)

/-- **C127, unit weights.** For every valid input whose vertices all have weight 1, with at most 20 vertices or no edges, any
number of parts for which `1.0 / k * k` is 1 in doubles, and a number of vertices that is a positive multiple of it: the call
returns 1 and every part has exactly the same number of vertices. -/
theorem C127_exact_parts [Concrete.Log2Impl] (pq : PQImpl) (set : SetImpl) (rng : RngImpl) {i : Input} (hv : i.Valid)
    (hone : ∀ v, v < i.numVertices → weightAt i.vertexWeights v = 1) (hsmall : i.numVertices ≤ 20 ∨ i.numEdges = 0)
    (hk : 2 ≤ i.numPartitions) (hrt : RoundTrip i.numPartitions) {c : Nat} (hc : 0 < c)
    (hdiv : i.numVertices = i.numPartitions * c) {o : Options Concrete.fp} (ho : o.Known)
    (hcuts : 0 < o.numGlobalCuts) {out : Out} (hb : i.numVertices ≤ out.asg.length) :
    ∃ out', partGraphRecursive (dblEnv pq set rng) i (some o) out = (out', ok 1) ∧
      ∀ q, q < i.numPartitions → i.partSize (nth out'.asg) q = c := by
  have hn : i.numVertices < 4294967296 := by
    have := hv.vtxFits
    rw [sum_congr rfl fun v hv' => hone v (mem_range.mp hv')] at this
    simpa using this
  exact exact_parts_of pq set rng hv hone hsmall hk
    (lt_of_le_of_lt (Nat.le_mul_of_pos_right _ hc) (hdiv ▸ hn)) hrt hc hdiv ho hcuts hb

/-- **C127, the condition is necessary.** As many vertices as parts, without weights and edges: if `1.0 / k * k` is not 1, the
target weight of every part is 0, and the call is undefined behaviour. -/
theorem C127_undefined [Concrete.Log2Impl] (pq : PQImpl) (set : SetImpl) (rng : RngImpl) {i : Input} (hv : i.Valid)
    (hnull : i.vertexWeights = none) (he : i.numEdges = 0) (hk : 2 ≤ i.numPartitions)
    (hn : i.numVertices = i.numPartitions) (hrt : ¬ RoundTrip i.numPartitions)
    {o : Options Concrete.fp} (ho : o.Known) (hcuts : 0 < o.numGlobalCuts) (out : Out) :
    (partGraphRecursive (dblEnv pq set rng) i (some o) out).2 = ub := by
  have htot := null_total hnull
  have hk' : i.numPartitions < 4294967296 := by
    have hlt := hv.vtxFits
    rw [show (∑ v ∈ range i.numVertices, weightAt i.vertexWeights v) = i.totalWeight from rfl, htot, hn] at hlt
    simpa using hlt
  obtain ⟨P, hp, hfit⟩ := prepare_total (E := dblEnv pq set rng) Concrete.uniformOK hv (by omega) (by omega) ho
  have hP := prepare_ok hv hp
  have ht := hP.target
  rw [htot, hn] at ht
  obtain ⟨a, b, etw, emx, hab, h3, -⟩ := call_limits hk (by simpa using hk') (by omega) ht
  have h1 := (evenShares ht).target 0 (by omega)
  rw [etw, nth_replicate (by omega)] at h1
  have h1' : a = 0 := (Option.some.inj ((share_zero (by omega) hk' hrt).symm.trans h1)).symm
  have h2' : b ≤ 1 := by
    have hk0 : (0 : ℚ) < i.numPartitions := by exact_mod_cast (show 0 < i.numPartitions by omega)
    have e : (1 : ℚ) / i.numPartitions * i.numPartitions = 1 := by field_simp
    rw [e] at h3
    have : (b : ℚ) < 2 := by linarith
    have : b < 2 := by exact_mod_cast this
    omega
  refine null_short hv hnull (Or.inr he) (by omega) (by simpa using hk') hcuts hp hfit etw emx ?_ out
  rw [h1', hn, Nat.mul_zero, Nat.zero_add]
  have : (i.numPartitions - i.numPartitions / 2) * b ≤ (i.numPartitions - i.numPartitions / 2) * 1 :=
    Nat.mul_le_mul_left _ h2'
  omega

/-- **C127, exactly these.** As many vertices as parts, without weights and edges, and room for the labels: the call returns 1
if and only if `1.0 / k * k` is 1 in doubles, and otherwise it is undefined behaviour. -/
theorem C127_exactly [Concrete.Log2Impl] (pq : PQImpl) (set : SetImpl) (rng : RngImpl) {i : Input} (hv : i.Valid)
    (hnull : i.vertexWeights = none) (he : i.numEdges = 0) (hk : 2 ≤ i.numPartitions)
    (hn : i.numVertices = i.numPartitions) {o : Options Concrete.fp} (ho : o.Known) (hcuts : 0 < o.numGlobalCuts) {out : Out}
    (hb : i.numVertices ≤ out.asg.length) :
    ((partGraphRecursive (dblEnv pq set rng) i (some o) out).2 = ok 1 ↔ RoundTrip i.numPartitions) ∧
    ((partGraphRecursive (dblEnv pq set rng) i (some o) out).2 = ub ↔ ¬ RoundTrip i.numPartitions) := by
  by_cases h : RoundTrip i.numPartitions
  · obtain ⟨out', h', -⟩ := C127_exact_parts pq set rng hv (fun v _ => by rw [hnull]; rfl) (Or.inr he) hk h (c := 1)
      (by decide) (by omega) ho hcuts hb
    rw [h']
    exact ⟨⟨fun _ => h, fun _ => rfl⟩, ⟨nofun, fun h' => absurd h h'⟩⟩
  · rw [C127_undefined pq set rng hv hnull he hk hn h ho hcuts out]
    exact ⟨⟨nofun, fun h' => absurd h' h⟩, ⟨fun _ => h, fun _ => rfl⟩⟩

/-- **C127, components.** Connected components of equal weight, a multiple of the number of parts, are grouped whole into parts
of exactly equal weight, with cut 0, for any number of parts for which `1.0 / k * k` is 1. -/
theorem C127_grouped [Concrete.Log2Impl] (pq : PQImpl) (set : SetImpl) (rng : RngImpl) {i : Input} (hv : i.Valid)
    (hk : 2 ≤ i.numPartitions) (hrt : RoundTrip i.numPartitions) {comp : Nat → Nat} {j c : Nat} (hj : 0 < j) (hc : 0 < c)
    (hcomp : i.Components comp (i.numPartitions * j) c) {o : Options Concrete.fp} (ho : o.Known)
    (hcuts : 0 < o.numGlobalCuts) {out : Out} (hb : i.numVertices ≤ out.asg.length) :
    ∃ out', partGraphRecursive (dblEnv pq set rng) i (some o) out = (out', ok 1) ∧ out'.cut = 0 ∧
      (∀ v u, v < i.numVertices → u < i.numVertices → comp v = comp u → nth out'.asg v = nth out'.asg u) ∧
      ∀ q, q < i.numPartitions → i.partWeight (nth out'.asg) q = j * c := by
  refine grouped_of pq set rng hv hk ?_ hrt hj hc hcomp ho hcuts hb
  have hlt := hv.vtxFits
  have h1 : (∑ v ∈ range i.numVertices, weightAt i.vertexWeights v) = i.numPartitions * j * c := by
    have h1 : ∀ v ∈ range i.numVertices, weightAt i.vertexWeights v =
        ∑ q ∈ range (i.numPartitions * j), if comp v = q then weightAt i.vertexWeights v else 0 := fun v hv' => by
      rw [sum_ite_eq, if_pos (mem_range.mpr (hcomp.lt v (mem_range.mp hv')))]
    rw [sum_congr rfl h1, sum_comm, sum_const_nat (m := c), card_range]
    exact fun q hq => hcomp.weight q (mem_range.mp hq)
  rw [h1, Nat.mul_assoc] at hlt
  have := Nat.le_mul_of_pos_right i.numPartitions (Nat.mul_pos hj hc)
  have h2 : i.numPartitions * (j * c) < 4294967296 := by simpa using hlt
  omega

namespace Ex

/-- 64 separate edges, with vertices `v` and `v + 64` joined. -/
def matchIn : Input := ringsIn 64 2

end Ex

/-- The hypotheses are met by 64 loose vertices in 64 parts, and the call indeed gives every vertex its own part; 98 loose
vertices in 98 parts meet those of `C127_undefined`; 64 pairs in 64 parts meet those of `C127_grouped`. -/
example : (looseIn 64 64).Valid ∧ (looseIn 64 64).numVertices = (looseIn 64 64).numPartitions * 1 ∧
    RoundTrip (looseIn 64 64).numPartitions ∧ (looseIn 98 98).Valid ∧ ¬ RoundTrip (looseIn 98 98).numPartitions ∧
    Ex.matchIn.Valid ∧ Ex.matchIn.numPartitions = 64 ∧ Ex.matchIn.Components (fun v => v % 64) (64 * 1) 2 ∧
    (Ex.cuts 1).Known ∧ 0 < (Ex.cuts 1).numGlobalCuts := by
  refine ⟨Ex.valid_of (by constructor <;> decide +kernel) (by decide +kernel) (by decide +kernel) (by decide +kernel)
    (by decide +kernel), rfl, RoundTrip.two_pow (d := 6) (by decide), Ex.valid_of (by constructor <;> decide +kernel)
    (by decide +kernel) (by decide +kernel) (by decide +kernel) (by decide +kernel),
    C127_which.2.2 98 (by decide), Ex.valid_of (by constructor <;> decide +kernel)
    (by decide +kernel) (by decide +kernel) (by decide +kernel) (by decide +kernel), rfl, ?_, Or.inr rfl, by decide⟩
  refine ⟨by decide +kernel, by decide +kernel, by decide +kernel, ?_, fun q hq => ?_⟩
  · intro v hv e h1 h2
    have p : ∀ v, v < 128 → nth Ex.matchIn.edgePrefix v = 2 * v ∧ nth Ex.matchIn.edgePrefix (v + 1) = 2 * v + 2 := by
      decide +kernel
    have p2 : ∀ e, e < 256 → nth Ex.matchIn.edgeList e % 64 = e / 2 % 64 := by decide +kernel
    have hv : v < 128 := hv
    obtain ⟨p3, p4⟩ := p v hv
    rw [p3] at h1
    rw [p4] at h2
    show nth Ex.matchIn.edgeList e % 64 = v % 64
    rw [p2 e (by omega)]
    congr 1
    omega
  · refine Ex.linked_of_next (fun v => (v + 64) % 128) ?_ ?_
    · have : ∀ v, v < 128 → 0 < Ex.matchIn.wt v ((v + 64) % 128) := by decide +kernel
      intro v hv e
      exact ⟨Nat.mod_lt _ (by decide), by show (v + 64) % 128 % 64 = q; omega, this v hv⟩
    · intro v hv u hu e1 e2
      have hv : v < 128 := hv
      have hu : u < 128 := hu
      by_cases h : v = u
      · exact ⟨0, by decide, h⟩
      · refine ⟨1, by decide, ?_⟩
        show (v + 64) % 128 = u
        omega

end Poros
