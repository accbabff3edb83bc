import Verif.Proofs.Api
import Verif.Props.P36_Recursive
import Verif.ExamplesApi
import Verif.Proofs.F64Laws
/-
C38-C41: the C interface.
-/
namespace Poros
open Finset Res

variable {E : Env}

/-- The runs of a successful call: the results of `numGlobalCuts` runs of the partitioner, one after the other, on
the caller's graph and the uniform target with 3% tolerance, starting with the seeded random engine. -/
structure IsRuns (E : Env) (i : Input) (o : Options E.fp) (g : Graph) (ps : List Partitioning) : Prop where
  graph : Graph.ofPtrs i.numVertices i.numEdges i.edgePrefix i.edgeList i.vertexWeights i.edgeWeights = ok g
  runs : ∃ s t r', makeScheme o.aggregationScheme = ok s ∧
    Target.uniform i.numPartitions i.totalWeight (E.fp.lit 3 2) = ok t ∧
    candidates (partitioner E s) t g o.numGlobalCuts.toNat (E.rng.seed o.randomSeed) = ok (ps, r')
  count : ps.length = o.numGlobalCuts.toNat
  exact : ∀ p ∈ ps, IsExact g i.numPartitions p

theorem partitioner_exact {i : Input} (hk : 2 ≤ i.numPartitions) (hk' : i.numPartitions < 2 ^ 32)
    {o : Options E.fp} {P : Prepared E} (hP : PreparedOK i o P) {r : E.rng.S} {p : Partitioning} {r' : E.rng.S}
    (h : partitioner E P.scheme P.target P.graph r = ok (p, r')) : IsExact P.graph i.numPartitions p := by
  have := (C36_multilevel P.scheme (t := P.target) (by rw [hP.k]; exact hk) (by rw [hP.k]; exact hk') hP.tw hP.mx
    hP.good r).1 p r' h
  rw [← hP.k]
  exact this.1

theorem runs_exact {i : Input} (hk : 2 ≤ i.numPartitions) (hk' : i.numPartitions < 2 ^ 32)
    {o : Options E.fp} {P : Prepared E} (hP : PreparedOK i o P) :
    ∀ {n : Nat} {r : E.rng.S} {ps : List Partitioning} {r' : E.rng.S},
      candidates (partitioner E P.scheme) P.target P.graph n r = ok (ps, r') →
      ∀ p ∈ ps, IsExact P.graph i.numPartitions p
  | 0, r, ps, r', h, p, hp => by
    cases h
    cases hp
  | n + 1, r, ps, r', h, p, hp => by
    obtain ⟨a, h1, h⟩ := bind_eq_ok h
    obtain ⟨c, h2, h⟩ := bind_eq_ok h
    cases h
    rcases List.mem_append.mp hp with hp | hp
    · exact runs_exact hk hk' hP h1 p hp
    · rw [List.mem_singleton.mp hp]
      exact partitioner_exact hk hk' hP h2

/-! ### C39 -/

/-- **C39.** A call that returns 1 with `numGlobalCuts ≥ 1` made that many runs and wrote the first one among those
with the smallest cut. -/
theorem C39_best_of_runs {i : Input} (hv : i.Valid) (hk : 2 ≤ i.numPartitions) (hk' : i.numPartitions < 2 ^ 32)
    {o : Options E.fp} (hc : 0 < o.numGlobalCuts) {out out' : Out}
    (h : partGraphRecursive E i (some o) out = (out', ok 1)) :
    ∃ g ps j, IsRuns E i o g ps ∧ FirstBest ps j ∧ IsOutput (nth ps j) out out' := by
  obtain ⟨P, hp, hl⟩ := call_ok h
  have hP := prepare_ok hv hp
  obtain ⟨ps, r', b, h1, h2, h3⟩ := cutsLoop_spec (bis := partitioner E P.scheme) (t := P.target) (g := P.graph)
    (n0 := P.graph.nv) (fun r p r' hr => (partitioner_exact hk hk' hP hr).asg_len)
    (r0 := E.rng.seed o.randomSeed) (out0 := out) o.numGlobalCuts.toNat 0 0 out _ [] rfl rfl
    (fun p hp => nomatch hp) ⟨fun _ => rfl, fun h => absurd rfl h⟩ (by rw [hl])
  rw [hl] at h3
  rw [Nat.zero_add] at h1 h2
  obtain ⟨g, hg, -, hr, -⟩ := hv.good
  have hgP : Graph.ofPtrs i.numVertices i.numEdges i.edgePrefix i.edgeList i.vertexWeights i.edgeWeights =
      ok P.graph := by
    unfold prepare at hp
    rw [rd_of_lt (by have := hv.csr.xadj_len; omega), ok_bind] at hp
    rw [show nth i.edgePrefix i.numVertices = i.numEdges from rfl, hg, ok_bind] at hp
    obtain ⟨s, -, hp⟩ := bind_eq_ok hp
    obtain ⟨t, -, hp⟩ := bind_eq_ok hp
    cases hp
    exact hg
  have hne : ps ≠ [] := by
    rintro rfl
    simp at h2
    omega
  obtain ⟨j, h4, -, h5⟩ := h3.2 hne
  exact ⟨P.graph, ps, j, ⟨hgP, ⟨_, _, _, hP.scheme, hP.target, h1⟩, h2, runs_exact hk hk' hP h1⟩, h4, h5⟩

/-! ### C38 -/

theorem exact_cut {i : Input} (hv : i.Valid) {g : Graph}
    (hr : Represents i.numVertices i.numEdges i.edgePrefix i.edgeList i.vertexWeights i.edgeWeights g)
    {k : Nat} {p : Partitioning} (hp : IsExact g k p) : p.cut = i.cut p.lab := by
  rw [hp.cut_eq, hv.csr.cut_eq hr]
  rfl

/-- **C38.** When a call returns 1 with at least two parts and `numGlobalCuts ≥ 1`: every vertex got a label below the
number of parts, the written cut is the weight of the undirected edges of the caller's graph that the written
assignment cuts, and nothing beyond the first `numVertices` entries changed. -/
theorem C38_valid_output {i : Input} (hv : i.Valid) (hk : 2 ≤ i.numPartitions) (hk' : i.numPartitions < 2 ^ 32)
    {o : Options E.fp} (hc : 0 < o.numGlobalCuts) {out out' : Out}
    (h : partGraphRecursive E i (some o) out = (out', ok 1)) :
    (∀ v, v < i.numVertices → nth out'.asg v < i.numPartitions) ∧ out'.cut = i.cut (nth out'.asg) ∧
      out'.asg.length = out.asg.length ∧ ∀ v, i.numVertices ≤ v → nth out'.asg v = nth out.asg v := by
  obtain ⟨g, ps, j, hruns, hj, hout⟩ := C39_best_of_runs hv hk hk' hc h
  obtain ⟨g', hg', -, hr, -⟩ := hv.good
  rw [hruns.graph] at hg'
  cases hg'
  have hex := hruns.exact _ (nth_mem hj.1)
  have hlen : (nth ps j).asg.length = i.numVertices := by rw [hex.asg_len, hr.nv_eq]
  have hlab : ∀ v, v < i.numVertices → nth out'.asg v = (nth ps j).lab v := fun v hv' =>
    hout.labels v (by omega)
  refine ⟨fun v hv' => ?_, ?_, hout.len, fun v hv' => hout.rest v (by omega)⟩
  · rw [hlab v hv']
    exact hex.complete v (by rw [hr.nv_eq]; exact hv')
  · rw [hout.cut, exact_cut hv hr hex]
    unfold Input.cut csrCut
    refine sum_congr rfl fun v hv' => sum_congr rfl fun u hu => ?_
    have hv' := mem_range.mp hv'
    have hu := mem_range.mp hu
    rw [hlab v hv', hlab u (by omega)]

/-- **C38, termination.** With at least two parts the call on a valid graph always comes to an end. -/
theorem C38_terminates (hsr : E.fp.SelfRatio) {i : Input} (hv : i.Valid) (hk : 2 ≤ i.numPartitions)
    (hk' : i.numPartitions < 2 ^ 32) (o : Option (Options E.fp)) (out : Out) :
    (partGraphRecursive E i o out).2 ≠ diverge := by
  cases o with
  | none => intro h; cases h
  | some o =>
    unfold partGraphRecursive
    simp only
    cases hp : prepare E i o with
    | ub => intro h; cases h
    | exn => intro h; cases h
    | diverge =>
      exfalso
      obtain ⟨g, -, -, -, he⟩ := prepare_eq hv o
      rw [he] at hp
      have : Ends (do
        let s ← makeScheme o.aggregationScheme
        let t ← Target.uniform i.numPartitions i.totalWeight (E.fp.lit 3 2)
        (.ok (Prepared.mk g s t) : Res (Prepared E))) (fun _ => True) := by
        refine Wp.ends.mp (Wp.bind (Q := fun _ => True) ?_ fun s _ => Wp.bind (Q := fun _ => True) ?_ fun t _ => trivial)
        · unfold makeScheme
          split
          · trivial
          · split <;> trivial
        · exact Wp.ends.mpr (uniform_ends _ _ _)
      rw [hp] at this
      exact this
    | ok P =>
      have hP := prepare_ok hv hp
      have hd : ∀ r, partitioner E P.scheme P.target P.graph r ≠ diverge := fun r =>
        (C36_multilevel P.scheme (t := P.target) (by rw [hP.k]; exact hk) (by rw [hP.k]; exact hk') hP.tw hP.mx
          hP.good r).2 hsr
      have := cutsLoop_ends hd o.numGlobalCuts.toNat 0 0 out (E.rng.seed o.randomSeed)
      simp only [andThen]
      revert this
      generalize cutsLoop (partitioner E P.scheme P.target P.graph) o.numGlobalCuts.toNat 0 0 out
        (E.rng.seed o.randomSeed) = l
      intro hl h
      obtain ⟨l1, l2⟩ := l
      cases l2 with
      | diverge => exact hl rfl
      | _ => cases h

/-- The hypotheses of C38 and C39 are met by a call for two parts of the two joined triangles, with three runs. -/
example : Ex.tri2In.Valid ∧ 2 ≤ Ex.tri2In.numPartitions ∧ Ex.tri2In.numPartitions < 2 ^ 32 ∧
    0 < (Ex.cuts 3).numGlobalCuts ∧ Concrete.env.fp.SelfRatio ∧
    partGraphRecursive Concrete.env Ex.tri2In (some (Ex.cuts 3)) Ex.before =
      ({ cut := 1, asg := [0, 0, 0, 1, 1, 1, 9, 9] }, ok 1) :=
  ⟨Ex.tri2In_valid, by decide, by decide, by decide, Concrete.selfRatio, Ex.tri2In_call⟩

end Poros
