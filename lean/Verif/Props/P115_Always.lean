/-
Copyright (c) 2026. Termination and absence of exceptions on arbitrary input graphs.
-/
import Verif.Proofs.Always
import Verif.Props.P92_SelfLoop
import Verif.Props.P93_AnyInput

/-!
C115: no call hangs or throws, whatever graph the caller's arrays hold.

The arrays are well formed (`CSR`), but nothing is assumed about the graph: edges need not be listed at both ends, there may
be self loops and parallel edges, and the weights may add up to more than 32 bits hold.  Undefined behaviour is possible on
such input (C42, C53, C92); an endless loop, an endless recursion or an exception is not.
-/

namespace Poros

open Finset Res

variable {E : Env}

/-- **C115.** A call with well-formed arrays, a known aggregation scheme and two or more parts either returns 1 or runs into
undefined behaviour; it does not throw and does not run forever.  If it returns 1 and was asked for a partitioning, every
vertex has got a label below the number of parts, the written cut is half the weight of the listed edges between different
labels (that weight modulo 2^32), and nothing else of the caller's buffer has changed. -/
theorem C115_always_ends (hfp : E.fp.CallOK) {i : Input}
    (hc : CSR i.numVertices i.numEdges i.edgePrefix i.edgeList i.vertexWeights i.edgeWeights) (hk : 2 ≤ i.numPartitions)
    (hk' : i.numPartitions < 2 ^ 32) {o : Options E.fp} (ho : o.Known) (out : Out) :
    (partGraphRecursive E i (some o) out).2 = ub ∨
      ∃ out', partGraphRecursive E i (some o) out = (out', ok 1) ∧ (0 < o.numGlobalCuts →
        (∀ v, v < i.numVertices → nth out'.asg v < i.numPartitions) ∧
        out'.cut = i.listedCut (nth out'.asg) % 2 ^ 32 / 2 ∧ out'.asg.length = out.asg.length ∧
        ∀ v, i.numVertices ≤ v → nth out'.asg v = nth out.asg v) := by
  obtain ⟨g, hg, hr⟩ := ofPtrs_spec hc.nv_lt hc.xadj_len hc.adj_len hc.vw_len hc.aw_len
  have hwf := hc.wf hr
  have htot : g.totVtx = i.totalWeight % 2 ^ 32 := by
    rw [hr.totVtx_eq]
    norm_num
    rfl
  obtain ⟨s, hs⟩ := makeScheme_known ho
  obtain ⟨t, ht, hfit⟩ := hfp.uniform.uniform i.numPartitions (i.totalWeight % 2 ^ 32) hk (by norm_num at hk' ⊢; exact hk')
    (by have := Nat.mod_lt i.totalWeight (show 0 < 2 ^ 32 by norm_num); norm_num at this ⊢; exact this)
  have hprep : prepare E i o = ok ⟨g, s, t⟩ := by
    unfold prepare
    rw [rd_of_lt (by have := hc.xadj_len; omega), ok_bind]
    rw [show nth i.edgePrefix i.numVertices = i.numEdges from rfl, hg, ok_bind, hs, ok_bind, htot]
    show (Target.uniform _ _ _ >>= _) = _
    rw [ht, ok_bind]
  obtain ⟨-, h3, -, h4, h5, -⟩ := ofFractions_shape ht
  have hrun : ∀ r, Stops False (partitioner E s t g r) := fun r =>
    Stops.partitioner s (hfp.multilevel 0 (by norm_num)) (by rw [h3]; exact hk)
      (by rw [h3]; norm_num at hk' ⊢; exact hk') (by rw [h3]; exact h4) (by rw [h3]; exact h5)
      (by have := hwf.ne_lt; omega) r
  have h1 := cutsLoop_ends (run := partitioner E s t g)
    (fun r h => by have := hrun r; rw [h] at this; exact this) o.numGlobalCuts.toNat 0 0 out (E.rng.seed o.randomSeed)
  have h2 := cutsLoop_noexn (run := partitioner E s t g)
    (fun r h => by have := hrun r; rw [h] at this; exact this) o.numGlobalCuts.toNat 0 0 out (E.rng.seed o.randomSeed)
  have key : (partGraphRecursive E i (some o) out).2 = ok 1 ∨ (partGraphRecursive E i (some o) out).2 = ub := by
    unfold partGraphRecursive
    simp only
    rw [hprep]
    simp only [andThen]
    revert h1 h2
    generalize cutsLoop (partitioner E s t g) o.numGlobalCuts.toNat 0 0 out (E.rng.seed o.randomSeed) = l
    obtain ⟨l1, l2⟩ := l
    intro h1 h2
    cases l2 with
    | ok a => exact Or.inl rfl
    | ub => exact Or.inr rfl
    | exn => exact absurd rfl h2
    | diverge => exact absurd rfl h1
  rcases key with key | key
  · have he : partGraphRecursive E i (some o) out = ((partGraphRecursive E i (some o) out).1, ok 1) := Prod.ext rfl key
    exact Or.inr ⟨_, he, fun hcuts => C93_any_graph hc hcuts he⟩
  · exact Or.inl key

/-- **C115.** Refinement comes to an end from every state: whatever graph, partitioning and connectivity information it is
given, consistent or not, and it raises no exception. -/
theorem C115_refinement_ends (g : Graph) (t : Target E.fp) (maxIters maxMoves : Nat) (p : Partitioning) (c : Conn E.set) :
    fmRefine g t maxIters maxMoves p c ≠ diverge ∧ fmRefine g t maxIters maxMoves p c ≠ exn := by
  have h : Stops False (fmRefine g t maxIters maxMoves p c) := Stops.fmRefine g t maxIters maxMoves p c
  exact ⟨fun e => by rw [e] at h; exact h, fun e => by rw [e] at h; exact h⟩

/-- **C115.** So does the multilevel bisector, for every graph with less than 2^32 listed edges. -/
theorem C115_bisection_ends (hml : E.fp.MultilevelOK 0) (s : Scheme) (g : Graph) (hn : g.ne < 2 ^ 32) (t : Target E.fp)
    (r : E.rng.S) : (makeMultilevel E s).execute t g r ≠ diverge ∧ (makeMultilevel E s).execute t g r ≠ exn := by
  have h : Stops False ((makeMultilevel E s).execute t g r) := Stops.execute s hml (by norm_num at hn; exact hn) t r
  exact ⟨fun e => by rw [e] at h; exact h, fun e => by rw [e] at h; exact h⟩

/-- Five vertices whose weights add up to more than 2^32, an edge from 0 to itself, two arcs from 0 to 1 that no arc answers,
two arcs from 1 to 2, an arc from 2 to 4 and an edge from 4 to itself; three parts. -/
def messyIn : Input :=
  { numVertices := 5, edgePrefix := [0, 3, 5, 6, 6, 7], edgeList := [0, 1, 1, 2, 2, 4, 4],
    vertexWeights := some [4000000000, 1, 2, 3000000000, 5],
    edgeWeights := some [9, 3000000000, 3000000000, 1, 2, 7, 4], numPartitions := 3 }

/-- The same graph with small vertex weights. -/
def messyIn' : Input := { messyIn with vertexWeights := some [4, 1, 2, 3, 5] }

/-- The hypotheses are met by both; one call returns 1, the other one and the call for a coarsened graph with a self loop run
into undefined behaviour. -/
example : CSR messyIn.numVertices messyIn.numEdges messyIn.edgePrefix messyIn.edgeList messyIn.vertexWeights
      messyIn.edgeWeights ∧ 2 ≤ messyIn.numPartitions ∧ messyIn.numPartitions < 2 ^ 32 ∧ (Ex.cuts 1).Known ∧
    partGraphRecursive Concrete.env messyIn (some (Ex.cuts 1)) Ex.before =
      ({ cut := 852516352, asg := [2, 0, 0, 2, 0, 9, 9, 9] }, ok 1) ∧
    CSR messyIn'.numVertices messyIn'.numEdges messyIn'.edgePrefix messyIn'.edgeList messyIn'.vertexWeights
      messyIn'.edgeWeights ∧ (partGraphRecursive Concrete.env messyIn' (some (Ex.cuts 1)) Ex.before).2 = ub ∧
    (partGraphRecursive Concrete.env selfLoopIn (some (Ex.cuts 1)) Ex.before).2 = ub :=
  ⟨by constructor <;> decide +kernel, by decide, by decide, Or.inr rfl, by decide +kernel,
    by constructor <;> decide +kernel, by decide +kernel, by decide +kernel⟩

end Poros
