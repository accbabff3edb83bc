import Verif.Model.Projection
import Verif.Model.Grid
import Verif.Model.Util
import Verif.Model.Params
import Verif.Model.Subgraph
import Verif.Model.Multilevel
import Verif.Concrete
import Verif.Props.P44_Util
import Verif.Props.P47_Grid
import Verif.Proofs.Api
import Verif.Proofs.Erase
/-
Validation of the model, not of the properties: the repository's own unit tests (`src/*/test/*_test.cpp`), replayed on the
model and evaluated by the kernel. Each definition below is one UNITTEST, statement by statement; `testTrue(b)` is
`expect b`, which raises an exception if `b` is false, so a test passes iff the program returns normally. These are checks
on literals, as the originals are. They say that the model behaves on these inputs the way the code is asserted to behave by
its authors. No theorem of the project rests on them.

Not replayed here, with the reason:
* the tests whose assertions depend on the Mersenne twister (`RandomEngineFactory`: different seeds; the matchings being
  smaller than 0.6 n; the cut limits of `MultilevelBisector`, `MultiBisector`, `FMRefiner`; the balance of seven parts in
  `RecursiveBisectionPartitioner`): the engine is a parameter of the model. The assertions of those tests that hold for every engine are
  theorems (C13, C14, C18: matchings; C31 to C35 and C107: bisectors; C36, C37: recursive bisection);
* the tests that only check a `dynamic_cast` of what a factory returns, or `sizeof` and `is_pod` of an index type.
-/
namespace Poros.RepoTests
open Poros Res

/-- `testTrue`. -/
def expect (b : Bool) : Res Unit := if b then ok () else exn

/-- A grid whose vertex weights are all 1 and whose edge weights are all `w`: `GridGraphGenerator gen(X,Y,Z)` with its
default ranges (`w = 1`) or after `setRandomEdgeWeight(w, w)`, src/graph/GridGraphGenerator.cpp:136-171. -/
def grid (X Y Z : Nat) (w : Nat := 1) : Res Graph :=
  gridGenerate X Y Z (List.replicate (X * Y * Z * 3) w) (List.replicate (X * Y * Z) 1)

/-- `sl::Array` with initial contents. -/
def arr (l : List Nat) : Mem := l.map some

/-- The passing of a test. -/
abbrev Passes (t : Res Unit) : Prop := t = ok ()

/-! ### src/aggregation/test -/

/-- AggregationParameters_test.cpp, MaxVertexWeightTest -/
def maxVertexWeight : Res Unit := do
  let params := AggParams.new
  [1, 10, 100, 1000, 10000, 100000].forM fun w => expect (params.allowed w)
  let params := params.setMax 15
  [1, 10, 15].forM fun w => expect (params.allowed w)
  [16, 1000].forM fun w => expect (!params.allowed w)

example : Passes maxVertexWeight := by decide +kernel

/-- Aggregation_test.cpp, CoarseVertexNumberTest -/
def coarseVertexNumber : Res Unit := do
  let agg ← Aggregation.make (arr [0, 1, 2, 1, 0]) 3
  expect (agg.nc == 3)
  [(0, 0), (1, 1), (2, 2), (3, 1), (4, 0)].forM fun q => do
    let c ← agg.coarse q.1
    expect (c == q.2)

example : Passes coarseVertexNumber := by decide +kernel

/-- Aggregation_test.cpp, CoarseVertexSetTest -/
def coarseVertexSet : Res Unit := do
  let agg ← Aggregation.make (arr [0, 1, 2, 1, 0]) 3
  expect (agg.nc == 3)
  let groups ← agg.groups
  let s ← groups.foldlM (fun (s : Nat × List Bool) group => do
    let visited ← group.foldlM (fun (visited : List Bool) v => do
      let c ← agg.coarse v
      expect (c == s.1)
      wr visited v true) s.2
    ok (s.1 + 1, visited)) (0, List.replicate 5 false)
  s.2.forM expect

example : Passes coarseVertexSet := by decide +kernel

/-- MatchedAggregationBuilder_test.cpp, isMatched -/
def isMatchedTest : Res Unit := do
  let b := Matcher.new 10
  let b ← b.mate 0 5
  let b ← b.mate 2 6
  let b ← b.mate 4 7
  [0, 2, 4, 5, 6, 7].forM fun v => do
    let m ← b.isMatched v
    expect m
  [1, 3, 8, 9].forM fun v => do
    let m ← b.isMatched v
    expect (!m)

example : Passes isMatchedTest := by decide +kernel

/-- MatchedAggregationBuilder_test.cpp, build -/
def buildTest : Res Unit := do
  let graph ← grid 5 2 1
  let b := Matcher.new graph.nv
  let b ← b.mate 0 5
  let b ← b.mate 2 6
  let b ← b.mate 4 7
  let b ← b.mate 1 3
  let b ← b.mate 9 8
  let agg ← b.build
  expect (agg.nc == 5)
  [(0, 5), (2, 6), (4, 7), (1, 3), (9, 8)].forM fun q => do
    let c ← agg.coarse q.1
    let d ← agg.coarse q.2
    expect (c == d)
  [(0, 2), (0, 4), (0, 1), (0, 9), (2, 4), (2, 1), (2, 9), (4, 1), (4, 9), (1, 9)].forM fun q => do
    let c ← agg.coarse q.1
    let d ← agg.coarse q.2
    expect (c != d)

example : Passes buildTest := by decide +kernel

/-- The assertions common to the SummationContractor tests. -/
def checkContracted (out : Graph) (nc : Nat) (degrees : List Nat) : Res Unit := do
  expect (out.nv == nc)
  (List.range degrees.length).forM fun v => do
    let d ← out.degreeOf v
    expect (d == nth degrees v)

/-- The loop over `edges()` of those tests. -/
def checkWeights (out : Graph) (w : Nat) : Res Unit :=
  (List.range out.ne).forM fun e => do
    let x ← out.ewgt true e
    expect (x == w)

/-- SummationContractor_test.cpp, ContractLine -/
def contractLine : Res Unit := do
  let graph ← grid 2 8 1
  let agg ← Aggregation.make (arr ((List.range graph.nv).map (· / 2))) 8
  let out ← contract graph agg
  checkContracted out agg.nc [1, 2, 2, 2, 2, 2, 2, 1]
  checkWeights out 2

example : Passes contractLine := by decide +kernel

/-- SummationContractor_test.cpp, ContractCubeComplete -/
def contractCubeComplete : Res Unit := do
  let graph ← grid 2 2 2 10
  let agg ← Aggregation.make (arr [0, 0, 1, 1, 2, 3, 2, 3]) 8
  let out ← contract graph agg
  checkContracted out agg.nc [3, 3, 3, 3]
  expect (out.totEdge == 160)

example : Passes contractCubeComplete := by decide +kernel

/-- SummationContractor_test.cpp, ContractCubeSquare -/
def contractCubeSquare : Res Unit := do
  let graph ← grid 2 2 2
  let agg ← Aggregation.make (arr [0, 0, 1, 1, 2, 2, 3, 3]) 8
  let out ← contract graph agg
  checkContracted out agg.nc [2, 2, 2, 2]
  expect (out.totEdge == 16)
  checkWeights out 2

example : Passes contractCubeSquare := by decide +kernel

/-! ### src/graph/test -/

/-- The loop at the end of the Graph tests. -/
def visitAll (n : Nat) (is : List Nat) : Res Unit := do
  let visited ← is.foldlM (fun v i => wr v i true) (List.replicate n false)
  visited.forM expect

/-- Graph_test.cpp, IterateVertices -/
def iterateVertices (g : Graph) : Res Unit := do
  let vs ← g.vertices.iterate (g.nv + g.ne + 1)
  visitAll g.nv vs

/-- Graph_test.cpp, IterateEdges -/
def iterateEdges (g : Graph) : Res Unit := do
  let es ← (⟨0, g.ne⟩ : IndexSet).iterate (g.ne + 1)
  visitAll g.ne es

/-- Graph_test.cpp, IteratePerVertexEdges -/
def iteratePerVertexEdges (g : Graph) : Res Unit := do
  let vs ← g.vertices.iterate (g.nv + g.ne + 1)
  let es ← vs.mapM (fun v => do (← g.edgeSetOf v).iterate (g.nv + g.ne + 1))
  visitAll g.ne es.flatten

theorem forM_expect : ∀ l : List Bool, (∀ b ∈ l, b = true) → l.forM expect = ok ()
  | [], _ => rfl
  | b :: l, h => by
    show (expect b >>= fun _ => l.forM expect) = _
    rw [h b (by simp)]
    exact forM_expect l fun x hx => h x (by simp [hx])

theorem visitAll_range (n : Nat) : Passes (visitAll n (List.range n)) := by
  unfold visitAll Passes
  obtain ⟨l, h, h1, h2⟩ := sat_iff.mp (Post_foldlM_range (B := False) (f := fun v i => wr v i true) (n := n)
    (s := List.replicate n false) (fun i l => l.length = n ∧ ∀ j, j < i → nth l j = true) ⟨by simp, by omega⟩
    (fun i l hi hl => by
      rw [wr_of_lt (by omega), Post_ok]
      refine ⟨by simpa using hl.1, fun j hj => ?_⟩
      by_cases hji : j = i
      · subst hji; exact nth_set_self (by omega)
      · rw [nth_set_ne (Ne.symm hji)]; exact hl.2 j (by omega)))
  rw [h, ok_bind]
  refine forM_expect _ fun b hb => ?_
  obtain ⟨j, hj, rfl⟩ := List.mem_iff_getElem.mp hb
  rw [← nth_eq_getElem hj]
  exact h2 j (by omega)

/-- The three tests pass on every graph, in particular on the grid they use. -/
theorem iterates {g : Graph} (h : g.WF) :
    Passes (iterateVertices g) ∧ Passes (iterateEdges g) ∧ Passes (iteratePerVertexEdges g) := by
  obtain ⟨h1, h2⟩ := C44_graph h (Nat.lt_succ_self (g.nv + g.ne))
  refine ⟨?_, ?_, ?_⟩
  · unfold iterateVertices
    rw [h1, ok_bind]; exact visitAll_range _
  · unfold iterateEdges
    rw [IndexSet.iterate_eq (by simp) (by have := h.ne_lt; simp only; omega) (by simp), ok_bind]
    simpa [List.range_eq_range'] using visitAll_range g.ne
  · unfold iteratePerVertexEdges
    rw [h1, ok_bind]
    obtain ⟨es, he, hf⟩ := bind_eq_ok h2
    rw [he, ok_bind, Res.ok.inj hf]
    exact visitAll_range _

theorem grid_ok (X Y Z : Nat) (hX : 0 < X) (hY : 0 < Y) (hZ : 0 < Z) (hN : 3 * (X * Y * Z) < 2 ^ 32)
    (hE : gridEdgeCount X Y Z < 2 ^ 32 - 1) :
    ∃ g, grid X Y Z = ok g ∧ g.WF ∧ g.nv = X * Y * Z ∧ g.ne = gridEdgeCount X Y Z := by
  obtain ⟨g, h1, h2, h3, h4, -⟩ := C47_grid (src := List.replicate (X * Y * Z * 3) 1) (vws := List.replicate (X * Y * Z) 1)
    hX hY hZ hN hE (by simp; omega) (by simp)
  exact ⟨g, h1, h2, h3, h4⟩

example : ∃ g, grid 5 5 5 = ok g ∧ Passes (iterateVertices g) ∧ Passes (iterateEdges g) ∧
    Passes (iteratePerVertexEdges g) :=
  let ⟨g, h, hw, _⟩ := grid_ok 5 5 5 (by decide) (by decide) (by decide) (by decide) (by decide)
  ⟨g, h, iterates hw⟩

/-- OneStepGraphBuilder_test.cpp, BuildStar -/
def buildStar : Res Unit := do
  let b ← OneStep.new 7 12
  let b ← [1, 2, 3, 4, 5, 6].foldlM (fun b v => b.addEdge v 1) b
  let b ← b.finishVertex 1
  let b ← (List.replicate 6 ()).foldlM (fun b _ => do
    let b ← b.addEdge 0 1
    b.finishVertex 1) b
  let g ← b.finish
  expect (g.nv == 7)
  expect (g.ne == 12)
  checkContracted g 7 [6, 1, 1, 1, 1, 1]

example : Passes buildStar := by decide +kernel

/-- TwoStepGraphBuilder_test.cpp, FullBuild -/
def fullBuild : Res Unit := do
  let b := (TwoStep.new.setNumVertices 4).beginVertexPhase
  let b ← [0, 1, 2, 3, 2, 3, 1, 0].foldlM (fun b v => b.incVertexNumEdges v) b
  let b ← [0, 1, 2, 3].foldlM (fun b v => b.setVertexWeight v 1) b
  let b ← b.beginEdgePhase
  let b ← [(0, 1), (1, 2), (2, 3), (3, 0), (3, 2), (1, 0), (0, 3), (2, 1)].foldlM
    (fun b q => b.addEdgeToVertex q.1 q.2 2) b
  let g ← b.finish
  expect (g.nv == 4)
  expect (g.ne == 8)
  (List.range 4).forM fun v => do
    let w ← g.vwgtOf false v
    expect (w == 1)
    let d ← g.degreeOf v
    expect (d == 2)
    let es ← g.edgesOf v
    es.forM fun e => do
      let x ← g.ewgt true e
      expect (x == 2)

example : Passes fullBuild := by decide +kernel

/-- VertexSet_test.cpp, Size and Iterator -/
def vertexSet : Res Unit := do
  let s : IndexSet := ⟨0, 10⟩
  expect (s.size == 10)
  let vs ← s.iterate 11
  expect (vs == List.range 10)

example : Passes vertexSet := by decide +kernel

/-- DegreeSortedVertexSet_test.cpp, Size. (The edge list of the test names the vertices 10 and 11 of a graph of ten
vertices; they are never followed.) -/
def degreeSorted : Res Unit := do
  let xadj := [0, 1, 2, 4, 5, 6, 7, 8, 9, 10, 12]
  let g ← Graph.ofPtrs 10 12 xadj (List.range 12) (some (List.replicate 10 1)) (some (List.replicate 12 1))
  let s ← ascendingOf Concrete.env g ⟨0, 10⟩ 11
  expect (s.length == 10)
  s.forM fun v => do
    let a ← rd xadj v
    let b ← rd xadj (v + 1)
    expect (decide (0 < b - a))

example : Passes degreeSorted := by decide +kernel

/-- SubgraphExtractor_test.cpp, Partitions -/
def extractTest : Res Unit := do
  let g ← grid 2 2 2
  let p ← (Partitioning.fresh 3 g).assignAll g 0
  let p ← p.move g 2 1
  let p ← p.move g 3 1
  let p ← p.move g 6 2
  let p ← p.move g 7 2
  let subs ← extractPartitions g p none
  expect (subs.map (·.superMap) == [[0, 1, 4, 5], [2, 3], [6, 7]])

example : Passes extractTest := by decide +kernel

/-- Subgraph_test.cpp, MapPartitioning -/
def mapPartitioningTest : Res Unit := do
  let g ← grid 2 2 1
  let s : Subgraph := { superMap := List.range g.nv, graph := g }
  let p ← [(0, 0), (1, 0), (2, 1), (3, 1)].foldlM (fun p q => p.assign g q.1 q.2) (Partitioning.fresh 2 g)
  let labels ← s.mapPartitioning p (Mem.alloc g.nv) 3
  let labels ← labels.freeze
  let super ← Partitioning.ofLabels 5 g labels
  expect (super.asg == [3, 3, 4, 4])

example : Passes mapPartitioningTest := by decide +kernel

/-! ### src/multilevel/test -/

/-- CompositeStoppingCriteria_test.cpp, Empty, ShouldContinue, ShouldStop -/
def compositeTest (fine coarse : Graph) : Res Unit := do
  let no : Criterion := fun _ _ _ => ok false
  let yes : Criterion := fun _ _ _ => ok true
  let a ← compositeStop [] 1 (some fine) (some coarse)
  expect !a
  let a ← compositeStop [] 1 (some fine) (some fine)
  expect !a
  let a ← compositeStop [] 0 none (some fine)
  expect !a
  let a ← compositeStop [no, no] 1 (some fine) (some coarse)
  expect !a
  let a ← compositeStop [no, yes] 1 (some fine) (some coarse)
  expect a

example (fine coarse : Graph) : Passes (compositeTest fine coarse) := rfl

/-- EdgeRatioStoppingCriteria_test.cpp, ShouldContinue, ShouldStop, ZeroFine, NullFineContinue, NullFineStop -/
def edgeRatioTest (fp : FP) (fine coarse one : Graph) : Res Unit := do
  let c ← edgeRatioMake fp (fp.lit 8 1)
  let a ← c 1 (some fine) (some coarse)
  expect !a
  let c ← edgeRatioMake fp (fp.lit 5 1)
  let a ← c 1 (some fine) (some coarse)
  expect a
  let c ← edgeRatioMake fp (fp.lit 75 2)
  let a ← c 1 (some one) (some one)
  expect a
  let a ← c 0 none (some coarse)
  expect !a
  let a ← c 0 none (some one)
  expect a

/-- VertexNumberStoppingCriteria_test.cpp, ShouldContinue, ShouldStop -/
def vertexNumberTest (coarse : Graph) : Res Unit := do
  let a ← vertexNumberStop 50 0 none (some coarse)
  expect !a
  let a ← vertexNumberStop 64 0 none (some coarse)
  expect a

/-- Graphs that have the two sizes the criteria look at, for evaluation: the criteria read nothing else. -/
def sized (n m : Nat) : Graph := ⟨true, true, n, m, 0, 0, [], [], [], []⟩

theorem edgeRatio_sizes (fp : FP) (g f o : Graph) :
    edgeRatioTest fp g f o = edgeRatioTest fp (sized g.nv g.ne) (sized f.nv f.ne)
    (sized o.nv o.ne) := by
  unfold edgeRatioTest edgeRatioMake
  by_cases h1 : (fp.le (fp.lit 8 1) (fp.lit 0 0) || fp.le (fp.lit 1 0) (fp.lit 8 1)) = true
  · simp only [h1, if_true, exn_bind]
  · by_cases h2 : (fp.le (fp.lit 5 1) (fp.lit 0 0) || fp.le (fp.lit 1 0) (fp.lit 5 1)) = true
    · simp only [h1, h2, if_true, exn_bind]; rfl
    · by_cases h3 : (fp.le (fp.lit 75 2) (fp.lit 0 0) || fp.le (fp.lit 1 0) (fp.lit 75 2)) = true
      · simp only [h1, h2, h3, if_true, exn_bind]; rfl
      · simp only [h1, h2, h3]; rfl

theorem vertexNumber_sizes (g : Graph) : vertexNumberTest g = vertexNumberTest (sized g.nv g.ne) := rfl

/-- (The comments "graph with 144 edges", "graph with 108 edges" count undirected edges.) -/
example : ∃ fine coarse one, grid 4 4 4 = ok fine ∧ grid 16 4 1 = ok coarse ∧ grid 1 1 1 = ok one ∧
    fine.ne = 2 * 144 ∧ coarse.ne = 2 * 108 ∧ Passes (edgeRatioTest Concrete.fp fine coarse one) ∧
    Passes (vertexNumberTest coarse) := by
  obtain ⟨f, hf, -, hf1, hf2⟩ := grid_ok 4 4 4 (by decide) (by decide) (by decide) (by decide) (by decide)
  obtain ⟨c, hc, -, hc1, hc2⟩ := grid_ok 16 4 1 (by decide) (by decide) (by decide) (by decide) (by decide)
  obtain ⟨o, ho, -, ho1, ho2⟩ := grid_ok 1 1 1 (by decide) (by decide) (by decide) (by decide) (by decide)
  refine ⟨f, c, o, hf, hc, ho, hf2, hc2, ?_, ?_⟩
  · rw [edgeRatio_sizes, hf1, hf2, hc1, hc2, ho1, ho2]; decide +kernel
  · rw [vertexNumber_sizes, hc1, hc2]; decide +kernel

/-- DiscreteCoarseGraph_test.cpp, Contract -/
def coarseGraphTest : Res Unit := do
  let graph ← grid 2 8 1
  let agg ← Aggregation.make (arr ((List.range graph.nv).map (· / 2))) 8
  let cg ← CoarseGraph.make graph agg
  let out := cg.coarse
  expect (out.ne == 14)
  checkContracted out 8 [1, 2, 2, 2, 2, 2, 2, 1]
  (List.range out.nv).forM fun v => do
    let w ← out.vwgtOf true v
    expect (w == 2)
    let es ← out.edgesOf v
    es.forM fun e => do
      let x ← out.ewgt true e
      expect (x == 2)
      let u ← out.dest e
      expect (decide (((u : Int) - v).natAbs = 1))

example : Passes coarseGraphTest := by decide +kernel

/-! ### src/util/test -/

/-- VisitTracker_test.cpp, HasVisitedNone and HasVisitedSome -/
def visitTest : Res Unit := do
  let t := VisitTracker.new 15
  (List.range t.size).forM fun i => do
    let a ← t.hasVisited i
    expect !a
  let t ← [5, 6, 10, 13].foldlM (fun (t : VisitTracker) i => t.visit i) t
  (List.range t.size).forM fun i => do
    let a ← t.hasVisited i
    expect (a == decide (i ∈ [5, 6, 10, 13]))

example : Passes visitTest := by decide +kernel

/-! ### src/partition/test -/

/-- PartitionParameters_test.cpp, SetGetTolerance and SetGetTargetFractions -/
def paramsTest : Res Unit := do
  let fp := Concrete.fp
  let p ← PartParams.new fp 2
  let p := p.setTolerance (fp.lit 15 3)
  expect (fp.le p.tol (fp.lit 15 3) && fp.le (fp.lit 15 3) p.tol)
  let q ← PartParams.new fp 3
  let ts := [fp.lit 3 1, fp.lit 5 1, fp.lit 2 1]
  let q ← q.setFractions ts
  (List.range 3).forM fun i => do
    let a ← rd q.frac i
    let b ← rd ts i
    expect (fp.le a b && fp.le b a)

example : Passes paramsTest := by decide +kernel

/-- TargetPartitioning_test.cpp, all four tests -/
def targetTest : Res Unit := do
  let fp := Concrete.fp
  let t ← Target.uniform (fp := fp) 2 200 (fp.lit 3 2)
  expect (t.mx == [103, 103])
  expect (t.tw == [100, 100])
  let t ← Target.ofFractions (fp := fp) 3 100 (fp.lit 5 2) [fp.lit 3 1, fp.lit 3 1, fp.lit 4 1]
  expect (t.mx == [31, 31, 42])
  expect (t.tw == [30, 30, 40])

example : Passes targetTest := by decide +kernel

/-- TwoWayConnectivityBuilder_test.cpp, BuildTest -/
def connBuilderTest : Res Unit := do
  let b := ConnBuilder.start 4
  let vals := [(0, 1, 1), (1, 1, 0), (2, 0, 1), (3, 0, 0)]
  let b ← vals.foldlM (fun (b : ConnBuilder) (q : Nat × Nat × Nat) => do
    let b ← b.setInternal q.1 q.2.1
    b.setExternal q.1 q.2.2) b
  let conn ← b.finish Concrete.set
  vals.forM fun q => do
    let x ← rd conn.con q.1
    expect (x.2 == q.2.1)
    expect (x.1 == q.2.2)

example : Passes connBuilderTest := by decide +kernel

/-- TwoWayConnectivity_test.cpp, GetDirection: `MOVE_TOWARDS` is 1 and `MOVE_AWAY` is -1. -/
def directionTest : Res Unit := do
  [(1, 1, 1), (0, 0, 1), (0, 1, -1), (1, 0, -1)].forM fun (q : Nat × Nat × Int) => do
    let d ← getDirection q.1 q.2.1
    expect (d == q.2.2)

example : Passes directionTest := by decide +kernel

/-- The set-up of the TwoWayConnectivity tests. -/
def connOf (g : Graph) (labels : List Nat) : Res (Partitioning × Conn Concrete.set) := do
  let p ← (List.range labels.length).foldlM (fun p v => p.assign g v (nth labels v)) (Partitioning.fresh 2 g)
  let p ← p.recalcCut g
  let c ← Conn.fromPartitioning Concrete.set g p
  ok (p, c)

/-- `testEqual(conn.getVertexDelta(v), d)` for some vertices. -/
def deltas (c : Conn Concrete.set) (l : List (Nat × Int)) : Res Unit :=
  l.forM fun q => do
    let d ← c.delta q.1
    expect (d == q.2)

/-- TwoWayConnectivity_test.cpp, GetVertexDelta -/
def vertexDeltaTest : Res Unit := do
  let g ← grid 2 2 1
  let s ← connOf g [0, 0, 0, 1]
  deltas s.2 [(0, 2), (1, 0), (2, 0), (3, -2)]

example : Passes vertexDeltaTest := by decide +kernel

/-- TwoWayConnectivity_test.cpp, Move -/
def moveTest : Res Unit := do
  let g ← grid 2 2 2
  let s ← connOf g [0, 0, 0, 0, 1, 1, 1, 1]
  deltas s.2 [(0, 1)]
  let c ← s.2.move 0
  deltas c.2 [(0, -1)]

example : Passes moveTest := by decide +kernel

/-- The loop `conn.move(v); p.move(v, to); for (edge of v) conn.updateNeighbor(...)` of the tests, with the statuses
`updateNeighbor` returned. -/
def moveAndUpdate (g : Graph) (v dst : Nat) (s : Partitioning × Conn Concrete.set) :
    Res ((Partitioning × Conn Concrete.set) × List (Nat × BorderStatus)) := do
  let c ← s.2.move v
  let p ← s.1.move g v dst
  let ns ← g.nbrsOf false v
  let r ← ns.foldlM (fun (r : Conn Concrete.set × List (Nat × BorderStatus)) q => do
    let home ← rd p.asg q.1
    let d ← getDirection dst home
    let x ← r.1.updateNeighbor q.1 q.2 d
    ok (x.2, r.2 ++ [(q.1, x.1)])) (c.2, [])
  ok ((p, r.1), r.2)

/-- TwoWayConnectivity_test.cpp, UpdateNeighbor -/
def updateNeighborTest : Res Unit := do
  let g ← grid 2 2 2
  let s ← connOf g [0, 0, 0, 0, 1, 1, 1, 1]
  let r ← moveAndUpdate g 1 1 s
  r.2.forM fun q => expect (if q.1 = 5 then q.2 == .removed else q.2 == .stillIn)
  (List.range 8).forM fun v => do
    let b ← r.1.2.border.has v
    expect (b == decide (v ≠ 5))
  deltas r.1.2 [(0, -1), (3, -1), (5, 3)]

example : Passes updateNeighborTest := by decide +kernel

/-- TwoWayConnectivity_test.cpp, MoveAndUpdate and Verify (the same moves) -/
def moveAndUpdateTest : Res Unit := do
  let g ← grid 2 2 2
  let s ← connOf g [0, 0, 1, 1, 0, 0, 1, 1]
  deltas s.2 [(0, 1), (1, 1), (2, 1), (3, 1), (4, 1), (5, 1), (6, 1), (7, 1)]
  let v ← s.2.verify g s.1
  expect v
  let r ← moveAndUpdate g 0 1 s
  deltas r.1.2 [(0, -1), (1, -1), (2, 3), (4, -1)]
  let v ← r.1.2.verify g r.1.1
  expect v
  let r ← moveAndUpdate g 2 0 r.1
  deltas r.1.2 [(0, -3), (1, -1), (2, -3), (4, -1)]
  let v ← r.1.2.verify g r.1.1
  expect v
  let r ← moveAndUpdate g 0 0 r.1
  deltas r.1.2 [(0, 3), (1, 1), (2, -1), (3, -1), (4, 1), (5, 1), (6, -1), (7, 1)]
  let v ← r.1.2.verify g r.1.1
  expect v

example : Passes moveAndUpdateTest := by decide +kernel

/-- TwoWayConnectivity_test.cpp, GetBorderSet -/
def borderSetTest : Res Unit := do
  let g ← grid 3 2 1
  let s ← connOf g [0, 0, 1, 0, 1, 1]
  let bnd := s.2.border.elems
  expect (bnd.length == 4)
  expect (decide (bnd.Nodup))
  [1, 2, 3, 4].forM fun v => expect (decide (v ∈ bnd))

example : Passes borderSetTest := by decide +kernel

/-- The part weights of the Partitioning tests. The code reads the graph only for its number of vertices and its vertex
weights, all 1, so the kernel evaluates it on a graph with the same number of vertices and weights but without edges. -/
def unitOf (n : Nat) : Graph := ⟨true, true, n, 0, n, 0, [], [], [], []⟩

/-- Partitioning_test.cpp, BlankConstructor, NumberOfPartitions -/
def blankTest (g : Graph) : Res Unit := do
  let p ← (List.range g.nv).foldlM (fun p v => p.assign g v (v % 5)) (Partitioning.fresh 5 g)
  expect (p.pw.length == 5)
  let ps ← p.partitions 6
  ps.forM fun q => expect (q.2 == 9 * 7)

/-- Partitioning_test.cpp, VectorConstructor, MoveConstructor (moving is the identity of the model) -/
def vectorTest (g : Graph) : Res Unit := do
  let p ← Partitioning.ofLabels 5 g ((List.range (9 * 7 * 5)).map (· % 5))
  let ps ← p.partitions 6
  ps.forM fun q => expect (q.2 == 9 * 7)

/-- Partitioning_test.cpp, CalcVertexCounts -/
def countsTest (g : Graph) : Res Unit := do
  let p ← Partitioning.ofLabels 5 g ((List.range (9 * 7 * 5)).map fun v =>
    if v < 15 then 0 else if v < 40 then 1 else if v < 148 then 2 else if v < 160 then 3 else 4)
  let counts ← p.calcVertexCounts
  let ps ← p.partitions 6
  ps.forM fun q => do
    let c ← rd counts q.1
    expect (c == q.2)

/-- PartitioningAnalyzer_test.cpp, all three tests: parts of 30, 20 and 50 of the 100 vertices. -/
def analyzerTest (fp : FP) (g : Graph) : Res Unit := do
  let p ← (List.range g.nv).foldlM (fun p v => p.assign g v (if v < 30 then 0 else if v < 50 then 1 else 2))
    (Partitioning.fresh 3 g)
  let t ← Target.uniform (fp := fp) p.pw.length g.totVtx (fp.lit 3 2)
  let near (x y : fp.F) : Res Unit := expect (fp.lt (fp.abs (fp.sub x y)) (fp.lit 1 3))
  let m ← calcMaxImbalance g p t
  near m (fp.lit 5 1)
  let i0 ← getImbalance g p t 0
  near i0 (fp.sub (fp.lit 0 0) (fp.lit 1 1))
  let i1 ← getImbalance g p t 1
  near i1 (fp.sub (fp.lit 0 0) (fp.lit 4 1))
  let i2 ← getImbalance g p t 2
  near i2 (fp.lit 5 1)
  let o ← [0, 1, 2].mapM (isOverWeight p t)
  expect (o == [false, false, true])

theorem grid_unit {X Y Z : Nat} {g : Graph} (h : grid X Y Z = ok g) (hn : g.nv = X * Y * Z) (hlt : g.nv < M32) :
    g.unitVtx = true ∧ g.totVtx = g.nv := by
  unfold grid gridGenerate at h
  obtain ⟨xa, _, h⟩ := bind_eq_ok h
  obtain ⟨s, _, h⟩ := bind_eq_ok h
  obtain ⟨xadj, _, h⟩ := bind_eq_ok h
  obtain ⟨el, _, h⟩ := bind_eq_ok h
  obtain ⟨ew, _, h⟩ := bind_eq_ok h
  unfold Graph.make at h
  obtain ⟨v, hv, h⟩ := bind_eq_ok h
  obtain ⟨e, _, h⟩ := bind_eq_ok h
  cases h
  simp only at hn hlt ⊢
  rw [Graph.sumWeights_ones (by simp; omega) (fun i hi => nth_replicate (by omega)), sumWeights_nil] at hv
  rw [← Res.ok.inj hv]
  exact ⟨rfl, Nat.mod_eq_of_lt hlt⟩

theorem assign_unit {g : Graph} (h : g.unitVtx = true) (n : Nat) (p : Partitioning) (v q : Nat) :
    p.assign g v q = p.assign (unitOf n) v q := by
  obtain ⟨ue, uv, nv, ne, tv, te, xa, ad, vw, ew⟩ := g
  simp only at h
  subst h
  rfl

theorem ofLabels_unit {g : Graph} (hw : g.WF) (h : g.unitVtx = true) {k : Nat} {l pw : List Nat} (hl : l.length = g.nv)
    (hp : sumPartitionWeight (unitOf g.nv) false l (List.replicate k 0) = ok pw) :
    ∃ c, Partitioning.ofLabels k g l = ok { cut := c, pw := pw, asg := l } := by
  unfold Partitioning.ofLabels
  rw [show sumPartitionWeight g (!g.unitVtx) l (List.replicate k 0) = ok pw from by rw [h]; exact hp, ok_bind,
    sumCut_eq hw hl, ok_bind]
  exact ⟨_, rfl⟩

theorem blank_unit {g : Graph} (h : g.unitVtx = true) : blankTest g = blankTest (unitOf g.nv) := by
  unfold blankTest
  rw [foldlM_congr' (fun p v _ => assign_unit h g.nv p v (v % 5))]
  rfl

theorem analyzer_unit (fp : FP) {g : Graph} (h : g.unitVtx = true) (ht : g.totVtx = g.nv) :
    analyzerTest fp g = analyzerTest fp (unitOf g.nv) := by
  unfold analyzerTest
  rw [foldlM_congr' (fun p v _ => assign_unit h g.nv p v _), ht]
  obtain ⟨ue, uv, nv, ne, tv, te, xa, ad, vw, ew⟩ := g
  simp only at h ht
  subst h ht
  rfl

example : ∃ g, grid 9 7 5 = ok g ∧ Passes (blankTest g) ∧ Passes (vectorTest g) ∧ Passes (countsTest g) := by
  obtain ⟨g, hg, hw, h1, h2⟩ := grid_ok 9 7 5 (by decide) (by decide) (by decide) (by decide) (by decide)
  have hu := (grid_unit hg h1 (by rw [h1]; decide)).1
  refine ⟨g, hg, ?_, ?_, ?_⟩
  · rw [blank_unit hu, h1]; decide +kernel
  · obtain ⟨c, hc⟩ := ofLabels_unit (k := 5) (l := (List.range (9 * 7 * 5)).map (· % 5)) (pw := [63, 63, 63, 63, 63]) hw hu
      (by simp [h1]) (by rw [h1]; decide +kernel)
    unfold vectorTest
    rw [hc]; rfl
  · obtain ⟨c, hc⟩ := ofLabels_unit (k := 5) (l := (List.range (9 * 7 * 5)).map fun v =>
      if v < 15 then 0 else if v < 40 then 1 else if v < 148 then 2 else if v < 160 then 3 else 4)
      (pw := [15, 25, 108, 12, 155]) hw hu (by simp [h1]) (by rw [h1]; decide +kernel)
    unfold countsTest
    rw [hc, ok_bind, show Partitioning.calcVertexCounts { cut := c, pw := [15, 25, 108, 12, 155], asg := _ } =
      Partitioning.calcVertexCounts { cut := 0, pw := [15, 25, 108, 12, 155], asg := _ } from rfl,
      show Partitioning.calcVertexCounts { cut := 0, pw := [15, 25, 108, 12, 155], asg := _ } = ok [15, 25, 108, 12, 155] from by
        decide +kernel, ok_bind]
    rfl

example : ∃ g, grid 10 10 1 = ok g ∧ Passes (analyzerTest Concrete.fp g) := by
  obtain ⟨g, hg, -, h1, h2⟩ := grid_ok 10 10 1 (by decide) (by decide) (by decide) (by decide) (by decide)
  have hu := grid_unit hg h1 (by rw [h1]; decide)
  refine ⟨g, hg, ?_⟩
  rw [analyzer_unit _ hu.1 hu.2, h1]
  decide +kernel

end Poros.RepoTests
