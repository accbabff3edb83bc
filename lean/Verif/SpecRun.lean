import Verif.SpecML
import Verif.SpecInit
import Verif.SpecApi
/-
Specification of everything between the caller's arrays and the written labels: repeated initial bisection, the
multilevel bisection of a graph, recursive bisection, and the choice among the runs of a call.
-/
namespace Poros

/-- `R` repeated, the random engine passed on: the results in order. -/
inductive Repeated {S : Type} (R : S → (Nat → Nat) → S → Prop) : S → List (Nat → Nat) → S → Prop
  | none {r} : Repeated R r [] r
  | more {r cs r1 c r2} : Repeated R r cs r1 → R r1 c r2 → Repeated R r (cs ++ [c]) r2

/-- Bisection `c` is preferred to the kept bisection `b`: if `b` is balanced, `c` must be balanced with a smaller cut;
otherwise `c` must have a smaller imbalance. -/
def Better {fp : FP} (g : Graph) (t : Target fp) (b c : Nat → Nat) : Prop :=
  (Balanced g t b → Balanced g t c ∧ cutWeight g c < cutWeight g b) ∧
  (¬ Balanced g t b → fp.lt (maxImbalance g t c) (maxImbalance g t b) = true)

/-- The bisection kept of a list of candidates considered in order. -/
inductive BestOf {fp : FP} (g : Graph) (t : Target fp) : List (Nat → Nat) → (Nat → Nat) → Prop
  | first {c} : BestOf g t [c] c
  | take {cs b c} : BestOf g t cs b → Better g t b c → BestOf g t (cs ++ [c]) c
  | keep {cs b c} : BestOf g t cs b → ¬ Better g t b c → BestOf g t (cs ++ [c]) b

/-- The initial bisection of the coarsest graph: the kept one of eight grown from random seeds. -/
def Sown (E : Env) (t : Target E.fp) (g : Graph) (r : E.rng.S) (lab : Nat → Nat) (r' : E.rng.S) : Prop :=
  ∃ cs, Repeated (fun r c r' => r' = (E.rng.rand r 0 (g.nv - 1)).2 ∧ GrownTo g t (E.rng.rand r 0 (g.nv - 1)).1 c)
    r cs r' ∧ cs.length = 8 ∧ BestOf g t cs lab

/-- Multilevel bisection of a graph. -/
def MLBisected (E : Env) (s : Scheme) (t : Target E.fp) (g : Graph) (r : E.rng.S) (lab : Nat → Nat) (r' : E.rng.S) :
    Prop :=
  ∃ hier, MLRun E s t (3 * g.sumVtx / 40) (Sown E t) none g r lab r' hier

/-- Multilevel bisection of a graph whose coarsest graph is `cg`, bisected into `lab0` with the random engine going from `r0`
to `r1`. -/
def MLBisectedFrom (E : Env) (s : Scheme) (t : Target E.fp) (g : Graph) (r : E.rng.S) (lab : Nat → Nat) (r' : E.rng.S)
    (cg : Graph) (r0 : E.rng.S) (lab0 : Nat → Nat) (r1 : E.rng.S) : Prop :=
  ∃ hier, MLRun E s t (3 * g.sumVtx / 40)
    (fun g' x l x' => Sown E t g' x l x' ∧ g' = cg ∧ x = r0 ∧ l = lab0 ∧ x' = r1) none g r lab r' hier

/-- Multilevel bisection of a graph whose coarsest graph is `cg`, for which the eight candidates `cs` are grown, the random
engine then being in state `r'`; the kept one is carried back. -/
def MLGrownFrom (E : Env) (s : Scheme) (t : Target E.fp) (g : Graph) (r : E.rng.S) (lab : Nat → Nat) (r' : E.rng.S)
    (cg : Graph) (cs : List (Nat → Nat)) : Prop :=
  cs.length = 8 ∧ ∃ hier, MLRun E s t (3 * g.sumVtx / 40)
    (fun g' x l x' => g' = cg ∧ Repeated (fun r c r' => r' = (E.rng.rand r 0 (cg.nv - 1)).2 ∧
      GrownTo cg t (E.rng.rand r 0 (cg.nv - 1)).1 c) x cs x' ∧ BestOf cg t cs l) none g r lab r' hier

/-- Multilevel bisection of a graph that keeps what its candidates achieve: whichever of the eight candidates grown for the
coarsest graph is within the limits, the result is within the limits too and its cut is at most that of the candidate. -/
def MLKeeping (E : Env) (s : Scheme) (t : Target E.fp) (g : Graph) (r : E.rng.S) (lab : Nat → Nat) (r' : E.rng.S) : Prop :=
  ∃ cg cs, MLGrownFrom E s t g r lab r' cg cs ∧
    ∀ c ∈ cs, Balanced cg t c → Balanced g t lab ∧ cutWeight g lab ≤ cutWeight cg c

/-- The graph the caller's arrays describe. -/
structure Input.Describes (i : Input) (g : Graph) : Prop where
  nv : g.nv = i.numVertices
  vw : ∀ v, v < i.numVertices → g.vw v = weightAt i.vertexWeights v
  nbrs : ∀ v, v < i.numVertices → g.nbrs v =
    (List.range' (nth i.edgePrefix v) (nth i.edgePrefix (v + 1) - nth i.edgePrefix v)).map fun e =>
      (nth i.edgeList e, weightAt i.edgeWeights e)
  unit : g.unitEdge = true ↔ ∀ e, e < i.numEdges → weightAt i.edgeWeights e = 1

/-- The target and maximum weight of every part of a call with `k` parts and total weight `tot`: an even share,
truncated, and the share plus 3 per cent, truncated. -/
structure EvenShares (fp : FP) (k tot : Nat) (tw mx : List Nat) : Prop where
  len : tw.length = k ∧ mx.length = k
  target : ∀ q, q < k → fp.toU32 (fp.mul (fp.div (fp.lit 1 0) (fp.ofNat k)) (fp.ofNat tot)) = some (nth tw q)
  limit : ∀ q, q < k → fp.toU32 (fp.mul (fp.mul (fp.div (fp.lit 1 0) (fp.ofNat k))
    (fp.add (fp.lit 1 0) (fp.lit 3 2))) (fp.ofNat tot)) = some (nth mx q)

/-- The aggregation scheme an option value selects: 0 is random matching, 1 sorted heavy edge matching. -/
def selects (option : Int) (s : Scheme) : Prop :=
  (option = 0 ∧ s = .randomMatching) ∨ (option = 1 ∧ s = .sortedHeavyEdge)

/-- What a successful call does: it repeats recursive bisection, for `numGlobalCuts` times, starting with the random
engine seeded by the option, and writes the labels and the cut of the first of the results with the smallest cut. -/
structure CallRun (E : Env) (i : Input) (o : Options E.fp) (out out' : Out) (g : Graph) (s : Scheme) (tw mx : List Nat)
    (labs : List (Nat → Nat)) (j : Nat) : Prop where
  graph : i.Describes g
  good : g.Good
  scheme : selects o.aggregationScheme s
  shares : EvenShares E.fp i.numPartitions i.totalWeight tw mx
  runs : ∃ r', Repeated (RBRun (MLBisected E s) tw mx g) (E.rng.seed o.randomSeed) labs r'
  count : (labs.length : Int) = o.numGlobalCuts
  index : j < labs.length
  least : ∀ m, m < labs.length → i.cut (nth labs j) ≤ i.cut (nth labs m)
  first : ∀ m, m < j → i.cut (nth labs j) < i.cut (nth labs m)
  cut : out'.cut = i.cut (nth labs j)
  labels : ∀ v, v < i.numVertices → nth out'.asg v = nth labs j v
  size : out'.asg.length = out.asg.length
  rest : ∀ v, i.numVertices ≤ v → nth out'.asg v = nth out.asg v

end Poros
