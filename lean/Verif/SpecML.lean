import Verif.SpecMatch
import Verif.SpecFM
/-
Specification of multilevel bisection: coarsen until the graph is small or stops shrinking, bisect the coarsest graph,
and carry the bisection back level by level, refining it at each. Nothing here mentions connectivity objects, coarse
graph objects, fuel or floating-point numbers.
-/
namespace Poros

/-- `cg` is the graph obtained from `g` by merging the vertices with equal `cmap`. -/
structure IsContraction (g : Graph) (cmap : Nat → Nat) (cg : Graph) : Prop where
  valid : cg.WF
  lt : ∀ v, v < g.nv → cmap v < cg.nv
  onto : ∀ c, c < cg.nv → ∃ v, v < g.nv ∧ cmap v = c
  vw : ∀ c, c < cg.nv → cg.vw c = groupWeight g cmap c
  wt : ∀ c d, c < cg.nv → d < cg.nv → c ≠ d → cg.wt c d = betweenWeight g cmap c d
  noLoop : cg.NoLoop
  simple : ∀ c, c < cg.nv → ((cg.nbrs c).map Prod.fst).Nodup
  adj : ∀ c d, c < cg.nv →
    (cg.Adj c d ↔ c ≠ d ∧ ∃ v u, v < g.nv ∧ g.Adj v u ∧ cmap v = c ∧ cmap u = d)
  fewer : cg.ne ≤ g.ne

/-- Coarsening stops at a graph with at most 20 vertices, or without edges, or with more than 95 per cent of the edges
of the graph it was made from. -/
def Coarsest (parent : Option Graph) (g : Graph) : Prop :=
  g.nv ≤ 20 ∨ g.ne = 0 ∨ ∃ f, parent = some f ∧ 19 * f.ne < 20 * g.ne

/-- The vertices of `g` merge into those of `cg` as the greedy matching of the scheme pairs them. -/
def Coarsened (E : Env) (s : Scheme) (maxW : Nat) (g : Graph) (r : E.rng.S) (cmap : Nat → Nat) (cg : Graph) : Prop :=
  IsContraction g cmap cg ∧ ∃ f, Visits g maxW (joinsHeavy s g) (visitOrder E s g r).1 (fun _ => none) f ∧
    ∀ v u, v < g.nv → u < g.nv → (cmap v = cmap u ↔ v = u ∨ f v = some u)

/-- A run of multilevel bisection below a level. `init g r lab r'` says that bisecting `g` directly may give the labels
`lab`; `hier` are the graphs from `g` to the coarsest one; `r` and `r'` are the states of the random engine. -/
inductive MLRun (E : Env) (s : Scheme) (t : Target E.fp) (maxW : Nat)
    (init : Graph → E.rng.S → (Nat → Nat) → E.rng.S → Prop) :
    Option Graph → Graph → E.rng.S → (Nat → Nat) → E.rng.S → List Graph → Prop
  | coarsest {parent g r lab r'} : Coarsest parent g → init g r lab r' →
      MLRun E s t maxW init parent g r lab r' [g]
  | level {parent g r cmap cg clab r' hier lab0 lab} : ¬ Coarsest parent g → Coarsened E s maxW g r cmap cg →
      MLRun E s t maxW init (some g) cg (visitOrder E s g r).2 clab r' hier →
      (∀ v, v < g.nv → lab0 v = clab (cmap v)) → Refined g t (min 150 (max (g.nv / 100) 25)) 8 lab0 lab →
      MLRun E s t maxW init parent g r lab r' (g :: hier)

end Poros
