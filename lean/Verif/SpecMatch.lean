import Verif.SpecAgg
/-
Specification of the greedy matchings behind the two aggregation schemes: in which order vertices are visited and
with which neighbour a visited vertex is joined. Nothing here mentions the matching builder or coarse maps.
-/
namespace Poros

/-- The weight limit lets `v` and `u` be joined: their weights add up to at most `maxW` (the sum
`NULL_WEIGHT = 2^32 - 1` counts as "no weight" and is let through). -/
def joinable (g : Graph) (maxW v u : Nat) : Bool :=
  decide (g.vw v + g.vw u ≤ maxW) || decide (g.vw v + g.vw u = 4294967295)

/-- The edges of `v` to neighbours it may be joined with, in the order of its adjacency list. -/
def eligible (g : Graph) (maxW : Nat) (f : Nat → Option Nat) (v : Nat) : List (Nat × Nat) :=
  (g.nbrs v).filter fun q => (f q.1).isNone && joinable g maxW v q.1

/-- `f` with `v` and `u` joined. -/
def joined (f : Nat → Option Nat) (v u : Nat) : Nat → Option Nat :=
  fun x => if x = v then some u else if x = u then some v else f x

/-- Visiting `v`. A vertex that is already matched, or has no eligible neighbour, changes nothing; otherwise it is
joined with the first eligible neighbour, or (`heavy`) with the first one of those reached by a heaviest edge. -/
inductive Visit (g : Graph) (maxW : Nat) (heavy : Bool) (f : Nat → Option Nat) (v : Nat) : (Nat → Option Nat) → Prop
  | taken : f v ≠ none → Visit g maxW heavy f v f
  | alone : f v = none → eligible g maxW f v = [] → Visit g maxW heavy f v f
  | first {q post} : heavy = false → f v = none → eligible g maxW f v = q :: post →
      Visit g maxW heavy f v (joined f v q.1)
  | heaviest {pre q post} : heavy = true → f v = none → eligible g maxW f v = pre ++ q :: post →
      (∀ x ∈ pre, x.2 < q.2) → (∀ x ∈ post, x.2 ≤ q.2) → Visit g maxW heavy f v (joined f v q.1)

/-- Visiting the vertices of a list one after the other. -/
inductive Visits (g : Graph) (maxW : Nat) (heavy : Bool) : List Nat → (Nat → Option Nat) → (Nat → Option Nat) → Prop
  | nil {f} : Visits g maxW heavy [] f f
  | cons {v vs f f' f''} : Visit g maxW heavy f v f' → Visits g maxW heavy vs f' f'' →
      Visits g maxW heavy (v :: vs) f f''

/-- The order in which heavy-edge matching visits the vertices: each once, by increasing degree. -/
structure ByDegree (g : Graph) (order : List Nat) : Prop where
  once : order.Perm (List.range g.nv)
  sorted : order.Pairwise fun a b => (g.nbrs a).length ≤ (g.nbrs b).length

/-- A scheme joins by weight exactly if it is the heavy-edge scheme and the graph has edge weights. -/
def joinsHeavy (s : Scheme) (g : Graph) : Bool := decide (s = .sortedHeavyEdge) && !g.unitEdge

/-- The order in which a scheme visits the vertices, and the random engine afterwards: sorted by degree, ties broken
randomly (`sl::Sort::fixedKeysRandom`), if it joins by weight; otherwise a random permutation. -/
def visitOrder (E : Env) (s : Scheme) (g : Graph) (r : E.rng.S) : List Nat × E.rng.S :=
  if joinsHeavy s g then E.rng.sortRandom r ((List.range g.nv).map fun v => (g.nbrs v).length)
  else E.rng.perm r g.nv

end Poros
