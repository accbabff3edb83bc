import Verif.Spec
import Verif.Model.Contraction
/-
Specification vocabulary for aggregations and contraction.
-/
namespace Poros
open Finset

/-- The fine vertices below `i` that a map sends to `c`, in increasing order. -/
def fiber (cmap : Nat → Nat) (i c : Nat) : List Nat := (List.range i).filter fun v => decide (cmap v = c)

/-- `a` is an aggregation of `n` vertices into `a.nc` groups: iterating group `c` visits exactly the vertices
mapped to `c`. -/
structure AggOK (n : Nat) (a : Aggregation) : Prop where
  nf_eq : a.nf = n
  len : a.cmap.length = n
  lt : ∀ v, v < n → nth a.cmap v < a.nc
  group : ∀ c, c < a.nc → a.group c = .ok (fiber (nth a.cmap) n c)

/-- Total weight of the edges of `g` from vertices in group `c` to vertices in group `d`. -/
def betweenWeight (g : Graph) (cmap : Nat → Nat) (c d : Nat) : Nat :=
  ∑ v ∈ range g.nv, if cmap v = c then (∑ u ∈ range g.nv, if cmap u = d then g.wt v u else 0) else 0

/-- Total weight of the vertices of group `c`. -/
def groupWeight (g : Graph) (cmap : Nat → Nat) (c : Nat) : Nat :=
  ∑ v ∈ range g.nv, if cmap v = c then g.vw v else 0

end Poros

namespace Poros
open Finset

/-- A partial matching of `n` vertices: partners are symm and never the vertex itself. -/
structure IsMatching (n : Nat) (f : Nat → Option Nat) : Prop where
  lt : ∀ v u, v < n → f v = some u → u < n
  ne : ∀ v u, v < n → f v = some u → u ≠ v
  symm : ∀ v u, v < n → f v = some u → f u = some v

/-- Calls on a matching builder. -/
inductive MOp where
  | mate (a b : Nat)
  | next

/-- Running one call in the model (the answer of `next` is in `getNextUnmatched`). -/
def MOp.run (m : Matcher) : MOp → Res Matcher
  | .mate a b => m.mate a b
  | .next => do
    let r ← m.getNextUnmatched
    .ok r.2

/-- What a call does to the abstract matching. -/
def MOp.spec (f : Nat → Option Nat) : MOp → Nat → Option Nat
  | .mate a b => fun v => if v = a then some b else if v = b then some a else f v
  | .next => f

/-- The precondition of a call: two different unmatched vertices (the assertions of
src/aggregation/MatchedAggregationBuilder.hpp:89-92, plus that the two are different). -/
def MOp.Legal (n : Nat) (f : Nat → Option Nat) : MOp → Prop
  | .mate a b => a < n ∧ b < n ∧ a ≠ b ∧ f a = none ∧ f b = none
  | .next => True

/-- A history of legal calls. -/
def LegalMatches (n : Nat) : (Nat → Option Nat) → List MOp → Prop
  | _, [] => True
  | f, op :: ops => op.Legal n f ∧ LegalMatches n (op.spec f) ops

/-- Two vertices are in the same group. -/
def Aggregation.same (a : Aggregation) (v u : Nat) : Prop := nth a.cmap v = nth a.cmap u

end Poros
