import Verif.SpecApi
/-
Specification of multiplying all edge weights by a number.
-/
namespace Poros

/-- `f` keeps the order of numbers. -/
def KeepsOrder (f : Int → Int) : Prop := ∀ a b, a < b → f a < f b

/-- A priority queue whose choices depend on the order of the keys only: `alike f q q'` (some relation, which the
implementation may choose) says that `q'` is `q` with every key `k` replaced by `f k`. Two such queues stay alike under
the same operations, have the same top and the same iteration order. A queue is like itself if `f` leaves its keys
alone. -/
structure OrderBased (P : PQImpl) (alike : (Int → Int) → P.Q → P.Q → Prop) : Prop where
  empty : ∀ f, KeepsOrder f → alike f P.empty P.empty
  put : ∀ f q q' v k, KeepsOrder f → alike f q q' → alike f (P.put q v k) (P.put q' v (f k))
  del : ∀ f q q' v, KeepsOrder f → alike f q q' → alike f (P.del q v) (P.del q' v)
  key : ∀ f q q' v, alike f q q' → P.key q' v = (P.key q v).map f
  top : ∀ f q q', KeepsOrder f → alike f q q' → (∃ u k, P.key q u = some k) → P.top q' = P.top q
  elems : ∀ f q q', alike f q q' → P.elems q' = P.elems q
  fixed : ∀ f q, KeepsOrder f → (∀ v k, P.key q v = some k → f k = k) → alike f q q

end Poros

namespace Poros

/-- `i'` is `i` with every edge weight multiplied by `c` (a null array stands for weights 1, so `i'` may carry an
array where `i` does not). -/
structure Input.ScaledBy (c : Nat) (i i' : Input) : Prop where
  rest : i' = { i with edgeWeights := i'.edgeWeights }
  weight : ∀ e, e < i.numEdges → weightAt i'.edgeWeights e = c * weightAt i.edgeWeights e

/-- The choice of matching does not depend on the factor: random matching is selected; or two parts are asked for and
some edge does not have weight 1; or no edge has weight 1. -/
def FactorFree {fp : FP} (o : Options fp) (i : Input) : Prop :=
  o.aggregationScheme = 0 ∨ (i.numPartitions = 2 ∧ ∃ e, e < i.numEdges ∧ weightAt i.edgeWeights e ≠ 1) ∨
    ∀ e, e < i.numEdges → weightAt i.edgeWeights e ≠ 1

end Poros
