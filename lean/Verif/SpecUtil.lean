import Verif.Spec
import Verif.Model.Util
/-
Specification vocabulary for the utility classes.
-/
namespace Poros
open Res

/-- Calls that change a visit tracker. -/
inductive VisitOp where
  | visit (i : Nat) | unvisit (i : Nat) | clear
deriving DecidableEq, Repr

/-- The index of a call, if it has one, is below `n`. -/
def VisitOp.InRange (n : Nat) : VisitOp → Prop
  | visit i => i < n
  | unvisit i => i < n
  | clear => True

/-- The effect of a call. -/
def VisitOp.run (t : VisitTracker) : VisitOp → Res VisitTracker
  | visit i => t.visit i
  | unvisit i => t.unvisit i
  | clear => .ok t.clear

/-- In the history `h`, `i` was visited and neither unvisited nor cleared since. -/
def Visited (h : List VisitOp) (i : Nat) : Prop :=
  ∃ before after, h = before ++ .visit i :: after ∧ .unvisit i ∉ after ∧ .clear ∉ after

/-- A caller that makes all the reports of `h`, in order, and ignores exceptions. -/
def TimeKeeper.reports {fp : FP} (h : List (Nat × fp.F)) : Res (TimeKeeper fp) :=
  h.foldlM (fun t r => match t.reportTime r.1 r.2 with
    | .exn => .ok t
    | x => x) (TimeKeeper.new fp)

/-- The sum, in order, of the reports of `h` for category `c`. -/
def reported {fp : FP} (h : List (Nat × fp.F)) (c : Nat) : fp.F :=
  ((h.filter (fun r => r.1 = c)).map (·.2)).foldl fp.add (fp.lit 0 0)

/-- The degree of `v` is the number of its adjacency entries. -/
def degree (g : Graph) (v : Nat) : Nat := (g.nbrs v).length

/-- The order lists every vertex exactly once and the degrees of the vertices never decrease along it. -/
def DegreeOrder (g : Graph) (o : List Nat) : Prop :=
  o.Perm (List.range g.nv) ∧ o.Pairwise fun u v => degree g u ≤ degree g v

end Poros
