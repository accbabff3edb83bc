import Verif.SpecSub
import Verif.SpecConn
import Verif.Model.RecursiveBisection
/-
Specification vocabulary for recursive bisection.
-/
namespace Poros
open Res

/-- The share of the tolerance that a bisection on the way to `k` parts may use: `1 / log2 k`. -/
def shareOf (fp : FP) (k : Nat) : fp.F := fp.div (fp.lit 1 0) (fp.log2 (fp.ofNat k))

/-- The maximum weight of one half of a bisection on the way to `k` parts, from the (target, maximum) weights of
the parts of the half: the sum of target weight plus share of the allowed excess, truncated after each part. -/
def halfMax (fp : FP) (k : Nat) (l : List (Nat × Nat)) : Option Nat :=
  l.foldlM (fun acc p => fp.toU32 (fp.add (fp.ofNat acc)
    (fp.add (fp.ofNat p.1) (fp.mul (fp.ofNat (usub p.2 p.1)) (shareOf fp k))))) 0

/-- The fractions that weights are of their (32-bit) sum, in doubles: each weight times the reciprocal of the sum. -/
def shares (fp : FP) (tw : List Nat) : List fp.F :=
  tw.map fun w => fp.mul (fp.ofNat w) (fp.div (fp.lit 1 0) (fp.ofNat (tw.sum % 2 ^ 32)))

/-- `bt` is the target of the bisection that splits parts with target weights `tw` and maximum weights `mx` into
a first half of `⌊k/2⌋` parts and a second half with the other parts. -/
structure IsHalvesTarget {fp : FP} (tw mx : List Nat) (bt : Target fp) : Prop where
  two : bt.Two
  left : nth bt.tw 0 = (tw.take (tw.length / 2)).sum % 2 ^ 32
  right : nth bt.tw 1 = (tw.drop (tw.length / 2)).sum % 2 ^ 32
  maxLeft : halfMax fp tw.length ((tw.zip mx).take (tw.length / 2)) = some (nth bt.mx 0)
  maxRight : halfMax fp tw.length ((tw.zip mx).drop (tw.length / 2)) = some (nth bt.mx 1)
  frac : bt.frac = shares fp bt.tw

/-- `lab` arises from recursive bisection of `g` into parts with target weights `tw` and maximum weights `mx`,
where `R t g p` says which bisections `p` of a graph `g` for a two-way target `t` may occur: a single part has
label 0; more parts come from a bisection `p` of the graph and recursive bisections of the two subgraphs it
induces, whose vertices are, in order, the vertices of the graph on that side; the labels of the right side come
after the `⌊k/2⌋` labels of the left side. -/
inductive RBTree {fp : FP} (R : Target fp → Graph → Partitioning → Prop) :
    List Nat → List Nat → Graph → (Nat → Nat) → Prop
  | leaf {tw mx : List Nat} {g : Graph} {lab : Nat → Nat} (hk : tw.length = 1) (hm : mx.length = 1)
      (h : ∀ v, v < g.nv → lab v = 0) : RBTree R tw mx g lab
  | node {tw mx : List Nat} {g : Graph} {lab : Nat → Nat} {bt : Target fp} {p : Partitioning} {sL sR : Graph}
      {labL labR : Nat → Nat} (hk : 2 ≤ tw.length) (hm : mx.length = tw.length)
      (hbt : IsHalvesTarget tw mx bt) (hR : R bt g p) (hp : IsExact g 2 p)
      (hL : IsInduced g p.lab 0 sL) (hRt : IsInduced g p.lab 1 sR)
      (treeL : RBTree R (tw.take (tw.length / 2)) (mx.take (tw.length / 2)) sL labL)
      (treeR : RBTree R (tw.drop (tw.length / 2)) (mx.drop (tw.length / 2)) sR labR)
      (labelsL : ∀ i, i < sL.nv → lab (nth (vertsOf g p.lab 0) i) = labL i)
      (labelsR : ∀ i, i < sR.nv → lab (nth (vertsOf g p.lab 1) i) = tw.length / 2 + labR i) :
      RBTree R tw mx g lab

/-- The same with the states of the random engine: a run of recursive bisection that starts in state `r`, yields the
labels `lab` and ends in state `r'`, where `R t g r side r'` says which labels `side` bisecting `g` for the two-way
target `t` may give. First the graph is bisected, then the left side is split further, then the right side. -/
inductive RBRun {fp : FP} {S : Type} (R : Target fp → Graph → S → (Nat → Nat) → S → Prop) :
    List Nat → List Nat → Graph → S → (Nat → Nat) → S → Prop
  | leaf {tw mx : List Nat} {g : Graph} {r : S} {lab : Nat → Nat} (hk : tw.length = 1) (hm : mx.length = 1)
      (h : ∀ v, v < g.nv → lab v = 0) : RBRun R tw mx g r lab r
  | node {tw mx : List Nat} {g : Graph} {lab : Nat → Nat} {bt : Target fp} {side : Nat → Nat} {sL sR : Graph}
      {labL labR : Nat → Nat} {r r1 r2 r3 : S} (hk : 2 ≤ tw.length) (hm : mx.length = tw.length)
      (hbt : IsHalvesTarget tw mx bt) (hR : R bt g r side r1) (hp : ∀ v, v < g.nv → side v < 2)
      (hL : IsInduced g side 0 sL) (hRt : IsInduced g side 1 sR)
      (runL : RBRun R (tw.take (tw.length / 2)) (mx.take (tw.length / 2)) sL r1 labL r2)
      (runR : RBRun R (tw.drop (tw.length / 2)) (mx.drop (tw.length / 2)) sR r2 labR r3)
      (labelsL : ∀ i, i < sL.nv → lab (nth (vertsOf g side 0) i) = labL i)
      (labelsR : ∀ i, i < sR.nv → lab (nth (vertsOf g side 1) i) = tw.length / 2 + labR i) :
      RBRun R tw mx g r lab r3

/-- One bisection made on the way to the parts: it splits the subgraph `g`, whose vertices are the vertices `verts` of the
whole graph, for the parts `first, first + 1, …` with target weights `tw` and maximum weights `mx`, for the two-way
target `bt`, with result `p`. -/
structure Made (fp : FP) where
  first : Nat
  verts : List Nat
  tw : List Nat
  mx : List Nat
  bt : Target fp
  g : Graph
  p : Partitioning

/-- The labels `lab` of the whole graph arise, on the vertices `verts`, from the bisections `made`: a single part means no
bisection and one label; more parts mean a bisection of the subgraph and, after it, the bisections made on the subgraphs
induced by its left side (for the first `⌊k/2⌋` parts) and its right side (for the other parts). -/
inductive RBMade {fp : FP} (R : Target fp → Graph → Partitioning → Prop) (lab : Nat → Nat) :
    Nat → List Nat → List Nat → List Nat → Graph → List (Made fp) → Prop
  | leaf {first : Nat} {verts tw mx : List Nat} {g : Graph} (hk : tw.length = 1) (hm : mx.length = 1)
      (h : ∀ i, i < g.nv → lab (nth verts i) = first) : RBMade R lab first verts tw mx g []
  | node {first : Nat} {verts tw mx : List Nat} {g : Graph} {bt : Target fp} {p : Partitioning} {sL sR : Graph}
      {madeL madeR : List (Made fp)} (hk : 2 ≤ tw.length) (hm : mx.length = tw.length)
      (hbt : IsHalvesTarget tw mx bt) (hR : R bt g p) (hp : IsExact g 2 p)
      (hL : IsInduced g p.lab 0 sL) (hRt : IsInduced g p.lab 1 sR)
      (left : RBMade R lab first ((vertsOf g p.lab 0).map (nth verts)) (tw.take (tw.length / 2)) (mx.take (tw.length / 2))
        sL madeL)
      (right : RBMade R lab (first + tw.length / 2) ((vertsOf g p.lab 1).map (nth verts)) (tw.drop (tw.length / 2))
        (mx.drop (tw.length / 2)) sR madeR) :
      RBMade R lab first verts tw mx g (⟨first, verts, tw, mx, bt, g, p⟩ :: (madeL ++ madeR))

/-- The laws of doubles recursive bisection relies on: the truncated weight of a half grows by at least the
target weight and at most the maximum weight of the added part, and for two parts by exactly the maximum. -/
structure FP.RecursiveOK (fp : FP) : Prop where
  step : ∀ k acc w ex, 2 ≤ k → k < M32 → acc + w + ex < M32 →
    ∃ n, fp.toU32 (fp.add (fp.ofNat acc) (fp.add (fp.ofNat w) (fp.mul (fp.ofNat ex) (shareOf fp k)))) = some n ∧
      acc + w ≤ n ∧ n ≤ acc + w + ex ∧ (k = 2 → n = acc + w + ex)

/-- Target and maximum weights of the parts are consistent and the maximum weights of each half of the parts sum up
to at most `M`. -/
structure WeightsFit (M : Nat) (tw mx : List Nat) : Prop where
  le : ∀ i, i < tw.length → nth tw i ≤ nth mx i
  left : (mx.take (tw.length / 2)).sum ≤ M
  right : (mx.drop (tw.length / 2)).sum ≤ M

end Poros
