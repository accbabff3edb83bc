import Verif.SpecConn
/-
Specification of FM refinement: which vertex is moved next, when a pass ends and what it leaves behind, and when
refinement ends. Nothing here mentions queues, connectivity objects or undo lists.
-/
namespace Poros

/-- By how much moving `v` to the other side lowers the cut. -/
def gain (g : Graph) (lab : Nat → Nat) (v : Nat) : Int :=
  (externalWeight g lab v : Int) - internalWeight g lab v

/-- `C` is a set of candidates for the next move: all vertices not yet moved in this pass that have a neighbour on
the other side belong to it, and apart from them at most vertices not yet moved without any weighted edge. -/
structure CandSet (g : Graph) (lab : Nat → Nat) (moved : List Nat) (C : Nat → Prop) : Prop where
  all : ∀ v, v < g.nv → v ∉ moved → 0 < externalWeight g lab v → C v
  only : ∀ v, C v → v < g.nv ∧ v ∉ moved ∧ (0 < externalWeight g lab v ∨ internalWeight g lab v = 0)

/-- Side `s` is heavier than allowed and has a candidate. -/
def MustRelieve {fp : FP} (g : Graph) (t : Target fp) (lab : Nat → Nat) (C : Nat → Prop) (s : Nat) : Prop :=
  nth t.mx s < partWeight g lab s ∧ ∃ u, C u ∧ lab u = s

/-- The rule by which the next vertex is chosen: a vertex of largest gain of its side; of an overweight side with
candidates if there is one (the left one first); otherwise of largest gain overall, where a tie between the sides is
resolved by the parity of the sum of two best vertices. -/
structure Chosen {fp : FP} (g : Graph) (t : Target fp) (lab : Nat → Nat) (C : Nat → Prop) (v : Nat) : Prop where
  cand : C v
  best : ∀ u, C u → lab u = lab v → gain g lab u ≤ gain g lab v
  left : MustRelieve g t lab C 0 → lab v = 0
  right : ¬ MustRelieve g t lab C 0 → MustRelieve g t lab C 1 → lab v = 1
  free : ¬ MustRelieve g t lab C 0 → ¬ MustRelieve g t lab C 1 → ∀ u, C u → gain g lab u ≤ gain g lab v
  tie : ¬ MustRelieve g t lab C 0 → ¬ MustRelieve g t lab C 1 →
    (∃ u, C u ∧ lab u ≠ lab v ∧ gain g lab u = gain g lab v) →
    ∃ u, C u ∧ lab u ≠ lab v ∧ gain g lab u = gain g lab v ∧ (u + v) % 2 = lab v

/-- `PassTo g t maxBad lab0 lab best moved bad`: a pass started with labels `lab0` has reached labels `lab`, having
moved the vertices `moved`; `best` are the labels after its last accepted move (or `lab0`), since which it made
`bad` moves. Moves are made only while `bad < maxBad`; a move is accepted if it improves on `best`. -/
inductive PassTo {fp : FP} (g : Graph) (t : Target fp) (maxBad : Nat) (lab0 : Nat → Nat) :
    (Nat → Nat) → (Nat → Nat) → List Nat → Nat → Prop
  | start : PassTo g t maxBad lab0 lab0 lab0 [] 0
  | accept {lab best moved bad C v} : PassTo g t maxBad lab0 lab best moved bad → bad < maxBad →
      CandSet g lab moved C → Chosen g t lab C v → Improves g t best (flip lab v) →
      PassTo g t maxBad lab0 (flip lab v) (flip lab v) (v :: moved) 0
  | reject {lab best moved bad C v} : PassTo g t maxBad lab0 lab best moved bad → bad < maxBad →
      CandSet g lab moved C → Chosen g t lab C v → ¬ Improves g t best (flip lab v) →
      PassTo g t maxBad lab0 (flip lab v) best (v :: moved) (bad + 1)

/-- A complete pass from `lab0`: it ends when `maxBad` moves have been made since the last acceptance or no candidate
is left, and leaves the labels of the last acceptance. `fruitless` tells whether no move was accepted. -/
def PassDone {fp : FP} (g : Graph) (t : Target fp) (maxBad : Nat) (lab0 out : Nat → Nat) (fruitless : Bool) : Prop :=
  ∃ lab moved bad, PassTo g t maxBad lab0 lab out moved bad ∧
    (bad = maxBad ∨ CandSet g lab moved fun _ => False) ∧ (fruitless = true ↔ bad = moved.length)

/-- Refinement with at most `n` passes: it ends after `n` passes or after the first one that accepts no move. -/
inductive Refined {fp : FP} (g : Graph) (t : Target fp) (maxBad : Nat) : Nat → (Nat → Nat) → (Nat → Nat) → Prop
  | zero {a} : Refined g t maxBad 0 a a
  | last {n a b} : PassDone g t maxBad a b true → Refined g t maxBad (n + 1) a b
  | more {n a b c} : PassDone g t maxBad a b false → Refined g t maxBad n b c → Refined g t maxBad (n + 1) a c

end Poros
