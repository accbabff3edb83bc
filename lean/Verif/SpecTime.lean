import Verif.SpecUtil
import Verif.Model.Timed
/-
Specification vocabulary for what the printed times measure.
-/
namespace Poros

/-- The clock never runs backwards. -/
def Clock.Steady {fp : FP} (clk : Clock fp) : Prop := ∀ i, clk.ticks i ≤ clk.ticks (i + 1)

/-- A measured stretch of time: the category it counts for (the position of the printed line) and what the clock showed
at its beginning and its end. -/
structure Span where
  key : Nat
  start : Nat
  stop : Nat
deriving DecidableEq, Repr

def Span.length (s : Span) : Nat := s.stop - s.start

/-- The ticks that the spans for category `c` last together. -/
def ticksOf (l : List Span) (c : Nat) : Nat := ((l.filter fun s => s.key = c).map Span.length).sum

/-- The seconds that a time keeper holds for category `c` if the spans are reported to it in order. -/
def secondsOf (fp : FP) (secs : Nat → fp.F) (l : List Span) (c : Nat) : fp.F :=
  reported (l.map fun s => (s.key, secs s.length)) c

/-- The spans of one bisection between times `a` and `b`. It either is an initial partitioning (4), or there is a level:
an aggregation (2) followed by a contraction (3), both inside a coarsening (1); then the same on the next level; then a
projection (7) followed by a refinement (6), both inside an uncoarsening (5). -/
inductive BisTimes : Nat → List Span → Nat → Prop
  | bottom {a b x y : Nat} : a ≤ x → x ≤ y → y ≤ b → BisTimes a [⟨4, x, y⟩] b
  | level {a b c0 g0 g1 k0 k1 c1 u0 p0 p1 r0 r1 u1 : Nat} {inner : List Span} :
    a ≤ c0 → c0 ≤ g0 → g0 ≤ g1 → g1 ≤ k0 → k0 ≤ k1 → k1 ≤ c1 → BisTimes c1 inner u0 →
    u0 ≤ p0 → p0 ≤ p1 → p1 ≤ r0 → r0 ≤ r1 → r1 ≤ u1 → u1 ≤ b →
    BisTimes a ([⟨2, g0, g1⟩, ⟨3, k0, k1⟩, ⟨1, c0, c1⟩] ++ inner ++ [⟨7, p0, p1⟩, ⟨6, r0, r1⟩, ⟨5, u0, u1⟩]) b

/-- The spans of `n` bisections, one after the other, between times `a` and `b`. -/
inductive BisSeq : Nat → Nat → List Span → Nat → Prop
  | nil {a b : Nat} : a ≤ b → BisSeq 0 a [] b
  | cons {a b c n : Nat} {l l' : List Span} : BisTimes a l b → BisSeq n b l' c → BisSeq (n + 1) a (l ++ l') c

end Poros
