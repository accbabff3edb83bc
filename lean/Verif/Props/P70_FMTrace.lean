import Verif.Proofs.FMTrace
import Verif.Proofs.F64Const
import Verif.Props.P26_FM
/-
C70: FM refinement is an implementation of the specification in SpecFM.lean.
-/
namespace Poros
open Finset Res

/-- **C70.** Whatever refinement returns is the outcome of a run of the specification: passes made of legally chosen
moves (SpecFM.lean, `Chosen`), each pass ending after `min maxMoves (max a 25)` moves without an acceptance or when
there is no candidate left, where `a` is one per cent of the number of vertices, and leaving the labels of its last
accepted move; and the run has `maxIters` passes or ends with the first pass without an accepted move. -/
theorem C70_fm_run {E : Env} {g : Graph} (hg : g.Good) {t : Target E.fp} (ht : t.Two) (maxIters maxMoves : Nat)
    {p : Partitioning} {c : Conn E.set} (hp : IsExact g 2 p) (hc : ConnExact g p.lab c)
    {r : Partitioning × Conn E.set} (hr : fmRefine g t maxIters maxMoves p c = ok r) :
    ∃ a, E.fp.toU32 (E.fp.mul (E.fp.ofNat g.nv) (E.fp.lit 1 2)) = some a ∧
      Refined g t (min maxMoves (max a 25)) maxIters p.lab r.1.lab :=
  fmRefine_trace hg ht maxIters maxMoves hp hc hr

/-- **C70, binary64.** With doubles, refinement always returns, and the number of moves without acceptance after which
a pass ends is `min maxMoves (max (numVertices / 100) 25)`. -/
theorem C70_fm_run_double [Concrete.Log2Impl] {pq : PQImpl} {set : SetImpl} {rng : RngImpl} {g : Graph} (hg : g.Good)
    {t : Target Concrete.fp} (ht : t.Two) (maxIters maxMoves : Nat) {p : Partitioning} {c : Conn set}
    (hp : IsExact g 2 p) (hc : ConnExact g p.lab c) :
    ∃ r, fmRefine (E := ⟨pq, set, rng, Concrete.fp⟩) g t maxIters maxMoves p c = ok r ∧
      Refined g t (min maxMoves (max (g.nv / 100) 25)) maxIters p.lab r.1.lab := by
  have hn : g.nv < M32 := lt_trans hg.wf.nv_lt (by decide)
  obtain ⟨r, hr⟩ := (C26_fm_exact (E := ⟨pq, set, rng, Concrete.fp⟩) hg ht maxIters maxMoves hp hc).2
    (Concrete.badMovesOK hn)
  obtain ⟨a, h1, h2⟩ := C70_fm_run (E := ⟨pq, set, rng, Concrete.fp⟩) hg ht maxIters maxMoves hp hc hr
  have ha := Option.some.inj (h1.symm.trans (Concrete.onePercent hn))
  rw [ha] at h2
  exact ⟨r, hr, h2⟩

/-- What a fruitless pass leaves are the labels it started with, so running refinement again from the result of a
refinement that stopped early starts from the same labels. -/
theorem PassDone.fruitless {fp : FP} {g : Graph} {t : Target fp} {maxBad : Nat} {a b : Nat → Nat}
    (h : PassDone g t maxBad a b true) : b = a := by
  obtain ⟨lab, moved, bad, hrun, -, hfr⟩ := h
  have hb := hfr.mp rfl
  have key : ∀ {lab best moved bad}, PassTo g t maxBad a lab best moved bad → bad = moved.length → best = a := by
    intro lab best moved bad h
    induction h with
    | start => intro _; rfl
    | accept => intro h; simp at h
    | reject _ _ _ _ _ ih => intro h; exact ih (by simpa using h)
  exact key hrun hb

/-- The hypotheses are met, and the run is not the trivial one: refinement improves the example, so by
`PassDone.fruitless` its first pass accepted a move. -/
example : ∃ c r, Conn.fromPartitioning Concrete.env.set Ex.tri2 Ex.badPart = ok c ∧
    fmRefine (E := Concrete.env) Ex.tri2 halves 8 150 Ex.badPart c = ok r ∧
    Refined Ex.tri2 halves 25 8 Ex.badPart.lab r.1.lab := by
  obtain ⟨c, h1, h2, h3⟩ := start_good Concrete.env
  obtain ⟨r, hr, h⟩ := C70_fm_run_double (pq := Concrete.pq) (set := Concrete.set) (rng := Concrete.rng)
    Ex.tri2_good halves_two 8 150 h2 h3
  exact ⟨c, r, h1, hr, h⟩

end Poros
