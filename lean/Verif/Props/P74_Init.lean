import Verif.Proofs.InitTrace
import Verif.Props.P31_Bisectors
/-
C74: the two initial bisectors are implementations of the specifications in SpecInit.lean.
-/
namespace Poros
open Finset Res

variable {E : Env}

/-- **C74, breadth-first bisection.** Whatever it returns is the outcome of growing the left side from a requested
random vertex: always the not yet considered vertex with most edge weight to the left side is taken, if it fits, until
the left side has its target weight; then at most one more vertex moves. On a nonempty graph with vertex weights it
does return. -/
theorem C74_bfs {g : Graph} (hg : g.Good) {t : Target E.fp} (ht : t.Two) (r : E.rng.S) :
    (∀ p r', bfsBisect t g r = ok (p, r') → r' = (E.rng.rand r 0 (g.nv - 1)).2 ∧
      GrownTo g t (E.rng.rand r 0 (g.nv - 1)).1 p.lab) ∧
    (0 < g.nv → HasWeights g → ∃ o, bfsBisect t g r = ok o) := by
  refine ⟨fun p r' h => ?_, (C31_bfs hg ht r).2⟩
  have h0 : 0 < g.nv := by
    obtain ⟨seed, s, h1, -⟩ := (bfsBisect_spec (B := True) hg ht (fun _ => trivial) r).elim_ok h
    omega
  have hnv := hg.wf.nv_lt
  have key : Post True (bfsBisect t g r) (fun o => o.2 = (E.rng.rand r 0 (g.nv - 1)).2 ∧
      GrownTo g t (E.rng.rand r 0 (g.nv - 1)).1 o.1.lab) := by
    unfold bfsBisect RngImpl.randInRange
    rw [if_pos (Nat.zero_le _), ok_bind]
    have hr := E.rng.rand_range r 0 (usub g.nv 1) (Nat.zero_le _)
    rw [usub_eq (by omega) (by omega)] at hr
    rw [usub_eq (by omega) (by omega)]
    exact (bfsFrom_trace hg.plain ht (seed := (E.rng.rand r 0 (g.nv - 1)).1) (by omega)).bind fun p hp => ⟨rfl, hp⟩
  exact key.elim_ok h

/-- **C74, random bisection.** Whatever it returns is the outcome of filling the left side in the order of one random
permutation, up to the first vertex that does not fit or worsens the imbalance, and then exchanging at most one pair
of vertices if the right side is too heavy. If the weights fit signed 32-bit integers it does return. -/
theorem C74_random {g : Graph} (hg : g.Good) {t : Target E.fp} (ht : t.Two) (hm0 : nth t.mx 0 < M32) (r : E.rng.S) :
    (∀ p r', randomBisect t g r = ok (p, r') → r' = (E.rng.perm r g.nv).2 ∧
      FilledTo g t (E.rng.perm r g.nv).1 p.lab) ∧
    (g.sumVtx < 2147483648 → nth t.mx 0 < 2147483648 → ∃ o, randomBisect t g r = ok o) :=
  ⟨fun _ _ h => (randomBisect_trace hg ht hm0 r).elim_ok h, (C32_random hg ht hm0 r).2⟩

/-- Both bisectors meet the hypotheses on the two triangles. -/
example : Ex.tri2.Good ∧ halves.Two ∧ nth halves.mx 0 < M32 ∧ 0 < Ex.tri2.nv ∧ HasWeights Ex.tri2 ∧
    Ex.tri2.sumVtx < 2147483648 ∧
    (bfsBisect (E := Concrete.env) halves Ex.tri2 ()).value = ok { cut := 1, pw := [4, 5], asg := [0, 0, 0, 1, 1, 1] } ∧
    (randomBisect (E := Concrete.env) halves Ex.tri2 ()).value =
      ok { cut := 1, pw := [4, 5], asg := [0, 0, 0, 1, 1, 1] } :=
  ⟨Ex.tri2_good, halves_two, by decide, by decide, tri2_hasWeights, by decide +kernel, by decide +kernel,
    by decide +kernel⟩

/-- The specification of growing is met by a run that takes the lighter of two isolated vertices first and then stops:
the heavier one is the one left on the right. -/
example : GrownTo (fp := Concrete.fp) (isolated [1, 3]) (swapTarget 1 3) 0 (fun v => if v = 0 then 0 else 1) := by
  refine ⟨by decide, put (fun _ => 1) 0 0, [0], .take (.start fun _ _ => rfl) (by decide +kernel) ⟨by decide, by simp, ?_⟩
    (by decide +kernel), Or.inl (by decide +kernel), Or.inr ⟨fun h => absurd h.1 (by decide +kernel), ?_⟩⟩
  · intro u hu _
    have : u = 0 ∨ u = 1 := by change u < 2 at hu; omega
    rcases this with rfl | rfl <;> decide +kernel
  · funext u; unfold put; rfl

end Poros
