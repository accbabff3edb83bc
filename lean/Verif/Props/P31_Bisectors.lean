import Verif.Proofs.RandomBisect
import Verif.Proofs.F64Laws
import Verif.Props.P26_FM
/-
C31–C33, C55: the initial bisectors.
-/
namespace Poros
open Finset Res

variable {E : Env}

/-- The vertex weights can be read: breadth-first bisection reads the array even on unit-weight graphs. -/
def HasWeights (g : Graph) : Prop := g.unitVtx = true → g.vwgt.length = g.nv

/-! ### C31 -/

/-- **C31.** Breadth-first bisection, if it finishes, yields a complete bisection with exact weights and cut. It
comes from some seed and the labels `s.2.lab` at the end of the growing phase, in which the left side is within
its maximum weight: the result has these labels, or, only if the right side was too heavy, one more vertex on
the left. On nonempty graphs with a weight array it does finish. -/
theorem C31_bfs {g : Graph} (hg : g.Good) {t : Target E.fp} (ht : t.Two) (r : E.rng.S) :
    (∀ p r', bfsBisect t g r = ok (p, r') → IsExact g 2 p ∧
      ∃ seed s, seed < g.nv ∧ bfsGrow t g seed = ok s ∧ partWeight g s.2.lab 0 ≤ nth t.mx 0 ∧
        ((∀ v, v < g.nv → p.lab v = s.2.lab v) ∨
          (nth t.mx 1 < partWeight g s.2.lab 1 ∧ ∃ v, v < g.nv ∧ s.2.lab v = 1 ∧
            ∀ u, u < g.nv → p.lab u = if u = v then 0 else s.2.lab u))) ∧
    (0 < g.nv → HasWeights g → ∃ o, bfsBisect t g r = ok o) := by
  constructor
  · intro p r' h
    obtain ⟨seed, s, h1, h2, h3⟩ := (bfsBisect_spec (B := True) hg ht (fun _ => trivial) r).elim_ok h
    exact ⟨h3.exact, seed, s, h1, h2, h3.left, h3.moved⟩
  · intro h0 hw
    obtain ⟨o, ho, -⟩ := sat_iff.mp (bfsBisect_spec (B := False) hg ht (fun h => h ⟨h0, hw⟩) r)
    exact ⟨o, ho⟩

/-- **C31, the growing phase, step by step.** Start the growing phase at a vertex and interrupt it after any
number of steps: all reported weights are those of the current labels, the left side is within its maximum, and
when the next vertex is taken from the queue no other vertex in the queue has more edge weight to the left side
(the seed counts one extra). -/
theorem C31_grow_step {g : Graph} (hg : g.Good) {t : Target E.fp} (ht : t.Two) {seed : Nat} (hseed : seed < g.nv) :
    ∃ q0 p0, bfsGrow t g seed = bfsPriorityMove g (!g.unitVtx) (!g.unitEdge) t (g.nv + 1) (q0, p0) ∧
      (∀ u, u < g.nv → (E.pq.key q0.q u).isSome ∧ p0.lab u = 1) ∧
      ∀ n s, Nat.iterate (fun x => x >>= bfsStep g (!g.unitVtx) (!g.unitEdge) t) n (ok (q0, p0)) = ok s →
        partWeight g s.2.lab 0 ≤ nth t.mx 0 ∧ (∀ q, q < 2 → nth s.2.pw q = partWeight g s.2.lab q) ∧
        ∀ v q', s.1.pop = ok (v, q') → v < g.nv ∧ s.2.lab v = 1 ∧ ∀ u, (E.pq.key s.1.q u).isSome →
          (if u = seed then 1 else 0) + linkWeight g s.2.lab 0 u ≤
            (if v = seed then 1 else 0) + linkWeight g s.2.lab 0 v := by
  obtain ⟨q0, p0, h1, h2, -, h3⟩ := bfsGrow_start hg.plain (t := t) ht hseed
  refine ⟨q0, p0, h1, fun u hu => ⟨?_, ?_⟩, ?_⟩
  · rw [(h3 u).1]; split <;> simp_all
  · exact (h3 u).2 hu
  · have inv : ∀ n s, Nat.iterate (fun x => x >>= bfsStep g (!g.unitVtx) (!g.unitEdge) t) n (ok (q0, p0)) = ok s →
        BfsInv g (nth t.mx 0) seed s := by
      intro n
      induction n with
      | zero => intro s hs; injection hs with hs; exact hs ▸ h2
      | succ n ih =>
        intro s hs
        rw [Function.iterate_succ_apply'] at hs
        cases hx : Nat.iterate (fun x => x >>= bfsStep g (!g.unitVtx) (!g.unitEdge) t) n (ok (q0, p0)) with
        | ok s0 =>
          rw [hx, ok_bind] at hs
          have hi := ih s0 hx
          by_cases hsz : s0.1.size > 0
          · exact ((bfsStep_spec hg.plain ht hi hsz).elim_ok hs).1
          · rw [bfsStep_empty hsz] at hs; cases hs
        | ub => rw [hx] at hs; cases hs
        | exn => rw [hx] at hs; cases hs
        | diverge => rw [hx] at hs; cases hs
    intro n s hs
    have hi := inv n s hs
    refine ⟨hi.left, fun q hq => hi.part.weights q hq, ?_⟩
    intro v q' hpop
    unfold VQueue.pop at hpop
    cases hk : E.pq.key s.1.q (E.pq.top s.1.q) with
    | none => rw [hk] at hpop; cases hpop
    | some k =>
      rw [hk] at hpop
      simp only [Res.ok.injEq, Prod.mk.injEq] at hpop
      obtain ⟨rfl, -⟩ := hpop
      obtain ⟨a1, a2, a3⟩ := hi.keys _ _ hk
      refine ⟨a1, a2, fun u hu => ?_⟩
      obtain ⟨k', hk'⟩ := Option.isSome_iff_exists.mp hu
      obtain ⟨m, hm, hle⟩ := E.pq.top_max _ _ _ hk'
      rw [hk] at hm
      injection hm with hm
      obtain ⟨b1, b2, b3⟩ := hi.keys _ _ hk'
      rw [← hm, a3, b3] at hle
      unfold bfsKey at hle
      split <;> split <;> simp_all <;> omega

theorem tri2_hasWeights : HasWeights Ex.tri2 := fun h => by cases h

/-- The hypotheses are met, and the result is a genuine bisection. -/
example : Ex.tri2.Good ∧ halves.Two ∧ 0 < Ex.tri2.nv ∧ HasWeights Ex.tri2 ∧
    (bfsBisect (E := Concrete.env) halves Ex.tri2 ()).value = ok { cut := 1, pw := [4, 5], asg := [0, 0, 0, 1, 1, 1] } :=
  ⟨Ex.tri2_good, halves_two, by decide, tri2_hasWeights, by decide +kernel⟩

/-! ### C32 -/

/-- **C32.** Random bisection, if it finishes, yields a complete bisection with exact weights and cut whose left
side is within its maximum weight. If the weights fit signed 32-bit integers it does finish. -/
theorem C32_random {g : Graph} (hg : g.Good) {t : Target E.fp} (ht : t.Two) (hm0 : nth t.mx 0 < M32)
    (r : E.rng.S) :
    (∀ p r', randomBisect t g r = ok (p, r') → IsExact g 2 p ∧ partWeight g p.lab 0 ≤ nth t.mx 0) ∧
    (g.sumVtx < 2147483648 → nth t.mx 0 < 2147483648 → ∃ o, randomBisect t g r = ok o) := by
  constructor
  · intro p r' h
    exact (randomBisect_spec (B := True) hg ht hm0 (fun _ => trivial) r).elim_ok h
  · intro h1 h2
    obtain ⟨o, ho, -⟩ := sat_iff.mp (randomBisect_spec (B := False) hg ht hm0 (fun h => h ⟨h1, h2⟩) r)
    exact ⟨o, ho⟩

example : nth halves.mx 0 < M32 ∧ Ex.tri2.sumVtx < 2147483648 ∧ nth halves.mx 0 < 2147483648 ∧
    (randomBisect (E := Concrete.env) halves Ex.tri2 ()).value =
      ok { cut := 1, pw := [4, 5], asg := [0, 0, 0, 1, 1, 1] } := by
  refine ⟨by decide, by decide +kernel, by decide, by decide +kernel⟩

/-- **C32, with refinement.** Random bisection followed by FM refinement yields a complete bisection with exact
weights and cut that is reached from the random one by a chain of improvements. -/
theorem C32_random_fm {g : Graph} (hg : g.Good) {t : Target E.fp} (ht : t.Two) (hm0 : nth t.mx 0 < M32)
    (maxIters : Nat) (r : E.rng.S) :
    (∀ p r', randomFMBisect maxIters t g r = ok (p, r') → IsExact g 2 p ∧
      ∃ p0 r0, randomBisect t g r = ok (p0, r0) ∧ ImprovesStar g t p0.lab p.lab) ∧
    (g.sumVtx < 2147483648 → nth t.mx 0 < 2147483648 → E.fp.BadMovesOK g.nv →
      ∃ o, randomFMBisect maxIters t g r = ok o) := by
  constructor
  · intro p r' h
    exact (randomFMBisect_spec (B := True) hg ht hm0 maxIters (fun _ => trivial) r).elim_ok h
  · intro h1 h2 h3
    obtain ⟨o, ho, -⟩ := sat_iff.mp
      (randomFMBisect_spec (B := False) hg ht hm0 maxIters (fun h => h ⟨h1, h2, h3⟩) r)
    exact ⟨o, ho⟩

example : Concrete.env.fp.BadMovesOK Ex.tri2.nv ∧ (randomFMBisect (E := Concrete.env) 8 halves Ex.tri2 ()).value =
    ok { cut := 1, pw := [4, 5], asg := [0, 0, 0, 1, 1, 1] } :=
  ⟨Concrete.badMovesOK (by decide), by decide +kernel⟩

/-! ### C55 -/

/-- **C55.** The swap that random bisection tries when the right side is too heavy keeps a complete bisection
with exact weights and keeps the left side within its maximum; and if it swaps at all, then, provided the two
maximum weights suffice for the whole graph, the right side is within its maximum afterwards. -/
theorem C55_swap_balances {g : Graph} (hg : g.Good) {t : Target E.fp} (ht : t.Two) (hm0 : nth t.mx 0 < M32)
    {p : Partitioning} (hp : IsExact g 2 p) (hl : partWeight g p.lab 0 ≤ nth t.mx 0)
    (hr : nth t.mx 1 < partWeight g p.lab 1) {p' : Partitioning} (h : randBalance t g p = ok p') :
    (∀ v, v < g.nv → p'.lab v < 2) ∧ (∀ q, q < 2 → nth p'.pw q = partWeight g p'.lab q) ∧
    partWeight g p'.lab 0 ≤ nth t.mx 0 ∧
    (p' = p ∨ (g.sumVtx ≤ nth t.mx 0 + nth t.mx 1 → Balanced g t p'.lab)) := by
  unfold randBalance at h
  rw [hp.weighed.rd_pw (by omega), ok_bind, rd_of_lt (by rw [ht.mx]; omega), ok_bind, if_pos hr,
    rd_of_lt (by rw [ht.mx]; omega), ok_bind] at h
  obtain ⟨⟨h1, h2⟩, h3⟩ :=
    (swapBalanceRight_spec (B := True) hg (t := t) ⟨hp.weighed, hl⟩ hr hm0 (fun _ => trivial)).elim_ok h
  refine ⟨h1.complete, h1.weights, h2, ?_⟩
  rcases h3 with h3 | h3
  · exact Or.inl h3
  · refine Or.inr fun hf q hq => ?_
    interval_cases q
    · exact h2
    · exact h3 hf

/-- Six isolated vertices. -/
def isolated (w : List Nat) : Graph :=
  { unitEdge := true, unitVtx := false, nv := w.length, ne := 0, totVtx := w.sum, totEdge := 0,
    xadj := List.replicate (w.length + 1) 0, adjncy := [], vwgt := w, adjwgt := [] }

def swapTarget (a b : Nat) : Target Concrete.env.fp :=
  { k := 2, frac := [Concrete.fp.lit 5 1, Concrete.fp.lit 5 1], tw := [a, b], mx := [a, b] }

/-- A swap that balances: weights 1, 1 on the left and 3, 3, 3 on the right with limits 4 and 8. -/
example : (isolated [1, 1, 3, 3, 3]).Good ∧ (swapTarget 4 8).Two ∧
    IsExact (isolated [1, 1, 3, 3, 3]) 2 { cut := 0, pw := [2, 9], asg := [0, 0, 1, 1, 1] } ∧
    randBalance (E := Concrete.env) (swapTarget 4 8) (isolated [1, 1, 3, 3, 3])
      { cut := 0, pw := [2, 9], asg := [0, 0, 1, 1, 1] } =
      ok { cut := 0, pw := [4, 7], asg := [1, 0, 0, 1, 1] } := by
  refine ⟨⟨by constructor <;> decide +kernel, Graph.symm_of (by decide +kernel), ?_, by constructor <;> decide +kernel⟩,
    ⟨rfl, rfl, rfl, rfl⟩, by constructor <;> decide +kernel, by decide +kernel⟩
  unfold Graph.NoLoop; decide +kernel

/-- **C55, missed swaps.** The swap may be missed although swapping the chosen right vertex would balance: with
limits 6 and 8, exchanging weight 2 on the left for weight 3 on the right would do, but nothing is swapped
(the lower search bound is negative and becomes a huge unsigned number). -/
theorem C55_missed_swap : randBalance (E := Concrete.env) (swapTarget 6 8) (isolated [2, 3, 3, 3])
    { cut := 0, pw := [2, 9], asg := [0, 1, 1, 1] } = ok { cut := 0, pw := [2, 9], asg := [0, 1, 1, 1] } := by
  decide +kernel

/-- **C55, the condition is needed.** With limits 100 and 2 for weights 100 and five times 1, the swap makes the
overweight right side heavier, from 5 to 104. -/
theorem C55_infeasible_swap : randBalance (E := Concrete.env) (swapTarget 100 2) (isolated [100, 1, 1, 1, 1, 1])
    { cut := 0, pw := [100, 5], asg := [0, 1, 1, 1, 1, 1] } =
    ok { cut := 0, pw := [1, 104], asg := [1, 0, 1, 1, 1, 1] } := by decide +kernel

/-! ### C33 -/

/-- **C33.** Bisecting `n ≥ 1` times with a bisector whose results are exact returns one of the `n` results (and
the random state after all of them). If a balanced one is returned, then from some balanced candidate on it has
the smallest cut of all balanced candidates; if an unbalanced one is returned, no later candidate has a smaller
imbalance. -/
theorem C33_multi {g : Graph} {t : Target E.fp} (ht : t.Two) {bis : Bisector E}
    (hbis : ∀ r p r', bis t g r = ok (p, r') → IsExact g 2 p) {n : Nat} (hn : 0 < n) {r : E.rng.S} {p : Partitioning}
    {r' : E.rng.S} (h : multiBisect n bis t g r = ok (p, r')) :
    ∃ ps i, candidates bis t g n r = ok (ps, r') ∧ ps.length = n ∧ i < n ∧ p = nth ps i ∧ IsExact g 2 p ∧
      (Balanced g t p.lab → ∃ j, j ≤ i ∧ Balanced g t (nth ps j).lab ∧
        ∀ l, j ≤ l → l < n → Balanced g t (nth ps l).lab → p.cut ≤ (nth ps l).cut) ∧
      (¬ Balanced g t p.lab → ∀ l, i < l → l < n →
        E.fp.lt (maxImbalance g t (nth ps l).lab) (maxImbalance g t p.lab) = false) := by
  have hb : ∀ r, Post True (bis t g r) (fun o => IsExact g 2 o.1 ∧ IsExact g 2 o.1) := fun r => by
    refine may_iff.mpr fun o ho => ?_
    exact ⟨hbis r o.1 o.2 ho, hbis r o.1 o.2 ho⟩
  obtain ⟨hR, ps, i, h1, h2, h3⟩ := (multiBisect_spec (B := True) ht hb hn r).elim_ok h
  refine ⟨ps, i, h1, h2, h2 ▸ h3.lt, h3.eq, hR, ?_, ?_⟩
  · intro hB
    obtain ⟨j, a, b, c⟩ := h3.bal hB
    exact ⟨j, a, b, fun l hl hl' => c l hl (by omega)⟩
  · intro hB l hl hl'
    exact h3.unbal hB l hl (by omega)

/-- **C33, best of all.** If moreover the target's maximum weights agree with its imbalance measure (every
balanced split has a smaller imbalance than every unbalanced one) and some candidate is balanced, then the
returned bisection is balanced and has the smallest cut of all balanced candidates. -/
theorem C33_best {g : Graph} {t : Target E.fp} (ht : t.Two) (hsep : Separates t g) {bis : Bisector E}
    (hbis : ∀ r p r', bis t g r = ok (p, r') → IsExact g 2 p) {n : Nat} (hn : 0 < n) {r : E.rng.S} {p : Partitioning}
    {r' : E.rng.S} (h : multiBisect n bis t g r = ok (p, r')) {ps : List Partitioning} {r2 : E.rng.S}
    (hc : candidates bis t g n r = ok (ps, r2)) {l : Nat} (hl : l < n) (hb : Balanced g t (nth ps l).lab) :
    Balanced g t p.lab ∧ p.cut ≤ (nth ps l).cut := by
  have hb' : ∀ r, Post True (bis t g r) (fun o => IsExact g 2 o.1 ∧ True) := fun r => by
    refine may_iff.mpr fun o ho => ?_
    exact ⟨hbis r o.1 o.2 ho, trivial⟩
  obtain ⟨-, ps', i, h1, h2, h3⟩ := (multiBisect_spec (B := True) (R := fun _ => True) ht hb' hn r).elim_ok h
  rw [hc] at h1
  injection h1 with h1
  injection h1 with h1 _
  subst h1
  have hex := candidates_exact hbis hc
  rcases h3.first l (by omega) hb with h | ⟨p', hp', hu, hlt⟩
  · exact h
  · exfalso
    have := hsep _ _ (hex _ (nth_mem (by omega))).complete (hex _ hp').complete hb hu
    rw [this] at hlt
    cases hlt

/-- **C33, finishing.** If the bisector always finishes with exact results, so does the repetition. -/
theorem C33_total {g : Graph} {t : Target E.fp} (ht : t.Two) {bis : Bisector E}
    (hbis : ∀ r, ∃ p r', bis t g r = ok (p, r') ∧ IsExact g 2 p) {n : Nat} (hn : 0 < n) (r : E.rng.S) :
    ∃ o, multiBisect n bis t g r = ok o := by
  obtain ⟨o, ho, -⟩ := sat_iff.mp (multiBisect_spec (B := False) (R := fun _ => True) ht
    (fun r => by
      obtain ⟨p, r', h1, h2⟩ := hbis r
      exact sat_iff.mpr ⟨_, h1, h2, trivial⟩) hn r)
  exact ⟨o, ho⟩

/-- `Separates` can be checked on the possible weights of the left side. -/
theorem Separates.of_total {fp : FP} {t : Target fp} {g : Graph} (htot : g.totVtx = g.sumVtx) {f0 f1 : fp.F}
    (hf : t.frac = [f0, f1])
    (h : ∀ a, a ≤ g.totVtx → ∀ b, b ≤ g.totVtx → (a ≤ nth t.mx 0 ∧ g.totVtx - a ≤ nth t.mx 1) →
      ¬ (b ≤ nth t.mx 0 ∧ g.totVtx - b ≤ nth t.mx 1) →
      fp.lt (imbalanceAt fp g.totVtx f0 f1 a (g.totVtx - a)) (imbalanceAt fp g.totVtx f0 f1 b (g.totVtx - b)) = true) :
    Separates t g := by
  have key : ∀ lab : Nat → Nat, (∀ v, v < g.nv → lab v < 2) →
      (Balanced g t lab ↔ partWeight g lab 0 ≤ nth t.mx 0 ∧ g.totVtx - partWeight g lab 0 ≤ nth t.mx 1) ∧
      maxImbalance g t lab =
        imbalanceAt fp g.totVtx f0 f1 (partWeight g lab 0) (g.totVtx - partWeight g lab 0) ∧
      partWeight g lab 0 ≤ g.totVtx := by
    intro lab hl
    have hw := partWeight_add hl
    have hsub : g.totVtx - partWeight g lab 0 = partWeight g lab 1 := by omega
    rw [hsub]
    refine ⟨⟨fun hB => ⟨hB 0 (by omega), hB 1 (by omega)⟩, ?_⟩, ?_, by omega⟩
    · rintro ⟨h0, h1⟩ q hq
      interval_cases q
      · exact h0
      · exact h1
    · unfold maxImbalance imbalanceAt
      rw [hf]
      rfl
  intro lab lab' h1 h2 h3 h4
  obtain ⟨a1, a2, a3⟩ := key lab h1
  obtain ⟨b1, b2, b3⟩ := key lab' h2
  rw [a2, b2]
  exact h _ a3 _ b3 (a1.mp h3) (fun hb => h4 (b1.mpr hb))

theorem Separates.of_weights {fp : FP} {t : Target fp} {g : Graph} (hg : g.Good) {f0 f1 : fp.F}
    (hf : t.frac = [f0, f1])
    (h : ∀ a, a ≤ g.totVtx → ∀ b, b ≤ g.totVtx → (a ≤ nth t.mx 0 ∧ g.totVtx - a ≤ nth t.mx 1) →
      ¬ (b ≤ nth t.mx 0 ∧ g.totVtx - b ≤ nth t.mx 1) →
      fp.lt (imbalanceAt fp g.totVtx f0 f1 a (g.totVtx - a)) (imbalanceAt fp g.totVtx f0 f1 b (g.totVtx - b)) = true) :
    Separates t g :=
  .of_total (by rw [hg.wf.tot_vtx, Nat.mod_eq_of_lt hg.small.vtx]) hf h

/-- The hypotheses of the three theorems are met: eight breadth-first bisections of `tri2`. -/
example : Separates halves Ex.tri2 ∧
    (∀ r p r', bfsBisect (E := Concrete.env) halves Ex.tri2 r = ok (p, r') → IsExact Ex.tri2 2 p) ∧
    (∀ r, ∃ p r', bfsBisect (E := Concrete.env) halves Ex.tri2 r = ok (p, r') ∧ IsExact Ex.tri2 2 p) ∧
    (∃ ps, (candidates (E := Concrete.env) bfsBisect halves Ex.tri2 8 ()).value = ok ps ∧
      Balanced Ex.tri2 halves (nth ps 0).lab) ∧
    (multiBisect 8 (bfsBisect (E := Concrete.env)) halves Ex.tri2 ()).value =
      ok { cut := 1, pw := [4, 5], asg := [0, 0, 0, 1, 1, 1] } := by
  have h1 := fun r => C31_bfs (E := Concrete.env) Ex.tri2_good halves_two r
  refine ⟨Separates.of_weights Ex.tri2_good (f0 := Concrete.fp.lit 5 1) (f1 := Concrete.fp.lit 5 1) rfl
      (by decide +kernel), fun r p r' h => ((h1 r).1 p r' h).1, fun r => ?_, ?_, by decide +kernel⟩
  · obtain ⟨o, ho⟩ := (h1 r).2 (by decide) tri2_hasWeights
    exact ⟨o.1, o.2, ho, ((h1 r).1 o.1 o.2 ho).1⟩
  · exact ⟨List.replicate 8 { cut := 1, pw := [4, 5], asg := [0, 0, 0, 1, 1, 1] }, by decide +kernel, by decide +kernel⟩

end Poros
