import Verif.Proofs.DebugMore
import Verif.Props.P95_DebugFM
import Verif.Props.P92_SelfLoop
/-
C101, C102: random bisection and the grid generator in debug builds.
-/
namespace Poros
open Finset Res

variable {E : Env}

/-! ### C101 -/

/-- **C101.** No assertion of random bisection fails on a valid graph (empty or not) if the two target fractions are
positive: it does in a debug build what it does in a release build. -/
theorem C101_random {g : Graph} (hg : g.Good) {t : Target E.fp} (ht : t.Two)
    (hf : ∀ q, q < 2 → E.fp.lt (E.fp.lit 0 0) (nth t.frac q) = true) (r : E.rng.S) :
    randomBisectD t g r = randomBisect t g r :=
  (randomBisectD_close (H := True) hg ht (fun _ => hf) r).eq trivial

/-- **C101.** If a fraction is not positive it stops at an assertion, provided every vertex alone is within the limit of
the left side and there is a vertex. -/
theorem C101_random_stops {g : Graph} (hg : g.Good) {t : Target E.fp} (ht : t.Two) {q : Nat} (hq : q < 2)
    (hf : E.fp.lt (E.fp.lit 0 0) (nth t.frac q) = false) (hn : 0 < g.nv) (hw : ∀ v, v < g.nv → g.vw v ≤ nth t.mx 0)
    (r : E.rng.S) : randomBisectD t g r = exn := by
  unfold randomBisectD Partitioning.freshD
  rw [check_bind (by omega), ok_bind]
  obtain ⟨p, hp0, hp⟩ := sat_iff.mp (Weighed.assignAll hg.wf hg.small (k := 2) (by omega) (q := 1) (by omega))
  rw [hp0, ok_bind]
  simp only [randomOrder]
  have hperm := E.rng.perm_perm r g.nv
  cases ho : (E.rng.perm r g.nv).1 with
  | nil =>
    have := hperm.length_eq
    rw [ho, List.length_range] at this
    simp at this
    omega
  | cons v vs =>
    have hv : v < g.nv := List.mem_range.mp (hperm.mem_iff.mp (by rw [ho]; simp))
    unfold fillLeftD
    have h0 : partWeight g p.lab 0 = 0 := partWeight_all hp.2 (by omega)
    have hsv := hg.small.vtx
    have hvl := Graph.vw_le (g := g) hv
    rw [hp.1.rd_pw (q := 0) (by omega), ok_bind, Graph.vwgtOf_eq hg.wf hv, ok_bind, rd_of_lt (by rw [ht.mx]; omega), ok_bind,
      h0, uadd_eq (by omega), if_neg (by have := hw v hv; omega)]
    rw [calcMaxImbalanceD_bad' ht hp.1.pw_len hq hf]
    rfl

/-- **C101.** Random bisection followed by refinement: no assertion fails if moreover every vertex has edges of positive
weight; in any case it does what it does in a release build or stops. -/
theorem C101_random_fm {g : Graph} (hg : g.Good) {t : Target E.fp} (ht : t.Two) (hm0 : nth t.mx 0 < 2 ^ 32)
    (maxIters : Nat) (r : E.rng.S) :
    ((∀ q, q < 2 → E.fp.lt (E.fp.lit 0 0) (nth t.frac q) = true) → (∀ v, v < g.nv → 0 < g.wsum v fun _ => true) →
      randomFMBisectD maxIters t g r = randomFMBisect maxIters t g r) ∧
    (randomFMBisectD maxIters t g r = randomFMBisect maxIters t g r ∨ randomFMBisectD maxIters t g r = exn) := by
  have hm0 : nth t.mx 0 < 4294967296 := by simpa using hm0
  exact ⟨fun hf hd => (randomFMBisectD_close (H := True) hg ht hm0 (fun _ => ⟨hf, hd⟩) maxIters r).eq trivial,
    (randomFMBisectD_close (H := False) hg ht hm0 (fun h => h.elim) maxIters r).imp id And.right⟩

/-! ### C102 -/

/-- **C102.** In a debug build the grid generator stops at an assertion exactly if a dimension is 0; otherwise it does what
it does in a release build, for all sizes and weights (also where that is undefined, C91). -/
theorem C102_grid {X Y Z : Nat} (hX : X < 2 ^ 32) (hY : Y < 2 ^ 32) (hZ : Z < 2 ^ 32) (src vws : List Nat) :
    (0 < X ∧ 0 < Y ∧ 0 < Z → gridGenerateD X Y Z src vws = gridGenerate X Y Z src vws) ∧
    (X = 0 ∨ Y = 0 ∨ Z = 0 → gridGenerateD X Y Z src vws = exn) := by
  constructor
  · rintro ⟨h1, h2, h3⟩
    exact gridGenerateD_eq h1 h2 h3 (by simpa using hX) (by simpa using hY) (by simpa using hZ) src vws
  · intro h
    unfold gridGenerateD
    by_cases h1 : X > 0
    · rw [check_bind h1]
      by_cases h2 : Y > 0
      · rw [check_bind h2, check_false (by omega)]; rfl
      · rw [check_false h2]; rfl
    · rw [check_false h1]; rfl

/-- **C102.** In a release build a grid with a dimension 0 is an empty graph if two dimensions are 0, and undefined behaviour
(uninitialised edge lists of about 2^32 entries are read) if exactly one is and the doubled product of the two others is
not a multiple of 2^32. -/
theorem C102_empty_grid {X Y Z : Nat} (h : X * Y * Z = 0) (src : List Nat) :
    (2 * (X * Y + Y * Z + Z * X) % 2 ^ 32 = 0 → ∃ g, gridGenerate X Y Z src [] = ok g ∧ g.nv = 0 ∧ g.ne = 0) ∧
    (2 * (X * Y + Y * Z + Z * X) % 2 ^ 32 ≠ 0 → ∀ vws, gridGenerate X Y Z src vws = ub) := by
  have hn : gridNumVertices X Y Z = 0 := by unfold gridNumVertices; rw [h]
  have hu : usub 0 1 = 4294967295 := by decide
  have hm : gridNumEdges X Y Z = 0 ↔ 2 * (X * Y + Y * Z + Z * X) % 2 ^ 32 = 0 := by
    have key : ∀ a, (4294967295 * a) * 2 % 4294967296 = 0 ↔ 2 * a % 4294967296 = 0 := by intro a; omega
    have hp : (2 : Nat) ^ 32 = 4294967296 := by norm_num
    rw [hp, ← key]
    have hs : usub X 1 * (Y * Z) + usub Y 1 * (X * Z) + usub Z 1 * (X * Y) = 4294967295 * (X * Y + Y * Z + Z * X) := by
      rcases Nat.mul_eq_zero.mp h with h | rfl
      · rcases Nat.mul_eq_zero.mp h with rfl | rfl
        · rw [hu]; ring
        · rw [hu]; ring
      · rw [hu]; ring
    unfold gridNumEdges
    rw [hs]
  have hrun : ∀ vws, gridGenerate X Y Z src vws = (do
      let elist ← (Mem.alloc (gridNumEdges X Y Z)).freeze
      let ewgt ← (Mem.alloc (gridNumEdges X Y Z)).freeze
      Graph.make [0] elist vws ewgt) := by
    intro vws
    unfold gridGenerate
    simp only
    rw [hn, show Mem.wr (Mem.alloc (uadd 0 1)) 0 0 = ok [some 0] from rfl, ok_bind, gridLoops_zero h, ok_bind,
      show Mem.freeze [some 0] = ok [0] from rfl, ok_bind]
  constructor
  · intro h0
    rw [hrun, hm.mpr h0]
    exact ⟨_, rfl, rfl, rfl⟩
  · intro h0 vws
    rw [hrun, freeze_none (v := 0) ?_ ?_]
    · rfl
    · have : gridNumEdges X Y Z ≠ 0 := fun e => h0 (hm.mp e)
      simp [Mem.alloc]; omega
    · have : gridNumEdges X Y Z ≠ 0 := fun e => h0 (hm.mp e)
      unfold Mem.alloc
      exact nth_replicate (by omega)

/-! ### Examples -/

/-- C101: the weighted triangles, halves as target. -/
example : Ex.tri2.Good ∧ halves.Two ∧ (∀ q, q < 2 → Concrete.env.fp.lt (Concrete.env.fp.lit 0 0) (nth halves.frac q) = true) ∧
    (∀ v, v < Ex.tri2.nv → 0 < Ex.tri2.wsum v fun _ => true) ∧
    (randomFMBisectD (E := Concrete.env) 8 halves Ex.tri2 ()).value =
      ok { cut := 1, pw := [4, 5], asg := [0, 0, 0, 1, 1, 1] } :=
  ⟨Ex.tri2_good, halves_two, by decide +kernel, by decide +kernel, by decide +kernel⟩

/-- C102: a 3 by 2 by 1 grid; 0 by 5 by 7 stops in a debug build and is undefined in a release build. -/
example : (∃ g, gridGenerateD 3 2 1 (List.replicate 18 1) (List.replicate 6 1) = ok g) ∧
    gridGenerateD 0 5 7 [] [] = exn ∧ gridGenerate 0 5 7 [] [] = ub ∧ ∃ g, gridGenerate 0 0 7 [] [] = ok g := by
  refine ⟨?_, (C102_grid (by norm_num) (by norm_num) (by norm_num) [] []).2 (Or.inl rfl),
    (C102_empty_grid (by norm_num) []).2 (by decide) [], ?_⟩
  · rw [(C102_grid (by norm_num) (by norm_num) (by norm_num) _ _).1 (by decide)]
    exact (C91_grid_sizes (by norm_num) (by norm_num) (by norm_num) (by norm_num) (by norm_num) (by norm_num) (by simp)
      (by simp)).1 (by decide)
  · obtain ⟨g, hg, -⟩ := (C102_empty_grid (X := 0) (Y := 0) (Z := 7) (by norm_num) []).1 (by decide)
    exact ⟨g, hg⟩

end Poros
