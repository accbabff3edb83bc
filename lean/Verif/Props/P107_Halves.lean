import Verif.Proofs.UnitHalves
import Verif.SpecSize
import Verif.Props.P74_Init
import Verif.Props.P26_FM
import Verif.Proofs.NullSafe
/-
C107: the sizes of the sides the component bisectors produce on graphs whose vertices all weigh 1, for the even target of
two parts. C108: refinement does not restore balance at the price of the cut.
-/
namespace Poros
open Finset Res Concrete

variable {pq : PQImpl} {set : SetImpl} {rng : RngImpl}

theorem sideSize_eq {g : Graph} (hu : ∀ v, v < g.nv → g.vw v = 1) (lab : Nat → Nat) (q : Nat) :
    sideSize g lab q = partWeight g lab q := by
  unfold sideSize partWeight
  rw [card_filter]
  refine sum_congr rfl fun v hv => ?_
  rw [hu v (mem_range.mp hv)]

theorem sideSize_two {g : Graph} (hu : ∀ v, v < g.nv → g.vw v = 1) {lab : Nat → Nat} (h : ∀ v, v < g.nv → lab v < 2) :
    sideSize g lab 0 + sideSize g lab 1 = g.nv := by
  rw [sideSize_eq hu, sideSize_eq hu, partWeight_two h, unit_sum hu]

/-- What all theorems of this file use about the target and the graph. -/
structure UnitCase [Concrete.Log2Impl] (g : Graph) (t : Target Concrete.fp) (M : Nat) : Prop where
  even : EvenTwo t g.nv M
  le : g.nv / 2 ≤ M
  small : g.nv < 4294967295
  tot : g.totVtx = g.nv
  sum : g.sumVtx = g.nv
  m0 : nth t.mx 0 = M
  m1 : nth t.mx 1 = M

theorem unitCase [Concrete.Log2Impl] {g : Graph} (hg : g.Good) (hu : ∀ v, v < g.nv → g.vw v = 1) {tol : Concrete.fp.F}
    (htol : Concrete.fp.le (Concrete.fp.lit 0 0) tol = true) {t : Target Concrete.fp}
    (ht : Target.uniform (fp := Concrete.fp) 2 g.nv tol = ok t) : UnitCase g t (nth t.mx 0) := by
  have hnv := hg.wf.nv_lt
  have hsum : g.sumVtx = g.nv := unit_sum hu
  have hsv := hg.small.vtx
  obtain ⟨M, he⟩ := evenTwo (by omega) ht
  have m0 : nth t.mx 0 = M := by rw [he.mx]; rfl
  have m1 : nth t.mx 1 = M := by rw [he.mx]; rfl
  rw [m0]
  exact ⟨he, he.le (by omega) ht htol, by omega, by rw [hg.wf.totVtx_eq (by omega), hsum], hsum, m0, m1⟩

/-- **C107, random bisection.** The left side gets as many vertices as it may, but at most half of them, rounded up:
exactly `min M ⌈n/2⌉` where `M` is the limit. -/
theorem C107_random [Concrete.Log2Impl] {g : Graph} (hg : g.Good) (hu : ∀ v, v < g.nv → g.vw v = 1) {tol : Concrete.fp.F}
    (htol : Concrete.fp.le (Concrete.fp.lit 0 0) tol = true) {t : Target Concrete.fp}
    (ht : Target.uniform (fp := Concrete.fp) 2 g.nv tol = ok t) (r : rng.S) :
    (∀ p r', randomBisect (E := dblEnv pq set rng) t g r = ok (p, r') →
      sideSize g p.lab 0 = min (nth t.mx 0) ((g.nv + 1) / 2) ∧
      sideSize g p.lab 1 = g.nv - min (nth t.mx 0) ((g.nv + 1) / 2)) ∧
    (g.nv < 2147483648 → nth t.mx 0 < 2147483648 → ∃ o, randomBisect (E := dblEnv pq set rng) t g r = ok o) := by
  have hc := unitCase hg hu htol ht
  obtain ⟨h1, h2⟩ := C74_random (E := dblEnv pq set rng) hg hc.even.two hc.even.lt r
  refine ⟨fun p r' h => ?_, fun a b => h2 (by rw [hc.sum]; exact a) b⟩
  obtain ⟨k1, k2⟩ := filledTo_unit hc.even hc.small rfl hc.tot hc.sum hu (rng.perm_perm r g.nv) (h1 p r' h).2
  have := sideSize_two hu k1
  rw [← sideSize_eq hu] at k2
  exact ⟨k2, by omega⟩

/-- **C107, breadth-first bisection.** The left side gets exactly half of the vertices, rounded down. -/
theorem C107_bfs [Concrete.Log2Impl] {g : Graph} (hg : g.Good) (hu : ∀ v, v < g.nv → g.vw v = 1) {tol : Concrete.fp.F}
    (htol : Concrete.fp.le (Concrete.fp.lit 0 0) tol = true) {t : Target Concrete.fp}
    (ht : Target.uniform (fp := Concrete.fp) 2 g.nv tol = ok t) (r : rng.S) :
    (∀ p r', bfsBisect (E := dblEnv pq set rng) t g r = ok (p, r') →
      sideSize g p.lab 0 = g.nv / 2 ∧ sideSize g p.lab 1 = (g.nv + 1) / 2) ∧
    (0 < g.nv → (g.nv + 1) / 2 ≤ nth t.mx 1 → ∃ o, bfsBisect (E := dblEnv pq set rng) t g r = ok o) := by
  have hc := unitCase hg hu htol ht
  obtain ⟨h1, -⟩ := C74_bfs (E := dblEnv pq set rng) hg hc.even.two r
  refine ⟨fun p r' h => ?_, fun a b => ?_⟩
  · obtain ⟨k1, k2⟩ := grownTo_unit hc.even hc.le rfl hc.sum hu (h1 p r' h).2
    have := sideSize_two hu k1
    rw [← sideSize_eq hu] at k2
    exact ⟨k2, by omega⟩
  · have w0 : nth t.tw 0 = g.nv / 2 := by rw [hc.even.tw]; rfl
    obtain ⟨o, ho, -⟩ := sat_iff.mp (bfsBisect_unit (E := dblEnv pq set rng) hg hc.even.two hu
      ⟨by have := hc.le; omega, by omega⟩ a r)
    exact ⟨o, ho⟩

/-- The sides within the limit. -/
theorem UnitCase.balanced [Concrete.Log2Impl] {g : Graph} {t : Target Concrete.fp} {M : Nat} (hc : UnitCase g t M)
    (hu : ∀ v, v < g.nv → g.vw v = 1) (lab : Nat → Nat) : Balanced g t lab ↔ largerSide g lab ≤ M := by
  unfold Balanced largerSide
  rw [sideSize_eq hu, sideSize_eq hu]
  constructor
  · intro h
    have h0 := h 0 (by decide)
    have h1 := h 1 (by decide)
    rw [hc.m0] at h0
    rw [hc.m1] at h1
    exact max_le h0 h1
  · intro h q hq
    have : q = 0 ∨ q = 1 := by omega
    rcases this with rfl | rfl
    · rw [hc.m0]; exact le_trans (le_max_left _ _) h
    · rw [hc.m1]; exact le_trans (le_max_right _ _) h

/-- One accepted state of refinement: with unit weights either the larger side shrinks and is still too large, or the cut
shrinks and the larger side is within the limit or does not grow. -/
theorem improves_unit [Concrete.Log2Impl] {g : Graph} {t : Target Concrete.fp} {M : Nat} (hc : UnitCase g t M)
    (hu : ∀ v, v < g.nv → g.vw v = 1) {a b : Nat → Nat} (ha : ∀ v, v < g.nv → a v < 2) (hb : ∀ v, v < g.nv → b v < 2)
    (h : Improves g t a b) :
    (M < largerSide g b ∧ largerSide g b < largerSide g a) ∨
    (cutWeight g b < cutWeight g a ∧ (largerSide g b ≤ M ∨ largerSide g b ≤ largerSide g a)) := by
  obtain ⟨o1, o2⟩ := imbalance_order hc.even hc.small hc.tot hc.sum ha hb
  have e : ∀ l, max (partWeight g l 0) (partWeight g l 1) = largerSide g l := fun l => by
    unfold largerSide
    rw [sideSize_eq hu, sideSize_eq hu]
  rw [e, e] at o1 o2
  have hB := hc.balanced hu b
  rcases h with ⟨h1, h2⟩ | ⟨h1, h2⟩
  · left
    refine ⟨by rw [hB] at h1; omega, ?_⟩
    by_contra hn
    rcases Nat.lt_or_ge (largerSide g a) (largerSide g b) with hlt | hge
    · rw [(o1 hlt).2.2] at h2; cases h2
    · rw [(o2 (by omega)).2] at h2; cases h2
  · right
    refine ⟨h1, ?_⟩
    rcases h2 with h2 | h2
    · exact Or.inl (hB.mp h2)
    · right
      by_contra hn
      rw [(o1 (by omega)).2.1] at h2
      cases h2

theorem improvesStar_unit [Concrete.Log2Impl] {g : Graph} {t : Target Concrete.fp} {M : Nat} (hc : UnitCase g t M)
    (hu : ∀ v, v < g.nv → g.vw v = 1) {a b : Nat → Nat} (ha : ∀ v, v < g.nv → a v < 2) (h : ImprovesStar g t a b) :
    (∀ v, v < g.nv → b v < 2) ∧ largerSide g b ≤ max M (largerSide g a) ∧
      (largerSide g a ≤ M → cutWeight g b ≤ cutWeight g a) := by
  induction h with
  | refl => exact ⟨ha, le_max_right _ _, fun _ => le_refl _⟩
  | @step b c _ hi hc2 ih =>
    obtain ⟨i1, i2, i3⟩ := ih
    refine ⟨hc2, ?_, fun hle => ?_⟩
    · rcases improves_unit hc hu i1 hc2 hi with h | h <;> omega
    · have := i3 hle
      rcases improves_unit hc hu i1 hc2 hi with h | h <;> omega

/-- **C107, refinement.** On unit weights refinement never takes a side beyond its limit, and if a side is already beyond
it the larger side does not grow; if both sides are within the limit the cut does not grow. -/
theorem C107_refine [Concrete.Log2Impl] {g : Graph} (hg : g.Good) (hu : ∀ v, v < g.nv → g.vw v = 1) {tol : Concrete.fp.F}
    (htol : Concrete.fp.le (Concrete.fp.lit 0 0) tol = true) {t : Target Concrete.fp}
    (ht : Target.uniform (fp := Concrete.fp) 2 g.nv tol = ok t) (maxIters maxMoves : Nat) {p : Partitioning}
    {c : Conn set} (hp : IsExact g 2 p) (hcn : ConnExact g p.lab c) {o : Partitioning × Conn set}
    (h : fmRefine (E := dblEnv pq set rng) g t maxIters maxMoves p c = ok o) :
    largerSide g o.1.lab ≤ max (nth t.mx 0) (largerSide g p.lab) ∧
      (largerSide g p.lab ≤ nth t.mx 0 → o.1.cut ≤ p.cut) := by
  have hc := unitCase hg hu htol ht
  have hs := C27_fm_improves (E := dblEnv pq set rng) hg hc.even.two maxIters maxMoves hp hcn h
  have he := (C26_fm_exact (E := dblEnv pq set rng) hg hc.even.two maxIters maxMoves hp hcn).1 o h
  obtain ⟨-, h1, h2⟩ := improvesStar_unit hc hu hp.complete hs
  rw [he.1.cut_eq, hp.cut_eq]
  exact ⟨h1, h2⟩

/-- **C107, random bisection with refinement.** The sides keep within the limit, or within half the vertices rounded up
if the limit is below that. -/
theorem C107_random_fm [Concrete.Log2Impl] {g : Graph} (hg : g.Good) (hu : ∀ v, v < g.nv → g.vw v = 1)
    {tol : Concrete.fp.F} (htol : Concrete.fp.le (Concrete.fp.lit 0 0) tol = true) {t : Target Concrete.fp}
    (ht : Target.uniform (fp := Concrete.fp) 2 g.nv tol = ok t) (maxIters : Nat) (r : rng.S) :
    (∀ p r', randomFMBisect (E := dblEnv pq set rng) maxIters t g r = ok (p, r') →
      largerSide g p.lab ≤ max (nth t.mx 0) ((g.nv + 1) / 2)) ∧
    (g.nv < 2147483648 → nth t.mx 0 < 2147483648 →
      ∃ o, randomFMBisect (E := dblEnv pq set rng) maxIters t g r = ok o) := by
  have hc := unitCase hg hu htol ht
  obtain ⟨h1, h2⟩ := C32_random_fm (E := dblEnv pq set rng) hg hc.even.two hc.even.lt maxIters r
  refine ⟨fun p r' h => ?_, fun a b => h2 (by rw [hc.sum]; exact a) b (badMovesOK (lt_trans hc.small (by norm_num)))⟩
  obtain ⟨-, p0, r0, hr0, hs⟩ := h1 p r' h
  have hx := ((C32_random (E := dblEnv pq set rng) hg hc.even.two hc.even.lt r).1 p0 r0 hr0).1
  obtain ⟨k1, k2⟩ := (C107_random (pq := pq) (set := set) hg hu htol ht r).1 p0 r0 hr0
  obtain ⟨-, h3, -⟩ := improvesStar_unit hc hu hx.complete hs
  have hl : largerSide g p0.lab ≤ (g.nv + 1) / 2 := by
    unfold largerSide
    rw [k1, k2]
    have := hc.le
    omega
  omega

/-- **C107, repeated bisection.** What holds of every candidate holds of the one kept: repeated random and repeated
breadth-first bisection have the same sizes as a single one. -/
theorem C107_multi [Concrete.Log2Impl] {g : Graph} (hg : g.Good) (hu : ∀ v, v < g.nv → g.vw v = 1)
    {tol : Concrete.fp.F} (htol : Concrete.fp.le (Concrete.fp.lit 0 0) tol = true) {t : Target Concrete.fp}
    (ht : Target.uniform (fp := Concrete.fp) 2 g.nv tol = ok t) {n : Nat} (hn : 0 < n) (r : rng.S) {p : Partitioning}
    {r' : rng.S} :
    (makeBisector (dblEnv pq set rng) .random n t g r = ok (p, r') →
      sideSize g p.lab 0 = min (nth t.mx 0) ((g.nv + 1) / 2) ∧
      sideSize g p.lab 1 = g.nv - min (nth t.mx 0) ((g.nv + 1) / 2)) ∧
    (makeBisector (dblEnv pq set rng) .bfs n t g r = ok (p, r') →
      sideSize g p.lab 0 = g.nv / 2 ∧ sideSize g p.lab 1 = (g.nv + 1) / 2) := by
  have hc := unitCase hg hu htol ht
  constructor
  · intro h
    have key : ∀ r : rng.S, Post True (randomBisect (E := dblEnv pq set rng) t g r) (fun o => IsExact g 2 o.1 ∧
        (sideSize g o.1.lab 0 = min (nth t.mx 0) ((g.nv + 1) / 2) ∧
          sideSize g o.1.lab 1 = g.nv - min (nth t.mx 0) ((g.nv + 1) / 2))) := fun r => by
      refine may_iff.mpr fun o ho => ⟨?_, (C107_random (pq := pq) (set := set) hg hu htol ht r).1 o.1 o.2 ho⟩
      exact ((C32_random (E := dblEnv pq set rng) hg hc.even.two hc.even.lt r).1 o.1 o.2 ho).1
    exact ((multiBisect_spec (E := dblEnv pq set rng) (B := True) (R := fun q =>
      sideSize g q.lab 0 = min (nth t.mx 0) ((g.nv + 1) / 2) ∧
        sideSize g q.lab 1 = g.nv - min (nth t.mx 0) ((g.nv + 1) / 2)) hc.even.two key hn r).elim_ok h).1
  · intro h
    have key : ∀ r : rng.S, Post True (bfsBisect (E := dblEnv pq set rng) t g r) (fun o => IsExact g 2 o.1 ∧
        (sideSize g o.1.lab 0 = g.nv / 2 ∧ sideSize g o.1.lab 1 = (g.nv + 1) / 2)) := fun r => by
      refine may_iff.mpr fun o ho => ⟨?_, (C107_bfs (pq := pq) (set := set) hg hu htol ht r).1 o.1 o.2 ho⟩
      exact ((C31_bfs (E := dblEnv pq set rng) hg hc.even.two r).1 o.1 o.2 ho).1
    exact ((multiBisect_spec (E := dblEnv pq set rng) (B := True) (R := fun q =>
      sideSize g q.lab 0 = g.nv / 2 ∧ sideSize g q.lab 1 = (g.nv + 1) / 2) hc.even.two key hn r).elim_ok h).1

/-- With tolerance zero the limit is the target. -/
theorem limit_zero [Concrete.Log2Impl] {n : Nat} (hn : n < 4294967296) {t : Target Concrete.fp}
    (ht : Target.uniform (fp := Concrete.fp) 2 n (Concrete.fp.lit 0 0) = ok t) : t.mx = [n / 2, n / 2] := by
  obtain ⟨-, -, -, -, -, -, h5⟩ := ofFractions_shape ht
  rw [List.take_of_length_le (by simp)] at h5
  obtain ⟨b, hb, hb'⟩ := mapM_twice _ _ h5
  have e1 : Concrete.fp.mul (Concrete.fp.div (Concrete.fp.lit 1 0) (Concrete.fp.ofNat 2))
      (Concrete.fp.add (Concrete.fp.lit 1 0) (Concrete.fp.lit 0 0)) =
      Concrete.fp.div (Concrete.fp.lit 1 0) (Concrete.fp.ofNat 2) := by
    rw [half_fin, lit_one, lit_zero]
    show F64.mul (F64.fin (1 / 2)) (F64.add (F64.fin 1) (F64.fin 0)) = F64.fin (1 / 2)
    decide +kernel
  rw [e1] at hb
  unfold FP.cast at hb
  rw [half_exact hn] at hb
  rw [hb', ← Res.ok.inj hb]

/-- The computed imbalance of two equal halves is exactly zero. -/
theorem exactHalves_zero [Concrete.Log2Impl] {g : Graph} {t : Target Concrete.fp} {M : Nat} (hc : UnitCase g t M)
    (hu : ∀ v, v < g.nv → g.vw v = 1) {lab : Nat → Nat} {m : Nat} (hm : g.nv = 2 * m) (h0 : 0 < m)
    (h1 : sideSize g lab 0 = m) (h2 : sideSize g lab 1 = m) : maxImbalance g t lab = F64.fin 0 := by
  rw [sideSize_eq hu] at h1 h2
  have hs := hc.small
  have hone : Concrete.fp.sub (Concrete.fp.div (Concrete.fp.div (Concrete.fp.ofNat m) (Concrete.fp.ofNat (2 * m)))
      (F64.fin (1 / 2))) (Concrete.fp.lit 1 0) = F64.fin 0 := by
    have hmq : (0 : ℚ) < m := by exact_mod_cast h0
    have h53 : (4294967295 : Nat) < 2 ^ 53 := by norm_num
    rw [ofNat_exact (by omega), ofNat_exact (by omega), div_fin _ (by push_cast; linarith),
      show (m : ℚ) / ((2 * m : Nat) : ℚ) = 1 / 2 by push_cast; field_simp, lit_one]
    show F64.add (F64.div (rnd (1 / 2)) (F64.fin (1 / 2))) (F64.neg (F64.fin 1)) = F64.fin 0
    decide +kernel
  unfold maxImbalance imbalanceOf
  rw [hc.even.frac, hc.tot, hm]
  simp only
  rw [h1, h2, show Concrete.fp.sub _ (Concrete.fp.lit 1 0) = F64.fin 0 from hone, lit_zero]
  exact (congrArg (fun x => fmaxF Concrete.fp x (F64.fin 0)) (fmaxF_fin 0 0)).trans ((fmaxF_fin _ _).trans (by rw [max_self, max_self]))

/-- **C107, even sizes and tolerance zero.** If the number of vertices is even and the tolerance zero then random,
breadth-first, repeated and refined random bisection all return two sides of exactly half the vertices, and the imbalance
the library computes for the result is exactly zero. -/
theorem C107_exact [Concrete.Log2Impl] {g : Graph} (hg : g.Good) (hu : ∀ v, v < g.nv → g.vw v = 1) {m : Nat}
    (hm : g.nv = 2 * m) (h0 : 0 < m) {t : Target Concrete.fp}
    (ht : Target.uniform (fp := Concrete.fp) 2 g.nv (Concrete.fp.lit 0 0) = ok t) (r : rng.S) {p : Partitioning}
    {r' : rng.S} {n iters : Nat} (hn : 0 < n)
    (h : randomBisect (E := dblEnv pq set rng) t g r = ok (p, r') ∨ bfsBisect (E := dblEnv pq set rng) t g r = ok (p, r') ∨
      randomFMBisect (E := dblEnv pq set rng) iters t g r = ok (p, r') ∨
      makeBisector (dblEnv pq set rng) .random n t g r = ok (p, r') ∨
      makeBisector (dblEnv pq set rng) .bfs n t g r = ok (p, r')) :
    sideSize g p.lab 0 = m ∧ sideSize g p.lab 1 = m ∧ calcMaxImbalance g p t = ok (F64.fin 0) := by
  have htol : Concrete.fp.le (Concrete.fp.lit 0 0) (Concrete.fp.lit 0 0) = true := by
    rw [lit_zero]
    show F64.le (F64.fin 0) (F64.fin 0) = true
    decide +kernel
  have hc := unitCase hg hu htol ht
  have hM : nth t.mx 0 = m := by
    rw [limit_zero (by have := hc.small; omega) ht, hm, Nat.mul_div_cancel_left _ (by decide)]; rfl
  have hx : IsExact g 2 p := by
    have kr := fun r p r' h => ((C32_random (E := dblEnv pq set rng) hg hc.even.two hc.even.lt r).1 p r' h).1
    have kb := fun r p r' h => ((C31_bfs (E := dblEnv pq set rng) hg hc.even.two r).1 p r' h).1
    rcases h with h | h | h | h | h
    · exact kr _ _ _ h
    · exact kb _ _ _ h
    · exact ((C32_random_fm (E := dblEnv pq set rng) hg hc.even.two hc.even.lt iters r).1 _ _ h).1
    · obtain ⟨-, -, -, -, -, -, h, -⟩ := C33_multi (E := dblEnv pq set rng) hc.even.two kr hn h
      exact h
    · obtain ⟨-, -, -, -, -, -, h, -⟩ := C33_multi (E := dblEnv pq set rng) hc.even.two kb hn h
      exact h
  have h2 := sideSize_two hu hx.complete
  have key : sideSize g p.lab 0 = m ∧ sideSize g p.lab 1 = m := by
    rcases h with h | h | h | h | h
    · obtain ⟨k1, k2⟩ := (C107_random (pq := pq) (set := set) hg hu htol ht r).1 p r' h
      omega
    · obtain ⟨k1, k2⟩ := (C107_bfs (pq := pq) (set := set) hg hu htol ht r).1 p r' h
      omega
    · have k := (C107_random_fm (pq := pq) (set := set) hg hu htol ht iters r).1 p r' h
      unfold largerSide at k
      omega
    · obtain ⟨k1, k2⟩ := (C107_multi (pq := pq) (set := set) hg hu htol ht hn r).1 h
      omega
    · obtain ⟨k1, k2⟩ := (C107_multi (pq := pq) (set := set) hg hu htol ht hn r).2 h
      omega
  refine ⟨key.1, key.2, ?_⟩
  rw [calcMaxImbalance_eq hc.even.two hx, exactHalves_zero hc hu hm h0 key.1 key.2]
  rfl

/-! ### C108 -/

theorem isExact_ext {g : Graph} {k : Nat} {p q : Partitioning} (hp : IsExact g k p) (hq : IsExact g k q)
    (h : q.lab = p.lab) : q = p := by
  have h1 : q.cut = p.cut := by rw [hp.cut_eq, hq.cut_eq, h]
  have h2 : q.pw = p.pw := list_ext_nth (by rw [hp.pw_len, hq.pw_len]) fun i hi => by
    rw [hq.pw_len] at hi
    rw [hp.weights i hi, hq.weights i hi, h]
  have h3 : q.asg = p.asg := list_ext_nth (by rw [hp.asg_len, hq.asg_len]) fun i _ => congrFun h i
  cases p; cases q
  simp only at h1 h2 h3
  rw [h1, h2, h3]

/-- **C108, refinement keeps an unbalanced minimum.** Let one side of a bisection of a graph with unit vertex weights have
exactly one vertex too many, so that moving any of its vertices to the other side gives a bisection within the limits.
If no bisection with sides that large has a smaller cut, refinement returns it as it is: a state within the limits is
accepted only for a smaller cut. This holds for every limit on passes and moves, every queue and set. -/
theorem C108_kept [Concrete.Log2Impl] {g : Graph} (hg : g.Good) (hu : ∀ v, v < g.nv → g.vw v = 1) {tol : Concrete.fp.F}
    (htol : Concrete.fp.le (Concrete.fp.lit 0 0) tol = true) {t : Target Concrete.fp}
    (ht : Target.uniform (fp := Concrete.fp) 2 g.nv tol = ok t) (maxIters maxMoves : Nat) {p : Partitioning}
    {c : Conn set} (hp : IsExact g 2 p) (hcn : ConnExact g p.lab c) (hfeas : g.nv ≤ 2 * nth t.mx 0)
    (hover : largerSide g p.lab = nth t.mx 0 + 1)
    (hmin : ∀ lab : Nat → Nat, (∀ v, v < g.nv → lab v < 2) → largerSide g lab ≤ nth t.mx 0 + 1 → p.cut ≤ cutWeight g lab)
    {o : Partitioning × Conn set} (h : fmRefine (E := dblEnv pq set rng) g t maxIters maxMoves p c = ok o) :
    o.1 = p ∧ ¬ Balanced g t o.1.lab ∧
      ∃ side, side < 2 ∧ (∃ v, v < g.nv ∧ p.lab v = side) ∧
        ∀ v, v < g.nv → p.lab v = side → Balanced g t (flip p.lab v) := by
  have hc := unitCase hg hu htol ht
  have hs := C27_fm_improves (E := dblEnv pq set rng) hg hc.even.two maxIters maxMoves hp hcn h
  have he := (C26_fm_exact (E := dblEnv pq set rng) hg hc.even.two maxIters maxMoves hp hcn).1 o h
  have hsame : ∀ {b : Nat → Nat}, ImprovesStar g t p.lab b → b = p.lab := by
    intro b hs
    induction hs with
    | refl => rfl
    | @step b c _ hi hc2 ih =>
      rw [ih] at hi
      rcases improves_unit hc hu hp.complete hc2 hi with h | h
      · omega
      · have := hmin c hc2 (by omega)
        rw [hp.cut_eq] at this
        omega
  have hlab := hsame hs
  have hop := isExact_ext hp he.1 hlab
  have hB := hc.balanced hu p.lab
  have h2 := sideSize_two hu hp.complete
  refine ⟨hop, by rw [hop, hB]; omega, ?_⟩
  have hside : ∃ side, side < 2 ∧ sideSize g p.lab side = nth t.mx 0 + 1 := by
    unfold largerSide at hover
    rcases max_choice (sideSize g p.lab 0) (sideSize g p.lab 1) with e | e
    · exact ⟨0, by decide, by omega⟩
    · exact ⟨1, by decide, by omega⟩
  obtain ⟨side, hsd, hsz⟩ := hside
  refine ⟨side, hsd, ?_, fun v hv hl => ?_⟩
  · have : 0 < sideSize g p.lab side := by omega
    obtain ⟨v, hv⟩ := card_pos.mp this
    rw [mem_filter, mem_range] at hv
    exact ⟨v, hv⟩
  · rw [hc.balanced hu]
    have hf2 : ∀ u, u < g.nv → flip p.lab v u < 2 := fun u hun => by
      unfold flip
      split
      · omega
      · exact hp.complete u hun
    have hs2 := sideSize_two hu hf2
    have hfl : sideSize g (flip p.lab v) side + 1 = sideSize g p.lab side := by
      unfold sideSize
      have : (range g.nv).filter (fun u => p.lab u = side) =
          insert v ((range g.nv).filter (fun u => flip p.lab v u = side)) := by
        ext u
        rw [mem_insert, mem_filter, mem_filter, mem_range]
        unfold flip
        by_cases e : u = v
        · rw [e]; simp [hv, hl]
        · simp [e]
      rw [this, card_insert_of_notMem]
      rw [mem_filter]
      unfold flip
      rw [if_pos rfl]
      omega
    unfold largerSide at hover ⊢
    have : side = 0 ∨ side = 1 := by omega
    rcases this with rfl | rfl <;> omega

/-- The cut of a bisection of a complete graph is the product of the sizes of its sides. -/
theorem complete_cut {g : Graph} (hk : Complete g) {lab : Nat → Nat} (h2 : ∀ v, v < g.nv → lab v < 2) :
    cutWeight g lab = sideSize g lab 0 * sideSize g lab 1 := by
  unfold cutWeight sideSize
  have key : ∀ m, m ≤ g.nv → (∑ v ∈ range m, ∑ u ∈ range v, if lab u ≠ lab v then g.wt v u else 0) =
      ((range m).filter fun v => lab v = 0).card * ((range m).filter fun v => lab v = 1).card := by
    intro m
    induction m with
    | zero => simp
    | succ m ih =>
      intro hm
      rw [sum_range_succ, ih (by omega), range_add_one, filter_insert, filter_insert]
      have hin : (∑ u ∈ range m, if lab u ≠ lab m then g.wt m u else 0) =
          ((range m).filter fun u => lab u ≠ lab m).card := by
        rw [card_filter]
        refine sum_congr rfl fun u hu => ?_
        have := mem_range.mp hu
        rw [hk m u (by omega) (by omega) (by omega)]
      rw [hin]
      have hlm := h2 m (by omega)
      have hm0 : ∀ q, m ∉ (range m).filter fun u => lab u = q := fun q => by simp
      have : lab m = 0 ∨ lab m = 1 := by omega
      rcases this with e | e
      · rw [if_pos e, if_neg (by omega), card_insert_of_notMem (hm0 0), Nat.add_mul, Nat.one_mul]
        congr 2
        refine filter_congr fun u hu => ?_
        have := h2 u (by have := mem_range.mp hu; omega)
        omega
      · rw [if_pos e, if_neg (by omega), card_insert_of_notMem (hm0 1), Nat.mul_add, Nat.mul_one]
        congr 2
        refine filter_congr fun u hu => ?_
        have := h2 u (by have := mem_range.mp hu; omega)
        omega
  exact key g.nv (le_refl _)

/-- **C108, complete graphs.** On a complete graph refinement returns every bisection with exactly one vertex too many
on one side unchanged: it never restores balance there. -/
theorem C108_complete [Concrete.Log2Impl] {g : Graph} (hg : g.Good) (hu : ∀ v, v < g.nv → g.vw v = 1) (hk : Complete g)
    {tol : Concrete.fp.F} (htol : Concrete.fp.le (Concrete.fp.lit 0 0) tol = true) {t : Target Concrete.fp}
    (ht : Target.uniform (fp := Concrete.fp) 2 g.nv tol = ok t) (maxIters maxMoves : Nat) {p : Partitioning}
    {c : Conn set} (hp : IsExact g 2 p) (hcn : ConnExact g p.lab c) (hfeas : g.nv ≤ 2 * nth t.mx 0)
    (hover : largerSide g p.lab = nth t.mx 0 + 1)
    {o : Partitioning × Conn set} (h : fmRefine (E := dblEnv pq set rng) g t maxIters maxMoves p c = ok o) :
    o.1 = p ∧ ¬ Balanced g t o.1.lab := by
  obtain ⟨h1, h2, -⟩ := C108_kept hg hu htol ht maxIters maxMoves hp hcn hfeas hover (fun lab hl hle => by
    rw [hp.cut_eq, complete_cut hk hp.complete, complete_cut hk hl]
    have a2 := sideSize_two hu hp.complete
    have b2 := sideSize_two hu hl
    unfold largerSide at hover hle
    generalize sideSize g p.lab 0 = a at *
    generalize sideSize g p.lab 1 = b at *
    generalize sideSize g lab 0 = x at *
    generalize sideSize g lab 1 = y at *
    generalize nth t.mx 0 = M at *
    have hx : x ≤ M + 1 := by omega
    have hy : y ≤ M + 1 := by omega
    obtain ⟨i, hi⟩ := Nat.le.dest hx
    obtain ⟨j, hj⟩ := Nat.le.dest hy
    have hcase : (a = M + 1 ∧ b + M + 1 = g.nv) ∨ (b = M + 1 ∧ a + M + 1 = g.nv) := by omega
    -- `a * b = (M+1)(n-M-1)` and `x * y = (M+1-i)(n-M-1+i)`
    have hgoal : (M + 1) * (g.nv - (M + 1)) ≤ x * y := by
      have hn : M + 1 ≤ g.nv := by omega
      obtain ⟨d, hd⟩ := Nat.le.dest hn
      rw [← hd, Nat.add_sub_cancel_left]
      have e1 : x = d + j := by omega
      have e2 : y = d + i := by omega
      have e3 : M + 1 = d + j + i := by omega
      rw [e3, e1, e2]
      have : (d + j) * (d + i) = (d + j + i) * d + j * i := by ring
      omega
    rcases hcase with ⟨e1, e2⟩ | ⟨e1, e2⟩
    · rw [e1, show b = g.nv - (M + 1) by omega]; exact hgoal
    · rw [e1, show a = g.nv - (M + 1) by omega, Nat.mul_comm]; exact hgoal) h
  exact ⟨h1, h2⟩

/-! ### the hypotheses are met -/

namespace Ex

/-- The complete graph on four vertices, without weight arrays. -/
def k4 : Graph :=
  { unitEdge := true, unitVtx := true, nv := 4, ne := 12, totVtx := 4, totEdge := 12,
    xadj := [0, 3, 6, 9, 12], adjncy := [1, 2, 3, 0, 2, 3, 0, 1, 3, 0, 1, 2], vwgt := [], adjwgt := [] }

theorem k4_good : k4.Good :=
  ⟨by constructor <;> decide +kernel, Graph.symm_of (by decide +kernel), by unfold Graph.NoLoop; decide +kernel,
    by constructor <;> decide +kernel⟩

theorem k4_unit : ∀ v, v < k4.nv → k4.vw v = 1 := by decide +kernel

theorem k4_complete : Complete k4 := by
  have : ∀ u, u < 4 → ∀ v, v < 4 → u ≠ v → k4.wt u v = 1 := by decide +kernel
  exact fun u v hu hv => this u hu v hv

/-- The even target of four vertices without tolerance. -/
def k4Target : Target Concrete.fp :=
  { k := 2, frac := [F64.fin (1 / 2), F64.fin (1 / 2)], tw := [2, 2], mx := [2, 2] }

theorem k4Target_uniform : Target.uniform (fp := Concrete.fp) 2 k4.nv (Concrete.fp.lit 0 0) = ok k4Target := by
  refine uniform_ok (fp := Concrete.fp) (k := 2) (tot := 4) (tol := Concrete.fp.lit 0 0) (f := F64.fin (1 / 2))
    (s := F64.fin 1) (a := 2) (b := 2) half_fin ?_ ?_
    (by
      rw [lit_zero]
      show (List.range 2).foldl (fun acc _ => F64.add acc (F64.fin (1 / 2))) (F64.fin 0) = F64.fin 1
      decide +kernel)
    ?_ ?_ ?_ ?_ <;> decide +kernel

/-- Three vertices against one. -/
def k4Part : Partitioning := { cut := 3, pw := [3, 1], asg := [0, 0, 0, 1] }

theorem k4Part_exact : IsExact k4 2 k4Part := by constructor <;> decide +kernel

end Ex

/-- All hypotheses of C107 and C108 are met by the complete graph on four vertices, where refinement indeed leaves three
vertices against one although any two against two is within the limits. -/
example : Ex.k4.Good ∧ (∀ v, v < Ex.k4.nv → Ex.k4.vw v = 1) ∧ Complete Ex.k4 ∧
    Concrete.fp.le (Concrete.fp.lit 0 0) (Concrete.fp.lit 0 0) = true ∧
    Target.uniform (fp := Concrete.fp) 2 Ex.k4.nv (Concrete.fp.lit 0 0) = ok Ex.k4Target ∧ IsExact Ex.k4 2 Ex.k4Part ∧
    Ex.k4.nv ≤ 2 * nth Ex.k4Target.mx 0 ∧ largerSide Ex.k4 Ex.k4Part.lab = nth Ex.k4Target.mx 0 + 1 ∧
    (do
      let c ← Conn.fromPartitioning Concrete.env.set Ex.k4 Ex.k4Part
      let o ← fmRefine (E := Concrete.env) Ex.k4 Ex.k4Target 8 150 Ex.k4Part c
      (.ok o.1 : Res Partitioning)) = ok Ex.k4Part ∧
    (randomBisect (E := Concrete.env) Ex.k4Target Ex.k4 ()).value = ok { cut := 4, pw := [2, 2], asg := [0, 0, 1, 1] } ∧
    (bfsBisect (E := Concrete.env) Ex.k4Target Ex.k4 ()).value = ok { cut := 4, pw := [2, 2], asg := [0, 1, 1, 0] } ∧
    (randomFMBisect (E := Concrete.env) 8 Ex.k4Target Ex.k4 ()).value =
      ok { cut := 4, pw := [2, 2], asg := [0, 0, 1, 1] } :=
  ⟨Ex.k4_good, Ex.k4_unit, Ex.k4_complete, by decide +kernel, Ex.k4Target_uniform, Ex.k4Part_exact, by decide +kernel,
    by decide +kernel, by decide +kernel, by decide +kernel, by decide +kernel, by decide +kernel⟩

end Poros
