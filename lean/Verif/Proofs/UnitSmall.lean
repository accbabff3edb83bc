import Verif.Proofs.NullSafe
import Verif.Proofs.QualityK
import Verif.Proofs.F64Exact
/-
Recursive bisection of unit-weight graphs that are not coarsened: every part gets exactly its target weight.
-/
namespace Poros
open Finset Res Concrete

variable {pq : PQImpl} {set : SetImpl} {rng : RngImpl}

/-- Growing in a unit-weight graph takes every vertex it looks at and never passes the target weight. -/
theorem Grown.unit {fp : FP} {g : Graph} {t : Target fp} {seed : Nat} {lab : Nat → Nat} {seen : List Nat}
    (h : Grown g t seed lab seen) (hu : ∀ v, v < g.nv → g.vw v = 1) (htm : nth t.tw 0 ≤ nth t.mx 0) :
    partWeight g lab 0 ≤ nth t.tw 0 ∧ ∀ v, v ∈ seen → lab v = 0 := by
  induction h with
  | start h => exact ⟨by rw [partWeight_all h (by decide)]; omega, fun v hv => by simp at hv⟩
  | @take lab seen v hgr hlt hn hfit ih =>
    have hl : lab v = 1 := hgr.spec.2.2.1 v hn.1 hn.2.1
    have e : partWeight g (put lab v 0) 0 = partWeight g lab 0 + g.vw v := by
      have := partWeight_relabel (q := 0) lab hn.1 0
      rw [hl, if_neg (by decide), if_pos rfl] at this
      exact this
    rw [e, hu v hn.1]
    refine ⟨by omega, fun u hs => ?_⟩
    unfold put
    split
    · rfl
    · rcases List.mem_cons.mp hs with h | h
      · contradiction
      · exact ih.2 u h
  | @skip lab seen v hgr hlt hn hfit ih =>
    rw [hu v hn.1] at hfit
    omega

theorem GrownTo.unit {fp : FP} {g : Graph} {t : Target fp} {seed : Nat} {out : Nat → Nat}
    (h : GrownTo g t seed out) (hu : ∀ v, v < g.nv → g.vw v = 1) (htm : nth t.tw 0 ≤ nth t.mx 0)
    (hle : nth t.tw 0 ≤ g.nv) (hr : g.nv ≤ nth t.tw 0 + nth t.mx 1) : partWeight g out 0 = nth t.tw 0 := by
  obtain ⟨-, lab, seen, h1, h2, h3⟩ := h
  obtain ⟨u1, u2⟩ := h1.unit hu htm
  have hs := partWeight_two h1.spec.1
  rw [unit_sum hu] at hs
  have e : partWeight g lab 0 = nth t.tw 0 := by
    rcases h2 with h | h
    · omega
    · have : partWeight g lab 1 = 0 := by
        unfold partWeight
        refine sum_eq_zero fun v hv => if_neg ?_
        have hv := mem_range.mp hv
        rw [u2 v (h v hv)]
        decide
      omega
  rcases h3 with ⟨ho, -⟩ | ⟨-, rfl⟩
  · have := ho.1
    omega
  · exact e

/-- Multilevel bisection of a unit-weight graph that is small or has no edges. -/
theorem MLBisected.unit {E : Env} {s : Scheme} {t : Target E.fp} {g : Graph} {r : E.rng.S} {lab : Nat → Nat} {r' : E.rng.S}
    (h : MLBisected E s t g r lab r') (hstop : g.nv ≤ 20 ∨ g.ne = 0) (hu : ∀ v, v < g.nv → g.vw v = 1)
    (htm : nth t.tw 0 ≤ nth t.mx 0) (hle : nth t.tw 0 ≤ g.nv) (hr : g.nv ≤ nth t.tw 0 + nth t.mx 1) :
    partWeight g lab 0 = nth t.tw 0 := by
  obtain ⟨hier, h⟩ := h
  cases h with
  | coarsest _ hi =>
    obtain ⟨seed, hg⟩ := hi.grown
    exact hg.unit hu htm hle hr
  | level hn => exact absurd (hstop.elim Or.inl fun h => Or.inr (Or.inl h)) hn

/-- A unit-weight graph that is not coarsened and has `m * a` vertices. -/
structure Even (a m : Nat) (g : Graph) : Prop where
  unit : ∀ v, v < g.nv → g.vw v = 1
  size : g.nv = m * a
  stop : g.nv ≤ 20 ∨ g.ne = 0

theorem IsInduced.even {g s : Graph} {lab : Nat → Nat} {p : Nat} (h : IsInduced g lab p s) (hg : g.WF) {a m n : Nat}
    (hE : Even a m g) (hw : partWeight g lab p = n * a) : Even a n s := by
  have hu : ∀ v, v < s.nv → s.vw v = 1 := fun v hv => by
    rw [h.vw v hv]; exact hE.unit _ (h.vert hv).1
  have hs : s.nv = n * a := by rw [← unit_sum hu, h.sumVtx, hw]
  refine ⟨hu, hs, ?_⟩
  rcases hE.stop with h1 | h1
  · left
    have := partWeight_le (g := g) lab p
    rw [unit_sum hE.unit] at this
    omega
  · right
    rw [← sum_nbrs_length h.valid]
    refine sum_eq_zero fun i hi => ?_
    have hi := mem_range.mp hi
    have h2 := congrArg List.length (h.nbrs i hi)
    rw [List.length_map] at h2
    have h3 : (g.nbrs (nth (vertsOf g lab p) i)).length = 0 := by
      have := sum_nbrs_length hg
      rw [h1] at this
      exact sum_eq_zero_iff.mp this _ (mem_range.mpr (h.vert hi).1)
    rw [List.length_eq_zero_iff.mp h3] at h2
    simpa using h2

/-- The bisection for `m` equal parts of such a graph. -/
theorem even_halves [Concrete.Log2Impl] {a b m : Nat} {g : Graph} (hE : Even a m g) (hm : 2 ≤ m) (ha : 0 < a) (hab : a ≤ b)
    (hb : (m - m / 2) * b < 4294967296) (hk : m * a < 4294967296) {bt : Target Concrete.fp}
    (hbt : IsHalvesTarget (List.replicate m a) (List.replicate m b) bt) :
    nth bt.tw 0 = m / 2 * a ∧ nth bt.tw 0 ≤ nth bt.mx 0 ∧ nth bt.tw 0 ≤ g.nv ∧ g.nv ≤ nth bt.tw 0 + nth bt.mx 1 := by
  have e : m / 2 + (m - m / 2) = m := by omega
  obtain ⟨h1, h2, h3, -⟩ := halves_equal (n := m / 2) (m := m - m / 2) (by omega) (by omega) ha hab hb
    (by rw [e]; exact hk) (by rw [e]; exact hbt)
  have hsz : m / 2 * a + (m - m / 2) * a = m * a := by rw [← Nat.add_mul, e]
  have := hE.size
  exact ⟨h1, by omega, by omega, by omega⟩

theorem MLBisected.even [Concrete.Log2Impl] {s : Scheme} {bt : Target Concrete.fp} {g : Graph} {r : rng.S}
    {lab : Nat → Nat} {r' : rng.S} (h : MLBisected (dblEnv pq set rng) s bt g r lab r') {a b m : Nat} (hE : Even a m g)
    (hm : 2 ≤ m) (ha : 0 < a) (hab : a ≤ b) (hb : (m - m / 2) * b < 4294967296) (hk : m * a < 4294967296)
    (hbt : IsHalvesTarget (List.replicate m a) (List.replicate m b) bt) (h2 : ∀ v, v < g.nv → lab v < 2) :
    partWeight g lab 0 = m / 2 * a ∧ partWeight g lab 1 = (m - m / 2) * a := by
  obtain ⟨t1, t2, t3, t4⟩ := even_halves hE hm ha hab hb hk hbt
  have h0 := h.unit hE.stop hE.unit t2 t3 t4
  have hs := partWeight_two h2
  rw [unit_sum hE.unit, hE.size] at hs
  have hsz : m / 2 * a + (m - m / 2) * a = m * a := by rw [← Nat.add_mul]; congr 1; omega
  omega

/-- Every part of a run has exactly its target weight. -/
theorem RBRun.even [Concrete.Log2Impl] {s : Scheme} {a b : Nat} (ha : 0 < a) (hab : a ≤ b) {tw mx : List Nat} {g : Graph} {r : rng.S}
    {lab : Nat → Nat} {r' : rng.S} (h : RBRun (MLBisected (dblEnv pq set rng) s) tw mx g r lab r') :
    ∀ m, tw = List.replicate m a → mx = List.replicate m b → Even a m g → g.Good → (m - m / 2) * b < 4294967296 →
      m * a < 4294967296 → ∀ q, q < m → partWeight g lab q = a := by
  induction h with
  | leaf hk _ h =>
    intro m e1 e2 hE _ _ _ q hq
    have hm : m = 1 := by rw [e1] at hk; simpa using hk
    rw [show q = 0 by omega]
    unfold partWeight
    rw [sum_congr rfl fun v hv => if_pos (h v (mem_range.mp hv)), ← Graph.sumVtx, unit_sum hE.unit, hE.size, hm, one_mul]
  | @node tw mx g lab bt side sL sR labL labR r r1 r2 r3 hk hm hbt hR hp hL hRt runL runR labelsL labelsR ihL ihR =>
    intro m e1 e2 hE hg hb hk' q hq
    subst e1 e2
    have hlt := runL.lt
    simp only [List.length_replicate, List.take_replicate, List.drop_replicate] at hk ihL ihR labelsR hlt
    rw [Nat.min_eq_left (Nat.div_le_self m 2)] at ihL hlt
    obtain ⟨w0, w1⟩ := hR.even hE hk ha hab hb hk' hbt hp
    rw [partWeight_sides hp hL hRt (m := m / 2) (fun i hi => by simpa using hlt i hi) labelsL labelsR]
    have hle : ∀ x y, x ≤ y → x * b ≤ y * b := fun x y h => Nat.mul_le_mul_right _ h
    have hle' : ∀ x y, x ≤ y → x * a ≤ y * a := fun x y h => Nat.mul_le_mul_right _ h
    split
    · exact ihL _ rfl rfl (hL.even hg.wf hE w0) (hL.good hg hL.valid)
        (lt_of_le_of_lt (hle _ _ (by omega)) hb) (lt_of_le_of_lt (hle' _ _ (by omega)) hk') q (by omega)
    · exact ihR _ rfl rfl (hRt.even hg.wf hE w1) (hRt.good hg hRt.valid)
        (lt_of_le_of_lt (hle _ _ (by omega)) hb) (lt_of_le_of_lt (hle' _ _ (by omega)) hk') _ (by omega)

/-- A run succeeds. -/
theorem partitioner_even [Concrete.Log2Impl] (s : Scheme) {t : Target Concrete.fp} {a b k : Nat} (hk : 2 ≤ k) (htk : t.k = k)
    (etw : t.tw = List.replicate k a) (emx : t.mx = List.replicate k b) (ha : 0 < a) (hab : a ≤ b)
    (hb : (k - k / 2) * b < 4294967296) (hka : k * a < 4294967296) (hf : WeightsFit NULL32 t.tw t.mx) {g : Graph}
    (hE : Even a k g) (hg : g.Good) (r : rng.S) :
    ∃ p r', partitioner (dblEnv pq set rng) s t g r = ok (p, r') ∧ p.asg.length = g.nv := by
  have hk' : k < 4294967296 := lt_of_le_of_lt (Nat.le_mul_of_pos_right _ ha) hka
  have := rbExecute_inv (E := dblEnv pq set rng) (bu := False) (be := False) (bd := False)
    (bis := (makeMultilevel (dblEnv pq set rng) s).execute)
    (R := fun bt g r lab r' => MLBisected (dblEnv pq set rng) s bt g r lab r' ∧ ∀ v, v < g.nv → lab v < 2)
    (S := g.sumVtx) (M := NULL32) (by decide)
    (fun tw mx g => ∃ m, 2 ≤ m ∧ m ≤ k ∧ tw = List.replicate m a ∧ mx = List.replicate m b ∧ Even a m g)
    (fun tw mx bt g r lab r' labels sub hg hi hbt hR => by
      obtain ⟨m, hm, hmk, rfl, rfl, hE⟩ := hi
      have hle : (m - m / 2) * b ≤ (k - k / 2) * b := Nat.mul_le_mul_right _ (by omega)
      have hle' : m * a ≤ k * a := Nat.mul_le_mul_right _ hmk
      obtain ⟨w0, w1⟩ := hR.1.even hE hm ha hab (by omega) (by omega) hbt hR.2
      simp only [List.length_replicate, List.take_replicate, List.drop_replicate]
      rw [Nat.min_eq_left (Nat.div_le_self m 2)]
      exact ⟨fun h hs => ⟨_, h, by omega, rfl, rfl, hs.induced.even hg.wf hE w0⟩,
        fun h hs => ⟨_, h, by omega, rfl, rfl, hs.induced.even hg.wf hE w1⟩⟩)
    (fun tw mx bt g r hi hbt hg _ hb2 _ _ => by
      obtain ⟨m, hm, hmk, rfl, rfl, hE⟩ := hi
      have hle : (m - m / 2) * b ≤ (k - k / 2) * b := Nat.mul_le_mul_right _ (by omega)
      have hle' : m * a ≤ k * a := Nat.mul_le_mul_right _ hmk
      obtain ⟨t1, t2, t3, t4⟩ := even_halves hE hm ha hab (by omega) (by omega) hbt
      have h0 : 0 < g.nv := by rw [hE.size]; exact Nat.mul_pos (by omega) ha
      obtain ⟨o, ho, hex⟩ := sat_iff.mp (multilevel_unit (E := dblEnv pq set rng) Concrete.callOK.multilevel s hg hE.stop
        hb2 hE.unit ⟨t2, t4⟩ h0 r)
      rw [ho]
      exact ⟨hex.1, (C72_multilevel_run s hb2 hg r).1 o.1 o.2 ho, hex.1.complete⟩)
    (t := t) (by omega) (by rw [htk]; exact hk') (by rw [etw, htk]; simp) (by rw [emx, htk]; simp)
    (Or.inl ⟨Concrete.recursiveOK, hf⟩) (g := g) ⟨k, hk, le_refl _, etw, emx, hE⟩ hg (le_refl _) r
  obtain ⟨x, hx, hex, -⟩ := sat_iff.mp (Wp.post.mp this)
  exact ⟨x.1, x.2, hx, hex.asg_len⟩

end Poros
