import Verif.Proofs.UnitShares
import Verif.Props.P107_Halves
/-
C109: recursive bisection with the component bisectors divides graphs whose vertices all weigh 1 into exactly equal parts.
-/
namespace Poros
open Finset Res Concrete

variable {pq : PQImpl} {set : SetImpl} {rng : RngImpl}

theorem mapM_const {α : Type} {k : Nat} (hk : 0 < k) (x : α) (f : α → Res Nat) {l : List Nat}
    (h : (List.replicate k x).mapM f = ok l) : ∃ a, f x = ok a ∧ l = List.replicate k a := by
  cases k with
  | zero => omega
  | succ k =>
    rw [List.replicate_succ, List.mapM_cons] at h
    cases hf : f x with
    | ok a =>
      refine ⟨a, rfl, ?_⟩
      have e : (List.replicate k x).mapM f = ok (List.replicate k a) := by
        have := mapM_ok_eq_map (l := List.replicate k x) (f := f) (g := fun _ => a) fun y hy => by
          rw [List.eq_of_mem_replicate hy, hf]
        rw [this]; simp
      rw [hf, ok_bind, e, ok_bind] at h
      rw [← Res.ok.inj h, List.replicate_succ]
    | ub => rw [hf] at h; cases h
    | exn => rw [hf] at h; cases h
    | diverge => rw [hf] at h; cases h

/-- The uniform target: the same target weight and the same limit for every part, the limit not below the target. -/
theorem uniform_equal [Concrete.Log2Impl] {k n : Nat} (hk : 0 < k) (hk' : k < 4294967296) (hn : n < 4294967296)
    {tol : Concrete.fp.F} (htol : Concrete.fp.le (Concrete.fp.lit 0 0) tol = true) {t : Target Concrete.fp}
    (ht : Target.uniform (fp := Concrete.fp) k n tol = ok t) :
    t.k = k ∧ t.tw = List.replicate k (nth t.tw 0) ∧ t.mx = List.replicate k (nth t.mx 0) ∧ nth t.tw 0 ≤ nth t.mx 0 := by
  obtain ⟨-, h0, -, -, -, h4, h5⟩ := ofFractions_shape ht
  rw [List.take_of_length_le (by simp)] at h4 h5
  obtain ⟨a, -, ha⟩ := mapM_const hk _ _ h4
  obtain ⟨b, -, hb⟩ := mapM_const hk _ _ h5
  refine ⟨h0, ?_, ?_, ?_⟩
  · rw [ha, nth_replicate hk]
  · rw [hb, nth_replicate hk]
  · refine C48_target_le_max Concrete.targetOK (by norm_num; exact hn) htol (fun f hf => ?_) ht 0 hk
    rw [List.eq_of_mem_replicate hf, lit_one, ofNat_exact (by omega)]
    have hkq : (0 : ℚ) < k := by exact_mod_cast hk
    have hk1 : (1 : ℚ) ≤ k := by exact_mod_cast hk
    have h1 : (1 : ℚ) / k ≤ 1 := (div_le_one hkq).mpr hk1
    rw [div_fin _ hkq.ne']
    obtain ⟨r, r1, -⟩ := near_err (q := 1 / (k : ℚ)) (div_nonneg (by norm_num) hkq.le) (by linarith)
    rw [r1, mul_fin, mul_one]
    exact rnd_idem (div_nonneg (by norm_num) hkq.le) (by linarith) r1

/-- The situation at every bisection of a recursive bisection into parts of exactly the target weight. -/
theorem shareCase [Concrete.Log2Impl] {a b m : Nat} {g : Graph} (hg : g.Good) (hu : ∀ v, v < g.nv → g.vw v = 1)
    (hsz : g.nv = m * a) (hm : 2 ≤ m) (ha : 0 < a) (hab : a ≤ b) (hb : (m - m / 2) * b < 4294967296)
    {bt : Target Concrete.fp} (hbt : IsHalvesTarget (List.replicate m a) (List.replicate m b) bt) :
    ShareCase (m / 2) (m - m / 2) a g bt ∧ nth bt.mx 0 ≤ m / 2 * b ∧ nth bt.mx 1 ≤ (m - m / 2) * b := by
  have e : m / 2 + (m - m / 2) = m := by omega
  have hs := unit_sum hu
  have hsm := hg.small.vtx
  have hk : m * a < 4294967296 := by omega
  obtain ⟨h1, h2, h3, -⟩ := halves_equal (n := m / 2) (m := m - m / 2) (by omega) (by omega) ha hab hb
    (by rw [e]; exact hk) (by rw [e]; exact hbt)
  refine ⟨⟨by omega, by omega, ha, by rw [e]; exact hk, ?_, ?_, by rw [e]; exact hsz, hu, ⟨b, by rw [e]; exact hbt⟩, h1, h2.1,
    h3.1⟩, h2.2, h3.2⟩
  · rw [hg.wf.totVtx_eq (by omega), hs, e, hsz]
  · rw [hs, e, hsz]

/-- Recursive bisection with any bisector that returns the exact shares. -/
theorem rb_shares [Concrete.Log2Impl] {a b k M : Nat} (ha : 0 < a) (hab : a ≤ b) (hk : 2 ≤ k) (hM : M < 4294967295)
    (hb : (k - k / 2) * b ≤ M) {bis : Bisector (dblEnv pq set rng)}
    (hbis : ∀ m (bt : Target Concrete.fp) g r, g.Good → 2 ≤ m → m ≤ k → ShareCase (m / 2) (m - m / 2) a g bt → bt.Two →
      nth bt.mx 0 ≤ m / 2 * b → nth bt.mx 1 ≤ (m - m / 2) * b → nth bt.mx 0 ≤ M →
      Sat (bis bt g r) (fun o => IsExact g 2 o.1 ∧ partWeight g o.1.lab 0 = m / 2 * a))
    {t : Target Concrete.fp} (htk : t.k = k) (etw : t.tw = List.replicate k a) (emx : t.mx = List.replicate k b)
    {g : Graph} (hg : g.Good) (hu : ∀ v, v < g.nv → g.vw v = 1) (hsz : g.nv = k * a) (r : rng.S) :
    ∃ p r', rbExecute (E := dblEnv pq set rng) bis t g r = ok (p, r') ∧ IsExact g k p ∧
      ∀ q, q < k → partWeight g p.lab q = a := by
  have hs := unit_sum hu
  have hsm := hg.small.vtx
  have hk' : k < 4294967296 := lt_of_le_of_lt (Nat.le_mul_of_pos_right _ ha) (show k * a < 4294967296 by omega)
  -- what a bisection yields
  let R : Target Concrete.fp → Graph → rng.S → (Nat → Nat) → rng.S → Prop := fun bt g _ lab _ =>
    ∀ m, 2 ≤ m → m ≤ k → g.Good → g.nv = m * a → (∀ v, v < g.nv → g.vw v = 1) →
      IsHalvesTarget (List.replicate m a) (List.replicate m b) bt →
      partWeight g lab 0 = m / 2 * a ∧ partWeight g lab 1 = (m - m / 2) * a
  have fit : ∀ m, m ≤ k → (m - m / 2) * b ≤ M := fun m hm => le_trans (Nat.mul_le_mul_right _ (by omega)) hb
  have hI := rbExecute_inv (E := dblEnv pq set rng) (bu := False) (be := False) (bd := False) (bis := bis)
    (R := R) (S := g.sumVtx) (M := M) (show M < 4294967296 by omega)
    (fun tw mx g => ∃ m, 2 ≤ m ∧ m ≤ k ∧ tw = List.replicate m a ∧ mx = List.replicate m b ∧
      (∀ v, v < g.nv → g.vw v = 1) ∧ g.nv = m * a)
    (fun tw mx bt g r lab r' labels sub hg hi hbt hR => by
      obtain ⟨m, hm, hmk, rfl, rfl, hu, hsz⟩ := hi
      obtain ⟨w0, w1⟩ := hR m hm hmk hg hsz hu hbt
      simp only [List.length_replicate, List.take_replicate, List.drop_replicate]
      rw [Nat.min_eq_left (Nat.div_le_self m 2)]
      have sz : ∀ {q n}, SubOK g lab labels q sub → partWeight g lab q = n * a →
          (∀ v, v < sub.graph.nv → sub.graph.vw v = 1) ∧ sub.graph.nv = n * a := by
        intro q n hsub hw
        have hu' : ∀ v, v < sub.graph.nv → sub.graph.vw v = 1 := fun v hv => by
          rw [hsub.induced.vw v hv]; exact hu _ (hsub.induced.vert hv).1
        exact ⟨hu', by rw [← unit_sum hu', hsub.induced.sumVtx, hw]⟩
      exact ⟨fun h hs => ⟨_, h, by omega, rfl, rfl, sz hs w0⟩, fun h hs => ⟨_, h, by omega, rfl, rfl, sz hs w1⟩⟩)
    (fun tw mx bt g r hi hbt hg _ hb2 _ _ => by
      obtain ⟨m, hm, hmk, rfl, rfl, hu, hsz⟩ := hi
      have hf := fit m hmk
      obtain ⟨c, c1, c2⟩ := shareCase hg hu hsz hm ha hab (by omega) hbt
      have hle : m / 2 * b ≤ (m - m / 2) * b := Nat.mul_le_mul_right _ (by omega)
      obtain ⟨o, ho, hx, hw⟩ := sat_iff.mp (hbis m bt g r hg hm hmk c hb2 c1 c2 (by omega))
      rw [ho]
      refine ⟨hx, ?_⟩
      intro m' hm' _ _ hsz' _ _
      have hmm : m' = m := Nat.eq_of_mul_eq_mul_right ha (hsz'.symm.trans hsz)
      subst hmm
      have := c.add hx.complete
      exact ⟨hw, by omega⟩)
    (t := t) (by omega) (by rw [htk]; exact hk') (by rw [etw, htk]; simp) (by rw [emx, htk]; simp)
    (Or.inl ⟨Concrete.recursiveOK, by
      rw [etw, emx]
      have hf := fit k (le_refl _)
      have hle : k / 2 * b ≤ (k - k / 2) * b := Nat.mul_le_mul_right _ (by omega)
      refine ⟨fun i hi => ?_, ?_, ?_⟩
      · rw [List.length_replicate] at hi
        rw [nth_replicate hi, nth_replicate hi]; exact hab
      · simp only [List.length_replicate, List.take_replicate, List.sum_replicate, smul_eq_mul]
        rw [Nat.min_eq_left (Nat.div_le_self k 2)]; omega
      · simp only [List.length_replicate, List.drop_replicate, List.sum_replicate, smul_eq_mul]; omega⟩)
    (g := g) ⟨k, hk, le_refl _, etw, emx, hu, hsz⟩ hg (le_refl _) r
  obtain ⟨x, hx, hex, hrun⟩ := sat_iff.mp (Wp.post.mp hI)
  refine ⟨x.1, x.2, hx, htk ▸ hex, ?_⟩
  clear hI hx hex
  have key : ∀ {tw mx : List Nat} {g : Graph} {r : rng.S} {lab : Nat → Nat} {r' : rng.S}, RBRun R tw mx g r lab r' →
      ∀ m, m ≤ k → tw = List.replicate m a → mx = List.replicate m b → g.Good → g.nv = m * a →
        (∀ v, v < g.nv → g.vw v = 1) → ∀ q, q < m → partWeight g lab q = a := by
    intro tw mx g r lab r' h
    induction h with
    | leaf hk _ h =>
      intro m _ e1 e2 _ hsz hu q hq
      have hm : m = 1 := by rw [e1] at hk; simpa using hk
      rw [show q = 0 by omega]
      unfold partWeight
      rw [sum_congr rfl fun v hv => if_pos (h v (mem_range.mp hv)), ← Graph.sumVtx, unit_sum hu, hsz, hm, one_mul]
    | @node tw mx g lab bt side sL sR labL labR r r1 r2 r3 hk hm hbt hR hp hL hRt runL runR labelsL labelsR ihL ihR =>
      intro m hmk e1 e2 hg hsz hu q hq
      subst e1 e2
      have hlt := RBRun.lt (E := dblEnv pq set rng) (R := R) runL
      simp only [List.length_replicate, List.take_replicate, List.drop_replicate] at hk ihL ihR labelsR hlt
      rw [Nat.min_eq_left (Nat.div_le_self m 2)] at ihL hlt
      obtain ⟨w0, w1⟩ := hR m hk hmk hg hsz hu hbt
      rw [partWeight_sides hp hL hRt (m := m / 2) (fun i hi => by simpa using hlt i hi) labelsL labelsR]
      have sz : ∀ {q n s}, IsInduced g side q s → partWeight g side q = n * a →
          s.nv = n * a ∧ ∀ v, v < s.nv → s.vw v = 1 := by
        intro q n s hsub hw
        have hu' : ∀ v, v < s.nv → s.vw v = 1 := fun v hv => by
          rw [hsub.vw v hv]; exact hu _ (hsub.vert hv).1
        exact ⟨by rw [← unit_sum hu', hsub.sumVtx, hw], hu'⟩
      split
      · exact ihL _ (by omega) rfl rfl (hL.good hg hL.valid) (sz hL w0).1 (sz hL w0).2 q (by omega)
      · exact ihR _ (by omega) rfl rfl (hRt.good hg hRt.valid) (sz hRt w1).1 (sz hRt w1).2 _ (by omega)
  exact key hrun k (le_refl _) etw emx hg hsz hu

/-- What the bisectors do in that situation. -/
theorem random_share [Concrete.Log2Impl] {n m a : Nat} {g : Graph} {bt : Target Concrete.fp} (c : ShareCase n m a g bt)
    (hg : g.Good) (ht : bt.Two) (hsum : g.sumVtx < 2147483648) (hmx : nth bt.mx 0 < 2147483648) (r : rng.S) :
    Sat (randomBisect (E := dblEnv pq set rng) bt g r) (fun o => IsExact g 2 o.1 ∧ partWeight g o.1.lab 0 = n * a) := by
  have hm0 : nth bt.mx 0 < 4294967296 := by omega
  obtain ⟨h1, h2⟩ := C74_random (E := dblEnv pq set rng) hg ht hm0 r
  obtain ⟨o, ho⟩ := h2 hsum hmx
  exact sat_iff.mpr ⟨o, ho, ((C32_random (E := dblEnv pq set rng) hg ht hm0 r).1 o.1 o.2 ho).1,
    (filledTo_share c (rng.perm_perm r g.nv) (h1 o.1 o.2 ho).2).2⟩

theorem bfs_share [Concrete.Log2Impl] {n m a : Nat} {g : Graph} {bt : Target Concrete.fp} (c : ShareCase n m a g bt)
    (hg : g.Good) (ht : bt.Two) (r : rng.S) :
    Sat (bfsBisect (E := dblEnv pq set rng) bt g r) (fun o => IsExact g 2 o.1 ∧ partWeight g o.1.lab 0 = n * a) := by
  have h0 : 0 < g.nv := by rw [c.nv]; exact Nat.mul_pos (by have := c.pos; omega) c.apos
  have e := c.nv
  rw [Nat.add_mul] at e
  have t0 := c.tw0
  have m0 := c.mx0
  have m1 := c.mx1
  obtain ⟨o, ho, hx, -⟩ := sat_iff.mp (bfsBisect_unit (E := dblEnv pq set rng) hg ht c.unit
    ⟨by omega, by omega⟩ h0 r)
  exact sat_iff.mpr ⟨o, ho, hx, grownTo_share c ((C74_bfs (E := dblEnv pq set rng) hg ht r).1 o.1 o.2 ho).2⟩

theorem multi_share {E : Env} {g : Graph} {bt : Target E.fp} (ht : bt.Two) {bis : Bisector E} {w : Nat}
    (h : ∀ r, Sat (bis bt g r) (fun o => IsExact g 2 o.1 ∧ partWeight g o.1.lab 0 = w)) {n : Nat} (hn : 0 < n) (r : E.rng.S) :
    Sat (multiBisect n bis bt g r) (fun o => IsExact g 2 o.1 ∧ partWeight g o.1.lab 0 = w) := by
  obtain ⟨o, ho, h1, -⟩ := sat_iff.mp (multiBisect_spec (E := E) (R := fun q => IsExact g 2 q ∧ partWeight g q.lab 0 = w) ht
    (fun r => by
      obtain ⟨o, ho, h⟩ := sat_iff.mp (h r)
      exact sat_iff.mpr ⟨o, ho, h.1, h⟩) hn r)
  exact sat_iff.mpr ⟨o, ho, h1⟩

theorem fm_share [Concrete.Log2Impl] {n m a : Nat} {g : Graph} {bt : Target Concrete.fp} (c : ShareCase n m a g bt)
    (h0 : nth bt.mx 0 = n * a) (h1 : nth bt.mx 1 = m * a) (hg : g.Good) (ht : bt.Two) (hsum : g.sumVtx < 2147483648)
    (iters : Nat) (r : rng.S) :
    Sat (randomFMBisect (E := dblEnv pq set rng) iters bt g r)
      (fun o => IsExact g 2 o.1 ∧ partWeight g o.1.lab 0 = n * a) := by
  have hs := c.sum
  rw [Nat.add_mul] at hs
  have hm0 : nth bt.mx 0 < 2147483648 := by omega
  have hm0' : nth bt.mx 0 < 4294967296 := by omega
  have hnv := hg.wf.nv_lt
  obtain ⟨k1, k2⟩ := C32_random_fm (E := dblEnv pq set rng) hg ht hm0' iters r
  obtain ⟨o, ho⟩ := k2 hsum hm0 (badMovesOK (lt_trans hnv (by norm_num)))
  obtain ⟨hx, p0, r0, hr0, hst⟩ := k1 o.1 o.2 ho
  obtain ⟨o', ho', hx', hw⟩ := sat_iff.mp (random_share (pq := pq) (set := set) c hg ht hsum hm0 r)
  rw [ho'] at hr0
  have := Res.ok.inj hr0
  subst this
  exact sat_iff.mpr ⟨o, ho, hx, (improvesStar_share c h0 h1 hx'.complete hw hst).2⟩

/-- The parts of a partitioning all have `c` vertices, and the weights it stores say so. -/
structure EqualSizes (g : Graph) (k c : Nat) (p : Partitioning) : Prop where
  exact : IsExact g k p
  size : ∀ q, q < k → sideSize g p.lab q = c
  stored : ∀ q, q < k → nth p.pw q = c

theorem equalSizes {g : Graph} (hu : ∀ v, v < g.nv → g.vw v = 1) {k c : Nat} {p : Partitioning} (hx : IsExact g k p)
    (h : ∀ q, q < k → partWeight g p.lab q = c) : EqualSizes g k c p :=
  ⟨hx, fun q hq => by rw [sideSize_eq hu, h q hq], fun q hq => by rw [hx.weights q hq, h q hq]⟩

/-- **C109, the shares.** For up to 48 parts and a number of vertices that is a multiple of the number of parts, the
target weight of every part is exactly its share, so the theorems below apply. -/
theorem C109_shares [Concrete.Log2Impl] {k c : Nat} (hk : 1 ≤ k) (hk' : k ≤ 48) (hc : k * c < 4294967296)
    {tol : Concrete.fp.F} {t : Target Concrete.fp} (ht : Target.uniform (fp := Concrete.fp) k (k * c) tol = ok t) :
    t.tw = List.replicate k c := by
  obtain ⟨-, -, -, -, -, h4, -⟩ := ofFractions_shape ht
  rw [List.take_of_length_le (by simp)] at h4
  obtain ⟨a, ha, ha'⟩ := mapM_const (by omega) _ _ h4
  unfold FP.cast at ha
  rw [share_exact hk hk' hc] at ha
  rw [ha', ← Res.ok.inj ha]

/-- **C109, breadth-first bisection.** Recursive bisection with the breadth-first bisector, run once or any positive number
of times for each split, of a graph whose vertices all weigh 1 and whose number is `k` times the target weight of a part
returns `k` parts of exactly that many vertices. -/
theorem C109_bfs [Concrete.Log2Impl] {g : Graph} (hg : g.Good) (hu : ∀ v, v < g.nv → g.vw v = 1) {k : Nat} (hk : 2 ≤ k)
    {tol : Concrete.fp.F} (htol : Concrete.fp.le (Concrete.fp.lit 0 0) tol = true) {t : Target Concrete.fp}
    (ht : Target.uniform (fp := Concrete.fp) k g.nv tol = ok t) (hc : 0 < nth t.tw 0) (hn : g.nv = k * nth t.tw 0)
    (hfit : (k - k / 2) * nth t.mx 0 < 4294967295) (r : rng.S) :
    (∃ p r', rbExecute (E := dblEnv pq set rng) bfsBisect t g r = ok (p, r') ∧ EqualSizes g k (nth t.tw 0) p) ∧
    (∀ n, 0 < n → ∃ p r', rbExecute (makeBisector (dblEnv pq set rng) .bfs n) t g r = ok (p, r') ∧
      EqualSizes g k (nth t.tw 0) p) := by
  have hnv := hg.wf.nv_lt
  have hkn : k ≤ g.nv := by rw [hn]; exact Nat.le_mul_of_pos_right _ hc
  obtain ⟨u1, u2, u3, u4⟩ := uniform_equal (by omega) (by omega) (by omega) htol ht
  constructor
  · obtain ⟨p, r', h1, h2, h3⟩ := rb_shares (pq := pq) (set := set) hc u4 hk (M := (k - k / 2) * nth t.mx 0) hfit (le_refl _)
      (fun m bt g r hg _ _ c hb _ _ _ => bfs_share c hg hb r) u1 u2 u3 hg hu hn r
    exact ⟨p, r', h1, equalSizes hu h2 h3⟩
  · intro n hn0
    obtain ⟨p, r', h1, h2, h3⟩ := rb_shares (pq := pq) (set := set) hc u4 hk (M := (k - k / 2) * nth t.mx 0) hfit (le_refl _)
      (fun m bt g r hg _ _ c hb _ _ _ => multi_share (E := dblEnv pq set rng) hb (fun r => bfs_share c hg hb r) hn0 r)
      u1 u2 u3 hg hu hn r
    exact ⟨p, r', h1, equalSizes hu h2 h3⟩

/-- **C109, random bisection.** The same for the random bisector, run once or any positive number of times for each split,
if the weights fit signed 32-bit integers. -/
theorem C109_random [Concrete.Log2Impl] {g : Graph} (hg : g.Good) (hu : ∀ v, v < g.nv → g.vw v = 1) {k : Nat} (hk : 2 ≤ k)
    {tol : Concrete.fp.F} (htol : Concrete.fp.le (Concrete.fp.lit 0 0) tol = true) {t : Target Concrete.fp}
    (ht : Target.uniform (fp := Concrete.fp) k g.nv tol = ok t) (hc : 0 < nth t.tw 0) (hn : g.nv = k * nth t.tw 0)
    (hs : g.nv < 2147483648) (hfit : (k - k / 2) * nth t.mx 0 < 2147483648) (r : rng.S) :
    (∃ p r', rbExecute (E := dblEnv pq set rng) randomBisect t g r = ok (p, r') ∧ EqualSizes g k (nth t.tw 0) p) ∧
    (∀ n, 0 < n → ∃ p r', rbExecute (makeBisector (dblEnv pq set rng) .random n) t g r = ok (p, r') ∧
      EqualSizes g k (nth t.tw 0) p) := by
  have hkn : k ≤ g.nv := by rw [hn]; exact Nat.le_mul_of_pos_right _ hc
  obtain ⟨u1, u2, u3, u4⟩ := uniform_equal (by omega) (by omega) (by omega) htol ht
  have key : ∀ m (bt : Target Concrete.fp) (g' : Graph) (r : rng.S), g'.Good → m ≤ k →
      ShareCase (m / 2) (m - m / 2) (nth t.tw 0) g' bt → bt.Two → nth bt.mx 0 ≤ (k - k / 2) * nth t.mx 0 →
      Sat (randomBisect (E := dblEnv pq set rng) bt g' r)
        (fun o => IsExact g' 2 o.1 ∧ partWeight g' o.1.lab 0 = m / 2 * nth t.tw 0) := by
    intro m bt g' r hg' hmk c hb hM
    refine random_share c hg' hb ?_ (by omega) r
    have e : m / 2 + (m - m / 2) = m := by omega
    have hle : m * nth t.tw 0 ≤ k * nth t.tw 0 := Nat.mul_le_mul_right _ hmk
    rw [c.sum, e]
    omega
  constructor
  · obtain ⟨p, r', h1, h2, h3⟩ := rb_shares (pq := pq) (set := set) hc u4 hk (M := (k - k / 2) * nth t.mx 0) (by omega)
      (le_refl _) (fun m bt g r hg _ hmk c hb _ _ hM => key m bt g r hg hmk c hb hM) u1 u2 u3 hg hu hn r
    exact ⟨p, r', h1, equalSizes hu h2 h3⟩
  · intro n hn0
    obtain ⟨p, r', h1, h2, h3⟩ := rb_shares (pq := pq) (set := set) hc u4 hk (M := (k - k / 2) * nth t.mx 0) (by omega)
      (le_refl _) (fun m bt g r hg _ hmk c hb _ _ hM => multi_share (E := dblEnv pq set rng) hb
        (fun r => key m bt g r hg hmk c hb hM) hn0 r) u1 u2 u3 hg hu hn r
    exact ⟨p, r', h1, equalSizes hu h2 h3⟩

/-- **C109, refined random bisection.** If the limits are the target weights, as with tolerance zero, recursive bisection
with refined random bisection returns parts of exactly that many vertices, too: refinement never gives up the balance. -/
theorem C109_random_fm [Concrete.Log2Impl] {g : Graph} (hg : g.Good) (hu : ∀ v, v < g.nv → g.vw v = 1) {k : Nat} (hk : 2 ≤ k)
    {tol : Concrete.fp.F} (htol : Concrete.fp.le (Concrete.fp.lit 0 0) tol = true) {t : Target Concrete.fp}
    (ht : Target.uniform (fp := Concrete.fp) k g.nv tol = ok t) (hc : 0 < nth t.tw 0) (hn : g.nv = k * nth t.tw 0)
    (hs : g.nv < 2147483648) (hmx : nth t.mx 0 = nth t.tw 0) (iters : Nat) (r : rng.S) :
    ∃ p r', rbExecute (E := dblEnv pq set rng) (randomFMBisect iters) t g r = ok (p, r') ∧
      EqualSizes g k (nth t.tw 0) p := by
  have hkn : k ≤ g.nv := by rw [hn]; exact Nat.le_mul_of_pos_right _ hc
  obtain ⟨u1, u2, u3, u4⟩ := uniform_equal (by omega) (by omega) (by omega) htol ht
  have hle : (k - k / 2) * nth t.mx 0 ≤ k * nth t.tw 0 := by rw [hmx]; exact Nat.mul_le_mul_right _ (by omega)
  obtain ⟨p, r', h1, h2, h3⟩ := rb_shares (pq := pq) (set := set) hc u4 hk (M := (k - k / 2) * nth t.mx 0) (by omega)
    (le_refl _) (fun m bt g' r hg' _ hmk c hb b0 b1 hM => by
      have e : m / 2 + (m - m / 2) = m := by omega
      have hle : m * nth t.tw 0 ≤ k * nth t.tw 0 := Nat.mul_le_mul_right _ hmk
      have m0 := c.mx0
      have m1 := c.mx1
      rw [hmx] at b0 b1
      refine fm_share c (by omega) (by omega) hg' hb ?_ iters r
      rw [c.sum, e]
      omega) u1 u2 u3 hg hu hn r
  exact ⟨p, r', h1, equalSizes hu h2 h3⟩

namespace Ex

/-- A ring of six vertices, without weight arrays. -/
def hexRing : Graph :=
  { unitEdge := true, unitVtx := true, nv := 6, ne := 12, totVtx := 6, totEdge := 12,
    xadj := [0, 2, 4, 6, 8, 10, 12], adjncy := [1, 5, 0, 2, 1, 3, 2, 4, 3, 5, 4, 0], vwgt := [], adjwgt := [] }

theorem hexRing_good : hexRing.Good :=
  ⟨by constructor <;> decide +kernel, Graph.symm_of (by decide +kernel), by unfold Graph.NoLoop; decide +kernel,
    by constructor <;> decide +kernel⟩

/-- The uniform target of three parts of six vertices without tolerance. -/
def hexTarget : Target Concrete.fp :=
  { k := 3, frac := List.replicate 3 (F64.fin (6004799503160661 / 18014398509481984)), tw := [2, 2, 2], mx := [2, 2, 2] }

theorem hexTarget_uniform : Target.uniform (fp := Concrete.fp) 3 hexRing.nv (Concrete.fp.lit 0 0) = ok hexTarget := by
  refine uniform_ok (fp := Concrete.fp) (k := 3) (tot := 6) (tol := Concrete.fp.lit 0 0)
    (f := F64.fin (6004799503160661 / 18014398509481984)) (s := F64.fin 1) (a := 2) (b := 2)
    (by
      show F64.div (Concrete.fp.lit 1 0) (Concrete.fp.ofNat 3) = F64.fin (6004799503160661 / 18014398509481984)
      decide +kernel) ?_ ?_
    (by
      rw [lit_zero]
      show (List.range 3).foldl (fun acc _ => F64.add acc (F64.fin (6004799503160661 / 18014398509481984))) (F64.fin 0) =
        F64.fin 1
      decide +kernel)
    ?_ ?_ ?_ ?_ <;> decide +kernel

end Ex

/-- The hypotheses of C109 are met by a ring of six vertices, three parts and tolerance zero. -/
example : Ex.hexRing.Good ∧ (∀ v, v < Ex.hexRing.nv → Ex.hexRing.vw v = 1) ∧
    Concrete.fp.le (Concrete.fp.lit 0 0) (Concrete.fp.lit 0 0) = true ∧
    Target.uniform (fp := Concrete.fp) 3 Ex.hexRing.nv (Concrete.fp.lit 0 0) = ok Ex.hexTarget ∧
    0 < nth Ex.hexTarget.tw 0 ∧ Ex.hexRing.nv = 3 * nth Ex.hexTarget.tw 0 ∧
    (3 - 3 / 2) * nth Ex.hexTarget.mx 0 < 2147483648 ∧ nth Ex.hexTarget.mx 0 = nth Ex.hexTarget.tw 0 ∧
    (rbExecute (E := Concrete.env) bfsBisect Ex.hexTarget Ex.hexRing ()).value =
      ok { cut := 3, pw := [2, 2, 2], asg := [0, 1, 1, 2, 2, 0] } ∧
    (rbExecute (E := Concrete.env) (randomFMBisect 8) Ex.hexTarget Ex.hexRing ()).value =
      ok { cut := 3, pw := [2, 2, 2], asg := [0, 0, 1, 1, 2, 2] } :=
  ⟨Ex.hexRing_good, by decide +kernel, by decide +kernel, Ex.hexTarget_uniform, by decide, by decide, by decide, by decide,
    by decide +kernel, by decide +kernel⟩

end Poros
