import Verif.Proofs.Quality
/-
The imbalance of a bisection, computed in binary64, is close to the real one.
-/
namespace Poros
namespace Concrete
open Finset

theorem rnd_neg {a r : ℚ} (h : 0 < a) (hr : rnd a = .fin r) : rnd (-a) = .fin (-r) := by
  unfold rnd at hr ⊢
  rw [if_neg (ne_of_gt h)] at hr
  rw [if_neg (by linarith)]
  simp only [if_neg (not_lt.mpr h.le), if_pos (show -a < 0 by linarith), neg_neg] at hr ⊢
  split at hr
  · cases hr
  · next hp =>
    rw [if_neg hp]
    simp only [F64.fin.injEq] at hr ⊢
    rw [hr]

/-- `6 / 2^52` -/
def eps : ℚ := 6 / 4503599627370496

theorem sub_one_err [Concrete.Log2Impl] {a : ℚ} (h0 : 0 ≤ a) (h : a < 4) :
    ∃ z, fp.sub (F64.fin a) (fp.lit 1 0) = F64.fin z ∧ z ≤ max 0 (a - 1) + 1 / 4503599627370496 ∧
      a - 1 ≤ max 0 z + 1 / 4503599627370496 := by
  have e : fp.sub (F64.fin a) (fp.lit 1 0) = rnd (a - 1) := by
    rw [lit_one]
    show rnd (a + -1) = _
    rw [← sub_eq_add_neg]
  rw [e]
  by_cases hc : 1 ≤ a
  · obtain ⟨r, h1, h2, h3, h4⟩ := near_err (q := a - 1) (by linarith) (by linarith)
    refine ⟨r, h1, ?_, ?_⟩
    · have := le_max_right 0 (a - 1); linarith
    · have := le_max_right 0 r; linarith
  · obtain ⟨r, h1, h2, h3, h4⟩ := near_err (q := 1 - a) (by linarith) (by linarith)
    refine ⟨-r, ?_, ?_, ?_⟩
    · rw [← rnd_neg (show 0 < 1 - a by linarith) h1]
      congr 1; ring
    · have := le_max_left 0 (a - 1); linarith
    · have := le_max_left 0 (-r); linarith

theorem imbalance_err [Concrete.Log2Impl] {W x : Nat} (hW : 0 < W) (hW' : W < 4294967296) (hx : x ≤ W) {q : ℚ} (hq : 13 / 50 ≤ q) :
    ∃ z, fp.sub (fp.div (fp.div (fp.ofNat x) (fp.ofNat W)) (F64.fin q)) (fp.lit 1 0) = F64.fin z ∧
      z ≤ max 0 (x / (W * q) - 1) + eps ∧ x / (W * q) - 1 ≤ max 0 z + eps := by
  have hWq : (0 : ℚ) < W := by exact_mod_cast hW
  have hxW : (x : ℚ) ≤ W := by exact_mod_cast hx
  have hx0 : (0 : ℚ) ≤ x := Nat.cast_nonneg x
  have hq0 : 0 < q := by linarith
  have h1 : (x : ℚ) / W ≤ 1 := (div_le_one hWq).mpr hxW
  have h1' : 0 ≤ (x : ℚ) / W := div_nonneg hx0 hWq.le
  obtain ⟨r, r1, r2, r3, r4⟩ := near_err (q := x / W) h1' (by linarith)
  have hinv : 1 / q ≤ 50 / 13 := by
    rw [div_le_div_iff₀ hq0 (by norm_num)]; linarith
  have hinv0 : 0 < 1 / q := one_div_pos.mpr hq0
  have hd : r / q = r * (1 / q) := by ring
  have hd2 : (x : ℚ) / (W * q) = x / W * (1 / q) := by field_simp
  have hb : r / q < 3.9 := by
    rw [hd]
    calc r * (1 / q) ≤ r * (50 / 13) := mul_le_mul_of_nonneg_left hinv r2
      _ ≤ (1 + 1 / 4503599627370496) * (50 / 13) := by
          refine mul_le_mul_of_nonneg_right ?_ (by norm_num); linarith
      _ < 3.9 := by norm_num
  have hb0 : 0 ≤ r / q := div_nonneg r2 hq0.le
  obtain ⟨s, s1, s2, s3, s4⟩ := near_err (q := r / q) hb0 (by linarith)
  obtain ⟨z, z1, z2, z3⟩ := sub_one_err (a := s) s2 (by linarith)
  have hdiff : |r / q - x / (W * q)| ≤ 4 / 4503599627370496 := by
    rw [hd, hd2, ← sub_mul, abs_mul, abs_of_pos hinv0]
    have : |r - x / W| ≤ 1 / 4503599627370496 := abs_le.mpr ⟨by linarith, by linarith⟩
    calc |r - x / W| * (1 / q) ≤ 1 / 4503599627370496 * (50 / 13) :=
          mul_le_mul this hinv hinv0.le (by norm_num)
      _ ≤ 4 / 4503599627370496 := by norm_num
  obtain ⟨d1, d2⟩ := abs_le.mp hdiff
  have hW53 : W < 2 ^ 53 := lt_trans hW' (by norm_num)
  refine ⟨z, ?_, ?_, ?_⟩
  · rw [ofNat_exact hW53, ofNat_exact (lt_of_le_of_lt hx hW53), div_fin _ (ne_of_gt hWq), r1,
      div_fin _ (ne_of_gt hq0), s1, z1]
  · unfold eps
    have hm : max 0 (s - 1) ≤ max 0 ((x : ℚ) / (W * q) - 1) + 5 / 4503599627370496 := by
      refine max_le ?_ ?_
      · have := le_max_left 0 ((x : ℚ) / (W * q) - 1); linarith
      · have := le_max_right 0 ((x : ℚ) / (W * q) - 1); linarith
    linarith
  · unfold eps; linarith

theorem fmaxF_fin [Concrete.Log2Impl] (a b : ℚ) : fmaxF fp (F64.fin a) (F64.fin b) = F64.fin (max a b) := by
  unfold fmaxF
  show (if decide (a < b) = true then F64.fin b else F64.fin a) = _
  by_cases h : a < b
  · rw [if_pos (by simpa using h), max_eq_right h.le]
  · rw [if_neg (by simpa using h), max_eq_left (not_lt.mp h)]

/-- The relative weight of side `x` of total `W` with target fraction `q`. -/
def rel (W x : Nat) (q : ℚ) : ℚ := x / (W * q)

theorem maxImbalance_err [Concrete.Log2Impl] {g : Graph} {t : Target fp} {q0 q1 : ℚ} (hf : t.frac = [F64.fin q0, F64.fin q1])
    (h0 : 13 / 50 ≤ q0) (h1 : 13 / 50 ≤ q1) {W : Nat} (hW : 0 < W) (hW' : W < 4294967296) (ht : g.totVtx = W)
    (hs : g.sumVtx = W) (lab : Nat → Nat) :
    ∃ m, maxImbalance g t lab = F64.fin m ∧
      m ≤ max 0 (max (rel W (partWeight g lab 0) q0 - 1) (rel W (partWeight g lab 1) q1 - 1)) + eps ∧
      rel W (partWeight g lab 0) q0 - 1 ≤ m + eps ∧ rel W (partWeight g lab 1) q1 - 1 ≤ m + eps := by
  have hx : ∀ q, partWeight g lab q ≤ W := fun q => hs ▸ partWeight_le lab q
  obtain ⟨z0, a1, a2, a3⟩ := imbalance_err hW hW' (hx 0) h0
  obtain ⟨z1, b1, b2, b3⟩ := imbalance_err hW hW' (hx 1) h1
  refine ⟨max (max 0 z0) z1, ?_, ?_, ?_, ?_⟩
  · unfold maxImbalance imbalanceOf
    rw [hf, ht]
    simp only
    rw [show fp.sub (fp.div (fp.div (fp.ofNat (partWeight g lab 0)) (fp.ofNat W)) (F64.fin q0)) (fp.lit 1 0) = _ from a1,
      show fp.sub (fp.div (fp.div (fp.ofNat (partWeight g lab 1)) (fp.ofNat W)) (F64.fin q1)) (fp.lit 1 0) = _ from b1,
      lit_zero]
    exact (congrArg (fun x => fmaxF fp x (F64.fin z1)) (fmaxF_fin 0 z0)).trans (fmaxF_fin _ _)
  · have e : (0 : ℚ) < eps := by unfold eps; norm_num
    unfold rel
    have l0 : max 0 ((partWeight g lab 0 : ℚ) / (W * q0) - 1) ≤ max 0 (max ((partWeight g lab 0 : ℚ) / (W * q0) - 1)
        ((partWeight g lab 1 : ℚ) / (W * q1) - 1)) := max_le_max (le_refl _) (le_max_left _ _)
    have l1 : max 0 ((partWeight g lab 1 : ℚ) / (W * q1) - 1) ≤ max 0 (max ((partWeight g lab 0 : ℚ) / (W * q0) - 1)
        ((partWeight g lab 1 : ℚ) / (W * q1) - 1)) := max_le_max (le_refl _) (le_max_right _ _)
    refine max_le (max_le ?_ ?_) ?_
    · have := le_max_left 0 (max ((partWeight g lab 0 : ℚ) / (W * q0) - 1) ((partWeight g lab 1 : ℚ) / (W * q1) - 1))
      linarith
    · linarith
    · linarith
  · unfold rel
    have := le_max_left (max 0 z0) z1
    linarith
  · unfold rel
    have : max 0 z1 ≤ max (max 0 z0) z1 := max_le (le_trans (le_max_left _ _) (le_max_left _ _)) (le_max_right _ _)
    linarith

theorem le_trans_fin [Concrete.Log2Impl] {x y : F64} {c : ℚ} (h : fp.le x y = true ∨ fp.lt x y = true) (hy : F64.le y (.fin c) = true) :
    F64.le x (.fin c) = true := by
  have h : F64.le x y = true := by
    rcases h with h | h
    · exact h
    · show (F64.lt x y || _) = true
      rw [show F64.lt x y = true from h]; rfl
  revert h hy
  unfold F64.le
  cases x with
  | nan => cases y <;> simp [F64.lt]
  | inf s =>
    cases s with
    | true => simp [F64.lt]
    | false =>
      cases y with
      | nan => simp [F64.lt]
      | inf r => cases r <;> simp [F64.lt]
      | fin b => simp [F64.lt]
  | fin a =>
    cases y with
    | nan => simp [F64.lt]
    | inf r => cases r <;> simp [F64.lt]
    | fin b =>
      simp only [F64.lt, Bool.or_eq_true, decide_eq_true_eq, Bool.and_eq_true, F64.fin.injEq, ne_eq, reduceCtorEq,
        not_false_eq_true, and_true]
      intro h1 h2
      rcases h1 with h1 | h1 <;> rcases h2 with h2 | h2
      · left; linarith
      · left; linarith
      · left; linarith
      · right; linarith

theorem le_fin {a c : ℚ} : F64.le (.fin a) (.fin c) = true ↔ a ≤ c := by
  unfold F64.le
  simp only [F64.lt, Bool.or_eq_true, decide_eq_true_eq, Bool.and_eq_true, F64.fin.injEq, ne_eq, reduceCtorEq,
    not_false_eq_true, and_true]
  exact le_iff_lt_or_eq.symm

end Concrete

open Concrete

variable {pq : PQImpl} {set : SetImpl} {rng : RngImpl}

/-- How unbalanced a multilevel bisection can be. -/
theorem LooseBis.quality [Concrete.Log2Impl] {s : Scheme} {t : Target Concrete.fp} {g : Graph} {lab : Nat → Nat}
    (h : LooseBis (dblEnv pq set rng) s t g lab) (hwf : g.WF) (hnl : g.NoLoop)
    {q0 q1 : ℚ} (hf : t.frac = [F64.fin q0, F64.fin q1])
    (h0 : 13 / 50 ≤ q0) (h1 : 13 / 50 ≤ q1) {W M R : Nat} (hW : 0 < W) (hW' : W < 4294967295) (hs : g.sumVtx = W)
    (hM : ∀ v, v < g.nv → g.vw v ≤ M) (hno : NoExtra W t) (hR1 : nth t.mx 1 ≤ R) (hR2 : W ≤ R + nth t.tw 0)
    (hR3 : W + max (3 * W / 40) M ≤ R + nth t.mx 0) :
    (∀ v, v < g.nv → lab v < 2) ∧
    rel W (partWeight g lab 0) q0 ≤ max 1 (max (rel W (nth t.mx 0) q0) (rel W R q1)) + 2 * eps ∧
    rel W (partWeight g lab 1) q1 ≤ max 1 (max (rel W (nth t.mx 0) q0) (rel W R q1)) + 2 * eps := by
  unfold LooseBis at h
  have mono : ∀ {x y : Nat} {q : ℚ}, 13 / 50 ≤ q → x ≤ y → rel W x q ≤ rel W y q := by
    intro x y q hq hxy
    unfold rel
    have hWq : (0 : ℚ) < W := by exact_mod_cast hW
    exact div_le_div_of_nonneg_right (by exact_mod_cast hxy) (mul_nonneg hWq.le (by linarith))
  generalize hc : max 1 (max (rel W (nth t.mx 0) q0) (rel W R q1)) = c
  have c1 : 1 ≤ c := hc ▸ le_max_left _ _
  have c2 : rel W (nth t.mx 0) q0 ≤ c := hc ▸ le_trans (le_max_left _ _) (le_max_right _ _)
  have c3 : rel W R q1 ≤ c := hc ▸ le_trans (le_max_right _ _) (le_max_right _ _)
  have bound : ∀ (g : Graph) (lab : Nat → Nat), g.totVtx = W → g.sumVtx = W → partWeight g lab 0 ≤ nth t.mx 0 →
      partWeight g lab 1 ≤ R → F64.le (maxImbalance g t lab) (.fin (c - 1 + eps)) = true := by
    intro g lab ht hs b0 b1
    obtain ⟨m, m1, m2, -, -⟩ := maxImbalance_err hf h0 h1 hW (by omega) ht hs lab
    rw [show maxImbalance g t lab = _ from m1]
    refine le_fin.mpr (le_trans m2 ?_)
    have := mono h0 b0
    have := mono h1 b1
    have : max 0 (max (rel W (partWeight g lab 0) q0 - 1) (rel W (partWeight g lab 1) q1 - 1)) ≤ c - 1 :=
      max_le (by linarith) (max_le (by linarith) (by linarith))
    linarith
  have key := Loose.keeps h (W := W) (M := M) hW'
    (B := fun x => F64.le x (.fin (c - 1 + eps)) = true)
    (fun x y hxy hy => le_trans_fin (Or.inr hxy) hy) (fun x y hxy hy => le_trans_fin (Or.inl hxy) hy)
    (fun g lab ht hs _ hb => bound g lab ht hs (hb 0 (by decide)) (le_trans (hb 1 (by decide)) hR1))
    (fun g' seed lab hwf' hs' hw hgr => by
      obtain ⟨a1, a2, a3⟩ := hgr.weights (by rw [hs']; exact hno) hw
      refine bound g' lab (by rw [hwf'.totVtx_eq (by omega), hs']) hs' a2 ?_
      rw [hs'] at a3
      rw [hs] at a3
      omega)
    hwf hnl hs (fun v hv => le_trans (hM v hv) (le_max_right _ _))
  obtain ⟨k1, k2⟩ := key
  refine ⟨k1, ?_⟩
  obtain ⟨m, m1, -, m3, m4⟩ := maxImbalance_err hf h0 h1 hW (by omega) (by rw [hwf.totVtx_eq (by omega), hs]) hs lab
  rw [show maxImbalance g t lab = _ from m1] at k2
  have := le_fin.mp k2
  exact ⟨by linarith, by linarith⟩

/-- A run of recursive bisection by multilevel bisections of which only `LooseBis` is known. -/
def LooseRun [Concrete.Log2Impl] (pq : PQImpl) (set : SetImpl) (rng : RngImpl) (s : Scheme) (tw mx : List Nat) (g : Graph)
    (r : rng.S) (lab : Nat → Nat) (r' : rng.S) : Prop :=
  RBRun (fun bt g _ lab _ => LooseBis (dblEnv pq set rng) s bt g lab) tw mx g r lab r'

theorem RBRun.loose [Concrete.Log2Impl] {s : Scheme} {tw mx : List Nat} {g : Graph} {r : rng.S} {lab : Nat → Nat} {r' : rng.S}
    (h : RBRun (MLBisected (dblEnv pq set rng) s) tw mx g r lab r') : LooseRun pq set rng s tw mx g r lab r' :=
  RBRun.mono (E := dblEnv pq set rng) (fun _ _ _ _ _ h => h.loose) h

/-- What is known of the labels that a successful call wrote. -/
structure LooseCall [Concrete.Log2Impl] (pq : PQImpl) (set : SetImpl) (rng : RngImpl) (i : Input) (out : Out) (g : Graph)
    (s : Scheme) (tw mx : List Nat) (lab : Nat → Nat) (r r' : rng.S) : Prop where
  graph : i.Describes g
  wf : g.WF
  noLoop : g.NoLoop
  shares : EvenShares Concrete.fp i.numPartitions i.totalWeight tw mx
  run : LooseRun pq set rng s tw mx g r lab r'
  labels : ∀ v, v < i.numVertices → nth out.asg v = lab v

theorem CallRun.loose [Concrete.Log2Impl] {i : Input} {o : Options Concrete.fp} {out out' : Out} {g : Graph} {s : Scheme}
    {tw mx : List Nat} {labs : List (Nat → Nat)} {j : Nat}
    (h : CallRun (dblEnv pq set rng) i o out out' g s tw mx labs j) :
    ∃ r r', LooseCall pq set rng i out' g s tw mx (nth labs j) r r' := by
  obtain ⟨r', hrep⟩ := h.runs
  obtain ⟨r0, r1, hrun⟩ := hrep.all _ (nth_mem h.index)
  exact ⟨r0, r1, h.graph, h.good.wf, h.good.noLoop, h.shares, hrun.loose, h.labels⟩

end Poros
