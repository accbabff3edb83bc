import Verif.Proofs.QualityK
/-
C80: calls for up to eight parts are safe.
-/
namespace Poros
open Finset Res Concrete

variable {pq : PQImpl} {set : SetImpl} {rng : RngImpl}

/-- A bisection of a graph for `n + m` equal parts. -/
theorem LooseBis.equal [Concrete.Log2Impl] {s : Scheme} {bt : Target Concrete.fp} {g : Graph} {lab : Nat → Nat}
    (h : LooseBis (dblEnv pq set rng) s bt g lab) (hwf : g.WF) (hnl : g.NoLoop) {n m a b : Nat} (hn : n = (n + m) / 2)
    (hn0 : 0 < n) (ha : 0 < a) (hab : a ≤ b) (hb : m * b < 4294967296) (hk : (n + m) * a < 4294967296)
    (hbt : IsHalvesTarget (List.replicate (n + m) a) (List.replicate (n + m) b) bt) {W M : Nat} (hW : 0 < W)
    (hW' : W < 4294967295) (hs : g.sumVtx = W) (hM : ∀ v, v < g.nv → g.vw v ≤ M) {mh : Nat}
    (hmh : max (3 * W / 40) M ≤ mh) {c x y : ℚ} (hc : 1 ≤ c) (hx : x ≤ (n : ℚ) / (n + m : Nat) - 1 / 1000000)
    (hy : y ≤ (m : ℚ) / (n + m : Nat) - 1 / 1000000) (hx0 : 13 / 50 ≤ x) (hy0 : 13 / 50 ≤ y)
    (hL : (n : ℚ) * b + mh ≤ c * (W * x)) (hR : (m : ℚ) * b ≤ c * (W * y))
    (hR' : (W : ℚ) + mh ≤ c * (W * y) + n * a) :
    (∀ v, v < g.nv → lab v < 2) ∧
    (partWeight g lab 0 : ℚ) ≤ (c + 2 * eps) * (W * ((n : ℚ) / (n + m : Nat) + 1 / 1000000)) ∧
    (partWeight g lab 1 : ℚ) ≤ (c + 2 * eps) * (W * ((m : ℚ) / (n + m : Nat) + 1 / 1000000)) := by
  obtain ⟨e1, ⟨e2, e3⟩, ⟨-, e4⟩, q0, q1, hf, ⟨f1, f2⟩, ⟨f3, f4⟩⟩ := halves_equal hn hn0 ha hab hb hk hbt
  have hWq : (0 : ℚ) < W := by exact_mod_cast hW
  have x1 : x ≤ q0 := by linarith
  have y1 : y ≤ q1 := by linarith
  have g1 : c * (W * x) ≤ c * (W * q0) :=
    mul_le_mul_of_nonneg_left (mul_le_mul_of_nonneg_left x1 hWq.le) (by linarith)
  have g2 : c * (W * y) ≤ c * (W * q1) :=
    mul_le_mul_of_nonneg_left (mul_le_mul_of_nonneg_left y1 hWq.le) (by linarith)
  have hle : n * a ≤ n * b := Nat.mul_le_mul_left _ hab
  have key := h.load hwf hnl hf (by linarith) (by linarith) (M := M) (L := n * b + mh)
    (R := max (m * b) (W + mh - n * a)) hW hW' hs hM (by omega) (by omega) (by rw [e1]; omega) (by omega) hc
    (by push_cast; linarith) (by
      rcases le_total (m * b) (W + mh - n * a) with h | h
      · rw [max_eq_right h]
        by_cases hna : n * a ≤ W + mh
        · rw [Nat.cast_sub hna]; push_cast; linarith
        · rw [Nat.sub_eq_zero_of_le (by omega)]
          push_cast
          exact mul_nonneg (by linarith) (mul_nonneg hWq.le (by linarith))
      · rw [max_eq_left h]; push_cast; linarith)
  have he : (0 : ℚ) < eps := by unfold eps; norm_num
  refine ⟨key.1, le_trans key.2.1 ?_, le_trans key.2.2 ?_⟩
  · exact mul_le_mul_of_nonneg_left (mul_le_mul_of_nonneg_left f1 hWq.le) (by linarith)
  · exact mul_le_mul_of_nonneg_left (mul_le_mul_of_nonneg_left f3 hWq.le) (by linarith)

/-- `a` and `b` are target and maximum weight of each of `k` equal parts of a total of `W`, up to rounding. -/
structure EqualParts (k W a b : Nat) : Prop where
  le : a ≤ b
  target_le : (k : ℚ) * a ≤ W + 1 / 100
  target_ge : (W : ℚ) ≤ k * a + k + 1 / 100
  limit_le : 100 * ((k : ℚ) * b) ≤ 103 * W + 1 / 10

/-- The bisection at the top. -/
theorem LooseBis.top [Concrete.Log2Impl] {s : Scheme} {bt : Target Concrete.fp} {g : Graph} {lab : Nat → Nat}
    (h : LooseBis (dblEnv pq set rng) s bt g lab) (hwf : g.WF) (hnl : g.NoLoop) {n m a b : Nat}
    (hnm : (n = 1 ∧ m = 2) ∨ (n = 2 ∧ m = 2) ∨ (n = 2 ∧ m = 3) ∨ (n = 3 ∧ m = 3) ∨ (n = 3 ∧ m = 4) ∨ (n = 4 ∧ m = 4))
    {W M : Nat} (hW : 1000 ≤ W) (hW' : W < 4294967295) (he : EqualParts (n + m) W a b)
    (hbt : IsHalvesTarget (List.replicate (n + m) a) (List.replicate (n + m) b) bt)
    (hs : g.sumVtx = W) (hM : ∀ v, v < g.nv → g.vw v ≤ M) (hM' : 20 * M ≤ W) :
    (∀ v, v < g.nv → lab v < 2) ∧
    100 * ((n + m) * partWeight g lab 0) ≤ (if n = 1 then 127 else 123) * (n * W) ∧
    100 * ((n + m) * partWeight g lab 1) ≤ (if n = 1 then 127 else 123) * (m * W) := by
  have hWq : (1000 : ℚ) ≤ W := by exact_mod_cast hW
  have hWq' : (W : ℚ) < 4294967295 := by exact_mod_cast hW'
  obtain ⟨mh, hmh, hmhq⟩ : ∃ mh, max (3 * W / 40) M ≤ mh ∧ 40 * (mh : ℚ) ≤ 3 * W := by
    refine ⟨3 * W / 40, by omega, ?_⟩
    exact_mod_cast (show 40 * (3 * W / 40) ≤ 3 * W by omega)
  have h1 := he.target_le
  have h2 := he.target_ge
  have h3 := he.limit_le
  have ha0 : 0 < a := by
    by_contra h
    have : a = 0 := by omega
    rw [this] at h2
    rcases hnm with ⟨rfl, rfl⟩ | ⟨rfl, rfl⟩ | ⟨rfl, rfl⟩ | ⟨rfl, rfl⟩ | ⟨rfl, rfl⟩ | ⟨rfl, rfl⟩ <;> push_cast at h2 <;> linarith
  have hka : (n + m) * a < 4294967296 := by
    have : (((n + m) * a : Nat) : ℚ) < ((4294967296 : Nat) : ℚ) := by push_cast at h1 ⊢; linarith
    exact_mod_cast this
  have nat : ∀ {x : Nat} {C d : Nat}, 100 * ((n + m : ℚ) * x) ≤ C * (d * W) + 1 / 2 → 100 * ((n + m) * x) ≤ C * (d * W) := by
    intro x C d h
    have : ((100 * ((n + m) * x) : Nat) : ℚ) < ((C * (d * W) + 1 : Nat) : ℚ) := by push_cast; linarith
    have : 100 * ((n + m) * x) < C * (d * W) + 1 := by exact_mod_cast this
    omega
  have hmb : m * b < 4294967296 := by
    have : ((m * b : Nat) : ℚ) < ((4294967296 : Nat) : ℚ) := by
      rcases hnm with ⟨rfl, rfl⟩ | ⟨rfl, rfl⟩ | ⟨rfl, rfl⟩ | ⟨rfl, rfl⟩ | ⟨rfl, rfl⟩ | ⟨rfl, rfl⟩ <;> push_cast at h3 ⊢ <;>
        linarith
    exact_mod_cast this
  rcases hnm with ⟨rfl, rfl⟩ | ⟨rfl, rfl⟩ | ⟨rfl, rfl⟩ | ⟨rfl, rfl⟩ | ⟨rfl, rfl⟩ | ⟨rfl, rfl⟩
  · have key := h.equal hwf hnl (by decide) (by decide) ha0 he.le hmb hka hbt (by omega) hW' hs hM hmh (c := 63 / 50)
      (by norm_num) (le_refl _) (le_refl _) (by norm_num) (by norm_num) (by norm_num at h1 h2 h3 ⊢; linarith)
      (by norm_num at h1 h2 h3 ⊢; linarith) (by norm_num at h1 h2 h3 ⊢; linarith)
    refine ⟨key.1, nat ?_, nat ?_⟩
    · have := key.2.1; norm_num [eps] at this ⊢; linarith
    · have := key.2.2; norm_num [eps] at this ⊢; linarith
  all_goals
    have key := h.equal hwf hnl (by decide) (by decide) ha0 he.le hmb hka hbt (by omega) hW' hs hM hmh (c := 61 / 50)
      (by norm_num) (le_refl _) (le_refl _) (by norm_num) (by norm_num) (by norm_num at h1 h2 h3 ⊢; linarith)
      (by norm_num at h1 h2 h3 ⊢; linarith) (by norm_num at h1 h2 h3 ⊢; linarith)
    refine ⟨key.1, nat ?_, nat ?_⟩
    · have := key.2.1; norm_num [eps] at this ⊢; linarith
    · have := key.2.2; norm_num [eps] at this ⊢; linarith

/-- A bisection below the top that has three or four parts. -/
theorem LooseBis.inner [Concrete.Log2Impl] {s : Scheme} {bt : Target Concrete.fp} {g : Graph} {lab : Nat → Nat}
    (h : LooseBis (dblEnv pq set rng) s bt g lab) (hwf : g.WF) (hnl : g.NoLoop) {k a b : Nat} (hk : 5 ≤ k) (hk' : k ≤ 8)
    {W M : Nat} (hW : 1000 ≤ W) (hW' : W < 4294967295) (he : EqualParts k W a b) {n : Nat}
    (hn : (n = 1 ∧ 207 * W ≤ 100 * (k * g.sumVtx)) ∨ (n = 2 ∧ 308 * W ≤ 100 * (k * g.sumVtx)))
    (hup : 100 * (k * g.sumVtx) ≤ 123 * ((n + 2) * W)) (hle : g.sumVtx ≤ W)
    (hbt : IsHalvesTarget (List.replicate (n + 2) a) (List.replicate (n + 2) b) bt)
    (hM : ∀ v, v < g.nv → g.vw v ≤ M) (hM' : 20 * M ≤ W) :
    0 < partWeight g lab 1 ∧ (n = 2 → 0 < partWeight g lab 0) := by
  generalize hX : g.sumVtx = X at *
  have hWq : (1000 : ℚ) ≤ W := by exact_mod_cast hW
  have hWq' : (W : ℚ) < 4294967295 := by exact_mod_cast hW'
  have h1 := he.target_le
  have h2 := he.target_ge
  have h3 := he.limit_le
  have hXM : 5 * M ≤ X := by
    rcases (show k = 5 ∨ k = 6 ∨ k = 7 ∨ k = 8 by omega) with rfl | rfl | rfl | rfl <;>
      rcases hn with ⟨-, hn⟩ | ⟨-, hn⟩ <;> omega
  have hX0 : 0 < X := by
    rcases (show k = 5 ∨ k = 6 ∨ k = 7 ∨ k = 8 by omega) with rfl | rfl | rfl | rfl <;>
      rcases hn with ⟨-, hn⟩ | ⟨-, hn⟩ <;> omega
  have hXq : (0 : ℚ) < X := by exact_mod_cast hX0
  obtain ⟨mh, hmh, hmhq⟩ : ∃ mh, max (3 * X / 40) M ≤ mh ∧ 5 * (mh : ℚ) ≤ X := by
    refine ⟨X / 5, by omega, ?_⟩
    exact_mod_cast (show 5 * (X / 5) ≤ X by omega)
  have ha0 : 0 < a := by
    by_contra h
    have : a = 0 := by omega
    rw [this] at h2
    have : (k : ℚ) ≤ 8 := by exact_mod_cast hk'
    push_cast at h2
    linarith
  have hupq : 100 * ((k : ℚ) * X) ≤ 123 * ((n + 2) * W) := by exact_mod_cast hup
  have sum : (∀ v, v < g.nv → lab v < 2) → partWeight g lab 0 + partWeight g lab 1 = X := fun h => by
    rw [← hX]; exact partWeight_two h
  have lt : ∀ {x : Nat}, (x : ℚ) < X → x < X := fun h => by exact_mod_cast h
  have hkk : k = 5 ∨ k = 6 ∨ k = 7 ∨ k = 8 := by omega
  rcases hn with ⟨rfl, hn⟩ | ⟨rfl, hn⟩
  · have hnq : 207 * (W : ℚ) ≤ 100 * ((k : ℚ) * X) := by exact_mod_cast hn
    have hmb : 2 * b < 4294967296 := by
      have : ((2 * b : Nat) : ℚ) < ((4294967296 : Nat) : ℚ) := by
        rcases hkk with rfl | rfl | rfl | rfl <;> push_cast at h3 ⊢ <;> linarith
      exact_mod_cast this
    have hka : (1 + 2) * a < 4294967296 := by
      have := he.le
      have : (((1 + 2) * a : Nat) : ℚ) < ((4294967296 : Nat) : ℚ) := by
        rcases hkk with rfl | rfl | rfl | rfl <;> push_cast at h1 ⊢ <;> linarith
      exact_mod_cast this
    have key := h.equal hwf hnl (by decide) (by decide) ha0 he.le hmb hka hbt hX0 (by omega) hX hM hmh (c := 29 / 10)
      (by norm_num) (le_refl _) (le_refl _) (by norm_num) (by norm_num)
      (by rcases hkk with rfl | rfl | rfl | rfl <;> norm_num at h1 h2 h3 hnq hupq ⊢ <;> linarith)
      (by rcases hkk with rfl | rfl | rfl | rfl <;> norm_num at h1 h2 h3 hnq hupq ⊢ <;> linarith)
      (by rcases hkk with rfl | rfl | rfl | rfl <;> norm_num at h1 h2 h3 hnq hupq ⊢ <;> linarith)
    have hs := sum key.1
    have l0 : partWeight g lab 0 < X := lt (by have := key.2.1; norm_num [eps] at this; linarith)
    exact ⟨by omega, fun h => by omega⟩
  · have hnq : 308 * (W : ℚ) ≤ 100 * ((k : ℚ) * X) := by exact_mod_cast hn
    have hmb : 2 * b < 4294967296 := by
      have : ((2 * b : Nat) : ℚ) < ((4294967296 : Nat) : ℚ) := by
        rcases hkk with rfl | rfl | rfl | rfl <;> push_cast at h3 ⊢ <;> linarith
      exact_mod_cast this
    have hka : (2 + 2) * a < 4294967296 := by
      have : (((2 + 2) * a : Nat) : ℚ) < ((4294967296 : Nat) : ℚ) := by
        rcases hkk with rfl | rfl | rfl | rfl <;> push_cast at h1 ⊢ <;> linarith
      exact_mod_cast this
    have key := h.equal hwf hnl (by decide) (by decide) ha0 he.le hmb hka hbt hX0 (by omega) hX hM hmh (c := 39 / 20)
      (by norm_num) (le_refl _) (le_refl _) (by norm_num) (by norm_num)
      (by rcases hkk with rfl | rfl | rfl | rfl <;> norm_num at h1 h2 h3 hnq hupq ⊢ <;> linarith)
      (by rcases hkk with rfl | rfl | rfl | rfl <;> norm_num at h1 h2 h3 hnq hupq ⊢ <;> linarith)
      (by rcases hkk with rfl | rfl | rfl | rfl <;> norm_num at h1 h2 h3 hnq hupq ⊢ <;> linarith)
    have hs := sum key.1
    have l0 : partWeight g lab 0 < X := lt (by have := key.2.1; norm_num [eps] at this; linarith)
    have l1 : partWeight g lab 1 < X := lt (by have := key.2.2; norm_num [eps] at this; linarith)
    exact ⟨by omega, fun _ => by omega⟩

/-- What recursive bisection keeps while it splits a graph of weight `W` into `k` equal parts. -/
def SafeNode (k W M a b : Nat) (tw mx : List Nat) (g : Graph) : Prop :=
  g.vwgt.length = g.nv ∧ (∀ v, v < g.nv → g.vw v ≠ 1 ∧ g.vw v ≤ M) ∧ 0 < g.nv ∧
  ∃ n, tw = List.replicate n a ∧ mx = List.replicate n b ∧
    ((n = k ∧ g.sumVtx = W) ∨ n = 2 ∨
      (5 ≤ k ∧ g.sumVtx ≤ W ∧ 100 * (k * g.sumVtx) ≤ 123 * (n * W) ∧
        ((n = 3 ∧ 207 * W ≤ 100 * (k * g.sumVtx)) ∨ (n = 4 ∧ 308 * W ≤ 100 * (k * g.sumVtx)))))

theorem Graph.not_unit {g : Graph} (h0 : 0 < g.nv) (h : ∀ v, v < g.nv → g.vw v ≠ 1) : g.unitVtx = false := by
  cases hu : g.unitVtx with
  | false => rfl
  | true =>
    refine absurd ?_ (h 0 h0)
    unfold Graph.vw
    rw [hu]; rfl

/-- The vertices of a side, if it has weight. -/
theorem SubOK.safe {g : Graph} {lab : Nat → Nat} {labels : Option (List Nat)} {q : Nat} {sub : Subgraph} {M : Nat}
    (h : SubOK g lab labels q sub) (h0 : 0 < g.nv) (hw : ∀ v, v < g.nv → g.vw v ≠ 1 ∧ g.vw v ≤ M)
    (hp : 0 < partWeight g lab q) :
    sub.graph.vwgt.length = sub.graph.nv ∧ (∀ v, v < sub.graph.nv → sub.graph.vw v ≠ 1 ∧ sub.graph.vw v ≤ M) ∧
      0 < sub.graph.nv ∧ sub.graph.sumVtx = partWeight g lab q := by
  refine ⟨h.weights (Graph.not_unit h0 fun v hv => (hw v hv).1), fun v hv => ?_, ?_, h.induced.sumVtx⟩
  · rw [h.induced.vw v hv]
    refine hw _ (mem_vertsOf.mp (nth_mem ?_)).1
    rw [← h.induced.nv]; exact hv
  · by_contra hn
    have hz : sub.graph.nv = 0 := by omega
    have := h.induced.sumVtx
    unfold Graph.sumVtx at this
    rw [hz] at this
    simp at this
    omega

theorem SafeNode.step [Concrete.Log2Impl] {k W M a b : Nat} (hk : k ≤ 8) (hW : 1000 ≤ W) (hW' : W < 4294967295)
    (he : EqualParts k W a b) (hM : 20 * M ≤ W) {s : Scheme} {tw mx : List Nat} {bt : Target Concrete.fp} {g : Graph}
    {lab : Nat → Nat} {labels : Option (List Nat)} {sub : Subgraph} (hwf : g.WF) (hnl : g.NoLoop)
    (hi : SafeNode k W M a b tw mx g) (hbt : IsHalvesTarget tw mx bt) (h : LooseBis (dblEnv pq set rng) s bt g lab) :
    (2 ≤ (tw.take (tw.length / 2)).length → SubOK g lab labels 0 sub →
        SafeNode k W M a b (tw.take (tw.length / 2)) (mx.take (tw.length / 2)) sub.graph) ∧
      (2 ≤ (tw.drop (tw.length / 2)).length → SubOK g lab labels 1 sub →
        SafeNode k W M a b (tw.drop (tw.length / 2)) (mx.drop (tw.length / 2)) sub.graph) := by
  obtain ⟨-, hw, h0, n, rfl, rfl, hn⟩ := hi
  simp only [List.length_replicate, List.take_replicate, List.drop_replicate]
  have hw' : ∀ v, v < g.nv → g.vw v ≤ M := fun v hv => (hw v hv).2
  rcases hn with ⟨rfl, hs⟩ | rfl | ⟨h5, hle, hup, hn⟩
  · -- the top
    have main : ∀ x y, n = x + y → ((x = 1 ∧ y = 2) ∨ (x = 2 ∧ y = 2) ∨ (x = 2 ∧ y = 3) ∨ (x = 3 ∧ y = 3) ∨
        (x = 3 ∧ y = 4) ∨ (x = 4 ∧ y = 4)) →
        (2 ≤ min (n / 2) n → SubOK g lab labels 0 sub →
          SafeNode n W M a b (List.replicate (min (n / 2) n) a) (List.replicate (min (n / 2) n) b) sub.graph) ∧
        (2 ≤ n - n / 2 → SubOK g lab labels 1 sub →
          SafeNode n W M a b (List.replicate (n - n / 2) a) (List.replicate (n - n / 2) b) sub.graph) := by
      rintro x y rfl hxy
      obtain ⟨hl, t0, t1⟩ := h.top hwf hnl hxy hW hW' he hbt hs hw' hM
      have hsum := partWeight_two hl
      rw [hs] at hsum
      constructor
      · intro h2 hsub
        obtain ⟨s1, s2, s3, s4⟩ := hsub.safe h0 hw (by
          rcases hxy with ⟨rfl, rfl⟩ | ⟨rfl, rfl⟩ | ⟨rfl, rfl⟩ | ⟨rfl, rfl⟩ | ⟨rfl, rfl⟩ | ⟨rfl, rfl⟩ <;>
            norm_num at t0 t1 h2 <;> omega)
        refine ⟨s1, s2, s3, _, rfl, rfl, ?_⟩
        rw [s4]
        rcases hxy with ⟨rfl, rfl⟩ | ⟨rfl, rfl⟩ | ⟨rfl, rfl⟩ | ⟨rfl, rfl⟩ | ⟨rfl, rfl⟩ | ⟨rfl, rfl⟩ <;>
          first | (exfalso; revert h2; decide) | (norm_num at t0 t1 ⊢ <;> omega)
      · intro h2 hsub
        obtain ⟨s1, s2, s3, s4⟩ := hsub.safe h0 hw (by
          rcases hxy with ⟨rfl, rfl⟩ | ⟨rfl, rfl⟩ | ⟨rfl, rfl⟩ | ⟨rfl, rfl⟩ | ⟨rfl, rfl⟩ | ⟨rfl, rfl⟩ <;>
            norm_num at t0 t1 h2 <;> omega)
        refine ⟨s1, s2, s3, _, rfl, rfl, ?_⟩
        rw [s4]
        rcases hxy with ⟨rfl, rfl⟩ | ⟨rfl, rfl⟩ | ⟨rfl, rfl⟩ | ⟨rfl, rfl⟩ | ⟨rfl, rfl⟩ | ⟨rfl, rfl⟩ <;>
          norm_num at t0 t1 h2 ⊢ <;> omega
    by_cases h3 : n < 3
    · exact ⟨fun h => by omega, fun h => by omega⟩
    · exact main (n / 2) (n - n / 2) (by omega) (by omega)
  · exact ⟨fun h => by omega, fun h => by omega⟩
  · -- three or four parts below the top
    rcases hn with ⟨rfl, hn⟩ | ⟨rfl, hn⟩
    · have := (h.inner hwf hnl h5 hk hW hW' he (n := 1) (Or.inl ⟨rfl, hn⟩) hup hle hbt hw' hM).1
      refine ⟨fun h => by omega, fun _ hsub => ?_⟩
      obtain ⟨s1, s2, s3, s4⟩ := hsub.safe h0 hw this
      exact ⟨s1, s2, s3, _, rfl, rfl, Or.inr (Or.inl (by decide))⟩
    · obtain ⟨p1, p0⟩ := h.inner hwf hnl h5 hk hW hW' he (n := 2) (Or.inr ⟨rfl, hn⟩) hup hle hbt hw' hM
      refine ⟨fun _ hsub => ?_, fun _ hsub => ?_⟩
      · obtain ⟨s1, s2, s3, s4⟩ := hsub.safe h0 hw (p0 rfl)
        exact ⟨s1, s2, s3, _, rfl, rfl, Or.inr (Or.inl (by decide))⟩
      · obtain ⟨s1, s2, s3, s4⟩ := hsub.safe h0 hw p1
        exact ⟨s1, s2, s3, _, rfl, rfl, Or.inr (Or.inl (by decide))⟩

/-- The limits of a call for up to eight parts. -/
theorem equalParts [Concrete.Log2Impl] {k W : Nat} (hk : 2 ≤ k) (hk' : k ≤ 8) (hW : W < 4294967295) {t : Target Concrete.fp}
    (h : Target.uniform (fp := Concrete.fp) k W (Concrete.fp.lit 3 2) = ok t) :
    ∃ a b, t.tw = List.replicate k a ∧ t.mx = List.replicate k b ∧ EqualParts k W a b := by
  obtain ⟨f, a, b, hu, hab, h1, h2, h3, -⟩ := uniform_bounds (k := k) (tot := W) hk (by omega) (by omega)
  rw [hu] at h
  cases h
  have hkq : (2 : ℚ) ≤ k := by exact_mod_cast hk
  have hkq' : (k : ℚ) ≤ 8 := by exact_mod_cast hk'
  have hk0 : (0 : ℚ) < k := by linarith
  have e : (k : ℚ) * (1 / k * W) = W := by field_simp
  refine ⟨a, b, rfl, rfl, hab, ?_, ?_, ?_⟩
  · have := mul_le_mul_of_nonneg_left h1 hk0.le
    rw [mul_add, e] at this
    linarith
  · have := mul_le_mul_of_nonneg_left h2.le hk0.le
    rw [mul_add, mul_add, e] at this
    linarith
  · have := mul_le_mul_of_nonneg_left h3 hk0.le
    rw [mul_add, mul_left_comm, e] at this
    linarith

/-- **C80.** Calls for two to eight parts are safe on graphs with explicit vertex weights, none of them 1 and none more
than a twentieth of the total, of total weight at least 1000: whatever the graph, scheme, seed, number of cuts, random
engine, priority queue and set, the call returns 1. -/
theorem C80_up_to_eight [Concrete.Log2Impl] (pq : PQImpl) (set : SetImpl) (rng : RngImpl) {i : Input} (hv : i.Valid)
    (hk : 2 ≤ i.numPartitions) (hk' : i.numPartitions ≤ 8) (hw : i.vertexWeights.isSome)
    (hW : 1000 ≤ i.totalWeight) (hW' : i.totalWeight < 4294967295)
    (hone : ∀ v, v < i.numVertices → weightAt i.vertexWeights v ≠ 1)
    (hheavy : ∀ v, v < i.numVertices → 20 * weightAt i.vertexWeights v ≤ i.totalWeight)
    {o : Options Concrete.fp} (ho : o.Known) {out : Out} (hb : i.numVertices ≤ out.asg.length) :
    (partGraphRecursive (dblEnv pq set rng) i (some o) out).2 = ok 1 := by
  obtain ⟨P, hp, hfit⟩ := prepare_total (E := dblEnv pq set rng) Concrete.uniformOK hv (by omega) (by omega) ho
  have hP := prepare_ok hv hp
  have hnv := hP.rep.nv_eq
  have hd := hP.rep
  refine call_total hp (fun r => ?_) (by omega)
  obtain ⟨a, b, ht1, ht2, he⟩ := equalParts hk hk' hW' hP.target
  have hlen : P.graph.vwgt.length = P.graph.nv := by
    rw [hP.rep.vwgt_eq]
    obtain ⟨l, hl⟩ := Option.isSome_iff_exists.mp hw
    have := hv.csr.vw_len
    rw [hl] at this ⊢
    simp only [shorter, not_lt] at this
    simp only [emptyIfNull, List.length_take]
    omega
  have hvw : ∀ v, v < P.graph.nv → P.graph.vw v = weightAt i.vertexWeights v := fun v hv => hP.rep.vw_at (by omega)
  have hn0 : 0 < P.graph.nv := by
    by_contra h
    have hz : i.numVertices = 0 := by omega
    unfold Input.totalWeight at hW
    rw [hz] at hW
    simp at hW
  have := rbExecute_inv (E := dblEnv pq set rng) (bu := False) (be := False) (bd := False)
    (bis := (makeMultilevel (dblEnv pq set rng) P.scheme).execute)
    (R := MLBisected (dblEnv pq set rng) P.scheme) (S := P.graph.sumVtx) (M := NULL32) (by decide)
    (SafeNode i.numPartitions i.totalWeight (i.totalWeight / 20) a b)
    (fun tw mx bt g r lab r' labels sub hg hi hbt hr => SafeNode.step hk' hW hW' he (by omega) hg.wf hg.noLoop hi hbt hr.loose)
    (fun tw mx bt g r hi hbt hg _ hb2 _ _ => by
      have hc := C72_multilevel_run (pq := pq) (set := set) (rng := rng) P.scheme hb2 hg r
      have hc' := C35_multilevel (E := dblEnv pq set rng) P.scheme hb2 hg r
      obtain ⟨x, hx⟩ := hc.2 hi.2.2.1 (fun _ => hi.1)
      exact Wp.of_sat (sat_iff.mpr ⟨x, hx, hc'.1 x.1 x.2 hx, hc.1 x.1 x.2 hx⟩))
    (t := P.target) (by rw [hP.k]; exact hk) (by rw [hP.k]; omega) hP.tw hP.mx (Or.inl ⟨Concrete.recursiveOK, hfit⟩)
    (g := P.graph) ⟨hlen, fun v hv => ?_, hn0, i.numPartitions, ht1, ht2, Or.inl ⟨rfl, hP.sum⟩⟩ hP.good (le_refl _) r
  · obtain ⟨x, hx, hex, -⟩ := sat_iff.mp (Wp.post.mp this)
    exact ⟨x.1, x.2, hx, hex.asg_len⟩
  · rw [hvw v hv]
    have := hheavy v (by omega)
    exact ⟨hone v (by omega), by omega⟩

/-- A ring of twenty vertices of weight 50. -/
def ring20 (k : Nat) : Input :=
  { numVertices := 20, edgePrefix := (List.range 21).map (2 * ·),
    edgeList := (List.range 20).flatMap fun v => [(v + 19) % 20, (v + 1) % 20],
    vertexWeights := some (List.replicate 20 50), edgeWeights := none, numPartitions := k }

theorem ring20_valid : (ring20 8).Valid :=
  Ex.valid_of (by constructor <;> decide +kernel) (by decide +kernel) (by decide +kernel) (by decide +kernel)
    (by decide +kernel)

/-- The hypotheses are met by a ring of twenty vertices. -/
example : (ring20 8).Valid ∧ 2 ≤ (ring20 8).numPartitions ∧ (ring20 8).numPartitions ≤ 8 ∧ (ring20 8).vertexWeights.isSome ∧
    1000 ≤ (ring20 8).totalWeight ∧ (ring20 8).totalWeight < 4294967295 ∧
    (∀ v, v < (ring20 8).numVertices → weightAt (ring20 8).vertexWeights v ≠ 1) ∧
    (∀ v, v < (ring20 8).numVertices → 20 * weightAt (ring20 8).vertexWeights v ≤ (ring20 8).totalWeight) ∧
    (defaultOptions Concrete.fp).Known ∧ (ring20 8).numVertices ≤ (List.replicate 20 0).length :=
  ⟨ring20_valid, by decide, by decide, rfl, by decide +kernel, by decide +kernel, by decide +kernel, by decide +kernel,
    Or.inr rfl, by decide⟩

end Poros
