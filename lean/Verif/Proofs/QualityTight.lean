import Verif.Props.P81_Nonempty
/-
A sharper form of the bounds of `QualityK`: growing puts a vertex too many on the left side only if the right side is over
its limit, so the left side gets over its own limit only as far as the right side is from being full.
-/
namespace Poros
open Finset Res Concrete

variable {pq : PQImpl} {set : SetImpl} {rng : RngImpl}

/-- The weight of the left side of a grown bisection: over its limit only if the right side was over its own. -/
theorem GrownTo.left_tight {fp : FP} {g : Graph} {t : Target fp} {seed : Nat} {out : Nat → Nat}
    (h : GrownTo g t seed out) {M : Nat} (hM : ∀ v, v < g.nv → g.vw v ≤ M) :
    partWeight g out 0 ≤ nth t.mx 0 ∨ partWeight g out 0 + nth t.mx 1 < g.sumVtx + M := by
  obtain ⟨-, lab, seen, h1, h2, h3⟩ := h
  obtain ⟨i1, i2, i3, i4⟩ := h1.spec
  have hs := partWeight_two i1
  rcases h3 with ⟨ho, v, hv, hn, rfl⟩ | ⟨-, rfl⟩
  · have hl : lab v = 1 := i3 v hv hn
    have e0 := partWeight_relabel (q := 0) lab hv 0
    rw [hl] at e0
    rw [if_neg (by decide), if_pos rfl] at e0
    rw [put_eq_relabel]
    have := hM v hv
    have := ho.1
    right
    omega
  · left; omega

/-- `LooseBis.load` with the sharper bound on the left side. -/
theorem LooseBis.load_tight [Concrete.Log2Impl] {s : Scheme} {t : Target Concrete.fp} {g : Graph} {lab : Nat → Nat}
    (h : LooseBis (dblEnv pq set rng) s t g lab) (hwf : g.WF) (hnl : g.NoLoop)
    {q0 q1 : ℚ} (hf : t.frac = [F64.fin q0, F64.fin q1])
    (h0 : 13 / 50 ≤ q0) (h1 : 13 / 50 ≤ q1) {W M L R : Nat} (hW : 0 < W) (hW' : W < 4294967295) (hs : g.sumVtx = W)
    (hM : ∀ v, v < g.nv → g.vw v ≤ M) (hL1 : nth t.mx 0 ≤ L) (hL2 : W + max (3 * W / 40) M ≤ L + nth t.mx 1)
    (hR1 : nth t.mx 1 ≤ R)
    (hR2 : W ≤ R + nth t.tw 0) (hR3 : W + max (3 * W / 40) M ≤ R + nth t.mx 0) {c : ℚ} (hc : 1 ≤ c)
    (hcL : (L : ℚ) ≤ c * (W * q0)) (hcR : (R : ℚ) ≤ c * (W * q1)) :
    (∀ v, v < g.nv → lab v < 2) ∧
    (partWeight g lab 0 : ℚ) ≤ (c + 2 * eps) * (W * q0) ∧ (partWeight g lab 1 : ℚ) ≤ (c + 2 * eps) * (W * q1) := by
  unfold LooseBis at h
  have hWq : (0 : ℚ) < W := by exact_mod_cast hW
  have p0 : 0 < (W : ℚ) * q0 := mul_pos hWq (by linarith)
  have p1 : 0 < (W : ℚ) * q1 := mul_pos hWq (by linarith)
  have bound : ∀ (g : Graph) (lab : Nat → Nat), g.totVtx = W → g.sumVtx = W → partWeight g lab 0 ≤ L →
      partWeight g lab 1 ≤ R → F64.le (maxImbalance g t lab) (.fin (c - 1 + eps)) = true := by
    intro g lab ht hs b0 b1
    obtain ⟨m, m1, m2, -, -⟩ := maxImbalance_err hf h0 h1 hW (by omega) ht hs lab
    rw [show maxImbalance g t lab = _ from m1]
    refine le_fin.mpr (le_trans m2 ?_)
    have b0' : ((partWeight g lab 0 : Nat) : ℚ) ≤ L := by exact_mod_cast b0
    have b1' : ((partWeight g lab 1 : Nat) : ℚ) ≤ R := by exact_mod_cast b1
    have r0 : rel W (partWeight g lab 0) q0 ≤ c := by
      unfold rel; rw [div_le_iff₀ p0]; linarith
    have r1 : rel W (partWeight g lab 1) q1 ≤ c := by
      unfold rel; rw [div_le_iff₀ p1]; linarith
    have : max 0 (max (rel W (partWeight g lab 0) q0 - 1) (rel W (partWeight g lab 1) q1 - 1)) ≤ c - 1 :=
      max_le (by linarith) (max_le (by linarith) (by linarith))
    linarith
  have key := Loose.keeps h (W := W) (M := M) hW'
    (B := fun x => F64.le x (.fin (c - 1 + eps)) = true)
    (fun x y hxy hy => le_trans_fin (Or.inr hxy) hy) (fun x y hxy hy => le_trans_fin (Or.inl hxy) hy)
    (fun g lab ht hs _ hb => bound g lab ht hs (le_trans (hb 0 (by decide)) hL1) (le_trans (hb 1 (by decide)) hR1))
    (fun g' seed lab hwf' hs' hw hgr => by
      have a2 := hgr.left_tight hw
      obtain ⟨a1, -, a3⟩ := hgr.weights_any hw
      rw [hs] at a2 a3
      rw [hs'] at a2 a3
      exact bound g' lab (by rw [hwf'.totVtx_eq (by omega), hs']) hs' (by omega) (by omega))
    hwf hnl hs (fun v hv => le_trans (hM v hv) (le_max_right _ _))
  obtain ⟨k1, k2⟩ := key
  refine ⟨k1, ?_⟩
  obtain ⟨m, m1, -, m3, m4⟩ := maxImbalance_err hf h0 h1 hW (by omega) (by rw [hwf.totVtx_eq (by omega), hs]) hs lab
  rw [show maxImbalance g t lab = _ from m1] at k2
  have := le_fin.mp k2
  constructor
  · rw [← div_le_iff₀ p0]; exact le_trans (b := m + eps + 1) (by unfold rel at m3; linarith) (by linarith)
  · rw [← div_le_iff₀ p1]; exact le_trans (b := m + eps + 1) (by unfold rel at m4; linarith) (by linarith)

/-- What rounding adds to a share. -/
theorem share_round {T X α : ℚ} (hX : 0 < X) (hT : X ≤ T) (ha : 0 ≤ α) (ha' : α ≤ 2 / 3) :
    (T / X * (1 + 1 / 200000) + 2 * eps) * (X * (α + 1 / 1000000)) ≤ α * T + T / 100000 := by
  have e : (T / X * (1 + 1 / 200000) + 2 * eps) * (X * (α + 1 / 1000000)) =
      (T * (1 + 1 / 200000) + 2 * eps * X) * (α + 1 / 1000000) := by
    field_simp
  rw [e]
  have h1 : 2 * eps * X ≤ 1 / 10000000 * T := by
    have : 2 * eps * X ≤ 2 * eps * T := mul_le_mul_of_nonneg_left hT (by unfold eps; norm_num)
    have h2 : 2 * eps * T ≤ 1 / 10000000 * T := mul_le_mul_of_nonneg_right (by unfold eps; norm_num) (by linarith)
    linarith
  have hT0 : 0 < T := by linarith
  have h2 : (T * (1 + 1 / 200000) + 2 * eps * X) * (α + 1 / 1000000) ≤
      (T * (1 + 1 / 200000) + 1 / 10000000 * T) * (α + 1 / 1000000) :=
    mul_le_mul_of_nonneg_right (by linarith) (by linarith)
  have h3 : α * T ≤ 2 / 3 * T := mul_le_mul_of_nonneg_right ha' hT0.le
  have h4 : (T * (1 + 1 / 200000) + 1 / 10000000 * T) * (α + 1 / 1000000) =
    α * T + (51 / 10000000 * (α * T) + 10000051 / 10000000000000 * T) := by ring
  linarith

/-- A bisection of a graph of weight `X` for `n + m` equal parts: if the weight `T` is at least that of the graph and the
room of the parts, and each side's share of `T` is at least what growing leaves there beyond the target of the other side,
each side weighs at most its share of `T`, up to rounding. -/
theorem LooseBis.share [Concrete.Log2Impl] {s : Scheme} {bt : Target Concrete.fp} {g : Graph} {lab : Nat → Nat}
    (h : LooseBis (dblEnv pq set rng) s bt g lab) (hwf : g.WF) (hnl : g.NoLoop) {n m a b : Nat} (hn : n = (n + m) / 2)
    (hn0 : 0 < n) (ha : 0 < a) (hab : a ≤ b) (hb : m * b < 4294967296) (hk : (n + m) * a < 4294967296)
    (hbt : IsHalvesTarget (List.replicate (n + m) a) (List.replicate (n + m) b) bt) {X M : Nat} (hX : 0 < X)
    (hX' : X < 4294967295) (hs : g.sumVtx = X) (hM : ∀ v, v < g.nv → g.vw v ≤ M) {mh : Nat}
    (hmh : max (3 * X / 40) M ≤ mh) {α β T : ℚ} (hα : α = (n : ℚ) / (n + m : Nat)) (hβ : β = (m : ℚ) / (n + m : Nat))
    (hT1 : (X : ℚ) ≤ T) (hT2 : (n : ℚ) * b ≤ α * T) (hT3 : (m : ℚ) * b ≤ β * T)
    (hT4 : (X : ℚ) + mh ≤ α * T + m * a) (hT5 : (X : ℚ) + mh ≤ β * T + n * a) :
    partWeight g lab 0 + partWeight g lab 1 = X ∧ (∀ v, v < g.nv → lab v < 2) ∧
    (partWeight g lab 0 : ℚ) ≤ α * T + T / 100000 ∧ (partWeight g lab 1 : ℚ) ≤ β * T + T / 100000 := by
  obtain ⟨e1, ⟨e2, e3⟩, ⟨e5, e4⟩, q0, q1, hf, ⟨f1, f2⟩, ⟨f3, f4⟩⟩ := halves_equal hn hn0 ha hab hb hk hbt
  rw [← hα] at f1 f2
  rw [← hβ] at f3 f4
  have hXq : (0 : ℚ) < X := by exact_mod_cast hX
  have hN : (0 : ℚ) < (n + m : Nat) := by exact_mod_cast (show 0 < n + m by omega)
  have hα1 : 1 / 3 ≤ α := by
    rw [hα, le_div_iff₀ hN]
    have : ((n + m : Nat) : ℚ) ≤ 3 * n := by exact_mod_cast (show n + m ≤ 3 * n by omega)
    linarith
  have hα2 : α ≤ 2 / 3 := by
    rw [hα, div_le_iff₀ hN]
    have : 2 * (n : ℚ) ≤ (n + m : Nat) := by exact_mod_cast (show 2 * n ≤ n + m by omega)
    linarith
  have hβ1 : 1 / 3 ≤ β := by
    rw [hβ, le_div_iff₀ hN]
    have : ((n + m : Nat) : ℚ) ≤ 3 * m := by exact_mod_cast (show n + m ≤ 3 * m by omega)
    linarith
  have hβ2 : β ≤ 2 / 3 := by
    rw [hβ, div_le_iff₀ hN]
    have : 3 * (m : ℚ) ≤ 2 * (n + m : Nat) := by exact_mod_cast (show 3 * m ≤ 2 * (n + m) by omega)
    linarith
  have hT0 : 0 < T := by linarith
  set c : ℚ := T / X * (1 + 1 / 200000) with hc
  have hcX : ∀ y, c * (X * y) = T * (1 + 1 / 200000) * y := fun y => by rw [hc]; field_simp
  have hc1 : 1 ≤ c := by
    have : 1 ≤ T / X := by rw [le_div_iff₀ hXq]; linarith
    rw [hc]
    nlinarith
  have grow : ∀ y q : ℚ, 1 / 3 ≤ y → y ≤ q + 1 / 1000000 → y * T ≤ c * (X * q) := by
    intro y q hy hq
    rw [hcX]
    have h1 : T * (1 + 1 / 200000) * (y - 1 / 1000000) ≤ T * (1 + 1 / 200000) * q :=
      mul_le_mul_of_nonneg_left (by linarith) (by positivity)
    have h2 : 1 / 3 * T ≤ y * T := mul_le_mul_of_nonneg_right hy hT0.le
    linarith
  have g1 := grow α q0 hα1 f2
  have g2 := grow β q1 hβ1 f4
  have hcast : ∀ x y : Nat, ∀ B : ℚ, 0 ≤ B → (x : ℚ) ≤ B + y → ((x - y : Nat) : ℚ) ≤ B := by
    intro x y B hB h
    by_cases hxy : y ≤ x
    · rw [Nat.cast_sub hxy]; linarith
    · rw [Nat.sub_eq_zero_of_le (by omega)]; exact_mod_cast hB
  have hcmax : ∀ x y : Nat, ∀ B : ℚ, (x : ℚ) ≤ B → (y : ℚ) ≤ B → ((max x y : Nat) : ℚ) ≤ B := by
    intro x y B h1 h2
    rw [Nat.cast_max]; exact max_le h1 h2
  have pα : 0 ≤ α * T := by nlinarith
  have pβ : 0 ≤ β * T := by nlinarith
  have key := h.load_tight hwf hnl hf (by linarith) (by linarith) (M := M) (L := max (n * b) (X + mh - m * a))
    (R := max (m * b) (X + mh - n * a)) hX hX' hs hM (by omega) (by omega) (by omega) (by rw [e1]; omega) (by omega) hc1
    (hcmax _ _ _ (by push_cast; linarith) (hcast _ _ _ (by linarith) (by push_cast; linarith)))
    (hcmax _ _ _ (by push_cast; linarith) (hcast _ _ _ (by linarith) (by push_cast; linarith)))
  have he : (0 : ℚ) < eps := by unfold eps; norm_num
  refine ⟨by rw [← hs]; exact partWeight_two key.1, key.1, le_trans key.2.1 (le_trans ?_ (share_round hXq hT1 (by linarith) hα2)),
    le_trans key.2.2 (le_trans ?_ (share_round hXq hT1 (by linarith) hβ2))⟩
  · exact mul_le_mul_of_nonneg_left (mul_le_mul_of_nonneg_left f1 hXq.le) (by linarith)
  · exact mul_le_mul_of_nonneg_left (mul_le_mul_of_nonneg_left f3 hXq.le) (by linarith)

/-- The least `T` for `LooseBis.share`. -/
theorem share_least {X A B C : ℚ} : ∃ T, X ≤ T ∧ A ≤ T ∧ B ≤ T ∧ C ≤ T ∧ (T = X ∨ T = A ∨ T = B ∨ T = C) := by
  refine ⟨max (max X A) (max B C), by simp, by simp, by simp, by simp, ?_⟩
  rcases max_choice (max X A) (max B C) with h | h <;> rw [h]
  · rcases max_choice X A with h | h <;> rw [h] <;> simp
  · rcases max_choice B C with h | h <;> rw [h] <;> simp

end Poros
