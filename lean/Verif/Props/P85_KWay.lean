import Verif.Props.P81_Nonempty
/-
C85: a bound on the weight of every part, for any number of parts.
-/
namespace Poros
open Finset Res Concrete

variable {pq : PQImpl} {set : SetImpl} {rng : RngImpl}

/-- The rounding of a share `β` and of the loads adds little. -/
theorem round_le {β T c X Z E w : ℚ} (hb : 1 / 2 ≤ β) (hb' : β ≤ 2 / 3) (hX0 : 0 < X) (hZx : X ≤ Z) (hT0 : 0 < T) (hTe : T ≤ E)
    (hcX : c * X * (β - 1 / 1000000) = T) (hw0 : 0 ≤ w) (hwβ : w ≤ β) :
    (c + 2 * eps) * (X * (w + 1 / 1000000)) ≤ T * w / β + 7 / 1000000 * E + 1 / 1000000 * Z := by
  have hβ0 : 0 < β := by linarith
  have hey : 0 < β - 1 / 1000000 := by linarith
  have e1 : c * X = T / (β - 1 / 1000000) := (eq_div_iff hey.ne').mpr hcX
  have h1 : c * (X * (w + 1 / 1000000)) ≤ T * w / β + 7 / 1000000 * E := by
    rw [← mul_assoc, e1]
    have h3 : T / (β - 1 / 1000000) ≤ T / β + 3 * T / 1000000 / β := by
      rw [← add_div, div_le_div_iff₀ hey hβ0]
      nlinarith
    have h4 : T / β ≤ 2 * T := by
      rw [div_le_iff₀ hβ0]
      nlinarith
    have h5 : T / (β - 1 / 1000000) * (w + 1 / 1000000) ≤ (T / β + 3 * T / 1000000 / β) * (w + 1 / 1000000) :=
      mul_le_mul_of_nonneg_right h3 (by linarith)
    have h6 : (T / β + 3 * T / 1000000 / β) * (w + 1 / 1000000) =
        T * w / β + (1 / 1000000) * (T / β) + 3 / 1000000 * (w + 1 / 1000000) * (T / β) := by ring
    have h7 : 0 ≤ T / β := (div_pos hT0 hβ0).le
    have h8 : 3 / 1000000 * (w + 1 / 1000000) * (T / β) ≤ 3 / 1000000 * (2 / 3 + 1 / 1000000) * (T / β) :=
      mul_le_mul_of_nonneg_right (by linarith) h7
    linarith
  have h5 : 2 * eps * (X * (w + 1 / 1000000)) ≤ 1 / 1000000 * Z := by
    have : X * (w + 1 / 1000000) ≤ Z * 2 := mul_le_mul hZx (by linarith) (by linarith) (by linarith)
    have h6 : 2 * eps * (X * (w + 1 / 1000000)) ≤ 2 * eps * (Z * 2) :=
      mul_le_mul_of_nonneg_left this (by unfold eps; norm_num)
    refine le_trans h6 ?_
    unfold eps
    linarith
  rw [add_mul]
  linarith

set_option maxHeartbeats 1000000 in
/-- One bisection for `n + m` equal parts, in terms of the larger of the weight of the graph and the room of its parts:
each side weighs at most `29/25` of it less the target weights of the parts of the other side, or `27/25` if both sides
get as many parts. -/
theorem LooseBis.step [Concrete.Log2Impl] {s : Scheme} {bt : Target Concrete.fp} {g : Graph} {lab : Nat → Nat}
    (h : LooseBis (dblEnv pq set rng) s bt g lab) (hwf : g.WF) (hnl : g.NoLoop) {n m a b : Nat} (hn : n = (n + m) / 2)
    (hn0 : 0 < n) (ha : 0 < a) (hab : a ≤ b) (hb : m * b < 4294967296) (hk : (n + m) * a < 4294967296)
    (hbt : IsHalvesTarget (List.replicate (n + m) a) (List.replicate (n + m) b) bt)
    (hW' : g.sumVtx < 4294967295) (hM : ∀ v, v < g.nv → 40 * g.vw v ≤ 3 * b) {Z : Nat} (hZ : g.sumVtx ≤ Z)
    (hZ' : (n + m) * b ≤ Z) {f e : ℚ} (hf : (f = 29 / 25 ∧ e = 144 / 125) ∨ (n = m ∧ f = 27 / 25 ∧ e = 43 / 40)) :
    (partWeight g lab 0 : ℚ) ≤ f * Z - m * a ∧ (partWeight g lab 1 : ℚ) ≤ f * Z - n * a := by
  have hZq : ((n : ℚ) + m) * b ≤ Z := by exact_mod_cast hZ'
  have hZx : (g.sumVtx : ℚ) ≤ Z := by exact_mod_cast hZ
  have habq : (a : ℚ) ≤ b := by exact_mod_cast hab
  have ha1 : (1 : ℚ) ≤ a := by exact_mod_cast ha
  have hn1 : (1 : ℚ) ≤ n := by exact_mod_cast hn0
  have hmn : (n : ℚ) ≤ m := by exact_mod_cast (show n ≤ m by omega)
  have hm2 : (m : ℚ) ≤ 2 * n := by exact_mod_cast (show m ≤ 2 * n by omega)
  have hna : (n : ℚ) * a ≤ n * b := mul_le_mul_of_nonneg_left habq (by linarith)
  have hma : (m : ℚ) * a ≤ m * b := mul_le_mul_of_nonneg_left habq (by linarith)
  have hnm : (n : ℚ) * a ≤ m * a := mul_le_mul_of_nonneg_right hmn (by linarith)
  have hnb : (n : ℚ) * b ≤ m * b := mul_le_mul_of_nonneg_right hmn (by linarith)
  have hmb2 : (m : ℚ) * b ≤ 2 * (n * b) := by
    have := mul_le_mul_of_nonneg_right hm2 (show (0 : ℚ) ≤ b by linarith)
    linarith
  have hna0 : (1 : ℚ) ≤ n * a := by nlinarith
  have hsplit : ((n : ℚ) + m) * b = n * b + m * b := add_mul _ _ _
  by_cases hX : g.sumVtx = 0
  · have h0 := partWeight_le (g := g) lab 0
    have h1 := partWeight_le (g := g) lab 1
    rw [hX] at h0 h1
    rw [show partWeight g lab 0 = 0 by omega, show partWeight g lab 1 = 0 by omega]
    push_cast
    rcases hf with ⟨rfl, -⟩ | ⟨-, rfl, -⟩ <;> constructor <;> linarith
  generalize hXd : g.sumVtx = X at *
  have hX0 : (0 : ℚ) < X := by exact_mod_cast (show 0 < X by omega)
  have hN : (0 : ℚ) < (n : ℚ) + m := by linarith
  set α : ℚ := (n : ℚ) / (n + m : Nat) with hα
  set β : ℚ := (m : ℚ) / (n + m : Nat) with hβ
  have hαN : α * ((n : ℚ) + m) = n := by rw [hα]; push_cast; field_simp
  have hβN : β * ((n : ℚ) + m) = m := by rw [hβ]; push_cast; field_simp
  have hαβ : α + β = 1 := by
    have : (α + β) * ((n : ℚ) + m) = 1 * ((n : ℚ) + m) := by rw [add_mul, hαN, hβN]; ring
    exact mul_right_cancel₀ (ne_of_gt hN) this
  have hα3 : 1 / 3 ≤ α := by
    by_contra hc
    have : α * ((n : ℚ) + m) < 1 / 3 * ((n : ℚ) + m) := mul_lt_mul_of_pos_right (by linarith) hN
    rw [hαN] at this
    linarith
  have hα2 : α ≤ 1 / 2 := by
    by_contra hc
    have : 1 / 2 * ((n : ℚ) + m) < α * ((n : ℚ) + m) := mul_lt_mul_of_pos_right (by linarith) hN
    rw [hαN] at this
    linarith
  have hZ0 : (0 : ℚ) < Z := by linarith
  obtain ⟨mh, hmh, hmhq⟩ : ∃ mh, max (3 * X / 40) (3 * b / 40) ≤ mh ∧ 40 * (mh : ℚ) ≤ 3 * Z := by
    have hbZ : b ≤ Z := le_trans (Nat.le_mul_of_pos_left b (by omega)) hZ'
    refine ⟨3 * Z / 40, by omega, ?_⟩
    exact_mod_cast (show 40 * (3 * Z / 40) ≤ 3 * Z by omega)
  -- the target weights of each side against `Z`
  have hnaZ : (n : ℚ) * b ≤ α * Z := by
    have := mul_le_mul_of_nonneg_left hZq (show 0 ≤ α by linarith)
    have e1 : α * (((n : ℚ) + m) * b) = n * b := by rw [← mul_assoc, hαN]
    linarith
  have hmaZ : (m : ℚ) * b ≤ β * Z := by
    have := mul_le_mul_of_nonneg_left hZq (show 0 ≤ β by linarith)
    have e1 : β * (((n : ℚ) + m) * b) = m * b := by rw [← mul_assoc, hβN]
    linarith
  have he : 43 / 40 ≤ e ∧ e ≤ 144 / 125 := by rcases hf with ⟨-, rfl⟩ | ⟨-, -, rfl⟩ <;> norm_num
  have hey : 0 < β - 1 / 1000000 := by linarith
  set T : ℚ := e * Z - n * a with hT
  have hTZ : (e - α) * Z ≤ T := by rw [hT, sub_mul]; linarith
  have hT0 : 0 < T := lt_of_lt_of_le (mul_pos (by linarith) hZ0) hTZ
  have hXy : (0 : ℚ) < X * (β - 1 / 1000000) := mul_pos hX0 hey
  set c : ℚ := T / (X * (β - 1 / 1000000)) with hc
  have hcT : c * (X * (β - 1 / 1000000)) = T := div_mul_cancel₀ _ (ne_of_gt hXy)
  have hcX : c * X * (β - 1 / 1000000) = T := by rw [mul_assoc]; exact hcT
  have hcX0 : 0 < c * X := by
    have : 0 < c := div_pos hT0 hXy
    positivity
  have hc1 : 1 ≤ c := by
    rw [hc, le_div_iff₀ hXy, one_mul]
    have : (X : ℚ) * (β - 1 / 1000000) ≤ Z * (β - 1 / 1000000) := mul_le_mul_of_nonneg_right hZx hey.le
    have h2 : (Z : ℚ) * (β - 1 / 1000000) ≤ (e - α) * Z := by
      rw [mul_comm]
      exact mul_le_mul_of_nonneg_right (by linarith) hZ0.le
    linarith
  have hL : (n : ℚ) * b + mh ≤ c * (X * (α - 1 / 1000000)) := by
    have e1 : c * (X * (α - 1 / 1000000)) * (β - 1 / 1000000) = T * (α - 1 / 1000000) := by rw [← hcX]; ring
    have h2 : (n : ℚ) * b + mh ≤ (α + 3 / 40) * Z := by linarith
    have h3 : (α + 3 / 40) * (β - 1 / 1000000) ≤ (e - α) * (α - 1 / 1000000) := by
      rcases hf with ⟨-, rfl⟩ | ⟨hnm', -, rfl⟩
      · rw [show β = 1 - α by linarith]; nlinarith
      · have : α = β := by rw [hα, hβ, hnm']
        have : α = 1 / 2 := by linarith
        rw [show β = 1 / 2 by linarith, this]; norm_num
    have h4 : ((n : ℚ) * b + mh) * (β - 1 / 1000000) ≤ c * (X * (α - 1 / 1000000)) * (β - 1 / 1000000) := by
      rw [e1]
      calc ((n : ℚ) * b + mh) * (β - 1 / 1000000) ≤ (α + 3 / 40) * Z * (β - 1 / 1000000) :=
            mul_le_mul_of_nonneg_right h2 hey.le
        _ = (α + 3 / 40) * (β - 1 / 1000000) * Z := by ring
        _ ≤ (e - α) * (α - 1 / 1000000) * Z := mul_le_mul_of_nonneg_right h3 hZ0.le
        _ = (e - α) * Z * (α - 1 / 1000000) := by ring
        _ ≤ T * (α - 1 / 1000000) := mul_le_mul_of_nonneg_right hTZ (by linarith)
    exact le_of_mul_le_mul_right h4 hey
  have hR : (m : ℚ) * b ≤ c * (X * (β - 1 / 1000000)) := by
    rw [hcT]
    have : β * Z ≤ (e - α) * Z := mul_le_mul_of_nonneg_right (by linarith) hZ0.le
    linarith
  have hR' : (X : ℚ) + mh ≤ c * (X * (β - 1 / 1000000)) + n * a := by
    rw [hcT, hT]
    have : 43 / 40 * (Z : ℚ) ≤ e * Z := mul_le_mul_of_nonneg_right he.1 hZ0.le
    linarith
  have key := h.equal hwf hnl hn hn0 ha hab hb hk hbt (by omega) hW' hXd (M := 3 * b / 40) (fun v hv => by
      have := hM v hv; omega) hmh hc1 (le_refl _) (le_refl _) (by linarith) (by linarith) hL hR hR'
  rw [← hα, ← hβ] at key
  -- the rounding of shares and loads
  have hTe : T ≤ e * Z := by rw [hT]; linarith
  have hround : ∀ w : ℚ, 0 ≤ w → w ≤ β → (c + 2 * eps) * (X * (w + 1 / 1000000)) ≤ T * w / β + 7 / 1000000 * (e * Z) + 1 / 1000000 * Z :=
    fun w h1 h2 => round_le (by linarith) (by linarith) hX0 hZx hT0 hTe hcX h1 h2
  have hfe : e * Z + 7 / 1000000 * (e * Z) + 1 / 1000000 * Z ≤ f * Z := by
    rcases hf with ⟨rfl, rfl⟩ | ⟨-, rfl, rfl⟩ <;> linarith
  constructor
  · refine le_trans key.2.1 (le_trans (hround α (by linarith) (by linarith)) ?_)
    have h1 : T * α / β ≤ e * Z - m * a := by
      rw [div_le_iff₀ (by linarith)]
      have h2 : (T * α - (e * Z - m * a) * β) * ((n : ℚ) + m) =
          (m - n) * ((n + m) * a - e * Z) := by
        rw [sub_mul, mul_assoc, hαN, mul_assoc, hβN, hT]; ring
      have h3 : (m - n : ℚ) * ((n + m) * a - e * Z) ≤ 0 := by
        refine mul_nonpos_of_nonneg_of_nonpos (by linarith) ?_
        have : 43 / 40 * (Z : ℚ) ≤ e * Z := mul_le_mul_of_nonneg_right he.1 hZ0.le
        linarith
      have h4 : T * α - (e * Z - m * a) * β ≤ 0 := by
        by_contra hcon
        have := mul_pos (not_le.mp hcon) hN
        linarith
      linarith
    linarith
  · refine le_trans key.2.2 (le_trans (hround β (by linarith) le_rfl) ?_)
    have h1 : T * β / β = T := mul_div_cancel_right₀ _ (by linarith)
    rw [h1, hT]
    linarith

/-- What a run for `k` equal parts is about, kept by the runs below it. -/
structure KWay (a b : Nat) (k : Nat) (g : Graph) : Prop where
  wf : g.WF
  noLoop : g.NoLoop
  pos : 0 < a
  le : a ≤ b
  fits : k * a < 4294967296
  room : (k - k / 2) * b < 4294967296
  weight : g.sumVtx < 4294967295
  light : ∀ v, v < g.nv → 40 * g.vw v ≤ 3 * b

theorem KWay.side {a b k n : Nat} {g s : Graph} {lab : Nat → Nat} {p : Nat} (h : KWay a b k g) (hi : IsInduced g lab p s)
    (hn : n ≤ k - k / 2) : KWay a b n s where
  wf := hi.valid
  noLoop := hi.noLoop h.noLoop
  pos := h.pos
  le := h.le
  fits := lt_of_le_of_lt (Nat.mul_le_mul_right _ (by omega)) h.fits
  room := lt_of_le_of_lt (Nat.mul_le_mul_right _ (by omega)) h.room
  weight := by rw [hi.sumVtx]; exact lt_of_le_of_lt (partWeight_le _ _) h.weight
  light := fun v hv => by
    rw [hi.vw v hv]
    refine h.light _ (mem_vertsOf.mp (nth_mem ?_)).1
    rw [← hi.nv]; exact hv

/-- The weight of a part of a run for `k ≤ 2 ^ d` equal parts. -/
theorem LooseRun.part_le [Concrete.Log2Impl] {s : Scheme} {a b : Nat} {f γ : ℚ} {P : Nat → Prop}
    (hP : ∀ k, P k → 2 ≤ k → P (k / 2) ∧ P (k - k / 2) ∧
      ∃ e, (f = 29 / 25 ∧ e = (144 / 125 : ℚ)) ∨ (k / 2 = k - k / 2 ∧ f = 27 / 25 ∧ e = 43 / 40))
    (hγ : 0 ≤ γ ∧ γ ≤ 1) (hf : 1 ≤ f)
    (hstep : ∀ k n, P k → 2 ≤ k → (n = k / 2 ∨ n = k - k / 2) → f * γ * k ≤ k - (1 - γ) * n) :
    ∀ d k, k ≤ 2 ^ d → P k → ∀ {g : Graph} {r : rng.S} {lab : Nat → Nat} {r' : rng.S},
      LooseRun pq set rng s (List.replicate k a) (List.replicate k b) g r lab r' → KWay a b k g →
      ∀ {Z : Nat}, g.sumVtx ≤ Z → k * b ≤ Z → ∀ q, (partWeight g lab q : ℚ) ≤ γ * a + f ^ d * (Z - γ * (k * a)) := by
  intro d
  induction d with
  | zero =>
    intro k hk _ g r lab r' h hK Z hZ hZ' q
    have hone : (List.replicate k a).length = 1 := by
      cases h with
      | leaf h1 => exact h1
      | node h1 => rw [List.length_replicate] at h1; simp at hk; omega
    have hk1 : k = 1 := by simpa using hone
    have h1 : (partWeight g lab q : ℚ) ≤ Z := by exact_mod_cast le_trans (partWeight_le _ _) hZ
    rw [hk1]
    push_cast
    linarith
  | succ d ih =>
    intro k hk hPk g r lab r' h hK Z hZ hZ' q
    have hab : (a : ℚ) ≤ b := by exact_mod_cast hK.le
    have ha0 : (0 : ℚ) ≤ a := Nat.cast_nonneg a
    have hZq : (k : ℚ) * b ≤ Z := by exact_mod_cast hZ'
    have hka : (k : ℚ) * a ≤ k * b := mul_le_mul_of_nonneg_left hab (Nat.cast_nonneg k)
    have hka0 : (0 : ℚ) ≤ k * a := by positivity
    have hfd : 1 ≤ f ^ d := one_le_pow₀ hf
    cases h with
    | leaf h1 h2 h3 =>
      have h4 : (partWeight g lab q : ℚ) ≤ Z := by exact_mod_cast le_trans (partWeight_le _ _) hZ
      have hk1 : k = 1 := by simpa using h1
      have hfd' : 1 ≤ f ^ (d + 1) := one_le_pow₀ hf
      have h5 : 0 ≤ (Z : ℚ) - γ * (k * a) := by
        have : γ * (k * a) ≤ 1 * (k * a) := mul_le_mul_of_nonneg_right hγ.2 hka0
        linarith
      have h6 : 1 * ((Z : ℚ) - γ * (k * a)) ≤ f ^ (d + 1) * (Z - γ * (k * a)) := mul_le_mul_of_nonneg_right hfd' h5
      rw [hk1] at h6 ⊢
      push_cast at h6 ⊢
      linarith
    | @node _ _ _ _ bt side sL sR labL labR _ r1 r2 _ hk2 hm hbt hR hp hL hRt runL runR labelsL labelsR =>
      rw [List.length_replicate] at hk2
      obtain ⟨p1, p2, e, he⟩ := hP k hPk hk2
      obtain ⟨n, m, hn, hm⟩ : ∃ n m, n = k / 2 ∧ m = k - k / 2 := ⟨_, _, rfl, rfl⟩
      have hkn : n + m = k := by omega
      rw [← hm] at he p2
      rw [← hn] at he p1
      have hnmq : (k : ℚ) = n + m := by rw [← hkn]; push_cast; rfl
      obtain ⟨hl, hr⟩ := hR.step hK.wf hK.noLoop (n := n) (m := m) (a := a) (b := b) (by omega) (by omega) hK.pos hK.le (by rw [hm]; exact hK.room)
        (by rw [hkn]; exact hK.fits) (by rw [hkn]; exact hbt) hK.weight hK.light hZ (by rw [hkn]; exact hZ') he
      have hlt := runL.lt
      simp only [List.length_replicate, List.take_replicate, List.drop_replicate] at runL runR labelsR hlt
      rw [Nat.min_eq_left (Nat.div_le_self k 2), ← hn] at runL hlt
      rw [← hm] at runR
      rw [← hn] at labelsR
      -- a side with `x` parts out of `k`, the other with `y`
      have side : ∀ {t : Graph} {x y : Nat} {lt : Nat → Nat} {w w' : rng.S} {p : Nat}, IsInduced g side p t → P x → x + y = k →
          (x = k / 2 ∨ x = k - k / 2) → (partWeight g side p : ℚ) ≤ f * Z - y * a →
          LooseRun pq set rng s (List.replicate x a) (List.replicate x b) t w lt w' → ∀ q,
          (partWeight t lt q : ℚ) ≤ γ * a + f ^ (d + 1) * (Z - γ * (k * a)) := by
        intro t x y lt w w' p hind hPx hxy hx hle run q
        have hxyq : (k : ℚ) = x + y := by rw [← hxy]; push_cast; rfl
        have hxa : (x : ℚ) * a ≤ x * b := mul_le_mul_of_nonneg_left hab (Nat.cast_nonneg x)
        have hya : (y : ℚ) * a ≤ y * b := mul_le_mul_of_nonneg_left hab (Nat.cast_nonneg y)
        obtain ⟨Y, hY1, hY2, hY⟩ : ∃ Y : Nat, t.sumVtx ≤ Y ∧ x * b ≤ Y ∧ (Y : ℚ) ≤ f * Z - y * a := by
          refine ⟨max t.sumVtx (x * b), le_max_left _ _, le_max_right _ _, ?_⟩
          rcases le_total t.sumVtx (x * b) with h | h
          · rw [max_eq_right h]
            have : 1 * (Z : ℚ) ≤ f * Z := mul_le_mul_of_nonneg_right hf (Nat.cast_nonneg Z)
            rw [hxyq, add_mul] at hZq
            push_cast
            linarith
          · rw [max_eq_left h, hind.sumVtx]; exact hle
        have hx2 : x ≤ 2 ^ d := by
          have : 2 ^ (d + 1) = 2 * 2 ^ d := by ring
          omega
        have h1 := ih x hx2 hPx run (hK.side hind (by omega)) hY1 hY2 q
        refine le_trans h1 ?_
        have h2 : (Y : ℚ) - γ * (x * a) ≤ f * (Z - γ * (k * a)) := by
          have := mul_le_mul_of_nonneg_right (hstep k x hPk hk2 hx) ha0
          rw [show (k : ℚ) - (1 - γ) * x = y + γ * x by rw [hxyq]; ring] at this
          have e1 : f * γ * k * a = f * (γ * (k * a)) := by ring
          have e2 : ((y : ℚ) + γ * x) * a = y * a + γ * (x * a) := by ring
          rw [e1, e2] at this
          rw [mul_sub]
          linarith
        have h3 : f ^ d * ((Y : ℚ) - γ * (x * a)) ≤ f ^ d * (f * (Z - γ * (k * a))) :=
          mul_le_mul_of_nonneg_left h2 (by linarith)
        rw [pow_succ, mul_assoc]
        linarith
      rw [partWeight_sides hp hL hRt (m := n) (fun i hi => by simpa using hlt i hi) labelsL labelsR]
      split
      · exact side hL p1 (y := m) hkn (Or.inl hn) hl runL q
      · exact side hRt p2 (y := n) (by omega) (Or.inr hm) hr runR _

/-- `a` and `b` are target and maximum weight of each of `k` equal parts of a total of `W`, up to rounding. -/
theorem equalShares [Concrete.Log2Impl] {k W : Nat} (hk : 2 ≤ k) (hk' : k < 4294967296) (hW : W < 4294967296) {t : Target Concrete.fp}
    (h : Target.uniform (fp := Concrete.fp) k W (Concrete.fp.lit 3 2) = ok t) :
    ∃ a b, t.tw = List.replicate k a ∧ t.mx = List.replicate k b ∧ a ≤ b ∧ (k : ℚ) * a ≤ W + k * (1 / 100000) ∧
      (W : ℚ) ≤ k * a + k + k * (1 / 100000) ∧ (k : ℚ) * b ≤ 103 / 100 * W + k * (1 / 131072) ∧
      103 / 100 * (W : ℚ) ≤ k * b + k + k * (1 / 100000) := by
  obtain ⟨f, a, b, hu, hab, h1, h2, h3, h4⟩ := uniform_bounds (k := k) (tot := W) hk hk' hW
  rw [hu] at h
  cases h
  have hk0 : (0 : ℚ) < k := by exact_mod_cast (show 0 < k by omega)
  have e : (k : ℚ) * (1 / k * W) = W := by field_simp
  refine ⟨a, b, rfl, rfl, hab, ?_, ?_, ?_, ?_⟩
  · have := mul_le_mul_of_nonneg_left h1 hk0.le
    rw [mul_add, e] at this
    linarith
  · have := mul_le_mul_of_nonneg_left h2.le hk0.le
    rw [mul_add, mul_add, e] at this
    linarith
  · have := mul_le_mul_of_nonneg_left h3 hk0.le
    rw [mul_add, mul_left_comm, e] at this
    linarith
  · have := mul_le_mul_of_nonneg_left h4.le hk0.le
    rw [mul_add, mul_add, mul_left_comm, e] at this
    linarith

/-- The two bounds of C85 at once. -/
theorem LooseCall.part_weight_le [Concrete.Log2Impl] {i : Input} {out' : Out} {g : Graph} {s : Scheme} {tw mx : List Nat}
    {lab : Nat → Nat} {r r' : rng.S} (hcall : LooseCall pq set rng i out' g s tw mx lab r r') (hk : 2 ≤ i.numPartitions)
    (hW : 34 * i.numPartitions ≤ i.totalWeight) (hW' : i.totalWeight + i.numPartitions < 4294967296)
    (hlight : ∀ v, v < i.numVertices → 40 * (i.numPartitions * weightAt i.vertexWeights v) ≤ 3 * i.totalWeight)
    {f γ μ : ℚ} {P : Nat → Prop}
    (hP : ∀ k, P k → 2 ≤ k → P (k / 2) ∧ P (k - k / 2) ∧
      ∃ e, (f = 29 / 25 ∧ e = (144 / 125 : ℚ)) ∨ (k / 2 = k - k / 2 ∧ f = 27 / 25 ∧ e = 43 / 40))
    (hγ : 0 ≤ γ ∧ γ ≤ 99 / 100) (hf : 1 ≤ f) (hμ : 103 / 100 - γ ≤ μ)
    (hstep : ∀ k n, P k → 2 ≤ k → (n = k / 2 ∨ n = k - k / 2) → f * γ * k ≤ k - (1 - γ) * n)
    {d : Nat} (hd : i.numPartitions ≤ 2 ^ d) (hPk : P i.numPartitions) (q : Nat) :
    (i.partWeight (nth out'.asg) q : ℚ) ≤
      i.totalWeight / i.numPartitions + f ^ d * (μ * i.totalWeight + i.numPartitions) := by
  have hsum := hcall.graph.sumVtx
  have hrun := hcall.run
  obtain ⟨t, a0, b0, hu, -⟩ := uniform_bounds (k := i.numPartitions) (tot := i.totalWeight) hk (by omega) (by omega)
  obtain ⟨a, b, e1, e2, hab, h1, h2, h3, h4⟩ := equalShares hk (by omega) (by omega) hu
  have hes := evenShares hu
  have htw : tw = List.replicate i.numPartitions a := by
    refine List.ext_getElem (by rw [hcall.shares.len.1]; simp) fun q h1 h2 => ?_
    have hq : q < i.numPartitions := by simpa using h2
    have := toU32_inj (hcall.shares.target q hq) (hes.target q hq)
    rw [e1, nth_replicate hq, nth_eq_getElem h1] at this
    rw [this]; simp
  have hmx : mx = List.replicate i.numPartitions b := by
    refine List.ext_getElem (by rw [hcall.shares.len.2]; simp) fun q h1 h2 => ?_
    have hq : q < i.numPartitions := by simpa using h2
    have := toU32_inj (hcall.shares.limit q hq) (hes.limit q hq)
    rw [e2, nth_replicate hq, nth_eq_getElem h1] at this
    rw [this]; simp
  subst htw hmx
  clear e1 e2 hu hes
  generalize hkk : i.numPartitions = k at *
  generalize hWW : i.totalWeight = W at *
  have hkq : (2 : ℚ) ≤ k := by exact_mod_cast hk
  have hWq : 34 * (k : ℚ) ≤ W := by exact_mod_cast hW
  have hWq' : (W : ℚ) + k < 4294967296 := by exact_mod_cast hW'
  have habq : (a : ℚ) ≤ b := by exact_mod_cast hab
  have hbk : (W : ℚ) ≤ k * b := by linarith
  have hK : KWay a b k g := by
    refine ⟨hcall.wf, hcall.noLoop, ?_, hab, ?_, ?_, by omega, fun v hv => ?_⟩
    · by_contra hz
      rw [show a = 0 by omega] at h2
      push_cast at h2
      linarith
    · have : ((k * a : Nat) : ℚ) < ((4294967296 : Nat) : ℚ) := by push_cast; linarith
      exact_mod_cast this
    · have hm : (((k - k / 2 : Nat)) : ℚ) ≤ 2 / 3 * k := by
        have : ((3 * (k - k / 2) : Nat) : ℚ) ≤ ((2 * k : Nat) : ℚ) := by exact_mod_cast (show 3 * (k - k / 2) ≤ 2 * k by omega)
        push_cast at this
        linarith
      have h5 : (((k - k / 2 : Nat)) : ℚ) * b ≤ 2 / 3 * k * b := mul_le_mul_of_nonneg_right hm (Nat.cast_nonneg b)
      have : (((k - k / 2) * b : Nat) : ℚ) < ((4294967296 : Nat) : ℚ) := by
        rw [Nat.cast_mul]
        refine lt_of_le_of_lt h5 ?_
        rw [mul_assoc]
        push_cast
        linarith
      exact_mod_cast this
    · rw [hcall.graph.nv] at hv
      rw [hcall.graph.vw v hv]
      have h5 := hlight v hv
      have h6 : 3 * W ≤ k * (3 * b) := by
        have : ((3 * W : Nat) : ℚ) ≤ ((k * (3 * b) : Nat) : ℚ) := by push_cast; linarith
        exact_mod_cast this
      have h7 : k * (40 * weightAt i.vertexWeights v) ≤ k * (3 * b) := by linarith
      exact Nat.le_of_mul_le_mul_left h7 (by omega)
  obtain ⟨Z, z1, z2, z3⟩ : ∃ Z : Nat, g.sumVtx ≤ Z ∧ k * b ≤ Z ∧ (Z : ℚ) ≤ 103 / 100 * W + k * (1 / 131072) := by
    refine ⟨max W (k * b), by omega, by omega, ?_⟩
    rcases le_total W (k * b) with h | h
    · rw [max_eq_right h]; push_cast; exact h3
    · rw [max_eq_left h]; linarith
  have key := hrun.part_le hP ⟨hγ.1, by linarith⟩ hf hstep d k hd hPk hK z1 z2 q
  rw [hcall.graph.partWeight (fun v hv => hcall.labels v hv) q]
  refine le_trans key ?_
  have hk0 : (0 : ℚ) < k := by linarith
  have l1 : γ * a ≤ W / k := by
    rw [le_div_iff₀ hk0]
    have h5 : γ * (k * a) ≤ 99 / 100 * (k * a) := mul_le_mul_of_nonneg_right hγ.2 (by positivity)
    linarith
  have l2 : (Z : ℚ) - γ * (k * a) ≤ μ * W + k := by
    have h5 : γ * (W - k - k * (1 / 100000)) ≤ γ * (k * a) := mul_le_mul_of_nonneg_left (by linarith) hγ.1
    have h6 : (103 / 100 - γ) * W ≤ μ * W := mul_le_mul_of_nonneg_right hμ (Nat.cast_nonneg W)
    have h7 : γ * (k + k * (1 / 100000)) ≤ 99 / 100 * (k + k * (1 / 100000)) := mul_le_mul_of_nonneg_right hγ.2 (by linarith)
    linarith
  have l3 : f ^ d * ((Z : ℚ) - γ * (k * a)) ≤ f ^ d * (μ * W + k) :=
    mul_le_mul_of_nonneg_left l2 (by positivity)
  linarith

/-- C85 for whatever is known of the labels. -/
theorem LooseCall.power_of_two [Concrete.Log2Impl] {i : Input} {out' : Out} {g : Graph} {s : Scheme} {tw mx : List Nat}
    {lab : Nat → Nat} {r r' : rng.S} (hcall : LooseCall pq set rng i out' g s tw mx lab r r') {d : Nat} (hd : 1 ≤ d) (hk : i.numPartitions = 2 ^ d)
    (hW : 34 * i.numPartitions ≤ i.totalWeight) (hW' : i.totalWeight + i.numPartitions < 2 ^ 32)
    (hlight : ∀ v, v < i.numVertices → 40 * (i.numPartitions * weightAt i.vertexWeights v) ≤ 3 * i.totalWeight) :
    ∀ q, (i.partWeight (nth out'.asg) q : ℚ) ≤ (i.totalWeight : ℚ) / i.numPartitions +
      (108 / 100) ^ d * (17 / 100 * i.totalWeight + i.numPartitions) := by
  intro q
  have h2 : 2 ≤ i.numPartitions := by
    rw [hk]
    exact le_trans (show 2 ≤ 2 ^ 1 by decide) (Nat.pow_le_pow_right (by decide) hd)
  have := hcall.part_weight_le h2 hW (by simpa using hW') hlight (f := 27 / 25) (γ := 25 / 29) (μ := 17 / 100)
    (P := fun k => ∃ j, k = 2 ^ j) (by
      rintro k ⟨j, rfl⟩ h2
      cases j with
      | zero => simp at h2
      | succ j =>
        have e1 : 2 ^ (j + 1) / 2 = 2 ^ j := by rw [pow_succ]; omega
        have e2 : 2 ^ (j + 1) - 2 ^ j = 2 ^ j := by rw [pow_succ]; omega
        rw [e1, e2]
        exact ⟨⟨j, rfl⟩, ⟨j, rfl⟩, _, Or.inr ⟨rfl, rfl, rfl⟩⟩)
    (by norm_num) (by norm_num) (by norm_num) (by
      rintro k n ⟨j, rfl⟩ h2 hn
      have : 2 * n = 2 ^ j := by
        cases j with
        | zero => simp at h2
        | succ j =>
          have e1 : 2 ^ (j + 1) / 2 = 2 ^ j := by rw [pow_succ]; omega
          rw [e1] at hn
          rw [pow_succ] at hn ⊢
          omega
      have : 2 * (n : ℚ) = ((2 ^ j : Nat) : ℚ) := by exact_mod_cast this
      rw [← this]
      linarith) hk.le ⟨d, hk⟩ q
  rw [show (108 / 100 : ℚ) = 27 / 25 by norm_num]
  exact this

/-- C85 for whatever is known of the labels. -/
theorem LooseCall.any_number [Concrete.Log2Impl] {i : Input} {out' : Out} {g : Graph} {s : Scheme} {tw mx : List Nat}
    {lab : Nat → Nat} {r r' : rng.S} (hcall : LooseCall pq set rng i out' g s tw mx lab r r') {d : Nat} (hk : 2 ≤ i.numPartitions) (hd : i.numPartitions ≤ 2 ^ d)
    (hW : 34 * i.numPartitions ≤ i.totalWeight) (hW' : i.totalWeight + i.numPartitions < 2 ^ 32)
    (hlight : ∀ v, v < i.numVertices → 40 * (i.numPartitions * weightAt i.vertexWeights v) ≤ 3 * i.totalWeight) :
    ∀ q, (i.partWeight (nth out'.asg) q : ℚ) ≤ (i.totalWeight : ℚ) / i.numPartitions +
      (116 / 100) ^ d * (37 / 100 * i.totalWeight + i.numPartitions) := by
  intro q
  have := hcall.part_weight_le hk hW (by simpa using hW') hlight (f := 29 / 25) (γ := 2 / 3) (μ := 37 / 100)
    (P := fun _ => True) (fun k _ _ => ⟨trivial, trivial, _, Or.inl ⟨rfl, rfl⟩⟩)
    (by norm_num) (by norm_num) (by norm_num) (by
      rintro k n - h2 hn
      have : 3 * n ≤ 2 * k := by omega
      have : 3 * (n : ℚ) ≤ 2 * k := by exact_mod_cast this
      have : (0 : ℚ) ≤ k := Nat.cast_nonneg k
      linarith) hd trivial q
  rw [show (116 / 100 : ℚ) = 29 / 25 by norm_num]
  exact this

/-- **C85.** However a successful call for `2 ^ d` parts went, no part is heavier than `W/k + 1.08^d (0.17 W + k)`, if the
total weight `W` is at least `34 k` and no vertex is heavier than 7.5 per cent of an equal share. -/
theorem C85_power_of_two [Concrete.Log2Impl] {i : Input} (hv : i.Valid) {d : Nat} (hd : 1 ≤ d) (hk : i.numPartitions = 2 ^ d)
    {o : Options Concrete.fp} (hc : 0 < o.numGlobalCuts) {out out' : Out}
    (h : partGraphRecursive (dblEnv pq set rng) i (some o) out = (out', ok 1))
    (hW : 34 * i.numPartitions ≤ i.totalWeight) (hW' : i.totalWeight + i.numPartitions < 2 ^ 32)
    (hlight : ∀ v, v < i.numVertices → 40 * (i.numPartitions * weightAt i.vertexWeights v) ≤ 3 * i.totalWeight) :
    ∀ q, (i.partWeight (nth out'.asg) q : ℚ) ≤ (i.totalWeight : ℚ) / i.numPartitions +
      (108 / 100) ^ d * (17 / 100 * i.totalWeight + i.numPartitions) := by
  have h2 : 2 ≤ i.numPartitions := by
    rw [hk]
    exact le_trans (show 2 ≤ 2 ^ 1 by decide) (Nat.pow_le_pow_right (by decide) hd)
  obtain ⟨g, s, tw, mx, labs, j, hcall⟩ := C75_call (pq := pq) (set := set) (rng := rng) hv h2 (by omega) hc h
  obtain ⟨r, r', hl⟩ := hcall.loose
  exact hl.power_of_two hd hk hW hW' hlight

/-- **C85.** However a successful call for at least two and at most `2 ^ d` parts went, no part is heavier than
`W/k + 1.16^d (0.37 W + k)`, if the total weight `W` is at least `34 k` and no vertex is heavier than 7.5 per cent of an
equal share. -/
theorem C85_any_number [Concrete.Log2Impl] {i : Input} (hv : i.Valid) {d : Nat} (hk : 2 ≤ i.numPartitions) (hd : i.numPartitions ≤ 2 ^ d)
    {o : Options Concrete.fp} (hc : 0 < o.numGlobalCuts) {out out' : Out}
    (h : partGraphRecursive (dblEnv pq set rng) i (some o) out = (out', ok 1))
    (hW : 34 * i.numPartitions ≤ i.totalWeight) (hW' : i.totalWeight + i.numPartitions < 2 ^ 32)
    (hlight : ∀ v, v < i.numVertices → 40 * (i.numPartitions * weightAt i.vertexWeights v) ≤ 3 * i.totalWeight) :
    ∀ q, (i.partWeight (nth out'.asg) q : ℚ) ≤ (i.totalWeight : ℚ) / i.numPartitions +
      (116 / 100) ^ d * (37 / 100 * i.totalWeight + i.numPartitions) := by
  obtain ⟨g, s, tw, mx, labs, j, hcall⟩ := C75_call (pq := pq) (set := set) (rng := rng) hv hk (by omega) hc h
  obtain ⟨r, r', hl⟩ := hcall.loose
  exact hl.any_number hk hd hW hW' hlight

/-- A ring of sixty vertices of weight 50. -/
def ring60 (k : Nat) : Input :=
  { numVertices := 60, edgePrefix := (List.range 61).map (2 * ·),
    edgeList := (List.range 60).flatMap fun v => [(v + 59) % 60, (v + 1) % 60],
    vertexWeights := some (List.replicate 60 50), edgeWeights := none, numPartitions := k }

theorem ring60_valid : (ring60 4).Valid :=
  Ex.valid_of (by constructor <;> decide +kernel) (by decide +kernel) (by decide +kernel) (by decide +kernel)
    (by decide +kernel)

/-- The hypotheses are met by a call for four parts of a ring of sixty vertices, which succeeds by C80; the bound is then
less than half of the total weight, 3000. -/
example : (∃ out', partGraphRecursive Concrete.env (ring60 4) (some (defaultOptions Concrete.fp))
      { cut := 0, asg := List.replicate 60 0 } = (out', ok 1) ∧
      ∀ q, 2 * (ring60 4).partWeight (nth out'.asg) q < (ring60 4).totalWeight) ∧
    (ring60 4).Valid ∧ (ring60 4).numPartitions = 2 ^ 2 ∧ 0 < (defaultOptions Concrete.fp).numGlobalCuts ∧
    34 * (ring60 4).numPartitions ≤ (ring60 4).totalWeight ∧ (ring60 4).totalWeight + (ring60 4).numPartitions < 2 ^ 32 ∧
    (∀ v, v < (ring60 4).numVertices →
      40 * ((ring60 4).numPartitions * weightAt (ring60 4).vertexWeights v) ≤ 3 * (ring60 4).totalWeight) := by
  have h := C80_up_to_eight Concrete.env.pq Concrete.env.set Concrete.env.rng ring60_valid (by decide) (by decide) rfl
    (by decide +kernel) (by decide +kernel) (by decide +kernel) (by decide +kernel) (o := defaultOptions Concrete.fp)
    (Or.inr rfl) (out := { cut := 0, asg := List.replicate 60 0 }) (by decide)
  have hW : (ring60 4).totalWeight = 3000 := by decide +kernel
  have c1 : 34 * (ring60 4).numPartitions ≤ (ring60 4).totalWeight := by rw [hW]; decide
  have c2 : (ring60 4).totalWeight + (ring60 4).numPartitions < 2 ^ 32 := by rw [hW]; decide
  have c3 : ∀ v, v < (ring60 4).numVertices →
      40 * ((ring60 4).numPartitions * weightAt (ring60 4).vertexWeights v) ≤ 3 * (ring60 4).totalWeight := by
    rw [hW]; decide +kernel
  refine ⟨?_, ring60_valid, rfl, by decide, c1, c2, c3⟩
  have h' : (partGraphRecursive Concrete.env (ring60 4) (some (defaultOptions Concrete.fp))
      { cut := 0, asg := List.replicate 60 0 }).2 = ok 1 := h
  have hb : ∀ {out' : Out}, partGraphRecursive Concrete.env (ring60 4) (some (defaultOptions Concrete.fp))
      { cut := 0, asg := List.replicate 60 0 } = (out', ok 1) →
      ∀ q, 2 * (ring60 4).partWeight (nth out'.asg) q < (ring60 4).totalWeight := by
    intro out' ho q
    have := C85_power_of_two ring60_valid (d := 2) (by decide) rfl (by decide) ho c1 c2 c3 q
    rw [hW, show (ring60 4).numPartitions = 4 from rfl] at this
    rw [hW]
    have h2 : 2 * ((ring60 4).partWeight (nth out'.asg) q : ℚ) < 3000 := by
      refine lt_of_le_of_lt (mul_le_mul_of_nonneg_left this (by norm_num)) ?_
      norm_num
    exact_mod_cast h2
  generalize partGraphRecursive Concrete.env (ring60 4) (some (defaultOptions Concrete.fp))
      { cut := 0, asg := List.replicate 60 0 } = r at h' hb
  obtain ⟨out', x⟩ := r
  subst h'
  exact ⟨out', rfl, hb rfl⟩

end Poros
