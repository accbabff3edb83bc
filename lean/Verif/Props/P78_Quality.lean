import Verif.Proofs.F64Imbalance
import Verif.Props.P75_Call
/-
C78: a bound on the imbalance of the results of calls for two parts.
-/
namespace Poros
open Finset Res Concrete

variable {pq : PQImpl} {set : SetImpl} {rng : RngImpl}

theorem toU32_inj [Concrete.Log2Impl] {x : Concrete.fp.F} {m n : Nat} (h : Concrete.fp.toU32 x = some m) (h' : Concrete.fp.toU32 x = some n) :
    m = n := by rw [h] at h'; exact Option.some.inj h'

/-- Half of a total in doubles, truncated. -/
theorem half_exact [Concrete.Log2Impl] {W : Nat} (hW : W < 4294967296) :
    Concrete.fp.toU32 (Concrete.fp.mul (Concrete.fp.div (Concrete.fp.lit 1 0) (Concrete.fp.ofNat 2)) (Concrete.fp.ofNat W))
      = some (W / 2) := by
  have h1 : Concrete.fp.div (Concrete.fp.lit 1 0) (Concrete.fp.ofNat 2) = F64.fin (1 / 2) := by
    rw [lit_one, show Concrete.fp.ofNat 2 = F64.fin (2 : ℚ) from by
      show rnd ((2 : Nat) : ℚ) = F64.fin 2
      decide +kernel]
    show F64.div (F64.fin 1) (F64.fin 2) = F64.fin (1 / 2)
    decide +kernel
  rw [h1, ofNat_exact (lt_trans hW (by norm_num)), mul_fin]
  have hd := Nat.div_add_mod W 2
  have hm : W % 2 < 2 := Nat.mod_lt _ (by decide)
  have e : (1 / 2 * (W : ℚ)) = (W / 2 : Nat) + ((W % 2 : Nat) : ℚ) / 2 := by
    have : (W : ℚ) = 2 * ((W / 2 : Nat) : ℚ) + ((W % 2 : Nat) : ℚ) := by exact_mod_cast hd.symm
    rw [this]; ring
  have hm' : ((W % 2 : Nat) : ℚ) ≤ 1 := by exact_mod_cast (show W % 2 ≤ 1 by omega)
  have hm0 : (0 : ℚ) ≤ ((W % 2 : Nat) : ℚ) := Nat.cast_nonneg _
  have hl : ((W / 2 : Nat) : ℚ) ≤ 1 / 2 * (W : ℚ) := by rw [e]; linarith
  have hr : 1 / 2 * (W : ℚ) ≤ ((W / 2 : Nat) : ℚ) + 255 / 256 := by rw [e]; linarith
  obtain ⟨r, hr1, hr2⟩ := trunc_rnd (k := W / 2) (q := 1 / 2 * (W : ℚ)) (by omega) hl hr
  rw [hr1]
  exact hr2

/-- The limits of a call for two parts. -/
theorem even_two [Concrete.Log2Impl] {W : Nat} (hW : W < 4294967296) {tw mx : List Nat} (h : EvenShares Concrete.fp 2 W tw mx) :
    ∃ b, tw = [W / 2, W / 2] ∧ mx = [b, b] ∧ W / 2 ≤ b ∧ (b : ℚ) ≤ 103 / 200 * W + 1 / 100000 ∧
      103 / 200 * (W : ℚ) < (b : ℚ) + 1 + 1 / 100000 := by
  obtain ⟨f, a, b, hu, hab, h1, h2, h3, h4⟩ := uniform_bounds (k := 2) (tot := W) (by decide) (by decide) hW
  have he := evenShares hu
  have ha : ∀ q, q < 2 → nth tw q = W / 2 := fun q hq => toU32_inj (h.target q hq) (half_exact hW)
  have ha' : a = W / 2 := by
    have := toU32_inj (he.target 0 (by decide)) (half_exact hW)
    simpa [nth, List.replicate] using this
  have hb : ∀ q, q < 2 → nth mx q = b := fun q hq => by
    rw [toU32_inj (h.limit q hq) (he.limit q hq)]
    exact nth_replicate hq
  refine ⟨b, ?_, ?_, ha' ▸ hab, by push_cast at h3; linarith, by push_cast at h4; linarith⟩
  · obtain ⟨x, y, rfl⟩ := List.length_eq_two.mp h.len.1
    rw [show x = W / 2 from ha 0 (by decide), show y = W / 2 from ha 1 (by decide)]
  · obtain ⟨x, y, rfl⟩ := List.length_eq_two.mp h.len.2
    rw [show x = b from hb 0 (by decide), show y = b from hb 1 (by decide)]

/-- The target of the bisection for two equal parts. -/
theorem halves_two_eq [Concrete.Log2Impl] {a b : Nat} (hab : a ≤ b) (hb : b < 4294967296) (ha : 2 * a < 4294967296) {bt : Target Concrete.fp}
    (h : IsHalvesTarget [a, a] [b, b] bt) : bt.tw = [a, a] ∧ bt.mx = [b, b] ∧ bt.frac = shares Concrete.fp [a, a] := by
  have h1 : nth bt.tw 0 = a := by
    rw [h.left, show [a, a].length / 2 = 1 from by simp]; exact Nat.mod_eq_of_lt (show a + 0 < 4294967296 by omega)
  have h2 : nth bt.tw 1 = a := by
    rw [h.right, show [a, a].length / 2 = 1 from by simp]; exact Nat.mod_eq_of_lt (show a + 0 < 4294967296 by omega)
  have hm : halfMax Concrete.fp 2 [(a, b)] = some b := by
    obtain ⟨n, hn, -, -, e⟩ := recursiveOK.step 2 0 a (b - a) (le_refl _) (by decide) (by omega)
    have e := e rfl
    have hu : usub b a = b - a := usub_eq hab hb
    show (Concrete.fp.toU32 (Concrete.fp.add (Concrete.fp.ofNat 0) (Concrete.fp.add (Concrete.fp.ofNat a)
      (Concrete.fp.mul (Concrete.fp.ofNat (usub b a)) (shareOf Concrete.fp 2)))) >>= fun x => some x) = some b
    rw [hu, hn]
    show some n = some b
    rw [e]; congr 1; omega
  have h3 : nth bt.mx 0 = b := by
    have : halfMax Concrete.fp 2 [(a, b)] = some (nth bt.mx 0) := by
      have := h.maxLeft
      rw [show [a, a].length / 2 = 1 from by simp] at this
      exact this
    exact Option.some.inj (this.symm.trans hm)
  have h4 : nth bt.mx 1 = b := by
    have : halfMax Concrete.fp 2 [(a, b)] = some (nth bt.mx 1) := by
      have := h.maxRight
      rw [show [a, a].length / 2 = 1 from by simp] at this
      exact this
    exact Option.some.inj (this.symm.trans hm)
  have e1 : bt.tw = [a, a] := by
    obtain ⟨x, y, e⟩ := List.length_eq_two.mp h.two.tw
    rw [e] at h1 h2 ⊢
    rw [show x = a from h1, show y = a from h2]
  have e2 : bt.mx = [b, b] := by
    obtain ⟨x, y, e⟩ := List.length_eq_two.mp h.two.mx
    rw [e] at h3 h4 ⊢
    rw [show x = b from h3, show y = b from h4]
  exact ⟨e1, e2, by rw [h.frac, e1]⟩

/-- The fraction that a number is of a sum, in doubles. -/
theorem share_err [Concrete.Log2Impl] {a s : Nat} (hs : 0 < s) (hs' : s < 4294967296) (ha : a ≤ s) :
    ∃ q : ℚ, Concrete.fp.mul (Concrete.fp.ofNat a) (Concrete.fp.div (Concrete.fp.lit 1 0) (Concrete.fp.ofNat s)) = F64.fin q ∧
      0 ≤ q ∧ q ≤ a / s + 1 / 1000000 ∧ a / s ≤ q + 1 / 1000000 := by
  have hsq : (1 : ℚ) ≤ s := by exact_mod_cast hs
  have hsq' : (s : ℚ) ≤ 4294967296 := by exact_mod_cast hs'.le
  have haq : (a : ℚ) ≤ s := by exact_mod_cast ha
  have ha0 : (0 : ℚ) ≤ a := Nat.cast_nonneg a
  have hinv : 1 / (s : ℚ) ≤ 1 := (div_le_one (by linarith)).mpr hsq
  have hinv0 : 0 < 1 / (s : ℚ) := one_div_pos.mpr (by linarith)
  obtain ⟨r, r1, r2, r3, r4⟩ := near_err (q := 1 / s) hinv0.le (by linarith)
  have hdiv : (a : ℚ) / s = a * (1 / s) := by ring
  have hle1 : (a : ℚ) / s ≤ 1 := (div_le_one (by linarith)).mpr haq
  have p1 : (a : ℚ) * r ≤ a / s + 1 / 1048576 := by
    rw [hdiv]
    calc (a : ℚ) * r ≤ a * (1 / s + 1 / 4503599627370496) := mul_le_mul_of_nonneg_left r3 ha0
      _ = a * (1 / s) + a * (1 / 4503599627370496) := by ring
      _ ≤ a * (1 / s) + 4294967296 * (1 / 4503599627370496) := by
          have : (a : ℚ) * (1 / 4503599627370496) ≤ 4294967296 * (1 / 4503599627370496) :=
            mul_le_mul_of_nonneg_right (by linarith) (by norm_num)
          linarith
      _ = _ := by norm_num
  have p2 : (a : ℚ) / s ≤ a * r + 1 / 1048576 := by
    rw [hdiv]
    calc (a : ℚ) * (1 / s) ≤ a * (r + 1 / 4503599627370496) := mul_le_mul_of_nonneg_left r4 ha0
      _ = a * r + a * (1 / 4503599627370496) := by ring
      _ ≤ a * r + 4294967296 * (1 / 4503599627370496) := by
          have : (a : ℚ) * (1 / 4503599627370496) ≤ 4294967296 * (1 / 4503599627370496) :=
            mul_le_mul_of_nonneg_right (by linarith) (by norm_num)
          linarith
      _ = _ := by norm_num
  obtain ⟨q, q1, q2, q3, q4⟩ := near_err (q := a * r) (mul_nonneg ha0 r2) (by linarith)
  refine ⟨q, ?_, q2, by linarith, by linarith⟩
  rw [ofNat_exact (lt_trans hs' (by norm_num)), ofNat_exact (lt_of_le_of_lt ha (lt_trans hs' (by norm_num))), lit_one,
    div_fin _ (by linarith), r1, mul_fin, q1]

/-- Quotients of natural numbers in doubles are monotone. -/
theorem quotient_le [Concrete.Log2Impl] {x y m : Nat} (hx : y ≤ x) (hx' : x < 8589934592) (hm : m < 4294967296) (hx0 : 0 < y) :
    Concrete.fp.lt (Concrete.fp.div (Concrete.fp.ofNat x) (Concrete.fp.ofNat m))
      (Concrete.fp.div (Concrete.fp.ofNat y) (Concrete.fp.ofNat m)) = false := by
  have e1 : Concrete.fp.ofNat x = F64.fin x := ofNat_exact (lt_trans hx' (by norm_num))
  have e2 : Concrete.fp.ofNat y = F64.fin y := ofNat_exact (lt_trans (lt_of_le_of_lt hx hx') (by norm_num))
  have e3 : Concrete.fp.ofNat m = F64.fin m := ofNat_exact (lt_trans hm (by norm_num))
  have hxq : (y : ℚ) ≤ x := by exact_mod_cast hx
  have hy0 : (0 : ℚ) < y := by exact_mod_cast hx0
  rw [e1, e2, e3]
  rcases Nat.eq_zero_or_pos m with rfl | hm0
  · show F64.lt (F64.div (F64.fin x) (F64.fin ((0 : Nat) : ℚ))) (F64.div (F64.fin y) (F64.fin ((0 : Nat) : ℚ))) = false
    have : ∀ z : ℚ, 0 < z → F64.div (F64.fin z) (F64.fin ((0 : Nat) : ℚ)) = F64.inf false := by
      intro z hz
      show (if ((0 : Nat) : ℚ) = 0 then (if z = 0 then F64.nan else F64.inf (decide (z < 0))) else rnd (z / ((0 : Nat) : ℚ))) = _
      rw [if_pos (by simp), if_neg (ne_of_gt hz)]
      congr 1
      simpa using hz.le
    rw [this x (by linarith), this y hy0]
    rfl
  · have hmq : (1 : ℚ) ≤ m := by exact_mod_cast hm0
    have hxq' : (x : ℚ) < 8589934592 := by exact_mod_cast hx'
    have d1 : (x : ℚ) / m ≤ x := div_le_self (by linarith) hmq
    have d2 : (y : ℚ) / m ≤ x / m := div_le_div_of_nonneg_right hxq (by linarith)
    obtain ⟨r, r1, -⟩ := far_err (q := x / m) (div_nonneg (by linarith) (by linarith)) (by linarith)
    obtain ⟨s, s1, -⟩ := far_err (q := y / m) (div_nonneg (by linarith) (by linarith)) (by linarith)
    rw [div_fin _ (by linarith), div_fin _ (by linarith), r1, s1]
    have := rnd_mono (div_nonneg (by linarith) (by linarith)) d2 s1 r1
    show decide (r < s) = false
    simpa using this

/-- A multilevel bisection for two equal parts. -/
theorem LooseBis.two_parts [Concrete.Log2Impl] {s : Scheme} {g : Graph} {lab : Nat → Nat} {bt : Target Concrete.fp}
    (h : LooseBis (dblEnv pq set rng) s bt g lab) (hwf : g.WF) (hnl : g.NoLoop) {W M b : Nat} (hs : g.sumVtx = W) (hW : 2 ≤ W)
    (hW' : W < 4294967295) (hM : ∀ v, v < g.nv → g.vw v ≤ M) (hbt : IsHalvesTarget [W / 2, W / 2] [b, b] bt)
    (hab : W / 2 ≤ b) (hb1 : (b : ℚ) ≤ 103 / 200 * W + 1 / 100000) :
    ∀ q, q < 2 → partWeight g lab q ≤ max (max b (W - W / 2)) (W + max (3 * W / 40) M - b) := by
  have hWq : (2 : ℚ) ≤ W := by exact_mod_cast hW
  have hWq' : (W : ℚ) < 4294967295 := by exact_mod_cast hW'
  have hbW : b ≤ W := by
    have : (b : ℚ) < W + 1 := by linarith
    exact_mod_cast Nat.lt_succ_iff.mp (by exact_mod_cast this)
  obtain ⟨e1, e2, e3⟩ := halves_two_eq hab (by omega) (by omega) hbt
  obtain ⟨q, f1, f2, f3, f4⟩ := share_err (a := W / 2) (s := W / 2 + W / 2) (by omega) (by omega) (by omega)
  have hhalf : ((W / 2 : Nat) : ℚ) / ((W / 2 + W / 2 : Nat) : ℚ) = 1 / 2 := by
    have : (0 : ℚ) < ((W / 2 : Nat) : ℚ) := by exact_mod_cast (show 0 < W / 2 by omega)
    push_cast
    field_simp
    norm_num
  rw [hhalf] at f3 f4
  have hfrac : bt.frac = [F64.fin q, F64.fin q] := by
    rw [e3]
    unfold shares
    have : ([W / 2, W / 2].sum % 2 ^ 32) = W / 2 + W / 2 := Nat.mod_eq_of_lt (by simp; omega)
    rw [this]
    exact congrArg₂ (fun x y => [x, y]) f1 f1
  generalize hRdef : max (max b (W - W / 2)) (W + max (3 * W / 40) M - b) = R
  have hno : NoExtra W bt := by
    intro x y hxy h1 h2
    rw [e1, show nth [W / 2, W / 2] 0 = W / 2 from rfl] at h1
    rw [e2, show nth [b, b] 1 = b from rfl] at h2
    rw [e2, show nth [b, b] 0 = b from rfl, show nth [b, b] 1 = b from rfl]
    exact quotient_le (by omega) (by omega) (by omega) (by omega)
  have hq := h.quality hwf hnl hfrac (by linarith) (by linarith) (M := M) (R := R) (by omega) hW' hs hM hno
    (by rw [e2, show nth [b, b] 1 = b from rfl]; omega)
    (by rw [e1, show nth [W / 2, W / 2] 0 = W / 2 from rfl]; omega)
    (by rw [e2, show nth [b, b] 0 = b from rfl]; omega)
  rw [e2, show nth [b, b] 0 = b from rfl] at hq
  -- the relative bound is below `(R + 3/4) / (W q)`
  have hqp : 0 < q := by linarith
  have hWqp : 0 < (W : ℚ) * q := mul_pos (by linarith) hqp
  have hR1 : (b : ℚ) ≤ R := by exact_mod_cast (show b ≤ R by omega)
  have hRhalf : (W : ℚ) ≤ 2 * R := by exact_mod_cast (show W ≤ 2 * R by omega)
  have hR3 : (W : ℚ) + 3 * W / 40 - 1 ≤ R + b := by
    have h1 : W + 3 * W / 40 ≤ R + b := by omega
    have h2 : 3 * W < 40 * (3 * W / 40) + 40 := by omega
    have h1' : (W : ℚ) + ((3 * W / 40 : Nat) : ℚ) ≤ R + b := by exact_mod_cast h1
    have h2' : 3 * (W : ℚ) < 40 * ((3 * W / 40 : Nat) : ℚ) + 40 := by exact_mod_cast h2
    linarith
  have hWR : (W : ℚ) * q ≤ R + 1 / 2 := by
    have h1 : (W : ℚ) * q ≤ W * (1 / 2 + 1 / 1000000) := mul_le_mul_of_nonneg_left f3 (by linarith)
    by_cases hbig : (W : ℚ) ≤ 200
    · linarith
    · linarith
  have hmax : max 1 (max (rel W b q) (rel W R q)) ≤ (R + 1 / 2) / (W * q) := by
    refine max_le ?_ (max_le ?_ ?_)
    · rw [le_div_iff₀ hWqp]; linarith
    · unfold rel; exact div_le_div_of_nonneg_right (by linarith) hWqp.le
    · unfold rel; exact div_le_div_of_nonneg_right (by linarith) hWqp.le
  have fin : ∀ x : Nat, rel W x q ≤ max 1 (max (rel W b q) (rel W R q)) + 2 * eps → x ≤ R := by
    intro x hx
    have h1 : (x : ℚ) / (W * q) ≤ (R + 1 / 2) / (W * q) + 2 * eps := le_trans hx (by linarith)
    rw [div_add' _ _ _ (ne_of_gt hWqp), div_le_div_iff_of_pos_right hWqp] at h1
    have h2 : 2 * eps * ((W : ℚ) * q) ≤ 1 / 4 := by
      have : (W : ℚ) * q ≤ 4294967296 := by
        calc (W : ℚ) * q ≤ W * 1 := mul_le_mul_of_nonneg_left (by linarith) (by linarith)
          _ ≤ _ := by linarith
      calc 2 * eps * ((W : ℚ) * q) ≤ 2 * eps * 4294967296 := mul_le_mul_of_nonneg_left this (by unfold eps; norm_num)
        _ ≤ 1 / 4 := by unfold eps; norm_num
    have : (x : ℚ) < R + 1 := by linarith
    have : x < R + 1 := by exact_mod_cast this
    omega
  intro p hp
  rcases (show p = 0 ∨ p = 1 by omega) with rfl | rfl
  · exact fin _ hq.2.1
  · exact fin _ hq.2.2

/-- A run of recursive bisection for two parts is a bisection. -/
theorem RBRun.two {fp : FP} {S : Type} {R : Target fp → Graph → S → (Nat → Nat) → S → Prop} {tw mx : List Nat}
    {g : Graph} {r : S} {lab : Nat → Nat} {r' : S} (h : RBRun R tw mx g r lab r') (hk : tw.length = 2) :
    ∃ bt side r1, IsHalvesTarget tw mx bt ∧ R bt g r side r1 ∧ (∀ v, v < g.nv → side v < 2) ∧
      ∀ v, v < g.nv → lab v = side v := by
  cases h with
  | leaf h1 => omega
  | @node _ _ _ _ bt side sL sR labL labR _ r1 r2 _ _ _ hbt hR hp hL hRt runL runR labelsL labelsR =>
    have hl : ∀ i, i < sL.nv → labL i = 0 := by
      cases runL with
      | leaf _ _ h => exact h
      | node h1 => simp [hk] at h1
    have hr : ∀ i, i < sR.nv → labR i = 0 := by
      cases runR with
      | leaf _ _ h => exact h
      | node h1 => simp [hk] at h1
    refine ⟨bt, side, r1, hbt, hR, hp, fun v hv => ?_⟩
    have hlt := hp v hv
    rcases (show side v = 0 ∨ side v = 1 by omega) with hs | hs
    · obtain ⟨i, hi, e⟩ := exists_nth_of_mem (mem_vertsOf.mpr ⟨hv, hs⟩)
      have hi' : i < sL.nv := by rw [hL.nv]; exact hi
      have := labelsL i hi'
      rw [e] at this
      rw [this, hl i hi', hs]
    · obtain ⟨i, hi, e⟩ := exists_nth_of_mem (mem_vertsOf.mpr ⟨hv, hs⟩)
      have hi' : i < sR.nv := by rw [hRt.nv]; exact hi
      have := labelsR i hi'
      rw [e] at this
      rw [this, hr i hi', hs, hk]

theorem Input.Describes.sumVtx {i : Input} {g : Graph} (h : i.Describes g) : g.sumVtx = i.totalWeight := by
  unfold Graph.sumVtx Input.totalWeight
  rw [h.nv]
  exact sum_congr rfl fun v hv => h.vw v (mem_range.mp hv)

theorem Input.Describes.partWeight {i : Input} {g : Graph} (h : i.Describes g) {lab lab' : Nat → Nat}
    (hl : ∀ v, v < i.numVertices → lab' v = lab v) (q : Nat) : i.partWeight lab' q = Poros.partWeight g lab q := by
  unfold Input.partWeight Poros.partWeight
  rw [h.nv]
  refine sum_congr rfl fun v hv => ?_
  have hv := mem_range.mp hv
  rw [hl v hv, h.vw v hv]

/-- C78 for whatever is known of the labels. -/
theorem LooseCall.two_parts [Concrete.Log2Impl] {i : Input} {out' : Out} {g : Graph} {s : Scheme} {tw mx : List Nat}
    {lab : Nat → Nat} {r r' : rng.S} (hcall : LooseCall pq set rng i out' g s tw mx lab r r') (hk : i.numPartitions = 2)
    (hW : i.totalWeight < 4294967295) {M : Nat} (hM : ∀ v, v < i.numVertices → weightAt i.vertexWeights v ≤ M) :
    ∀ q, q < 2 → 200 * i.partWeight (nth out'.asg) q ≤ 97 * i.totalWeight + 200 * max (3 * i.totalWeight / 40) M + 400 := by
  have hsh := hcall.shares
  rw [hk] at hsh
  have hW32 : i.totalWeight < 4294967296 := by omega
  obtain ⟨b, rfl, rfl, hab, hb1, hb2⟩ := even_two hW32 hsh
  obtain ⟨bt, side, r2, hbt, hml, hp, hlab⟩ := RBRun.two hcall.run rfl
  have hsum := hcall.graph.sumVtx
  have hwt : ∀ q, i.partWeight (nth out'.asg) q = partWeight g side q := fun q =>
    hcall.graph.partWeight (fun v hv => by
      rw [hcall.labels v hv, hlab v (by rw [hcall.graph.nv]; exact hv)]) q
  intro q hq
  rw [hwt q]
  by_cases h2 : 2 ≤ i.totalWeight
  · have := hml.two_parts hcall.wf hcall.noLoop hsum h2 hW (M := M)
      (fun v hv => by rw [hcall.graph.nv] at hv; rw [hcall.graph.vw v hv]; exact hM v hv) hbt hab hb1 q hq
    have hb1' : b * 200 ≤ 103 * i.totalWeight + 1 := by
      have : ((b * 200 : Nat) : ℚ) < ((103 * i.totalWeight + 1 : Nat) : ℚ) + 1 := by push_cast; linarith
      have : b * 200 < 103 * i.totalWeight + 1 + 1 := by exact_mod_cast this
      omega
    have hb2' : 103 * i.totalWeight ≤ b * 200 + 201 := by
      have : ((103 * i.totalWeight : Nat) : ℚ) < ((b * 200 + 201 : Nat) : ℚ) + 1 := by push_cast; linarith
      have : 103 * i.totalWeight < b * 200 + 201 + 1 := by exact_mod_cast this
      omega
    omega
  · have := partWeight_le (g := g) side q
    omega

/-- **C78.** However a successful call for two parts went, neither part is heavier than 48.5 per cent of the total weight
plus the larger of 7.5 per cent of it and the heaviest vertex, plus 2: `w ≤ 0.485 W + max(⌊3W/40⌋, M) + 2`. -/
theorem C78_two_parts [Concrete.Log2Impl] {i : Input} (hv : i.Valid) (hk : i.numPartitions = 2) {o : Options Concrete.fp}
    (hc : 0 < o.numGlobalCuts) {out out' : Out}
    (h : partGraphRecursive (dblEnv pq set rng) i (some o) out = (out', ok 1)) (hW : i.totalWeight < 4294967295)
    {M : Nat} (hM : ∀ v, v < i.numVertices → weightAt i.vertexWeights v ≤ M) :
    ∀ q, q < 2 → 200 * i.partWeight (nth out'.asg) q ≤ 97 * i.totalWeight + 200 * max (3 * i.totalWeight / 40) M + 400 := by
  obtain ⟨g, s, tw, mx, labs, j, hcall⟩ := C75_call (pq := pq) (set := set) (rng := rng) hv (by omega) (by omega) hc h
  obtain ⟨r, r', hl⟩ := hcall.loose
  exact hl.two_parts hk hW hM

/-- The hypotheses are met: three runs on the two triangles, of total weight 9 and heaviest vertex 3. -/
example : Ex.tri2In.Valid ∧ Ex.tri2In.numPartitions = 2 ∧ 0 < (Ex.cuts 3).numGlobalCuts ∧
    partGraphRecursive Concrete.env Ex.tri2In (some (Ex.cuts 3)) Ex.before =
      ({ cut := 1, asg := [0, 0, 0, 1, 1, 1, 9, 9] }, ok 1) ∧ Ex.tri2In.totalWeight < 4294967295 ∧
    (∀ v, v < Ex.tri2In.numVertices → weightAt Ex.tri2In.vertexWeights v ≤ 3) :=
  ⟨Ex.tri2In_valid, rfl, by decide, Ex.tri2In_call, by decide +kernel, by decide +kernel⟩

end Poros
