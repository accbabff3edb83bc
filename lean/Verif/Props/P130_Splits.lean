import Verif.Props.P129_Limits
/-
C130: the weights every bisection on the way to 2, 4, 8, … parts aims at and allows, in whole numbers.
-/
namespace Poros
open Finset Res Concrete

variable {pq : PQImpl} {set : SetImpl} {rng : RngImpl}

namespace Concrete

/-- The share of the excess, as a double, lies between the whole number and the whole number plus 30/31. -/
theorem excess [Concrete.Log2Impl] {j ex : Nat} (hj : 1 ≤ j) (hj' : j ≤ 31) (hex : ex < 4294967296) {f : ℚ}
    (hf : rnd (1 / (j : ℚ)) = .fin f) : ∃ x : ℚ, rnd (ex * f) = .fin x ∧ ((ex / j : Nat) : ℚ) ≤ x ∧
      x ≤ ((ex / j : Nat) : ℚ) + 31 / 32 ∧ (ex = 0 → x = 0) ∧ (1 ≤ ex → 1 / 64 ≤ x) := by
  rcases Nat.eq_zero_or_pos ex with rfl | he
  · refine ⟨0, by simp [rnd], by simp, by simp; norm_num, fun _ => rfl, by omega⟩
  obtain ⟨f', f1, f2, f3⟩ := (RoundTrip.of_le hj (by omega : j ≤ 48)).close hj (by omega)
  rw [hf] at f1
  cases f1
  have j0 : (1 : ℚ) ≤ j := by exact_mod_cast hj
  have j1 : (j : ℚ) ≤ 31 := by exact_mod_cast hj'
  have e0 : (1 : ℚ) ≤ ex := by exact_mod_cast he
  have e1 : (ex : ℚ) ≤ 4294967295 := by exact_mod_cast (show ex ≤ 4294967295 by omega)
  have fl : 1 / 32 ≤ f := by
    by_contra hc
    rw [not_le] at hc
    have := mul_le_mul j1 hc.le (by
      by_contra hf0
      rw [not_le] at hf0
      have := mul_neg_of_pos_of_neg (show (0 : ℚ) < j by linarith) hf0
      linarith) (by norm_num)
    linarith
  have fu : f ≤ 2 := by
    have := mul_le_mul_of_nonneg_right j0 (show (0 : ℚ) ≤ f by linarith)
    linarith
  have p1 : 1 / 32 ≤ (ex : ℚ) * f := by
    have := mul_le_mul e0 fl (by norm_num) (by linarith)
    linarith
  have p2 : (ex : ℚ) * f ≤ 4294967295 * 2 := mul_le_mul e1 fu (by linarith) (by norm_num)
  obtain ⟨x, x1, x2, x3, x4⟩ := rnd_rel (q := (ex : ℚ) * f) (by linarith) (by linarith)
  have hm := Nat.div_add_mod ex j
  have hml := Nat.mod_lt ex (show j > 0 by omega)
  generalize hn : ex / j = n at hm ⊢
  generalize ex % j = m at hm hml
  have hmq : (j : ℚ) * n + m = ex := by exact_mod_cast hm
  have hmlq : (m : ℚ) ≤ j - 1 := by
    have : (m : ℚ) + 1 ≤ j := by exact_mod_cast hml
    linarith
  have jf1 : (ex : ℚ) * (j * f) ≤ ex * (1 + 1 / 9007199254740992) := mul_le_mul_of_nonneg_left f3 (by linarith)
  have jf2 : (ex : ℚ) * (1 - 1 / 18014398509481984) ≤ ex * (j * f) := mul_le_mul_of_nonneg_left f2 (by linarith)
  have jx1 : (j : ℚ) * x ≤ j * (ex * f * (1 + 1 / 9007199254740992)) := mul_le_mul_of_nonneg_left x3 (by linarith)
  have jx2 : (j : ℚ) * (ex * f * (1 - 1 / 9007199254740992)) ≤ j * x := mul_le_mul_of_nonneg_left x4 (by linarith)
  have up : (j : ℚ) * x ≤ ex + 1 / 1000 := by
    have := mul_le_mul_of_nonneg_right jf1 (show (0 : ℚ) ≤ 1 + 1 / 9007199254740992 by norm_num)
    linarith
  have lo : (ex : ℚ) - 1 / 1000 ≤ j * x := by
    have := mul_le_mul_of_nonneg_right jf2 (show (0 : ℚ) ≤ 1 - 1 / 9007199254740992 by norm_num)
    linarith
  refine ⟨x, x1, ?_, ?_, by omega, fun _ => by linarith⟩
  · rcases Nat.eq_zero_or_pos m with rfl | hm0
    · have hjq : j * n < 4294967296 := by omega
      have hs := (RoundTrip.of_le hj (by omega : j ≤ 48)).share hj (by omega) hjq
      have e : fp.mul (fp.div (fp.lit 1 0) (fp.ofNat j)) (fp.ofNat (j * n)) = .fin x := by
        rw [lit_one, ofNat_exact (n := j) (by omega), ofNat_exact (n := j * n) (by omega),
          div_fin _ (by linarith), hf, mul_fin, ← x1]
        rw [show j * n = ex by omega, mul_comm]
      rw [e] at hs
      have hx : x < 4294967296 := by
        by_contra h
        rw [not_lt] at h
        have := (fp_rounds x 0 0 0 0).2.2.2.2.2.2.2.2.2 (Or.inr h)
        rw [this] at hs
        cases hs
      obtain ⟨m, m1, m2, m3⟩ := toU32_fin x2.le hx
      rw [show fp.toU32 (F64.fin x) = F64.toU32 (.fin x) from rfl, m1] at hs
      cases hs
      exact m2
    · have hm1 : (1 : ℚ) ≤ m := by exact_mod_cast hm0
      have : (j : ℚ) * n ≤ j * x := by linarith
      exact le_of_mul_le_mul_left this (by linarith)
  · have : (j : ℚ) * x ≤ j * (n + 31 / 32) := by linarith
    exact le_of_mul_le_mul_left this (by linarith)

/-- One part adds its target weight and its share of the excess, without the fraction. -/
theorem half_step [Concrete.Log2Impl] {j acc w ex : Nat} (hj : 1 ≤ j) (hj' : j ≤ 31) (hs : acc + w + ex < 4294967296) :
    fp.toU32 (fp.add (fp.ofNat acc) (fp.add (fp.ofNat w) (fp.mul (fp.ofNat ex) (shareOf fp (2 ^ j))))) =
      some (acc + (w + ex / j)) := by
  have hj0 : (j : ℚ) ≠ 0 := by exact_mod_cast (show j ≠ 0 by omega)
  obtain ⟨f, f1, -, -⟩ := (RoundTrip.of_le hj (by omega : j ≤ 48)).close hj (by omega)
  have hp : (2 : Nat) ^ j < 2 ^ 53 := Nat.pow_lt_pow_right (by norm_num) (by omega)
  have hsh : shareOf fp (2 ^ j) = F64.fin f := by
    unfold shareOf
    rw [ofNat_exact hp, show fp.log2 (F64.fin ((2 ^ j : Nat) : ℚ)) = .fin (j : ℚ) from Log2Impl.exact j (by omega), lit_one,
      div_fin _ hj0, f1]
  have hexj : ex / j ≤ ex := Nat.div_le_self _ _
  obtain ⟨x, x1, x2, x3, x4, x5⟩ := excess hj hj' (ex := ex) (by omega) f1
  rw [hsh, ofNat_exact (n := acc) (by omega), ofNat_exact (n := w) (by omega), ofNat_exact (n := ex) (by omega), mul_fin, x1,
    add_fin]
  generalize hn : ex / j = n at *
  have hn0 : (0 : ℚ) ≤ n := Nat.cast_nonneg n
  have hb : (w : ℚ) + n ≤ 4294967295 := by exact_mod_cast (show w + n ≤ 4294967295 by omega)
  have hw0 : (0 : ℚ) ≤ w := Nat.cast_nonneg w
  have hac : (0 : ℚ) ≤ acc := Nat.cast_nonneg acc
  -- the sum of target weight and share
  obtain ⟨y, y1, y2, y3⟩ : ∃ y, rnd ((w : ℚ) + x) = .fin y ∧ ((w + n : Nat) : ℚ) ≤ y ∧ y ≤ ((w + n : Nat) : ℚ) + 255 / 256 := by
    rcases Nat.eq_zero_or_pos ex with rfl | he
    · have : x = 0 := x4 rfl
      subst this
      have hn : n = 0 := by rw [← hn]; simp
      subst hn
      refine ⟨w, ?_, by simp, by simp; norm_num⟩
      rw [add_zero]
      exact ofNat_exact (n := w) (by omega)
    · obtain ⟨y, y1, y2, y3, y4⟩ := rnd_rel (q := (w : ℚ) + x) (by have := x5 he; linarith) (by linarith)
      have hwn : rnd ((w + n : Nat) : ℚ) = .fin ((w + n : Nat) : ℚ) := ofNat_exact (n := w + n) (by omega)
      refine ⟨y, y1, rnd_mono (Nat.cast_nonneg _) (by push_cast; linarith) hwn y1, ?_⟩
      push_cast
      linarith
  rw [y1, add_fin]
  obtain ⟨r, r1, r2⟩ := trunc_rnd (q := (acc : ℚ) + y) (k := acc + (w + n)) (by
      have : M32 = 4294967296 := rfl
      omega) (by push_cast at y2 ⊢; linarith)
    (by push_cast at y3 ⊢; linarith)
  rw [r1]
  exact r2

/-- A half of `n` equal parts, on the way to `2^j` parts. -/
theorem halfMax_equal [Concrete.Log2Impl] {j a b : Nat} (hj : 1 ≤ j) (hj' : j ≤ 31) (hab : a ≤ b) : ∀ n : Nat,
    n * b < 4294967296 → halfMax fp (2 ^ j) (List.replicate n (a, b)) = some (n * (a + (b - a) / j)) := by
  intro n
  induction n with
  | zero => intro _; simp [halfMax]
  | succ n ih =>
    intro hs
    rw [Nat.succ_mul] at hs
    have := ih (by omega)
    rw [List.replicate_succ', halfMax_snoc this]
    have hd : (b - a) / j ≤ b - a := Nat.div_le_self _ _
    have hle : n * (a + (b - a) / j) ≤ n * b := Nat.mul_le_mul_left _ (by omega)
    have eu : usub b a = b - a := usub_eq hab (by
      have : M32 = 4294967296 := rfl
      omega)
    simp only [eu]
    rw [half_step hj hj' (by omega), Nat.succ_mul]

end Concrete

/-- A run of recursive bisection of which every bisection, of `n` parts for the target `bt`, has `P n bt`. -/
inductive RBWhere {fp : FP} {S : Type} (R : Target fp → Graph → S → (Nat → Nat) → S → Prop) (P : Nat → Target fp → Prop) :
    List Nat → List Nat → Graph → S → (Nat → Nat) → S → Prop
  | leaf {tw mx : List Nat} {g : Graph} {r : S} {lab : Nat → Nat} (hk : tw.length = 1) (hm : mx.length = 1)
      (h : ∀ v, v < g.nv → lab v = 0) : RBWhere R P tw mx g r lab r
  | node {tw mx : List Nat} {g : Graph} {lab : Nat → Nat} {bt : Target fp} {side : Nat → Nat} {sL sR : Graph}
      {labL labR : Nat → Nat} {r r1 r2 r3 : S} (hk : 2 ≤ tw.length) (hm : mx.length = tw.length)
      (hbt : IsHalvesTarget tw mx bt) (hP : P tw.length bt) (hR : R bt g r side r1) (hp : ∀ v, v < g.nv → side v < 2)
      (hL : IsInduced g side 0 sL) (hRt : IsInduced g side 1 sR)
      (runL : RBWhere R P (tw.take (tw.length / 2)) (mx.take (tw.length / 2)) sL r1 labL r2)
      (runR : RBWhere R P (tw.drop (tw.length / 2)) (mx.drop (tw.length / 2)) sR r2 labR r3)
      (labelsL : ∀ i, i < sL.nv → lab (nth (vertsOf g side 0) i) = labL i)
      (labelsR : ∀ i, i < sR.nv → lab (nth (vertsOf g side 1) i) = tw.length / 2 + labR i) :
      RBWhere R P tw mx g r lab r3

/-- The target of a bisection of `n = 2^e` parts of target weight `a` and limit `b`: `2^(e-1)` targets for each side, and
`2^(e-1)` limits, each of which has only one `e`-th of the room above the target. -/
def EvenSplit (a b n : Nat) {fp : FP} (bt : Target fp) : Prop :=
  ∃ e, 1 ≤ e ∧ n = 2 ^ e ∧ ∀ q, q < 2 → nth bt.tw q = 2 ^ (e - 1) * a ∧ nth bt.mx q = 2 ^ (e - 1) * (a + (b - a) / e)

/-- **C130, one split.** -/
theorem C130_split [Concrete.Log2Impl] {e a b : Nat} (he : 1 ≤ e) (he' : e ≤ 31) (hab : a ≤ b)
    (hb : 2 ^ (e - 1) * b < 2 ^ 32) {bt : Target Concrete.fp}
    (h : IsHalvesTarget (List.replicate (2 ^ e) a) (List.replicate (2 ^ e) b) bt) :
    ∀ q, q < 2 → nth bt.tw q = 2 ^ (e - 1) * a ∧ nth bt.mx q = 2 ^ (e - 1) * (a + (b - a) / e) := by
  obtain ⟨e, rfl⟩ : ∃ d, e = d + 1 := ⟨e - 1, by omega⟩
  have e32 : (2 : Nat) ^ 32 = 4294967296 := by norm_num
  rw [e32] at hb
  rw [Nat.add_sub_cancel] at hb ⊢
  have hp2 : 2 ^ (e + 1) = 2 ^ e + 2 ^ e := by rw [pow_succ]; omega
  have hlen : (List.replicate (2 ^ (e + 1)) a).length / 2 = 2 ^ e := by rw [List.length_replicate]; omega
  have hk : (List.replicate (2 ^ (e + 1)) a).length = 2 ^ (e + 1) := List.length_replicate
  have ha : 2 ^ e * a < 4294967296 := lt_of_le_of_lt (Nat.mul_le_mul_left _ hab) hb
  have hm := Concrete.halfMax_equal (j := e + 1) (by omega) he' hab (2 ^ e) hb
  have h0 := h.maxLeft
  have h1 := h.maxRight
  have t0 := h.left
  have t1 := h.right
  rw [hlen, hk, List.zip_replicate', List.take_replicate, Nat.min_eq_left (by omega), hm] at h0
  rw [hlen, hk, List.zip_replicate', List.drop_replicate, show 2 ^ (e + 1) - 2 ^ e = 2 ^ e by omega, hm] at h1
  rw [hlen, List.take_replicate, Nat.min_eq_left (by omega), List.sum_replicate, smul_eq_mul, e32, Nat.mod_eq_of_lt ha] at t0
  rw [hlen, List.drop_replicate, show 2 ^ (e + 1) - 2 ^ e = 2 ^ e by omega, List.sum_replicate, smul_eq_mul, e32,
    Nat.mod_eq_of_lt ha] at t1
  intro q hq
  rcases (show q = 0 ∨ q = 1 by omega) with rfl | rfl
  · exact ⟨t0, (Option.some.inj h0).symm⟩
  · exact ⟨t1, (Option.some.inj h1).symm⟩

theorem RBRun.evenSplits [Concrete.Log2Impl] {S : Type} {R : Target Concrete.fp → Graph → S → (Nat → Nat) → S → Prop}
    {a b : Nat} (hab : a ≤ b) {tw mx : List Nat} {g : Graph} {r : S}
    {lab : Nat → Nat} {r' : S} (h : RBRun R tw mx g r lab r') :
    ∀ d, d ≤ 31 → tw = List.replicate (2 ^ d) a → mx = List.replicate (2 ^ d) b → 2 ^ d * b < 2 ^ 33 →
      RBWhere R (fun n bt => EvenSplit a b n bt) tw mx g r lab r' := by
  induction h with
  | leaf hk hm h => exact fun _ _ _ _ _ => .leaf hk hm h
  | @node tw mx g lab bt side sL sR labL labR r r1 r2 r3 hk hm hbt hR hp hL hRt runL runR labelsL labelsR ihL ihR =>
    intro d hd31 e1 e2 hd
    obtain ⟨d, rfl⟩ : ∃ e, d = e + 1 := by
      cases d with
      | zero => rw [e1] at hk; simp at hk
      | succ e => exact ⟨e, rfl⟩
    have e32 : (2 : Nat) ^ 32 = 4294967296 := by norm_num
    have e33 : (2 : Nat) ^ 33 = 8589934592 := by norm_num
    have hp2 : 2 ^ (d + 1) = 2 ^ d + 2 ^ d := by rw [pow_succ]; omega
    have hdb : 2 ^ d * b < 2 ^ 32 := by
      rw [hp2, Nat.add_mul, e33] at hd
      rw [e32]
      omega
    have hP : EvenSplit a b tw.length bt := by
      refine ⟨d + 1, by omega, by rw [e1, List.length_replicate], ?_⟩
      rw [e1, e2] at hbt
      exact C130_split (by omega) hd31 hab (by rw [Nat.add_sub_cancel]; exact hdb) hbt
    rw [hp2] at e1 e2
    have hlen : tw.length / 2 = 2 ^ d := by rw [e1, List.length_replicate]; omega
    have htake : ∀ x : Nat, (List.replicate (2 ^ d + 2 ^ d) x).take (2 ^ d) = List.replicate (2 ^ d) x := fun x => by
      rw [List.take_replicate, Nat.min_eq_left (by omega)]
    have hdrop : ∀ x : Nat, (List.replicate (2 ^ d + 2 ^ d) x).drop (2 ^ d) = List.replicate (2 ^ d) x := fun x => by
      rw [List.drop_replicate, Nat.add_sub_cancel]
    have hdb' : 2 ^ d * b < 2 ^ 33 := by omega
    exact .node hk hm hbt hP hR hp hL hRt
      (ihL d (by omega) (by rw [hlen, e1, htake]) (by rw [hlen, e2, htake]) hdb')
      (ihR d (by omega) (by rw [hlen, e1, hdrop]) (by rw [hlen, e2, hdrop]) hdb') labelsL labelsR

/-- **C130, calls.** In a successful call for 2^d parts every bisection of every run aims at, and allows, these weights. -/
theorem C130_call [Concrete.Log2Impl] {i : Input} (hv : i.Valid) {d : Nat} (hd : 1 ≤ d) (hd' : d ≤ 31)
    (hk : i.numPartitions = 2 ^ d)
    {o : Options Concrete.fp} (hc : 0 < o.numGlobalCuts) {out out' : Out}
    (h : partGraphRecursive (dblEnv pq set rng) i (some o) out = (out', ok 1)) :
    ∃ g s tw mx labs j, CallRun (dblEnv pq set rng) i o out out' g s tw mx labs j ∧
      ∃ r', Repeated (RBWhere (MLBisected (dblEnv pq set rng) s)
        (fun n bt => EvenSplit (i.totalWeight / 2 ^ d) (103 * i.totalWeight / (100 * 2 ^ d)) n bt) tw mx g)
        (rng.seed o.randomSeed) labs r' := by
  have hk2 : 2 ≤ i.numPartitions := by
    rw [hk]; exact le_trans (by norm_num) (Nat.pow_le_pow_right (show 0 < 2 by omega) hd)
  have hk32 : i.numPartitions < 2 ^ 32 := by
    rw [hk]; exact Nat.pow_lt_pow_right (by norm_num) (by omega)
  obtain ⟨g, s, tw, mx, labs, j, hcall⟩ := C75_call (pq := pq) (set := set) (rng := rng) hv hk2 hk32 hc h
  refine ⟨g, s, tw, mx, labs, j, hcall, ?_⟩
  obtain ⟨r', hrep⟩ := hcall.runs
  have hsh := hcall.shares
  rw [hk] at hsh
  have hW := totalWeight_lt hv
  have key := C129_power_of_two (by omega) hW hsh
  have etw : tw = List.replicate (2 ^ d) (i.totalWeight / 2 ^ d) := by
    refine list_ext_nth (by rw [hsh.len.1, List.length_replicate]) fun q hq => ?_
    rw [hsh.len.1] at hq
    rw [(key q hq).1, nth_replicate hq]
  have emx : mx = List.replicate (2 ^ d) (103 * i.totalWeight / (100 * 2 ^ d)) := by
    refine list_ext_nth (by rw [hsh.len.2, List.length_replicate]) fun q hq => ?_
    rw [hsh.len.2] at hq
    rw [(key q hq).2, nth_replicate hq]
  have hp := Nat.two_pow_pos d
  have hab : i.totalWeight / 2 ^ d ≤ 103 * i.totalWeight / (100 * 2 ^ d) := by
    rw [Nat.le_div_iff_mul_le (by omega)]
    have := Nat.div_mul_le_self i.totalWeight (2 ^ d)
    have e : i.totalWeight / 2 ^ d * (100 * 2 ^ d) = 100 * (i.totalWeight / 2 ^ d * 2 ^ d) := by ring
    rw [e]
    omega
  have hb : 2 ^ d * (103 * i.totalWeight / (100 * 2 ^ d)) < 2 ^ 33 := by
    have := Nat.div_mul_le_self (103 * i.totalWeight) (100 * 2 ^ d)
    have e : 103 * i.totalWeight / (100 * 2 ^ d) * (100 * 2 ^ d) =
      100 * (2 ^ d * (103 * i.totalWeight / (100 * 2 ^ d))) := by ring
    rw [e] at this
    have e32 : (2 : Nat) ^ 32 = 4294967296 := by norm_num
    have e33 : (2 : Nat) ^ 33 = 8589934592 := by norm_num
    rw [e32] at hW
    rw [e33]
    omega
  exact ⟨r', hrep.mono fun r c r' hr => RBRun.evenSplits hab hr d hd' etw emx hb⟩

/-- **C130, room.** The two sides of the first bisection have room for the whole graph if and only if the total weight is a
multiple of the number `2^d` of parts, or the room above the target of each part is at least `d`. -/
theorem C130_room {d W : Nat} (hd : 1 ≤ d) {fp : FP} {bt : Target fp}
    (h : EvenSplit (W / 2 ^ d) (103 * W / (100 * 2 ^ d)) (2 ^ d) bt) :
    W ≤ nth bt.mx 0 + nth bt.mx 1 ↔ (2 ^ d ∣ W ∨ d ≤ 103 * W / (100 * 2 ^ d) - W / 2 ^ d) := by
  obtain ⟨e, he, hed, hq⟩ := h
  have : e = d := (Nat.pow_right_injective (le_refl 2) hed).symm
  subst this
  rw [(hq 0 (by omega)).2, (hq 1 (by omega)).2]
  obtain ⟨e, rfl⟩ : ∃ d, e = d + 1 := ⟨e - 1, by omega⟩
  rw [Nat.add_sub_cancel]
  generalize 103 * W / (100 * 2 ^ (e + 1)) - W / 2 ^ (e + 1) = x
  have hsum : ∀ y, 2 ^ e * y + 2 ^ e * y = 2 ^ (e + 1) * y := fun y => by rw [pow_succ]; ring
  rw [hsum]
  have hm := Nat.div_add_mod W (2 ^ (e + 1))
  have hml := Nat.mod_lt W (Nat.two_pow_pos (e + 1))
  rw [Nat.dvd_iff_mod_eq_zero, Nat.mul_add]
  constructor
  · intro hle
    by_contra hc
    rw [not_or, not_le] at hc
    rw [Nat.div_eq_of_lt hc.2, Nat.mul_zero] at hle
    omega
  · rintro (h0 | hx)
    · omega
    · have h1 : 1 ≤ x / (e + 1) := by rw [Nat.le_div_iff_mul_le (by omega)]; omega
      have := Nat.mul_le_mul_left (2 ^ (e + 1)) h1
      omega

/-- **C130, no room.** Otherwise no bisection of the graph is within the limits of the first split. -/
theorem C130_no_room {d : Nat} (hd : 1 ≤ d) {g : Graph} {fp : FP} {bt : Target fp}
    (h : EvenSplit (g.sumVtx / 2 ^ d) (103 * g.sumVtx / (100 * 2 ^ d)) (2 ^ d) bt) (h1 : ¬ 2 ^ d ∣ g.sumVtx)
    (h2 : 103 * g.sumVtx / (100 * 2 ^ d) - g.sumVtx / 2 ^ d < d) {lab : Nat → Nat} (hl : ∀ v, v < g.nv → lab v < 2) :
    ∃ q, q < 2 ∧ nth bt.mx q < partWeight g lab q := by
  by_contra hc
  push Not at hc
  have := partWeight_add hl
  have h0 := hc 0 (by omega)
  have h3 := hc 1 (by omega)
  rcases (C130_room hd h).mp (by omega) with h4 | h4
  · exact h1 h4
  · omega

namespace Ex

/-- The target of the first split of a graph of weight 700 into four parts of target weight 175 and limit 180. -/
def splitT : Target Concrete.fp :=
  { k := 2, frac := shares Concrete.fp [350, 350], tw := [350, 350], mx := [354, 354] }

end Ex

/-- Four parts of 700: each side may weigh `2 * (175 + 5 / 2)`. -/
example : IsHalvesTarget (List.replicate (2 ^ 2) 175) (List.replicate (2 ^ 2) 180) Ex.splitT ∧
    2 ^ (2 - 1) * (175 + (180 - 175) / 2) = 354 := by
  refine ⟨⟨⟨rfl, by decide +kernel, rfl, rfl⟩, by decide +kernel, by decide +kernel, by decide +kernel, by decide +kernel,
    rfl⟩, rfl⟩

/-- The hypotheses of the call are met: an octagon of vertices of weight 3 in four parts. -/
example : Ex.octIn.Valid ∧ Ex.octIn.numPartitions = 2 ^ 2 ∧ 0 < (Ex.cuts 2).numGlobalCuts ∧
    partGraphRecursive Concrete.env Ex.octIn (some (Ex.cuts 2)) Ex.before =
      ({ cut := 4, asg := [0, 2, 2, 3, 3, 1, 1, 0] }, ok 1) := by
  refine ⟨Ex.valid_of (by constructor <;> decide +kernel) (by decide +kernel) (by decide +kernel) (by decide +kernel)
    (by decide +kernel), rfl, by decide, by decide +kernel⟩

/-- The target of the first split of the hexagon of weight 12 into eight parts. -/
def Ex.noRoomT : Target Concrete.fp :=
  { k := 2, frac := shares Concrete.fp [4, 4], tw := [4, 4], mx := [4, 4] }

/-- The hypotheses are met where there is no room: a hexagon of weight 12 in eight parts, whose halves may weigh 4 each. -/
example : EvenSplit (Ex.hexG.sumVtx / 2 ^ 3) (103 * Ex.hexG.sumVtx / (100 * 2 ^ 3)) (2 ^ 3) Ex.noRoomT ∧
    IsHalvesTarget (List.replicate (2 ^ 3) 1) (List.replicate (2 ^ 3) 1) Ex.noRoomT ∧
    ¬ 2 ^ 3 ∣ Ex.hexG.sumVtx ∧ 103 * Ex.hexG.sumVtx / (100 * 2 ^ 3) - Ex.hexG.sumVtx / 2 ^ 3 < 3 := by
  have e : Ex.hexG.sumVtx = 12 := by decide +kernel
  rw [e]
  refine ⟨⟨3, by omega, rfl, by decide⟩, ⟨⟨rfl, by decide +kernel, rfl, rfl⟩, by decide +kernel, by decide +kernel,
    by decide +kernel, by decide +kernel, rfl⟩, by decide, by decide⟩

end Poros
