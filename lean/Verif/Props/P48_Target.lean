import Verif.SpecTarget
import Verif.Proofs.F64Uniform
import Verif.Proofs.Api
import Verif.ExamplesApi
/-
C48, C49, C63: targets and balance analysis.
-/
namespace Poros
open Finset Res

variable {fp : FP}

/-- The number of parts and the weights of a target. -/
def numbersOf' (x : Res (Target fp)) : Res (Nat × List Nat × List Nat) := x >>= fun t => ok (t.k, t.tw, t.mx)

/-! ### C48 -/

/-- A loop that reads a whole array by index is a loop over the array. -/
theorem foldlM_range_rd {α σ : Type} {f : σ → α → Res σ} {l : List α} : ∀ (s : σ),
    (List.range l.length).foldlM (fun s i => do
      let x ← rd l i
      f s x) s = l.foldlM f s := by
  induction l using List.reverseRecOn with
  | nil => intro s; rfl
  | append_singleton l x ih =>
    intro s
    rw [List.length_append, List.length_singleton, List.range_succ, List.foldlM_append, List.foldlM_append, ← ih s]
    have e : (List.range l.length).foldlM (fun s i => do
        let y ← rd (l ++ [x]) i
        f s y) s = (List.range l.length).foldlM (fun s i => do
        let y ← rd l i
        f s y) s := by
      refine foldlM_congr' fun s i hi => ?_
      have hi := List.mem_range.mp hi
      have : rd (l ++ [x]) i = rd l i := by
        unfold rd
        rw [List.getElem?_append_left hi]
      rw [this]
    rw [e]
    congr 1
    funext s'
    rw [List.foldlM_cons, List.foldlM_cons]
    have : rd (l ++ [x]) l.length = ok x := by
      unfold rd
      simp
    rw [this]
    rfl

/-- The loop over the fractions: their sum, or the exception if one is out of range. -/
theorem fractionLoop {fr : List fp.F} : ∀ (l : List fp.F) (a : fp.F),
    l.foldlM (fun acc f => if fp.lt f (fp.lit 0 0) || fp.lt (fp.lit 1 0) f then Target.invalidFractions fr
      else ok (fp.add acc f)) a =
    if ∀ f ∈ l, fp.lt f (fp.lit 0 0) = false ∧ fp.lt (fp.lit 1 0) f = false then ok (l.foldl fp.add a)
    else Target.invalidFractions fr := by
  have hb : ∀ {γ : Type} (k : fp.F → Res γ), (Target.invalidFractions (α := fp.F) fr >>= k) = Target.invalidFractions fr := by
    intro γ k
    unfold Target.invalidFractions
    cases rd fr 0 <;> [skip; rfl; rfl; rfl]
    simp only [ok_bind]
    cases rd fr 1 <;> rfl
  intro l
  induction l with
  | nil => intro a; simp
  | cons x xs ih =>
    intro a
    rw [List.foldlM_cons]
    by_cases h0 : fp.lt x (fp.lit 0 0) = true
    · rw [h0, Bool.true_or, if_pos rfl, hb, if_neg]
      intro h
      have := (h x (by simp)).1
      rw [h0] at this; cases this
    · by_cases h1 : fp.lt (fp.lit 1 0) x = true
      · rw [h1, Bool.or_true, if_pos rfl, hb, if_neg]
        intro h
        have := (h x (by simp)).2
        rw [h1] at this; cases this
      · rw [Bool.not_eq_true] at h0 h1
        rw [h0, h1, Bool.or_false, if_neg (by decide), ok_bind, ih, List.foldl_cons]
        congr 1
        simp [h0, h1]

theorem ofFractions_eq {k tot : Nat} {tol : fp.F} {fr : List fp.F} (hl : k ≤ fr.length) :
    (¬ ValidFractions fp (fr.take k) → Target.ofFractions k tot tol fr = Target.invalidFractions (fr.take k)) ∧
    (ValidFractions fp (fr.take k) → Target.ofFractions k tot tol fr = (do
      let tw ← calcTargetWeight fp tot (fr.take k)
      let mx ← calcMaxWeight fp tot tol (fr.take k)
      .ok { k := k, frac := fr.take k, tw := tw, mx := mx })) := by
  have hlen : (fr.take k).length = k := by simp; omega
  have hloop := foldlM_range_rd (l := fr.take k) (f := fun acc f =>
    if fp.lt f (fp.lit 0 0) || fp.lt (fp.lit 1 0) f then Target.invalidFractions (fr.take k)
      else ok (fp.add acc f)) (fp.lit 0 0)
  rw [hlen, fractionLoop] at hloop
  have hb : ∀ {γ : Type} (K : fp.F → Res γ), (Target.invalidFractions (α := fp.F) (fr.take k) >>= K) =
      Target.invalidFractions (fr.take k) := by
    intro γ K
    unfold Target.invalidFractions
    cases rd (fr.take k) 0 <;> [skip; rfl; rfl; rfl]
    simp only [ok_bind]
    cases rd (fr.take k) 1 <;> rfl
  unfold Target.ofFractions
  simp only
  rw [if_neg (by omega), hloop]
  by_cases he : ∀ f ∈ fr.take k, fp.lt f (fp.lit 0 0) = false ∧ fp.lt (fp.lit 1 0) f = false
  · rw [if_pos he, ok_bind]
    constructor
    · intro hn
      rw [if_pos]
      by_contra hc
      rw [Bool.not_eq_true, Bool.or_eq_false_iff] at hc
      exact hn ⟨he, hc.1, hc.2⟩
    · intro hv
      rw [hv.low, hv.high, Bool.or_false, if_neg (by decide)]
  · rw [if_neg he, hb]
    exact ⟨fun _ => rfl, fun hv => absurd hv.each he⟩

/-- **C48, rejection.** With at least two parts, fractions of which one is below 0 or above 1, or whose sum is off by
more than the tolerance, are rejected with an exception, whatever the weight and the imbalance tolerance. -/
theorem C48_rejects {k tot : Nat} {tol : fp.F} {fr : List fp.F} (hk : 2 ≤ k) (hl : k ≤ fr.length)
    (hv : ¬ ValidFractions fp (fr.take k)) : Target.ofFractions k tot tol fr = exn := by
  rw [(ofFractions_eq hl).1 hv]
  unfold Target.invalidFractions
  rw [rd_of_lt (by simp; omega), ok_bind, rd_of_lt (by simp; omega), ok_bind]

/-- **C48, acceptance.** Other fractions raise no exception; if all products convert to integers, the target and maximum
weight of part `q` are the total weight times the fraction, and times the fraction and one plus the tolerance, rounded
down. -/
theorem C48_accepts {k tot : Nat} {tol : fp.F} {fr : List fp.F} (hl : k ≤ fr.length)
    (hv : ValidFractions fp (fr.take k)) :
    Target.ofFractions k tot tol fr = ub ∨ ∃ t, Target.ofFractions k tot tol fr = ok t ∧ t.k = k ∧
      t.frac = fr.take k ∧ t.tw.length = k ∧ t.mx.length = k ∧ ∀ q, q < k →
        fp.toU32 (fp.mul (nth fr q) (fp.ofNat tot)) = some (nth t.tw q) ∧
        fp.toU32 (fp.mul (fp.mul (nth fr q) (fp.add (fp.lit 1 0) tol)) (fp.ofNat tot)) = some (nth t.mx q) := by
  have hlen : (fr.take k).length = k := by simp; omega
  have key : ∀ (F : fp.F → fp.F) (out : List Nat), (fr.take k).mapM (fun f => fp.cast (F f)) = ok out →
      out.length = k ∧ ∀ q, q < k → fp.toU32 (F (nth fr q)) = some (nth out q) := by
    intro F out h
    have := Post_mapM (B := True) (f := fun f => fp.cast (F f)) (l := fr.take k)
      (fun f n => fp.toU32 (F f) = some n) (fun f _ => may_iff.mpr fun n hn => by
        unfold FP.cast at hn
        cases h : fp.toU32 (F f) with
        | none => rw [h] at hn; cases hn
        | some m => rw [h] at hn; cases hn; rfl)
    rw [h] at this
    obtain ⟨h1, h2⟩ := this
    refine ⟨by omega, fun q hq => ?_⟩
    have := h2 q (by omega) (by omega)
    rw [nth_eq_getElem (show q < out.length by omega), nth_eq_getElem (show q < fr.length by omega)]
    simpa using this
  have hw : ∀ (F : fp.F → fp.F), Wp True False False ((fr.take k).mapM fun f => fp.cast (F f)) (fun _ => True) := by
    intro F
    refine Wp_mapM fun x _ => ?_
    unfold FP.cast
    split <;> trivial
  rw [(ofFractions_eq hl).2 hv]
  unfold calcTargetWeight calcMaxWeight
  have h1 := hw (fun f => fp.mul f (fp.ofNat tot))
  have h2 := hw (fun f => fp.mul (fp.mul f (fp.add (fp.lit 1 0) tol)) (fp.ofNat tot))
  cases e1 : (fr.take k).mapM fun f => fp.cast (fp.mul f (fp.ofNat tot)) with
  | ub => exact Or.inl rfl
  | exn => rw [e1] at h1; exact h1.elim
  | diverge => rw [e1] at h1; exact h1.elim
  | ok tw =>
    rw [ok_bind]
    cases e2 : (fr.take k).mapM fun f => fp.cast (fp.mul (fp.mul f (fp.add (fp.lit 1 0) tol)) (fp.ofNat tot)) with
    | ub => exact Or.inl rfl
    | exn => rw [e2] at h2; exact h2.elim
    | diverge => rw [e2] at h2; exact h2.elim
    | ok mx =>
      obtain ⟨a1, a2⟩ := key (fun f => fp.mul f (fp.ofNat tot)) tw e1
      obtain ⟨b1, b2⟩ := key (fun f => fp.mul (fp.mul f (fp.add (fp.lit 1 0) tol)) (fp.ofNat tot)) mx e2
      refine Or.inr ⟨Target.mk k (fr.take k) tw mx, ?_, rfl, rfl, a1, b1, fun q hq => ⟨a2 q hq, b2 q hq⟩⟩
      rw [ok_bind]

theorem invalid_ne_ok {α : Type} {fr : List fp.F} {a : α} : Target.invalidFractions fr ≠ ok a := by
  unfold Target.invalidFractions
  cases rd fr 0 <;> [skip; (intro h; cases h); (intro h; cases h); (intro h; cases h)]
  rw [ok_bind]
  cases rd fr 1 <;> (intro h; cases h)

/-- **C48, consistency.** A target made from fractions and a non-negative tolerance never has a target weight above the
maximum weight. (`f * 1 = f` holds of every double; the laws hold of binary64: `Concrete.targetOK`.) -/
theorem C48_target_le_max (hfp : fp.TargetOK) {k tot : Nat} {tol : fp.F} {fr : List fp.F} (htot : tot < 2 ^ 32)
    (htol : fp.le (fp.lit 0 0) tol = true) (hrep : ∀ f ∈ fr, fp.mul f (fp.lit 1 0) = f) {t : Target fp}
    (h : Target.ofFractions k tot tol fr = ok t) : ∀ q, q < k → nth t.tw q ≤ nth t.mx q := by
  have hl := (ofFractions_shape h).1
  have hv : ValidFractions fp (fr.take k) := by
    by_contra hv
    rw [(ofFractions_eq hl).1 hv] at h
    exact invalid_ne_ok h
  intro q hq
  rcases C48_accepts (tot := tot) (tol := tol) hl hv with hu | ⟨t', ht', -, -, -, -, hall⟩
  · rw [hu] at h; cases h
  · rw [ht'] at h
    cases h
    obtain ⟨h1, h2⟩ := hall q hq
    have hm : nth fr q ∈ fr := nth_mem (by omega)
    have hm' : nth fr q ∈ fr.take k := by
      rw [nth_eq_getElem (by omega)]
      exact List.mem_iff_getElem.mpr ⟨q, by simp; omega, by simp⟩
    have := hv.each _ hm'
    exact hfp.mono _ _ _ _ _ (by simpa using htot) (hrep _ hm) this.1 this.2 htol h1 h2

/-! ### C63 -/

/-- **C63, one part.** With a single part, a fraction that is rejected is undefined behaviour instead of an exception:
the message reads a second fraction. -/
theorem C63_one_part {tot : Nat} {tol f : fp.F} (hv : ¬ ValidFractions fp [f]) :
    Target.ofFractions 1 tot tol [f] = ub := by
  rw [(ofFractions_eq (fr := [f]) (k := 1) (by simp)).1 hv]
  rfl

theorem Concrete.nan_add (l : List Concrete.F64) : l.foldl Concrete.F64.add .nan = .nan := by
  induction l with
  | nil => rfl
  | cons x xs ih => rw [List.foldl_cons]; exact ih

theorem Concrete.sum_nan {l : List Concrete.F64} (h : .nan ∈ l) : ∀ a, l.foldl Concrete.F64.add a = .nan := by
  induction l with
  | nil => cases h
  | cons x xs ih =>
    intro a
    rw [List.foldl_cons]
    rcases List.mem_cons.mp h with rfl | h
    · have : Concrete.F64.add a .nan = .nan := by cases a <;> rfl
      rw [this]
      exact Concrete.nan_add xs
    · exact ih h _

/-- **C63, not a number.** With IEEE doubles, a NaN among otherwise acceptable fractions is not rejected: it passes all
comparisons and its conversion to an integer is undefined behaviour. -/
theorem C63_nan [Concrete.Log2Impl] {k tot : Nat} {tol : Concrete.fp.F} {fr : List Concrete.fp.F} (hl : k ≤ fr.length)
    (hnan : Concrete.F64.nan ∈ fr.take k)
    (hrest : ∀ q : ℚ, Concrete.F64.fin q ∈ fr.take k → 0 ≤ q ∧ q ≤ 1) (hinf : ∀ s, Concrete.F64.inf s ∉ fr.take k) :
    Target.ofFractions (fp := Concrete.fp) k tot tol fr = ub := by
  have hsum : (fr.take k).foldl Concrete.fp.add (Concrete.fp.lit 0 0) = Concrete.F64.nan := Concrete.sum_nan hnan _
  have hv : ValidFractions Concrete.fp (fr.take k) := by
    refine ⟨fun f hf => ?_, ?_, ?_⟩
    · rw [Concrete.lit_zero, Concrete.lit_one]
      cases f with
      | nan => exact ⟨rfl, rfl⟩
      | inf s => exact absurd hf (hinf s)
      | fin q =>
        obtain ⟨h0, h1⟩ := hrest q hf
        have e1 : decide (q < 0) = false := by simpa using h0
        have e2 : decide (1 < q) = false := by simpa using h1
        exact ⟨e1, e2⟩
    · rw [hsum]; rfl
    · rw [hsum]
      show Concrete.F64.lt (Concrete.fp.add (Concrete.fp.lit 1 0) (Concrete.fp.lit 1 4)) .nan = false
      cases (Concrete.fp.add (Concrete.fp.lit 1 0) (Concrete.fp.lit 1 4) : Concrete.F64) <;> rfl
  rcases C48_accepts (fp := Concrete.fp) (tot := tot) (tol := tol) hl hv with h | ⟨t, -, -, -, -, -, hall⟩
  · exact h
  · obtain ⟨q, hq, he⟩ := List.mem_iff_getElem.mp hnan
    have hq' : q < k := lt_of_lt_of_le hq (List.length_take_le _ _)
    have h1 := (hall q hq').1
    have e : nth fr q = Concrete.F64.nan := by
      rw [nth_eq_getElem (show q < fr.length by omega)]
      exact (List.getElem_take (xs := fr)).symm.trans he
    rw [e] at h1
    have : Concrete.F64.toU32 (Concrete.F64.mul .nan (Concrete.fp.ofNat tot)) = none := rfl
    rw [show Concrete.fp.toU32 (Concrete.fp.mul Concrete.F64.nan (Concrete.fp.ofNat tot)) = none from this] at h1
    cases h1

/-- The hypotheses are met. -/
example : Concrete.F64.nan ∈ [Concrete.F64.fin (1 / 2), .nan].take 2 ∧ ¬ ValidFractions Concrete.fp [Concrete.F64.fin 2] :=
  ⟨by decide, fun h => absurd (h.each _ (List.mem_singleton.mpr rfl)).2 (by decide +kernel)⟩

/-- **C48 for binary64.** With IEEE doubles, valid fractions, a tolerance between 0 and 1 and a total weight below `2^31`
the target is made, without exception or undefined behaviour. -/
theorem C48_binary64 [Concrete.Log2Impl] {k tot : Nat} {tol : ℚ} {fr : List Concrete.fp.F} (hl : k ≤ fr.length) (h0 : 0 ≤ tol) (h1 : tol ≤ 1)
    (htot : tot < 2 ^ 31) (hfin : ∀ f ∈ fr.take k, f ≠ Concrete.F64.nan) (hv : ValidFractions Concrete.fp (fr.take k)) :
    ∃ t, Target.ofFractions (fp := Concrete.fp) k tot (Concrete.F64.fin tol) fr = ok t := by
  have htot' : tot < 2147483648 := by simpa using htot
  have hq : ∀ f ∈ fr.take k, ∃ q : ℚ, f = Concrete.F64.fin q ∧ 0 ≤ q ∧ q ≤ 1 := by
    intro f hf
    obtain ⟨h2, h3⟩ := hv.each f hf
    rw [Concrete.lit_zero] at h2
    rw [Concrete.lit_one] at h3
    cases f with
    | nan => exact absurd rfl (hfin _ hf)
    | inf s =>
      cases s with
      | true => cases h2
      | false => cases h3
    | fin q =>
      have e1 : decide (q < 0) = false := h2
      have e2 : decide (1 < q) = false := h3
      exact ⟨q, rfl, by simpa using e1, by simpa using e2⟩
  have small : ∀ {x : ℚ} {n : Nat}, 0 ≤ x → x ≤ n → n < 4294967296 →
      ∃ r, Concrete.rnd x = .fin r ∧ 0 ≤ r ∧ r ≤ n := fun hx hn hlt => by
    obtain ⟨r, a, b, c⟩ := Concrete.rnd_le_nat hx hn (by omega)
    exact ⟨r, a, b, c⟩
  have ht0 : (0 : ℚ) ≤ tot := Nat.cast_nonneg tot
  obtain ⟨c, hc, hc0, hc2⟩ := small (x := 1 + tol) (n := 2) (by linarith) (by push_cast; linarith) (by norm_num)
  have cast : ∀ {x : ℚ} {n : Nat}, 0 ≤ x → x ≤ n → n < 4294967296 → ∃ m, Concrete.fp.cast (Concrete.F64.fin x) = ok m := by
    intro x n hx hn hlt
    obtain ⟨m, hm, -⟩ := Concrete.toU32_fin hx (lt_of_le_of_lt hn (by exact_mod_cast hlt))
    refine ⟨m, ?_⟩
    unfold FP.cast
    rw [show Concrete.fp.toU32 (Concrete.F64.fin x) = some m from hm]
  have hsat : ∀ F : Concrete.fp.F → Concrete.fp.F, (∀ f ∈ fr.take k, ∃ m, Concrete.fp.cast (F f) = ok m) →
      ∃ out, (fr.take k).mapM (fun f => Concrete.fp.cast (F f)) = ok out := by
    intro F hF
    obtain ⟨out, ho, -⟩ := sat_iff.mp (Post_mapM (B := False) (f := fun f => Concrete.fp.cast (F f)) (l := fr.take k)
      (fun _ _ => True) (fun f hf => by
        obtain ⟨m, hm⟩ := hF f hf
        rw [hm]; trivial))
    exact ⟨out, ho⟩
  refine (?_ : ∃ t, _ = ok t).imp fun t h =>
    ((ofFractions_eq (fp := Concrete.fp) (tot := tot) (tol := Concrete.F64.fin tol) hl).2 hv).trans h
  unfold calcTargetWeight calcMaxWeight
  obtain ⟨tw, e1⟩ := hsat (fun f => Concrete.fp.mul f (Concrete.fp.ofNat tot)) (fun f hf => by
    obtain ⟨q, rfl, q0, q1⟩ := hq f hf
    rw [Concrete.ofNat_exact (by omega), Concrete.mul_fin]
    obtain ⟨r, hr, r0, r1⟩ := small (x := q * tot) (n := tot) (mul_nonneg q0 ht0) (mul_le_of_le_one_left ht0 q1) (by omega)
    rw [hr]
    exact cast r0 r1 (by omega))
  obtain ⟨mx, e2⟩ := hsat (fun f => Concrete.fp.mul (Concrete.fp.mul f (Concrete.fp.add (Concrete.fp.lit 1 0)
      (Concrete.F64.fin tol))) (Concrete.fp.ofNat tot)) (fun f hf => by
    obtain ⟨q, rfl, q0, q1⟩ := hq f hf
    rw [Concrete.ofNat_exact (by omega), Concrete.lit_one, Concrete.add_fin, hc, Concrete.mul_fin]
    have hc2' : c ≤ 2 := by exact_mod_cast hc2
    obtain ⟨d, hd, d0, d2⟩ := small (x := q * c) (n := 2) (mul_nonneg q0 hc0)
      (by push_cast; exact le_trans (mul_le_of_le_one_left hc0 q1) hc2') (by norm_num)
    have d2' : d ≤ 2 := by exact_mod_cast d2
    rw [hd, Concrete.mul_fin]
    obtain ⟨r, hr, r0, r1⟩ := small (x := d * tot) (n := 2 * tot) (mul_nonneg d0 ht0)
      (by push_cast; exact mul_le_mul_of_nonneg_right d2' ht0) (by omega)
    rw [hr]
    exact cast r0 r1 (by omega))
  rw [e1, ok_bind, e2, ok_bind]
  exact ⟨_, rfl⟩

/-- The hypotheses of C48 are met: a third and two thirds are accepted, an eighth and two thirds are not. -/
example : ValidFractions Concrete.fp [Concrete.rnd (1 / 3), Concrete.rnd (2 / 3)] ∧
    ¬ ValidFractions Concrete.fp [Concrete.rnd (1 / 8), Concrete.rnd (2 / 3)] ∧
    (∀ f ∈ [Concrete.rnd (1 / 3), Concrete.rnd (2 / 3)], Concrete.fp.mul f (Concrete.fp.lit 1 0) = f) ∧
    numbersOf' (Target.ofFractions (fp := Concrete.fp) 2 100 (Concrete.fp.lit 3 2) [Concrete.rnd (1 / 3), Concrete.rnd (2 / 3)]) =
      ok (2, [33, 66], [34, 68]) := by
  refine ⟨⟨by decide +kernel, by decide +kernel, by decide +kernel⟩, fun h => absurd h.low (by decide +kernel), ?_, ?_⟩
  · exact List.forall_mem_cons.mpr ⟨by show Concrete.F64.mul _ _ = _; decide +kernel,
      List.forall_mem_cons.mpr ⟨by show Concrete.F64.mul _ _ = _; decide +kernel, fun _ h => nomatch h⟩⟩
  · decide +kernel

/-! ### C49 -/

/-- **C49, balance.** `isBalanced` holds exactly if no part exceeds its maximum weight. -/
theorem C49_isBalanced {g : Graph} {k : Nat} {p : Partitioning} (hp : IsExact g k p) {t : Target fp}
    (hm : t.mx.length = k) :
    ∃ b, isBalanced p t = ok b ∧ (b = true ↔ ∀ q, q < k → partWeight g p.lab q ≤ nth t.mx q) := by
  unfold isBalanced
  rw [hp.pw_len]
  refine sat_iff.mp (Post_foldlM_range (B := False) (n := k)
    (P := fun n b => (b = true ↔ ∀ q, q < n → partWeight g p.lab q ≤ nth t.mx q)) (by simp) fun i b hi hb => ?_)
  cases b with
  | true =>
    rw [if_pos rfl]
    unfold isOverWeight
    rw [rd_of_lt (by omega), ok_bind, rd_of_lt (by rw [hp.pw_len]; exact hi), ok_bind, ok_bind, hp.weights i hi]
    have hb := hb.mp rfl
    simp only [Post_ok]
    constructor
    · intro h q hq
      rcases Nat.lt_succ_iff_lt_or_eq.mp hq with hq | rfl
      · exact hb q hq
      · simpa using h
    · intro h
      simpa using h i (by omega)
  | false =>
    rw [if_neg (by decide)]
    simp only [Post_ok]
    constructor
    · intro h; cases h
    · intro h
      exact hb.mpr fun q hq => h q (by omega)

/-- **C49, maximum.** `findMax` reports the largest of zero and the imbalances of the parts (none exceeds it), and,
unless it is zero, a part that has it. -/
theorem C49_findMax (htr : fp.LtTrans) (hir : fp.LtIrrefl) {g : Graph} {k : Nat} {p : Partitioning} (hp : IsExact g k p)
    {t : Target fp} (hf : t.frac.length = k) :
    ∃ i m, findMax g p t = ok (i, m) ∧ calcMaxImbalance g p t = ok m ∧ findMostOverWeight g p t = ok i ∧
      fp.lt m (fp.lit 0 0) = false ∧ (∀ q, q < k → fp.lt m (imbalance g t p.lab q) = false) ∧
      ((i = 0 ∧ m = fp.lit 0 0) ∨ (i < k ∧ m = imbalance g t p.lab i ∧ fp.lt (fp.lit 0 0) m = true)) := by
  have himb : ∀ q, q < k → getImbalance g p t q = ok (imbalance g t p.lab q) := by
    intro q hq
    unfold getImbalance getFraction imbalance imbalanceOf
    rw [rd_of_lt (by omega), ok_bind, rd_of_lt (by rw [hp.pw_len]; exact hq), ok_bind, ok_bind, hp.weights q hq]
  have key : ∃ s, findMax g p t = ok s ∧ fp.lt s.2 (fp.lit 0 0) = false ∧
      (∀ q, q < k → fp.lt s.2 (imbalance g t p.lab q) = false) ∧
      ((s.1 = 0 ∧ s.2 = fp.lit 0 0) ∨ (s.1 < k ∧ s.2 = imbalance g t p.lab s.1 ∧ fp.lt (fp.lit 0 0) s.2 = true)) := by
    unfold findMax
    rw [hp.pw_len]
    refine sat_iff.mp (Post_foldlM_range (B := False) (n := k) (P := fun n (s : Nat × fp.F) =>
      fp.lt s.2 (fp.lit 0 0) = false ∧ (∀ q, q < n → fp.lt s.2 (imbalance g t p.lab q) = false) ∧
      ((s.1 = 0 ∧ s.2 = fp.lit 0 0) ∨ (s.1 < n ∧ s.2 = imbalance g t p.lab s.1 ∧ fp.lt (fp.lit 0 0) s.2 = true)))
      ⟨hir _, by simp, Or.inl ⟨rfl, rfl⟩⟩ fun i s hi hs => ?_)
    obtain ⟨h1, h2, h3⟩ := hs
    rw [himb i hi, ok_bind]
    split
    · rename_i hlt
      have h0 : fp.lt (fp.lit 0 0) (imbalance g t p.lab i) = true := by
        rcases h3 with ⟨-, h⟩ | ⟨-, -, h⟩
        · rw [h] at hlt; exact hlt
        · exact htr _ _ _ h hlt
      refine ⟨?_, fun q hq => ?_, Or.inr ⟨by simp, rfl, h0⟩⟩
      · by_contra hc
        rw [Bool.not_eq_false] at hc
        have := htr _ _ _ h0 hc
        rw [hir] at this; cases this
      · rcases Nat.lt_succ_iff_lt_or_eq.mp hq with hq | rfl
        · by_contra hc
          rw [Bool.not_eq_false] at hc
          have := htr _ _ _ hlt hc
          rw [h2 q hq] at this; cases this
        · exact hir _
    · rename_i hlt
      rw [Bool.not_eq_true] at hlt
      refine ⟨h1, fun q hq => ?_, h3.imp id fun h => ⟨by omega, h.2⟩⟩
      rcases Nat.lt_succ_iff_lt_or_eq.mp hq with hq | rfl
      · exact h2 q hq
      · exact hlt
  obtain ⟨⟨i, m⟩, h1, h2, h3, h4⟩ := key
  refine ⟨i, m, h1, ?_, ?_, h2, h3, h4⟩
  · unfold calcMaxImbalance; rw [h1]; rfl
  · unfold findMostOverWeight; rw [h1]; rfl

theorem Concrete.ltTrans [Concrete.Log2Impl] : Concrete.fp.LtTrans := by
  intro a b c h1 h2
  cases a with
  | nan => cases h1
  | inf s =>
    cases b with
    | nan => cases h1
    | inf s' =>
      cases s' with
      | true => cases s <;> cases h1
      | false => rcases c with _ | z | _ <;> cases h2
    | fin y =>
      cases s with
      | false => cases h1
      | true => rcases c with _ | z | _ <;> first | rfl | cases h2 | exact h2
  | fin x =>
    cases b with
    | nan => cases h1
    | inf s' =>
      cases s' with
      | true => cases h1
      | false => rcases c with _ | z | _ <;> cases h2
    | fin y =>
      cases c with
      | nan => cases h2
      | inf s'' => exact h2
      | fin z =>
        have e1 : decide (x < y) = true := h1
        have e2 : decide (y < z) = true := h2
        show decide (x < z) = true
        rw [decide_eq_true_eq] at *
        exact lt_trans e1 e2

theorem Concrete.ltIrrefl [Concrete.Log2Impl] : Concrete.fp.LtIrrefl := by
  intro a
  cases a with
  | nan => rfl
  | inf s => cases s <;> rfl
  | fin q => show decide (q < q) = false; simp

/-- The hypotheses of C49 are met, by a bisection whose first part is overweight: the analyzer names part 0. -/
example : IsExact Ex.tri2 2 Ex.badPart ∧
    numbersOf' (Target.ofFractions (fp := Concrete.fp) 2 9 (Concrete.fp.lit 3 2) [Concrete.fp.lit 5 1, Concrete.fp.lit 5 1]) =
      ok (2, [4, 4], [4, 4]) ∧
    (∃ t : Target Concrete.fp, t.mx.length = 2 ∧ t.frac.length = 2 ∧ isBalanced Ex.badPart t = ok false ∧
      findMostOverWeight Ex.tri2 Ex.badPart t = ok 0) :=
  ⟨Ex.badPart_exact, by decide +kernel, ⟨2, [Concrete.fp.lit 5 1, Concrete.fp.lit 5 1], [4, 4], [4, 4]⟩, rfl, rfl,
    by decide +kernel, by decide +kernel⟩

end Poros
