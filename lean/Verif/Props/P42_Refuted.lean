import Verif.Props.P40_Api
import Verif.Proofs.NullWeights
import Verif.Proofs.UnitWeights
import Mathlib.Algebra.BigOperators.Ring.Finset
/-
C42, C43, C57, C60, C61: what a user of the C interface might rely on and must not.
-/
namespace Poros
open Finset Res

/-! ### The target of a small graph -/

/-- The number of parts and the weights of a target. -/
def numbersOf {fp : FP} (x : Res (Target fp)) : Res (Nat × List Nat × List Nat) :=
  x >>= fun t => ok (t.k, t.tw, t.mx)

theorem numbersOf_ofFractions {fp : FP} (k tot : Nat) (tol : fp.F) (fractions : List fp.F) :
    numbersOf (Target.ofFractions k tot tol fractions) =
      if fractions.length < k then .ub else
      (List.range k).foldlM (fun acc i => do
        let f ← rd (fractions.take k) i
        if fp.lt f (fp.lit 0 0) || fp.lt (fp.lit 1 0) f then Target.invalidFractions (fractions.take k)
        else .ok (fp.add acc f)) (fp.lit 0 0) >>= fun sum =>
      if fp.lt sum (fp.sub (fp.lit 1 0) (fp.lit 1 4)) || fp.lt (fp.add (fp.lit 1 0) (fp.lit 1 4)) sum then
        Target.invalidFractions (fractions.take k)
      else
        calcTargetWeight fp tot (fractions.take k) >>= fun tw =>
        calcMaxWeight fp tot tol (fractions.take k) >>= fun mx => ok (k, tw, mx) := by
  unfold Target.ofFractions numbersOf
  by_cases h : fractions.length < k
  · simp only [h, if_true]
    rfl
  · simp only [h, if_false, bind_assoc]
    congr 1
    funext sum
    split
    · unfold Target.invalidFractions
      cases rd (fractions.take k) 0 <;> try rfl
      cases rd (fractions.take k) 1 <;> rfl
    · simp only [bind_assoc]
      rfl

/-- The targets of the C interface do not involve the logarithm. -/
theorem uniform_log2 (L M : Concrete.Log2Impl) (k n : Nat) :
    numbersOf (Target.uniform (fp := @Concrete.fp L) k n ((@Concrete.fp L).lit 3 2)) =
      numbersOf (Target.uniform (fp := @Concrete.fp M) k n ((@Concrete.fp M).lit 3 2)) := by
  unfold Target.uniform
  rw [numbersOf_ofFractions, numbersOf_ofFractions]
  rfl

/-- The first step of recursive bisection depends on the logarithm through the tolerance factor only. -/
theorem makeHalves_log2 (L M : Concrete.Log2Impl) (k : Nat) (tw mx : List Nat)
    (h : toleranceFactor (@Concrete.fp L) k = toleranceFactor (@Concrete.fp M) k) :
    makeHalves (fp := @Concrete.fp L) ⟨k, [], tw, mx⟩ = makeHalves (fp := @Concrete.fp M) ⟨k, [], tw, mx⟩ := by
  have e : halvesStep (fp := @Concrete.fp L) ⟨k, [], tw, mx⟩ = halvesStep (fp := @Concrete.fp M) ⟨k, [], tw, mx⟩ := by
    funext s p
    unfold halvesStep
    simp only [h]
    rfl
  unfold makeHalves
  rw [e]

theorem toleranceFactor_pow [L : Concrete.Log2Impl] (m : Nat) (hm : m < 32)
    (hr : Concrete.rnd (((2 ^ m : Nat) : Nat) : ℚ) = .fin ((2 ^ m : Nat) : ℚ)) :
    toleranceFactor (@Concrete.fp L) (2 ^ m) =
      Concrete.F64.div (Concrete.rnd (((1 : Nat) : ℚ) / ((10 ^ 0 : Nat) : ℚ))) (.fin (m : ℚ)) := by
  show Concrete.F64.div (Concrete.rnd (((1 : Nat) : ℚ) / ((10 ^ 0 : Nat) : ℚ)))
    (L.log2 (Concrete.rnd (((2 ^ m : Nat) : Nat) : ℚ))) = _
  rw [hr, L.exact m hm]

set_option synthInstance.maxSize 1000 in
/-- The uniform target of the C interface for an odd total weight up to 33: each side is to weigh, and
may weigh at most, the smaller half. -/
theorem uniform_odd33 [Concrete.Log2Impl] : ∀ n, n < 34 → n % 2 = 1 →
    numbersOf (Target.uniform (fp := Concrete.fp) 2 n (Concrete.fp.lit 3 2)) =
      ok (2, [n / 2, n / 2], [n / 2, n / 2]) := by
  have h : ∀ n, n < 34 → n % 2 = 1 →
      numbersOf (Target.uniform (fp := @Concrete.fp Concrete.floorLog2) 2 n ((@Concrete.fp Concrete.floorLog2).lit 3 2)) =
        ok (2, [n / 2, n / 2], [n / 2, n / 2]) := by decide +kernel
  exact fun n h1 h2 => (uniform_log2 _ _ 2 n).trans (h n h1 h2)

theorem toleranceFactor_two (L M : Concrete.Log2Impl) :
    toleranceFactor (@Concrete.fp L) 2 = toleranceFactor (@Concrete.fp M) 2 :=
  (toleranceFactor_pow (L := L) 1 (by decide) (by decide +kernel)).trans
    (toleranceFactor_pow (L := M) 1 (by decide) (by decide +kernel)).symm

theorem toleranceFactor_four (L M : Concrete.Log2Impl) :
    toleranceFactor (@Concrete.fp L) 4 = toleranceFactor (@Concrete.fp M) 4 :=
  (toleranceFactor_pow (L := L) 2 (by decide) (by decide +kernel)).trans
    (toleranceFactor_pow (L := M) 2 (by decide) (by decide +kernel)).symm

theorem halves_odd [Concrete.Log2Impl] : ∀ n, n < 20 → n % 2 = 1 →
    makeHalves (fp := Concrete.fp) ⟨2, [], [n / 2, n / 2], [n / 2, n / 2]⟩ =
      ok { tw := [n / 2, n / 2], mx := [n / 2, n / 2], num := [0, 1, 2] } := by
  have h : ∀ n, n < 20 → n % 2 = 1 →
      makeHalves (fp := @Concrete.fp Concrete.floorLog2) ⟨2, [], [n / 2, n / 2], [n / 2, n / 2]⟩ =
        ok { tw := [n / 2, n / 2], mx := [n / 2, n / 2], num := [0, 1, 2] } := by decide +kernel
  exact fun n h1 h2 => (makeHalves_log2 _ _ 2 _ _ (toleranceFactor_two _ _)).trans (h n h1 h2)

/-- A run whose bisection is undefined behaviour is undefined behaviour. -/
theorem rbExecute_ub {E : Env} {bis : Bisector E} {t : Target E.fp} {g : Graph} {r : E.rng.S} (hk : 0 < t.k) {h : Halves}
    (hh : makeHalves t = ok h) {bt : Target E.fp} (hb : Target.ofWeights 2 h.tw h.mx = ok bt)
    (hu : bis bt g r = ub) : rbExecute bis t g r = ub := by
  unfold rbExecute
  obtain ⟨n, hn⟩ : ∃ n, t.k = n + 1 := ⟨t.k - 1, by omega⟩
  rw [hn]
  unfold rbRecurse
  rw [hh, ok_bind, hb, ok_bind, hu]
  rfl

/-- If the first run is undefined behaviour, so is the call. -/
theorem call_ub {E : Env} {i : Input} {o : Options E.fp} {P : Prepared E} (hp : prepare E i o = ok P)
    (hc : 0 < o.numGlobalCuts) (hu : ∀ r, partitioner E P.scheme P.target P.graph r = ub) (out : Out) :
    (partGraphRecursive E i (some o) out).2 = ub := by
  obtain ⟨n, hn⟩ : ∃ n, o.numGlobalCuts.toNat = n + 1 := ⟨o.numGlobalCuts.toNat - 1, by omega⟩
  unfold partGraphRecursive
  simp only
  rw [hp]
  simp only [andThen, hn, cutsLoop, hu]

/-! ### C42 -/

/-- **C42, refuted.** "A null `vertexWeights` means unit weights" is unsafe: for *every* valid graph with an odd number
of vertices up to 19 and null vertex weights, splitting it into two parts has undefined behaviour (it reads the absent
weight array), whatever the priority queue, random engine, seed, number of cuts and (known) scheme. -/
theorem C42_null_weights_undefined [Concrete.Log2Impl] (pq : PQImpl) (set : SetImpl) (rng : RngImpl) {i : Input} (hv : i.Valid)
    (hnull : i.vertexWeights = none) (hodd : i.numVertices % 2 = 1) (h19 : i.numVertices ≤ 19)
    (hk : i.numPartitions = 2) {o : Options Concrete.fp} (ho : o.Known) (hc : 0 < o.numGlobalCuts) (out : Out) :
    (partGraphRecursive ⟨pq, set, rng, Concrete.fp⟩ i (some o) out).2 = ub := by
  let E : Env := ⟨pq, set, rng, Concrete.fp⟩
  obtain ⟨P, hp, -⟩ := prepare_total (E := E) Concrete.uniformOK hv (by omega) (by omega) ho
  have hP := prepare_ok (E := E) hv hp
  refine call_ub (E := E) hp hc (fun r => ?_) out
  have htot : i.totalWeight = i.numVertices := by
    unfold Input.totalWeight
    rw [hnull]
    simp [weightAt]
  have ht := hP.target
  rw [hk, htot] at ht
  have hu := uniform_odd33 i.numVertices (by omega) hodd
  rw [show Target.uniform (fp := Concrete.fp) 2 i.numVertices (Concrete.fp.lit 3 2) = ok P.target from ht] at hu
  simp only [numbersOf, ok_bind, Res.ok.injEq, Prod.mk.injEq] at hu
  obtain ⟨hk', htw, hmx⟩ := hu
  have hh : makeHalves P.target = makeHalves (fp := Concrete.fp)
      ⟨2, [], [i.numVertices / 2, i.numVertices / 2], [i.numVertices / 2, i.numVertices / 2]⟩ := by
    generalize P.target = T at hk' htw hmx
    obtain ⟨k, fr, tw, mx⟩ := T
    cases hk'
    cases htw
    cases hmx
    rfl
  rw [halves_odd i.numVertices (by omega) hodd] at hh
  obtain ⟨bt, hbt⟩ : ∃ bt, Target.ofWeights (fp := E.fp) 2 [i.numVertices / 2, i.numVertices / 2]
      [i.numVertices / 2, i.numVertices / 2] = ok bt := ⟨_, rfl⟩
  have hbtw : bt.Two ∧ bt.tw = [i.numVertices / 2, i.numVertices / 2] ∧ bt.mx = [i.numVertices / 2, i.numVertices / 2] := by
    cases hbt
    exact ⟨by constructor <;> rfl, rfl, rfl⟩
  refine rbExecute_ub (E := E) (by rw [hk']; omega) hh hbt (multilevel_null (E := E) Concrete.callOK.multilevel P.scheme
    hP.good hbtw.1 ?_ ?_ ?_ ?_ ?_ ?_ r)
  · rw [hP.rep.unitVtx_iff, hnull]
    exact fun _ _ => rfl
  · rw [hP.rep.vwgt_eq, hnull]
    simp [emptyIfNull]
  · rw [hP.rep.nv_eq]; omega
  · rw [hP.rep.nv_eq]; omega
  · rw [hbtw.2.1, hbtw.2.2]
  · rw [hbtw.2.1, hbtw.2.2, hP.rep.nv_eq]
    simp [nth]
    omega

/-- The hypotheses are met by a triangle with null weights: calling the library on it is undefined behaviour. -/
example : Ex.triIn.Valid ∧ Ex.triIn.vertexWeights = none ∧ Ex.triIn.numVertices % 2 = 1 ∧ Ex.triIn.numVertices ≤ 19 ∧
    Ex.triIn.numPartitions = 2 ∧ (defaultOptions Concrete.fp).Known ∧ 0 < (defaultOptions Concrete.fp).numGlobalCuts :=
  ⟨Ex.triIn_valid, rfl, rfl, by decide, rfl, Or.inr rfl, by decide⟩

/-! ### C43 -/

/-- An infinite or undefined number stays so. -/
theorem toU32_add_mul_inf (x y z : Concrete.F64) :
    Concrete.F64.toU32 (Concrete.F64.add x (Concrete.F64.add y (Concrete.F64.mul z (.inf false)))) = none := by
  have h1 : Concrete.F64.mul z (.inf false) = .nan ∨ ∃ b, Concrete.F64.mul z (.inf false) = .inf b := by
    cases z with
    | nan => exact Or.inl rfl
    | inf s => exact Or.inr ⟨_, rfl⟩
    | fin q =>
      have e : Concrete.F64.mul (.fin q) (.inf false) = if q = 0 then .nan else .inf (xor false (decide (q < 0))) := rfl
      rw [e]
      split
      · exact Or.inl rfl
      · exact Or.inr ⟨_, rfl⟩
  have h2 : ∀ u w : Concrete.F64, (w = .nan ∨ ∃ b, w = .inf b) →
      (Concrete.F64.add u w = .nan ∨ ∃ b, Concrete.F64.add u w = .inf b) := by
    rintro u w (rfl | ⟨b, rfl⟩)
    · cases u <;> exact Or.inl rfl
    · cases u with
      | nan => exact Or.inl rfl
      | fin q => exact Or.inr ⟨_, rfl⟩
      | inf s =>
        have e : Concrete.F64.add (.inf s) (.inf b) = if s = b then .inf s else .nan := rfl
        rw [e]
        split
        · exact Or.inr ⟨_, rfl⟩
        · exact Or.inl rfl
  rcases h2 x _ (h2 y _ h1) with h | ⟨b, h⟩ <;> rw [h] <;> rfl

theorem cast_inf [Concrete.Log2Impl] (x y z : Concrete.fp.F) :
    Concrete.fp.cast (Concrete.fp.add x (Concrete.fp.add y (Concrete.fp.mul z (Concrete.F64.inf false)))) = ub := by
  have h : Concrete.fp.toU32 (Concrete.fp.add x (Concrete.fp.add y (Concrete.fp.mul z (Concrete.F64.inf false)))) = none :=
    toU32_add_mul_inf x y z
  unfold FP.cast
  rw [h]

theorem ne_exn {x : Res α} (h : Wp True False True x (fun _ => True)) : x ≠ exn := by
  rintro rfl
  exact h

/-- One part: the fraction is 1 and accepted. -/
theorem uniform_one [Concrete.Log2Impl] (tot : Nat) : Target.uniform (fp := Concrete.fp) 1 tot (Concrete.fp.lit 3 2) ≠ exn := by
  have h1 : List.replicate 1 (Concrete.fp.div (Concrete.fp.lit 1 0) (Concrete.fp.ofNat 1)) = [Concrete.F64.fin 1] := by
    show List.replicate 1 (Concrete.F64.div (Concrete.rnd (((1 : Nat) : ℚ) / ((10 ^ 0 : Nat) : ℚ)))
      (Concrete.rnd ((1 : Nat) : ℚ))) = _
    decide +kernel
  have h2 : (Concrete.fp.lt (Concrete.F64.fin 1) (Concrete.fp.lit 0 0) ||
      Concrete.fp.lt (Concrete.fp.lit 1 0) (Concrete.F64.fin 1)) = false :=
    (by decide +kernel : ((@Concrete.fp Concrete.floorLog2).lt (Concrete.F64.fin 1) ((@Concrete.fp Concrete.floorLog2).lit 0 0) ||
      (@Concrete.fp Concrete.floorLog2).lt ((@Concrete.fp Concrete.floorLog2).lit 1 0) (Concrete.F64.fin 1)) = false)
  have h3 : Concrete.fp.add (Concrete.fp.lit 0 0) (Concrete.F64.fin 1) = Concrete.F64.fin 1 := by
    show Concrete.F64.add (Concrete.rnd (((0 : Nat) : ℚ) / ((10 ^ 0 : Nat) : ℚ))) (Concrete.F64.fin 1) = _
    decide +kernel
  have h4 : (Concrete.fp.lt (Concrete.F64.fin 1) (Concrete.fp.sub (Concrete.fp.lit 1 0) (Concrete.fp.lit 1 4)) ||
      Concrete.fp.lt (Concrete.fp.add (Concrete.fp.lit 1 0) (Concrete.fp.lit 1 4)) (Concrete.F64.fin 1)) = false :=
    (by decide +kernel : ((@Concrete.fp Concrete.floorLog2).lt (Concrete.F64.fin 1) ((@Concrete.fp Concrete.floorLog2).sub ((@Concrete.fp Concrete.floorLog2).lit 1 0) ((@Concrete.fp Concrete.floorLog2).lit 1 4)) ||
      (@Concrete.fp Concrete.floorLog2).lt ((@Concrete.fp Concrete.floorLog2).add ((@Concrete.fp Concrete.floorLog2).lit 1 0) ((@Concrete.fp Concrete.floorLog2).lit 1 4)) (Concrete.F64.fin 1)) = false)
  have h5 : ∀ x : Concrete.fp.F, Wp True False True (Concrete.fp.cast x) (fun _ => True) := by
    intro x
    unfold FP.cast
    split <;> trivial
  unfold Target.uniform Target.ofFractions
  rw [h1]
  show (if 1 < 1 then ub else
    ((if (Concrete.fp.lt (Concrete.F64.fin 1) (Concrete.fp.lit 0 0) ||
      Concrete.fp.lt (Concrete.fp.lit 1 0) (Concrete.F64.fin 1)) = true then _ else
        ok (Concrete.fp.add (Concrete.fp.lit 0 0) (Concrete.F64.fin 1))) >>= _) >>= _) ≠ exn
  rw [if_neg (by decide), h2, if_neg (by decide), ok_bind, h3]
  show (if (Concrete.fp.lt (Concrete.F64.fin 1) (Concrete.fp.sub (Concrete.fp.lit 1 0) (Concrete.fp.lit 1 4)) ||
      Concrete.fp.lt (Concrete.fp.add (Concrete.fp.lit 1 0) (Concrete.fp.lit 1 4)) (Concrete.F64.fin 1)) = true then _
      else _) ≠ exn
  rw [h4, if_neg (by decide)]
  exact ne_exn (Wp.bind (Q := fun _ => True) (Wp_mapM fun x _ => h5 _) fun _ _ =>
    Wp.bind (Q := fun _ => True) (Wp_mapM fun x _ => h5 _) fun _ _ => trivial)

/-- With one part the first step of recursive bisection divides by the logarithm of one. -/
theorem makeHalves_one [Concrete.Log2Impl] {t : Target Concrete.fp} (hk : t.k = 1) (htw : t.tw.length = 1) (hmx : t.mx.length = 1) :
    makeHalves t = ub := by
  have htf : toleranceFactor Concrete.fp 1 = .inf false :=
    (toleranceFactor_pow 0 (by decide) (by decide +kernel)).trans
      (by decide +kernel : Concrete.F64.div (Concrete.rnd (((1 : Nat) : ℚ) / ((10 ^ 0 : Nat) : ℚ)))
        (.fin ((0 : Nat) : ℚ)) = .inf false)
  unfold makeHalves
  rw [hk, show List.range 1 = [0] from rfl, List.foldlM_cons]
  unfold halvesStep
  have hh : halfOf t.k 0 = 1 := by rw [hk]; rfl
  rw [hh, rd_of_lt (by omega), ok_bind]
  show ((rd t.mx 0 >>= _) >>= _) >>= _ = _
  rw [rd_of_lt (by omega), ok_bind]
  show ((Concrete.fp.cast (Concrete.fp.add (Concrete.fp.ofNat 0) (Concrete.fp.add (Concrete.fp.ofNat (nth t.tw 0))
    (Concrete.fp.mul (Concrete.fp.ofNat (usub (nth t.mx 0) (nth t.tw 0))) (toleranceFactor Concrete.fp t.k)))) >>= _)
      >>= _) >>= _ = _
  rw [hk, htf, cast_inf]
  rfl

/-- **C43, refuted.** Asking for a single part never works: on every valid graph the call has undefined behaviour
(a division by `log2(1)` makes the limits infinite or undefined, and they are converted to integers). -/
theorem C43_one_part_undefined [Concrete.Log2Impl] (pq : PQImpl) (set : SetImpl) (rng : RngImpl) {i : Input} (hv : i.Valid)
    (hk : i.numPartitions = 1) {o : Options Concrete.fp} (ho : o.Known) (hc : 0 < o.numGlobalCuts) (out : Out) :
    (partGraphRecursive ⟨pq, set, rng, Concrete.fp⟩ i (some o) out).2 = ub := by
  let E : Env := ⟨pq, set, rng, Concrete.fp⟩
  obtain ⟨g, -, -, -, he⟩ := prepare_eq (E := E) hv o
  obtain ⟨s, hs⟩ := makeScheme_known ho
  rw [hs, ok_bind, hk] at he
  cases ht : Target.uniform (fp := Concrete.fp) 1 i.totalWeight (Concrete.fp.lit 3 2) with
  | ok t =>
    rw [show Target.uniform (fp := E.fp) 1 i.totalWeight (E.fp.lit 3 2) = ok t from ht, ok_bind] at he
    obtain ⟨-, h1, -, h2, h3, -⟩ := ofFractions_shape ht
    refine call_ub (E := E) he hc (fun r => ?_) out
    show rbExecute _ t g r = ub
    unfold rbExecute
    rw [h1]
    unfold rbRecurse
    rw [show makeHalves t = ub from makeHalves_one h1 h2 h3]
    rfl
  | ub =>
    rw [show Target.uniform (fp := E.fp) 1 i.totalWeight (E.fp.lit 3 2) = ub from ht] at he
    show (andThen (prepare E i o) out _).2 = ub
    rw [he]
    rfl
  | diverge =>
    exfalso
    exact (uniform_ends (fp := Concrete.fp) 1 i.totalWeight (Concrete.fp.lit 3 2)).ne ht
  | exn =>
    exact absurd ht (uniform_one _)

/-- The hypotheses are met. -/
example : ({ Ex.tri2In with numPartitions := 1 } : Input).Valid ∧ (defaultOptions Concrete.fp).Known ∧
    0 < (defaultOptions Concrete.fp).numGlobalCuts :=
  ⟨Ex.valid_of (by constructor <;> decide +kernel) (by decide +kernel) (by decide +kernel) (by decide +kernel)
    (by decide +kernel), Or.inr rfl, by decide⟩

/-- **C43, no part.** Asking for zero parts is not rejected with an exception either: composing the message of the
exception reads the first entry of an empty array. -/
theorem C43_no_part_undefined [Concrete.Log2Impl] (pq : PQImpl) (set : SetImpl) (rng : RngImpl) {i : Input} (hv : i.Valid)
    (hk : i.numPartitions = 0) {o : Options Concrete.fp} (ho : o.Known) (out : Out) :
    (partGraphRecursive ⟨pq, set, rng, Concrete.fp⟩ i (some o) out).2 = ub := by
  let E : Env := ⟨pq, set, rng, Concrete.fp⟩
  obtain ⟨g, -, -, -, he⟩ := prepare_eq (E := E) hv o
  obtain ⟨s, hs⟩ := makeScheme_known ho
  rw [hs, ok_bind, hk] at he
  have h4 : (Concrete.fp.lt (Concrete.fp.lit 0 0) (Concrete.fp.sub (Concrete.fp.lit 1 0) (Concrete.fp.lit 1 4)) ||
      Concrete.fp.lt (Concrete.fp.add (Concrete.fp.lit 1 0) (Concrete.fp.lit 1 4)) (Concrete.fp.lit 0 0)) = true :=
    (by decide +kernel : ((@Concrete.fp Concrete.floorLog2).lt ((@Concrete.fp Concrete.floorLog2).lit 0 0) ((@Concrete.fp Concrete.floorLog2).sub ((@Concrete.fp Concrete.floorLog2).lit 1 0) ((@Concrete.fp Concrete.floorLog2).lit 1 4)) ||
      (@Concrete.fp Concrete.floorLog2).lt ((@Concrete.fp Concrete.floorLog2).add ((@Concrete.fp Concrete.floorLog2).lit 1 0) ((@Concrete.fp Concrete.floorLog2).lit 1 4)) ((@Concrete.fp Concrete.floorLog2).lit 0 0)) = true)
  have ht : Target.uniform (fp := E.fp) 0 i.totalWeight (E.fp.lit 3 2) = ub := by
    unfold Target.uniform Target.ofFractions
    show (if (Concrete.fp.lt (Concrete.fp.lit 0 0) (Concrete.fp.sub (Concrete.fp.lit 1 0) (Concrete.fp.lit 1 4)) ||
      Concrete.fp.lt (Concrete.fp.add (Concrete.fp.lit 1 0) (Concrete.fp.lit 1 4)) (Concrete.fp.lit 0 0)) = true then _
      else _) = ub
    rw [if_pos h4]
    rfl
  show (andThen (prepare E i o) out _).2 = ub
  rw [he, ht]
  rfl

/-! ### C57 -/

set_option synthInstance.maxSize 1000 in
/-- The uniform target of the C interface for four parts and a total weight up to 20. -/
theorem uniform_four [Concrete.Log2Impl] : ∀ n, n < 21 →
    numbersOf (Target.uniform (fp := Concrete.fp) 4 n (Concrete.fp.lit 3 2)) =
      ok (4, [n / 4, n / 4, n / 4, n / 4], [n / 4, n / 4, n / 4, n / 4]) := by
  have h : ∀ n, n < 21 →
      numbersOf (Target.uniform (fp := @Concrete.fp Concrete.floorLog2) 4 n ((@Concrete.fp Concrete.floorLog2).lit 3 2)) =
        ok (4, [n / 4, n / 4, n / 4, n / 4], [n / 4, n / 4, n / 4, n / 4]) := by decide +kernel
  exact fun n h1 => (uniform_log2 _ _ 4 n).trans (h n h1)

theorem halves_four [Concrete.Log2Impl] : ∀ m, m < 6 → makeHalves (fp := Concrete.fp) ⟨4, [], [m, m, m, m], [m, m, m, m]⟩ =
    ok { tw := [2 * m, 2 * m], mx := [2 * m, 2 * m], num := [0, 2, 4] } := by
  have h : ∀ m, m < 6 → makeHalves (fp := @Concrete.fp Concrete.floorLog2) ⟨4, [], [m, m, m, m], [m, m, m, m]⟩ =
    ok { tw := [2 * m, 2 * m], mx := [2 * m, 2 * m], num := [0, 2, 4] } := by decide +kernel
  exact fun n h1 => (makeHalves_log2 _ _ 4 _ _ (toleranceFactor_four _ _)).trans (h n h1)

theorem halves_pair [Concrete.Log2Impl] : ∀ m, m < 6 → makeHalves (fp := Concrete.fp) ⟨2, [], [m, m], [m, m]⟩ =
    ok { tw := [m, m], mx := [m, m], num := [0, 1, 2] } := by
  have h : ∀ m, m < 6 → makeHalves (fp := @Concrete.fp Concrete.floorLog2) ⟨2, [], [m, m], [m, m]⟩ =
    ok { tw := [m, m], mx := [m, m], num := [0, 1, 2] } := by decide +kernel
  exact fun n h1 => (makeHalves_log2 _ _ 2 _ _ (toleranceFactor_two _ _)).trans (h n h1)

/-- **C57, refuted.** Explicit vertex weights that all equal one are not safe: for *every* valid graph with up to 20
vertices, their number not divisible by four, and an explicit array of ones as vertex weights, splitting it into four
parts has undefined behaviour, whatever the priority queue, random engine, seed, number of cuts and (known) scheme.
(Splitting it into two has none: C54.) -/
theorem C57_unit_weights_undefined [Concrete.Log2Impl] (pq : PQImpl) (set : SetImpl) (rng : RngImpl) {i : Input} (hv : i.Valid)
    (hsome : i.vertexWeights.isSome) (hone : ∀ v, v < i.numVertices → weightAt i.vertexWeights v = 1)
    (hdiv : i.numVertices % 4 ≠ 0) (h20 : i.numVertices ≤ 20) (hk : i.numPartitions = 4) {o : Options Concrete.fp}
    (ho : o.Known) (hc : 0 < o.numGlobalCuts) (out : Out) :
    (partGraphRecursive ⟨pq, set, rng, Concrete.fp⟩ i (some o) out).2 = ub := by
  let E : Env := ⟨pq, set, rng, Concrete.fp⟩
  obtain ⟨P, hp, -⟩ := prepare_total (E := E) Concrete.uniformOK hv (by omega) (by omega) ho
  have hP := prepare_ok (E := E) hv hp
  refine call_ub (E := E) hp hc (fun r => ?_) out
  have htot : i.totalWeight = i.numVertices := by
    unfold Input.totalWeight
    rw [sum_congr rfl fun v hv => hone v (mem_range.mp hv)]
    simp
  have ht := hP.target
  rw [hk, htot] at ht
  have hu := uniform_four i.numVertices (by omega)
  rw [show Target.uniform (fp := Concrete.fp) 4 i.numVertices (Concrete.fp.lit 3 2) = ok P.target from ht] at hu
  simp only [numbersOf, ok_bind, Res.ok.injEq, Prod.mk.injEq] at hu
  obtain ⟨hk', htw, hmx⟩ := hu
  have hh : makeHalves P.target = makeHalves (fp := Concrete.fp)
      ⟨4, [], [i.numVertices / 4, i.numVertices / 4, i.numVertices / 4, i.numVertices / 4],
        [i.numVertices / 4, i.numVertices / 4, i.numVertices / 4, i.numVertices / 4]⟩ := by
    generalize P.target = T at hk' htw hmx
    obtain ⟨k, fr, tw, mx⟩ := T
    cases hk'
    cases htw
    cases hmx
    rfl
  rw [halves_four (i.numVertices / 4) (by omega)] at hh
  refine four_ub (E := E) Concrete.callOK.multilevel Concrete.callOK.badMoves P.scheme hk' htw hmx hh
    (fun fr => halves_pair (i.numVertices / 4) (by omega)) hP.good (hP.rep.unitVtx_iff.mpr hone) ?_ ?_ ?_ r
  · have := hv.csr.vw_len
    rw [hP.rep.vwgt_eq, hP.rep.nv_eq]
    obtain ⟨l, hl⟩ := Option.isSome_iff_exists.mp hsome
    rw [hl] at this ⊢
    simp only [shorter, not_lt] at this
    simp only [emptyIfNull, List.length_take]
    omega
  · rw [hP.rep.nv_eq]; omega
  · rw [hP.rep.nv_eq]; omega

/-- A path of five vertices with explicit vertex weights, all one, to be split in four. -/
def Ex.pathIn : Input :=
  { numVertices := 5, edgePrefix := [0, 1, 3, 5, 7, 8], edgeList := [1, 0, 2, 1, 3, 2, 4, 3],
    vertexWeights := some [1, 1, 1, 1, 1], edgeWeights := none, numPartitions := 4 }

theorem Ex.pathIn_valid : Ex.pathIn.Valid :=
  valid_of (by constructor <;> decide +kernel) (by decide +kernel) (by decide +kernel) (by decide +kernel)
    (by decide +kernel)

/-- The hypotheses are met by the path; and other explicit weights on the same path are fine. -/
example : Ex.pathIn.Valid ∧ Ex.pathIn.vertexWeights.isSome ∧
    (∀ v, v < Ex.pathIn.numVertices → weightAt Ex.pathIn.vertexWeights v = 1) ∧ Ex.pathIn.numVertices % 4 ≠ 0 ∧
    Ex.pathIn.numVertices ≤ 20 ∧ Ex.pathIn.numPartitions = 4 ∧ (Ex.cuts 1).Known ∧ 0 < (Ex.cuts 1).numGlobalCuts ∧
    (partGraphRecursive Concrete.env { Ex.pathIn with vertexWeights := some [1, 1, 1, 1, 2] } (some (Ex.cuts 1))
      Ex.before).2 = ok 1 :=
  ⟨Ex.pathIn_valid, rfl, by decide +kernel, by decide, by decide, rfl, Or.inr rfl, by decide, by decide +kernel⟩

/-! ### C61: no exceptions -/

/-- **C61.** A call on a valid graph with at least two parts and a known scheme never raises a C++ exception and
always comes to an end: it returns 1 or runs into undefined behaviour. -/
theorem C61_no_exception {E : Env} (hfp : E.fp.CallOK) {i : Input} (hv : i.Valid) (hk : 2 ≤ i.numPartitions)
    (hk' : i.numPartitions < 2 ^ 32) {o : Options E.fp} (ho : o.Known) (out : Out) :
    (partGraphRecursive E i (some o) out).2 = ok 1 ∨ (partGraphRecursive E i (some o) out).2 = ub := by
  obtain ⟨P, hp, -⟩ := prepare_total hfp.uniform hv hk hk' ho
  have hP := prepare_ok hv hp
  have hrun : ∀ r, Wp True False False (partitioner E P.scheme P.target P.graph r) (fun _ => True) := fun r =>
    (rbExecute_spec (bu := True) (be := False) (bd := False) (R := fun _ _ _ => True) (S := P.graph.sumVtx)
      (M := NULL32) (by omega) (fun bt g r hg _ hb _ _ =>
        (multilevel_ub_or_ok hfp.multilevel P.scheme hb hg r).mono fun o h => ⟨h, trivial⟩)
      (by rw [hP.k]; exact hk) (by rw [hP.k]; simpa using hk') hP.tw hP.mx (Or.inr ⟨trivial, rfl⟩) hP.good (le_refl _)
      r).mono fun _ _ => trivial
  have h1 := cutsLoop_ends (run := partitioner E P.scheme P.target P.graph)
    (fun r h => by have := hrun r; rw [h] at this; exact this) o.numGlobalCuts.toNat 0 0 out (E.rng.seed o.randomSeed)
  have h2 := cutsLoop_noexn (run := partitioner E P.scheme P.target P.graph)
    (fun r h => by have := hrun r; rw [h] at this; exact this) o.numGlobalCuts.toNat 0 0 out (E.rng.seed o.randomSeed)
  unfold partGraphRecursive
  simp only
  rw [hp]
  simp only [andThen]
  revert h1 h2
  generalize cutsLoop (partitioner E P.scheme P.target P.graph) o.numGlobalCuts.toNat 0 0 out
    (E.rng.seed o.randomSeed) = l
  obtain ⟨l1, l2⟩ := l
  intro h1 h2
  cases l2 with
  | ok a => exact Or.inl rfl
  | ub => exact Or.inr rfl
  | exn => exact absurd rfl h2
  | diverge => exact absurd rfl h1

/-- The hypotheses are met, and both outcomes occur. -/
example : Concrete.env.fp.CallOK ∧ Ex.pathIn.Valid ∧ (Ex.cuts 1).Known ∧
    (partGraphRecursive Concrete.env Ex.pathIn (some (Ex.cuts 1)) Ex.before).2 = ub ∧
    (partGraphRecursive Concrete.env Ex.tri2In (some (Ex.cuts 3)) Ex.before).2 = ok 1 :=
  ⟨Concrete.callOK, Ex.pathIn_valid, Or.inr rfl, by decide +kernel, by rw [Ex.tri2In_call]⟩

/-! ### C62: null options -/

/-- **C62, refuted.** include/poros.h:142 documents that the options "may be null when the defaults are desired". On no
valid input with at least two parts does the call with null options do what the call with the default options does:
the former returns 0 and writes nothing, the latter never returns 0. -/
theorem C62_null_is_not_default {E : Env} (hfp : E.fp.CallOK) {i : Input} (hv : i.Valid) (hk : 2 ≤ i.numPartitions)
    (hk' : i.numPartitions < 2 ^ 32) (out : Out) :
    partGraphRecursive E i none out = (out, ok 0) ∧
      (partGraphRecursive E i (some (defaultOptions E.fp)) out).2 ≠ (partGraphRecursive E i none out).2 := by
  refine ⟨rfl, fun h => ?_⟩
  rcases C61_no_exception hfp hv hk hk' (o := defaultOptions E.fp) (Or.inr rfl) out with h1 | h1 <;>
    rw [h1] at h <;> cases h

/-- The hypotheses are met. -/
example : Concrete.env.fp.CallOK ∧ Ex.tri2In.Valid ∧ 2 ≤ Ex.tri2In.numPartitions :=
  ⟨Concrete.callOK, Ex.tri2In_valid, by decide⟩

/-! ### C60: the limits -/

/-- **C60.** With IEEE doubles, for every number of parts from two, the preparations of a call succeed, and the target
and maximum weight of every part are `W/k` and `1.03 W/k`, rounded down, up to a rounding error below `0.00001`
(where `W` is the total vertex weight). -/
theorem C60_limits [Concrete.Log2Impl] (pq : PQImpl) (set : SetImpl) (rng : RngImpl) {i : Input} (hv : i.Valid) (hk : 2 ≤ i.numPartitions)
    (hk' : i.numPartitions < 2 ^ 32) {o : Options Concrete.fp} (ho : o.Known) :
    ∃ P, prepare ⟨pq, set, rng, Concrete.fp⟩ i o = ok P ∧ P.target.k = i.numPartitions ∧
      ∀ q, q < i.numPartitions →
        ((nth P.target.tw q : Nat) : ℚ) ≤ i.totalWeight / i.numPartitions + 1 / 100000 ∧
        (i.totalWeight / i.numPartitions : ℚ) < (nth P.target.tw q : Nat) + 1 + 1 / 100000 ∧
        ((nth P.target.mx q : Nat) : ℚ) ≤ 103 / 100 * (i.totalWeight / i.numPartitions) + 1 / 100000 ∧
        103 / 100 * (i.totalWeight / i.numPartitions : ℚ) < (nth P.target.mx q : Nat) + 1 + 1 / 100000 := by
  let E : Env := ⟨pq, set, rng, Concrete.fp⟩
  obtain ⟨g, -, -, -, he⟩ := prepare_eq (E := E) hv o
  obtain ⟨s, hs⟩ := makeScheme_known ho
  obtain ⟨f, a, b, hu, -, h1, h2, h3, h4⟩ := Concrete.uniform_bounds (k := i.numPartitions) (tot := i.totalWeight) hk
    (by simpa using hk') (by have := hv.vtxFits; simpa [Input.totalWeight] using this)
  rw [hs, ok_bind, show Target.uniform (fp := E.fp) i.numPartitions i.totalWeight (E.fp.lit 3 2) = _ from hu, ok_bind] at he
  have e : 1 / (i.numPartitions : ℚ) * i.totalWeight = i.totalWeight / i.numPartitions := by ring
  rw [e] at h1 h2 h3 h4
  refine ⟨_, he, rfl, fun q hq => ?_⟩
  simp only
  rw [nth_replicate hq, nth_replicate hq]
  exact ⟨h1, h2, by linarith, h4⟩

/-- **C60, feasibility.** If the average weight per part is at least 34, the maximum weights suffice for the whole
graph. -/
theorem C60_feasible [Concrete.Log2Impl] (pq : PQImpl) (set : SetImpl) (rng : RngImpl) {i : Input} (hv : i.Valid) (hk : 2 ≤ i.numPartitions)
    (hk' : i.numPartitions < 2 ^ 32) (hW : 34 * i.numPartitions ≤ i.totalWeight) {o : Options Concrete.fp} (ho : o.Known) :
    ∃ P, prepare ⟨pq, set, rng, Concrete.fp⟩ i o = ok P ∧
      i.totalWeight ≤ ∑ q ∈ range i.numPartitions, nth P.target.mx q := by
  obtain ⟨P, hp, -, h⟩ := C60_limits pq set rng hv hk hk' ho
  refine ⟨P, hp, ?_⟩
  have hkp : (0 : ℚ) < i.numPartitions := by exact_mod_cast (show 0 < i.numPartitions by omega)
  have hW' : (34 : ℚ) ≤ i.totalWeight / i.numPartitions := by
    rw [le_div_iff₀ hkp]; exact_mod_cast hW
  have hle : ∀ q ∈ range i.numPartitions, (i.totalWeight / i.numPartitions : ℚ) ≤ (nth P.target.mx q : Nat) := by
    intro q hq
    have := (h q (mem_range.mp hq)).2.2.2
    linarith
  have hs := sum_le_sum hle
  rw [sum_const, card_range, nsmul_eq_mul, mul_div_cancel₀ _ (ne_of_gt hkp), ← Nat.cast_sum] at hs
  exact_mod_cast hs

/-- **C60, infeasibility.** But for an odd total weight up to 33 the limits for two parts are too small: *no*
assignment of the vertices to two parts respects both of them. -/
theorem C60_infeasible [Concrete.Log2Impl] (pq : PQImpl) (set : SetImpl) (rng : RngImpl) {i : Input} (hv : i.Valid) (hk : i.numPartitions = 2)
    (hodd : i.totalWeight % 2 = 1) (h33 : i.totalWeight ≤ 33) {o : Options Concrete.fp} (ho : o.Known) :
    ∃ P, prepare ⟨pq, set, rng, Concrete.fp⟩ i o = ok P ∧
      ∀ lab : Nat → Nat, (∀ v, v < i.numVertices → lab v < 2) → ∃ q, q < 2 ∧ nth P.target.mx q < i.partWeight lab q := by
  let E : Env := ⟨pq, set, rng, Concrete.fp⟩
  obtain ⟨P, hp, -⟩ := prepare_total (E := E) Concrete.uniformOK hv (by omega) (by omega) ho
  have hP := prepare_ok (E := E) hv hp
  refine ⟨P, hp, fun lab hlab => ?_⟩
  have ht := hP.target
  rw [hk] at ht
  have hu := uniform_odd33 i.totalWeight (by omega) hodd
  rw [show Target.uniform (fp := Concrete.fp) 2 i.totalWeight (Concrete.fp.lit 3 2) = ok P.target from ht] at hu
  simp only [numbersOf, ok_bind, Res.ok.injEq, Prod.mk.injEq] at hu
  obtain ⟨-, -, hmx⟩ := hu
  have hsum : i.partWeight lab 0 + i.partWeight lab 1 = i.totalWeight := by
    unfold Input.partWeight Input.totalWeight
    rw [← sum_add_distrib]
    refine sum_congr rfl fun v hv => ?_
    have := hlab v (mem_range.mp hv)
    rcases (show lab v = 0 ∨ lab v = 1 by omega) with h | h <;> simp [h]
  rw [hmx]
  by_contra hn
  have h0 : ¬ nth [i.totalWeight / 2, i.totalWeight / 2] 0 < i.partWeight lab 0 := fun h => hn ⟨0, by omega, h⟩
  have h1 : ¬ nth [i.totalWeight / 2, i.totalWeight / 2] 1 < i.partWeight lab 1 := fun h => hn ⟨1, by omega, h⟩
  simp [nth] at h0 h1
  omega

/-- The hypotheses are met: `tri2` has total weight 9. -/
example : Ex.tri2In.Valid ∧ Ex.tri2In.numPartitions = 2 ∧ Ex.tri2In.totalWeight % 2 = 1 ∧ Ex.tri2In.totalWeight ≤ 33 ∧
    ({ Ex.tri2In with vertexWeights := some [10, 20, 10, 30, 10, 10] } : Input).totalWeight ≥ 34 * 2 :=
  ⟨Ex.tri2In_valid, rfl, by decide +kernel, by decide +kernel, by decide +kernel⟩

end Poros
