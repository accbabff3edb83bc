import Verif.Props.P38_Api
import Verif.ExamplesApi
import Verif.Proofs.F64Uniform
/-
C39 (more cuts), C40, C41, C54: further properties of the C interface.
-/
namespace Poros
open Finset Res

variable {E : Env}

/-! ### C38, C39: the hypotheses are met -/

/-- `tri2` from the caller's arrays, three runs: the call returns 1, the theorems apply. -/
example : Ex.tri2In.Valid ∧ 2 ≤ Ex.tri2In.numPartitions ∧ Ex.tri2In.numPartitions < 2 ^ 32 ∧
    0 < (Ex.cuts 3).numGlobalCuts ∧ Concrete.env.fp.SelfRatio ∧
    partGraphRecursive Concrete.env Ex.tri2In (some (Ex.cuts 3)) Ex.before =
      ({ cut := 1, asg := [0, 0, 0, 1, 1, 1, 9, 9] }, ok 1) :=
  ⟨Ex.tri2In_valid, by decide, by decide, by decide, Concrete.selfRatio, Ex.tri2In_call⟩

/-! ### C39: more runs are never worse -/

theorem candidates_prefix {bis : Bisector E} {t : Target E.fp} {g : Graph} {n : Nat} {r : E.rng.S}
    {ps : List Partitioning} {r1 : E.rng.S} (h : candidates bis t g n r = ok (ps, r1)) :
    ∀ (d : Nat) {qs : List Partitioning} {r2 : E.rng.S}, candidates bis t g (n + d) r = ok (qs, r2) →
      ∃ l, qs = ps ++ l
  | 0, qs, r2, h2 => by
    rw [Nat.add_zero, h] at h2
    cases h2
    exact ⟨[], by simp⟩
  | d + 1, qs, r2, h2 => by
    obtain ⟨a, h3, h4⟩ := bind_eq_ok (show (candidates bis t g (n + d) r >>= _) = _ from h2)
    obtain ⟨c, h5, h6⟩ := bind_eq_ok h4
    obtain ⟨l, hl⟩ := candidates_prefix h d h3
    cases h6
    exact ⟨l ++ [c.1], by rw [hl, List.append_assoc]⟩

/-- **C39, monotonicity.** With the same input, seed and scheme, asking for more cuts never gives a larger cut. -/
theorem C39_more_cuts {i : Input} (hv : i.Valid) (hk : 2 ≤ i.numPartitions) (hk' : i.numPartitions < 2 ^ 32)
    {o o' : Options E.fp} (hseed : o'.randomSeed = o.randomSeed) (hs : o'.aggregationScheme = o.aggregationScheme)
    (hc : 0 < o.numGlobalCuts) (hc' : o.numGlobalCuts ≤ o'.numGlobalCuts) {out out1 out2 : Out}
    (h1 : partGraphRecursive E i (some o) out = (out1, ok 1))
    (h2 : partGraphRecursive E i (some o') out = (out2, ok 1)) : out2.cut ≤ out1.cut := by
  obtain ⟨g, ps, j, hr, hj, ho⟩ := C39_best_of_runs hv hk hk' hc h1
  obtain ⟨g', ps', j', hr', hj', ho'⟩ := C39_best_of_runs hv hk hk' (by omega) h2
  obtain ⟨s, t, r1, a1, a2, a3⟩ := hr.runs
  obtain ⟨s', t', r1', b1, b2, b3⟩ := hr'.runs
  have hg := hr.graph
  rw [hr'.graph] at hg
  cases hg
  rw [hs, a1] at b1
  cases b1
  rw [a2] at b2
  cases b2
  obtain ⟨d, hd⟩ : ∃ d, o'.numGlobalCuts.toNat = o.numGlobalCuts.toNat + d :=
    ⟨o'.numGlobalCuts.toNat - o.numGlobalCuts.toNat, by omega⟩
  rw [hd, hseed] at b3
  obtain ⟨l, hl⟩ := candidates_prefix a3 d b3
  rw [ho.cut, ho'.cut]
  have := hj'.2.1 j (by rw [hl, List.length_append]; have := hj.1; omega)
  rw [hl, nth_append_left hj.1] at this
  rw [hl]
  exact this

/-- The hypotheses are met. -/
example : partGraphRecursive Concrete.env Ex.tri2In (some (Ex.cuts 1)) Ex.before =
      ({ cut := 1, asg := [0, 0, 0, 1, 1, 1, 9, 9] }, ok 1) ∧
    partGraphRecursive Concrete.env Ex.tri2In (some (Ex.cuts 3)) Ex.before =
      ({ cut := 1, asg := [0, 0, 0, 1, 1, 1, 9, 9] }, ok 1) := ⟨Ex.tri2In_call1, Ex.tri2In_call⟩

/-! ### C40 -/

/-- **C40, null options.** The call returns 0 and writes nothing, whatever the other arguments. -/
theorem C40_null_options (i : Input) (out : Out) : partGraphRecursive E i none out = (out, ok 0) := rfl

/-- **C40, unknown scheme.** On a valid graph an unknown aggregation scheme raises an exception and nothing is
written. -/
theorem C40_unknown_scheme {i : Input} (hv : i.Valid) {o : Options E.fp} (ho : ¬ o.Known) (out : Out) :
    partGraphRecursive E i (some o) out = (out, exn) := by
  obtain ⟨g, -, -, -, he⟩ := prepare_eq hv o
  have h : makeScheme o.aggregationScheme = exn := by
    unfold makeScheme
    rw [if_neg fun h => ho (Or.inl h), if_neg fun h => ho (Or.inr h)]
  unfold partGraphRecursive
  simp only
  rw [he, h]
  rfl

/-- **C40, no cuts.** With `numGlobalCuts ≤ 0` nothing is ever written, on any input whatsoever; ... -/
theorem C40_no_cuts (i : Input) {o : Options E.fp} (hc : o.numGlobalCuts ≤ 0) (out : Out) :
    (partGraphRecursive E i (some o) out).1 = out := by
  unfold partGraphRecursive
  simp only
  have h0 : o.numGlobalCuts.toNat = 0 := by omega
  cases prepare E i o with
  | ok P => simp only [andThen, h0, cutsLoop]
  | _ => rfl

/-- ... and on a valid graph with a known scheme and at least two parts the call nevertheless returns 1. -/
theorem C40_no_cuts_returns (hfp : E.fp.UniformOK) {i : Input} (hv : i.Valid) (hk : 2 ≤ i.numPartitions)
    (hk' : i.numPartitions < 2 ^ 32) {o : Options E.fp} (ho : o.Known) (hc : o.numGlobalCuts ≤ 0) (out : Out) :
    partGraphRecursive E i (some o) out = (out, ok 1) := by
  obtain ⟨g, -, -, hs, he⟩ := prepare_eq hv o
  obtain ⟨s, hs'⟩ : ∃ s, makeScheme o.aggregationScheme = ok s := by
    unfold makeScheme
    rcases ho with h | h <;> simp [h]
  obtain ⟨t, ht, -⟩ := hfp.uniform i.numPartitions i.totalWeight hk (by simpa using hk') (by
    have := hv.vtxFits; simpa [Input.totalWeight] using this)
  have h0 : o.numGlobalCuts.toNat = 0 := by omega
  unfold partGraphRecursive
  simp only
  rw [he, hs', ok_bind, ht, ok_bind]
  simp only [andThen, h0, cutsLoop]

/-- The hypotheses are met. -/
example : Concrete.env.fp.UniformOK ∧ (Ex.cuts 0).Known ∧ (Ex.cuts (-1)).numGlobalCuts ≤ 0 ∧
    ¬ ({ Ex.cuts 1 with aggregationScheme := 2 } : Options Concrete.env.fp).Known :=
  ⟨Concrete.uniformOK, Or.inr rfl, by decide, by rintro (h | h) <;> cases h⟩

/-! ### C41 -/

/-- **C41, refuted.** The tolerance, the fractions, the number of refinement iterations (and the flag for printing
times) have no influence: two calls whose options agree on seed, scheme and number of cuts are the same. -/
theorem C41_ignored_options (i : Input) {o o' : Options E.fp} (hseed : o'.randomSeed = o.randomSeed)
    (hs : o'.aggregationScheme = o.aggregationScheme) (hc : o'.numGlobalCuts = o.numGlobalCuts) (out : Out) :
    partGraphRecursive E i (some o') out = partGraphRecursive E i (some o) out := by
  unfold partGraphRecursive prepare
  simp only [hseed, hs, hc]

/-- Options asking for everything in part 0, without tolerance, and an invalid number of refinement iterations. -/
def wild : Options Concrete.env.fp :=
  { Ex.cuts 1 with imbalanceTolerance := Concrete.env.fp.lit 0 0,
                   targetPartitionFractions := some [Concrete.env.fp.lit 1 0, Concrete.env.fp.lit 0 0],
                   refinementIterations := -7 }

/-- **C41, refuted, concretely.** include/poros.h documents that the fractions are the desired ones and that
negative numbers of iterations other than -1 are an error; the call returns 1 and splits evenly. -/
theorem C41_wild_options : partGraphRecursive Concrete.env Ex.tri2In (some wild) Ex.before =
    ({ cut := 1, asg := [0, 0, 0, 1, 1, 1, 9, 9] }, ok 1) := by
  rw [C41_ignored_options (E := Concrete.env) Ex.tri2In (o := Ex.cuts 1) (o' := wild) rfl rfl rfl]
  exact Ex.tri2In_call1

/-! ### C54 -/

theorem makeScheme_known {fp : FP} {o : Options fp} (ho : o.Known) : ∃ s, makeScheme o.aggregationScheme = ok s := by
  unfold makeScheme
  rcases ho with h | h <;> simp [h]

/-- Preparations succeed on valid graphs. -/
theorem prepare_total (hfp : E.fp.UniformOK) {i : Input} (hv : i.Valid) (hk : 2 ≤ i.numPartitions)
    (hk' : i.numPartitions < 2 ^ 32) {o : Options E.fp} (ho : o.Known) :
    ∃ P, prepare E i o = ok P ∧ WeightsFit NULL32 P.target.tw P.target.mx := by
  obtain ⟨g, -, -, -, he⟩ := prepare_eq hv o
  obtain ⟨s, hs'⟩ := makeScheme_known ho
  obtain ⟨t, ht, hfit⟩ := hfp.uniform i.numPartitions i.totalWeight hk (by simpa using hk') (by
    have := hv.vtxFits; simpa [Input.totalWeight] using this)
  refine ⟨Prepared.mk g s t, ?_, hfit⟩
  rw [he, hs', ok_bind, ht, ok_bind]

/-- A call all of whose runs finish returns 1, given a buffer with room for the labels. -/
theorem call_total {i : Input} {o : Options E.fp} {P : Prepared E} (hp : prepare E i o = ok P)
    (hrun : ∀ r, ∃ p r', partitioner E P.scheme P.target P.graph r = ok (p, r') ∧ p.asg.length = P.graph.nv)
    {out : Out} (hb : P.graph.nv ≤ out.asg.length) : (partGraphRecursive E i (some o) out).2 = ok 1 := by
  have := cutsLoop_total (bis := partitioner E P.scheme) hrun o.numGlobalCuts.toNat 0 0 out
    (E.rng.seed o.randomSeed) hb
  unfold partGraphRecursive
  simp only
  rw [hp]
  simp only [andThen]
  rw [this]

/-- **C54.** Splitting a nonempty valid graph that comes with a vertex weight array into two parts always succeeds:
no undefined behaviour, no exception, no divergence; the call returns 1. -/
theorem C54_bisection_call_total (hfp : E.fp.CallOK) {i : Input} (hv : i.Valid) (hk : i.numPartitions = 2)
    (h0 : 0 < i.numVertices) (hw : i.vertexWeights.isSome) {o : Options E.fp} (ho : o.Known) {out : Out}
    (hb : i.numVertices ≤ out.asg.length) : (partGraphRecursive E i (some o) out).2 = ok 1 := by
  obtain ⟨P, hp, hfit⟩ := prepare_total hfp.uniform hv (by omega) (by omega) ho
  have hP := prepare_ok hv hp
  have hnv := hP.rep.nv_eq
  refine call_total hp (fun r => ?_) (by omega)
  have htot : P.graph.totVtx < M32 := by
    rw [totVtx_eq hP.good]; exact hP.good.small.vtx
  have hhw : HasWeights P.graph := by
    intro _
    rw [hP.rep.vwgt_eq]
    obtain ⟨l, hl⟩ := Option.isSome_iff_exists.mp hw
    have := hv.csr.vw_len
    rw [hl] at this ⊢
    simp only [shorter, not_lt] at this
    simp only [emptyIfNull, List.length_take]
    omega
  have := rbExecute_two (bu := False) (be := False) (bd := False) (bis := (makeMultilevel E P.scheme).execute)
    (R := fun _ _ => True) (M := NULL32) (by omega) hP.good (fun bt r hb _ _ => by
      have hc := C35_multilevel P.scheme hb hP.good r
      obtain ⟨a, ha⟩ := hc.2 (by omega) hhw (hfp.multilevel _ htot) hfp.badMoves
      exact Wp.of_sat (sat_iff.mpr ⟨a, ha, hc.1 a.1 a.2 ha, trivial⟩))
    (t := P.target) (by rw [hP.k]; exact hk) hP.tw hP.mx (Or.inl ⟨hfp.recursive, hfit⟩) r
  obtain ⟨a, ha, hex, -⟩ := sat_iff.mp (Wp.post.mp this)
  exact ⟨a.1, a.2, ha, hex.asg_len⟩

theorem Concrete.callOK [Concrete.Log2Impl] : Concrete.fp.CallOK :=
  ⟨fun _ h => Concrete.multilevelOK h, fun _ h => Concrete.badMovesOK (by omega), Concrete.recursiveOK,
    Concrete.uniformOK⟩

/-- **C54 for binary64**, together with C38: with IEEE doubles, for every priority queue, set and random engine, the
call returns 1 and delivers a bisection and its cut. -/
theorem C54_binary64 [Concrete.Log2Impl] (pq : PQImpl) (set : SetImpl) (rng : RngImpl) {i : Input} (hv : i.Valid)
    (hk : i.numPartitions = 2) (h0 : 0 < i.numVertices) (hw : i.vertexWeights.isSome)
    {o : Options Concrete.fp} (ho : o.Known) (hc : 0 < o.numGlobalCuts) {out : Out}
    (hb : i.numVertices ≤ out.asg.length) :
    ∃ out', partGraphRecursive ⟨pq, set, rng, Concrete.fp⟩ i (some o) out = (out', ok 1) ∧
      (∀ v, v < i.numVertices → nth out'.asg v < 2) ∧ out'.cut = i.cut (nth out'.asg) := by
  have h := C54_bisection_call_total (E := ⟨pq, set, rng, Concrete.fp⟩) Concrete.callOK hv hk h0 hw ho hb
  have he := (Prod.mk.eta (p := partGraphRecursive ⟨pq, set, rng, Concrete.fp⟩ i (some o) out)).symm
  rw [h] at he
  have h2 := C38_valid_output hv (by omega) (by omega) hc he
  exact ⟨_, he, fun v hv => by have := h2.1 v hv; omega, h2.2.1⟩

/-- The hypotheses are met. -/
example : Concrete.env.fp.CallOK ∧ Ex.tri2In.Valid ∧ Ex.tri2In.numPartitions = 2 ∧ 0 < Ex.tri2In.numVertices ∧
    Ex.tri2In.vertexWeights.isSome ∧ (Ex.cuts 3).Known ∧ Ex.tri2In.numVertices ≤ Ex.before.asg.length :=
  ⟨Concrete.callOK, Ex.tri2In_valid, rfl, by decide, rfl, Or.inr rfl, by decide⟩

end Poros
