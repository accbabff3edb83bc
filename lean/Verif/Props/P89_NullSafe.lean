import Verif.Proofs.UnitSmall
import Verif.Props.P79_Small
import Verif.Props.P80_Eight
/-
C89, C90: exactly when a call with null vertex weights is safe.
-/
namespace Poros
open Finset Res Concrete

/-! ### Limits -/

/-- The shares and limits of a call, bounded. -/
theorem call_limits [Concrete.Log2Impl] {k W : Nat} (hk : 2 ≤ k) (hk' : k < 2 ^ 32) (hW : W < 4294967296)
    {t : Target Concrete.fp} (ht : Target.uniform (fp := Concrete.fp) k W (Concrete.fp.lit 3 2) = ok t) :
    ∃ a b, t.tw = List.replicate k a ∧ t.mx = List.replicate k b ∧ a ≤ b ∧
      (b : ℚ) ≤ 103 / 100 * (1 / k * W) + 1 / 131072 ∧ 103 / 100 * (1 / k * W) < (b : ℚ) + 1 + 1 / 100000 := by
  obtain ⟨f, a, b, hu, hab, -, -, h3, h4⟩ := uniform_bounds (k := k) (tot := W) hk (by simpa using hk') hW
  rw [hu] at ht
  cases ht
  exact ⟨a, b, rfl, rfl, hab, h3, h4⟩

/-- A run of recursive bisection whose first bisection is undefined behaviour, for any target. -/
theorem partitioner_ub [Concrete.Log2Impl] {pq : PQImpl} {set : SetImpl} {rng : RngImpl} {s : Scheme}
    {t : Target Concrete.fp} (hk : 2 ≤ t.k) (hk' : t.k < M32) (htw : t.tw.length = t.k) (hmx : t.mx.length = t.k)
    (hf : WeightsFit NULL32 t.tw t.mx) {g : Graph} {r : rng.S}
    (h : ∀ bt : Target Concrete.fp, IsHalvesTarget t.tw t.mx bt →
      (makeMultilevel (dblEnv pq set rng) s).execute bt g r = ub) :
    partitioner (dblEnv pq set rng) s t g r = ub := by
  have := makeHalves_spec (fp := Concrete.fp) (bu := False) (be := False) (bd := False) hk hk' htw hmx (M := NULL32)
    (by decide) (Or.inl ⟨Concrete.recursiveOK, hf⟩)
  obtain ⟨hh, h1, -, fr, h2, h3⟩ := sat_iff.mp (Wp.post.mp this)
  exact rbExecute_ub (E := dblEnv pq set rng) (by omega) h1 h2 (h _ h3)

/-! ### C89 -/

theorem null_total {i : Input} (hnull : i.vertexWeights = none) : i.totalWeight = i.numVertices := by
  unfold Input.totalWeight
  rw [hnull]
  simp [weightAt]

theorem null_unit [Concrete.Log2Impl] {pq : PQImpl} {set : SetImpl} {rng : RngImpl} {i : Input}
    {o : Options Concrete.fp} {P : Prepared (dblEnv pq set rng)} (hP : PreparedOK i o P)
    (hone : ∀ v, v < i.numVertices → weightAt i.vertexWeights v = 1) : ∀ v, v < P.graph.nv → P.graph.vw v = 1 := by
  intro v _
  unfold Graph.vw
  rw [hP.rep.unitVtx_iff.mpr hone]
  rfl

/-- **C89.** For every valid input with null vertex weights and two parts, whatever the random engine, containers,
seed, known scheme and positive number of cuts: the call returns 1 if the number of vertices is even and positive, or
at least 35, or more than 20 and the graph has an edge; in all other cases it is undefined behaviour. -/
theorem C89_null_two_parts [Concrete.Log2Impl] (pq : PQImpl) (set : SetImpl) (rng : RngImpl) {i : Input} (hv : i.Valid)
    (hnull : i.vertexWeights = none) (hk : i.numPartitions = 2) {o : Options Concrete.fp} (ho : o.Known)
    (hc : 0 < o.numGlobalCuts) {out : Out} (hb : i.numVertices ≤ out.asg.length) :
    (NullSafe i → (partGraphRecursive (dblEnv pq set rng) i (some o) out).2 = ok 1) ∧
    (¬ NullSafe i → (partGraphRecursive (dblEnv pq set rng) i (some o) out).2 = ub) := by
  have htot := null_total hnull
  obtain ⟨P, hp, hfit⟩ := prepare_total (E := dblEnv pq set rng) Concrete.uniformOK hv (by omega) (by omega) ho
  have hP := prepare_ok hv hp
  have hnv := hP.rep.nv_eq
  have hne := hP.rep.ne_eq
  have hlt := hP.good.wf.nv_lt
  have hu := null_unit hP (fun v _ => by rw [hnull]; rfl)
  have htk : P.target.k = 2 := by rw [hP.k, hk]
  obtain ⟨b, etw, emx, hab, hb1, hb2⟩ := even_two (W := i.numVertices) (by omega) (by
    have := evenShares hP.target
    rw [hk, htot] at this
    exact this)
  have hb3 : b < 4294967296 := by
    by_contra hn
    have : (4294967296 : ℚ) ≤ b := by exact_mod_cast (show 4294967296 ≤ b by omega)
    have h2 : (i.numVertices : ℚ) < 4294967296 := by exact_mod_cast (show i.numVertices < 4294967296 by omega)
    linarith
  have htarget : ∀ bt : Target Concrete.fp, IsHalvesTarget P.target.tw P.target.mx bt →
      nth bt.tw 0 = i.numVertices / 2 ∧ nth bt.mx 0 = b ∧ nth bt.mx 1 = b := by
    intro bt h
    rw [etw, emx] at h
    obtain ⟨e1, e2, -⟩ := halves_two_eq hab hb3 (by omega) h
    rw [e1, e2]
    exact ⟨rfl, rfl, rfl⟩
  constructor
  · rintro ⟨h0, hs⟩
    refine call_total (E := dblEnv pq set rng) hp (fun r => ?_) (by omega)
    have := rbExecute_inv (E := dblEnv pq set rng) (bu := False) (be := False) (bd := False)
      (bis := (makeMultilevel (dblEnv pq set rng) P.scheme).execute)
      (R := fun _ _ _ _ _ => True) (S := P.graph.sumVtx) (M := NULL32) (by decide)
      (fun tw mx g => tw = P.target.tw ∧ mx = P.target.mx ∧ g = P.graph)
      (fun tw mx bt g r lab r' labels sub _ hi _ _ => by
        rw [hi.1, etw]
        exact ⟨fun h => by simp at h, fun h => by simp at h⟩)
      (fun tw mx bt g r hi hbt hg _ hb2' _ _ => by
        obtain ⟨rfl, rfl, rfl⟩ := hi
        obtain ⟨t1, t2, t3⟩ := htarget bt hbt
        by_cases hco : 20 < P.graph.nv ∧ P.graph.ne ≠ 0
        · exact Wp.of_sat ((multilevel_coarsened (E := dblEnv pq set rng) Concrete.callOK.multilevel
            Concrete.callOK.badMoves P.scheme hg hco.1 hco.2 hb2' r).mono fun _ h => ⟨h, trivial⟩)
        · refine Wp.of_sat ((multilevel_unit (E := dblEnv pq set rng) Concrete.callOK.multilevel P.scheme hg (by omega)
            hb2' hu ⟨by rw [t1, t2]; exact hab, ?_⟩ (by omega) r).mono fun _ h => ⟨h.1, trivial⟩)
          rw [t1, t3, hnv]
          rcases hs with h | h | ⟨h, h'⟩
          · omega
          · have : i.numVertices - i.numVertices / 2 ≤ b := by
              by_contra hn
              have h1 : 2 * b + 1 ≤ i.numVertices := by omega
              have h2 : (2 * b + 1 : ℚ) ≤ i.numVertices := by exact_mod_cast h1
              have h3 : (35 : ℚ) ≤ i.numVertices := by exact_mod_cast h
              have h4 : b + b + 1 + 1 < i.numVertices + 1 ∨ i.numVertices % 2 = 1 := by omega
              linarith
            omega
          · exact absurd ⟨by omega, by omega⟩ hco)
      (t := P.target) (by omega) (by rw [htk]; decide) hP.tw hP.mx (Or.inl ⟨Concrete.recursiveOK, hfit⟩)
      (g := P.graph) ⟨rfl, rfl, rfl⟩ hP.good (le_refl _) r
    obtain ⟨x, hx, hex, -⟩ := sat_iff.mp (Wp.post.mp this)
    exact ⟨x.1, x.2, hx, hex.asg_len⟩
  · intro hn
    by_cases h0 : i.numVertices = 0
    · exact C79_too_small hv (by omega) (by omega) (by omega) ho hc out
    · have hodd : i.numVertices % 2 = 1 ∧ i.numVertices ≤ 34 ∧ (i.numVertices ≤ 20 ∨ i.numEdges = 0) := by
        unfold NullSafe at hn
        omega
      have hbn : b = i.numVertices / 2 := by
        have h33 : i.numVertices ≤ 33 := by omega
        have : 2 * b < i.numVertices + 1 := by
          have h3 : (i.numVertices : ℚ) ≤ 33 := by exact_mod_cast h33
          have : (2 * b : ℚ) < i.numVertices + 1 := by linarith
          exact_mod_cast this
        omega
      refine call_ub (E := dblEnv pq set rng) hp hc (fun r => partitioner_ub (by omega) (by rw [htk]; decide) hP.tw hP.mx hfit
        fun bt hbt => ?_) out
      obtain ⟨t1, t2, t3⟩ := htarget bt hbt
      refine multilevel_null' (E := dblEnv pq set rng) Concrete.callOK.multilevel P.scheme hP.good (by omega) hbt.two ?_ ?_
        (by omega) (by rw [t1, t2]; exact hab) (by rw [t1, t3]; omega) r
      · rw [hP.rep.unitVtx_iff, hnull]
        exact fun _ _ => rfl
      · rw [hP.rep.vwgt_eq, hnull]
        simp [emptyIfNull]

/-- `n` vertices without edges and weight arrays. -/
def looseIn (n k : Nat) : Input :=
  { numVertices := n, edgePrefix := List.replicate (n + 1) 0, edgeList := [], vertexWeights := none,
    edgeWeights := none, numPartitions := k }

/-- Both cases occur: a triangle is unsafe, four vertices without edges are safe (and the call returns 1). -/
example : Ex.triIn.Valid ∧ Ex.triIn.vertexWeights = none ∧ ¬ NullSafe Ex.triIn ∧ (looseIn 4 2).Valid ∧
    NullSafe (looseIn 4 2) ∧ (Ex.cuts 1).Known ∧ 0 < (Ex.cuts 1).numGlobalCuts ∧
    partGraphRecursive Concrete.env (looseIn 4 2) (some (Ex.cuts 1)) Ex.before =
      ({ cut := 0, asg := [0, 1, 1, 0, 9, 9, 9, 9] }, ok 1) :=
  ⟨Ex.triIn_valid, rfl, by unfold NullSafe; decide, Ex.valid_of (by constructor <;> decide +kernel) (by decide +kernel)
    (by decide +kernel) (by decide +kernel) (by decide +kernel), by unfold NullSafe; decide, Or.inr rfl, by decide,
    by decide +kernel⟩

/-! ### C90 -/

theorem unit_total {i : Input} (hone : ∀ v, v < i.numVertices → weightAt i.vertexWeights v = 1) :
    i.totalWeight = i.numVertices := by
  unfold Input.totalWeight
  rw [sum_congr rfl fun v hv => hone v (mem_range.mp hv)]
  simp

theorem unit_partSize {i : Input} (hone : ∀ v, v < i.numVertices → weightAt i.vertexWeights v = 1) (lab : Nat → Nat)
    (q : Nat) : i.partSize lab q = i.partWeight lab q := by
  unfold Input.partSize Input.partWeight
  rw [card_filter]
  refine sum_congr rfl fun v hv => ?_
  rw [hone v (mem_range.mp hv)]

/-- The target and maximum weights of a call whose total weight is a multiple of the number of parts. -/
theorem exact_shares_of [Concrete.Log2Impl] {k c : Nat} (hk : 2 ≤ k) (hk' : k < 4294967296) (hr : RoundTrip k)
    (hc : k * c < 4294967296)
    {t : Target Concrete.fp} (ht : Target.uniform (fp := Concrete.fp) k (k * c) (Concrete.fp.lit 3 2) = ok t) :
    ∃ b, t.tw = List.replicate k c ∧ t.mx = List.replicate k b ∧ c ≤ b ∧ (k - k / 2) * b < 4294967296 := by
  obtain ⟨a, b, e1, e2, hab, h3, -⟩ := call_limits hk (by omega) hc ht
  have he := (evenShares ht).target 0 (by omega)
  rw [hr.share (by omega) hk' hc, e1, nth_replicate (by omega)] at he
  cases he
  refine ⟨b, e1, e2, hab, ?_⟩
  have hk0 : (0 : ℚ) < k := by exact_mod_cast (show 0 < k by omega)
  have hcq : (k : ℚ) * c < 4294967296 := by exact_mod_cast hc
  have e : 1 / (k : ℚ) * ((k * c : Nat) : ℚ) = c := by push_cast; field_simp
  rw [e] at h3
  have hm : 3 * ((k - k / 2 : Nat) : ℚ) ≤ 2 * k := by exact_mod_cast (show 3 * (k - k / 2) ≤ 2 * k by omega)
  have hk48 : (k : ℚ) ≤ 4294967296 := by exact_mod_cast hk'.le
  have h5 : ((k - k / 2 : Nat) : ℚ) * b ≤ 2 / 3 * k * (103 / 100 * c + 1 / 131072) :=
    mul_le_mul (by linarith) h3 (Nat.cast_nonneg b) (by linarith)
  have h6 : ((k - k / 2 : Nat) : ℚ) * b < 4294967296 := by
    refine lt_of_le_of_lt h5 ?_
    have : 2 / 3 * (k : ℚ) * (103 / 100 * c + 1 / 131072) = 206 / 300 * (k * c) + 2 / 393216 * k := by ring
    rw [this]
    linarith
  exact_mod_cast h6

/-- The target and maximum weights of a call whose total weight is a multiple of at most 48 parts. -/
theorem exact_shares [Concrete.Log2Impl] {k c : Nat} (hk : 2 ≤ k) (hk' : k ≤ 48) (hc : k * c < 4294967296)
    {t : Target Concrete.fp} (ht : Target.uniform (fp := Concrete.fp) k (k * c) (Concrete.fp.lit 3 2) = ok t) :
    ∃ b, t.tw = List.replicate k c ∧ t.mx = List.replicate k b ∧ c ≤ b ∧ (k - k / 2) * b < 4294967296 :=
  exact_shares_of hk (by omega) (RoundTrip.of_le (by omega) hk') hc ht

/-- **C90** for any number of parts whose rounded reciprocal is close enough. -/
theorem exact_parts_of [Concrete.Log2Impl] (pq : PQImpl) (set : SetImpl) (rng : RngImpl) {i : Input} (hv : i.Valid)
    (hone : ∀ v, v < i.numVertices → weightAt i.vertexWeights v = 1) (hsmall : i.numVertices ≤ 20 ∨ i.numEdges = 0)
    (hk : 2 ≤ i.numPartitions) (hk' : i.numPartitions < 4294967296)
    (hrt : RoundTrip i.numPartitions) {c : Nat} (hc : 0 < c)
    (hdiv : i.numVertices = i.numPartitions * c) {o : Options Concrete.fp} (ho : o.Known)
    (hcuts : 0 < o.numGlobalCuts) {out : Out} (hb : i.numVertices ≤ out.asg.length) :
    ∃ out', partGraphRecursive (dblEnv pq set rng) i (some o) out = (out', ok 1) ∧
      ∀ q, q < i.numPartitions → i.partSize (nth out'.asg) q = c := by
  have htot := unit_total hone
  have hlt := hv.vtxFits
  rw [show (∑ v ∈ range i.numVertices, weightAt i.vertexWeights v) = i.totalWeight from rfl, htot] at hlt
  have hlt' : i.numPartitions * c < 4294967296 := by rw [← hdiv]; simpa using hlt
  obtain ⟨P, hp, hfit⟩ := prepare_total (E := dblEnv pq set rng) Concrete.uniformOK hv (by omega) (by omega) ho
  have hP := prepare_ok hv hp
  have ht := hP.target
  rw [htot, hdiv] at ht
  obtain ⟨b, etw, emx, hcb, hb'⟩ := exact_shares_of hk hk' hrt hlt' ht
  have hE : Even c i.numPartitions P.graph :=
    ⟨null_unit hP hone, by rw [hP.rep.nv_eq, hdiv], by rw [hP.rep.nv_eq, hP.rep.ne_eq]; exact hsmall⟩
  have hr : (partGraphRecursive (dblEnv pq set rng) i (some o) out).2 = ok 1 :=
    call_total (E := dblEnv pq set rng) hp (fun r => partitioner_even P.scheme hk hP.k etw emx hc hcb hb' hlt' hfit hE
      hP.good r) (by rw [hP.rep.nv_eq]; exact hb)
  refine ⟨_, Prod.ext rfl hr, fun q hq => ?_⟩
  obtain ⟨g, s, tw, mx, labs, j, hcall⟩ := C75_call (pq := pq) (set := set) (rng := rng) hv hk (by omega) hcuts
    (Prod.ext rfl hr : partGraphRecursive (dblEnv pq set rng) i (some o) out = (_, ok 1))
  obtain ⟨r', hrep⟩ := hcall.runs
  obtain ⟨r0, r1, hrun⟩ := hrep.all _ (nth_mem hcall.index)
  have hes := evenShares ht
  have htw : tw = List.replicate i.numPartitions c := by
    refine List.ext_getElem (by rw [hcall.shares.len.1]; simp) fun q h1 h2 => ?_
    have hq : q < i.numPartitions := by simpa using h2
    have h4 := hcall.shares.target q hq
    rw [htot, hdiv] at h4
    have := toU32_inj h4 (hes.target q hq)
    rw [etw, nth_replicate hq, nth_eq_getElem h1] at this
    rw [this]; simp
  have hmx : mx = List.replicate i.numPartitions b := by
    refine List.ext_getElem (by rw [hcall.shares.len.2]; simp) fun q h1 h2 => ?_
    have hq : q < i.numPartitions := by simpa using h2
    have h4 := hcall.shares.limit q hq
    rw [htot, hdiv] at h4
    have := toU32_inj h4 (hes.limit q hq)
    rw [emx, nth_replicate hq, nth_eq_getElem h1] at this
    rw [this]; simp
  rw [unit_partSize hone, hcall.graph.partWeight (fun v hv => hcall.labels v hv) q]
  refine hrun.even hc hcb _ htw hmx ⟨fun v hv => ?_, by rw [hcall.graph.nv, hdiv], ?_⟩ hcall.good hb' hlt' q hq
  · rw [hcall.graph.nv] at hv
    rw [hcall.graph.vw v hv, hone v hv]
  · rw [hcall.graph.nv]
    refine hsmall.imp id fun h0 => ?_
    rw [← sum_nbrs_length hcall.good.wf]
    refine sum_eq_zero fun v hv' => ?_
    have hv' := mem_range.mp hv'
    rw [hcall.graph.nv] at hv'
    rw [hcall.graph.nbrs v hv', List.length_map, List.length_range']
    have := hv.csr.xadj_le (u := v + 1) (v := i.numVertices) (by omega) (le_refl _)
    have h2 : nth i.edgePrefix i.numVertices = i.numEdges := rfl
    omega

/-- **C90.** For every valid input whose vertices all have weight 1 (a null array or ones), with at most 20 vertices or
no edges, at most 48 parts and a number of vertices that is a positive multiple of the number of parts, whatever the
random engine, containers, seed, known scheme and positive number of cuts: the call returns 1 and every part has exactly
the same number of vertices. -/
theorem C90_exact_parts [Concrete.Log2Impl] (pq : PQImpl) (set : SetImpl) (rng : RngImpl) {i : Input} (hv : i.Valid)
    (hone : ∀ v, v < i.numVertices → weightAt i.vertexWeights v = 1) (hsmall : i.numVertices ≤ 20 ∨ i.numEdges = 0)
    (hk : 2 ≤ i.numPartitions) (hk' : i.numPartitions ≤ 48) {c : Nat} (hc : 0 < c)
    (hdiv : i.numVertices = i.numPartitions * c) {o : Options Concrete.fp} (ho : o.Known)
    (hcuts : 0 < o.numGlobalCuts) {out : Out} (hb : i.numVertices ≤ out.asg.length) :
    ∃ out', partGraphRecursive (dblEnv pq set rng) i (some o) out = (out', ok 1) ∧
      ∀ q, q < i.numPartitions → i.partSize (nth out'.asg) q = c :=
  exact_parts_of pq set rng hv hone hsmall hk (by omega) (RoundTrip.of_le (by omega) hk') hc hdiv ho hcuts hb

/-- A call on a graph without weight array that is not coarsened is undefined behaviour if the parts, each at its maximum
weight, do not take all vertices. -/
theorem null_short [Concrete.Log2Impl] {pq : PQImpl} {set : SetImpl} {rng : RngImpl} {i : Input} (hv : i.Valid)
    (hnull : i.vertexWeights = none) (hsmall : i.numVertices ≤ 20 ∨ i.numEdges = 0)
    (hk : 2 ≤ i.numPartitions) (hk' : i.numPartitions < 2 ^ 32) {o : Options Concrete.fp} (hcuts : 0 < o.numGlobalCuts)
    {P : Prepared (dblEnv pq set rng)} (hp : prepare (dblEnv pq set rng) i o = ok P) (hfit : WeightsFit NULL32 P.target.tw P.target.mx)
    {a b : Nat} (etw : P.target.tw = List.replicate i.numPartitions a)
    (emx : P.target.mx = List.replicate i.numPartitions b)
    (hlt : i.numPartitions / 2 * a + (i.numPartitions - i.numPartitions / 2) * b < i.numVertices) (out : Out) :
    (partGraphRecursive (dblEnv pq set rng) i (some o) out).2 = ub := by
  have hP := prepare_ok hv hp
  have hnv := hP.rep.nv_eq
  have hne := hP.rep.ne_eq
  refine call_ub (E := dblEnv pq set rng) hp hcuts (fun r => partitioner_ub (by rw [hP.k]; exact hk)
    (by rw [hP.k]; simpa using hk') hP.tw hP.mx hfit fun bt hbt => ?_) out
  have hf := hfit
  rw [etw, emx] at hbt hf
  have hlen : (List.replicate i.numPartitions a).length / 2 = i.numPartitions / 2 := by simp
  obtain ⟨l1, l2, l3, l4⟩ := hbt.limits recursiveOK (by simpa using hk) (by simpa using hk') (by simp) hf
  have hl := hbt.left
  simp only [List.length_replicate, List.take_replicate, List.drop_replicate, List.sum_replicate, smul_eq_mul] at hl l1 l2 l3 l4
  rw [Nat.min_eq_left (Nat.div_le_self _ 2)] at hl l1 l2
  have hmod := Nat.mod_le (i.numPartitions / 2 * a) (2 ^ 32)
  refine multilevel_null' (E := dblEnv pq set rng) Concrete.callOK.multilevel P.scheme hP.good (by omega) hbt.two ?_ ?_
    (by omega) (by omega) (by omega) r
  · rw [hP.rep.unitVtx_iff, hnull]
    exact fun _ _ => rfl
  · rw [hP.rep.vwgt_eq, hnull]
    simp [emptyIfNull]

/-- **C90.** With null vertex weights, at most 20 vertices (or at most 33 and no edges) and two or more parts that do
not evenly divide the number of vertices, the call is undefined behaviour. -/
theorem C90_uneven_undefined [Concrete.Log2Impl] (pq : PQImpl) (set : SetImpl) (rng : RngImpl) {i : Input} (hv : i.Valid)
    (hnull : i.vertexWeights = none) (hsmall : i.numVertices ≤ 20 ∨ (i.numVertices ≤ 33 ∧ i.numEdges = 0))
    (hk : 2 ≤ i.numPartitions) (hk' : i.numPartitions < 2 ^ 32) (hdiv : ¬ i.numPartitions ∣ i.numVertices)
    {o : Options Concrete.fp} (ho : o.Known) (hcuts : 0 < o.numGlobalCuts) (out : Out) :
    (partGraphRecursive (dblEnv pq set rng) i (some o) out).2 = ub := by
  have htot := null_total hnull
  obtain ⟨P, hp, hfit⟩ := prepare_total (E := dblEnv pq set rng) Concrete.uniformOK hv (by omega) (by simpa using hk') ho
  have hP := prepare_ok hv hp
  have hnv := hP.rep.nv_eq
  have hne := hP.rep.ne_eq
  have ht := hP.target
  rw [htot] at ht
  obtain ⟨a, b, etw, emx, hab, h3, -⟩ := call_limits hk hk' (by omega) ht
  have hlt : i.numPartitions * b < i.numVertices := by
    have hk0 : (0 : ℚ) < i.numPartitions := by exact_mod_cast (show 0 < i.numPartitions by omega)
    by_contra hge
    have hne : i.numPartitions * b ≠ i.numVertices := fun h => hdiv ⟨b, h.symm⟩
    have hn33 : (i.numVertices : ℚ) ≤ 33 := by exact_mod_cast (show i.numVertices ≤ 33 by omega)
    have h4 : (i.numVertices : ℚ) + 1 ≤ i.numPartitions * b := by
      exact_mod_cast (show i.numVertices + 1 ≤ i.numPartitions * b by omega)
    have h5 : (i.numPartitions : ℚ) * b ≤ 103 / 100 * i.numVertices + i.numPartitions / 131072 := by
      have := mul_le_mul_of_nonneg_left h3 hk0.le
      have e : (i.numPartitions : ℚ) * (103 / 100 * (1 / i.numPartitions * i.numVertices) + 1 / 131072) =
          103 / 100 * i.numVertices + i.numPartitions / 131072 := by field_simp
      linarith
    have hb1 : (1 : ℚ) ≤ b := by
      have : b ≠ 0 := by rintro rfl; omega
      exact_mod_cast (show 1 ≤ b by omega)
    have h6 : (i.numPartitions : ℚ) * 1 ≤ i.numPartitions * b := mul_le_mul_of_nonneg_left hb1 hk0.le
    linarith
  have hab' : i.numPartitions / 2 * a ≤ i.numPartitions / 2 * b := Nat.mul_le_mul_left _ hab
  have hs : i.numPartitions / 2 * b + (i.numPartitions - i.numPartitions / 2) * b = i.numPartitions * b := by
    rw [← Nat.add_mul]; congr 1; omega
  exact null_short hv hnull (hsmall.imp id And.right) hk hk' hcuts hp hfit etw emx (by omega) out

/-- **C90.** The bound of 48 parts is sharp: 49 vertices without edges in 49 parts, with null vertex weights, is
undefined behaviour (as `1.0 / 49 * 49` is less than 1 in doubles, the target weight of every part is 0). -/
theorem C90_forty_nine [Concrete.Log2Impl] (pq : PQImpl) (set : SetImpl) (rng : RngImpl) {i : Input} (hv : i.Valid)
    (hnull : i.vertexWeights = none) (hn : i.numVertices = 49) (he : i.numEdges = 0) (hk : i.numPartitions = 49)
    {o : Options Concrete.fp} (ho : o.Known) (hcuts : 0 < o.numGlobalCuts) (out : Out) :
    (partGraphRecursive (dblEnv pq set rng) i (some o) out).2 = ub := by
  have htot := null_total hnull
  obtain ⟨P, hp, hfit⟩ := prepare_total (E := dblEnv pq set rng) Concrete.uniformOK hv (by omega) (by omega) ho
  have hP := prepare_ok hv hp
  have ht := hP.target
  rw [htot, hn, hk] at ht
  obtain ⟨a, b, etw, emx, hab, -, -⟩ := call_limits (by omega) (by omega) (by omega) ht
  have h1 := (evenShares ht).target 0 (by omega)
  have h2 := (evenShares ht).limit 0 (by omega)
  rw [etw, nth_replicate (by omega)] at h1
  rw [emx, nth_replicate (by omega)] at h2
  have h1' : a = 0 := by
    have e := (by decide +kernel : F64.toU32 (F64.mul (F64.div (F64.fin 1) (F64.fin 49)) (F64.fin 49)) = some 0)
    rw [lit_one, ofNat_exact (n := 49) (by omega)] at h1
    exact (Option.some.inj (e.symm.trans h1)).symm
  have h2' : b = 1 := by
    have e : (@fp floorLog2).toU32 ((@fp floorLog2).mul ((@fp floorLog2).mul ((@fp floorLog2).div ((@fp floorLog2).lit 1 0)
      ((@fp floorLog2).ofNat 49)) ((@fp floorLog2).add ((@fp floorLog2).lit 1 0) ((@fp floorLog2).lit 3 2)))
      ((@fp floorLog2).ofNat 49)) = some 1 := by decide +kernel
    exact (Option.some.inj (e.symm.trans h2)).symm
  rw [← hk] at etw emx
  exact null_short hv hnull (Or.inr he) (by omega) (by omega) hcuts hp hfit etw emx (by rw [hk, h1', h2', hn]; decide) out

/-- The hypotheses are met: 49 vertices, six vertices in three parts, and seven. -/
example : (looseIn 49 49).Valid ∧ (looseIn 49 49).numEdges = 0 ∧ (looseIn 6 3).Valid ∧ (looseIn 6 3).numVertices = (looseIn 6 3).numPartitions * 2 ∧ (looseIn 7 3).Valid ∧
    ¬ (looseIn 7 3).numPartitions ∣ (looseIn 7 3).numVertices ∧ (Ex.cuts 1).Known ∧ 0 < (Ex.cuts 1).numGlobalCuts ∧
    partGraphRecursive Concrete.env (looseIn 6 3) (some (Ex.cuts 1)) Ex.before =
      ({ cut := 0, asg := [0, 1, 2, 2, 1, 0, 9, 9] }, ok 1) :=
  ⟨Ex.valid_of (by constructor <;> decide +kernel) (by decide +kernel) (by decide +kernel) (by decide +kernel)
    (by decide +kernel), rfl, Ex.valid_of (by constructor <;> decide +kernel) (by decide +kernel) (by decide +kernel)
    (by decide +kernel) (by decide +kernel), rfl, Ex.valid_of (by constructor <;> decide +kernel) (by decide +kernel) (by decide +kernel)
    (by decide +kernel) (by decide +kernel), by decide, Or.inr rfl, by decide, by decide +kernel⟩

end Poros
