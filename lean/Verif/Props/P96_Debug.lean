import Verif.SpecDebug
import Verif.Proofs.DebugStops
import Verif.Props.P89_NullSafe
import Verif.Props.P92_SelfLoop
import Verif.Props.P94_Scarce
/-
C96, C97, C98: whole calls in debug builds.
-/
namespace Poros
open Finset Res Concrete

/-! ### C96 -/

/-- **C96.** Whatever a call returns in a debug build, for any input, it returns in a release build, with the same
output. -/
theorem C96_same_result (E : Env) (i : Input) (o : Option (Options E.fp)) (out : Out) {out' : Out} {code : Nat}
    (h : partGraphRecursiveD E i o out = (out', ok code)) : partGraphRecursive E i o out = (out', ok code) := by
  rw [← h]
  exact (callD_sim E i o out (code := code) (by rw [h])).symm

/-- **C96.** For every valid input and two or more parts, with any options, a call in a debug build does what it does in
a release build or stops at an assertion: the assertions add no undefined behaviour and no endless loop. -/
theorem C96_or_stops (E : Env) {i : Input} (hv : i.Valid) (hk : 2 ≤ i.numPartitions) (hk' : i.numPartitions < 2 ^ 32)
    (o : Option (Options E.fp)) (out : Out) :
    partGraphRecursiveD E i o out = partGraphRecursive E i o out ∨ (partGraphRecursiveD E i o out).2 = exn := by
  cases o with
  | none => exact Or.inl rfl
  | some o =>
    refine (callD_close (H := False) (fun P hp r => ?_) out).imp id And.right
    have hP := prepare_ok hv hp
    exact partitionerD_close P.scheme (by rw [hP.k]; exact hk) (by rw [hP.k]; simpa using hk') hP.tw hP.mx hP.good
      (fun h => h.elim) r

/-! ### C97 -/

/-- The shares of the two parts are positive. -/
theorem halves_pos [Concrete.Log2Impl] {a b : Nat} (h1 : 1 ≤ a) (hab : a ≤ b) (hb : b < 4294967296) (ha : 2 * a < 4294967296)
    {bt : Target Concrete.fp} (h : IsHalvesTarget [a, a] [b, b] bt) : PosFrac bt 2 := by
  obtain ⟨-, -, e3⟩ := halves_two_eq hab hb ha h
  obtain ⟨q, f1, f2, f3, f4⟩ := share_err (a := a) (s := a + a) (by omega) (by omega) (by omega)
  have hhalf : (a : ℚ) / ((a + a : Nat) : ℚ) = 1 / 2 := by
    have : (0 : ℚ) < (a : ℚ) := by exact_mod_cast h1
    push_cast
    field_simp
    norm_num
  rw [hhalf] at f4
  have hfrac : bt.frac = [F64.fin q, F64.fin q] := by
    rw [e3]
    unfold shares
    have : ([a, a].sum % 2 ^ 32) = a + a := Nat.mod_eq_of_lt (by simp; omega)
    rw [this]
    exact congrArg₂ (fun x y => [x, y]) f1 f1
  intro j hj
  have hq : nth bt.frac j = (F64.fin q : Concrete.fp.F) := by
    rw [hfrac]
    have : j = 0 ∨ j = 1 := by omega
    rcases this with rfl | rfl <;> rfl
  rw [hq, lit_zero]
  show decide ((0 : ℚ) < q) = true
  rw [decide_eq_true_eq]
  linarith

/-- The weights and limits of a call for two parts. -/
theorem two_target [Concrete.Log2Impl] {pq : PQImpl} {set : SetImpl} {rng : RngImpl} {i : Input} (hv : i.Valid) (hk : i.numPartitions = 2) {o : Options Concrete.fp}
    {P : Prepared (dblEnv pq set rng)} (hP : PreparedOK i o P) :
    ∃ b, P.target.tw = [i.totalWeight / 2, i.totalWeight / 2] ∧ P.target.mx = [b, b] ∧ i.totalWeight / 2 ≤ b ∧
      b < 4294967296 ∧ (b : ℚ) ≤ 103 / 200 * i.totalWeight + 1 / 100000 ∧
      103 / 200 * (i.totalWeight : ℚ) < (b : ℚ) + 1 + 1 / 100000 := by
  have hW : i.totalWeight < 4294967296 := by have := hv.vtxFits; simpa [Input.totalWeight] using this
  obtain ⟨b, etw, emx, hab, hb1, hb2⟩ := even_two hW (by
    have := evenShares hP.target
    rw [hk] at this
    exact this)
  refine ⟨b, etw, emx, hab, ?_, hb1, hb2⟩
  by_contra hn
  have : (4294967296 : ℚ) ≤ b := by exact_mod_cast (show 4294967296 ≤ b by omega)
  have h2 : (i.totalWeight : ℚ) < 4294967296 := by exact_mod_cast hW
  linarith

/-- The run of a call for two parts returns if the bisector always does. -/
theorem partitioner_two_total [Concrete.Log2Impl] {pq : PQImpl} {set : SetImpl} {rng : RngImpl} {s : Scheme} {t : Target Concrete.fp} (hk : t.k = 2) (htw : t.tw.length = t.k)
    (hmx : t.mx.length = t.k) (hfit : WeightsFit NULL32 t.tw t.mx) {g : Graph} (hg : g.Good)
    (h : ∀ (bt : Target Concrete.fp) r, IsHalvesTarget t.tw t.mx bt → bt.Two →
      Sat ((makeMultilevel (dblEnv pq set rng) s).execute bt g r) (fun o => IsExact g 2 o.1)) (r : rng.S) :
    ∃ p r', partitioner (dblEnv pq set rng) s t g r = ok (p, r') ∧ p.asg.length = g.nv := by
  have := rbExecute_inv (E := dblEnv pq set rng) (bu := False) (be := False) (bd := False)
    (bis := (makeMultilevel (dblEnv pq set rng) s).execute)
    (R := fun _ _ _ _ _ => True) (S := g.sumVtx) (M := NULL32) (by decide)
    (fun tw mx g' => tw = t.tw ∧ mx = t.mx ∧ g' = g)
    (fun tw mx bt g r lab r' labels sub _ hi _ _ => by
      rw [hi.1, htw, hk]
      exact ⟨fun h => by simp at h, fun h => by simp at h; omega⟩)
    (fun tw mx bt g' r hi hbt hg' _ hb2' _ _ => by
      obtain ⟨rfl, rfl, rfl⟩ := hi
      exact Wp.of_sat ((h bt r hbt hb2').mono fun _ h => ⟨h, trivial⟩))
    (t := t) (by omega) (by rw [hk]; decide) htw hmx (Or.inl ⟨Concrete.recursiveOK, hfit⟩)
    (g := g) ⟨rfl, rfl, rfl⟩ hg (le_refl _) r
  obtain ⟨x, hx, hex, -⟩ := sat_iff.mp (Wp.post.mp this)
  exact ⟨x.1, x.2, hx, hex.asg_len⟩

theorem Represents.sturdy {i : Input} {g : Graph}
    (hr : Represents i.numVertices i.numEdges i.edgePrefix i.edgeList i.vertexWeights i.edgeWeights g)
    (hc : CSR i.numVertices i.numEdges i.edgePrefix i.edgeList i.vertexWeights i.edgeWeights)
    (h : i.NoSmallComponent) : Sturdy g (3 * i.totalWeight / 40) := by
  intro S hS hne hout
  rw [hr.nv_eq] at hS hout
  have := h S ⟨hS, fun v hv u hu hun => ?_⟩ hne
  · refine ⟨this.1, ?_⟩
    rw [sum_congr rfl fun v hv => hr.vw_at (mem_range.mp (hS hv))]
    exact this.2
  · rw [← hc.wt_eq hr (mem_range.mp (hS hv))]
    exact hout v hv u hu hun

theorem Represents.mutual {i : Input} {g : Graph}
    (hr : Represents i.numVertices i.numEdges i.edgePrefix i.edgeList i.vertexWeights i.edgeWeights g)
    (hc : CSR i.numVertices i.numEdges i.edgePrefix i.edgeList i.vertexWeights i.edgeWeights)
    (h : i.Mutual) : g.SymmAdj := by
  intro v u hv hu ha
  rw [hr.nv_eq] at hv hu
  obtain ⟨w, hw⟩ := ha
  obtain ⟨q, hq, rfl⟩ := (hr.mem_nbrs hc hu).mpr (h v u hv hu ((hr.mem_nbrs hc hv).mp ⟨_, hw, rfl⟩))
  exact ⟨q.2, hq⟩

/-- What the assertions of a call for two parts need. -/
theorem partitionerD_two [Concrete.Log2Impl] {pq : PQImpl} {set : SetImpl} {rng : RngImpl} {i : Input} (hv : i.Valid)
    (hk : i.numPartitions = 2) (hW : 2 ≤ i.totalWeight)
    (h : (i.numVertices ≤ 20 ∧ (i.AllOnes → i.numVertices % 2 = 0)) ∨
      (20 < i.numVertices ∧ i.totalWeight < 2 ^ 32 - 1 ∧ i.Mutual ∧ i.NoSmallComponent))
    {o : Options Concrete.fp} {P : Prepared (dblEnv pq set rng)} (hP : PreparedOK i o P) (r : rng.S) :
    partitionerD (dblEnv pq set rng) P.scheme P.target P.graph r =
      partitioner (dblEnv pq set rng) P.scheme P.target P.graph r := by
  have htk : P.target.k = 2 := by rw [hP.k, hk]
  have hWlt : i.totalWeight < 4294967296 := by have := hv.vtxFits; simpa [Input.totalWeight] using this
  obtain ⟨b, etw, emx, hab, hb3, hb1, hb2⟩ := two_target hv hk hP
  have hnv := hP.rep.nv_eq
  refine (partitionerD_close (H := True) P.scheme (by omega) (by rw [htk]; decide) hP.tw hP.mx hP.good
    (fun _ => RBAssert.of_two htk hP.tw (fun q hq => ?_) fun bt hbt => ?_) r).eq trivial
  · rw [etw, emx]
    have : q = 0 ∨ q = 1 := by omega
    rcases this with rfl | rfl <;> exact hab
  · rw [etw, emx] at hbt
    obtain ⟨e1, e2, -⟩ := halves_two_eq hab hb3 (by omega) hbt
    refine ⟨halves_pos (by omega) hab hb3 (by omega) hbt, fun maxW hmax => ?_⟩
    have hmax : maxW = 3 * i.totalWeight / 40 := by
      have h1 := Concrete.coarseLimit (tot := i.totalWeight) hWlt
      rw [totVtx_eq hP.good, hP.sum] at hmax
      unfold FP.cast at hmax
      have h2 : Concrete.fp.toU32 (Concrete.fp.div (Concrete.fp.mul (Concrete.fp.lit 15 1)
        (Concrete.fp.ofNat i.totalWeight)) (Concrete.fp.ofNat 20)) = some maxW := by
        revert hmax
        show (match Concrete.fp.toU32 (Concrete.fp.div (Concrete.fp.mul (Concrete.fp.lit 15 1)
          (Concrete.fp.ofNat i.totalWeight)) (Concrete.fp.ofNat 20)) with
          | some n => ok n
          | none => ub) = ok maxW → _
        rw [h1]
        intro hmax
        rw [Res.ok.inj hmax]
      rw [h1] at h2
      exact (Option.some.inj h2).symm
    subst hmax
    refine ⟨fun hn => ?_, fun hs hu => ?_, fun hn => ?_, fun hn => ?_⟩
    · rcases h with h | h
      · omega
      · exact hP.rep.mutual hv.csr h.2.2.1
    · have hones : i.AllOnes := hP.rep.unitVtx_iff.mp hu
      have htot := unit_total hones
      refine ⟨by rw [e1, e2]; exact hab, ?_⟩
      rw [e1, e2, hnv]
      show i.numVertices ≤ i.totalWeight / 2 + b
      rcases h with h | h
      · have := h.2 hones
        omega
      · exfalso
        -- a graph without edges has single vertices as components
        have h0 : P.graph.ne = 0 := by omega
        have hd := (hP.rep.sturdy hv.csr h.2.2.2).deg hP.good.wf (v := 0) (by omega)
        have := sum_nbrs_length hP.good.wf
        rw [h0] at this
        have hl := (Finset.sum_eq_zero_iff.mp this) 0 (mem_range.mpr (by omega))
        unfold Graph.wsum at hd
        rw [List.length_eq_zero_iff.mp hl] at hd
        simp at hd
    · rcases h with h | h
      · omega
      · exact hP.rep.sturdy hv.csr h.2.2.2
    · rcases h with h | h
      · omega
      · rw [hP.sum]
        have := h.2.1
        simpa using this

/-- **C97.** No assertion fails in a call for two parts, whatever the options, the random engine and the containers, if
the graph is valid with total weight 2 or more and

* has at most 20 vertices, not an odd number of vertices of weight 1, or
* has more vertices, a total weight below 2^32-1, all edges listed in both directions and no component that is a single
  vertex or of at most 7.5% of the weight:

the call does in a debug build exactly what it does in a release build. -/
theorem C97_assertions_hold [Concrete.Log2Impl] (pq : PQImpl) (set : SetImpl) (rng : RngImpl) {i : Input} (hv : i.Valid)
    (hk : i.numPartitions = 2) (hW : 2 ≤ i.totalWeight)
    (h : (i.numVertices ≤ 20 ∧ (i.AllOnes → i.numVertices % 2 = 0)) ∨
      (20 < i.numVertices ∧ i.totalWeight < 2 ^ 32 - 1 ∧ i.Mutual ∧ i.NoSmallComponent))
    (o : Option (Options Concrete.fp)) (out : Out) :
    partGraphRecursiveD (dblEnv pq set rng) i o out = partGraphRecursive (dblEnv pq set rng) i o out := by
  cases o with
  | none => rfl
  | some o =>
    rcases callD_close (E := dblEnv pq set rng) (H := True) (i := i) (o := o) (fun P hp r =>
      Or.inl (partitionerD_two hv hk hW h (prepare_ok hv hp) r)) out with h | ⟨h, -⟩
    · exact h
    · exact absurd trivial h

/-- Between vertices joined by an edge of positive weight the weight is positive. -/
theorem Input.wt_pos {i : Input} (hv : i.Valid) (hp : i.PositiveEdges) {v u : Nat} (hlt : v < i.numVertices) :
    (∃ e, nth i.edgePrefix v ≤ e ∧ e < nth i.edgePrefix (v + 1) ∧ nth i.edgeList e = u) ↔
      0 < csrWt i.edgePrefix i.edgeList i.edgeWeights v u := by
  have hle : nth i.edgePrefix (v + 1) ≤ i.numEdges := hv.csr.xadj_le (by omega) (le_refl _)
  unfold csrWt
  constructor
  · rintro ⟨e, h1, h2, h3⟩
    refine lt_of_lt_of_le (hp e (by omega)) ?_
    have := Finset.single_le_sum (f := fun e => if nth i.edgeList e = u then weightAt i.edgeWeights e else 0)
      (fun _ _ => Nat.zero_le _) (mem_Ico.mpr ⟨h1, h2⟩)
    simpa [h3] using this
  · intro h
    obtain ⟨e, he, h⟩ := Finset.exists_ne_zero_of_sum_ne_zero (Nat.pos_iff_ne_zero.mp h)
    rw [mem_Ico] at he
    refine ⟨e, he.1, he.2, ?_⟩
    by_contra hne
    rw [if_neg hne] at h
    exact h rfl

theorem Input.Valid.mutual {i : Input} (hv : i.Valid) (hp : i.PositiveEdges) : i.Mutual := by
  intro v u hlt hlt' h
  rw [Input.wt_pos hv hp hlt] at h
  rw [Input.wt_pos hv hp hlt', hv.symm u v hlt' hlt]
  exact h

theorem Input.Valid.noSmallComponent {i : Input} (hv : i.Valid) (hp : i.PositiveEdges) (hc : i.Connected)
    (h2 : 2 ≤ i.numVertices) (hW : 0 < i.totalWeight) : i.NoSmallComponent := by
  intro S hS hne
  obtain ⟨v, hvS⟩ := hne
  have hall : ∀ u, Relation.ReflTransGen i.Edge v u → u ∈ S := by
    intro u h
    induction h with
    | refl => exact hvS
    | tail _ he ih =>
      by_contra hn
      have h0 := hS.2 _ ih _ he.2.1 hn
      have := (Input.wt_pos hv hp he.1).mp he.2.2
      omega
  have : S = range i.numVertices := by
    refine Finset.Subset.antisymm hS.1 fun u hu => hall u (hc v u (mem_range.mp (hS.1 hvS)) (mem_range.mp hu))
  subst this
  rw [card_range]
  refine ⟨h2, ?_⟩
  show 3 * i.totalWeight / 40 < i.totalWeight
  omega

/-- **C97.** In particular no assertion fails in a call for two parts on a connected graph of more than 20 vertices with
positive edge weights and a total vertex weight from 2 to 2^32-2. -/
theorem C97_connected [Concrete.Log2Impl] (pq : PQImpl) (set : SetImpl) (rng : RngImpl) {i : Input} (hv : i.Valid)
    (hk : i.numPartitions = 2) (h20 : 20 < i.numVertices) (hp : i.PositiveEdges) (hc : i.Connected)
    (hW : 2 ≤ i.totalWeight) (hW' : i.totalWeight < 2 ^ 32 - 1) (o : Option (Options Concrete.fp)) (out : Out) :
    partGraphRecursiveD (dblEnv pq set rng) i o out = partGraphRecursive (dblEnv pq set rng) i o out :=
  C97_assertions_hold pq set rng hv hk hW (Or.inr ⟨h20, hW', hv.mutual hp, hv.noSmallComponent hp hc (by omega) (by omega)⟩)
    o out

/-- The shares of two parts of weight 0 are not numbers. -/
theorem halves_zero [Concrete.Log2Impl] {b : Nat} (hb : b < 4294967296) {bt : Target Concrete.fp}
    (h : IsHalvesTarget [0, 0] [b, b] bt) : Concrete.fp.lt (Concrete.fp.lit 0 0) (nth bt.frac 0) = false := by
  obtain ⟨-, -, e3⟩ := halves_two_eq (Nat.zero_le b) hb (by omega) h
  rw [e3]
  exact (by decide +kernel : (@Concrete.fp floorLog2).lt ((@Concrete.fp floorLog2).lit 0 0)
    (nth (shares (@Concrete.fp floorLog2) [0, 0]) 0) = false)

/-- A release build returns from calls for two parts on graphs whose weights are not all 1, or that are coarsened. -/
theorem partitioner_two_returns [Concrete.Log2Impl] {pq : PQImpl} {set : SetImpl} {rng : RngImpl} {i : Input}
    (hk : i.numPartitions = 2) (h0 : 0 < i.numVertices)
    (h : ¬ i.AllOnes ∨ (20 < i.numVertices ∧ 0 < i.numEdges)) {o : Options Concrete.fp}
    {P : Prepared (dblEnv pq set rng)} (hP : PreparedOK i o P) (hfit : WeightsFit NULL32 P.target.tw P.target.mx)
    (r : rng.S) : ∃ p r', partitioner (dblEnv pq set rng) P.scheme P.target P.graph r = ok (p, r') ∧
      p.asg.length = P.graph.nv := by
  have hnv := hP.rep.nv_eq
  have hne := hP.rep.ne_eq
  refine partitioner_two_total (by rw [hP.k, hk]) hP.tw hP.mx hfit hP.good (fun bt r hbt hbt2 => ?_) r
  by_cases hco : 20 < P.graph.nv ∧ P.graph.ne ≠ 0
  · exact multilevel_coarsened (E := dblEnv pq set rng) Concrete.callOK.multilevel
      Concrete.callOK.badMoves P.scheme hP.good hco.1 hco.2 hbt2 r
  · have hn : ¬ i.AllOnes := by
      rcases h with h | h
      · exact h
      · exact absurd ⟨by omega, by omega⟩ hco
    have hu : P.graph.unitVtx ≠ true := fun hu => hn (hP.rep.unitVtx_iff.mp hu)
    have htot := hP.good.wf.tot_vtx
    exact (Multilevel.execute_spec (E := dblEnv pq set rng) (B := False) (makeMultilevel_contract P.scheme hbt2
      P.graph.totVtx (fun h => h Concrete.callOK.badMoves)) hP.good ⟨Or.inr ⟨by omega, fun hu' => absurd hu' hu⟩, rfl⟩
      (fun h => h (Concrete.callOK.multilevel _ (by rw [htot]; exact Nat.mod_lt _ (by omega)))) r).mono fun _ h => h.1

/-- **C97.** For graphs of 1 to 20 vertices and two parts this is exact: a call in a debug build stops at an assertion,
leaving the output as it was, if the total weight is at most 1 or the graph has an odd number of vertices, all of weight
1 (for instance with a null array); in all other cases it returns 1, with the output of the release build. -/
theorem C97_small_graphs [Concrete.Log2Impl] (pq : PQImpl) (set : SetImpl) (rng : RngImpl) {i : Input} (hv : i.Valid)
    (hk : i.numPartitions = 2) (h0 : 0 < i.numVertices) (h20 : i.numVertices ≤ 20) {o : Options Concrete.fp} (ho : o.Known)
    (hc : 0 < o.numGlobalCuts) {out : Out} (hb : i.numVertices ≤ out.asg.length) :
    (i.totalWeight ≤ 1 ∨ (i.AllOnes ∧ i.numVertices % 2 = 1) →
      partGraphRecursiveD (dblEnv pq set rng) i (some o) out = (out, exn)) ∧
    (¬ (i.totalWeight ≤ 1 ∨ (i.AllOnes ∧ i.numVertices % 2 = 1)) →
      partGraphRecursiveD (dblEnv pq set rng) i (some o) out = partGraphRecursive (dblEnv pq set rng) i (some o) out ∧
      (partGraphRecursive (dblEnv pq set rng) i (some o) out).2 = ok 1) := by
  obtain ⟨P, hp, hfit⟩ := prepare_total (E := dblEnv pq set rng) Concrete.uniformOK hv (by omega) (by omega) ho
  have hP := prepare_ok hv hp
  have hnv := hP.rep.nv_eq
  have htk : P.target.k = 2 := by rw [hP.k, hk]
  obtain ⟨b, etw, emx, hab, hb3, hb1, hb2⟩ := two_target hv hk hP
  have hbt : ∀ bt : Target Concrete.fp, IsHalvesTarget P.target.tw P.target.mx bt →
      nth bt.tw 0 = i.totalWeight / 2 ∧ nth bt.mx 0 = b ∧ nth bt.mx 1 = b := by
    intro bt h
    rw [etw, emx] at h
    have hWlt : i.totalWeight < 4294967296 := by have := hv.vtxFits; simpa [Input.totalWeight] using this
    obtain ⟨e1, e2, -⟩ := halves_two_eq hab hb3 (by omega) h
    rw [e1, e2]
    exact ⟨rfl, rfl, rfl⟩
  constructor
  · intro h
    by_cases hodd : i.AllOnes ∧ i.numVertices % 2 = 1
    · have htot := unit_total hodd.1
      have hbn : b = i.numVertices / 2 := by
        rw [htot] at hb1 hab
        have : 2 * b < i.numVertices + 1 := by
          have h3 : (i.numVertices : ℚ) ≤ 20 := by exact_mod_cast h20
          have : (2 * b : ℚ) < i.numVertices + 1 := by linarith
          exact_mod_cast this
        omega
      refine callD_exn hp hc (fun r => rbExecuteD_exn (E := dblEnv pq set rng) (by omega) (by rw [htk]; decide) hP.tw
        hP.mx Concrete.recursiveOK hfit fun bt h => ?_) out
      obtain ⟨t1, t2, t3⟩ := hbt bt h
      exact executeD_unit_stops (E := dblEnv pq set rng) Concrete.callOK.multilevel P.scheme hP.good (Or.inl (by omega))
        h.two (hP.rep.unitVtx_iff.mpr hodd.1) (by omega) (by omega) (by omega) r
    · have hW : i.totalWeight ≤ 1 := by
        rcases h with h | h
        · exact h
        · exact absurd h hodd
      have hn : ¬ i.AllOnes := fun hall => by
        have := unit_total hall
        exact hodd ⟨hall, by omega⟩
      refine callD_never hp hP (by omega) (by omega) hc (fun r x hx => ?_) (fun r => ?_) out
      · refine partitionerD_never (by omega) (by rw [htk]; decide) hP.tw hP.mx (fun bt r o h ho => ?_) hx
        have h' := h
        rw [etw, emx, show i.totalWeight / 2 = 0 by omega] at h'
        exact executeD_fraction (E := dblEnv pq set rng) h.two (q := 0) (by omega) (halves_zero hb3 h') P.scheme hP.good ho
      · obtain ⟨p, r', h, -⟩ := partitioner_two_returns hk h0 (Or.inl hn) hP hfit r
        exact ⟨_, h⟩
  · intro h
    rw [not_or, not_and] at h
    refine ⟨C97_assertions_hold pq set rng hv hk (by omega) (Or.inl ⟨h20, fun ha => ?_⟩) (some o) out, ?_⟩
    · have := h.2 ha
      omega
    · refine call_total (E := dblEnv pq set rng) hp (fun r => ?_) (by omega)
      by_cases hall : i.AllOnes
      · have heven := h.2 hall
        have htot := unit_total hall
        refine partitioner_two_total htk hP.tw hP.mx hfit hP.good (fun bt r hh h2 => ?_) r
        obtain ⟨t1, t2, t3⟩ := hbt bt hh
        exact (multilevel_unit (E := dblEnv pq set rng) Concrete.callOK.multilevel P.scheme hP.good (Or.inl (by omega)) h2
          (null_unit hP hall) ⟨by omega, by omega⟩ (by omega) r).mono fun _ h => h.1
      · exact partitioner_two_returns hk h0 (Or.inl hall) hP hfit r

/-! ### C98 -/

/-- **C98.** A call for two parts on a graph of 21 to 25 vertices that has an edge and a vertex without edges of positive
weight always stops at an assertion in a debug build, although the release build returns 1. -/
theorem C98_lone_vertex_stops [Concrete.Log2Impl] (pq : PQImpl) (set : SetImpl) (rng : RngImpl) {i : Input} (hv : i.Valid)
    (hk : i.numPartitions = 2) (h20 : 20 < i.numVertices) (h25 : i.numVertices ≤ 25) (he : 0 < i.numEdges) {w : Nat}
    (hw : w < i.numVertices) (hlone : i.Closed {w}) {o : Options Concrete.fp} (ho : o.Known) (hc : 0 < o.numGlobalCuts)
    {out : Out} (hb : i.numVertices ≤ out.asg.length) :
    partGraphRecursiveD (dblEnv pq set rng) i (some o) out = (out, exn) ∧
      (partGraphRecursive (dblEnv pq set rng) i (some o) out).2 = ok 1 := by
  obtain ⟨P, hp, hfit⟩ := prepare_total (E := dblEnv pq set rng) Concrete.uniformOK hv (by omega) (by omega) ho
  have hP := prepare_ok hv hp
  have hnv := hP.rep.nv_eq
  have hne := hP.rep.ne_eq
  have htk : P.target.k = 2 := by rw [hP.k, hk]
  have hrel := partitioner_two_returns hk (by omega) (Or.inr ⟨h20, he⟩) hP hfit
  refine ⟨callD_never hp hP (by omega) (by omega) hc (fun r x hx => ?_) (fun r => ?_) out,
    call_total (E := dblEnv pq set rng) hp hrel (by omega)⟩
  · refine partitionerD_never (by omega) (by rw [htk]; decide) hP.tw hP.mx (fun bt r o h ho => ?_) hx
    refine executeD_lone (E := dblEnv pq set rng) h.two P.scheme hP.good (by omega) (by omega) (by omega) (w := w)
      ⟨by omega, ?_⟩ ho
    rw [Graph.wsum_eq_sum hP.good.wf (by omega)]
    refine sum_eq_zero fun u hu => ?_
    have hu := mem_range.mp hu
    rw [hnv] at hu
    rw [if_pos rfl, hv.csr.wt_eq hP.rep hw]
    by_cases huw : u = w
    · subst huw
      unfold csrWt
      refine sum_eq_zero fun e he => ?_
      rw [mem_Ico] at he
      rw [if_neg (hv.noLoop u hw e he.1 he.2)]
    · exact hlone.2 w (by simp) u hu (by simpa using huw)
  · obtain ⟨p, r', h, -⟩ := hrel r
    exact ⟨_, h⟩

/-- **C98.** With a total weight of 0 or 1 a call for two parts always stops at an assertion in a debug build (the shares
of the parts are not numbers), although the release build returns 1 (unless all weights are 1 and the graph is not
coarsened). -/
theorem C98_no_weight_stops [Concrete.Log2Impl] (pq : PQImpl) (set : SetImpl) (rng : RngImpl) {i : Input} (hv : i.Valid)
    (hk : i.numPartitions = 2) (h0 : 0 < i.numVertices) (hW : i.totalWeight ≤ 1)
    (h : ¬ i.AllOnes) {o : Options Concrete.fp} (ho : o.Known)
    (hc : 0 < o.numGlobalCuts) {out : Out} (hb : i.numVertices ≤ out.asg.length) :
    partGraphRecursiveD (dblEnv pq set rng) i (some o) out = (out, exn) ∧
      (partGraphRecursive (dblEnv pq set rng) i (some o) out).2 = ok 1 := by
  obtain ⟨P, hp, hfit⟩ := prepare_total (E := dblEnv pq set rng) Concrete.uniformOK hv (by omega) (by omega) ho
  have hP := prepare_ok hv hp
  have hnv := hP.rep.nv_eq
  have htk : P.target.k = 2 := by rw [hP.k, hk]
  obtain ⟨b, etw, emx, hab, hb3, -, -⟩ := two_target hv hk hP
  have hrel := partitioner_two_returns hk h0 (Or.inl h) hP hfit
  refine ⟨callD_never hp hP (by omega) (by omega) hc (fun r x hx => ?_) (fun r => ?_) out,
    call_total (E := dblEnv pq set rng) hp hrel (by omega)⟩
  · refine partitionerD_never (by omega) (by rw [htk]; decide) hP.tw hP.mx (fun bt r o h ho => ?_) hx
    have h' := h
    rw [etw, emx, show i.totalWeight / 2 = 0 by omega] at h'
    exact executeD_fraction (E := dblEnv pq set rng) h.two (q := 0) (by omega) (halves_zero hb3 h') P.scheme hP.good ho
  · obtain ⟨p, r', h, -⟩ := hrel r
    exact ⟨_, h⟩

/-! ### the hypotheses hold for real graphs -/

/-- A ring of 24 vertices of weight 1. -/
def ring24 : Input :=
  { numVertices := 24, edgePrefix := (List.range 25).map (2 * ·),
    edgeList := (List.range 24).flatMap fun v => [(v + 23) % 24, (v + 1) % 24],
    vertexWeights := none, edgeWeights := none, numPartitions := 2 }

theorem ring24_valid : ring24.Valid :=
  Ex.valid_of (by constructor <;> decide +kernel) (by decide +kernel) (by decide +kernel) (by decide +kernel)
    (by decide +kernel)

theorem ring24_connected : ring24.Connected := by
  have next : ∀ v, v < 24 → nth ring24.edgePrefix v ≤ 2 * v + 1 ∧ 2 * v + 1 < nth ring24.edgePrefix (v + 1) ∧
      nth ring24.edgeList (2 * v + 1) = (v + 1) % 24 := by decide +kernel
  have step : ∀ v, v < 24 → ring24.Edge v ((v + 1) % 24) := fun v hv =>
    ⟨hv, Nat.mod_lt _ (by omega), 2 * v + 1, (next v hv).1, (next v hv).2.1, (next v hv).2.2⟩
  have go : ∀ v, v < 24 → ∀ n, Relation.ReflTransGen ring24.Edge v ((v + n) % 24) := by
    intro v hv n
    induction n with
    | zero => rw [Nat.add_zero, Nat.mod_eq_of_lt hv]
    | succ n ih =>
      refine ih.tail ?_
      have := step ((v + n) % 24) (Nat.mod_lt _ (by omega))
      rwa [show ((v + n) % 24 + 1) % 24 = (v + (n + 1)) % 24 by omega] at this
  intro v u hv hu
  have hv : v < 24 := hv
  have hu : u < 24 := hu
  have := go v hv (u + 24 - v)
  rwa [show (v + (u + 24 - v)) % 24 = u by omega] at this

/-- C97: the debug build returns 1 for a ring of 24 vertices. -/
example : (partGraphRecursiveD Concrete.env ring24 (some (defaultOptions Concrete.fp)) { cut := 0, asg := List.replicate 24 0 }).2 =
    ok 1 := by
  have h := C97_connected Concrete.env.pq Concrete.env.set Concrete.env.rng ring24_valid rfl (by decide)
    (fun _ _ => Nat.one_pos) ring24_connected (by decide +kernel) (by decide +kernel) (some (defaultOptions Concrete.fp))
    { cut := 0, asg := List.replicate 24 0 }
  have h2 := (C89_null_two_parts Concrete.env.pq Concrete.env.set Concrete.env.rng ring24_valid rfl rfl
    (o := defaultOptions Concrete.fp) (Or.inr rfl) (by decide) (out := { cut := 0, asg := List.replicate 24 0 }) (by decide)).1
    (by unfold NullSafe; decide)
  exact (congrArg Prod.snd h).trans h2

/-- C96, C97: two weighted triangles are split by the debug build; a triangle without weights makes it stop, where the
release build reads an absent array. -/
example : partGraphRecursiveD Concrete.env Ex.tri2In (some (Ex.cuts 3)) Ex.before =
      ({ cut := 1, asg := [0, 0, 0, 1, 1, 1, 9, 9] }, ok 1) ∧
    partGraphRecursiveD Concrete.env Ex.triIn (some (Ex.cuts 1)) Ex.before = (Ex.before, exn) ∧
    partGraphRecursive Concrete.env Ex.triIn (some (Ex.cuts 1)) Ex.before = (Ex.before, ub) :=
  ⟨by decide +kernel, (C97_small_graphs Concrete.env.pq Concrete.env.set Concrete.env.rng Ex.triIn_valid rfl (by decide)
    (by decide) (o := Ex.cuts 1) (Or.inr rfl) (by decide) (out := Ex.before) (by decide)).1
    (Or.inr ⟨fun _ _ => rfl, by decide⟩), by decide +kernel⟩

/-- An edge and 19 other vertices, of weight 50. -/
def edge21 : Input :=
  { numVertices := 21, edgePrefix := 0 :: 1 :: List.replicate 20 2, edgeList := [1, 0],
    vertexWeights := some (List.replicate 21 50), edgeWeights := none, numPartitions := 2 }

theorem edge21_valid : edge21.Valid :=
  Ex.valid_of (by constructor <;> decide +kernel) (by decide +kernel) (by decide +kernel) (by decide +kernel)
    (by decide +kernel)

/-- C98: on an edge and 19 other vertices the debug build stops and the release build returns 1. -/
example : partGraphRecursiveD Concrete.env edge21 (some (Ex.cuts 1)) { cut := 0, asg := List.replicate 21 0 } =
      ({ cut := 0, asg := List.replicate 21 0 }, exn) ∧
    (partGraphRecursive Concrete.env edge21 (some (Ex.cuts 1)) { cut := 0, asg := List.replicate 21 0 }).2 = ok 1 :=
  C98_lone_vertex_stops Concrete.env.pq Concrete.env.set Concrete.env.rng edge21_valid rfl (by decide) (by decide)
    (by decide +kernel) (w := 5) (by decide) ⟨by decide, fun v hv u hu hn => by
      rw [mem_singleton] at hv
      subst hv
      unfold csrWt
      rw [show nth edge21.edgePrefix 5 = 2 from rfl, show nth edge21.edgePrefix (5 + 1) = 2 from rfl]
      simp⟩ (o := Ex.cuts 1) (Or.inr rfl) (by decide) (out := { cut := 0, asg := List.replicate 21 0 }) (by decide)

/-- C98: vertices of weight 0. -/
example : (zeroIn 2).Valid ∧ 0 < (zeroIn 2).numVertices ∧ (zeroIn 2).totalWeight ≤ 1 ∧ ¬ (zeroIn 2).AllOnes :=
  ⟨Ex.valid_of (by constructor <;> decide +kernel) (by decide +kernel) (by decide +kernel) (by decide +kernel)
    (by decide +kernel), by decide, by decide +kernel, fun h => by
      have := h 0 (by decide)
      revert this
      decide +kernel⟩

end Poros
