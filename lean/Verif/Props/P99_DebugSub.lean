import Verif.Props.P96_Debug
/-
C99, C100: subgraph extraction and calls for several parts in debug builds.
-/
namespace Poros
open Finset Res Concrete

/-! ### C99 -/

/-- **C99.** For every well-formed graph and complete labelling of its vertices, whatever the labels of the super-map:
in a debug build extraction does what it does in a release build if a vertex with edges inside its part always has fewer
of them than the part has vertices, and for every edge inside a part the first edge listed back exists and has the same
weight; otherwise it stops at an assertion. -/
theorem C99_extraction {g : Graph} {part : Partitioning} {k : Nat} {labels : Option (List Nat)} (hg : g.WF)
    (hp : CompletePart g k part) (hlab : LabelsOK g.nv labels) :
    (ExtractOK g part.lab → ∃ subs, extractPartitionsD g part labels = ok subs ∧ extractPartitions g part labels = ok subs) ∧
    (¬ ExtractOK g part.lab → extractPartitionsD g part labels = exn) := by
  obtain ⟨subs, h1, -⟩ := extract_spec hg hp.asg_len hp.pw_len hp.lt hlab
  constructor
  · intro h
    refine ⟨subs, ?_, h1⟩
    rw [(extractPartitionsD_close (H := True) hg hp.asg_len hp.pw_len hp.lt hlab fun _ => h).eq trivial]
    exact h1
  · intro h
    rcases extractPartitionsD_stops hg hp.asg_len hp.pw_len hp.lt hlab with h' | ⟨-, h'⟩
    · rw [h1] at h'
      exact absurd (extractPartitionsD_only hg hp.asg_len hp.pw_len hp.lt hlab h') h
    · exact h'

theorem ExtractOK.of_simple {g : Graph} (hg : g.WF) (hn : g.NoLoop) (hs : g.NoParallel) (hsym : g.Symm) (hA : g.SymmAdj)
    (lab : Nat → Nat) : ExtractOK g lab := by
  refine ⟨fun v hv => Or.inr ?_, fun v hv u w hm _ => ?_⟩
  · have hnd : (((g.nbrs v).filter fun q => decide (lab q.1 = lab v)).map Prod.fst).Nodup :=
      (List.Sublist.map _ List.filter_sublist).nodup (hs v hv)
    unfold innerDegree
    rw [← List.length_map (f := Prod.fst)]
    have hvm : v ∈ vertsOf g lab (lab v) := mem_fiber.mpr ⟨hv, rfl⟩
    have hsub : (((g.nbrs v).filter fun q => decide (lab q.1 = lab v)).map Prod.fst) ⊆ (vertsOf g lab (lab v)).erase v := by
      intro u hu
      obtain ⟨q, hq, rfl⟩ := List.mem_map.mp hu
      obtain ⟨h1, h2⟩ := List.mem_filter.mp hq
      exact (List.mem_erase_of_ne (hn v hv q h1)).mpr (mem_fiber.mpr ⟨Graph.nbrs_lt hg hv h1, of_decide_eq_true h2⟩)
    have h1 := (hnd.subperm hsub).length_le
    rw [List.length_erase_of_mem hvm] at h1
    have : 0 < (vertsOf g lab (lab v)).length := List.length_pos_of_mem hvm
    omega
  · obtain ⟨b, h1, h2⟩ := C69_simple hg.shaped hs
    obtain ⟨b', h1', h2'⟩ := hg.shaped.isValid
    rw [h1] at h1'
    obtain rfl := Res.ok.inj h1'
    have hb := h2.mpr ⟨hg.tot_vtx, hg.dest_lt, hg.tot_edge, hsym, hA⟩
    exact (h2'.mp hb).2.2.2 v hv u w hm

/-- **C99.** In particular no assertion fails when extracting from a symmetric graph without loops and parallel edges. -/
theorem C99_simple {g : Graph} {part : Partitioning} {k : Nat} {labels : Option (List Nat)} (hg : g.WF) (hn : g.NoLoop)
    (hs : g.NoParallel) (hsym : g.Symm) (hA : g.SymmAdj) (hp : CompletePart g k part) (hlab : LabelsOK g.nv labels) :
    ∃ subs, extractPartitionsD g part labels = ok subs ∧ extractPartitions g part labels = ok subs :=
  (C99_extraction hg hp hlab).1 (ExtractOK.of_simple hg hn hs hsym hA _)

/-- **C99.** A part in which a vertex has as many edges as the part has vertices stops it: for instance two vertices
joined by two edges, or a single vertex with a loop. -/
theorem C99_crowded {g : Graph} {part : Partitioning} {k : Nat} {labels : Option (List Nat)} (hg : g.WF)
    (hp : CompletePart g k part) (hlab : LabelsOK g.nv labels) {v : Nat} (hv : v < g.nv)
    (h : (vertsOf g part.lab (part.lab v)).length ≤ ((g.nbrs v).filter fun q => decide (part.lab q.1 = part.lab v)).length) :
    extractPartitionsD g part labels = exn := by
  refine (C99_extraction hg hp hlab).2 fun hE => ?_
  have hvm : v ∈ vertsOf g part.lab (part.lab v) := mem_fiber.mpr ⟨hv, rfl⟩
  have : 0 < (vertsOf g part.lab (part.lab v)).length := List.length_pos_of_mem hvm
  have := hE.deg v hv
  unfold innerDegree at this
  omega

/-! ### C100 -/

theorem IsInduced.noParallel {g s : Graph} {lab : Nat → Nat} {p : Nat} (h : IsInduced g lab p s) (hs : g.NoParallel) :
    s.NoParallel := by
  intro i hi
  have h1 := congrArg (List.map Prod.fst) (h.nbrs i hi)
  have h2 : (((g.nbrs (nth (vertsOf g lab p) i)).filter fun q => decide (lab q.1 = p)).map Prod.fst).Nodup :=
    (List.Sublist.map _ List.filter_sublist).nodup (hs _ (h.vert hi).1)
  rw [← h1, List.map_map] at h2
  have : (s.nbrs i).map (Prod.fst ∘ fun q => (nth (vertsOf g lab p) q.1, q.2)) =
      ((s.nbrs i).map Prod.fst).map (nth (vertsOf g lab p)) := by
    rw [List.map_map]; rfl
  rw [this] at h2
  exact List.Nodup.of_map _ h2

theorem Represents.noParallel {i : Input} {g : Graph}
    (hc : CSR i.numVertices i.numEdges i.edgePrefix i.edgeList i.vertexWeights i.edgeWeights)
    (hr : Represents i.numVertices i.numEdges i.edgePrefix i.edgeList i.vertexWeights i.edgeWeights g)
    (hs : i.Simple) : g.NoParallel := by
  intro v hv
  rw [hr.nv_eq] at hv
  have h1 : nth i.edgePrefix v ≤ nth i.edgePrefix (v + 1) := hc.mono v hv
  have h2 : nth i.edgePrefix (v + 1) ≤ i.numEdges := by
    have := hc.xadj_le (u := v + 1) (v := i.numVertices) (by omega) (le_refl _)
    rwa [hc.last] at this
  unfold Graph.nbrs
  rw [List.map_map, hr.xadj_at (by omega), hr.xadj_at (by omega)]
  refine List.Nodup.map_on ?_ (List.nodup_range' ..)
  intro e he f hf hef
  rw [List.mem_range'_1] at he hf
  have hef : nth g.adjncy e = nth g.adjncy f := hef
  rw [hr.adj_at (by omega), hr.adj_at (by omega)] at hef
  exact hs v hv e f he.1 (by omega) hf.1 (by omega) hef

/-- What the assertions of a call need of graphs of at most 20 vertices, whatever the number of parts. -/
structure SmallOK (a m : Nat) (g : Graph) : Prop where
  size : g.nv ≤ 20
  simple : g.NoParallel
  adj : g.SymmAdj
  weights : Even a m g ∨ ∀ v, v < g.nv → g.vw v ≠ 1

theorem small_inv [Concrete.Log2Impl] {pq : PQImpl} {set : SetImpl} {rng : RngImpl} (s : Scheme) {a b k : Nat}
    (ha : 0 < a) (hab : a ≤ b) (hb : (k - k / 2) * b < 4294967296) (hka : k * a < 4294967296) :
    RBInv (E := dblEnv pq set rng) (makeMultilevelD (dblEnv pq set rng) s).executeD
      (makeMultilevel (dblEnv pq set rng) s).execute (fun tw mx g => ∃ m, 2 ≤ m ∧ m ≤ k ∧ tw = List.replicate m a ∧
        mx = List.replicate m b ∧ SmallOK a m g) := by
  have hhalf : ∀ (m : Nat) (bt : Target Concrete.fp), 2 ≤ m → m ≤ k →
      IsHalvesTarget (List.replicate m a) (List.replicate m b) bt → PosFrac bt 2 ∧ nth bt.tw 0 ≤ nth bt.mx 0 := by
    intro m bt hm hmk hbt
    have e : m / 2 + (m - m / 2) = m := by omega
    have hle : (m - m / 2) * b ≤ (k - k / 2) * b := Nat.mul_le_mul_right _ (by omega)
    have hle' : m * a ≤ k * a := Nat.mul_le_mul_right _ hmk
    obtain ⟨h1, h2, h3, q0, q1, hfr, h4, h5⟩ := halves_equal (n := m / 2) (m := m - m / 2) (by omega) (by omega) ha hab
      (by omega) (by rw [e]; omega) (by rw [e]; exact hbt)
    refine ⟨?_, by omega⟩
    rw [e] at h4 h5
    have hm0 : (0 : ℚ) < m := by exact_mod_cast (show 0 < m by omega)
    have f0 : (1 : ℚ) / 3 ≤ ((m / 2 : Nat) : ℚ) / m := by
      rw [div_le_div_iff₀ (by norm_num) hm0]
      exact_mod_cast (show 1 * m ≤ m / 2 * 3 by omega)
    have f1 : (1 : ℚ) / 3 ≤ ((m - m / 2 : Nat) : ℚ) / m := by
      rw [div_le_div_iff₀ (by norm_num) hm0]
      exact_mod_cast (show 1 * m ≤ (m - m / 2) * 3 by omega)
    intro j hj
    have : j = 0 ∨ j = 1 := by omega
    rcases this with rfl | rfl
    · have hq : nth bt.frac 0 = (F64.fin q0 : Concrete.fp.F) := by rw [hfr]; rfl
      rw [hq, lit_zero]
      show decide ((0 : ℚ) < q0) = true
      rw [decide_eq_true_eq]
      linarith [h4.2]
    · have hq : nth bt.frac 1 = (F64.fin q1 : Concrete.fp.F) := by rw [hfr]; rfl
      rw [hq, lit_zero]
      show decide ((0 : ℚ) < q1) = true
      rw [decide_eq_true_eq]
      linarith [h5.2]
  refine ⟨?_, ?_, ?_, ?_⟩
  · rintro _ _ g ⟨m, -, -, rfl, rfl, -⟩ q hq
    rw [List.length_replicate] at hq
    rw [nth_replicate hq, nth_replicate hq]
    exact hab
  · rintro _ _ g bt ⟨m, hm, hmk, rfl, rfl, -⟩ - hbt
    exact (hhalf m bt hm hmk hbt).1
  · rintro _ _ g bt r ⟨m, hm, hmk, rfl, rfl, hS⟩ hg hbt
    refine (executeD_close (E := dblEnv pq set rng) (H := True) s hbt.two (fun _ => (hhalf m bt hm hmk hbt).1) hg
      (fun _ maxW _ => ?_) r).eq trivial
    have := hS.size
    refine ⟨fun h => by omega, fun _ hu => ?_, fun h => by omega, fun h => by omega⟩
    rcases hS.weights with hE | hne
    · have hle : (m - m / 2) * b ≤ (k - k / 2) * b := Nat.mul_le_mul_right _ (by omega)
      have hle' : m * a ≤ k * a := Nat.mul_le_mul_right _ hmk
      obtain ⟨-, t2, -, t4⟩ := even_halves hE hm ha hab (by omega) (by omega) hbt
      exact ⟨t2, t4⟩
    · refine ⟨(hhalf m bt hm hmk hbt).2, ?_⟩
      by_cases h0 : g.nv = 0
      · omega
      · have := hne 0 (by omega)
        unfold Graph.vw at this
        rw [hu] at this
        simp at this
  · rintro _ _ g bt r o ⟨m, hm, hmk, rfl, rfl, hS⟩ hg hbt ho hx h2
    have hle : (m - m / 2) * b ≤ (k - k / 2) * b := Nat.mul_le_mul_right _ (by omega)
    have hle' : m * a ≤ k * a := Nat.mul_le_mul_right _ hmk
    have hsz := hS.size
    rw [List.length_replicate] at h2
    refine ⟨ExtractOK.of_simple hg.wf hg.noLoop hS.simple hg.symm hS.adj _, ?_⟩
    have hsub : ∀ (p n : Nat) s, IsInduced g o.1.lab p s → (Even a m g → Even a n s) → SmallOK a n s := by
      intro p n s hi hE
      refine ⟨?_, hi.noParallel hS.simple, hi.symmAdj hS.adj, hS.weights.imp hE fun h v hv => ?_⟩
      · have := fiber_le o.1.lab g.nv p
        rw [hi.nv]
        exact le_trans this hsz
      · rw [hi.vw v hv]; exact h _ (hi.vert hv).1
    have hw : Even a m g → partWeight g o.1.lab 0 = m / 2 * a ∧ partWeight g o.1.lab 1 = (m - m / 2) * a := fun hE =>
      ((C72_multilevel_run s hbt.two hg r).1 o.1 o.2 ho).even hE hm ha hab (by omega) (by omega) hbt hx.complete
    simp only [List.length_replicate, List.take_replicate, List.drop_replicate]
    rw [Nat.min_eq_left (Nat.div_le_self m 2)]
    exact ⟨fun s h hi => ⟨_, h, by omega, rfl, rfl, hsub _ _ _ hi fun hE => hi.even hg.wf hE (hw hE).1⟩,
      fun s hi => ⟨_, by omega, by omega, rfl, rfl, hsub _ _ _ hi fun hE => hi.even hg.wf hE (hw hE).2⟩⟩

/-- **C100.** No assertion fails in a call for two or more parts, whatever the options, the random engine and the
containers, on a valid graph with at most 20 vertices whose edges are all listed once in each direction, if

* all vertices have weight 1 and the number of parts divides their number, or
* no vertex has weight 1 and the total weight exceeds the number of parts by 1% or more (and both fit in 32 bits together):

the call does in a debug build exactly what it does in a release build. -/
theorem C100_small_graphs [Concrete.Log2Impl] (pq : PQImpl) (set : SetImpl) (rng : RngImpl) {i : Input} (hv : i.Valid)
    (hk : 2 ≤ i.numPartitions) (h20 : i.numVertices ≤ 20) (hm : i.Mutual) (hs : i.Simple)
    (h : (i.AllOnes ∧ i.numPartitions ∣ i.numVertices ∧ 0 < i.numVertices) ∨
      ((∀ v, v < i.numVertices → weightAt i.vertexWeights v ≠ 1) ∧ 101 * i.numPartitions ≤ 100 * i.totalWeight ∧
        i.totalWeight + i.numPartitions < 2 ^ 32))
    (o : Option (Options Concrete.fp)) (out : Out) :
    partGraphRecursiveD (dblEnv pq set rng) i o out = partGraphRecursive (dblEnv pq set rng) i o out := by
  cases o with
  | none => rfl
  | some o =>
    refine (callD_close (E := dblEnv pq set rng) (H := True) (i := i) (o := o) (fun P hp r => ?_) out).elim id
      fun h => absurd trivial h.1
    have hP := prepare_ok hv hp
    have hnv := hP.rep.nv_eq
    have hWlt : i.totalWeight < 4294967296 := by have := hv.vtxFits; simpa [Input.totalWeight] using this
    have hk' : i.numPartitions < 4294967296 := by
      rcases h with h | h
      · have := Nat.le_of_dvd h.2.2 h.2.1
        omega
      · have := h.2.2
        omega
    have hA : ∃ a b, P.target.tw = List.replicate i.numPartitions a ∧ P.target.mx = List.replicate i.numPartitions b ∧
        0 < a ∧ a ≤ b ∧ (i.numPartitions - i.numPartitions / 2) * b < 4294967296 ∧ i.numPartitions * a < 4294967296 ∧
        SmallOK a i.numPartitions P.graph := by
      have hpar := hP.rep.noParallel hv.csr hs
      have hadj := hP.rep.mutual hv.csr hm
      have ht := hP.target
      rcases h with ⟨hone, ⟨c, hc⟩, hpos⟩ | ⟨hne, hW1, hW2⟩
      · have hle : i.numPartitions ≤ i.numVertices := Nat.le_of_dvd hpos ⟨c, hc⟩
        have hc0 : 0 < c := by
          rcases Nat.eq_zero_or_pos c with rfl | h
          · omega
          · exact h
        have hlt : i.numPartitions * c < 4294967296 := by omega
        rw [unit_total hone, hc] at ht
        obtain ⟨b, e1, e2, hcb, hb⟩ := exact_shares hk (by omega) hlt ht
        exact ⟨c, b, e1, e2, hc0, hcb, hb, hlt, by omega, hpar, hadj,
          Or.inl ⟨null_unit hP hone, by rw [hnv, hc], Or.inl (by omega)⟩⟩
      · obtain ⟨f, a, b, hu, hab, ha1, ha2, hb1, hb2⟩ := uniform_bounds (k := i.numPartitions) (tot := i.totalWeight) hk
          hk' hWlt
        rw [hu] at ht
        have ht := Res.ok.inj ht
        have hk0 : (0 : ℚ) < i.numPartitions := by exact_mod_cast (show 0 < i.numPartitions by omega)
        have hw : (101 : ℚ) / 100 ≤ 1 / i.numPartitions * i.totalWeight := by
          rw [one_div_mul_eq_div, div_le_div_iff₀ (by norm_num) hk0]
          have : (101 * i.numPartitions : ℚ) ≤ 100 * i.totalWeight := by exact_mod_cast hW1
          linarith
        have hws : (i.numPartitions : ℚ) * (1 / i.numPartitions * i.totalWeight) = i.totalWeight := by field_simp
        have hsum : (i.totalWeight : ℚ) + i.numPartitions < 4294967296 := by exact_mod_cast (by omega : i.totalWeight + i.numPartitions < 4294967296)
        generalize 1 / (i.numPartitions : ℚ) * i.totalWeight = x at *
        have hW0 : (0 : ℚ) ≤ i.totalWeight := Nat.cast_nonneg _
        refine ⟨a, b, by rw [← ht], by rw [← ht], ?_, hab, ?_, ?_, by omega, hpar, hadj, Or.inr fun v hvn => ?_⟩
        · by_contra hn
          have : a = 0 := by omega
          subst this
          norm_num at ha2
          linarith
        · have hm3 : 3 * ((i.numPartitions - i.numPartitions / 2 : Nat) : ℚ) ≤ 2 * i.numPartitions := by
            exact_mod_cast (show 3 * (i.numPartitions - i.numPartitions / 2) ≤ 2 * i.numPartitions by omega)
          have h5 : ((i.numPartitions - i.numPartitions / 2 : Nat) : ℚ) * b ≤ 2 / 3 * i.numPartitions * (103 / 100 * x + 1 / 131072) :=
            mul_le_mul (by linarith) hb1 (Nat.cast_nonneg b) (by linarith)
          have h6 : ((i.numPartitions - i.numPartitions / 2 : Nat) : ℚ) * b < 4294967296 := by
            refine lt_of_le_of_lt h5 ?_
            have : 2 / 3 * (i.numPartitions : ℚ) * (103 / 100 * x + 1 / 131072) =
                206 / 300 * (i.numPartitions * x) + 2 / 393216 * i.numPartitions := by ring
            rw [this, hws]
            linarith
          exact_mod_cast h6
        · have h5 : (i.numPartitions : ℚ) * a ≤ i.numPartitions * (x + 1 / 100000) :=
            mul_le_mul_of_nonneg_left ha1 hk0.le
          have h6 : (i.numPartitions : ℚ) * a < 4294967296 := by
            have : (i.numPartitions : ℚ) * (x + 1 / 100000) = i.numPartitions * x + 1 / 100000 * i.numPartitions := by ring
            rw [this, hws] at h5
            linarith
          exact_mod_cast h6
        · rw [hP.rep.vw_at (by omega)]
          exact hne v (by omega)
    obtain ⟨a, b, etw, emx, ha, hab, hb, hka, hS⟩ := hA
    refine partitionerD_close P.scheme (by rw [hP.k]; exact hk) (by rw [hP.k]; exact hk') hP.tw hP.mx hP.good
      (fun _ => ⟨_, small_inv P.scheme ha hab hb hka, i.numPartitions, hk, le_refl _, etw, emx, hS⟩) r

/-! ### Examples -/

/-- C99: taking the two triangles apart passes. -/
example : ∃ subs, extractPartitionsD Ex.tri2 { cut := 0, pw := [0, 0], asg := [0, 0, 0, 1, 1, 1] } none = ok subs ∧
    extractPartitions Ex.tri2 { cut := 0, pw := [0, 0], asg := [0, 0, 0, 1, 1, 1] } none = ok subs :=
  C99_simple (k := 2) Ex.tri2_wf Ex.tri2_noLoop (by unfold Graph.NoParallel; decide +kernel) Ex.tri2_symm (by
    obtain ⟨b, h1, h2⟩ := C69_simple Ex.tri2_wf.shaped (by unfold Graph.NoParallel; decide +kernel)
    rw [show Ex.tri2.isValid = ok true by decide +kernel] at h1
    exact (h2.mp (Res.ok.inj h1).symm).2.2.2.2) (by constructor <;> decide +kernel) (by unfold LabelsOK; decide +kernel)

/-- C99: the two vertices joined by two edges, as one part, stop it. -/
example : extractPartitionsD twinGraph { cut := 0, pw := [2, 0], asg := [0, 0] } none = exn ∧
    extractPartitions twinGraph { cut := 0, pw := [2, 0], asg := [0, 0] } none ≠ exn :=
  ⟨C99_crowded (k := 2) (v := 0) (by constructor <;> decide +kernel) (by constructor <;> decide +kernel)
    (by unfold LabelsOK; decide +kernel) (by decide) (by decide +kernel), by decide +kernel⟩

/-- A ring of six vertices of weight 1, or all of weight 4, and three parts. -/
def ring6 (w : Nat) : Input :=
  { numVertices := 6, edgePrefix := [0, 2, 4, 6, 8, 10, 12], edgeList := [1, 5, 0, 2, 1, 3, 2, 4, 3, 5, 0, 4],
    vertexWeights := some (List.replicate 6 w), edgeWeights := none, numPartitions := 3 }

theorem ring6_mutual (w : Nat) : (ring6 w).Mutual := by
  have h : ∀ v, v < 6 → ∀ e, e < nth (ring6 1).edgePrefix (v + 1) → nth (ring6 1).edgePrefix v ≤ e →
      ∃ f, f < nth (ring6 1).edgePrefix (nth (ring6 1).edgeList e + 1) ∧
        nth (ring6 1).edgePrefix (nth (ring6 1).edgeList e) ≤ f ∧ nth (ring6 1).edgeList f = v := by decide +kernel
  rintro v u hv hu ⟨e, h1, h2, rfl⟩
  obtain ⟨f, h3, h4, h5⟩ := h v hv e h2 h1
  exact ⟨f, h4, h3, h5⟩

set_option synthInstance.maxSize 2000 in
set_option synthInstance.maxHeartbeats 200000 in
theorem ring6_simple (w : Nat) : (ring6 w).Simple := by
  have h : ∀ v, v < 6 → ∀ e, e < nth (ring6 1).edgePrefix (v + 1) → nth (ring6 1).edgePrefix v ≤ e →
      ∀ f, f < nth (ring6 1).edgePrefix (v + 1) → nth (ring6 1).edgePrefix v ≤ f →
        nth (ring6 1).edgeList e = nth (ring6 1).edgeList f → e = f := by decide +kernel
  exact fun v hv e f h1 h2 h3 h4 => h v hv e h2 h1 f h4 h3

/-- C100: the debug build splits both rings in three, as the release build does. -/
example : partGraphRecursiveD Concrete.env (ring6 1) (some (Ex.cuts 1)) Ex.before =
      partGraphRecursive Concrete.env (ring6 1) (some (Ex.cuts 1)) Ex.before ∧
    partGraphRecursiveD Concrete.env (ring6 4) (some (Ex.cuts 1)) Ex.before =
      partGraphRecursive Concrete.env (ring6 4) (some (Ex.cuts 1)) Ex.before ∧
    (partGraphRecursive Concrete.env (ring6 1) (some (Ex.cuts 1)) Ex.before).2 = ok 1 ∧
    (partGraphRecursive Concrete.env (ring6 4) (some (Ex.cuts 1)) Ex.before).2 = ok 1 :=
  ⟨C100_small_graphs Concrete.env.pq Concrete.env.set Concrete.env.rng (Ex.valid_of (by constructor <;> decide +kernel)
      (by decide +kernel) (by decide +kernel) (by decide +kernel) (by decide +kernel)) (by decide) (by decide)
      (ring6_mutual 1) (ring6_simple 1) (Or.inl ⟨by unfold Input.AllOnes; decide +kernel, by decide, by decide⟩) _ _,
    C100_small_graphs Concrete.env.pq Concrete.env.set Concrete.env.rng (Ex.valid_of (by constructor <;> decide +kernel)
      (by decide +kernel) (by decide +kernel) (by decide +kernel) (by decide +kernel)) (by decide) (by decide)
      (ring6_mutual 4) (ring6_simple 4) (Or.inr ⟨by decide +kernel, by decide +kernel, by decide +kernel⟩) _ _,
    by decide +kernel, by decide +kernel⟩

/-- Two pairs of vertices, each joined by two edges, and four parts: without `Simple` a debug build stops, where a release
build succeeds. -/
def pairs4 : Input :=
  { numVertices := 4, edgePrefix := [0, 2, 4, 6, 8], edgeList := [1, 1, 0, 0, 3, 3, 2, 2],
    vertexWeights := some [4, 4, 4, 4], edgeWeights := none, numPartitions := 4 }

example : partGraphRecursiveD Concrete.env pairs4 (some (Ex.cuts 1)) Ex.before = (Ex.before, exn) ∧
    (partGraphRecursive Concrete.env pairs4 (some (Ex.cuts 1)) Ex.before).2 = ok 1 :=
  ⟨by decide +kernel, by decide +kernel⟩

end Poros
