import Verif.Props.P89_NullSafe
import Verif.Proofs.GridInput
import Verif.ExamplesApi
/-
C106: unweighted graphs and three or four parts.
-/
namespace Poros
open Finset Res Concrete

variable {pq : PQImpl} {set : SetImpl} {rng : RngImpl}

/-- The first bisection of a graph without vertex weights for three or four parts. -/
theorem MLBisected.first [Concrete.Log2Impl] {s : Scheme} {bt : Target Concrete.fp} {g : Graph} {r : rng.S} {lab : Nat → Nat} {r' : rng.S}
    (h : MLBisected (dblEnv pq set rng) s bt g r lab r') (hg : g.Good) {n a b : Nat}
    (hnm : n = 1 ∨ n = 2) {W : Nat} (hW : 60 ≤ W) (hW' : W < 4294967295) (he : EqualParts (n + 2) W a b)
    (hbt : IsHalvesTarget (List.replicate (n + 2) a) (List.replicate (n + 2) b) bt)
    (hs : g.sumVtx = W) (hM : ∀ v, v < g.nv → g.vw v = 1) :
    (∀ v, v < g.nv → lab v < 2) ∧
    100 * ((n + 2) * partWeight g lab 0) ≤ (if n = 1 then 127 else 123) * (n * W) ∧
    100 * ((n + 2) * partWeight g lab 1) ≤ (if n = 1 then 127 else 123) * (2 * W) := by
  have hWq : (60 : ℚ) ≤ W := by exact_mod_cast hW
  have hWq' : (W : ℚ) < 4294967295 := by exact_mod_cast hW'
  obtain ⟨mh, hmh, hmhq⟩ : ∃ mh, max (3 * W / 40) 1 ≤ mh ∧ 40 * (mh : ℚ) ≤ 3 * W := by
    refine ⟨3 * W / 40, by omega, ?_⟩
    exact_mod_cast (show 40 * (3 * W / 40) ≤ 3 * W by omega)
  have h1 := he.target_le
  have h2 := he.target_ge
  have h3 := he.limit_le
  have ha0 : 0 < a := by
    by_contra h
    have : a = 0 := by omega
    rw [this] at h2
    rcases hnm with rfl | rfl <;> push_cast at h2 <;> linarith
  have hka : (n + 2) * a < 4294967296 := by
    have : (((n + 2) * a : Nat) : ℚ) < ((4294967296 : Nat) : ℚ) := by push_cast at h1 ⊢; linarith
    exact_mod_cast this
  have nat : ∀ {x : Nat} {C d : Nat}, 100 * ((n + 2 : ℚ) * x) ≤ C * (d * W) + 1 / 2 → 100 * ((n + 2) * x) ≤ C * (d * W) := by
    intro x C d h
    have : ((100 * ((n + 2) * x) : Nat) : ℚ) < ((C * (d * W) + 1 : Nat) : ℚ) := by push_cast; linarith
    have : 100 * ((n + 2) * x) < C * (d * W) + 1 := by exact_mod_cast this
    omega
  have hmb : 2 * b < 4294967296 := by
    have : ((2 * b : Nat) : ℚ) < ((4294967296 : Nat) : ℚ) := by
      rcases hnm with rfl | rfl <;> push_cast at h3 ⊢ <;> linarith
    exact_mod_cast this
  have hM1 : ∀ v, v < g.nv → g.vw v ≤ 1 := fun v hv => (hM v hv).le
  rcases hnm with rfl | rfl
  · have key := h.loose.equal hg.wf hg.noLoop (by decide) (by decide) ha0 he.le hmb hka hbt (by omega) hW' hs hM1 hmh (c := 63 / 50)
      (by norm_num) (le_refl _) (le_refl _) (by norm_num) (by norm_num) (by norm_num at h1 h2 h3 ⊢; linarith)
      (by norm_num at h1 h2 h3 ⊢; linarith) (by norm_num at h1 h2 h3 ⊢; linarith)
    refine ⟨key.1, nat ?_, nat ?_⟩
    · have := key.2.1; norm_num [eps] at this ⊢; linarith
    · have := key.2.2; norm_num [eps] at this ⊢; linarith
  · have key := h.loose.equal hg.wf hg.noLoop (by decide) (by decide) ha0 he.le hmb hka hbt (by omega) hW' hs hM1 hmh (c := 61 / 50)
      (by norm_num) (le_refl _) (le_refl _) (by norm_num) (by norm_num) (by norm_num at h1 h2 h3 ⊢; linarith)
      (by norm_num at h1 h2 h3 ⊢; linarith) (by norm_num at h1 h2 h3 ⊢; linarith)
    refine ⟨key.1, nat ?_, nat ?_⟩
    · have := key.2.1; norm_num [eps] at this ⊢; linarith
    · have := key.2.2; norm_num [eps] at this ⊢; linarith

/-- An induced subgraph on a set that contains both ends of an edge has an edge. -/
theorem IsInduced.has_edge {g : Graph} {lab : Nat → Nat} {p : Nat} {s : Graph} (h : IsInduced g lab p s) {v : Nat}
    (hv : v < g.nv) (hl : lab v = p) {q : Nat × Nat} (hq : q ∈ g.nbrs v) (hlq : lab q.1 = p) : s.ne ≠ 0 := by
  obtain ⟨i, hi, e⟩ := List.mem_iff_getElem.mp (mem_vertsOf.mpr ⟨hv, hl⟩)
  have hi' : i < s.nv := by rw [h.nv]; exact hi
  have hn := h.nbrs i hi'
  rw [nth_eq_getElem hi, e] at hn
  have hm : q ∈ (g.nbrs v).filter fun q => decide (lab q.1 = p) := List.mem_filter.mpr ⟨hq, by simpa using hlq⟩
  rw [← hn] at hm
  have hlen : 0 < (s.nbrs i).length := by
    obtain ⟨x, hx, -⟩ := List.mem_map.mp hm
    exact List.length_pos_of_mem hx
  rw [Graph.nbrs_length] at hlen
  have := Graph.xadj_le_ne h.valid (v := i + 1) (by omega)
  omega

theorem unit_partWeight {g : Graph} (hu : ∀ v, v < g.nv → g.vw v = 1) (lab : Nat → Nat) (p : Nat) :
    partWeight g lab p = ((range g.nv).filter fun v => lab v = p).card := by
  unfold partWeight
  rw [card_filter]
  exact sum_congr rfl fun v hv => by rw [hu v (mem_range.mp hv)]

/-- A side with enough vertices can be bisected. -/
theorem SubOK.dense {i : Input} {g : Graph}
    (hr : Represents i.numVertices i.numEdges i.edgePrefix i.edgeList i.vertexWeights i.edgeWeights g) {num den : Nat}
    (hd : i.Dense num den) (hg : g.WF)
    (hu : ∀ v, v < g.nv → g.vw v = 1) {lab : Nat → Nat} {p : Nat} {labels : Option (List Nat)} {sub : Subgraph}
    (h : SubOK g lab labels p sub) (hp : num * g.nv ≤ den * partWeight g lab p) (h20 : 20 < partWeight g lab p) :
    20 < sub.graph.nv ∧ sub.graph.ne ≠ 0 := by
  have hc := unit_partWeight hu lab p
  constructor
  · rw [h.induced.nv]
    have : (vertsOf g lab p).length = ((range g.nv).filter fun v => lab v = p).card := by
      unfold vertsOf
      rw [← List.toFinset_card_of_nodup (List.Nodup.filter _ List.nodup_range)]
      congr 1
      ext v
      simp
    omega
  · obtain ⟨v, hv, e, h1, h2, h3⟩ := hd ((range g.nv).filter fun v => lab v = p) (by
      rw [← hr.nv_eq]; exact filter_subset _ _) (by rw [← hc, ← hr.nv_eq]; exact hp)
    obtain ⟨hv, hl⟩ := mem_filter.mp hv
    have hv := mem_range.mp hv
    have hn := hr.nv_eq
    rw [← hr.xadj_at (by omega)] at h1
    rw [← hr.xadj_at (by omega)] at h2
    have hle := Graph.xadj_le_ne hg (v := v + 1) (by omega)
    rw [← hr.adj_at (by have := hr.ne_eq; omega)] at h3
    refine h.induced.has_edge hv hl (q := (nth g.adjncy e, g.ew e)) ?_ (mem_filter.mp h3).2
    unfold Graph.nbrs
    refine List.mem_map.mpr ⟨e, List.mem_range'_1.mpr ⟨h1, by omega⟩, rfl⟩

/-- **C106.** A call for three parts on a graph of at least 60 vertices without vertex weights (null or all 1) returns 1,
whatever the graph, scheme, seed, number of cuts, random engine, priority queue and set, if every set of at least
173/300 of the vertices contains both ends of an edge; for four parts, if every set of at least 77/200 of them does. -/
theorem C106_unweighted [Concrete.Log2Impl] (pq : PQImpl) (set : SetImpl) (rng : RngImpl) {i : Input} (hv : i.Valid)
    (hk : (i.numPartitions = 3 ∧ i.Dense 173 300) ∨ (i.numPartitions = 4 ∧ i.Dense 77 200))
    (hone : ∀ v, v < i.numVertices → weightAt i.vertexWeights v = 1)
    (hn : 60 ≤ i.numVertices) {o : Options Concrete.fp} (ho : o.Known) {out : Out}
    (hb : i.numVertices ≤ out.asg.length) :
    (partGraphRecursive (dblEnv pq set rng) i (some o) out).2 = ok 1 := by
  obtain ⟨P, hp, hfit⟩ := prepare_total (E := dblEnv pq set rng) Concrete.uniformOK hv (by omega) (by omega) ho
  have hP := prepare_ok hv hp
  have hnv := hP.rep.nv_eq
  refine call_total hp (fun r => ?_) (by omega)
  have hu := null_unit hP hone
  have hsum : P.graph.sumVtx = i.numVertices := by rw [unit_sum hu, hnv]
  have hW : i.totalWeight = i.numVertices := by rw [← hP.sum, hsum]
  have hlt := hP.good.wf.nv_lt
  obtain ⟨a, b, ht1, ht2, he⟩ := equalParts (by omega) (by omega) (by rw [hW]; omega) hP.target
  rw [hW] at he
  have hne : P.graph.ne ≠ 0 := by
    intro h0
    have hall : ∃ v ∈ range i.numVertices, ∃ e, nth i.edgePrefix v ≤ e ∧ e < nth i.edgePrefix (v + 1) ∧
        nth i.edgeList e ∈ range i.numVertices := by
      rcases hk with ⟨-, hd⟩ | ⟨-, hd⟩ <;> exact hd _ (Subset.refl _) (by rw [card_range]; omega)
    obtain ⟨v, hv', e, -, h2, -⟩ := hall
    have hv' := mem_range.mp hv'
    rw [← hP.rep.xadj_at (by omega)] at h2
    have := Graph.xadj_le_ne hP.good.wf (v := v + 1) (by omega)
    omega
  have := rbExecute_inv (E := dblEnv pq set rng) (bu := False) (be := False) (bd := False)
    (bis := (makeMultilevel (dblEnv pq set rng) P.scheme).execute)
    (R := MLBisected (dblEnv pq set rng) P.scheme) (S := P.graph.sumVtx) (M := NULL32) (by decide)
    (fun tw mx g => 20 < g.nv ∧ g.ne ≠ 0 ∧ ((tw = P.target.tw ∧ mx = P.target.mx ∧ g = P.graph) ∨ tw.length = 2))
    (fun tw mx bt g r lab r' labels sub hg hi hbt hr => by
      obtain ⟨-, -, ⟨rfl, rfl, rfl⟩ | h2⟩ := hi
      · have main : ∀ n, (n = 1 ∨ n = 2) → i.numPartitions = n + 2 → (∀ v, v < P.graph.nv → lab v < 2) ∧
            100 * ((n + 2) * partWeight P.graph lab 0) ≤ (if n = 1 then 127 else 123) * (n * i.numVertices) ∧
            100 * ((n + 2) * partWeight P.graph lab 1) ≤ (if n = 1 then 127 else 123) * (2 * i.numVertices) := by
          intro n hn' hkn
          rw [hkn] at ht1 ht2 he
          rw [ht1, ht2] at hbt
          exact hr.first hg hn' hn (by omega) he hbt hsum hu
        rcases hk with ⟨hk, hd⟩ | ⟨hk, hd⟩
        · obtain ⟨hl, t0, t1⟩ := main 1 (Or.inl rfl) hk
          have hs := partWeight_two hl
          rw [hsum] at hs
          norm_num at t0 t1
          rw [ht1, hk]
          refine ⟨fun h => absurd h (by simp), fun _ hsub => ?_⟩
          obtain ⟨s1, s2⟩ := hsub.dense hP.rep hd hg.wf hu (by rw [hnv]; omega) (by omega)
          exact ⟨s1, s2, Or.inr (by simp)⟩
        · obtain ⟨hl, t0, t1⟩ := main 2 (Or.inr rfl) hk
          have hs := partWeight_two hl
          rw [hsum] at hs
          norm_num at t0 t1
          rw [ht1, hk]
          refine ⟨fun _ hsub => ?_, fun _ hsub => ?_⟩
          · obtain ⟨s1, s2⟩ := hsub.dense hP.rep hd hg.wf hu (by rw [hnv]; omega) (by omega)
            exact ⟨s1, s2, Or.inr (by simp)⟩
          · obtain ⟨s1, s2⟩ := hsub.dense hP.rep hd hg.wf hu (by rw [hnv]; omega) (by omega)
            exact ⟨s1, s2, Or.inr (by simp)⟩
      · exact ⟨fun h => absurd h (by rw [List.length_take]; omega), fun h => absurd h (by rw [List.length_drop]; omega)⟩)
    (fun tw mx bt g r hi hbt hg _ hb2 _ _ => by
      have hc := C72_multilevel_run (pq := pq) (set := set) (rng := rng) P.scheme hb2 hg r
      obtain ⟨x, hx, hex⟩ := sat_iff.mp (multilevel_coarsened (E := dblEnv pq set rng) Concrete.callOK.multilevel
        Concrete.callOK.badMoves P.scheme hg hi.1 hi.2.1 hb2 r)
      exact Wp.of_sat (sat_iff.mpr ⟨x, hx, hex, hc.1 x.1 x.2 hx⟩))
    (t := P.target) (by rw [hP.k]; omega) (by rw [hP.k]; omega) hP.tw hP.mx (Or.inl ⟨Concrete.recursiveOK, hfit⟩)
    (g := P.graph) ⟨by omega, hne, Or.inl ⟨rfl, rfl, rfl⟩⟩ hP.good (le_refl _) r
  obtain ⟨x, hx, hex, -⟩ := sat_iff.mp (Wp.post.mp this)
  exact ⟨x.1, x.2, hx, hex.asg_len⟩

/-- A graph whose vertices divide into `m` cliques has an edge in every set of more than `m` vertices. -/
theorem Input.dense_of_cliques {i : Input} {num den m : Nat} (c : Nat → Nat)
    (hc : ∀ v, v < i.numVertices → c v < m)
    (hadj : ∀ v u, v < u → u < i.numVertices → c v = c u →
      ∃ e, nth i.edgePrefix v ≤ e ∧ e < nth i.edgePrefix (v + 1) ∧ nth i.edgeList e = u)
    (hm : den * m < num * i.numVertices) : i.Dense num den := by
  intro S hS hcard
  have hlt : m < S.card := by
    by_contra h
    have := Nat.mul_le_mul_left den (show S.card ≤ m by omega)
    omega
  obtain ⟨v, hv, u, hu, hne, e⟩ := exists_ne_map_eq_of_card_lt_of_maps_to (s := S) (t := range m)
    (by rw [card_range]; exact hlt) (f := c) (fun x hx => mem_coe.mpr (mem_range.mpr (hc x (mem_range.mp (hS (mem_coe.mp hx))))))
  rcases Nat.lt_or_gt_of_ne hne with h | h
  · obtain ⟨x, h1, h2, h3⟩ := hadj v u h (mem_range.mp (hS hu)) e
    exact ⟨v, hv, x, h1, h2, by rw [h3]; exact hu⟩
  · obtain ⟨x, h1, h2, h3⟩ := hadj u v h (mem_range.mp (hS hv)) e.symm
    exact ⟨u, hu, x, h1, h2, by rw [h3]; exact hv⟩

/-- In a grid of at least seven points every set of at least 173/300 of the points contains two neighbours. -/
theorem grid_dense {X Y Z : Nat} (hX : 0 < X) (hY : 0 < Y) {g : Graph} {i : Input} (hi : GridInput g i)
    (hw : g.WF) (hnv : g.nv = Z * Y * X) (h7 : 7 ≤ Z * Y * X)
    (hadj : ∀ p q : Pt, p.In X Y Z → q.In X Y Z → (∃ d, Pt.Step d p q) → g.Adj (p.id X Y) (q.id X Y)) :
    i.Dense 173 300 := by
  refine Input.dense_of_cliques (m := (Z * Y * X + 1) / 2) (fun v => ((Pt.ofId X Y v).fold X Y).id X Y / 2)
    (fun v hv => ?_) (fun v u hvu hu he => ?_) ?_
  · rw [hi.nv, hnv] at hv
    have := Pt.id_lt (Pt.fold_in (Pt.ofId_in hX hY hv))
    omega
  · rw [hi.nv, hnv] at hu
    have hu' := Pt.ofId_in hX hY hu
    have hv' := Pt.ofId_in (Z := Z) (v := v) hX hY (by omega)
    have hne : ((Pt.ofId X Y v).fold X Y).id X Y ≠ ((Pt.ofId X Y u).fold X Y).id X Y := by
      intro h
      have := congrArg (Pt.id X Y) (Pt.fold_inj hv' hu' h)
      rw [Pt.id_ofId, Pt.id_ofId] at this
      omega
    have hst : ∃ d, Pt.Step d (Pt.ofId X Y v) (Pt.ofId X Y u) := by
      rcases Nat.lt_or_gt_of_ne hne with h | h
      · exact Pt.fold_step hv' hu' (by omega)
      · obtain ⟨d, hd⟩ := Pt.fold_step hu' hv' (by omega)
        exact ⟨d, hd.symm⟩
    obtain ⟨w, hm⟩ := hadj _ _ hv' hu' hst
    rw [Pt.id_ofId, Pt.id_ofId] at hm
    unfold Graph.nbrs at hm
    obtain ⟨e, he', h⟩ := List.mem_map.mp hm
    obtain ⟨h1, h2⟩ := List.mem_range'_1.mp he'
    rw [hi.pre, hi.list]
    have hmono := hw.xadj_mono v (by omega)
    exact ⟨e, h1, by omega, (Prod.mk.inj h).1⟩
  · rw [hi.nv, hnv]; omega

/-- **C106.** A call for three parts on any grid graph of at least 60 vertices (dimensions arbitrary) without vertex
weights returns 1, whatever the scheme, seed, number of cuts, random engine, priority queue and set. -/
theorem C106_grid [Concrete.Log2Impl] (pq : PQImpl) (set : SetImpl) (rng : RngImpl) {X Y Z : Nat} (h60 : 60 ≤ X * Y * Z)
    (hN : 3 * (X * Y * Z) < 2 ^ 32) (hE : gridEdgeCount X Y Z < 2 ^ 32 - 1) {src vws : List Nat}
    (hs : src.length = 3 * (X * Y * Z)) (hv : vws.length = X * Y * Z) {g : Graph}
    (hg : gridGenerate X Y Z src vws = ok g) {i : Input} (hi : GridInput g i) (hk : i.numPartitions = 3)
    {o : Options Concrete.fp} (ho : o.Known) {out : Out} (hb : i.numVertices ≤ out.asg.length) :
    i.Valid ∧ (partGraphRecursive (dblEnv pq set rng) i (some o) out).2 = ok 1 := by
  have hX : 0 < X := by rcases Nat.eq_zero_or_pos X with h | h; · rw [h] at h60; simp at h60
                        · exact h
  have hY : 0 < Y := by rcases Nat.eq_zero_or_pos Y with h | h; · rw [h] at h60; simp at h60
                        · exact h
  have hZ : 0 < Z := by rcases Nat.eq_zero_or_pos Z with h | h; · rw [h] at h60; simp at h60
                        · exact h
  obtain ⟨g', e, hw, hnv, hne, hsy, hsa, hnl, hnd, -, -, hadj, -⟩ := C47_grid hX hY hZ hN hE hs hv
  rw [hg] at e
  cases Res.ok.inj e
  have hval : i.Valid := by
    refine Graph.valid_input hw hsy hsa hnl hnd hi.nv hi.pre hi.list hi.vlen hi.elen hi.ewts ?_ hi.fits
    rw [sum_congr rfl fun v hv => hi.vone v (mem_range.mp hv)]
    have := hw.nv_lt
    simp only [sum_const, card_range, smul_eq_mul, Nat.mul_one]
    omega
  have hcomm : X * Y * Z = Z * Y * X := by ring
  rw [hcomm] at h60 hnv
  exact ⟨hval, C106_unweighted pq set rng hval (Or.inl ⟨hk, grid_dense hX hY hi hw hnv (by omega) fun p q hp hq h =>
    (hadj p q hp hq).mpr h⟩) (fun v hv => hi.vone v (by rw [hi.nv] at hv; exact hv)) (by rw [hi.nv, hnv]; exact h60) ho hb⟩

/-- **C106.** The grids of the repository's own tests, for every seed, engine and container: a call with null or all-one
vertex weights and null or all-one edge weights for three parts returns 1. -/
theorem C106_unit_grid [Concrete.Log2Impl] (pq : PQImpl) (set : SetImpl) (rng : RngImpl) {X Y Z : Nat} (h60 : 60 ≤ X * Y * Z)
    (hN : 3 * (X * Y * Z) < 2 ^ 32) (hE : gridEdgeCount X Y Z < 2 ^ 32 - 1) {vw ew : Option (List Nat)}
    (hvw : vw = none ∨ vw = some (List.replicate (X * Y * Z) 1))
    (hew : ew = none ∨ ew = some (List.replicate (gridEdgeCount X Y Z) 1))
    {o : Options Concrete.fp} (ho : o.Known) {out : Out} (hb : X * Y * Z ≤ out.asg.length) :
    ∃ g, gridGenerate X Y Z (List.replicate (3 * (X * Y * Z)) 1) (List.replicate (X * Y * Z) 1) = ok g ∧
      (partGraphRecursive (dblEnv pq set rng) ⟨g.nv, g.xadj, g.adjncy, vw, ew, 3⟩ (some o) out).2 = ok 1 := by
  have hX : 0 < X := by rcases Nat.eq_zero_or_pos X with h | h; · rw [h] at h60; simp at h60
                        · exact h
  have hY : 0 < Y := by rcases Nat.eq_zero_or_pos Y with h | h; · rw [h] at h60; simp at h60
                        · exact h
  have hZ : 0 < Z := by rcases Nat.eq_zero_or_pos Z with h | h; · rw [h] at h60; simp at h60
                        · exact h
  obtain ⟨g, e, hw, hnv, hne, -⟩ := C47_grid hX hY hZ hN hE (src := List.replicate (3 * (X * Y * Z)) 1)
    (vws := List.replicate (X * Y * Z) 1) (by simp) (by simp)
  have hlt := hw.ne_lt
  have hone : ∀ e, e < g.ne → weightAt ew e = 1 := by
    intro e he
    rcases hew with rfl | rfl
    · rfl
    · exact nth_replicate (by omega)
  refine ⟨g, e, (C106_grid pq set rng h60 hN hE (by simp) (by simp) e ⟨rfl, rfl, rfl, ?_, ?_, ?_, Or.inr hone, ?_⟩ rfl ho
    (by show g.nv ≤ _; omega)).2⟩
  · rcases hvw with rfl | rfl
    · exact id
    · show ¬ _ < _; simp; omega
  · intro v hv
    rcases hvw with rfl | rfl
    · rfl
    · exact nth_replicate (by omega)
  · rcases hew with rfl | rfl
    · exact id
    · show ¬ _ < _; simp; omega
  · rw [sum_congr rfl fun e he => hone e (mem_range.mp he)]
    simp only [sum_const, card_range, smul_eq_mul, Nat.mul_one]
    omega

/-- The hypotheses are met by the 5 by 5 by 5 grid of the tests `PartGraphNullWeights`, `PartGraphNullVertexWeight`,
`PartGraphNullEdgeWeight` and the 25 by 25 by 25 grid of `PartGraphRecursiveThreeCut` (src/test/Poros_test.cpp:109-140,
216-280), with the default options. -/
example : (60 ≤ 5 * 5 * 5 ∧ 3 * (5 * 5 * 5) < 2 ^ 32 ∧ gridEdgeCount 5 5 5 = 600) ∧
    (60 ≤ 25 * 25 * 25 ∧ 3 * (25 * 25 * 25) < 2 ^ 32 ∧ gridEdgeCount 25 25 25 = 90000) ∧
    (defaultOptions (fp := Concrete.fp)).Known :=
  ⟨by decide, by decide +kernel, Or.inr rfl⟩

/-- `m` disjoint triangles. -/
def trianglesIn (m : Nat) : Input :=
  { numVertices := 3 * m, edgePrefix := (List.range (3 * m + 1)).map (2 * ·),
    edgeList := (List.range m).flatMap fun t => [3 * t + 1, 3 * t + 2, 3 * t, 3 * t + 2, 3 * t, 3 * t + 1],
    vertexWeights := none, edgeWeights := none, numPartitions := 4 }

/-- The hypotheses of `C106_unweighted` are met for four parts: 32 disjoint edges would not do, 22 disjoint triangles do. -/
example : (trianglesIn 22).Valid ∧ (trianglesIn 22).Dense 77 200 ∧ 60 ≤ (trianglesIn 22).numVertices := by
  refine ⟨Ex.valid_of (by constructor <;> decide +kernel) (by decide +kernel) (by decide +kernel) (by decide +kernel)
    (by decide +kernel), Input.dense_of_cliques (m := 22) (fun v => v / 3) (by decide +kernel) ?_ (by decide), by decide⟩
  have : ∀ u, u < 66 → ∀ v, v < u → v / 3 = u / 3 → ∃ e, e < 132 ∧ nth (trianglesIn 22).edgePrefix v ≤ e ∧
      e < nth (trianglesIn 22).edgePrefix (v + 1) ∧ nth (trianglesIn 22).edgeList e = u := by decide +kernel
  intro v u hvu hu he
  obtain ⟨e, -, h⟩ := this u hu v hvu he
  exact ⟨e, h⟩

end Poros
