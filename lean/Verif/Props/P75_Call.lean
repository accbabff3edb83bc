import Verif.Props.P72_Hierarchy
import Verif.Props.P40_Api
/-
C75: a call of the C interface is an implementation of the specification in SpecRun.lean.
-/
namespace Poros
open Finset Res

variable {pq : PQImpl} {set : SetImpl} {rng : RngImpl}

theorem Input.describes_of {i : Input}
    (hc : CSR i.numVertices i.numEdges i.edgePrefix i.edgeList i.vertexWeights i.edgeWeights) {g : Graph}
    (hr : Represents i.numVertices i.numEdges i.edgePrefix i.edgeList i.vertexWeights i.edgeWeights g) :
    i.Describes g where
  nv := hr.nv_eq
  vw v h := hr.vw_at h
  unit := hr.unitEdge_iff
  nbrs v h := by
    unfold Graph.nbrs
    have hx : ∀ w, w < i.numVertices + 1 → nth g.xadj w = nth i.edgePrefix w := fun w hw => by
      rw [hr.xadj_eq, nth_take hw]
    rw [hx v (by omega), hx (v + 1) (by omega)]
    refine List.map_congr_left fun e he => ?_
    have he := List.mem_range'_1.mp he
    have hle : nth i.edgePrefix (v + 1) ≤ i.numEdges := le_trans (hc.xadj_le (u := v + 1) (v := i.numVertices) (by omega) (le_refl _)) (le_refl _)
    have hen : e < i.numEdges := by omega
    rw [hr.adj_at hen, hr.ew_at hen]

theorem Input.Valid.describes {i : Input} (hv : i.Valid) {g : Graph}
    (hr : Represents i.numVertices i.numEdges i.edgePrefix i.edgeList i.vertexWeights i.edgeWeights g) : i.Describes g :=
  Input.describes_of hv.csr hr

theorem evenShares {fp : FP} {k tot : Nat} {t : Target fp} (h : Target.uniform k tot (fp.lit 3 2) = ok t) :
    EvenShares fp k tot t.tw t.mx := by
  obtain ⟨-, -, -, h1, h2, h3, h4⟩ := ofFractions_shape h
  rw [List.take_of_length_le (by simp)] at h3 h4
  have key : ∀ (f : fp.F → fp.F) (x : fp.F) (l : List Nat), (List.replicate k x).mapM (fun y => fp.cast (f y)) = ok l →
      ∀ q, q < k → fp.toU32 (f x) = some (nth l q) := by
    intro f x l hm q hq
    have hp := Post_mapM (B := True) (f := fun y => fp.cast (f y)) (l := List.replicate k x)
      (fun y n => fp.toU32 (f y) = some n) (fun y _ => by
        unfold FP.cast
        split
        · assumption
        · trivial)
    obtain ⟨a, b⟩ := hp.elim_ok hm
    have hql : q < l.length := by rw [a]; simpa using hq
    have := b q (by simpa using hq) hql
    rw [List.getElem_replicate] at this
    rw [nth_eq_getElem hql]
    exact this
  exact ⟨⟨h1, h2⟩, key (fun f => fp.mul f (fp.ofNat tot)) _ _ h3,
    key (fun f => fp.mul (fp.mul f (fp.add (fp.lit 1 0) (fp.lit 3 2))) (fp.ofNat tot)) _ _ h4⟩

/-- One run of the partitioner. -/
theorem partitioner_run [Concrete.Log2Impl] (s : Scheme) {t : Target Concrete.fp} (hk : 2 ≤ t.k) (hk' : t.k < 2 ^ 32)
    (htw : t.tw.length = t.k) (hmx : t.mx.length = t.k) {g : Graph} (hg : g.Good) {r : rng.S} {p : Partitioning}
    {r' : rng.S} (h : partitioner (dblEnv pq set rng) s t g r = ok (p, r')) :
    RBRun (MLBisected (dblEnv pq set rng) s) t.tw t.mx g r p.lab r' := by
  refine ((rbExecute_run (E := dblEnv pq set rng) (bu := True) (be := True) (bd := True) (S := g.sumVtx) (M := NULL32)
    (by decide) (fun bt g r hg _ hb _ _ => ?_) hk (by simpa using hk') htw hmx (Or.inr ⟨trivial, rfl⟩) hg (le_refl _)
    r).elim_ok h).2
  refine Wp.post.mpr (may_iff.mpr fun o ho => ?_)
  exact ⟨(C35_multilevel s hb hg r).1 o.1 o.2 ho, (C72_multilevel_run s hb hg r).1 o.1 o.2 ho⟩

theorem candidates_repeated {E : Env} {bis : Bisector E} {t : Target E.fp} {g : Graph}
    {R : E.rng.S → (Nat → Nat) → E.rng.S → Prop} (hR : ∀ r p r', bis t g r = ok (p, r') → R r p.lab r') :
    ∀ {n : Nat} {r : E.rng.S} {ps : List Partitioning} {r' : E.rng.S}, candidates bis t g n r = ok (ps, r') →
      Repeated R r (ps.map Partitioning.lab) r'
  | 0, r, ps, r', h => by
    cases h
    exact .none
  | n + 1, r, ps, r', h => by
    obtain ⟨a, h1, h⟩ := bind_eq_ok h
    obtain ⟨c, h2, h⟩ := bind_eq_ok h
    cases h
    rw [List.map_append]
    exact .more (candidates_repeated hR h1) (hR _ _ _ h2)

/-- **C75.** Whatever a call that returns 1 (on a valid graph, with at least two parts and at least one cut asked for)
wrote is the outcome of a run of the specification `CallRun`: as many recursive bisections as `numGlobalCuts` says, each
a tree of multilevel bisections (greedy matching by the scheme the option selects, growing, FM refinement), from the
random engine seeded with the option, for even target weights with 3 per cent tolerance; and of their results the
first with the smallest cut. -/
theorem C75_call [Concrete.Log2Impl] {i : Input} (hv : i.Valid) (hk : 2 ≤ i.numPartitions) (hk' : i.numPartitions < 2 ^ 32)
    {o : Options Concrete.fp} (hc : 0 < o.numGlobalCuts) {out out' : Out}
    (h : partGraphRecursive (dblEnv pq set rng) i (some o) out = (out', ok 1)) :
    ∃ g s tw mx labs j, CallRun (dblEnv pq set rng) i o out out' g s tw mx labs j := by
  obtain ⟨g, ps, j, hruns, hj, hout⟩ := C39_best_of_runs (E := dblEnv pq set rng) hv hk hk' hc h
  obtain ⟨g', hg', hgood, hr, -⟩ := hv.good
  rw [hruns.graph] at hg'
  cases hg'
  obtain ⟨s, t, r', hs, ht, hcand⟩ := hruns.runs
  obtain ⟨-, htk, -, htw, hmx, -, -⟩ := ofFractions_shape ht
  have hn : ∀ m, m < ps.length → nth (ps.map Partitioning.lab) m = (nth ps m).lab := fun m hm => nth_map hm
  have hcut : ∀ m, m < ps.length → i.cut (nth (ps.map Partitioning.lab) m) = (nth ps m).cut := fun m hm => by
    rw [hn m hm, exact_cut hv hr (hruns.exact _ (nth_mem hm))]
  have hlen : (nth ps j).asg.length = i.numVertices := by
    rw [(hruns.exact _ (nth_mem hj.1)).asg_len, hr.nv_eq]
  refine ⟨g, s, t.tw, t.mx, ps.map Partitioning.lab, j, ?_⟩
  exact {
    graph := hv.describes hr
    good := hgood
    scheme := by
      unfold makeScheme at hs
      split at hs
      · cases hs; exact Or.inl ⟨by assumption, rfl⟩
      · split at hs
        · cases hs; exact Or.inr ⟨by assumption, rfl⟩
        · cases hs
    shares := evenShares ht
    runs := ⟨r', candidates_repeated (E := dblEnv pq set rng) (fun r p r' h =>
      partitioner_run s (by rw [htk]; exact hk) (by rw [htk]; exact hk') (by rw [htw, htk]) (by rw [hmx, htk]) hgood h) hcand⟩
    count := by rw [List.length_map, hruns.count]; omega
    index := by rw [List.length_map]; exact hj.1
    least := fun m hm => by
      rw [List.length_map] at hm
      rw [hcut j hj.1, hcut m hm]; exact hj.2.1 m hm
    first := fun m hm => by
      have := hj.1
      rw [hcut j hj.1, hcut m (by omega)]; exact hj.2.2 m hm
    cut := by rw [hcut j hj.1]; exact hout.cut
    labels := fun v hv' => by rw [hn j hj.1]; exact hout.labels v (by omega)
    size := hout.len
    rest := fun v hv' => hout.rest v (by omega) }

/-- The hypotheses are met: three runs on the two triangles. -/
example : Ex.tri2In.Valid ∧ 2 ≤ Ex.tri2In.numPartitions ∧ Ex.tri2In.numPartitions < 2 ^ 32 ∧
    0 < (Ex.cuts 3).numGlobalCuts ∧
    partGraphRecursive Concrete.env Ex.tri2In (some (Ex.cuts 3)) Ex.before =
      ({ cut := 1, asg := [0, 0, 0, 1, 1, 1, 9, 9] }, ok 1) ∧
    ∃ g s tw mx labs j, CallRun Concrete.env Ex.tri2In (Ex.cuts 3) Ex.before
      { cut := 1, asg := [0, 0, 0, 1, 1, 1, 9, 9] } g s tw mx labs j :=
  ⟨Ex.tri2In_valid, by decide, by decide, by decide, Ex.tri2In_call,
    C75_call (pq := Concrete.pq) (set := Concrete.set) (rng := Concrete.rng) Ex.tri2In_valid (by decide) (by decide)
      (by decide) Ex.tri2In_call⟩

end Poros
