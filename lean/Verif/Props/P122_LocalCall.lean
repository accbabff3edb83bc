import Verif.Props.P110_Keeps
import Verif.Props.P121_LocalOpt
/-
C122: what a call for two parts returns for a graph of more than twenty vertices is, in general, not improved by moving a
single vertex; what it returns for smaller ones was never refined.
-/
namespace Poros
open Finset Res Concrete

variable {pq : PQImpl} {set : SetImpl} {rng : RngImpl}

/-- Moving a single vertex of the caller's graph does not help: either no move lowers the cut, or the move of some vertex that
lowers it the most would make a part heavier than `mx`. -/
def Input.NoBetterMove (i : Input) (mx : List Nat) (lab : Nat → Nat) : Prop :=
  (∀ v, v < i.numVertices → i.cut lab ≤ i.cut (flip lab v)) ∨
  ∃ v, v < i.numVertices ∧ (∀ u, u < i.numVertices → i.cut (flip lab v) ≤ i.cut (flip lab u)) ∧
    ∃ q, q < 2 ∧ nth mx q < i.partWeight (flip lab v) q

theorem flip_congr {lab lab' : Nat → Nat} {n v : Nat} (h : ∀ u, u < n → lab' u = lab u) :
    ∀ u, u < n → flip lab' v u = flip lab v u := by
  intro u hu
  by_cases e : u = v
  · subst e; rw [flip_self, flip_self, h u hu]
  · rw [flip_ne _ e, flip_ne _ e, h u hu]

theorem Input.Describes.noBetterMove {i : Input} (hv : i.Valid) {g : Graph} (h : i.Describes g) {fp : FP} {t : Target fp}
    {lab lab' : Nat → Nat} (hl : ∀ v, v < i.numVertices → lab' v = lab v) (hn : Poros.NoBetterMove g t lab) :
    i.NoBetterMove t.mx lab' := by
  have hf : ∀ v, i.cut (flip lab' v) = cutWeight g (flip lab v) := fun v => h.cut hv (flip_congr hl)
  have hc : i.cut lab' = cutWeight g lab := h.cut hv hl
  unfold Poros.NoBetterMove at hn
  rw [h.nv] at hn
  rcases hn with hn | ⟨v, h1, h2, h3⟩
  · exact Or.inl fun v hv' => by rw [hc, hf]; exact hn v hv'
  · refine Or.inr ⟨v, h1, fun u hu => by rw [hf, hf]; exact h2 u hu, ?_⟩
    unfold Balanced at h3
    push Not at h3
    obtain ⟨q, hq, hlt⟩ := h3
    exact ⟨q, hq, by rw [h.partWeight (flip_congr hl) q]; exact hlt⟩

/-- The graph the arrays describe has no edges only if there are none in the arrays. -/
theorem Input.Describes.edges {i : Input} (hv : i.Valid) {g : Graph} (h : i.Describes g) (hwf : g.WF)
    (he : 0 < i.numEdges) : g.ne ≠ 0 := by
  intro h0
  have hx : ∀ v, v ≤ i.numVertices → nth i.edgePrefix v = 0 := by
    intro v
    induction v with
    | zero => exact fun _ => hv.csr.zero
    | succ v ih =>
      intro hlt
      have ih := ih (by omega)
      have hm := hv.csr.mono v (by omega)
      have hnb := h.nbrs v (by omega)
      have hlen : (g.nbrs v).length = 0 := by
        have h1 := sum_nbrs_length hwf
        rw [h0] at h1
        exact (Finset.sum_eq_zero_iff.mp h1) v (mem_range.mpr (by rw [h.nv]; omega))
      rw [hnb, List.length_map, List.length_range'] at hlen
      omega
  have := hx i.numVertices (le_refl _)
  unfold Input.numEdges at he
  omega

theorem Refined.cut_le {fp : FP} {g : Graph} (hg : g.Good) {t : Target fp} (hcons : Consistent t g.totVtx)
    {maxBad n : Nat} {a b : Nat → Nat} (h : Refined g t maxBad n a b) :
    (∀ v, v < g.nv → a v < 2) → Balanced g t a → cutWeight g b ≤ cutWeight g a := by
  induction h with
  | zero => exact fun _ _ => le_refl _
  | last h => intro _ _; rw [h.fruitless]
  | more h _ ih =>
    intro h2 hb
    obtain ⟨lab, moved, bad, hrun, -, -⟩ := h
    obtain ⟨-, k2, k3, -, -, k6⟩ := hrun.kept hg hcons h2 hb
    exact le_trans (ih k2 k3) k6

theorem MLRun.refined {E : Env} {s : Scheme} {t : Target E.fp} {maxW : Nat}
    {init : Graph → E.rng.S → (Nat → Nat) → E.rng.S → Prop} {parent : Option Graph} {g : Graph} {r : E.rng.S}
    {lab : Nat → Nat} {r' : E.rng.S} {hier : List Graph} (h : MLRun E s t maxW init parent g r lab r' hier)
    (hn : ¬ Coarsest parent g) : ∃ cmap cg clab lab0 hier', Coarsened E s maxW g r cmap cg ∧
      MLRun E s t maxW init (some g) cg (visitOrder E s g r).2 clab r' hier' ∧ (∀ v, v < g.nv → lab0 v = clab (cmap v)) ∧
      Refined g t (min 150 (max (g.nv / 100) 25)) 8 lab0 lab := by
  cases h with
  | coarsest hc => exact absurd hc hn
  | level _ hco hsub hdown href => exact ⟨_, _, _, _, _, hco, hsub, hdown, href⟩

/-- Multilevel bisection of a graph that, if any of the eight candidates grown for the coarsest graph is within the limits, gives
labels that are within them, with at most the cut of that candidate; and unless the graph is its own coarsest graph, no move of
a single vertex is better, or the cut is smaller than that of the candidate by eight or more. -/
def MLPolished (E : Env) (s : Scheme) (t : Target E.fp) (g : Graph) (r : E.rng.S) (lab : Nat → Nat) (r' : E.rng.S) : Prop :=
  ∃ cg cs, MLGrownFrom E s t g r lab r' cg cs ∧
    ∀ c ∈ cs, Balanced cg t c → Balanced g t lab ∧ cutWeight g lab ≤ cutWeight cg c ∧
      (20 < g.nv → 0 < g.ne → NoBetterMove g t lab ∨ cutWeight g lab + 8 ≤ cutWeight cg c)

/-- A multilevel bisection of a graph that is not its own coarsest graph. -/
theorem MLBisected.polished' [Concrete.Log2Impl] {s : Scheme} {g : Graph} {r : rng.S} {lab : Nat → Nat} {r' : rng.S}
    {bt : Target Concrete.fp} (h : MLBisected (dblEnv pq set rng) s bt g r lab r') (hg : g.Good)
    (hcons : Consistent bt g.sumVtx) (hsep : ∀ g' : Graph, g'.WF → g'.sumVtx = g.sumVtx → Separates bt g')
    (hbig : ¬ Coarsest none g) :
    MLPolished (dblEnv pq set rng) s bt g r lab r' := by
  obtain ⟨hier, hrun⟩ := h
  have hgl : ∀ (g : Graph) seed lab, GrownTo g bt seed lab → ∀ v, v < g.nv → lab v < 2 := fun g seed lab hgr =>
    (hgr.weights_any (M := g.sumVtx) fun v hv =>
        Finset.single_le_sum (f := g.vw) (fun _ _ => Nat.zero_le _) (mem_range.mpr hv)).1
  obtain ⟨cmap, cg1, clab, lab0, hier', hco, hsub, hdown, href⟩ := MLRun.refined (E := dblEnv pq set rng) hrun hbig
  · have hW := hg.small.vtx
    obtain ⟨cg, x0, l0, x1, h1, h2, h3⟩ := MLRun.keepsFirst (E := dblEnv pq set rng) hsub (W := g.sumVtx) hW hcons
      (fun g' x l x' hwf hs => by
        obtain ⟨seed, hgr⟩ := hs.grown
        exact hgl _ _ _ hgr)
      hco.1.valid (hco.1.symm hg.symm) hco.1.sumVtx
    obtain ⟨cg', _, _, _, ⟨⟨cs, c1, c2, c3⟩, hcg, rfl, rfl, rfl⟩, hcwf, hcsum⟩ :=
      MLRun.bottom (E := dblEnv pq set rng) h1 hco.1.valid
    subst hcg
    refine ⟨cg', cs, ⟨c2, _, MLRun.level (E := dblEnv pq set rng) hbig hco (MLRun.mono (E := dblEnv pq set rng) h1 ?_) hdown href⟩, fun c hcs hB => ?_⟩
    · rintro g' x l x' ⟨-, rfl, rfl, rfl, rfl⟩
      exact ⟨rfl, c1, c3⟩
    · rw [hco.1.sumVtx] at hcsum
      obtain ⟨k1, k2⟩ := c3.least (hsep _ hcwf hcsum) (fun d hd => by
        obtain ⟨_, _, hgr⟩ := c1.all d hd
        exact hgl _ _ _ hgr.2) hcs hB
      obtain ⟨k3, k4⟩ := h3 k1
      have htot : g.totVtx = g.sumVtx := hg.wf.totVtx_eq hW
      have h02 : ∀ v, v < g.nv → lab0 v < 2 := fun v hv => by rw [hdown v hv]; exact h2 _ (hco.1.lt v hv)
      have hb0 : Balanced g bt lab0 := fun q hq => by rw [hco.1.partWeight hdown q]; exact k3 q hq
      have hc0 : cutWeight g lab0 ≤ cutWeight cg' c := by rw [hco.1.cut hg.symm hdown]; omega
      have hcons' : Consistent bt g.totVtx := by rw [htot]; exact hcons
      obtain ⟨m1, m2⟩ := href.noBetterMove hg hcons' (by omega) h02 hb0
      have m3 := href.cut_le hg hcons' h02 hb0
      exact ⟨m1, by omega, fun _ _ => m2.imp_right fun h => by omega⟩

theorem MLBisected.polished [Concrete.Log2Impl] {s : Scheme} {g : Graph} {r : rng.S} {lab : Nat → Nat} {r' : rng.S}
    {bt : Target Concrete.fp} (h : MLBisected (dblEnv pq set rng) s bt g r lab r') (hg : g.Good)
    (hcons : Consistent bt g.sumVtx) (hsep : ∀ g' : Graph, g'.WF → g'.sumVtx = g.sumVtx → Separates bt g') :
    MLPolished (dblEnv pq set rng) s bt g r lab r' := by
  by_cases hbig : Coarsest none g
  · obtain ⟨cg, cs, h1, h2⟩ := h.keeping hg hcons hsep
    refine ⟨cg, cs, h1, fun c hc hb => ⟨(h2 c hc hb).1, (h2 c hc hb).2, fun h1 h2 => ?_⟩⟩
    rcases hbig with h | h | ⟨f, h, -⟩
    · omega
    · omega
    · cases h
  · exact h.polished' hg hcons hsep hbig


/-- **C122.** In every run of a successful call for two parts of a graph with more than twenty vertices and some edge: if any of
the eight candidates grown for the run's coarsest graph is within the limits, the labels of the run are within them and no move
of a single vertex is better, unless their cut is smaller than that of the candidate by eight or more. -/
theorem C122_every_run [Concrete.Log2Impl] {i : Input} (hv : i.Valid) (hk : i.numPartitions = 2)
    (hn : 20 < i.numVertices) (he : 0 < i.numEdges)
    {o : Options Concrete.fp} (hc : 0 < o.numGlobalCuts) {out out' : Out}
    (h : partGraphRecursive (dblEnv pq set rng) i (some o) out = (out', ok 1)) :
    ∃ g s tw mx labs j, CallRun (dblEnv pq set rng) i o out out' g s tw mx labs j ∧
      ∀ m, m < labs.length → ∃ (bt : Target Concrete.fp) (r : rng.S) (lab : Nat → Nat) (r' : rng.S) (cg : Graph)
        (cs : List (Nat → Nat)), IsHalvesTarget tw mx bt ∧ (∀ v, v < i.numVertices → nth labs m v = lab v) ∧
        MLGrownFrom (dblEnv pq set rng) s bt g r lab r' cg cs ∧
        ∀ c ∈ cs, (∀ q, q < 2 → partWeight cg c q ≤ nth mx q) →
          (∀ q, q < 2 → i.partWeight (nth labs m) q ≤ nth mx q) ∧
          (i.NoBetterMove mx (nth labs m) ∨ i.cut (nth labs m) + 8 ≤ cutWeight cg c) := by
  obtain ⟨g, s, tw, mx, labs, j, hcall⟩ := C75_call (pq := pq) (set := set) (rng := rng) hv (by omega) (by omega) hc h
  refine ⟨g, s, tw, mx, labs, j, hcall, fun m hm => ?_⟩
  obtain ⟨_, hrep⟩ := hcall.runs
  obtain ⟨r0, r1, hrun⟩ := hrep.all _ (nth_mem hm)
  have hsh := hcall.shares
  rw [hk] at hsh
  have hgood := hcall.good
  have hsum := hcall.graph.sumVtx
  have hW32 : i.totalWeight < 4294967296 := by rw [← hsum]; exact hgood.small.vtx
  obtain ⟨b, rfl, rfl, hab, hb1, hb2⟩ := even_two hW32 hsh
  obtain ⟨bt, side, r2, hbt, hml, hp, hlab⟩ := hrun.two rfl
  have hb32 : b < 4294967296 := by
    have hWq : (i.totalWeight : ℚ) ≤ 4294967295 := by exact_mod_cast (show i.totalWeight ≤ 4294967295 by omega)
    have : (b : ℚ) < 4294967296 := by linarith
    exact_mod_cast this
  obtain ⟨-, emx, -⟩ := halves_two_eq hab hb32 (by omega) hbt
  obtain ⟨hcons, hsep⟩ := two_agree hW32 hb1 hbt emx
  rw [← hsum] at hcons hsep
  have hlab' : ∀ v, v < i.numVertices → nth labs m v = side v := fun v hv =>
    hlab v (by rw [hcall.graph.nv]; exact hv)
  obtain ⟨cg, cs, hgr, hopt⟩ := hml.polished hgood hcons hsep
  refine ⟨bt, r0, side, r2, cg, cs, hbt, hlab', hgr, fun c hcs hbal => ?_⟩
  have hmx : ∀ q, nth bt.mx q = nth [b, b] q := fun q => by rw [emx]
  obtain ⟨k3, -, k4⟩ := hopt c hcs (fun q hq => by rw [hmx]; exact hbal q hq)
  have k4 := k4 (by rw [hcall.graph.nv]; exact hn) (Nat.pos_of_ne_zero (hcall.graph.edges hv hgood.wf he))
  refine ⟨fun q hq => ?_, ?_⟩
  · rw [hcall.graph.partWeight hlab' q, ← hmx]
    exact k3 q hq
  · rw [hcall.graph.cut hv hlab', ← emx]
    exact k4.imp_left fun h => hcall.graph.noBetterMove hv hlab' h

/-- **C122, the answer.** The labels and the cut written by the call are those of such a run. -/
theorem C122_written [Concrete.Log2Impl] {i : Input} (hv : i.Valid) (hk : i.numPartitions = 2)
    (hn : 20 < i.numVertices) (he : 0 < i.numEdges)
    {o : Options Concrete.fp} (hc : 0 < o.numGlobalCuts) {out out' : Out}
    (h : partGraphRecursive (dblEnv pq set rng) i (some o) out = (out', ok 1)) :
    ∃ (g : Graph) (s : Scheme) (tw mx : List Nat) (bt : Target Concrete.fp) (r : rng.S) (lab : Nat → Nat) (r' : rng.S)
      (cg : Graph) (cs : List (Nat → Nat)), i.Describes g ∧ EvenShares Concrete.fp 2 i.totalWeight tw mx ∧
      IsHalvesTarget tw mx bt ∧ (∀ v, v < i.numVertices → nth out'.asg v = lab v) ∧
      MLGrownFrom (dblEnv pq set rng) s bt g r lab r' cg cs ∧
      ∀ c ∈ cs, (∀ q, q < 2 → partWeight cg c q ≤ nth mx q) →
        (∀ q, q < 2 → i.partWeight (nth out'.asg) q ≤ nth mx q) ∧
        (i.NoBetterMove mx (nth out'.asg) ∨ out'.cut + 8 ≤ cutWeight cg c) := by
  obtain ⟨g, s, tw, mx, labs, j, hcall, hall⟩ := C122_every_run hv hk hn he hc h
  obtain ⟨bt, r, lab, r', cg, cs, h1, h2, h3, h4⟩ := hall j hcall.index
  have hsh := hcall.shares
  rw [hk] at hsh
  refine ⟨g, s, tw, mx, bt, r, lab, r', cg, cs, hcall.graph, hsh, h1, fun v hv => ?_, h3, fun c hcs hb => ?_⟩
  · rw [hcall.labels v hv]; exact h2 v hv
  · obtain ⟨k1, k2⟩ := h4 c hcs hb
    have hw : ∀ lab' : Nat → Nat, (∀ v, v < i.numVertices → lab' v = nth labs j v) → ∀ q,
        i.partWeight lab' q = i.partWeight (nth labs j) q := fun lab' hl q => by
      rw [hcall.graph.partWeight hl q, hcall.graph.partWeight (fun _ _ => rfl) q]
    have hcut : ∀ lab' lab : Nat → Nat, (∀ v, v < i.numVertices → lab' v = lab v) → i.cut lab' = i.cut lab :=
      fun lab' lab hl => by rw [hcall.graph.cut hv hl, hcall.graph.cut hv (fun _ _ => rfl)]
    refine ⟨fun q hq => by rw [hw _ hcall.labels]; exact k1 q hq, ?_⟩
    rw [hcall.cut]
    refine k2.imp_left fun k => ?_
    have hf : ∀ v, i.cut (flip (nth out'.asg) v) = i.cut (flip (nth labs j) v) := fun v =>
      hcut _ _ (flip_congr hcall.labels)
    rcases k with k | ⟨v, m1, m2, q, m3, m4⟩
    · exact Or.inl fun v hv => by rw [hcut _ _ hcall.labels, hf]; exact k v hv
    · refine Or.inr ⟨v, m1, fun u hu => by rw [hf, hf]; exact m2 u hu, q, m3, ?_⟩
      rw [hcall.graph.partWeight (flip_congr hcall.labels) q, ← hcall.graph.partWeight (fun _ _ => rfl) q]
      exact m4

theorem RBRun.polished [Concrete.Log2Impl] {s : Scheme} {a b : Nat} (ha : 0 < a) {tw mx : List Nat} {g : Graph} {r : rng.S}
    {lab : Nat → Nat} {r' : rng.S} (h : RBRun (MLBisected (dblEnv pq set rng) s) tw mx g r lab r') :
    ∀ d, tw = List.replicate (2 ^ d) a → mx = List.replicate (2 ^ d) b → 2 ^ d * a < 4294967296 → g.Good →
      RBRun (MLPolished (dblEnv pq set rng) s) tw mx g r lab r' := by
  induction h with
  | leaf hk hm h => exact fun _ _ _ _ _ => .leaf hk hm h
  | @node tw mx g lab bt side sL sR labL labR r r1 r2 r3 hk hm hbt hR hp hL hRt runL runR labelsL labelsR ihL ihR =>
    intro d e1 e2 hd hg
    obtain ⟨d, rfl⟩ : ∃ e, d = e + 1 := by
      cases d with
      | zero => rw [e1] at hk; simp at hk
      | succ e => exact ⟨e, rfl⟩
    have hp2 : 2 ^ (d + 1) = 2 ^ d + 2 ^ d := by rw [pow_succ]; omega
    rw [hp2] at e1 e2 hd
    have hlen : tw.length / 2 = 2 ^ d := by rw [e1, List.length_replicate]; omega
    have htake : ∀ x : Nat, (List.replicate (2 ^ d + 2 ^ d) x).take (2 ^ d) = List.replicate (2 ^ d) x := fun x => by
      rw [List.take_replicate, Nat.min_eq_left (by omega)]
    have hdrop : ∀ x : Nat, (List.replicate (2 ^ d + 2 ^ d) x).drop (2 ^ d) = List.replicate (2 ^ d) x := fun x => by
      rw [List.drop_replicate, Nat.add_sub_cancel]
    have hda : 2 ^ d * a < 4294967296 :=
      lt_of_le_of_lt (Nat.mul_le_mul_right _ (show 2 ^ d ≤ 2 ^ d + 2 ^ d by omega)) hd
    have hsame : ∃ q M, SameTwo bt q M := by
      rw [e1, e2] at hbt
      exact SameTwo.evenHalves (Nat.two_pow_pos d) ha hd hbt
    obtain ⟨q, M, hs⟩ := hsame
    refine .node hk hm hbt (hR.polished hg (hs.consistent hg.small.vtx) fun g' hwf hg' => ?_) hp hL hRt
      (ihL d (by rw [hlen, e1, htake]) (by rw [hlen, e2, htake]) hda (hL.good hg hL.valid))
      (ihR d (by rw [hlen, e1, hdrop]) (by rw [hlen, e2, hdrop]) hda (hRt.good hg hRt.valid)) labelsL labelsR
    have hlt : g'.sumVtx < 4294967296 := by rw [hg']; exact hg.small.vtx
    have htot : g'.totVtx = g'.sumVtx := hwf.totVtx_eq hlt
    exact hs.separates htot (by omega)

/-- **C122, powers of two.** In a successful call for 2^d parts every bisection of every run is polished, within the limits of
that bisection. -/
theorem C122_every_split [Concrete.Log2Impl] {i : Input} (hv : i.Valid) {d : Nat} (hd : 1 ≤ d) (hk : i.numPartitions = 2 ^ d)
    (hW : 101 * i.numPartitions ≤ 100 * i.totalWeight) (hW' : i.totalWeight + i.numPartitions < 2 ^ 32)
    {o : Options Concrete.fp} (hc : 0 < o.numGlobalCuts) {out out' : Out}
    (h : partGraphRecursive (dblEnv pq set rng) i (some o) out = (out', ok 1)) :
    ∃ g s tw mx labs j, CallRun (dblEnv pq set rng) i o out out' g s tw mx labs j ∧
      ∃ r', Repeated (RBRun (MLPolished (dblEnv pq set rng) s) tw mx g) (rng.seed o.randomSeed) labs r' := by
  have hk2 : 2 ≤ i.numPartitions := by
    rw [hk]; exact le_trans (by norm_num) (Nat.pow_le_pow_right (show 0 < 2 by omega) hd)
  have hk32 : i.numPartitions < 2 ^ 32 := by omega
  obtain ⟨g, s, tw, mx, labs, j, hcall⟩ := C75_call (pq := pq) (set := set) (rng := rng) hv hk2 hk32 hc h
  refine ⟨g, s, tw, mx, labs, j, hcall, ?_⟩
  obtain ⟨r', hrep⟩ := hcall.runs
  have e32 : (2 : Nat) ^ 32 = 4294967296 := by norm_num
  rw [e32] at hW' hk32
  obtain ⟨f, a, b, hu, hab, h1, h2, h3, h4⟩ := uniform_bounds (k := i.numPartitions) (tot := i.totalWeight) hk2 hk32
    (show i.totalWeight < 4294967296 by omega)
  have he := evenShares hu
  have hsh := hcall.shares
  have etw : tw = List.replicate (2 ^ d) a := by
    rw [← hk]
    refine list_ext_nth (by rw [hsh.len.1, List.length_replicate]) fun q hq => ?_
    rw [hsh.len.1] at hq
    exact toU32_inj (hsh.target q hq) (he.target q hq)
  have emx : mx = List.replicate (2 ^ d) b := by
    rw [← hk]
    refine list_ext_nth (by rw [hsh.len.2, List.length_replicate]) fun q hq => ?_
    rw [hsh.len.2] at hq
    exact toU32_inj (hsh.limit q hq) (he.limit q hq)
  have hkq : (0 : ℚ) < i.numPartitions := by exact_mod_cast (show 0 < i.numPartitions by omega)
  have hWq : 101 * (i.numPartitions : ℚ) ≤ 100 * i.totalWeight := by exact_mod_cast hW
  have ha : 0 < a := by
    have : 101 / 100 ≤ 1 / (i.numPartitions : ℚ) * i.totalWeight := by
      rw [one_div_mul_eq_div, le_div_iff₀ hkq]; linarith
    have : (0 : ℚ) < a := by linarith
    exact_mod_cast this
  have hka : 2 ^ d * a < 4294967296 := by
    have e : (i.numPartitions : ℚ) * (1 / i.numPartitions * i.totalWeight) = i.totalWeight := by field_simp
    have h5 := mul_le_mul_of_nonneg_left h1 hkq.le
    rw [mul_add, e] at h5
    have h6 : (i.numPartitions : ℚ) * (1 / 100000) ≤ i.numPartitions := by linarith
    have h7 : ((i.numPartitions * a : Nat) : ℚ) ≤ ((i.totalWeight + i.numPartitions : Nat) : ℚ) := by
      push_cast; linarith
    have h8 : i.numPartitions * a ≤ i.totalWeight + i.numPartitions := by exact_mod_cast h7
    rw [← hk]; omega
  exact ⟨r', hrep.mono fun r c r' hr => RBRun.polished ha hr d etw emx hka hcall.good⟩

namespace Ex

/-- A path of five vertices of weights 100, 100, 1, 100, 100 with edges of weights 9, 4, 1, 9. -/
def tiedIn : Input :=
  { numVertices := 5, edgePrefix := [0, 1, 3, 5, 7, 8], edgeList := [1, 0, 2, 1, 3, 2, 4, 3],
    vertexWeights := some [100, 100, 1, 100, 100], edgeWeights := some [9, 9, 4, 4, 1, 1, 9, 9], numPartitions := 2 }

theorem tiedIn_valid : tiedIn.Valid :=
  valid_of (by constructor <;> decide +kernel) (by decide +kernel) (by decide +kernel) (by decide +kernel)
    (by decide +kernel)

/-- A path of 22 vertices of weight 2. -/
def path22In : Input :=
  { numVertices := 22, edgePrefix := (List.range 23).map fun v => if v = 0 then 0 else if v = 22 then 42 else 2 * v - 1,
    edgeList := (List.range 22).flatMap fun v => (if v = 0 then [] else [v - 1]) ++ (if v = 21 then [] else [v + 1]),
    vertexWeights := some (List.replicate 22 2), edgeWeights := none, numPartitions := 2 }

theorem path22In_valid : path22In.Valid :=
  valid_of (by constructor <;> decide +kernel) (by decide +kernel) (by decide +kernel) (by decide +kernel)
    (by decide +kernel)

end Ex

/-- **C122, small graphs.** A graph of at most twenty vertices is not refined at all: here the call leaves the light vertex on
the wrong side, although moving it would lower the cut from 4 to 1 and stay within the limits, and no other move lowers it as
much. -/
theorem C122_small_not_refined : Ex.tiedIn.Valid ∧
    partGraphRecursive Concrete.env Ex.tiedIn (some (Ex.cuts 2)) { cut := 0, asg := [0, 0, 0, 0, 0] } =
      ({ cut := 4, asg := [0, 0, 1, 1, 1] }, ok 1) ∧
    EvenShares Concrete.fp 2 Ex.tiedIn.totalWeight [200, 200] [206, 206] ∧
    Ex.tiedIn.cut (flip (nth [0, 0, 1, 1, 1]) 2) = 1 ∧ Ex.tiedIn.partWeight (flip (nth [0, 0, 1, 1, 1]) 2) 0 = 201 ∧
    Ex.tiedIn.partWeight (flip (nth [0, 0, 1, 1, 1]) 2) 1 = 200 ∧
    ¬ Ex.tiedIn.NoBetterMove [206, 206] (nth [0, 0, 1, 1, 1]) := by
  refine ⟨Ex.tiedIn_valid, by decide +kernel, ⟨⟨rfl, rfl⟩, ?_, ?_⟩, by decide +kernel, by decide +kernel, by decide +kernel, ?_⟩
  · intro q hq
    obtain rfl | rfl : q = 0 ∨ q = 1 := by omega
    all_goals decide +kernel
  · intro q hq
    obtain rfl | rfl : q = 0 ∨ q = 1 := by omega
    all_goals decide +kernel
  · rintro (h | ⟨v, hv, hle, q, hq, hlt⟩)
    · exact absurd (h 2 (by decide)) (by decide +kernel)
    · obtain rfl | hne := eq_or_ne v 2
      · obtain rfl | rfl : q = 0 ∨ q = 1 := by omega
        all_goals exact absurd hlt (by decide +kernel)
      · have : ∀ v, v < 5 → v ≠ 2 →
            ¬ Ex.tiedIn.cut (flip (nth [0, 0, 1, 1, 1]) v) ≤ Ex.tiedIn.cut (flip (nth [0, 0, 1, 1, 1]) 2) := by
          decide +kernel
        exact this v hv hne (hle 2 (by decide))

/-- The hypotheses are met by a call for two parts of a path of 22 vertices. -/
example : Ex.path22In.Valid ∧ Ex.path22In.numPartitions = 2 ∧ 20 < Ex.path22In.numVertices ∧ 0 < Ex.path22In.numEdges ∧
    0 < (Ex.cuts 1).numGlobalCuts ∧
    partGraphRecursive Concrete.env Ex.path22In (some (Ex.cuts 1)) { cut := 0, asg := List.replicate 22 0 } =
      ({ cut := 1, asg := List.replicate 11 0 ++ List.replicate 11 1 }, ok 1) := by
  refine ⟨Ex.path22In_valid, rfl, by decide, by decide, by decide, by decide +kernel⟩

/-- A path of 44 vertices of weight 2 in four parts. -/
def Ex.path44In : Input :=
  { numVertices := 44, edgePrefix := (List.range 45).map fun v => if v = 0 then 0 else if v = 44 then 86 else 2 * v - 1,
    edgeList := (List.range 44).flatMap fun v => (if v = 0 then [] else [v - 1]) ++ (if v = 43 then [] else [v + 1]),
    vertexWeights := some (List.replicate 44 2), edgeWeights := none, numPartitions := 4 }

/-- The hypotheses of the theorem on powers of two are met by a path of 44 vertices. -/
example : Ex.path44In.Valid ∧ Ex.path44In.numPartitions = 2 ^ 2 ∧
    101 * Ex.path44In.numPartitions ≤ 100 * Ex.path44In.totalWeight ∧
    Ex.path44In.totalWeight + Ex.path44In.numPartitions < 2 ^ 32 ∧ 0 < (Ex.cuts 1).numGlobalCuts ∧
    partGraphRecursive Concrete.env Ex.path44In (some (Ex.cuts 1)) { cut := 0, asg := List.replicate 44 0 } =
      ({ cut := 3, asg := List.replicate 11 0 ++ List.replicate 11 1 ++ List.replicate 11 2 ++ List.replicate 11 3 }, ok 1) := by
  refine ⟨Ex.valid_of (by constructor <;> decide +kernel) (by decide +kernel) (by decide +kernel) (by decide +kernel)
    (by decide +kernel), rfl, by decide +kernel, by decide +kernel, by decide, by decide +kernel⟩

end Poros
