import Verif.Props.P27_Uniform
import Verif.Props.P78_Quality
/-
C110: a call for two parts keeps what the grown candidates of its runs achieve.
-/
namespace Poros
open Finset Res Concrete

variable {pq : PQImpl} {set : SetImpl} {rng : RngImpl}

/-- The bisection kept of a list: within the limits if any is, and then of smallest cut among those that are. -/
theorem BestOf.least {fp : FP} {g : Graph} {t : Target fp} {cs : List (Nat → Nat)} {b : Nat → Nat} (h : BestOf g t cs b)
    (hsep : Separates t g) (hl : ∀ c ∈ cs, ∀ v, v < g.nv → c v < 2) {c : Nat → Nat} (hc : c ∈ cs) (hb : Balanced g t c) :
    Balanced g t b ∧ cutWeight g b ≤ cutWeight g c := by
  induction h generalizing c with
  | first =>
    rw [List.mem_singleton] at hc
    subst hc
    exact ⟨hb, le_refl _⟩
  | @take cs b d hbest hbet ih =>
    have ih := fun {c : Nat → Nat} hc (hb : Balanced g t c) =>
      ih (fun c hc => hl c (List.mem_append_left _ hc)) (c := c) hc hb
    rcases List.mem_append.mp hc with hc | hc
    · obtain ⟨h1, h2⟩ := ih hc hb
      obtain ⟨h3, h4⟩ := hbet.1 h1
      exact ⟨h3, by omega⟩
    · rw [List.mem_singleton] at hc
      subst hc
      exact ⟨hb, le_refl _⟩
  | @keep cs b d hbest hbet ih =>
    have ih := fun {c : Nat → Nat} hc (hb : Balanced g t c) =>
      ih (fun c hc => hl c (List.mem_append_left _ hc)) (c := c) hc hb
    rcases List.mem_append.mp hc with hc | hc
    · exact ih hc hb
    · rw [List.mem_singleton] at hc
      subst hc
      by_cases hB : Balanced g t b
      · refine ⟨hB, ?_⟩
        by_contra hlt
        exact hbet ⟨fun _ => ⟨hb, by omega⟩, fun hn => absurd hB hn⟩
      · exact absurd ⟨fun h => absurd h hB, fun _ => hsep c b (hl c (by simp))
          (hl b (List.mem_append_left _ hbest.mem)) hb hB⟩ hbet

theorem MLRun.mono {E : Env} {s : Scheme} {t : Target E.fp} {maxW : Nat}
    {init init' : Graph → E.rng.S → (Nat → Nat) → E.rng.S → Prop} {parent : Option Graph} {g : Graph} {r : E.rng.S}
    {lab : Nat → Nat} {r' : E.rng.S} {hier : List Graph} (h : MLRun E s t maxW init parent g r lab r' hier)
    (hi : ∀ g r lab r', init g r lab r' → init' g r lab r') : MLRun E s t maxW init' parent g r lab r' hier := by
  induction h with
  | coarsest hc h => exact .coarsest hc (hi _ _ _ _ h)
  | level hc hco _ hd hr ih => exact .level hc hco ih hd hr

/-- The coarsest graph of a run is valid and has the total weight of the graph. -/
theorem MLRun.bottom {E : Env} {s : Scheme} {t : Target E.fp} {maxW : Nat}
    {init : Graph → E.rng.S → (Nat → Nat) → E.rng.S → Prop} {parent : Option Graph} {g : Graph} {r : E.rng.S}
    {lab : Nat → Nat} {r' : E.rng.S} {hier : List Graph} (h : MLRun E s t maxW init parent g r lab r' hier) :
    g.WF → ∃ cg r0 lab0 r1, init cg r0 lab0 r1 ∧ cg.WF ∧ cg.sumVtx = g.sumVtx := by
  induction h with
  | @coarsest parent g r lab r' hc hi => exact fun hwf => ⟨g, r, lab, r', hi, hwf, rfl⟩
  | @level parent g r cmap cg clab r' hier lab0 lab hc hco _ hdown href ih =>
    intro hwf
    obtain ⟨cg0, r0, l0, r1, h1, h2, h3⟩ := ih hco.1.valid
    exact ⟨cg0, r0, l0, r1, h1, h2, by rw [h3, hco.1.sumVtx]⟩

/-- With total weight zero limits and imbalance agree whatever the fractions are. -/
theorem consistent_zero [Concrete.Log2Impl] {t : Target Concrete.fp} {f0 f1 : F64} (hf : t.frac = [f0, f1]) :
    Consistent t 0 := by
  refine ⟨⟨F64.fin 0, f0, f1, hf, fun a ha => ⟨fun _ => ?_, fun _ => by omega⟩⟩, F64_lt_le, F64_le_trans⟩
  have ea : a = 0 := by omega
  subst ea
  have e0 : Concrete.fp.ofNat 0 = F64.fin 0 := by rw [ofNat_exact (by norm_num)]; rfl
  have hd : ∀ f : F64, Concrete.fp.sub (Concrete.fp.div (Concrete.fp.div (F64.fin 0) (F64.fin 0)) f) (F64.fin 1) =
      F64.nan := fun f => by
    show F64.add (F64.div (F64.div (F64.fin 0) (F64.fin 0)) f) (F64.neg (F64.fin 1)) = F64.nan
    have : F64.div (F64.fin 0) (F64.fin 0) = F64.nan := by decide +kernel
    rw [this]
    cases f <;> rfl
  unfold imbalanceAt
  rw [Nat.sub_zero, e0, lit_zero, lit_one, hd f0, hd f1]
  rfl

/-- What multilevel bisection needs to know of the target of a call for two parts. -/
theorem two_agree [Concrete.Log2Impl] {W b : Nat} (hW : W < 4294967296) (hb1 : (b : ℚ) ≤ 103 / 200 * W + 1 / 100000)
    {bt : Target Concrete.fp} (hbt : IsHalvesTarget [W / 2, W / 2] [b, b] bt) (hmx : bt.mx = [b, b]) :
    Consistent bt W ∧ ∀ g : Graph, g.WF → g.sumVtx = W → Separates bt g := by
  by_cases h2 : 2 ≤ W
  · obtain ⟨q, M, hs⟩ := SameTwo.halves (by omega) (by omega) hbt
    exact ⟨hs.consistent hW, fun g hwf hg => by
      have htot : g.totVtx = g.sumVtx := hwf.totVtx_eq (by omega)
      exact hs.separates htot (by omega)⟩
  · obtain ⟨f0, f1, hf⟩ := List.length_eq_two.mp hbt.two.frac
    rcases (show W = 0 ∨ W = 1 by omega) with rfl | rfl
    · refine ⟨consistent_zero hf, fun g _ hg lab lab' _ _ _ hn => absurd ?_ hn⟩
      intro q hq
      have := partWeight_le (g := g) lab' q
      omega
    · have hb : b = 0 := by
        have : (b : ℚ) < 1 := by push_cast at hb1; linarith
        have : b < 1 := by exact_mod_cast this
        omega
      subst hb
      have e0 : nth bt.mx 0 = 0 := by rw [hmx]; rfl
      have e1 : nth bt.mx 1 = 0 := by rw [hmx]; rfl
      refine ⟨⟨⟨F64.nan, f0, f1, hf, fun a ha => ⟨fun h => ?_, fun h => ?_⟩⟩, F64_lt_le, F64_le_trans⟩,
        fun g _ hg lab lab' h1 _ hB _ => ?_⟩
      · rw [e0, e1] at h; omega
      · exfalso
        generalize imbalanceAt Concrete.fp 1 f0 f1 a (1 - a) = z at h
        revert h
        show F64.le z F64.nan = true → False
        cases z <;> intro h <;> cases h
      · have h0 := hB 0 (by omega)
        have h1' := hB 1 (by omega)
        have := partWeight_add h1
        omega

theorem Input.Describes.cut {i : Input} (hv : i.Valid) {g : Graph} (h : i.Describes g) {lab lab' : Nat → Nat}
    (hl : ∀ v, v < i.numVertices → lab' v = lab v) : i.cut lab' = cutWeight g lab := by
  unfold Input.cut csrCut cutWeight
  rw [h.nv]
  refine sum_congr rfl fun v hv' => sum_congr rfl fun u hu => ?_
  have hv' := mem_range.mp hv'
  have hu := mem_range.mp hu
  rw [hl v hv', hl u (by omega)]
  have : csrWt i.edgePrefix i.edgeList i.edgeWeights v u = g.wt v u := by
    unfold csrWt Graph.wt Graph.wsum
    rw [h.nbrs v hv', List.map_map, ← sum_list_range' (hv.csr.mono v hv')]
    refine congrArg List.sum (List.map_congr_left fun e _ => ?_)
    simp
  rw [this]

/-- A multilevel bisection for a target whose limits and imbalance agree keeps what its candidates achieve. -/
theorem MLBisected.keeping [Concrete.Log2Impl] {s : Scheme} {g : Graph} {r : rng.S} {lab : Nat → Nat} {r' : rng.S}
    {bt : Target Concrete.fp} (h : MLBisected (dblEnv pq set rng) s bt g r lab r') (hg : g.Good)
    (hcons : Consistent bt g.sumVtx) (hsep : ∀ g' : Graph, g'.WF → g'.sumVtx = g.sumVtx → Separates bt g') :
    MLKeeping (dblEnv pq set rng) s bt g r lab r' := by
  obtain ⟨hier, hrun⟩ := h
  have hgl : ∀ (g : Graph) seed lab, GrownTo g bt seed lab → ∀ v, v < g.nv → lab v < 2 := fun g seed lab hgr =>
    (hgr.weights_any (M := g.sumVtx) fun v hv =>
        Finset.single_le_sum (f := g.vw) (fun _ _ => Nat.zero_le _) (mem_range.mpr hv)).1
  obtain ⟨cg, x0, lab0, x1, h1, -, h3⟩ := MLRun.keepsFirst (E := dblEnv pq set rng) hrun (W := g.sumVtx) hg.small.vtx hcons
    (fun g' x l x' hwf hs => by
      obtain ⟨seed, hgr⟩ := hs.grown
      exact hgl _ _ _ hgr)
    hg.wf hg.symm rfl
  obtain ⟨cg', _, _, _, ⟨⟨cs, c1, c2, c3⟩, hcg, rfl, rfl, rfl⟩, hcwf, hcsum⟩ :=
    MLRun.bottom (E := dblEnv pq set rng) h1 hg.wf
  subst hcg
  refine ⟨cg', cs, ⟨c2, hier, MLRun.mono (E := dblEnv pq set rng) h1 ?_⟩, fun c hcs hB => ?_⟩
  · rintro g' x l x' ⟨-, rfl, rfl, rfl, rfl⟩
    exact ⟨rfl, c1, c3⟩
  · obtain ⟨k1, k2⟩ := c3.least (hsep _ hcwf hcsum) (fun d hd => by
      obtain ⟨_, _, hgr⟩ := c1.all d hd
      exact hgl _ _ _ hgr.2) hcs hB
    obtain ⟨k3, k4⟩ := h3 k1
    exact ⟨k3, by omega⟩

/-- **C110.** In every run of a successful call for two parts: whichever of the eight candidates grown for the run's coarsest
graph is within the limits, the labels of the run are within the limits too, and their cut is at most that of the
candidate. The written cut is at most that of every such candidate of every run. -/
theorem C110_keeps_candidates [Concrete.Log2Impl] {i : Input} (hv : i.Valid) (hk : i.numPartitions = 2)
    {o : Options Concrete.fp} (hc : 0 < o.numGlobalCuts) {out out' : Out}
    (h : partGraphRecursive (dblEnv pq set rng) i (some o) out = (out', ok 1)) :
    ∃ g s tw mx labs j, CallRun (dblEnv pq set rng) i o out out' g s tw mx labs j ∧
      ∀ m, m < labs.length → ∃ (bt : Target Concrete.fp) (r : rng.S) (lab : Nat → Nat) (r' : rng.S) (cg : Graph)
        (cs : List (Nat → Nat)), IsHalvesTarget tw mx bt ∧ (∀ v, v < i.numVertices → nth labs m v = lab v) ∧
        MLGrownFrom (dblEnv pq set rng) s bt g r lab r' cg cs ∧
        ∀ c ∈ cs, (∀ q, q < 2 → partWeight cg c q ≤ nth mx q) →
          (∀ q, q < 2 → i.partWeight (nth labs m) q ≤ nth mx q) ∧ i.cut (nth labs m) ≤ cutWeight cg c ∧
          out'.cut ≤ cutWeight cg c := by
  obtain ⟨g, s, tw, mx, labs, j, hcall⟩ := C75_call (pq := pq) (set := set) (rng := rng) hv (by omega) (by omega) hc h
  refine ⟨g, s, tw, mx, labs, j, hcall, fun m hm => ?_⟩
  obtain ⟨_, hrep⟩ := hcall.runs
  obtain ⟨r0, r1, hrun⟩ := hrep.all _ (nth_mem hm)
  have hsh := hcall.shares
  rw [hk] at hsh
  have hgood := hcall.good
  have hsum := hcall.graph.sumVtx
  have hW32 : i.totalWeight < 4294967296 := by rw [← hsum]; exact hgood.small.vtx
  obtain ⟨b, rfl, rfl, hab, hb1, hb2⟩ := even_two hW32 hsh
  obtain ⟨bt, side, r2, hbt, hml, hp, hlab⟩ := hrun.two rfl
  have hb32 : b < 4294967296 := by
    have hWq : (i.totalWeight : ℚ) ≤ 4294967295 := by exact_mod_cast (show i.totalWeight ≤ 4294967295 by omega)
    have : (b : ℚ) < 4294967296 := by linarith
    exact_mod_cast this
  obtain ⟨-, emx, -⟩ := halves_two_eq hab hb32 (by omega) hbt
  obtain ⟨hcons, hsep⟩ := two_agree hW32 hb1 hbt emx
  rw [← hsum] at hcons hsep
  have hlab' : ∀ v, v < i.numVertices → nth labs m v = side v := fun v hv =>
    hlab v (by rw [hcall.graph.nv]; exact hv)
  obtain ⟨cg, cs, hgr, hkeep⟩ := hml.keeping hgood hcons hsep
  refine ⟨bt, r0, side, r2, cg, cs, hbt, hlab', hgr, fun c hcs hbal => ?_⟩
  have hmx : ∀ q, nth bt.mx q = nth [b, b] q := fun q => by rw [emx]
  obtain ⟨k3, k4⟩ := hkeep c hcs (fun q hq => by rw [hmx]; exact hbal q hq)
  have hcut : i.cut (nth labs m) ≤ cutWeight cg c := by
    rw [hcall.graph.cut hv hlab']; exact k4
  refine ⟨fun q hq => ?_, hcut, ?_⟩
  · rw [hcall.graph.partWeight hlab' q, ← hmx]
    exact k3 q hq
  · rw [hcall.cut]
    exact le_trans (hcall.least m hm) hcut

theorem RBRun.keeping [Concrete.Log2Impl] {s : Scheme} {a b : Nat} (ha : 0 < a) {tw mx : List Nat} {g : Graph} {r : rng.S}
    {lab : Nat → Nat} {r' : rng.S} (h : RBRun (MLBisected (dblEnv pq set rng) s) tw mx g r lab r') :
    ∀ d, tw = List.replicate (2 ^ d) a → mx = List.replicate (2 ^ d) b → 2 ^ d * a < 4294967296 → g.Good →
      RBRun (MLKeeping (dblEnv pq set rng) s) tw mx g r lab r' := by
  induction h with
  | leaf hk hm h => exact fun _ _ _ _ _ => .leaf hk hm h
  | @node tw mx g lab bt side sL sR labL labR r r1 r2 r3 hk hm hbt hR hp hL hRt runL runR labelsL labelsR ihL ihR =>
    intro d e1 e2 hd hg
    obtain ⟨d, rfl⟩ : ∃ e, d = e + 1 := by
      cases d with
      | zero => rw [e1] at hk; simp at hk
      | succ e => exact ⟨e, rfl⟩
    have hp2 : 2 ^ (d + 1) = 2 ^ d + 2 ^ d := by rw [pow_succ]; omega
    rw [hp2] at e1 e2 hd
    have hlen : tw.length / 2 = 2 ^ d := by rw [e1, List.length_replicate]; omega
    have htake : ∀ x : Nat, (List.replicate (2 ^ d + 2 ^ d) x).take (2 ^ d) = List.replicate (2 ^ d) x := fun x => by
      rw [List.take_replicate, Nat.min_eq_left (by omega)]
    have hdrop : ∀ x : Nat, (List.replicate (2 ^ d + 2 ^ d) x).drop (2 ^ d) = List.replicate (2 ^ d) x := fun x => by
      rw [List.drop_replicate, Nat.add_sub_cancel]
    have hda : 2 ^ d * a < 4294967296 :=
      lt_of_le_of_lt (Nat.mul_le_mul_right _ (show 2 ^ d ≤ 2 ^ d + 2 ^ d by omega)) hd
    have hsame : ∃ q M, SameTwo bt q M := by
      rw [e1, e2] at hbt
      exact SameTwo.evenHalves (Nat.two_pow_pos d) ha hd hbt
    obtain ⟨q, M, hs⟩ := hsame
    refine .node hk hm hbt (hR.keeping hg (hs.consistent hg.small.vtx) fun g' hwf hg' => ?_) hp hL hRt
      (ihL d (by rw [hlen, e1, htake]) (by rw [hlen, e2, htake]) hda (hL.good hg hL.valid))
      (ihR d (by rw [hlen, e1, hdrop]) (by rw [hlen, e2, hdrop]) hda (hRt.good hg hRt.valid)) labelsL labelsR
    have hlt : g'.sumVtx < 4294967296 := by rw [hg']; exact hg.small.vtx
    have htot : g'.totVtx = g'.sumVtx := hwf.totVtx_eq hlt
    exact hs.separates htot (by omega)

theorem Repeated.mono {S : Type} {R R' : S → (Nat → Nat) → S → Prop} (hR : ∀ r c r', R r c r' → R' r c r') {r r' : S}
    {cs : List (Nat → Nat)} (h : Repeated R r cs r') : Repeated R' r cs r' := by
  induction h with
  | none => exact .none
  | more _ hr ih => exact .more ih (hR _ _ _ hr)

/-- **C110, powers of two.** In a successful call for 2^d parts every bisection of every run keeps what its candidates
achieve, within the limits of that bisection. -/
theorem C110_every_split [Concrete.Log2Impl] {i : Input} (hv : i.Valid) {d : Nat} (hd : 1 ≤ d) (hk : i.numPartitions = 2 ^ d)
    (hW : 101 * i.numPartitions ≤ 100 * i.totalWeight) (hW' : i.totalWeight + i.numPartitions < 2 ^ 32)
    {o : Options Concrete.fp} (hc : 0 < o.numGlobalCuts) {out out' : Out}
    (h : partGraphRecursive (dblEnv pq set rng) i (some o) out = (out', ok 1)) :
    ∃ g s tw mx labs j, CallRun (dblEnv pq set rng) i o out out' g s tw mx labs j ∧
      ∃ r', Repeated (RBRun (MLKeeping (dblEnv pq set rng) s) tw mx g) (rng.seed o.randomSeed) labs r' := by
  have hk2 : 2 ≤ i.numPartitions := by
    rw [hk]; exact le_trans (by norm_num) (Nat.pow_le_pow_right (show 0 < 2 by omega) hd)
  have hk32 : i.numPartitions < 2 ^ 32 := by omega
  obtain ⟨g, s, tw, mx, labs, j, hcall⟩ := C75_call (pq := pq) (set := set) (rng := rng) hv hk2 hk32 hc h
  refine ⟨g, s, tw, mx, labs, j, hcall, ?_⟩
  obtain ⟨r', hrep⟩ := hcall.runs
  have e32 : (2 : Nat) ^ 32 = 4294967296 := by norm_num
  rw [e32] at hW' hk32
  obtain ⟨f, a, b, hu, hab, h1, h2, h3, h4⟩ := uniform_bounds (k := i.numPartitions) (tot := i.totalWeight) hk2 hk32
    (show i.totalWeight < 4294967296 by omega)
  have he := evenShares hu
  have hsh := hcall.shares
  have etw : tw = List.replicate (2 ^ d) a := by
    rw [← hk]
    refine list_ext_nth (by rw [hsh.len.1, List.length_replicate]) fun q hq => ?_
    rw [hsh.len.1] at hq
    exact toU32_inj (hsh.target q hq) (he.target q hq)
  have emx : mx = List.replicate (2 ^ d) b := by
    rw [← hk]
    refine list_ext_nth (by rw [hsh.len.2, List.length_replicate]) fun q hq => ?_
    rw [hsh.len.2] at hq
    exact toU32_inj (hsh.limit q hq) (he.limit q hq)
  have hkq : (0 : ℚ) < i.numPartitions := by exact_mod_cast (show 0 < i.numPartitions by omega)
  have hWq : 101 * (i.numPartitions : ℚ) ≤ 100 * i.totalWeight := by exact_mod_cast hW
  have ha : 0 < a := by
    have : 101 / 100 ≤ 1 / (i.numPartitions : ℚ) * i.totalWeight := by
      rw [one_div_mul_eq_div, le_div_iff₀ hkq]; linarith
    have : (0 : ℚ) < a := by linarith
    exact_mod_cast this
  have hka : 2 ^ d * a < 4294967296 := by
    have e : (i.numPartitions : ℚ) * (1 / i.numPartitions * i.totalWeight) = i.totalWeight := by field_simp
    have h5 := mul_le_mul_of_nonneg_left h1 hkq.le
    rw [mul_add, e] at h5
    have h6 : (i.numPartitions : ℚ) * (1 / 100000) ≤ i.numPartitions := by linarith
    have h7 : ((i.numPartitions * a : Nat) : ℚ) ≤ ((i.totalWeight + i.numPartitions : Nat) : ℚ) := by
      push_cast; linarith
    have h8 : i.numPartitions * a ≤ i.totalWeight + i.numPartitions := by exact_mod_cast h7
    rw [← hk]; omega
  exact ⟨r', hrep.mono fun r c r' hr => RBRun.keeping ha hr d etw emx hka hcall.good⟩

namespace Ex

/-- A hexagon with vertex weights 1, 2, 3, 1, 2, 3 and edges of weights 1 to 6. -/
def hexIn : Input :=
  { numVertices := 6, edgePrefix := [0, 2, 4, 6, 8, 10, 12], edgeList := [1, 5, 0, 2, 1, 3, 2, 4, 3, 5, 0, 4],
    vertexWeights := some [1, 2, 3, 1, 2, 3], edgeWeights := some [1, 6, 1, 2, 2, 3, 3, 4, 4, 5, 6, 5],
    numPartitions := 2 }

/-- The same as a graph, which is small and so its own coarsest graph. -/
def hexG : Graph :=
  { unitEdge := false, unitVtx := false, nv := 6, ne := 12, totVtx := 12, totEdge := 42,
    xadj := [0, 2, 4, 6, 8, 10, 12], adjncy := [1, 5, 0, 2, 1, 3, 2, 4, 3, 5, 0, 4], vwgt := [1, 2, 3, 1, 2, 3],
    adjwgt := [1, 6, 1, 2, 2, 3, 3, 4, 4, 5, 6, 5] }

/-- Its target: half of 12 each, and no more than that. -/
def hexT : Target Concrete.fp :=
  { k := 2, frac := [Concrete.fp.lit 5 1, Concrete.fp.lit 5 1], tw := [6, 6], mx := [6, 6] }

end Ex

/-- The hypotheses are met by two runs on a hexagon, and there are candidates within the limits. -/
example : Ex.hexIn.Valid ∧ Ex.hexIn.numPartitions = 2 ∧ 0 < (Ex.cuts 2).numGlobalCuts ∧
    partGraphRecursive Concrete.env Ex.hexIn (some (Ex.cuts 2)) Ex.before =
      ({ cut := 5, asg := [0, 1, 1, 1, 0, 0, 9, 9] }, ok 1) ∧
    (candidates (E := Concrete.env) bfsBisect Ex.hexT Ex.hexG 8 ()).value =
      ok (List.replicate 8 { cut := 5, pw := [6, 6], asg := [0, 1, 1, 1, 0, 0] }) := by
  refine ⟨Ex.valid_of (by constructor <;> decide +kernel) (by decide +kernel) (by decide +kernel) (by decide +kernel)
    (by decide +kernel), rfl, by decide, by decide +kernel, by decide +kernel⟩

/-- The hypotheses of the second theorem are met: an octagon of vertices of weight 3 in four parts. -/
def Ex.octIn : Input :=
  { numVertices := 8, edgePrefix := [0, 2, 4, 6, 8, 10, 12, 14, 16],
    edgeList := [1, 7, 0, 2, 1, 3, 2, 4, 3, 5, 4, 6, 5, 7, 0, 6], vertexWeights := some (List.replicate 8 3),
    edgeWeights := none, numPartitions := 4 }

example : Ex.octIn.Valid ∧ Ex.octIn.numPartitions = 2 ^ 2 ∧ 101 * Ex.octIn.numPartitions ≤ 100 * Ex.octIn.totalWeight ∧
    Ex.octIn.totalWeight + Ex.octIn.numPartitions < 2 ^ 32 ∧ 0 < (Ex.cuts 2).numGlobalCuts ∧
    partGraphRecursive Concrete.env Ex.octIn (some (Ex.cuts 2)) Ex.before =
      ({ cut := 4, asg := [0, 2, 2, 3, 3, 1, 1, 0] }, ok 1) := by
  refine ⟨Ex.valid_of (by constructor <;> decide +kernel) (by decide +kernel) (by decide +kernel) (by decide +kernel)
    (by decide +kernel), rfl, by decide +kernel, by decide +kernel, by decide, by decide +kernel⟩

end Poros
