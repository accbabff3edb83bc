import Verif.Props.P31_Bisectors
import Verif.Props.P02_Contraction
import Verif.Proofs.Ends
/-
C30, C34, C35, C50, C56: projection, stopping criteria and multilevel bisection.
-/
namespace Poros
open Finset Res

variable {E : Env}

/-! ### C30 -/

/-- **C30.** For every valid graph and every aggregation of it, the coarse graph can be built, and projecting any
exact partitioning of the coarse graph with its exact connectivity finishes normally and gives each fine vertex
the label of its group. Cut and part weights are the coarse ones and are exact for the fine graph; and the
connectivity is the one that is computed from scratch for the projected partitioning (values and border). -/
theorem C30_projection {P : SetImpl} {g : Graph} (hg : g.Good) {cmap : List Nat} {nc : Nat}
    (hc : CoarseMap g cmap nc) :
    ∃ a cg, Aggregation.make (cmap.map some) nc = ok a ∧ CoarseGraph.make g a = ok cg ∧
      ∀ (k : Nat) (cp : Partitioning) (cc : Conn P), k ≤ NULL32 → IsExact cg.coarse k cp →
        ConnExact cg.coarse cp.lab cc →
        ∃ p c c', cg.project cp cc = ok (p, c) ∧ (∀ v, v < g.nv → p.lab v = cp.lab (nth cmap v)) ∧
          p.cut = cp.cut ∧ (∀ q, q < k → nth p.pw q = nth cp.pw q) ∧ IsExact g k p ∧
          Conn.fromPartitioning P g p = ok c' ∧ c.con = c'.con ∧
          ∀ v, P.has c.border.s v = P.has c'.border.s v := by
  have hsm := hg.small
  have hse := hsm.edge
  obtain ⟨a, -, h1, -, h3, h4, h5, -⟩ := contract_total hg.wf (by omega) hsm.vtx hc
  obtain ⟨cg, h6, h7⟩ := sat_iff.mp (CoarseGraph.make_spec hg.wf (by omega) hsm.vtx h3 (by rw [h4]; exact hc.fits))
  refine ⟨a, cg, h1, h6, ?_⟩
  intro k cp cc hk hcp hcc
  obtain ⟨o, ho, hp⟩ := sat_iff.mp (project_spec hg.wf hg.symm hsm h3 h7 hk hcp hcc)
  obtain ⟨c', hc', he, hb⟩ := sat_iff.mp (fromPartitioning_spec P hg.wf hsm hp.exact.asg_len)
  refine ⟨o.1, o.2, c', ho, h5 ▸ hp.lab, hp.cut, hp.pw, hp.exact, hc', ?_, ?_⟩
  · refine list_ext_nth (by rw [hp.conn.len, he.len]) fun v hv => ?_
    rw [hp.conn.len] at hv
    rw [hp.conn.vals v hv, he.vals v hv]
  · intro v
    rw [hp.border v, hb v]

/-- The hypotheses are met: `tri2` with the groups {0,1}, {2}, {3,4,5}, {} and the coarse vertices 0, 1, 3 on the
left. -/
example : ∃ a cg cp cc, Aggregation.make ([0, 0, 1, 2, 2, 2].map some) 4 = ok a ∧
    CoarseGraph.make Ex.tri2 a = ok cg ∧ Partitioning.ofLabels 2 cg.coarse [0, 0, 1, 0] = ok cp ∧
    IsExact cg.coarse 2 cp ∧ Conn.fromPartitioning Concrete.env.set cg.coarse cp = ok cc ∧
    ConnExact cg.coarse cp.lab cc := by
  obtain ⟨a, -, h1, -, h3, h4, h5, -⟩ := contract_total Ex.tri2_wf (by decide +kernel) Ex.tri2_small.vtx coarse_example
  obtain ⟨cg, h6, h7⟩ := sat_iff.mp (CoarseGraph.make_spec Ex.tri2_wf (by decide +kernel) Ex.tri2_small.vtx h3
    (by rw [h4]; decide))
  have hgood := h7.con.good h3 Ex.tri2_good
  have hnv : cg.coarse.nv = 4 := by rw [h7.con.nv, h4]
  obtain ⟨cp, hp, -, h9⟩ := sat_iff.mp (ofLabels_exact hgood.wf hgood.symm hgood.small (k := 2)
    (labels := [0, 0, 1, 0]) (by rw [hnv]; rfl) (by rw [hnv]; decide))
  obtain ⟨cc, h10, h11, -⟩ := sat_iff.mp (fromPartitioning_spec Concrete.env.set hgood.wf hgood.small h9.asg_len)
  exact ⟨a, cg, cp, cc, h1, h6, hp, h9, h10, h11⟩

/-- The projected partitioning in that case. -/
example : (do
    let a ← Aggregation.make ([0, 0, 1, 2, 2, 2].map some) 4
    let cg ← CoarseGraph.make Ex.tri2 a
    let cp ← Partitioning.ofLabels 2 cg.coarse [0, 0, 1, 0]
    let cc ← Conn.fromPartitioning Concrete.env.set cg.coarse cp
    (cg.project cp cc).value) = ok { cut := 1, pw := [4, 5], asg := [0, 0, 0, 1, 1, 1] } := by
  decide +kernel

/-! ### C50 -/

/-- **C50, composite.** If every criterion answers, the composite stops exactly if one of its criteria does. -/
theorem C50_composite (cs : List Criterion) (level : Nat) (fine coarse : Option Graph)
    (h : ∀ c ∈ cs, ∃ b, c level fine coarse = ok b) :
    ∃ b, compositeStop cs level fine coarse = ok b ∧ (b = true ↔ ∃ c ∈ cs, c level fine coarse = ok true) := by
  induction cs with
  | nil => exact ⟨false, rfl, by simp⟩
  | cons c cs ih =>
    obtain ⟨b, hb⟩ := h c (by simp)
    obtain ⟨b', hb', hiff⟩ := ih fun d hd => h d (by simp [hd])
    unfold compositeStop
    rw [hb, ok_bind]
    cases b with
    | true => exact ⟨true, rfl, by simp [hb]⟩
    | false => exact ⟨b', hb', by simp [hb, hiff]⟩

/-- **C50, vertex number.** -/
theorem C50_vertex_number (n level : Nat) (fine : Option Graph) (g : Graph) :
    vertexNumberStop n level fine (some g) = ok true ↔ g.nv ≤ n := by
  simp [vertexNumberStop]

/-- **C50, edge ratio.** A criterion for a ratio outside (0, 1) cannot be made. A criterion answers exactly if it
is given a coarse graph and, after the first level, a fine graph, and otherwise throws. On an edgeless coarse graph
it stops; at the first level of a graph with edges it does not; with a fine graph that has edges it stops exactly
if the quotient of the numbers of edges exceeds the ratio; with an edgeless fine graph it stops. -/
theorem C50_edge_ratio (fp : FP) (ratio : fp.F) :
    (fp.le ratio (fp.lit 0 0) = true ∨ fp.le (fp.lit 1 0) ratio = true → edgeRatioMake fp ratio = exn) ∧
    (fp.le ratio (fp.lit 0 0) = false → fp.le (fp.lit 1 0) ratio = false →
      ∃ crit, edgeRatioMake fp ratio = ok crit ∧
        (∀ level fine, crit level fine none = exn) ∧
        (∀ level coarse, 0 < level → crit level none coarse = exn) ∧
        (∀ level fine g, (level = 0 ∨ fine.isSome) → g.ne = 0 → crit level fine (some g) = ok true) ∧
        (∀ g, 0 < g.ne → crit 0 none (some g) = ok false) ∧
        (∀ level f g, f.ne = 0 → crit level (some f) (some g) = ok true) ∧
        (∀ level f g, 0 < f.ne → 0 < g.ne → crit level (some f) (some g) =
          ok (fp.lt ratio (fp.div (fp.ofNat g.ne) (fp.ofNat f.ne))))) := by
  constructor
  · intro h
    unfold edgeRatioMake
    rw [if_pos (by simpa using h)]
  · intro h1 h2
    refine ⟨edgeRatioStop fp ratio, ?_, ?_, ?_, ?_, ?_, ?_, ?_⟩
    · unfold edgeRatioMake
      rw [if_neg (by simp [h1, h2])]
    · intro level fine
      unfold edgeRatioStop
      split <;> rfl
    · intro level coarse hl
      unfold edgeRatioStop
      rw [if_pos ⟨hl, rfl⟩]
    · intro level fine g hl hg
      unfold edgeRatioStop
      rw [if_neg (by rcases hl with h | h <;> cases fine <;> simp_all)]
      simp [hg]
    · intro g hg
      have : g.ne ≠ 0 := by omega
      simp [edgeRatioStop, this]
    · intro level f g hf
      unfold edgeRatioStop
      rw [if_neg (by simp)]
      simp [hf]
    · intro level f g hf hg
      unfold edgeRatioStop
      rw [if_neg (by simp)]
      have h1 : f.ne ≠ 0 := by omega
      have h2 : g.ne ≠ 0 := by omega
      simp [h1, h2]

example : Concrete.fp.le (Concrete.fp.lit 95 2) (Concrete.fp.lit 0 0) = false ∧
    Concrete.fp.le (Concrete.fp.lit 1 0) (Concrete.fp.lit 95 2) = false ∧
    edgeRatioStop Concrete.fp (Concrete.fp.lit 95 2) 3 (some Ex.tri2) (some Ex.triU) = ok false ∧
    edgeRatioStop Concrete.fp (Concrete.fp.lit 95 2) 3 (some Ex.tri2) (some Ex.tri2) = ok true := by
  decide +kernel

/-! ### C34 -/

/-- **C34.** The multilevel recursion never runs forever: for any aggregator, initial bisector and refiner that
themselves stop (and whose normal results are valid), and any target and valid graph. -/
theorem C34_terminates (m : Multilevel E) (t : Target E.fp)
    (hagg : ∀ g maxW r, g.Good → Ends (m.agg maxW g r) (fun o => AggOK g.nv o.1 ∧ o.1.nc ≤ g.nv))
    (hinit : ∀ g r, g.Good → Ends (m.init t g r) (fun o => IsExact g 2 o.1))
    (hrefine : ∀ g p c, g.Good → IsExact g 2 p → ConnExact g p.lab c →
      Ends (m.refine t g p c) (fun o => IsExact g 2 o.1 ∧ ConnExact g o.1.lab o.2))
    (hsr : E.fp.SelfRatio) {g : Graph} (hg : g.Good) (r : E.rng.S) : m.execute t g r ≠ diverge :=
  (Multilevel.execute_ends ⟨hagg, hinit, hrefine⟩ hsr (fun _ => trivial) hg r).ne

/-- **C34, the bisector of the library.** Whatever the aggregation scheme, random sequence and two-way target, the
multilevel bisector the library builds stops on every valid graph. -/
theorem C34_library_terminates (s : Scheme) {t : Target E.fp} (ht : t.Two) (hsr : E.fp.SelfRatio) {g : Graph}
    (hg : g.Good) (r : E.rng.S) : (makeMultilevel E s).execute t g r ≠ diverge :=
  (Multilevel.execute_ends (makeMultilevel_ending s ht) hsr (fun _ => trivial) hg r).ne

/-- **C34, why.** The recursion is entered below a level only if the graph there has strictly fewer edges than
its parent: with no fewer edges the criteria stop it. -/
theorem C34_fewer_edges (hsr : E.fp.SelfRatio) {level : Nat} {f g : Graph} (hg : g.WF) (hle : g.ne ≤ f.ne)
    (h : compositeStop [vertexNumberStop 20, edgeRatioStop E.fp (E.fp.lit 95 2)] level (some f) (some g) = ok false) :
    g.ne < f.ne := by
  rw [mlStop_eq _ _ _ (Or.inr rfl)] at h
  exact mlStops_ne hsr hg hle (by injection h)

/-- Binary64 has the required property. -/
example : Concrete.env.fp.SelfRatio := Concrete.selfRatio

/-! ### C35 and C56 -/

theorem Contracted.totVtx {g : Graph} {a : Aggregation} {cg : Graph} (h : Contracted g a cg) (ha : AggOK g.nv a)
    (hg : g.WF) : cg.totVtx = g.totVtx := by
  rw [h.wf.tot_vtx, h.sumVtx ha, ← hg.tot_vtx]

/-- Where the result of a multilevel bisection comes from. -/
def FromCoarsest (t : Target E.fp) (tot : Nat) (c w0 w1 : Nat) : Prop :=
  w0 + w1 = tot ∧ ∃ (cg : Graph) (r0 : E.rng.S) (p0 : Partitioning) (r1 : E.rng.S), cg.Good ∧ cg.totVtx = tot ∧
    makeBisector E .bfs 8 t cg r0 = ok (p0, r1) ∧ IsExact cg 2 p0 ∧
    (Consistent t tot → Balanced cg t p0.lab → w0 ≤ nth t.mx 0 ∧ w1 ≤ nth t.mx 1 ∧ c ≤ p0.cut)

theorem Graph.Good.tot {g : Graph} (hg : g.Good) : g.totVtx = g.sumVtx := by
  rw [hg.wf.tot_vtx, Nat.mod_eq_of_lt hg.small.vtx]

theorem makeMultilevel_contract {B : Prop} (s : Scheme) {t : Target E.fp} (ht : t.Two) (tot : Nat)
    (hbad : ¬ (∀ n, n < NULL32 → E.fp.BadMovesOK n) → B) :
    (makeMultilevel E s).Contract B t (fun g => (B ∨ (0 < g.nv ∧ HasWeights g)) ∧ g.totVtx = tot)
      (FromCoarsest t tot) where
  agg g maxW r hg hnl := by
    refine (Post.of_sat (aggregate_spec E s hg hnl maxW r)).mono fun o ho => ?_
    obtain ⟨f, -, h, -⟩ := ho
    exact ⟨h.ok, h.size.1⟩
  closed g a cg hg hK ha hc := by
    refine ⟨hK.1.imp id fun h => ⟨?_, ?_⟩, ?_⟩
    · rw [hc.nv]; have := ha.lt 0 h.1; omega
    · intro hu; rw [hc.unitV] at hu; cases hu
    · rw [hc.totVtx ha hg.wf, hK.2]
  init g r hg hK := by
    have hb : ∀ r, Post B (bfsBisect t g r) (fun o => IsExact g 2 o.1 ∧ IsExact g 2 o.1) := fun r => by
      refine (bfsBisect_spec hg ht (fun h => ?_) r).mono fun o ⟨_, _, _, _, h⟩ => ⟨h.exact, h.exact⟩
      rcases hK.1 with h' | h'
      · exact h'
      · exact absurd h' h
    refine (multiBisect_spec ht hb (by omega : 0 < 8) r).with_eq.mono fun o ho => ?_
    obtain ⟨⟨h1, -⟩, h2⟩ := ho
    have hsum := partWeight_add h1.complete
    have htot := hg.tot
    refine ⟨h1, ?_, g, r, o.1, o.2, hg, hK.2, h2, h1, fun _ hbal => ⟨hbal 0 (by omega), hbal 1 (by omega), ?_⟩⟩
    · rw [hsum, ← htot, hK.2]
    · rw [h1.cut_eq]
  refine g p c hg hp hc hI := by
    refine (fmRefine_spec hg ht 8 150 hp hc (fun h => hbad fun h' => h (h' _ hg.wf.nv_lt))).with_eq.mono fun o ho => ?_
    obtain ⟨⟨h1, h2, -⟩, h3⟩ := ho
    refine ⟨h1, h2, ?_⟩
    obtain ⟨hsum, cg, r0, p0, r1, a1, a2, a3, a4, a5⟩ := hI
    have hs1 := partWeight_add hp.complete
    have hs2 := partWeight_add h1.complete
    refine ⟨by omega, cg, r0, p0, r1, a1, a2, a3, a4, fun hcons hbal => ?_⟩
    obtain ⟨b1, b2, b3⟩ := a5 hcons hbal
    have ht' : g.totVtx = tot := by rw [hg.tot]; omega
    obtain ⟨d1, d2⟩ := (C27_fm_never_worse hg ht (ht' ▸ hcons) 8 150 hp hc h3).1 (by
      intro q hq
      interval_cases q
      · exact b1
      · exact b2)
    rw [h1.cut_eq, hp.cut_eq] at d2
    exact ⟨d1 0 (by omega), d1 1 (by omega), by omega⟩

/-- **C35.** Multilevel bisection of a valid graph, if it finishes, yields a complete bisection with exact part
weights and exact cut. On a nonempty graph with a vertex weight array it does finish, without undefined behaviour
or exception, given that double arithmetic behaves as expected on the few conversions involved. -/
theorem C35_multilevel (s : Scheme) {t : Target E.fp} (ht : t.Two) {g : Graph} (hg : g.Good) (r : E.rng.S) :
    (∀ p r', (makeMultilevel E s).execute t g r = ok (p, r') → IsExact g 2 p) ∧
    (0 < g.nv → HasWeights g → E.fp.MultilevelOK g.totVtx → (∀ n, n < NULL32 → E.fp.BadMovesOK n) →
      ∃ o, (makeMultilevel E s).execute t g r = ok o) := by
  constructor
  · intro p r' h
    exact ((Multilevel.execute_spec (B := True) (makeMultilevel_contract s ht g.totVtx (fun _ => trivial)) hg
      ⟨Or.inl trivial, rfl⟩ (fun _ => trivial) r).elim_ok h).1
  · intro h0 hw hok hbad
    obtain ⟨o, ho, -⟩ := sat_iff.mp (Multilevel.execute_spec (B := False)
      (makeMultilevel_contract s ht g.totVtx (fun h => h hbad)) hg ⟨Or.inr ⟨h0, hw⟩, rfl⟩ (fun h => h hok) r)
    exact ⟨o, ho⟩

/-- **C56**, without naming the coarsest graph (see `C56_run`). With a consistent target, multilevel bisection keeps what the initial bisection of the coarsest graph
achieves: there was a valid graph of the same total weight which the initial bisector split into `p0`, and if `p0`
is balanced then so is the result, and its cut is not larger than that of `p0`. -/
theorem C56_keeps_initial (s : Scheme) {t : Target E.fp} (ht : t.Two) {g : Graph} (hg : g.Good)
    (hcons : Consistent t g.totVtx) {r : E.rng.S} {p : Partitioning} {r' : E.rng.S}
    (h : (makeMultilevel E s).execute t g r = ok (p, r')) :
    ∃ (cg : Graph) (r0 : E.rng.S) (p0 : Partitioning) (r1 : E.rng.S), cg.Good ∧ cg.totVtx = g.totVtx ∧
      makeBisector E .bfs 8 t cg r0 = ok (p0, r1) ∧ IsExact cg 2 p0 ∧
      (Balanced cg t p0.lab → Balanced g t p.lab ∧ p.cut ≤ p0.cut) := by
  obtain ⟨hex, -, cg, r0, p0, r1, h1, h2, h3, h4, h5⟩ := (Multilevel.execute_spec (B := True)
    (makeMultilevel_contract s ht g.totVtx (fun _ => trivial)) hg ⟨Or.inl trivial, rfl⟩ (fun _ => trivial) r).elim_ok h
  refine ⟨cg, r0, p0, r1, h1, h2, h3, h4, fun hb => ?_⟩
  obtain ⟨b1, b2, b3⟩ := h5 hcons hb
  refine ⟨?_, by rw [hex.cut_eq]; exact b3⟩
  intro q hq
  interval_cases q
  · exact b1
  · exact b2

/-- A path of 22 vertices with weights: large enough to be coarsened. -/
def path22 : Graph :=
  { unitEdge := true, unitVtx := false, nv := 22, ne := 42, totVtx := 44, totEdge := 42,
    xadj := 0 :: ((List.range 21).map fun i => 2 * i + 1) ++ [42],
    adjncy := 1 :: ((List.range 20).flatMap fun i => [i, i + 2]) ++ [20],
    vwgt := List.replicate 22 2, adjwgt := [] }

theorem path22_good : path22.Good :=
  ⟨by constructor <;> decide +kernel, Graph.symm_of (by decide +kernel), by unfold Graph.NoLoop; decide +kernel,
    by constructor <;> decide +kernel⟩

/-- Halves of `path22`. -/
def halves22 : Target Concrete.env.fp :=
  { k := 2, frac := [Concrete.fp.lit 5 1, Concrete.fp.lit 5 1], tw := [22, 22], mx := [22, 22] }

/-- The hypotheses are met, for binary64 doubles, and the graph is coarsened, bisected and refined. -/
example : path22.Good ∧ halves22.Two ∧ 0 < path22.nv ∧ HasWeights path22 ∧
    Concrete.env.fp.MultilevelOK path22.totVtx ∧ (∀ n, n < NULL32 → Concrete.env.fp.BadMovesOK n) ∧
    Consistent halves22 path22.totVtx ∧
    ((makeMultilevel Concrete.env .sortedHeavyEdge).execute halves22 path22 ()).value =
      ok { cut := 1, pw := [22, 22], asg := List.replicate 11 0 ++ List.replicate 11 1 } := by
  refine ⟨path22_good, ⟨rfl, rfl, rfl, rfl⟩, by decide, (fun h => nomatch h), Concrete.multilevelOK (by decide),
    fun n hn => Concrete.badMovesOK (by omega), ?_, by decide +kernel⟩
  exact
    { threshold := ⟨Concrete.fp.lit 3 2, Concrete.fp.lit 5 1, Concrete.fp.lit 5 1, rfl, by decide +kernel⟩
      lt_le := halves_consistent.lt_le
      le_trans := halves_consistent.le_trans }

end Poros
