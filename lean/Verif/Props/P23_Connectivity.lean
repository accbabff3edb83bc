import Verif.Proofs.FMPass
import Verif.Examples
import Mathlib.Tactic.IntervalCases
/-
C23–C25: two-way connectivity.
-/
namespace Poros
open Finset Res

/-- **C23.** Connectivity computed from a partitioning holds, for every vertex, the true external and internal
weight; the border contains exactly the vertices with external weight and those without internal weight. -/
theorem C23_fresh_connectivity (P : SetImpl) {g : Graph} (hg : g.WF) (hm : g.Small) {p : Partitioning}
    (ha : p.asg.length = g.nv) :
    ∃ c, Conn.fromPartitioning P g p = ok c ∧
      (∀ v, v < g.nv → nth c.con v = (externalWeight g p.lab v, internalWeight g p.lab v)) ∧
      (∀ v, v ∈ c.border.elems ↔
        v < g.nv ∧ (0 < externalWeight g p.lab v ∨ internalWeight g p.lab v = 0)) := by
  obtain ⟨c, hc, he, hb⟩ := sat_iff.mp (fromPartitioning_spec P hg hm ha)
  refine ⟨c, hc, he.vals, fun v => ?_⟩
  unfold VSet.elems
  rw [P.mem_elems, hb]
  simp

example : ∃ c, Conn.fromPartitioning Concrete.env.set Ex.tri2 Ex.badPart = ok c ∧
    c.con = [(0, 3), (0, 5), (0, 5), (6, 1), (2, 2), (4, 2)] ∧ c.border.elems = [3, 4, 5] := by
  obtain ⟨c, hc, hv, hb⟩ := C23_fresh_connectivity Concrete.env.set Ex.tri2_wf Ex.tri2_small
    (p := Ex.badPart) (by decide)
  refine ⟨_, rfl, ?_⟩
  decide +kernel

/-- Moving one vertex to the other side, the way the library does it: connectivity of the vertex, assignment
and cut, then connectivity of every neighbour (`move` of src/partition/FMRefiner.cpp:99-143 without queues). -/
def moveVertex {E : Env} (g : Graph) (s : FMState E) (v : Nat) : Res (FMState E) := do
  let side ← rd s.part.asg v
  fmMove g false v (side ^^^ 1) s

theorem moveVertex_seq {E : Env} {g : Graph} (hg : g.Good) (vs : List Nat) (hvs : ∀ v ∈ vs, v < g.nv)
    {s : FMState E} (hs : FMGood g s) :
    Sat (vs.foldlM (moveVertex g) s) (fun s' => FMGood g s' ∧ s'.part.lab = vs.foldl flip s.part.lab) := by
  refine Post_foldlM (P := fun pre s' => FMGood g s' ∧ s'.part.lab = pre.foldl flip s.part.lab) ⟨hs, rfl⟩ ?_
  intro pre v post s1 he ⟨h1, h2⟩
  have hv : v < g.nv := hvs v (by simp [he])
  unfold moveVertex
  rw [rd_of_lt (by rw [h1.part.asg_len]; exact hv), ok_bind]
  have hlab : s1.part.lab v < 2 := h1.part.complete v hv
  have hx : nth s1.part.asg v ^^^ 1 = 1 - s1.part.lab v := by
    change s1.part.lab v ^^^ 1 = _
    generalize s1.part.lab v = a at *
    interval_cases a <;> rfl
  refine (fmMove_spec hg false h1 hv hx (by simp)).mono fun s2 h => ⟨h.1, ?_⟩
  rw [h.2.1, h2, List.foldl_append]
  rfl

/-- **C24.** After moving any sequence of vertices the incrementally maintained connectivity is the one that
would be computed from scratch, the border contains every vertex with external weight and never one with
internal but no external weight, and the reported weights and cut are still exact. -/
theorem C24_incremental_connectivity {E : Env} {g : Graph} (hg : g.Good) (vs : List Nat)
    (hvs : ∀ v ∈ vs, v < g.nv) {s : FMState E} (hp : IsExact g 2 s.part)
    (hc : ConnExact g s.part.lab s.conn) :
    ∃ s' scratch, vs.foldlM (moveVertex g) s = ok s' ∧
      Conn.fromPartitioning E.set g s'.part = ok scratch ∧
      s'.part.lab = vs.foldl flip s.part.lab ∧
      s'.conn.con = scratch.con ∧
      (∀ v, v < g.nv → 0 < externalWeight g s'.part.lab v → v ∈ s'.conn.border.elems) ∧
      (∀ v, v ∈ s'.conn.border.elems → v ∈ scratch.border.elems) ∧
      IsExact g 2 s'.part := by
  obtain ⟨s', h1, h2, h3⟩ := sat_iff.mp (moveVertex_seq hg vs hvs ⟨hp, hc⟩)
  obtain ⟨c, hc1, hc2, hc3⟩ := sat_iff.mp
    (fromPartitioning_spec E.set hg.wf hg.small (p := s'.part) h2.part.asg_len)
  refine ⟨s', c, h1, hc1, h3, ?_, ?_, ?_, h2.part⟩
  · refine list_ext_nth (by rw [h2.conn.len, hc2.len]) fun i hi => ?_
    rw [h2.conn.len] at hi
    rw [h2.conn.vals i hi, hc2.vals i hi]
  · intro v hv hx
    exact (E.set.mem_elems _ _).mpr (h2.conn.border_of_ext v hv hx)
  · intro v hv
    have := h2.conn.border_only v ((E.set.mem_elems _ _).mp hv)
    refine (E.set.mem_elems _ _).mpr ?_
    rw [hc3]
    simpa using this

/-- The state in which moves start. -/
def startState (E : Env) (g : Graph) (p : Partitioning) (c : Conn E.set) : FMState E :=
  { part := p, conn := c, q0 := VQueue.new E.pq g.nv, q1 := VQueue.new E.pq g.nv,
    visited := List.replicate g.nv false }

/-- The hypotheses hold for a real partitioning of a weighted graph and its computed connectivity. -/
theorem start_good (E : Env) : ∃ c, Conn.fromPartitioning E.set Ex.tri2 Ex.badPart = ok c ∧
    IsExact Ex.tri2 2 (startState E Ex.tri2 Ex.badPart c).part ∧
    ConnExact Ex.tri2 Ex.badPart.lab c := by
  obtain ⟨c, h1, h2, -⟩ := sat_iff.mp
    (fromPartitioning_spec E.set Ex.tri2_wf Ex.tri2_small (p := Ex.badPart) (by decide))
  exact ⟨c, h1, Ex.badPart_exact, h2⟩

example : ∃ c s', Conn.fromPartitioning Concrete.env.set Ex.tri2 Ex.badPart = ok c ∧
    [3, 0, 3, 5].foldlM (moveVertex Ex.tri2) (startState Concrete.env Ex.tri2 Ex.badPart c) = ok s' ∧
    s'.part.asg = [1, 0, 0, 0, 1, 0] := by
  obtain ⟨c, h1, h2, h3⟩ := start_good Concrete.env
  obtain ⟨s', -, h5, -, h6, -, -, -, h7⟩ := C24_incremental_connectivity Ex.tri2_good [3, 0, 3, 5]
    (by decide) h2 h3
  refine ⟨c, s', h1, h5, ?_⟩
  refine list_ext_nth (by rw [h7.asg_len]; rfl) fun i hi => ?_
  change s'.part.lab i = _
  rw [h6]
  rw [h7.asg_len] at hi
  change i < 6 at hi
  interval_cases i <;> rfl

/-- **C25.** The delta reported for a vertex of a bisection is exactly the change of the cut caused by moving
that vertex to the other side. -/
theorem C25_delta {P : SetImpl} {g : Graph} (hg : g.Good) {lab : Nat → Nat} (h2 : ∀ u, u < g.nv → lab u < 2)
    {c : Conn P} (hc : ConnExact g lab c) {v : Nat} (hv : v < g.nv) :
    ∃ d, c.delta v = ok d ∧ (cutWeight g (flip lab v) : Int) = cutWeight g lab + d := by
  refine ⟨_, Conn.delta_eq hc.toVals hv (ext_int_lt hg lab hv), ?_⟩
  have := cut_flip hg.symm hg.noLoop lab (flip lab v) hv (fun u _ hne => flip_ne lab hne) h2 (flip_self lab v)
  omega

example : ∃ c : Conn Concrete.env.set, ConnExact Ex.tri2 Ex.badPart.lab c ∧ c.delta 3 = ok (-5) ∧
    cutWeight Ex.tri2 Ex.badPart.lab = 6 ∧ cutWeight Ex.tri2 (flip Ex.badPart.lab 3) = 1 := by
  obtain ⟨c, h1, h2, h3⟩ := start_good Concrete.env
  refine ⟨c, h3, ?_, by decide +kernel, by decide +kernel⟩
  rw [Conn.delta_eq h3.toVals (by decide) (ext_int_lt Ex.tri2_good _ (by decide))]
  decide +kernel

end Poros
