import Verif.Props.P23_Connectivity
/-
C68: the self-check of two-way connectivity.
-/
namespace Poros
open Finset Res

/-- The fold of a boolean check over a list. -/
theorem foldlM_check {α : Type} {l : List α} {f : Bool → α → Res Bool} {p : α → Bool}
    (h : ∀ x ∈ l, ∀ b, f b x = ok (if p x then b else false)) (b0 : Bool) :
    l.foldlM f b0 = ok (b0 && l.all p) := by
  induction l generalizing b0 with
  | nil => simp
  | cons x xs ih =>
    rw [List.foldlM_cons, h x (by simp), ok_bind, ih fun y hy => h y (by simp [hy])]
    cases hp : p x <;> simp [hp]

theorem verify_eq {P : SetImpl} {g : Graph} (hg : g.WF) (hm : g.Small) {p : Partitioning}
    (ha : p.asg.length = g.nv) {c : Conn P} (hlen : c.con.length = g.nv) (hcap : c.border.cap = g.nv)
    (hb : ∀ v ∈ c.border.elems, v < g.nv) :
    ∃ b, c.verify g p = ok b ∧ (b = true ↔
      (∀ v, v < g.nv → nth c.con v = (externalWeight g p.lab v, internalWeight g p.lab v)) ∧
      (∀ v, v ∈ c.border.elems ↔
        v < g.nv ∧ (0 < externalWeight g p.lab v ∨ internalWeight g p.lab v = 0))) := by
  obtain ⟨base, h1, h2, h3⟩ := sat_iff.mp (fromPartitioning_spec P hg hm ha)
  have hbe : ∀ v, v ∈ base.border.elems ↔
      v < g.nv ∧ (0 < externalWeight g p.lab v ∨ internalWeight g p.lab v = 0) := by
    intro v
    unfold VSet.elems
    rw [P.mem_elems, h3]
    simp
  have e1 := foldlM_check (l := c.border.elems)
    (f := fun good v => do
      let b ← base.border.has v
      .ok (if b then good else false)) (p := fun v => P.has base.border.s v) (b0 := true) (by
    intro v hv b
    rw [VSet.has_eq (by rw [h2.cap]; exact hb v hv), ok_bind])
  have e2 := foldlM_check (l := base.border.elems)
    (f := fun good v => do
      let b ← c.border.has v
      .ok (if b then good else false)) (p := fun v => P.has c.border.s v)
    (b0 := true && c.border.elems.all fun v => P.has base.border.s v) (by
    intro v hv b
    rw [VSet.has_eq (by rw [hcap]; exact ((hbe v).mp hv).1), ok_bind])
  have e3 := foldlM_check (l := List.range g.nv)
    (f := fun good v => do
      let x ← rd c.con v
      let y ← rd base.con v
      .ok (if x.1 ≠ y.1 ∨ x.2 ≠ y.2 then false else good))
    (p := fun v => decide (nth c.con v = nth base.con v))
    (b0 := (true && c.border.elems.all fun v => P.has base.border.s v) &&
      base.border.elems.all fun v => P.has c.border.s v) (by
    intro v hv b
    rw [List.mem_range] at hv
    rw [rd_of_lt (by omega), ok_bind, rd_of_lt (by rw [h2.len]; exact hv), ok_bind]
    have : (nth c.con v).1 ≠ (nth base.con v).1 ∨ (nth c.con v).2 ≠ (nth base.con v).2 ↔
        ¬ nth c.con v = nth base.con v := by
      rw [Prod.ext_iff]; tauto
    simp only [this]
    by_cases hh : nth c.con v = nth base.con v <;> simp [hh])
  refine ⟨_, (?_ : _ = ok (((true && c.border.elems.all fun v => P.has base.border.s v) &&
      base.border.elems.all fun v => P.has c.border.s v) &&
      (List.range g.nv).all fun v => decide (nth c.con v = nth base.con v))), ?_⟩
  · unfold Conn.verify
    rw [h1, ok_bind, e1, ok_bind, e2, ok_bind, e3]
  · simp only [Bool.true_and, Bool.and_eq_true, List.all_eq_true, decide_eq_true_eq, List.mem_range]
    constructor
    · rintro ⟨⟨ha, hb'⟩, hc⟩
      refine ⟨fun v hv => by rw [hc v hv, h2.vals v hv], fun v => ⟨fun h => ?_, fun h => ?_⟩⟩
      · exact (hbe v).mp ((P.mem_elems _ _).mpr (ha v h))
      · exact (P.mem_elems _ _).mpr (hb' v ((hbe v).mpr h))
    · rintro ⟨hc, hd⟩
      refine ⟨⟨fun v hv => ?_, fun v hv => ?_⟩, fun v hv => by rw [hc v hv, h2.vals v hv]⟩
      · exact (P.mem_elems _ _).mp ((hbe v).mpr ((hd v).mp hv))
      · exact (P.mem_elems _ _).mp ((hd v).mpr ((hbe v).mp hv))

/-- **C68.** `verify` accepts a connectivity exactly if its values are the true external and internal weights and
its border consists of the vertices with external weight and those without internal weight. -/
theorem C68_verify {P : SetImpl} {g : Graph} (hg : g.WF) (hm : g.Small) {p : Partitioning}
    (ha : p.asg.length = g.nv) {c : Conn P} (hlen : c.con.length = g.nv) (hcap : c.border.cap = g.nv)
    (hb : ∀ v ∈ c.border.elems, v < g.nv) :
    ∃ b, c.verify g p = ok b ∧ (b = true ↔
      (∀ v, v < g.nv → nth c.con v = (externalWeight g p.lab v, internalWeight g p.lab v)) ∧
      (∀ v, v ∈ c.border.elems ↔
        v < g.nv ∧ (0 < externalWeight g p.lab v ∨ internalWeight g p.lab v = 0))) :=
  verify_eq hg hm ha hlen hcap hb

example : ∃ c : Conn Concrete.env.set, c.con = [(0, 3), (0, 5), (0, 5), (6, 1), (2, 2), (4, 2)] ∧
    c.verify Ex.tri2 Ex.badPart = ok true :=
  ⟨⟨⟨6, [3, 4, 5]⟩, [(0, 3), (0, 5), (0, 5), (6, 1), (2, 2), (4, 2)]⟩, rfl, by decide +kernel⟩

example : ∃ c : Conn Concrete.env.set, c.con = [(0, 3), (0, 5), (0, 5), (6, 1), (2, 3), (4, 2)] ∧
    c.verify Ex.tri2 Ex.badPart = ok false :=
  ⟨⟨⟨6, [3, 4, 5]⟩, [(0, 3), (0, 5), (0, 5), (6, 1), (2, 3), (4, 2)]⟩, rfl, by decide +kernel⟩

/-- **C68.** In a graph all of whose vertices have edges of positive weight, `verify` accepts the incrementally
maintained connectivity after any sequence of moves. -/
theorem C68_after_moves {E : Env} {g : Graph} (hg : g.Good) (hpos : ∀ v, v < g.nv → 0 < g.wsum v fun _ => true)
    (vs : List Nat) (hvs : ∀ v ∈ vs, v < g.nv) {s : FMState E} (hp : IsExact g 2 s.part)
    (hc : ConnExact g s.part.lab s.conn) :
    ∃ s', vs.foldlM (moveVertex g) s = ok s' ∧ s'.conn.verify g s'.part = ok true := by
  obtain ⟨s', h1, h2, h3⟩ := sat_iff.mp (moveVertex_seq hg vs hvs ⟨hp, hc⟩)
  refine ⟨s', h1, ?_⟩
  obtain ⟨b, hb1, hb2⟩ := verify_eq hg.wf hg.small h2.part.asg_len h2.conn.len h2.conn.cap
    (fun v hv => (h2.conn.border_only v ((E.set.mem_elems _ _).mp hv)).1)
  rw [hb1, hb2.mpr ⟨h2.conn.vals, fun v => ⟨fun h => ?_, fun h => ?_⟩⟩]
  · exact h2.conn.border_only v ((E.set.mem_elems _ _).mp h)
  · refine (E.set.mem_elems _ _).mpr (h2.conn.border_of_ext v h.1 ?_)
    have := internal_add_external hg.wf s'.part.lab h.1
    have := hpos v h.1
    omega

example : ∃ c s', Conn.fromPartitioning Concrete.env.set Ex.tri2 Ex.badPart = ok c ∧
    [3, 0, 3, 5].foldlM (moveVertex Ex.tri2) (startState Concrete.env Ex.tri2 Ex.badPart c) = ok s' ∧
    s'.conn.verify Ex.tri2 s'.part = ok true := by
  obtain ⟨c, h1, h2, h3⟩ := start_good Concrete.env
  obtain ⟨s', h5, h6⟩ := C68_after_moves Ex.tri2_good (by decide +kernel) [3, 0, 3, 5] (by decide) h2 h3
  exact ⟨c, s', h1, h5, h6⟩

/-- **C68.** Moving a vertex without edges makes `verify` reject, although all values are right: the vertex leaves the
border, into which a computation from scratch puts it. (`refine` asserts `verify` in debug builds,
src/partition/FMRefiner.cpp:250, 266.) -/
theorem C68_isolated {E : Env} {g : Graph} (hg : g.Good) {s : FMState E} (hp : IsExact g 2 s.part)
    (hc : ConnExact g s.part.lab s.conn) {v : Nat} (hv : v < g.nv) (hi : g.nbrs v = [])
    (hb : v ∈ s.conn.border.elems) :
    ∃ s', moveVertex g s v = ok s' ∧ ConnExact g s'.part.lab s'.conn ∧ s'.conn.verify g s'.part = ok false := by
  obtain ⟨s', h1, h2, -⟩ := sat_iff.mp (moveVertex_seq hg [v] (by simpa using hv) ⟨hp, hc⟩)
  rw [List.foldlM_cons] at h1
  have h1' : moveVertex g s v = ok s' := by
    cases h : moveVertex g s v <;> simp [h] at h1 ⊢
    exact h1
  refine ⟨s', h1', h2.conn, ?_⟩
  obtain ⟨b, hb1, hb2⟩ := verify_eq hg.wf hg.small h2.part.asg_len h2.conn.len h2.conn.cap
    (fun v hv => (h2.conn.border_only v ((E.set.mem_elems _ _).mp hv)).1)
  rw [hb1]
  cases b with
  | false => rfl
  | true =>
    exfalso
    have hall := (hb2.mp rfl).2 v
    have hz : ∀ lab, externalWeight g lab v = 0 ∧ internalWeight g lab v = 0 := by
      intro lab
      have := internal_add_external hg.wf lab hv
      have h0 : g.wsum v (fun _ => true) = 0 := by simp [Graph.wsum, hi]
      omega
    have hin : v ∈ s'.conn.border.elems := hall.mpr ⟨hv, Or.inr (hz _).2⟩
    -- the move took `v` out of the border
    unfold moveVertex fmMove at h1'
    rw [rd_of_lt (by rw [hp.asg_len]; exact hv), ok_bind,
      Conn.delta_eq hc.toVals hv (ext_int_lt hg _ hv), ok_bind] at h1'
    unfold Conn.move Conn.updateBorderStatus at h1'
    rw [rd_of_lt (by rw [hc.len]; exact hv), ok_bind, hc.vals v hv, (hz _).1, (hz _).2,
      wr_of_lt (by rw [hc.len]; exact hv), ok_bind] at h1'
    have hhas : E.set.has s.conn.border.s v = true := (E.set.mem_elems _ _).mp hb
    simp only [] at h1'
    rw [VSet.has_eq (by rw [hc.cap]; exact hv), ok_bind, rd_of_lt (by rw [List.length_set, hc.len]; exact hv), ok_bind,
      nth_set_self (by rw [hc.len]; exact hv), hhas] at h1'
    simp only [if_true] at h1'
    rw [VSet.remove_eq (by rw [hc.cap]; exact hv) hhas] at h1'
    simp only [ok_bind] at h1'
    cases hmv : s.part.move g v (nth s.part.asg v ^^^ 1) with
    | ub => simp [hmv] at h1'
    | exn => simp [hmv] at h1'
    | diverge => simp [hmv] at h1'
    | ok part =>
      rw [hmv, ok_bind, Graph.nbrsOf_eq hg.wf hv, ok_bind, hi] at h1'
      simp at h1'
      subst h1'
      have := (E.set.mem_elems _ _).mp hin
      simp [E.set.has_del] at this

/-- An edge and a vertex without edges. -/
def loneGraph : Graph :=
  { unitEdge := false, unitVtx := true, nv := 3, ne := 2, totVtx := 3, totEdge := 8,
    xadj := [0, 1, 2, 2], adjncy := [1, 0], vwgt := [], adjwgt := [4, 4] }

example : ∃ c s', Conn.fromPartitioning Concrete.env.set loneGraph ⟨4, [2, 1], [0, 1, 0]⟩ = ok c ∧
    moveVertex loneGraph (startState Concrete.env loneGraph ⟨4, [2, 1], [0, 1, 0]⟩ c) 2 = ok s' ∧
    s'.conn.verify loneGraph s'.part = ok false := by
  have hw : loneGraph.WF := by constructor <;> decide +kernel
  have hg : loneGraph.Good := ⟨hw, Graph.symm_of (by decide +kernel), by unfold Graph.NoLoop; decide +kernel,
    by constructor <;> decide +kernel⟩
  have hp : IsExact loneGraph 2 ⟨4, [2, 1], [0, 1, 0]⟩ := by constructor <;> decide +kernel
  obtain ⟨c, h1, h2, h3⟩ := sat_iff.mp (fromPartitioning_spec Concrete.env.set hw hg.small hp.asg_len)
  obtain ⟨s', h4, -, h5⟩ := C68_isolated (s := startState Concrete.env loneGraph ⟨4, [2, 1], [0, 1, 0]⟩ c) hg hp h2
    (v := 2) (by decide) (by decide +kernel)
    ((Concrete.env.set.mem_elems _ _).mpr ((h3 2).trans (by decide +kernel)))
  exact ⟨c, s', h1, h4, h5⟩

end Poros
