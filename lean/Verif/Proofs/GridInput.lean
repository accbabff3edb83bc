import Verif.Props.P47_Grid
import Verif.Proofs.Csr
import Verif.SpecApi
import Mathlib.Tactic.SplitIfs
/-
Grid graphs as inputs of the C interface: validity, and the walk through all points of a grid that visits neighbours one
after the other.
-/
namespace Poros
open Finset Res

/-- The point visited in place of `p` by the walk that goes back and forth along the rows and along the layers. -/
def Pt.fold (X Y : Nat) (p : Pt) : Pt :=
  let y := if p.z % 2 = 0 then p.y else Y - 1 - p.y
  let x := if (p.z * Y + y) % 2 = 0 then p.x else X - 1 - p.x
  ⟨x, y, p.z⟩

variable {X Y Z : Nat}

theorem Pt.fold_in {p : Pt} (h : p.In X Y Z) : (p.fold X Y).In X Y Z := by
  obtain ⟨h1, h2, h3⟩ := h
  unfold Pt.fold Pt.In
  refine ⟨?_, ?_, h3⟩
  · simp only; split <;> split <;> omega
  · simp only; split <;> omega

/-- The point with the next number. -/
theorem Pt.id_succ {p q : Pt} (hp : p.In X Y Z) (hq : q.In X Y Z) (h : q.id X Y = p.id X Y + 1) :
    q = ⟨p.x + 1, p.y, p.z⟩ ∨ (p.x + 1 = X ∧ q = ⟨0, p.y + 1, p.z⟩) ∨ (p.x + 1 = X ∧ p.y + 1 = Y ∧ q = ⟨0, 0, p.z + 1⟩) := by
  obtain ⟨p1, p2, p3⟩ := hp
  have hq' : q.In X Y (Z + 1) := ⟨hq.1, hq.2.1, Nat.lt_succ_of_lt hq.2.2⟩
  by_cases hx : p.x + 1 < X
  · refine Or.inl (Pt.id_inj hq' ⟨hx, p2, by simp only; omega⟩ ?_)
    rw [h]; unfold Pt.id; simp only; omega
  · have hx' : p.x + 1 = X := by omega
    by_cases hy : p.y + 1 < Y
    · refine Or.inr (Or.inl ⟨hx', Pt.id_inj hq' ⟨by simp only; omega, hy, by simp only; omega⟩ ?_⟩)
      rw [h]; unfold Pt.id; simp only
      rw [Nat.add_assoc, hx', ← Nat.add_one_mul]; rfl
    · have hy' : p.y + 1 = Y := by omega
      refine Or.inr (Or.inr ⟨hx', hy', Pt.id_inj hq' (Z := Z + 1) ⟨by simp only; omega, by simp only; omega, by simp only; omega⟩ ?_⟩)
      rw [h]; unfold Pt.id; simp only
      rw [Nat.add_assoc, hx', ← Nat.add_one_mul, Nat.add_assoc, hy', ← Nat.add_one_mul]; rfl

/-- Points visited one after the other are neighbours. -/
theorem Pt.fold_step {p q : Pt} (hp : p.In X Y Z) (hq : q.In X Y Z)
    (h : (q.fold X Y).id X Y = (p.fold X Y).id X Y + 1) : ∃ d, Pt.Step d p q := by
  have hs := Pt.id_succ (Pt.fold_in hp) (Pt.fold_in hq) h
  obtain ⟨px, py, pz⟩ := p
  obtain ⟨qx, qy, qz⟩ := q
  obtain ⟨p1, p2, p3⟩ := hp
  obtain ⟨q1, q2, q3⟩ := hq
  unfold Pt.fold at hs
  simp only [Pt.mk.injEq] at *
  clear h
  rcases hs with ⟨h1, h2, rfl⟩ | ⟨h0, h1, h2, rfl⟩ | ⟨h0, h0', h1, h2, rfl⟩
  · refine ⟨0, Or.inl ⟨rfl, ?_, ?_, rfl⟩⟩ <;> simp only
    all_goals
      rw [h2] at h1
      generalize qz * Y = m at *
      split_ifs at * <;> omega
  · refine ⟨1, Or.inr (Or.inl ⟨rfl, ?_, ?_, rfl⟩)⟩ <;> simp only
    all_goals
      generalize qz * Y = m at *
      split_ifs at * <;> omega
  · refine ⟨2, Or.inr (Or.inr ⟨rfl, ?_, ?_, by simp⟩)⟩ <;> simp only
    all_goals
      rw [Nat.add_one_mul] at h1
      generalize pz * Y = m at *
      split_ifs at * <;> omega

/-- The walk visits every point once. -/
theorem Pt.fold_inj {p q : Pt} (hp : p.In X Y Z) (hq : q.In X Y Z) (h : (p.fold X Y).id X Y = (q.fold X Y).id X Y) :
    p = q := by
  have hs := Pt.id_inj (Pt.fold_in hp) (Pt.fold_in hq) h
  obtain ⟨px, py, pz⟩ := p
  obtain ⟨qx, qy, qz⟩ := q
  obtain ⟨p1, p2, p3⟩ := hp
  obtain ⟨q1, q2, q3⟩ := hq
  unfold Pt.fold at hs
  simp only [Pt.mk.injEq] at *
  clear h
  obtain ⟨h1, h2, rfl⟩ := hs
  rw [h2] at h1
  generalize pz * Y = m at *
  split_ifs at * <;> omega

/-! ### Validity -/

theorem Graph.wt_eq_wOf (g : Graph) (v u : Nat) : g.wt v u = wOf (g.nbrs v) u := by
  unfold Graph.wt Graph.wsum wOf
  simp

/-- With at most one edge per pair, edges counted by 1 are symmetric if adjacency is. -/
theorem count_symm {g : Graph} (hu : ∀ e, g.ew e = 1) (hs : g.SymmAdj)
    (hn : ∀ v, v < g.nv → ((g.nbrs v).map (·.1)).Nodup) : g.Symm := by
  have key : ∀ v u, v < g.nv → g.Adj v u → g.wt v u = 1 := by
    intro v u hv ⟨w, hw⟩
    rw [g.wt_eq_wOf, wOf_of_mem (hn v hv) hw]
    unfold Graph.nbrs at hw
    obtain ⟨e, -, h⟩ := List.mem_map.mp hw
    rw [hu] at h
    exact (Prod.mk.inj h).2.symm
  have key0 : ∀ v u, ¬ g.Adj v u → g.wt v u = 0 := by
    intro v u h
    rw [g.wt_eq_wOf]
    refine wOf_eq_zero fun hm => h ?_
    obtain ⟨⟨a, w⟩, hq, rfl⟩ := List.mem_map.mp hm
    exact ⟨w, hq⟩
  intro v u hv hu'
  by_cases h : g.Adj v u
  · rw [key v u hv h, key u v hu' (hs v u hv hu' h)]
  · rw [key0 v u h, key0 u v fun h' => h (hs u v hu' hv h')]

/-- The arrays of a graph without parallel edges, with its own edge weights or with edge weights 1, are a valid input. -/
theorem Graph.valid_input {g : Graph} (hw : g.WF) (hsy : g.Symm) (hs : g.SymmAdj) (hl : g.NoLoop)
    (hn : ∀ v, v < g.nv → ((g.nbrs v).map (·.1)).Nodup) {i : Input}
    (h1 : i.numVertices = g.nv) (h2 : i.edgePrefix = g.xadj) (h3 : i.edgeList = g.adjncy)
    (hv : ¬ shorter i.vertexWeights g.nv) (he : ¬ shorter i.edgeWeights g.ne)
    (hwt : (∀ e, e < g.ne → weightAt i.edgeWeights e = g.ew e) ∨ (∀ e, e < g.ne → weightAt i.edgeWeights e = 1))
    (fv : ∑ v ∈ range g.nv, weightAt i.vertexWeights v < 2 ^ 32)
    (fe : ∑ e ∈ range g.ne, weightAt i.edgeWeights e < 2 ^ 32) : i.Valid := by
  have hne : i.numEdges = g.ne := by unfold Input.numEdges; rw [h1, h2, hw.xadj_last]
  refine ⟨?_, ?_, ?_, by rw [h1]; exact fv, by rw [hne]; exact fe⟩
  · rw [hne, h1, h2, h3]
    exact ⟨hw.nv_lt, hw.ne_lt, hw.xadj_len.ge, hw.adj_len.ge, hv, he, hw.xadj_zero, hw.xadj_mono, hw.xadj_last, hw.dest_lt⟩
  · rw [h1, h2, h3]
    have eq1 : ∀ g' : Graph, g'.xadj = g.xadj → g'.adjncy = g.adjncy → (∀ e, e < g.ne → weightAt i.edgeWeights e = g'.ew e) →
        ∀ v, v < g.nv → ∀ u, csrWt g.xadj g.adjncy i.edgeWeights v u = g'.wt v u := by
      intro g' e1 e2 e3 v hv u
      unfold Graph.wt csrWt
      rw [wsum_eq_Ico (by rw [e1]; exact hw.xadj_mono v hv), e1, e2]
      refine sum_congr rfl fun e he => ?_
      have hle := Graph.xadj_le_ne hw (v := v + 1) (by omega)
      rw [mem_Ico] at he
      rw [e3 e (by omega)]
      simp
    intro v u hv' hu'
    rcases hwt with hwt | hwt
    · rw [eq1 g rfl rfl hwt v hv', eq1 g rfl rfl hwt u hu', hsy v u hv' hu']
    · have hnb : ∀ v, ({ g with unitEdge := true } : Graph).nbrs v = (g.nbrs v).map fun q => (q.1, 1) := by
        intro v
        unfold Graph.nbrs
        rw [List.map_map]
        rfl
      have hadj : ∀ v u, ({ g with unitEdge := true } : Graph).Adj v u ↔ g.Adj v u := by
        intro v u
        unfold Graph.Adj
        rw [hnb]
        constructor
        · rintro ⟨w, h⟩
          obtain ⟨⟨a, b⟩, hq, e⟩ := List.mem_map.mp h
          cases e
          exact ⟨b, hq⟩
        · rintro ⟨w, h⟩
          exact ⟨1, List.mem_map.mpr ⟨_, h, rfl⟩⟩
      have hs' : ({ g with unitEdge := true } : Graph).Symm := by
        refine count_symm (fun e => rfl) (fun v u h1 h2 h => (hadj u v).mpr (hs v u h1 h2 ((hadj v u).mp h))) fun v hv => ?_
        rw [hnb, List.map_map]
        exact hn v hv
      rw [eq1 { g with unitEdge := true } rfl rfl hwt v hv', eq1 { g with unitEdge := true } rfl rfl hwt u hu',
        hs' v u hv' hu']
  · rw [h1, h2, h3]
    intro v hv' e h4 h5
    refine hl v hv' (nth g.adjncy e, g.ew e) ?_
    unfold Graph.nbrs
    exact List.mem_map.mpr ⟨e, List.mem_range'_1.mpr ⟨h4, by omega⟩, rfl⟩

end Poros
