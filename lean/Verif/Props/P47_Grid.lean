import Verif.Proofs.GridGen
/-
C47: grid graphs.
-/
namespace Poros
open Finset Res

attribute [-simp] List.length_flatten List.map_flatten

variable {X Y Z : Nat} {src : List Nat}

theorem Pt.Step.symm {d : Nat} {p q : Pt} (h : Pt.Step d p q) : Pt.Step d q p := by
  unfold Pt.Step at *; omega

theorem Pt.Step.ne {d : Nat} {p q : Pt} (h : Pt.Step d p q) : p ≠ q := by
  rintro rfl
  unfold Pt.Step at h; omega

theorem wOf_of_mem {l : List (Nat × Nat)} (hn : (l.map (·.1)).Nodup) {u w : Nat} (h : (u, w) ∈ l) : wOf l u = w := by
  induction l with
  | nil => cases h
  | cons a l ih =>
    rw [List.map_cons, List.nodup_cons] at hn
    rw [wOf_cons]
    rcases List.mem_cons.mp h with rfl | h
    · rw [if_pos rfl, wOf_eq_zero hn.1]; rfl
    · rw [if_neg, ih hn.2 h, Nat.zero_add]
      rintro rfl
      exact hn.1 (List.mem_map.mpr ⟨_, h, rfl⟩)

/-- **C47.** For all positive dimensions (three times the number of vertices and the number of edges within 32 bits) and
all random weights, generating the grid graph succeeds: the graph is well formed, has one vertex per grid point and
`gridEdgeCount` edges, has no self loops or parallel edges, two points are adjacent exactly if they are neighbours in one
dimension, the edge between them has the same weight in both directions, namely the random weight drawn for its lower
end and dimension, and vertices have their random weights. -/
theorem C47_grid (hX : 0 < X) (hY : 0 < Y) (hZ : 0 < Z) (hN : 3 * (X * Y * Z) < 2 ^ 32)
    (hE : gridEdgeCount X Y Z < 2 ^ 32 - 1) {vws : List Nat} (hs : src.length = 3 * (X * Y * Z)) (hv : vws.length = X * Y * Z) :
    ∃ g, gridGenerate X Y Z src vws = ok g ∧ g.WF ∧ g.nv = X * Y * Z ∧ g.ne = gridEdgeCount X Y Z ∧
      g.Symm ∧ g.SymmAdj ∧ g.NoLoop ∧ (∀ v, v < g.nv → ((g.nbrs v).map (·.1)).Nodup) ∧
      (∀ v, v < g.nv ↔ ∃ p : Pt, p.In X Y Z ∧ p.id X Y = v) ∧
      (∀ p q : Pt, p.In X Y Z → q.In X Y Z → p.id X Y = q.id X Y → p = q) ∧
      (∀ p q : Pt, p.In X Y Z → q.In X Y Z → (g.Adj (p.id X Y) (q.id X Y) ↔ ∃ d, Pt.Step d p q)) ∧
      (∀ (p q : Pt) d, p.In X Y Z → q.In X Y Z → Pt.Step d p q →
        g.wt (p.id X Y) (q.id X Y) = nth src (3 * min (p.id X Y) (q.id X Y) + d)) ∧
      (∀ v, v < g.nv → g.vw v = nth vws v) := by
  have hcomm : X * Y * Z = Z * Y * X := by ring
  rw [hcomm] at hN hs hv
  have hN' : 3 * (Z * Y * X) < M32 := by simpa using hN
  have hE' : gridEdgeCount X Y Z < NULL32 := by simpa using hE
  obtain ⟨g, hg, hst, hwf, hvw⟩ := gridGenerate_spec hX hY hZ hN' hE' hs hv
  have hb := gridBlocks_length (X := X) (Y := Y) (Z := Z) (src := src) (Z * Y * X)
  have hnv : g.nv = Z * Y * X := by rw [hst.nv, hb]
  have hnb : ∀ v, v < Z * Y * X → g.nbrs v = blk X Y Z src (Pt.ofId X Y v) := fun v hv' => by
    rw [hst.nbrs (by rw [hb]; exact hv'), nth_gridBlocks hv']
  have hnbp : ∀ p : Pt, p.In X Y Z → g.nbrs (p.id X Y) = blk X Y Z src p := fun p hp => by
    rw [hnb _ (Pt.id_lt hp), Pt.ofId_id hp]
  have hmem : ∀ (p : Pt) (u w : Nat), p.In X Y Z → ((u, w) ∈ blk X Y Z src p ↔
      ∃ q d, q.In X Y Z ∧ Pt.Step d p q ∧ q.id X Y = u ∧ w = nth src (3 * min (p.id X Y) (q.id X Y) + d)) := by
    intro p u w hp
    unfold blk srcIdx
    rw [List.mem_map]
    constructor
    · rintro ⟨⟨q, d⟩, ha, he⟩
      obtain ⟨h1, h2⟩ := (mem_nexts hp).mp ha
      simp only [Prod.mk.injEq] at he
      exact ⟨q, d, h1, h2, he.1, he.2.symm⟩
    · rintro ⟨q, d, h1, h2, h3, h4⟩
      exact ⟨(q, d), (mem_nexts hp).mpr ⟨h1, h2⟩, by rw [h4, ← h3]⟩
  have hnod : ∀ p : Pt, p.In X Y Z → ((blk X Y Z src p).map (·.1)).Nodup := by
    intro p hp
    unfold blk
    rw [List.map_map]
    have : ((nexts X Y Z p).map ((fun x => x.1) ∘ fun a => (a.1.id X Y, nth src (srcIdx X Y p a)))) =
        ((nexts X Y Z p).map (·.1)).map (Pt.id X Y) := by rw [List.map_map]; rfl
    rw [this]
    refine nexts_nodup.map_on fun a ha b hb' hab => ?_
    obtain ⟨⟨a', d⟩, ha', rfl⟩ := List.mem_map.mp ha
    obtain ⟨⟨b', d'⟩, hb'', rfl⟩ := List.mem_map.mp hb'
    exact Pt.id_inj ((mem_nexts hp).mp ha').1 ((mem_nexts hp).mp hb'').1 hab
  have hadj : ∀ p q : Pt, p.In X Y Z → q.In X Y Z → (g.Adj (p.id X Y) (q.id X Y) ↔ ∃ d, Pt.Step d p q) := by
    intro p q hp hq
    unfold Graph.Adj
    rw [hnbp p hp]
    constructor
    · rintro ⟨w, hw⟩
      obtain ⟨q', d, h1, h2, h3, -⟩ := (hmem p _ w hp).mp hw
      exact ⟨d, by rw [← Pt.id_inj h1 hq h3]; exact h2⟩
    · rintro ⟨d, hd⟩
      exact ⟨_, (hmem p _ _ hp).mpr ⟨q, d, hq, hd, rfl, rfl⟩⟩
  have hwt : ∀ (p q : Pt) d, p.In X Y Z → q.In X Y Z → Pt.Step d p q →
        g.wt (p.id X Y) (q.id X Y) = nth src (3 * min (p.id X Y) (q.id X Y) + d) := by
    intro p q d hp hq hd
    rw [hst.wt (by rw [hb]; exact Pt.id_lt hp), nth_gridBlocks (Pt.id_lt hp), Pt.ofId_id hp]
    exact wOf_of_mem (hnod p hp) ((hmem p _ _ hp).mpr ⟨q, d, hq, hd, rfl, rfl⟩)
  have hwt0 : ∀ (p q : Pt), p.In X Y Z → q.In X Y Z → (¬ ∃ d, Pt.Step d p q) → g.wt (p.id X Y) (q.id X Y) = 0 := by
    intro p q hp hq hd
    rw [hst.wt (by rw [hb]; exact Pt.id_lt hp), nth_gridBlocks (Pt.id_lt hp), Pt.ofId_id hp]
    refine wOf_eq_zero fun hk => hd ?_
    obtain ⟨⟨u, w⟩, hw, hu⟩ := List.mem_map.mp hk
    simp only at hu
    subst hu
    obtain ⟨q', d, h1, h2, h3, -⟩ := (hmem p _ w hp).mp hw
    exact ⟨d, by rw [← Pt.id_inj h1 hq h3]; exact h2⟩
  have pt : ∀ v, v < g.nv → ∃ p : Pt, p.In X Y Z ∧ p.id X Y = v := fun v hv' =>
    ⟨Pt.ofId X Y v, Pt.ofId_in hX hY (by rw [← hnv]; exact hv'), Pt.id_ofId _ _ _⟩
  refine ⟨g, hg, hwf, by rw [hnv, hcomm], ?_, ?_, ?_, ?_, ?_, fun v => ⟨pt v, ?_⟩, fun p q hp hq h => Pt.id_inj hp hq h, hadj, hwt,
    fun v hv' => hvw v (by rw [← hnv]; exact hv')⟩
  · rw [hst.ne, gridBlocks_flat, sum_nexts hX hY hZ]
  · intro v u hv' hu'
    obtain ⟨p, hp, rfl⟩ := pt v hv'
    obtain ⟨q, hq, rfl⟩ := pt u hu'
    by_cases hd : ∃ d, Pt.Step d p q
    · obtain ⟨d, hd⟩ := hd
      rw [hwt p q d hp hq hd, hwt q p d hq hp hd.symm, Nat.min_comm]
    · rw [hwt0 p q hp hq hd, hwt0 q p hq hp fun ⟨d, h⟩ => hd ⟨d, h.symm⟩]
  · intro v u hv' hu'
    obtain ⟨p, hp, rfl⟩ := pt v hv'
    obtain ⟨q, hq, rfl⟩ := pt u hu'
    rw [hadj p q hp hq, hadj q p hq hp]
    exact fun ⟨d, h⟩ => ⟨d, h.symm⟩
  · intro v hv' a ha
    obtain ⟨p, hp, rfl⟩ := pt v hv'
    rw [hnbp p hp] at ha
    obtain ⟨u, w⟩ := a
    obtain ⟨q, d, h1, h2, h3, -⟩ := (hmem p _ w hp).mp ha
    intro e
    exact h2.ne (Pt.id_inj hp h1 (by rw [h3, ← e]))
  · intro v hv'
    obtain ⟨p, hp, rfl⟩ := pt v hv'
    rw [hnbp p hp]
    exact hnod p hp
  · rintro ⟨p, hp, rfl⟩
    rw [hnv]
    exact Pt.id_lt hp

/-- Every grid graph whose total weights fit is a valid input of the partitioner. -/
theorem C47_valid_input (hX : 0 < X) (hY : 0 < Y) (hZ : 0 < Z) (hN : 3 * (X * Y * Z) < 2 ^ 32)
    (hE : gridEdgeCount X Y Z < 2 ^ 32 - 1) {vws : List Nat} (hs : src.length = 3 * (X * Y * Z)) (hv : vws.length = X * Y * Z)
    {g : Graph} (hg : gridGenerate X Y Z src vws = ok g) (hsm : g.Small) : g.Good := by
  obtain ⟨g', h1, h2, -, -, h3, -, h4, -⟩ := C47_grid hX hY hZ hN hE hs hv
  rw [hg] at h1
  cases h1
  exact ⟨h2, h3, h4, hsm⟩

/-- The hypotheses are met: a 2 by 2 by 1 grid with random weights. -/
example : 0 < 2 ∧ 3 * (2 * 2 * 1) < 2 ^ 32 ∧ gridEdgeCount 2 2 1 = 8 ∧
    gridGenerate 2 2 1 [3, 5, 9, 9, 6, 9, 4, 9, 9, 9, 9, 9] [1, 2, 3, 4] = ok
      (Graph.mk false false 4 8 10 36 [0, 2, 4, 6, 8] [1, 2, 0, 3, 3, 0, 2, 1] [1, 2, 3, 4] [3, 5, 3, 6, 4, 5, 4, 6]) :=
  ⟨by decide, by decide, by decide, by decide +kernel⟩

end Poros
