import Verif.Props.P47_Grid
import Verif.Proofs.UnitWeights
import Verif.Proofs.Api
/-
C91: which grids the generator can build.
-/
namespace Poros
open Finset Res

variable {X Y Z : Nat} {src : List Nat}

theorem Wp_wr {α : Type} {be bd : Prop} {l : List α} {i : Nat} {x : α} :
    Wp True be bd (wr l i x) fun l' => i < l.length ∧ l' = l.set i x := by
  unfold wr
  split
  · rename_i h; exact ⟨h, rfl⟩
  · trivial

theorem Wp_rd {α : Type} {be bd : Prop} {l : List α} {i : Nat} : Wp True be bd (rd l i) fun _ => i < l.length := by
  by_cases h : i < l.length
  · unfold rd; rw [List.getElem?_eq_getElem h]; exact h
  · rw [rd_of_le (by omega)]; trivial

/-- What a step of the generator that did not run into undefined behaviour has done: `k` edges written. -/
structure GSize (m L k n : Nat) (s : GridState) : Prop where
  edge : s.edge = k
  le : k ≤ m
  elist : s.elist.length = m
  vertex : s.vertex = n
  vle : n + 1 ≤ L
  xadj : s.xadj.length = L

theorem GSize.place {m L k n d i : Nat} {s : GridState} (hm : m < M32) (h : GSize m L k n s) :
    Wp True False False (gridPlace src d i s) fun s' => GSize m L (k + 1) n s' ∧ i % M32 < src.length := by
  unfold gridPlace Mem.wr
  refine Wp_wr.bind fun el hel => ?_
  refine Wp_rd.bind fun w hw => ?_
  refine Wp_wr.bind fun ew _ => ?_
  obtain ⟨h1, rfl⟩ := hel
  rw [h.edge, h.elist] at h1
  refine ⟨⟨?_, h1, ?_, h.vertex, h.vle, h.xadj⟩, hw⟩
  · show uadd s.edge 1 = _
    rw [h.edge, uadd_eq (by omega)]
  · simpa using h.elist

theorem GSize.places {m L n : Nat} {p : Pt} (hm : m < M32) : ∀ (l : List (Pt × Nat)) {k : Nat} {s : GridState},
    GSize m L k n s → Wp True False False (l.foldlM (placeOf X Y src p) s) fun s' =>
      GSize m L (k + l.length) n s' ∧ ∀ a ∈ l, srcIdx X Y p a % M32 < src.length := by
  intro l
  induction l with
  | nil => intro k s h; exact ⟨h, fun a ha => by simp at ha⟩
  | cons a l ih =>
    intro k s h
    rw [List.foldlM_cons]
    refine (h.place hm).bind fun s' hs' => ?_
    refine (ih hs'.1).mono fun t ht => ⟨?_, ?_⟩
    · have := ht.1
      rwa [show k + 1 + l.length = k + (a :: l).length by simp; omega] at this
    · intro b hb
      rcases List.mem_cons.mp hb with rfl | hb
      · exact hs'.2
      · exact ht.2 b hb

/-- One vertex, whatever the number of vertices: the vertex counter and the prefix array. -/
theorem gridVertex_counts {L n x y z : Nat} {s : GridState} (hL : L < M32) (hv : s.vertex = n) (hx : s.xadj.length = L)
    (hn : n + 1 ≤ L) : Wp True False False (gridVertex X Y Z src x y z s) fun s' =>
      s'.vertex = n + 1 ∧ s'.xadj.length = L ∧ n + 2 ≤ L := by
  have pl : ∀ (c : Prop) [Decidable c] (d i : Nat) (s : GridState), s.vertex = n ∧ s.xadj.length = L →
      Wp True False False (gridIf c (gridPlace src d i) s) fun s' => s'.vertex = n ∧ s'.xadj.length = L := by
    intro c _ d i s hs
    unfold gridIf
    split
    · unfold gridPlace Mem.wr
      refine Wp_wr.bind fun el hel => ?_
      refine Wp_rd.bind fun w hw => ?_
      refine Wp_wr.bind fun ew _ => ?_
      exact hs
    · exact hs
  unfold gridVertex
  simp only
  generalize usub X 1 = X1, usub Y 1 = Y1, usub Z 1 = Z1
  refine (pl _ _ _ _ ⟨hv, hx⟩).bind fun s h => ?_
  refine (pl _ _ _ _ h).bind fun s h => ?_
  refine (pl _ _ _ _ h).bind fun s h => ?_
  refine (pl _ _ _ _ h).bind fun s h => ?_
  refine (pl _ _ _ _ h).bind fun s h => ?_
  refine (pl _ _ _ _ h).bind fun s h => ?_
  unfold Mem.wr
  refine Wp_wr.bind fun xa hxa => ?_
  obtain ⟨h1, rfl⟩ := hxa
  rw [h.1, h.2, uadd_eq (by omega)] at h1
  refine ⟨?_, ?_, by omega⟩
  · show uadd s.vertex 1 = _
    rw [h.1, uadd_eq (by omega)]
  · simpa using h.2

theorem Graph.make_ub_or (xa el vw ew : List Nat) : Wp True False False (Graph.make xa el vw ew) fun _ => True := by
  have sw : ∀ (n : Nat) (w : List Nat), Wp True False False (sumWeights n w) fun _ => True := by
    intro n w
    unfold sumWeights
    split
    · split
      · trivial
      · refine (Wp_foldlM_range (fun _ _ => True) trivial fun i s _ _ => ?_)
        exact Wp_rd.bind fun _ _ => trivial
    · trivial
  unfold Graph.make
  simp only
  generalize usub xa.length 1 = nv
  exact (sw _ _).bind fun _ _ => (sw _ _).bind fun _ _ => trivial

theorem freeze_ub_or (m : Mem) : Wp True False False m.freeze fun _ => True := by
  unfold Mem.freeze
  refine Wp_mapM fun c _ => ?_
  cases c <;> trivial

/-- The loops either hit undefined behaviour, or everything they wrote and read was in bounds. -/
theorem gridLoops_sizes (hX : 0 < X) (hY : 0 < Y) (hX' : X < M32) (hY' : Y < M32) (hZ' : Z < M32) {m L : Nat} (hm : m < M32)
    (hL : L < M32) {s : GridState} (h : GSize m L 0 0 s) :
    Wp True False False (gridLoops X Y Z src s) fun s' => Z * Y * X + 1 ≤ L ∧
      ∑ v ∈ range (Z * Y * X), (nexts X Y Z (Pt.ofId X Y v)).length ≤ m ∧
      (∀ v, v < Z * Y * X → ∀ a ∈ nexts X Y Z (Pt.ofId X Y v), srcIdx X Y (Pt.ofId X Y v) a % M32 < src.length) ∧
      s'.vertex = Z * Y * X ∧ s'.edge = ∑ v ∈ range (Z * Y * X), (nexts X Y Z (Pt.ofId X Y v)).length := by
  rw [gridLoops_eq]
  by_cases hN : Z * Y * X < M32
  · refine (Wp_foldlM_range (fun n s => GSize m L (∑ v ∈ range n, (nexts X Y Z (Pt.ofId X Y v)).length) n s ∧
      ∀ v, v < n → ∀ a ∈ nexts X Y Z (Pt.ofId X Y v), srcIdx X Y (Pt.ofId X Y v) a % M32 < src.length)
      ⟨by simpa using h, fun v hv => absurd hv (by omega)⟩ fun v s hv hI => ?_).mono fun s hs => ⟨hs.1.vle, hs.1.le, hs.2, hs.1.vertex, hs.1.edge⟩
    have hin : (Pt.ofId X Y v).In X Y Z := Pt.ofId_in hX hY hv
    rw [gridVertex_eq hN hX' hY' hZ' hin]
    refine (GSize.places hm _ hI.1).bind fun t ht => ?_
    unfold Mem.wr
    refine Wp_wr.bind fun xa hxa => ?_
    obtain ⟨h1, rfl⟩ := hxa
    obtain ⟨ht, hr⟩ := ht
    have := ht.vle
    rw [ht.vertex, ht.xadj, uadd_eq (by omega)] at h1
    rw [sum_range_succ]
    refine ⟨⟨ht.edge, ht.le, ht.elist, ?_, by omega, by simpa using ht.xadj⟩, fun u hu => ?_⟩
    · show uadd t.vertex 1 = _
      rw [ht.vertex, uadd_eq (by omega)]
    · rcases Nat.lt_succ_iff_lt_or_eq.mp hu with hu | rfl
      · exact hI.2 u hu
      · exact hr
  · have := Wp_foldlM_range (bu := True) (be := False) (bd := False) (n := Z * Y * X) (s := s)
      (f := fun s v => gridVertex X Y Z src (Pt.ofId X Y v).x (Pt.ofId X Y v).y (Pt.ofId X Y v).z s)
      (fun n s => s.vertex = n ∧ s.xadj.length = L ∧ n + 1 ≤ L) ⟨h.vertex, h.xadj, h.vle⟩
      (fun v s _ hI => gridVertex_counts hL hI.1 hI.2.1 hI.2.2)
    refine this.mono fun s hs => ?_
    omega

theorem gridNumEdges_eq (hX : 0 < X) (hY : 0 < Y) (hZ : 0 < Z) (hX' : X < M32) (hY' : Y < M32) (hZ' : Z < M32) :
    gridNumEdges X Y Z = gridEdgeCount X Y Z % M32 := by
  unfold gridNumEdges
  rw [usub_eq hX hX', usub_eq hY hY', usub_eq hZ hZ']
  rw [show ((X - 1) * (Y * Z) + (Y - 1) * (X * Z) + (Z - 1) * (X * Y)) * 2 = gridEdgeCount X Y Z by
    unfold gridEdgeCount; ring]

/-- A grid is connected: it has at least one edge less than vertices. -/
theorem gridEdgeCount_ge (hX : 0 < X) (hY : 0 < Y) (hZ : 0 < Z) : 2 * (Z * Y * X - 1) ≤ gridEdgeCount X Y Z := by
  obtain ⟨x, rfl⟩ := Nat.exists_eq_succ_of_ne_zero (n := X) (by omega)
  obtain ⟨y, rfl⟩ := Nat.exists_eq_succ_of_ne_zero (n := Y) (by omega)
  obtain ⟨z, rfl⟩ := Nat.exists_eq_succ_of_ne_zero (n := Z) (by omega)
  unfold gridEdgeCount
  simp only [Nat.succ_eq_add_one, Nat.add_sub_cancel]
  have h : (z + 1) * (y + 1) * (x + 1) = x * (y + 1) * (z + 1) + y * (z + 1) + z + 1 := by ring
  have h2 : y * (z + 1) ≤ (x + 1) * y * (z + 1) := by
    rw [mul_assoc]; exact Nat.le_mul_of_pos_left _ (by omega)
  have h3 : z ≤ (x + 1) * (y + 1) * z := Nat.le_mul_of_pos_left _ (by positivity)
  omega

/-- Of two consecutive vertices, not the last ones, one has a neighbour with a greater number; the weight of that edge is
read at an index between three times the smaller of the two and three times the greater plus two. -/
theorem forward_edge (hX : 0 < X) (hY : 0 < Y) {i : Nat} (hi : i + 2 < Z * Y * X) :
    ∃ v, (v = i ∨ v = i + 1) ∧ ∃ a ∈ nexts X Y Z (Pt.ofId X Y v), 3 * v ≤ srcIdx X Y (Pt.ofId X Y v) a ∧
      srcIdx X Y (Pt.ofId X Y v) a ≤ 3 * v + 2 := by
  have key : ∀ v, ∀ q : Pt, ∀ d, d ≤ 2 → v ≤ q.id X Y → (q, d) ∈ nexts X Y Z (Pt.ofId X Y v) →
      ∃ a ∈ nexts X Y Z (Pt.ofId X Y v), 3 * v ≤ srcIdx X Y (Pt.ofId X Y v) a ∧ srcIdx X Y (Pt.ofId X Y v) a ≤ 3 * v + 2 := by
    intro v q d hd hq ha
    refine ⟨_, ha, ?_⟩
    unfold srcIdx
    rw [Pt.id_ofId]
    simp only
    omega
  -- the two vertices
  have hin : ∀ v, v < Z * Y * X → (Pt.ofId X Y v).In X Y Z := fun v hv => Pt.ofId_in hX hY hv
  by_cases h1 : 1 < X
  · -- dimension 0
    have hmod : i % X + 1 < X ∨ (i + 1) % X + 1 < X := by
      by_contra hc
      push Not at hc
      have a := Nat.mod_lt i hX
      have e : i % X = X - 1 := by omega
      have : (i + 1) % X = 0 := by
        rw [Nat.add_mod, e, Nat.mod_eq_of_lt h1, show X - 1 + 1 = X by omega, Nat.mod_self]
      omega
    rcases hmod with h | h
    · refine ⟨i, Or.inl rfl, key i ⟨(Pt.ofId X Y i).x + 1, (Pt.ofId X Y i).y, (Pt.ofId X Y i).z⟩ 0 (by omega) ?_ ?_⟩
      · have := Pt.id_ofId X Y i
        unfold Pt.id at this ⊢
        simp only
        omega
      · refine (mem_nexts (hin i (by omega))).mpr ⟨⟨h, (hin i (by omega)).2.1, (hin i (by omega)).2.2⟩, ?_⟩
        exact Or.inl ⟨rfl, Or.inr rfl, rfl, rfl⟩
    · refine ⟨i + 1, Or.inr rfl, key (i + 1) ⟨(Pt.ofId X Y (i + 1)).x + 1, (Pt.ofId X Y (i + 1)).y, (Pt.ofId X Y (i + 1)).z⟩ 0 (by omega) ?_ ?_⟩
      · have := Pt.id_ofId X Y (i + 1)
        unfold Pt.id at this ⊢
        simp only
        omega
      · refine (mem_nexts (hin (i + 1) (by omega))).mpr ⟨⟨h, (hin (i + 1) (by omega)).2.1, (hin (i + 1) (by omega)).2.2⟩, ?_⟩
        exact Or.inl ⟨rfl, Or.inr rfl, rfl, rfl⟩
  · have hX1 : X = 1 := by omega
    subst hX1
    by_cases h2 : 1 < Y
    · have hmod : i % Y + 1 < Y ∨ (i + 1) % Y + 1 < Y := by
        by_contra hc
        push Not at hc
        have a := Nat.mod_lt i hY
        have e : i % Y = Y - 1 := by omega
        have : (i + 1) % Y = 0 := by
          rw [Nat.add_mod, e, Nat.mod_eq_of_lt h2, show Y - 1 + 1 = Y by omega, Nat.mod_self]
        omega
      have go : ∀ v, v < Z * Y * 1 → v % Y + 1 < Y → ∃ a ∈ nexts 1 Y Z (Pt.ofId 1 Y v),
          3 * v ≤ srcIdx 1 Y (Pt.ofId 1 Y v) a ∧ srcIdx 1 Y (Pt.ofId 1 Y v) a ≤ 3 * v + 2 := by
        intro v hv h
        refine key v ⟨(Pt.ofId 1 Y v).x, (Pt.ofId 1 Y v).y + 1, (Pt.ofId 1 Y v).z⟩ 1 (by omega) ?_ ?_
        · have := Pt.id_ofId 1 Y v
          unfold Pt.id at this ⊢
          simp only
          omega
        · refine (mem_nexts (hin v hv)).mpr ⟨⟨(hin v hv).1, ?_, (hin v hv).2.2⟩, ?_⟩
          · show v / 1 % Y + 1 < Y
            rwa [Nat.div_one]
          · exact Or.inr (Or.inl ⟨rfl, rfl, Or.inr rfl, rfl⟩)
      rcases hmod with h | h
      · exact ⟨i, Or.inl rfl, go i (by omega) h⟩
      · exact ⟨i + 1, Or.inr rfl, go (i + 1) (by omega) h⟩
    · have hY1 : Y = 1 := by omega
      subst hY1
      refine ⟨i, Or.inl rfl, key i ⟨(Pt.ofId 1 1 i).x, (Pt.ofId 1 1 i).y, (Pt.ofId 1 1 i).z + 1⟩ 2 (by omega) ?_ ?_⟩
      · have := Pt.id_ofId 1 1 i
        unfold Pt.id at this ⊢
        simp only
        omega
      · refine (mem_nexts (hin i (by omega))).mpr ⟨⟨(hin i (by omega)).1, (hin i (by omega)).2.1, ?_⟩, ?_⟩
        · show i / 1 / 1 + 1 < Z
          rw [Nat.div_one, Nat.div_one]; omega
        · exact Or.inr (Or.inr ⟨rfl, rfl, rfl, Or.inr rfl⟩)

/-- **C91.** Generating a grid graph of positive 32-bit dimensions, with the arrays of random weights of the sizes the
generator computes (`3·numVertices` and `numVertices` in 32-bit arithmetic), succeeds exactly if three times the number of
grid points and the number of edges fit in 32 bits; for every other grid it is undefined behaviour (reading or writing
beyond an array). -/
theorem C91_grid_sizes (hX : 0 < X) (hY : 0 < Y) (hZ : 0 < Z) (hX' : X < 2 ^ 32) (hY' : Y < 2 ^ 32) (hZ' : Z < 2 ^ 32)
    {vws : List Nat} (hs : src.length = 3 * (X * Y * Z) % 2 ^ 32) (hv : vws.length = X * Y * Z % 2 ^ 32) :
    ((3 * (X * Y * Z) < 2 ^ 32 ∧ gridEdgeCount X Y Z < 2 ^ 32) → ∃ g, gridGenerate X Y Z src vws = ok g) ∧
    (¬ (3 * (X * Y * Z) < 2 ^ 32 ∧ gridEdgeCount X Y Z < 2 ^ 32) → gridGenerate X Y Z src vws = ub) := by
  have hcomm : X * Y * Z = Z * Y * X := by ring
  constructor
  · rintro ⟨h1, h2⟩
    have he : gridEdgeCount X Y Z % 2 = 0 := by unfold gridEdgeCount; omega
    obtain ⟨g, hg, -⟩ := C47_grid hX hY hZ h1 (by omega) (by rw [hs, Nat.mod_eq_of_lt h1]) (by rw [hv, Nat.mod_eq_of_lt (by omega)])
    exact ⟨g, hg⟩
  · intro hc
    have key : Wp True False False (gridGenerate X Y Z src vws) fun _ => False := by
      unfold gridGenerate
      simp only
      have hm : gridNumEdges X Y Z < M32 := Nat.mod_lt _ (by norm_num)
      have hL : uadd (gridNumVertices X Y Z) 1 < M32 := Nat.mod_lt _ (by norm_num)
      unfold Mem.wr
      refine Wp_wr.bind fun xa hxa => ?_
      obtain ⟨h0, rfl⟩ := hxa
      rw [show (Mem.alloc (uadd (gridNumVertices X Y Z) 1)).length = uadd (gridNumVertices X Y Z) 1 by simp [Mem.alloc]] at h0
      refine (gridLoops_sizes (m := gridNumEdges X Y Z) (L := uadd (gridNumVertices X Y Z) 1) hX hY hX' hY' hZ' hm hL
        ⟨rfl, Nat.zero_le _, by simp [Mem.alloc], rfl, by omega, by simp [Mem.alloc]⟩).bind fun s hs' => ?_
      obtain ⟨h1, h2, h3, -, -⟩ := hs'
      exfalso
      apply hc
      have hN : Z * Y * X + 1 < M32 := by omega
      rw [sum_nexts hX hY hZ, gridNumEdges_eq hX hY hZ hX' hY' hZ'] at h2
      have hE : gridEdgeCount X Y Z < M32 := by
        have := Nat.mod_lt (gridEdgeCount X Y Z) (show 0 < M32 by norm_num)
        omega
      refine ⟨?_, by simpa using hE⟩
      by_contra h3N
      rw [hcomm] at h3N hs
      have hge := gridEdgeCount_ge hX hY hZ
      have hfw := fun i => forward_edge (Z := Z) hX hY (i := i)
      generalize Z * Y * X = N at *
      have hb : N ≤ 2147483648 := by omega
      have hlen : src.length = 3 * N - 4294967296 := by omega
      obtain ⟨v, hvi, a, ha, hlo, hhi⟩ := hfw 800000000 (by omega)
      have := h3 v (by omega) a ha
      rw [Nat.mod_eq_of_lt (by omega)] at this
      omega
    rcases key.ub_or with h | ⟨_, _, h⟩
    · exact h
    · exact h.elim

/-- The hypotheses are met in both cases: a grid of 512 million points is built, one of 900 by 900 by 900 is not, nor is a
line of 1.5 thousand million points, whose edges still fit. -/
example : 3 * (800 * 800 * 800) < 2 ^ 32 ∧ gridEdgeCount 800 800 800 < 2 ^ 32 ∧ 3 * (900 * 900 * 900) < 2 ^ 32 ∧
    ¬ gridEdgeCount 900 900 900 < 2 ^ 32 ∧ gridEdgeCount 1500000000 1 1 < 2 ^ 32 ∧ ¬ 3 * (1500000000 * 1 * 1) < 2 ^ 32 := by
  decide

end Poros
