import Verif.Proofs.Grid
/-
The grid generator: loops and result.
-/
namespace Poros
open Finset Res

attribute [-simp] List.length_flatten List.map_flatten

variable {X Y Z : Nat} {src : List Nat}

/-- The index of the random weight of the edge between two points. -/
def srcIdx (X Y : Nat) (p : Pt) (a : Pt × Nat) : Nat := 3 * min (p.id X Y) (a.1.id X Y) + a.2

/-- The adjacency list of a point. -/
def blk (X Y Z : Nat) (src : List Nat) (p : Pt) : List (Nat × Nat) :=
  (nexts X Y Z p).map fun a => (a.1.id X Y, nth src (srcIdx X Y p a))

/-- Placing one neighbour. -/
def placeOf (X Y : Nat) (src : List Nat) (p : Pt) (s : GridState) (a : Pt × Nat) : Res GridState :=
  gridPlace src (a.1.id X Y) (srcIdx X Y p a) s

theorem gridGet_eq (hN : Z * Y * X < M32) {p : Pt} (hp : p.In X Y Z) : gridGet X Y p.x p.y p.z = p.id X Y := by
  have := Pt.id_lt hp
  unfold gridGet Pt.id at *
  exact Nat.mod_eq_of_lt (by omega)

theorem gridIf_eq {c c' : Prop} [Decidable c] [Decidable c'] {p : Pt} {a : Pt × Nat} {d i : Nat} (hc : c ↔ c')
    (h : c → d = a.1.id X Y ∧ i = srcIdx X Y p a) (s : GridState) :
    gridIf c (gridPlace src d i) s = (if c' then [a] else []).foldlM (placeOf X Y src p) s := by
  unfold gridIf
  by_cases hcc : c
  · rw [if_pos hcc, if_pos (hc.mp hcc), (h hcc).1, (h hcc).2, List.foldlM_cons]
    show _ = (gridPlace src _ _ s >>= fun t => ok t)
    cases gridPlace src (a.1.id X Y) (srcIdx X Y p a) s <;> rfl
  · rw [if_neg hcc, if_neg (fun h => hcc (hc.mpr h))]
    rfl

theorem gridVertex_eq (hN : Z * Y * X < M32) (hX : X < M32) (hY : Y < M32) (hZ : Z < M32) {p : Pt} (hp : p.In X Y Z)
    (s : GridState) : gridVertex X Y Z src p.x p.y p.z s = (do
      let s ← (nexts X Y Z p).foldlM (placeOf X Y src p) s
      let xa ← Mem.wr s.xadj (uadd s.vertex 1) s.edge
      .ok { s with xadj := xa, vertex := uadd s.vertex 1 }) := by
  obtain ⟨hx, hy, hz⟩ := hp
  have hp : p.In X Y Z := ⟨hx, hy, hz⟩
  have u : ∀ {a A : Nat}, a < A → A < M32 → usub A 1 = A - 1 := fun h h' => usub_eq (by omega) h'
  have get : ∀ {x y z : Nat}, x < X → y < Y → z < Z → gridGet X Y x y z = Pt.id X Y ⟨x, y, z⟩ := fun h1 h2 h3 =>
    gridGet_eq hN (p := ⟨_, _, _⟩) ⟨h1, h2, h3⟩
  have hself : gridGet X Y p.x p.y p.z = p.id X Y := gridGet_eq hN hp
  have lt1 : 0 < p.x → Pt.id X Y ⟨p.x - 1, p.y, p.z⟩ < p.id X Y := fun h => by unfold Pt.id; simp only; omega
  have lt1' : p.id X Y < Pt.id X Y ⟨p.x + 1, p.y, p.z⟩ := by unfold Pt.id; simp only; omega
  have step : ∀ {a b x : Nat}, a < b → a * X + x < b * X + x := fun h =>
    Nat.add_lt_add_right (Nat.mul_lt_mul_of_pos_right h (by omega)) _
  have lt2 : 0 < p.y → Pt.id X Y ⟨p.x, p.y - 1, p.z⟩ < p.id X Y := fun h => step (by show p.z * Y + (p.y - 1) < _; omega)
  have lt2' : p.id X Y < Pt.id X Y ⟨p.x, p.y + 1, p.z⟩ := step (by show _ < p.z * Y + (p.y + 1); omega)
  have lt3 : 0 < p.z → Pt.id X Y ⟨p.x, p.y, p.z - 1⟩ < p.id X Y := fun h =>
    step (Nat.add_lt_add_right (Nat.mul_lt_mul_of_pos_right (show p.z - 1 < p.z by omega) (by omega)) _)
  have lt3' : p.id X Y < Pt.id X Y ⟨p.x, p.y, p.z + 1⟩ :=
    step (Nat.add_lt_add_right (Nat.mul_lt_mul_of_pos_right (show p.z < p.z + 1 by omega) (by omega)) _)
  unfold gridVertex nexts
  simp only [List.foldlM_append, hself, u hx hX, u hy hY, u hz hZ]
  have f1 := fun s => gridIf_eq (X := X) (Y := Y) (src := src) (p := p) (a := (⟨p.x - 1, p.y, p.z⟩, 0)) (c := p.x > 0) (c' := 0 < p.x)
    (d := gridGet X Y (p.x - 1) p.y p.z) (i := gridGet X Y (p.x - 1) p.y p.z * 3) Iff.rfl (fun h => by
      rw [get (by omega) hy hz]
      refine ⟨rfl, ?_⟩
      have := lt1 h
      simp only [srcIdx]; omega) s
  have f2 := fun s => gridIf_eq (X := X) (Y := Y) (src := src) (p := p) (a := (⟨p.x + 1, p.y, p.z⟩, 0)) (c := p.x < X - 1)
    (c' := p.x + 1 < X) (d := gridGet X Y (p.x + 1) p.y p.z) (i := p.id X Y * 3) (by omega) (fun h => by
      rw [get (by omega) hy hz]
      refine ⟨rfl, ?_⟩
      simp only [srcIdx]; omega) s
  have f3 := fun s => gridIf_eq (X := X) (Y := Y) (src := src) (p := p) (a := (⟨p.x, p.y - 1, p.z⟩, 1)) (c := p.y > 0) (c' := 0 < p.y)
    (d := gridGet X Y p.x (p.y - 1) p.z) (i := gridGet X Y p.x (p.y - 1) p.z * 3 + 1) Iff.rfl (fun h => by
      rw [get hx (by omega) hz]
      refine ⟨rfl, ?_⟩
      have := lt2 h
      simp only [srcIdx]; omega) s
  have f4 := fun s => gridIf_eq (X := X) (Y := Y) (src := src) (p := p) (a := (⟨p.x, p.y + 1, p.z⟩, 1)) (c := p.y < Y - 1)
    (c' := p.y + 1 < Y) (d := gridGet X Y p.x (p.y + 1) p.z) (i := p.id X Y * 3 + 1) (by omega) (fun h => by
      rw [get hx (by omega) hz]
      refine ⟨rfl, ?_⟩
      simp only [srcIdx]; omega) s
  have f5 := fun s => gridIf_eq (X := X) (Y := Y) (src := src) (p := p) (a := (⟨p.x, p.y, p.z - 1⟩, 2)) (c := p.z > 0) (c' := 0 < p.z)
    (d := gridGet X Y p.x p.y (p.z - 1)) (i := gridGet X Y p.x p.y (p.z - 1) * 3 + 2) Iff.rfl (fun h => by
      rw [get hx hy (by omega)]
      refine ⟨rfl, ?_⟩
      have := lt3 h
      simp only [srcIdx]; omega) s
  have f6 := fun s => gridIf_eq (X := X) (Y := Y) (src := src) (p := p) (a := (⟨p.x, p.y, p.z + 1⟩, 2)) (c := p.z < Z - 1)
    (c' := p.z + 1 < Z) (d := gridGet X Y p.x p.y (p.z + 1)) (i := p.id X Y * 3 + 2) (by omega) (fun h => by
      rw [get hx hy (by omega)]
      refine ⟨rfl, ?_⟩
      simp only [srcIdx]; omega) s
  simp only [f1, f2, f3, f4, f5, f6, bind_assoc]

/-- Progress of the generator: the edges `F` have been written. -/
structure GInv (m : Nat) (F : List (Nat × Nat)) (n : Nat) (xa : Mem) (s : GridState) : Prop where
  edge : s.edge = F.length
  vertex : s.vertex = n
  xadj : s.xadj = xa
  elist : s.elist = F.map (fun q => some q.1) ++ List.replicate (m - F.length) none
  ewgt : s.ewgt = F.map (fun q => some q.2) ++ List.replicate (m - F.length) none

theorem GInv.place {m n : Nat} {F : List (Nat × Nat)} {xa : Mem} {s : GridState} (h : GInv m F n xa s) (hF : F.length < m)
    (hm : m < M32) {d i : Nat} (hi : i < src.length) (hi' : i < M32) :
    Sat (gridPlace src d i s) (GInv m (F ++ [(d, nth src i)]) n xa) := by
  have hrep : ∀ (f : Nat × Nat → Option Nat) (x : Option Nat), (F.map f ++ List.replicate (m - F.length) none).set F.length x =
      F.map f ++ [x] ++ List.replicate (m - (F.length + 1)) none := by
    intro f x
    rw [show m - F.length = (m - (F.length + 1)) + 1 by omega, List.replicate_succ, set_append_cons _ _ _ _ _ (by simp)]
    simp
  unfold gridPlace Mem.wr
  rw [h.elist, h.ewgt, h.edge, wr_of_lt (by simp; omega), ok_bind, Nat.mod_eq_of_lt hi', rd_of_lt hi, ok_bind,
    wr_of_lt (by simp; omega), ok_bind, hrep, hrep]
  exact ⟨by show uadd _ _ = _; rw [uadd_eq (by omega)]; simp, h.vertex, h.xadj, by simp, by simp⟩

theorem GInv.places {m n : Nat} {xa : Mem} {p : Pt} (hm : m < M32) : ∀ (L : List (Pt × Nat)) {F : List (Nat × Nat)} {s : GridState},
    GInv m F n xa s → F.length + L.length ≤ m → (∀ a ∈ L, srcIdx X Y p a < src.length ∧ srcIdx X Y p a < M32) →
    Sat (L.foldlM (placeOf X Y src p) s) (GInv m (F ++ L.map fun a => (a.1.id X Y, nth src (srcIdx X Y p a))) n xa) := by
  intro L
  induction L with
  | nil => intro F s h _ _; simpa using h
  | cons a L ih =>
    intro F s h hl hs
    rw [List.length_cons] at hl
    rw [List.foldlM_cons]
    obtain ⟨h1, h2⟩ := hs a (by simp)
    refine (h.place (by omega) hm h1 h2).bind fun s' hs' => ?_
    have := ih hs' (by simp; omega) (fun b hb => hs b (by simp [hb]))
    rwa [List.append_assoc] at this

/-- The adjacency lists of all points. -/
def gridBlocks (X Y Z : Nat) (src : List Nat) (n : Nat) : List (List (Nat × Nat)) :=
  (List.range n).map fun v => blk X Y Z src (Pt.ofId X Y v)

theorem gridBlocks_length (n : Nat) : (gridBlocks X Y Z src n).length = n := by simp [gridBlocks]

theorem gridBlocks_succ (n : Nat) : gridBlocks X Y Z src (n + 1) =
    gridBlocks X Y Z src n ++ [blk X Y Z src (Pt.ofId X Y n)] := by
  simp [gridBlocks, List.range_succ]

theorem gridBlocks_flat (n : Nat) : (gridBlocks X Y Z src n).flatten.length =
    ∑ v ∈ range n, (nexts X Y Z (Pt.ofId X Y v)).length := by
  induction n with
  | zero => rfl
  | succ n ih =>
    rw [gridBlocks_succ, List.flatten_append, List.length_append, ih, sum_range_succ]
    simp [blk]

theorem nth_gridBlocks {n v : Nat} (hv : v < n) : nth (gridBlocks X Y Z src n) v = blk X Y Z src (Pt.ofId X Y v) := by
  unfold gridBlocks
  rw [nth_map (by simpa using hv), nth_range hv]

theorem take_gridBlocks {n i : Nat} (hi : i ≤ n) : (gridBlocks X Y Z src n).take i = gridBlocks X Y Z src i := by
  unfold gridBlocks
  rw [← List.map_take, List.take_range, Nat.min_eq_left hi]

/-- The prefix array after `n` vertices. -/
def gridPrefix (X Y Z : Nat) (src : List Nat) (N n : Nat) : Mem :=
  (List.range (n + 1)).map (fun i => some (gridBlocks X Y Z src i).flatten.length) ++ List.replicate (N - n) none

theorem gridLoops_spec (hX : 0 < X) (hY : 0 < Y) (hZ : 0 < Z) (hN : 3 * (Z * Y * X) < M32)
    (hE : gridEdgeCount X Y Z < M32) (hs : src.length = 3 * (Z * Y * X)) {s : GridState}
    (h : GInv (gridEdgeCount X Y Z) [] 0 (gridPrefix X Y Z src (Z * Y * X) 0) s) :
    Sat (gridLoops X Y Z src s) (GInv (gridEdgeCount X Y Z) (gridBlocks X Y Z src (Z * Y * X)).flatten (Z * Y * X)
      (gridPrefix X Y Z src (Z * Y * X) (Z * Y * X))) := by
  have hXN : X ≤ Z * Y * X := Nat.le_mul_of_pos_left _ (Nat.mul_pos hZ hY)
  have hYN : Y ≤ Z * Y * X := by
    calc Y ≤ Z * Y := Nat.le_mul_of_pos_left _ hZ
      _ ≤ Z * Y * X := Nat.le_mul_of_pos_right _ hX
  have hZN : Z ≤ Z * Y * X := by
    calc Z ≤ Z * Y := Nat.le_mul_of_pos_right _ hY
      _ ≤ Z * Y * X := Nat.le_mul_of_pos_right _ hX
  have hsum := sum_nexts hX hY hZ
  generalize hNN : Z * Y * X = N at *
  rw [gridLoops_eq, hNN]
  refine Post_foldlM_range (P := fun n s => GInv (gridEdgeCount X Y Z) (gridBlocks X Y Z src n).flatten n
    (gridPrefix X Y Z src N n) s) (by simpa [gridBlocks] using h) fun v s hv hI => ?_
  have hin : (Pt.ofId X Y v).In X Y Z := Pt.ofId_in hX hY (by rw [hNN]; exact hv)
  rw [gridVertex_eq (by omega) (by omega) (by omega) (by omega) hin]
  have hlen : (gridBlocks X Y Z src v).flatten.length + (nexts X Y Z (Pt.ofId X Y v)).length ≤ gridEdgeCount X Y Z := by
    rw [gridBlocks_flat, ← hsum, ← sum_range_succ]
    exact sum_le_sum_of_subset (range_subset_range.mpr (by omega))
  refine (GInv.places (X := X) (Y := Y) (src := src) (p := Pt.ofId X Y v) hE (nexts X Y Z (Pt.ofId X Y v)) hI hlen
    (fun a ha => ?_)).bind fun t ht => ?_
  · obtain ⟨q, d⟩ := a
    have hq := (mem_nexts hin).mp ha
    have hd : d ≤ 2 := by
      rcases hq.2 with h | h | h <;> omega
    have hm : (Pt.ofId X Y v).id X Y = v := Pt.id_ofId _ _ _
    have : srcIdx X Y (Pt.ofId X Y v) (q, d) < 3 * N := by
      unfold srcIdx
      rw [hm]
      show 3 * min v (q.id X Y) + d < 3 * N
      omega
    omega
  · have hxl : (gridPrefix X Y Z src N v).length = N + 1 := by simp [gridPrefix]; omega
    rw [ht.xadj, ht.vertex, uadd_eq (by omega)]
    unfold Mem.wr
    rw [wr_of_lt (by omega), ok_bind]
    have hb : (gridBlocks X Y Z src v).flatten ++ List.map (fun a => (a.1.id X Y, nth src (srcIdx X Y (Pt.ofId X Y v) a)))
        (nexts X Y Z (Pt.ofId X Y v)) = (gridBlocks X Y Z src (v + 1)).flatten := by
      rw [gridBlocks_succ, List.flatten_append]
      simp [blk]
    rw [hb] at ht
    refine ⟨ht.edge, rfl, ?_, ht.elist, ht.ewgt⟩
    show (gridPrefix X Y Z src N v).set (v + 1) _ = _
    unfold gridPrefix
    rw [show N - v = N - (v + 1) + 1 by omega, List.replicate_succ, set_append_cons _ _ _ _ _ (by simp), ht.edge,
      List.range_succ (n := v + 1), List.map_append]
    simp

theorem freeze_some {α : Type} (l : List α) (f : α → Nat) : Mem.freeze (l.map fun a => some (f a)) = ok (l.map f) := by
  unfold Mem.freeze
  rw [mapM_ok_eq_map (g := fun c => c.getD 0)]
  · rw [List.map_map]; rfl
  · intro c hc
    obtain ⟨a, -, rfl⟩ := List.mem_map.mp hc
    rfl

/-- The generated graph stores the adjacency lists of the points. -/
theorem gridGenerate_spec (hX : 0 < X) (hY : 0 < Y) (hZ : 0 < Z) (hN : 3 * (Z * Y * X) < M32)
    (hE : gridEdgeCount X Y Z < NULL32) {vws : List Nat} (hs : src.length = 3 * (Z * Y * X)) (hv : vws.length = Z * Y * X) :
    ∃ g, gridGenerate X Y Z src vws = ok g ∧ Stores g (gridBlocks X Y Z src (Z * Y * X)) ∧ g.WF ∧
      (∀ v, v < Z * Y * X → g.vw v = nth vws v) := by
  have hXN : X ≤ Z * Y * X := Nat.le_mul_of_pos_left _ (Nat.mul_pos hZ hY)
  have hYN : Y ≤ Z * Y * X := by
    calc Y ≤ Z * Y := Nat.le_mul_of_pos_left _ hZ
      _ ≤ Z * Y * X := Nat.le_mul_of_pos_right _ hX
  have hZN : Z ≤ Z * Y * X := by
    calc Z ≤ Z * Y := Nat.le_mul_of_pos_right _ hY
      _ ≤ Z * Y * X := Nat.le_mul_of_pos_right _ hX
  have hn : gridNumVertices X Y Z = Z * Y * X := by
    unfold gridNumVertices
    rw [show X * Y * Z = Z * Y * X by ring]
    exact Nat.mod_eq_of_lt (by omega)
  have hm : gridNumEdges X Y Z = gridEdgeCount X Y Z := by
    unfold gridNumEdges
    rw [usub_eq hX (by omega), usub_eq hY (by omega), usub_eq hZ (by omega)]
    rw [show ((X - 1) * (Y * Z) + (Y - 1) * (X * Z) + (Z - 1) * (X * Y)) * 2 = gridEdgeCount X Y Z by
      unfold gridEdgeCount; ring]
    exact Nat.mod_eq_of_lt (by omega)
  have htot : (gridBlocks X Y Z src (Z * Y * X)).flatten.length = gridEdgeCount X Y Z := by
    rw [gridBlocks_flat, sum_nexts hX hY hZ]
  unfold gridGenerate
  simp only [hn, hm]
  rw [uadd_eq (by omega)]
  unfold Mem.wr Mem.alloc
  rw [wr_of_lt (by simp), ok_bind]
  have h0 : GInv (gridEdgeCount X Y Z) [] 0 (gridPrefix X Y Z src (Z * Y * X) 0)
      { edge := 0, vertex := 0, xadj := (List.replicate (Z * Y * X + 1) none).set 0 (some 0),
        elist := List.replicate (gridEdgeCount X Y Z) none, ewgt := List.replicate (gridEdgeCount X Y Z) none } :=
    ⟨rfl, rfl, by simp [gridPrefix, List.replicate_succ, gridBlocks], by simp, by simp⟩
  obtain ⟨s, e, hs'⟩ := sat_iff.mp (gridLoops_spec hX hY hZ hN (by omega) hs h0)
  rw [e, ok_bind, hs'.xadj, hs'.elist, hs'.ewgt]
  have hb := gridBlocks_length (X := X) (Y := Y) (Z := Z) (src := src) (Z * Y * X)
  generalize hB : gridBlocks X Y Z src (Z * Y * X) = B at *
  have hpre : gridPrefix X Y Z src (Z * Y * X) (Z * Y * X) =
      (List.range (Z * Y * X + 1)).map fun i => some (gridBlocks X Y Z src i).flatten.length := by
    unfold gridPrefix; simp
  rw [hpre, freeze_some, ok_bind, htot]
  simp only [Nat.sub_self, List.replicate_zero, List.append_nil]
  rw [freeze_some, freeze_some, ok_bind, ok_bind]
  unfold Graph.make
  have hnvU : usub ((List.range (Z * Y * X + 1)).map fun i => (gridBlocks X Y Z src i).flatten.length).length 1 = Z * Y * X := by
    rw [List.length_map, List.length_range]; unfold usub; omega
  simp only [hnvU]
  rw [sumWeights_eq hv, ok_bind, sumWeights_eq (n := (B.flatten.map fun q => q.1).length) (by simp), ok_bind]
  have hel : (B.flatten.map fun q => q.1).length = B.flatten.length := by simp
  have hvw : ∀ v, v < Z * Y * X → (if decide (∀ i, i < Z * Y * X → nth vws i = 1) then 1 else nth vws v) = nth vws v := by
    intro v hv'
    split
    · rename_i h; exact ((of_decide_eq_true h) v hv').symm
    · rfl
  have hSt : Stores (Graph.mk
      (decide (∀ i, i < (B.flatten.map fun q => q.1).length → nth (B.flatten.map fun q => q.2) i = 1))
      (decide (∀ i, i < Z * Y * X → nth vws i = 1)) (Z * Y * X) (B.flatten.map fun q => q.1).length
      ((∑ i ∈ range (Z * Y * X), nth vws i) % M32)
      ((∑ i ∈ range (B.flatten.map fun q => q.1).length, nth (B.flatten.map fun q => q.2) i) % M32)
      ((List.range (Z * Y * X + 1)).map fun i => (gridBlocks X Y Z src i).flatten.length)
      (B.flatten.map fun q => q.1) vws (B.flatten.map fun q => q.2)) B := by
    refine ⟨hb.symm, hel, by simp, fun i hi => ?_, rfl, fun e he => ?_⟩
    · rw [hb] at hi
      rw [nth_map (by simp; omega), nth_range (by omega), ← hB, take_gridBlocks hi]
    · unfold Graph.ew
      simp only
      split
      · rename_i h
        rw [← (of_decide_eq_true h) e (by rw [hel]; exact he), nth_map he]
      · rw [nth_map he]
  refine ⟨_, rfl, hSt, ?_, fun v hv' => hvw v hv'⟩
  refine hSt.wf (by omega) (by omega) (fun b hb' q hq => ?_) (fun _ => hv) (fun hu v hv' => ?_) (fun _ => ?_)
    (fun hu e' he => ?_) ?_ ?_
  · rw [hb]
    rw [← hB] at hb'
    obtain ⟨v, hv', rfl⟩ := List.mem_map.mp hb'
    obtain ⟨a, ha, rfl⟩ := List.mem_map.mp hq
    obtain ⟨q, d⟩ := a
    exact Pt.id_lt ((mem_nexts (Pt.ofId_in hX hY (List.mem_range.mp hv'))).mp ha).1
  · exact (of_decide_eq_true hu) v (by rw [← hv]; exact hv')
  · simp
  · exact (of_decide_eq_true hu) e' (by simpa using he)
  · show _ % M32 = (∑ v ∈ range (Z * Y * X), _) % M32
    refine congrArg (· % M32) (sum_congr rfl fun v hv' => (hvw v (mem_range.mp hv')).symm)
  · show _ % M32 = _
    refine congrArg (· % M32) ?_
    unfold wAll
    rw [sum_eq_sum_nth, List.length_map, List.length_map]

end Poros
