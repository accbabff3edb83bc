import Verif.Model.DebugMore
import Verif.Proofs.DebugBis
import Verif.Props.P91_GridSize
/-
The assertions of random bisection and of the grid generator.
-/
namespace Poros
open Finset Res

variable {E : Env}

/-! ### random bisection -/

theorem Weighed.moveD' {g : Graph} {p : Partitioning} (h : Weighed g 2 p) {v q : Nat} (hv : v < g.nv) (hl : p.lab v ≠ q) :
    p.moveD g v q = p.move g v q := by
  have : rd p.asg v = ok (p.lab v) := rd_of_lt (by rw [h.asg_len]; exact hv)
  have h2 := h.complete v hv
  exact moveD_eq this (by omega) hl

theorem fillLeftD_close {H : Prop} {g : Graph} (hg : g.Good) {t : Target E.fp} (ht : t.Two) (hf : H → PosFrac t 2) :
    ∀ (order : List Nat) (p : Partitioning), (∀ v ∈ order, v < g.nv ∧ p.lab v = 1) → order.Nodup → LeftOK g t p →
    Close H (fillLeftD g (!g.unitVtx) t order p) (fillLeft g (!g.unitVtx) t order p) := by
  intro order
  have hsv := hg.small.vtx
  induction order with
  | nil => intro p _ _ h; exact Close.refl _
  | cons v vs ih =>
    intro p ho hnd h
    obtain ⟨hv, hl⟩ := ho v (by simp)
    unfold fillLeft fillLeftD
    have hroom := partWeight_room (g := g) p.lab (q := 0) hv (by omega)
    have hw0 := h.1.rd_pw (q := 0) (by omega)
    rw [hw0, ok_bind, ok_bind, Graph.vwgtOf_eq hg.wf hv, ok_bind, ok_bind, rd_of_lt (by rw [ht.mx]; omega), ok_bind,
      ok_bind, uadd_eq (by omega)]
    split
    · exact Close.refl _
    · rename_i hle
      refine (imbD_close ht hf h.1.pw_len).bind fun bal _ => ?_
      rw [h.1.moveD' hv (by omega)]
      obtain ⟨p', hp', hp1, hp2, -⟩ := sat_iff.mp (h.1.move hg.wf hg.small (by omega) hv (q := 0) (by omega) (by omega))
      rw [hp', ok_bind, ok_bind]
      have hpw := partWeight_relabel (q := 0) p.lab hv 0
      rw [if_neg (by omega), if_pos rfl, ← hp2] at hpw
      refine (imbD_close ht hf hp1.pw_len).bind fun after _ => ?_
      split
      · have hl0 : p'.lab v = 0 := by rw [hp2]; simp [relabel]
        rw [hp1.moveD' hv (by omega)]
        exact Close.refl _
      · refine ih p' (fun u hu => ?_) hnd.of_cons ⟨hp1, by omega⟩
        obtain ⟨h1, h2⟩ := ho u (by simp [hu])
        refine ⟨h1, ?_⟩
        have : u ≠ v := fun e => (List.nodup_cons.mp hnd).1 (e ▸ hu)
        rw [hp2]; unfold relabel; rw [if_neg this]; exact h2

theorem weightPairs_count {g : Graph} (hg : g.WF) {p : Partitioning} (hp : p.asg.length = g.nv) :
    Sat (weightPairs g (!g.unitVtx) p) (fun s => s.1.length + s.2.length = g.nv) := by
  unfold weightPairs
  refine Post_foldlM_range (fun m (s : List (Nat × Nat) × List (Nat × Nat)) => s.1.length + s.2.length = m) rfl ?_
  intro v s hv h
  rw [Graph.vwgtOf_eq hg hv, ok_bind, rd_of_lt (by omega), ok_bind]
  split
  · show (s.1 ++ [_]).length + s.2.length = v + 1
    rw [List.length_append, List.length_singleton]; omega
  · show s.1.length + (_ :: s.2).length = v + 1
    rw [List.length_cons]; omega

theorem weightPairsD_eq {g : Graph} (hg : g.WF) (hn : g.nv < M32) (h0 : 0 < g.nv) {p : Partitioning}
    (hp : p.asg.length = g.nv) : weightPairsD g (!g.unitVtx) p = weightPairs g (!g.unitVtx) p := by
  obtain ⟨s, h1, h2⟩ := sat_iff.mp (weightPairs_count hg hp)
  unfold weightPairsD
  rw [h1, ok_bind]
  simp only
  rw [check_bind]
  rw [usub_eq h0 hn]
  omega

theorem swapBalanceRightD_eq {g : Graph} (hg : g.Good) {t : Target E.fp} {p : Partitioning} (h : LeftOK g t p)
    (hR : nth t.mx 1 < partWeight g p.lab 1) :
    swapBalanceRightD E g (nth t.mx 0) (nth t.mx 1) p = swapBalanceRight E g (nth t.mx 0) (nth t.mx 1) p := by
  have h0 : 0 < g.nv := by
    by_contra h0
    have h0 : g.nv = 0 := by omega
    unfold partWeight at hR
    rw [h0] at hR
    simp at hR
  have hnv : g.nv < M32 := by have := hg.wf.nv_lt; omega
  unfold swapBalanceRightD swapBalanceRight
  rw [weightPairsD_eq hg.wf hnv h0 h.1.asg_len]
  obtain ⟨s, hs, s1, s2, s3⟩ := sat_iff.mp (weightPairs_spec hg.wf h.1.asg_len)
  rw [hs, ok_bind, ok_bind]
  simp only
  have hpl : (sortPairs E s.1).Perm s.1 := sortPairs_perm s.1
  have hpr : (sortPairs E s.2).Perm s.2 := sortPairs_perm s.2
  have hne : s.2 ≠ [] := by
    intro he
    have : partWeight g p.lab 1 = 0 := by
      unfold partWeight
      refine Finset.sum_eq_zero fun v hv => ?_
      rw [if_neg]
      intro hl
      have := s3 v (Finset.mem_range.mp hv) (by omega)
      rw [he] at this
      cases this
    omega
  have hlen : 0 < (sortPairs E s.2).length := by
    rw [hpr.length_eq]; exact List.length_pos_iff.mpr hne
  refine bind_congr_ok fun w1 _ => bind_congr_ok fun w0 _ => bind_congr_ok fun last hlast => bind_congr_ok fun mn _ =>
    bind_congr_ok fun mxo _ => ?_
  have hlmem : last ∈ s.2 := by
    unfold lastPair at hlast
    rw [if_neg (by rw [List.length_append]; omega), rd_of_lt (by rw [List.length_append]; omega)] at hlast
    rw [← Res.ok.inj hlast]
    refine hpr.mem_iff.mp ?_
    rw [nth_append_right (by rw [List.length_append]; omega)]
    exact nth_mem (by rw [List.length_append]; omega)
  obtain ⟨l1, l2, l3⟩ := s2 last hlmem
  have hl1 : p.lab last.1 = 1 := by have := h.1.complete last.1 l1; omega
  split
  · rename_i hlt
    have hub := lowerBound_le (sortPairs E s.1) mxo
    have hlol : lowerBound (sortPairs E s.1) mn < (sortPairs E s.1).length := by omega
    rw [h.1.moveD' l1 (by omega)]
    obtain ⟨p', hp', w1', w2, -⟩ := sat_iff.mp (h.1.move hg.wf hg.small (by omega) l1 (q := 0) (by omega) (by omega))
    rw [hp', ok_bind, ok_bind, rd_of_lt (by rw [List.length_append]; omega), ok_bind, ok_bind, nth_append_left hlol]
    obtain ⟨m1, m2, m3⟩ := s1 _ (hpl.mem_iff.mp (nth_mem hlol))
    refine w1'.moveD' m1 ?_
    have hne' : (nth (sortPairs E s.1) (lowerBound (sortPairs E s.1) mn)).1 ≠ last.1 := by intro e; rw [e] at m2; omega
    rw [w2]; unfold relabel; rw [if_neg hne', m2]
    omega
  · rfl

theorem randomBisectD_close {H : Prop} {g : Graph} (hg : g.Good) {t : Target E.fp} (ht : t.Two) (hf : H → PosFrac t 2)
    (r : E.rng.S) : Close H (randomBisectD t g r) (randomBisect t g r) := by
  unfold randomBisectD randomBisect Partitioning.freshD
  rw [check_bind (by omega), ok_bind]
  obtain ⟨p, hp0, hp⟩ := sat_iff.mp (Weighed.assignAll hg.wf hg.small (k := 2) (by omega) (q := 1) (by omega))
  rw [hp0, ok_bind, ok_bind]
  simp only [randomOrder]
  have hperm := E.rng.perm_perm r g.nv
  have ho : ∀ v ∈ (E.rng.perm r g.nv).1, v < g.nv ∧ p.lab v = 1 := fun v hv => by
    have := List.mem_range.mp (hperm.mem_iff.mp hv)
    exact ⟨this, hp.2 v this⟩
  have hnd : (E.rng.perm r g.nv).1.Nodup := hperm.nodup_iff.mpr List.nodup_range
  have hL : LeftOK g t p := ⟨hp.1, by rw [partWeight_all hp.2 (by omega)]; omega⟩
  refine (fillLeftD_close hg ht hf _ p ho hnd hL).bind fun p' hp' => ?_
  have hL' := (fillLeft_spec hg ht _ p ho hnd hL).elim_ok hp'
  refine Close.bind (Or.inl ?_) fun _ _ => Close.refl _
  unfold randBalanceD randBalance
  rw [hL'.1.rd_pw (by omega), ok_bind, rd_of_lt (by rw [ht.mx]; omega), ok_bind, check_bind hL'.2]
  refine bind_congr_ok fun w1 hw1 => bind_congr_ok fun m1 hm1 => ?_
  rw [hL'.1.rd_pw (by omega)] at hw1
  rw [rd_of_lt (by rw [ht.mx]; omega)] at hm1
  split
  · rename_i hgt
    rw [ok_bind, ok_bind]
    rw [← Res.ok.inj hw1, ← Res.ok.inj hm1] at hgt
    rw [← Res.ok.inj hm1]
    exact swapBalanceRightD_eq hg hL' hgt
  · rfl

theorem randomFMBisectD_close {H : Prop} {g : Graph} (hg : g.Good) {t : Target E.fp} (ht : t.Two) (hm0 : nth t.mx 0 < M32)
    (hf : H → FMAssert g t) (maxIters : Nat) (r : E.rng.S) :
    Close H (randomFMBisectD maxIters t g r) (randomFMBisect maxIters t g r) := by
  unfold randomFMBisectD randomFMBisect
  refine (randomBisectD_close hg ht (fun h => (hf h).frac) r).bind fun o ho => ?_
  have hx := ((randomBisect_spec (B := True) hg ht hm0 (fun _ => trivial) r).elim_ok ho).1
  obtain ⟨p, r'⟩ := o
  refine Close.bind_ok fun c hc => ?_
  have hc' := (fromPartitioning_spec E.set hg.wf hg.small hx.asg_len).elim_ok hc
  exact (fmRefineD_close hg ht hf maxIters 1000 hx hc'.1).bind fun _ _ => Close.refl _

/-! ### grids -/

theorem gridIf_congr {c : Prop} [Decidable c] {f f' : GridState → Res GridState} (h : c → ∀ s, f s = f' s) (s : GridState) :
    gridIf c f s = gridIf c f' s := by
  unfold gridIf
  split
  · exact h ‹_› s
  · rfl

theorem gridGetD_eq {X Y Z x y z : Nat} (hx : x < X) (hy : y < Y) (hz : z < Z) : gridGetD X Y Z x y z = ok (gridGet X Y x y z) := by
  unfold gridGetD
  rw [check_bind hx, check_bind hy, check_bind hz]

theorem gridVertexD_eq {X Y Z : Nat} (hX' : X < M32) (hY' : Y < M32) (hZ' : Z < M32) (src : List Nat) {x y z : Nat}
    (hx : x < X) (hy : y < Y) (hz : z < Z) (s : GridState) : gridVertexD X Y Z src x y z s = gridVertex X Y Z src x y z s := by
  unfold gridVertexD gridVertex
  rw [gridGetD_eq hx hy hz, ok_bind]
  simp only
  rw [usub_eq (by omega) hX', usub_eq (by omega) hY', usub_eq (by omega) hZ']
  have hb : ∀ x' y' z' d, x' < X → y' < Y → z' < Z → ∀ s, gridBackD X Y Z src x' y' z' d s =
      gridPlace src (gridGet X Y x' y' z') (gridGet X Y x' y' z' * 3 + d) s := by
    intro x' y' z' d h1 h2 h3 s
    unfold gridBackD
    rw [gridGetD_eq h1 h2 h3, ok_bind]
  have hfw : ∀ c x' y' z' d, x' < X → y' < Y → z' < Z → ∀ s, gridForwardD X Y Z src c x' y' z' d s =
      gridPlace src (gridGet X Y x' y' z') (c * 3 + d) s := by
    intro c x' y' z' d h1 h2 h3 s
    unfold gridForwardD
    rw [gridGetD_eq h1 h2 h3, ok_bind]
  refine bind_congr2 (gridIf_congr (fun h s => hb (x - 1) y z 0 (by omega) hy hz s) s) fun s _ => ?_
  refine bind_congr2 (gridIf_congr (fun h s => hfw _ (x + 1) y z 0 (by omega) hy hz s) s) fun s _ => ?_
  refine bind_congr2 (gridIf_congr (fun h s => hb x (y - 1) z 1 hx (by omega) hz s) s) fun s _ => ?_
  refine bind_congr2 (gridIf_congr (fun h s => hfw _ x (y + 1) z 1 hx (by omega) hz s) s) fun s _ => ?_
  refine bind_congr2 (gridIf_congr (fun h s => hb x y (z - 1) 2 hx hy (by omega) s) s) fun s _ => ?_
  refine bind_congr2 (gridIf_congr (fun h s => hfw _ x y (z + 1) 2 hx hy (by omega) s) s) fun s _ => ?_
  rfl

theorem gridLoopsD_eq {X Y Z : Nat} (hX' : X < M32) (hY' : Y < M32) (hZ' : Z < M32) (src : List Nat) (s : GridState) :
    gridLoopsD X Y Z src s = gridLoops X Y Z src s :=
  foldlM_congr' fun _ _ hz => foldlM_congr' fun _ _ hy => foldlM_congr' fun _ _ hx =>
    gridVertexD_eq hX' hY' hZ' src (List.mem_range.mp hx) (List.mem_range.mp hy) (List.mem_range.mp hz) _

theorem gridGenerateD_eq {X Y Z : Nat} (hX : 0 < X) (hY : 0 < Y) (hZ : 0 < Z) (hX' : X < M32) (hY' : Y < M32) (hZ' : Z < M32)
    (src vws : List Nat) : gridGenerateD X Y Z src vws = gridGenerate X Y Z src vws := by
  unfold gridGenerateD gridGenerate
  rw [check_bind hX, check_bind hY, check_bind hZ]
  simp only
  have hm : gridNumEdges X Y Z < M32 := Nat.mod_lt _ (by norm_num)
  have hL : uadd (gridNumVertices X Y Z) 1 < M32 := Nat.mod_lt _ (by norm_num)
  refine bind_congr_ok fun xa hxa => ?_
  have hlen : xa.length = uadd (gridNumVertices X Y Z) 1 := by
    have := wr_length hxa
    simpa [Mem.alloc] using this
  have h0 : 0 < uadd (gridNumVertices X Y Z) 1 := by
    by_contra h
    have h : uadd (gridNumVertices X Y Z) 1 = 0 := by omega
    rw [h] at hxa
    cases hxa
  rw [gridLoopsD_eq hX' hY' hZ']
  refine bind_congr_ok fun s hs => ?_
  obtain ⟨h1, h2, -, h4, h5⟩ := (gridLoops_sizes (m := gridNumEdges X Y Z) (L := uadd (gridNumVertices X Y Z) 1) hX hY hX' hY' hZ'
    hm hL ⟨rfl, Nat.zero_le _, by simp [Mem.alloc], rfl, by omega, hlen⟩).elim_ok hs
  have hv : s.vertex = gridNumVertices X Y Z := by
    rw [h4]
    unfold gridNumVertices at *
    rw [show X * Y * Z = Z * Y * X by ring] at *
    have := Nat.mod_lt (Z * Y * X) (show 0 < M32 by norm_num)
    have h6 : uadd (Z * Y * X % M32) 1 ≤ Z * Y * X % M32 + 1 := Nat.mod_le _ _
    have := Nat.mod_le (Z * Y * X) M32
    omega
  have he : s.edge = gridNumEdges X Y Z := by
    rw [h5]
    rw [sum_nexts hX hY hZ, gridNumEdges_eq hX hY hZ hX' hY' hZ'] at *
    have := Nat.mod_le (gridEdgeCount X Y Z) M32
    omega
  rw [check_bind hv, check_bind he]

theorem foldlM_ok_id {α σ : Type} {f : σ → α → Res σ} (h : ∀ s x, f s x = ok s) (l : List α) (s : σ) : l.foldlM f s = ok s := by
  induction l with
  | nil => rfl
  | cons x l ih => rw [List.foldlM_cons, h, ok_bind, ih]

/-- A dimension of 0: the loops do nothing. -/
theorem gridLoops_zero {X Y Z : Nat} (h : X * Y * Z = 0) (src : List Nat) (s : GridState) : gridLoops X Y Z src s = ok s := by
  unfold gridLoops
  rcases Nat.mul_eq_zero.mp h with h | rfl
  · rcases Nat.mul_eq_zero.mp h with rfl | rfl
    · exact foldlM_ok_id (fun s _ => foldlM_ok_id (fun _ _ => rfl) _ s) _ s
    · exact foldlM_ok_id (fun s _ => rfl) _ s
  · rfl

end Poros
