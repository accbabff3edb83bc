import Verif.Model.Projection
import Verif.Proofs.Contraction
import Verif.Proofs.Connectivity
import Verif.Proofs.Partitioning
import Verif.Proofs.Aggregators
namespace Poros
open Finset Res

variable {P : SetImpl}

theorem wadd_mod (a b : Nat) : uadd (a % M32) b = (a + b) % M32 := by unfold uadd; omega

/-- Coarse external weight bounds the external weight of every vertex of the group. -/
theorem external_le_coarse {g : Graph} {a : Aggregation} {cg : Graph} (h : Contracted g a cg)
    (ha : AggOK g.nv a) (lab : Nat → Nat) {v : Nat} (hv : v < g.nv) :
    externalWeight g (fun v => lab (nth a.cmap v)) v ≤ externalWeight cg lab (nth a.cmap v) := by
  have hc := ha.lt v hv
  unfold externalWeight
  rw [h.nv]
  have e1 : (∑ u ∈ range g.nv, if lab (nth a.cmap u) ≠ lab (nth a.cmap v) then g.wt v u else 0) =
      ∑ d ∈ range a.nc, ∑ u ∈ range g.nv, if nth a.cmap u = d then
        (if lab d ≠ lab (nth a.cmap v) then g.wt v u else 0) else 0 := by
    rw [sum_coarse g.nv a.nc (nth a.cmap) ha.lt (fun d u => if lab d ≠ lab (nth a.cmap v) then g.wt v u else 0)]
  rw [e1]
  refine sum_le_sum fun d hd => ?_
  have hd := mem_range.mp hd
  by_cases hl : lab d ≠ lab (nth a.cmap v)
  · rw [if_pos hl]
    simp only [if_pos hl]
    have hne : nth a.cmap v ≠ d := fun e => hl (by rw [e])
    rw [h.wt _ _ hc hd hne]
    unfold betweenWeight
    refine le_trans ?_ (single_le_sum (f := fun v' => if nth a.cmap v' = nth a.cmap v then
      (∑ u ∈ range g.nv, if nth a.cmap u = d then g.wt v' u else 0) else 0) (fun _ _ => Nat.zero_le _)
      (mem_range.mpr hv))
    simp
  · rw [if_neg hl]
    simp only [if_neg hl]
    simp

theorem foldl_sum_eq (l : List (Nat × Nat)) (a0 : Nat) :
    l.foldlM (fun (acc : Nat) (q : Nat × Nat) => (.ok (uadd acc q.2) : Res Nat)) (a0 % M32) =
      ok ((a0 + (l.map Prod.snd).sum) % M32) := by
  induction l generalizing a0 with
  | nil => simp
  | cons q l ih =>
    rw [List.foldlM_cons, ok_bind, wadd_mod, ih]
    simp [Nat.add_assoc]

theorem project_inner {g : Graph} (hg : g.WF) {asg : List Nat} (ha : asg.length = g.nv) {v : Nat} (hv : v < g.nv)
    (home : Nat) :
    (g.nbrs v).foldlM (fun (s : Nat × Nat) q => do
      let other ← rd asg q.1
      if other = home then (.ok (uadd s.1 q.2, s.2) : Res (Nat × Nat)) else .ok (s.1, uadd s.2 q.2)) (0, 0) =
      ok (g.wsum v (fun u => nth asg u == home) % M32, g.wsum v (fun u => nth asg u != home) % M32) := by
  unfold Graph.wsum
  have H : ∀ q ∈ g.nbrs v, q.1 < asg.length := fun q hq => by rw [ha]; exact Graph.nbrs_lt hg hv hq
  generalize g.nbrs v = l at H
  suffices ∀ x y : Nat, l.foldlM (fun (s : Nat × Nat) q => do
      let other ← rd asg q.1
      if other = home then (.ok (uadd s.1 q.2, s.2) : Res (Nat × Nat)) else .ok (s.1, uadd s.2 q.2))
      (x % M32, y % M32) =
      ok ((x + (l.map fun q => if nth asg q.1 == home then q.2 else 0).sum) % M32,
        (y + (l.map fun q => if nth asg q.1 != home then q.2 else 0).sum) % M32) by
    have := this 0 0
    simpa using this
  induction l with
  | nil => intro x y; simp
  | cons q l ih =>
    intro x y
    rw [List.foldlM_cons, rd_of_lt (H q (by simp)), ok_bind]
    by_cases hq : nth asg q.1 = home
    · rw [if_pos hq, ok_bind, wadd_mod, ih (fun q hq => H q (by simp [hq]))]
      simp [hq, Nat.add_assoc]
    · rw [if_neg hq, ok_bind, wadd_mod, ih (fun q hq => H q (by simp [hq]))]
      simp [hq, Nat.add_assoc]

/-- Filling in the connectivity, given that vertices whose coarse vertex is not in the border have no
external weight. -/
theorem fillIn_spec {g : Graph} (hg : g.WF) (hm : g.Small) {part : Partitioning} (hp : part.asg.length = g.nv)
    {cc : Conn P} {cmap : Mem} {cm : Nat → Nat} (hcm : ∀ v, v < g.nv → nth cmap v = some (cm v) ∧ cm v < cc.border.cap)
    (hb : ∀ v, v < g.nv → P.has cc.border.s (cm v) = false → externalWeight g part.lab v = 0) :
    Sat (fillInConnectivity g (!g.unitEdge) part cc cmap (ConnBuilder.start g.nv)) (fun b =>
      b.ext.length = g.nv ∧ b.int.length = g.nv ∧ ∀ v, v < g.nv →
        nth b.ext v = some (externalWeight g part.lab v) ∧ nth b.int v = some (internalWeight g part.lab v)) := by
  unfold fillInConnectivity
  refine Post_foldlM_range (fun m (b : ConnBuilder) => b.ext.length = g.nv ∧ b.int.length = g.nv ∧ ∀ v, v < m →
        nth b.ext v = some (externalWeight g part.lab v) ∧ nth b.int v = some (internalWeight g part.lab v)) ?_ ?_
  · exact ⟨by simp [ConnBuilder.start, Mem.alloc], by simp [ConnBuilder.start, Mem.alloc],
      fun v hv => absurd hv (Nat.not_lt_zero _)⟩
  · rintro v b hv ⟨h1, h2, h3⟩
    have hx := ext_int_fits hg hm part.lab hv
    have fin : ∀ x i, x = externalWeight g part.lab v → i = internalWeight g part.lab v →
        Sat (do let b ← b.setInternal v i; b.setExternal v x) (fun b =>
          b.ext.length = g.nv ∧ b.int.length = g.nv ∧ ∀ u, u < v + 1 →
        nth b.ext u = some (externalWeight g part.lab u) ∧ nth b.int u = some (internalWeight g part.lab u)) := by
      rintro x i rfl rfl
      unfold ConnBuilder.setInternal ConnBuilder.setExternal
      rw [Mem.wr_of_lt (by omega), ok_bind, ok_bind, Mem.wr_of_lt (by simp only; omega), ok_bind]
      refine ⟨by simp [h1], by simp [h2], fun u hu => ?_⟩
      simp only
      rw [nth_set (by omega), nth_set (by omega)]
      by_cases huv : u = v
      · rw [if_pos huv, if_pos huv, huv]; exact ⟨rfl, rfl⟩
      · rw [if_neg huv, if_neg huv]; exact h3 u (by omega)
    unfold fillInOne
    obtain ⟨c1, c2⟩ := hcm v hv
    rw [Mem.rd_of_some c1, ok_bind, VSet.has_eq c2, ok_bind]
    by_cases hin : P.has cc.border.s (cm v) = true
    · rw [if_pos hin, rd_of_lt (by omega), ok_bind, Graph.nbrsOf_eq hg hv, ok_bind, project_inner hg hp hv, ok_bind]
      have e1 := internal_eq_wsum hg part.lab hv
      have e2 := external_eq_wsum hg part.lab hv
      unfold Partitioning.lab at e1 e2 hx
      refine fin _ _ ?_ ?_
      · simp only; rw [← e2]; unfold Partitioning.lab; omega
      · simp only; rw [← e1]; unfold Partitioning.lab; omega
    · rw [if_neg hin]
      have hz := hb v hv (by simpa using hin)
      have hsum := internal_add_external hg part.lab hv
      have : interiorSum g (!g.unitEdge) v = ok (internalWeight g part.lab v) := by
        unfold interiorSum
        have e : g.wsum v (fun _ => true) = ((g.nbrs v).map Prod.snd).sum := by
          unfold Graph.wsum; rfl
        split
        · rw [Graph.nbrsOf_eq hg hv, ok_bind]
          have := foldl_sum_eq (g.nbrs v) 0
          rw [show (0 % M32) = 0 from rfl] at this
          rw [this]
          exact congrArg ok (by omega)
        · rename_i hu
          have hu : g.unitEdge = true := by simpa using hu
          rw [degreeOf_eq hg hv]
          have : ((g.nbrs v).map Prod.snd).sum = (g.nbrs v).length := by
            unfold Graph.nbrs Graph.ew
            simp [hu, Function.comp_def]
          exact congrArg ok (by omega)
      rw [this, ok_bind]
      exact fin _ _ hz.symm rfl

/-- `fillCoarseMap` copies the coarse map. -/
theorem fillCoarseMap_spec {n : Nat} {a : Aggregation} (ha : AggOK n a) :
    Sat (a.fillCoarseMap (Mem.alloc n)) (fun m => m.length = n ∧ ∀ v, v < n → nth m v = some (nth a.cmap v)) := by
  unfold Aggregation.fillCoarseMap
  rw [ha.nf_eq]
  refine Post_foldlM_range (fun k (m : Mem) => m.length = n ∧ ∀ v, v < k → nth m v = some (nth a.cmap v)) ?_ ?_
  · exact ⟨by simp [Mem.alloc], fun v hv => absurd hv (Nat.not_lt_zero _)⟩
  · rintro v m hv ⟨h1, h2⟩
    rw [rd_of_lt (by rw [ha.len]; exact hv), ok_bind, Mem.wr_of_lt (by omega)]
    refine ⟨by simp [h1], fun u hu => ?_⟩
    rw [nth_set (by omega)]
    by_cases huv : u = v
    · rw [if_pos huv, huv]
    · rw [if_neg huv]; exact h2 u (by omega)

/-- What a constructed coarse graph is. -/
structure IsCoarse (g : Graph) (a : Aggregation) (cg : CoarseGraph) : Prop where
  fine : cg.fine = g
  con : Contracted g a cg.coarse
  len : cg.cmap.length = g.nv
  cmap : ∀ v, v < g.nv → nth cg.cmap v = some (nth a.cmap v)

theorem CoarseGraph.make_spec {g : Graph} (hg : g.WF) (hS : g.sumEdge < M32) (hV : g.sumVtx < M32)
    {a : Aggregation} (ha : AggOK g.nv a) (hnc : a.nc < NULL32) : Sat (CoarseGraph.make g a) (IsCoarse g a) := by
  unfold CoarseGraph.make
  refine (contract_spec hg hS hV ha hnc).bind fun cg hc => ?_
  refine (fillCoarseMap_spec ha).bind fun m hm => ?_
  exact ⟨rfl, hc, hm.1, hm.2⟩

/-- What projecting yields. -/
structure Projected (g : Graph) (a : Aggregation) (k : Nat) (cp : Partitioning) (o : Partitioning × Conn P) :
    Prop where
  lab : ∀ v, v < g.nv → o.1.lab v = cp.lab (nth a.cmap v)
  cut : o.1.cut = cp.cut
  pw : ∀ q, q < k → nth o.1.pw q = nth cp.pw q
  exact : IsExact g k o.1
  conn : ConnExact g o.1.lab o.2
  border : ∀ v, P.has o.2.border.s v =
    decide (v < g.nv ∧ (0 < externalWeight g o.1.lab v ∨ internalWeight g o.1.lab v = 0))

theorem project_spec {g : Graph} (hg : g.WF) (hs : g.Symm) (hm : g.Small) {a : Aggregation} (ha : AggOK g.nv a)
    {cg : CoarseGraph} (hc : IsCoarse g a cg) {k : Nat} (hk : k ≤ NULL32) {cp : Partitioning}
    (hcp : IsExact cg.coarse k cp) {cc : Conn P} (hcc : ConnExact cg.coarse cp.lab cc) :
    Sat (cg.project cp cc) (Projected g a k cp) := by
  unfold CoarseGraph.project
  rw [hc.fine, hcp.pw_len]
  have hnv := hc.con.nv
  let lab' : Nat → Nat := fun v => cp.lab (nth a.cmap v)
  refine (show Sat _ (Tracks g k (fun v => some (lab' v))) from ?_).bind fun fp hfp => ?_
  · refine (Post_foldlM_range (fun m fp => Tracks g k (fun v => if v < m then some (lab' v) else none) fp) ?_ ?_).mono ?_
    · simpa using Tracks.fresh
    · intro v fp hv h
      have hcv := ha.lt v hv
      rw [Mem.rd_of_some (hc.cmap v hv), ok_bind, rd_of_lt (by rw [hcp.asg_len, hnv]; exact hcv), ok_bind]
      refine (h.assign hg hk hv (hcp.complete _ (by rw [hnv]; exact hcv)) (by simp)).mono fun p hp => ?_
      have : (fun u => if u = v then some (nth cp.asg (nth a.cmap v)) else if u < v then some (lab' u) else none) =
          (fun u => if u < v + 1 then some (lab' u) else none) := by
        funext u
        by_cases h1 : u = v
        · rw [if_pos h1, if_pos (by omega), h1]; rfl
        · by_cases h2 : u < v
          · rw [if_neg h1, if_pos h2, if_pos (by omega)]
          · rw [if_neg h1, if_neg h2, if_neg (by omega)]
      rw [← this]; exact hp
    · intro fp h
      refine ⟨h.asg_len, h.pw_len, fun v hv => ?_, fun v hv q hq => ?_, fun q hq => ?_⟩
      · rw [h.asg v hv, if_pos hv]
      · exact h.lt v hv q (by rw [if_pos hv]; exact hq)
      · rw [h.weights q hq]
        congr 1
        exact mapWeight_congr (fun u hu => by rw [if_pos hu]) q
  have hlab : ∀ v, v < g.nv → fp.lab v = lab' v := fun v hv => decodeLab_some (hfp.asg v hv)
  refine (fillIn_spec (P := P) hg hm hfp.asg_len (cc := cc) (cm := nth a.cmap) (fun v hv => ⟨hc.cmap v hv, ?_⟩)
    (fun v hv hnb => ?_)).bind fun b hb => ?_
  · rw [hcc.cap, hnv]; exact ha.lt v hv
  · have h1 := external_le_coarse hc.con ha cp.lab hv
    rw [externalWeight_congr hlab hv]
    by_contra hne
    have h2 : 0 < externalWeight cg.coarse cp.lab (nth a.cmap v) := by
      have : 0 < externalWeight g lab' v := Nat.pos_of_ne_zero hne
      exact lt_of_lt_of_le this h1
    have := hcc.border_of_ext _ (by rw [hnv]; exact ha.lt v hv) h2
    rw [hnb] at this; cases this
  · unfold ConnBuilder.finish
    obtain ⟨b1, b2, b3⟩ := hb
    rw [freeze_spec (externalWeight g fp.lab) b1 (fun v hv => (b3 v hv).1), ok_bind,
      freeze_spec (internalWeight g fp.lab) b2 (fun v hv => (b3 v hv).2), ok_bind]
    refine (Conn.ofArray_spec P (n := g.nv) (X := externalWeight g fp.lab) (I := internalWeight g fp.lab) ?_ ?_).bind
      fun c h => ?_
    · simp
    · intro v hv
      rw [nth_eq_getElem (by simpa using hv)]
      simp
    · have hcut : cp.cut = cutWeight g lab' := by rw [hcp.cut_eq, hc.con.cut ha hs]
      have hex : IsExact g k (fp.setCut cp.cut) := (hfp.setCut cp.cut).exact hm hcut
      have hl' : ∀ v, v < g.nv → (fp.setCut cp.cut).lab v = lab' v := hlab
      refine ⟨hlab, rfl, fun q hq => ?_, hex, h.2.1.exact (fun _ _ => rfl) (fun _ _ => rfl), h.2.2⟩
      rw [hcp.weights q hq, hc.con.partWeight ha, ← partWeight_congr hl']
      exact hex.weights q hq

end Poros
