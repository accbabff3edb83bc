import Verif.Proofs.DebugSim
import Verif.Proofs.Multilevel
import Verif.Props.P69_Valid
import Verif.Proofs.Api
/-
The assertions of aggregation, contraction and projection.
-/
namespace Poros
open Res Finset

/-! ### aggregation: the assertions never fail -/

theorem isMatched_false {m : Matcher} {v : Nat} (h : m.isMatched v = ok false) : rd m.mtch v = ok NULL32 := by
  unfold Matcher.isMatched at h
  cases hr : rd m.mtch v with
  | ok u =>
    rw [hr, ok_bind] at h
    have := Res.ok.inj h
    have : u = NULL32 := by simpa using this
    rw [this]
  | ub => simp [hr] at h
  | exn => simp [hr] at h
  | diverge => simp [hr] at h

theorem mateD_eq {m : Matcher} {a b : Nat} (ha : rd m.mtch a = ok NULL32) (hb : rd m.mtch b = ok NULL32) :
    m.mateD a b = m.mate a b := by
  unfold Matcher.mateD
  rw [ha, ok_bind, check_bind rfl, hb, ok_bind, check_bind rfl]

theorem firstMate_free {g : Graph} {has : Bool} {maxW : Nat} {order : List Nat} {m : Matcher} {vw : Nat}
    {l : List (Nat × Nat)} {u : Nat} (h : firstMate g has maxW order m vw l = ok (some u)) :
    rd m.mtch u = ok NULL32 := by
  induction l with
  | nil => cases h
  | cons q l ih =>
    unfold firstMate at h
    obtain ⟨uw, -, h⟩ := bind_eq_ok h
    obtain ⟨b, hb, h⟩ := bind_eq_ok h
    split at h
    · rename_i hc
      obtain ⟨_, -, h⟩ := bind_eq_ok h
      have hu : q.1 = u := by simpa using Res.ok.inj h
      have hbf : b = false := by
        cases b with
        | false => rfl
        | true => simp at hc
      rw [hbf] at hb
      rw [← hu]
      exact isMatched_false hb
    · exact ih h

theorem rmStepD_eq (g : Graph) (has : Bool) (maxW : Nat) (order : List Nat) (m : Matcher) (v : Nat) :
    rmStepD g has maxW order m v = rmStep g has maxW order m v := by
  unfold rmStepD rmStep
  refine bind_congr_ok fun b hb => ?_
  cases b with
  | true => rfl
  | false =>
    simp only [Bool.false_eq_true, if_false]
    refine bind_congr_ok fun _ _ => bind_congr_ok fun _ _ => bind_congr_ok fun best hbest => ?_
    cases best with
    | none => rfl
    | some u => exact mateD_eq (isMatched_false hb) (firstMate_free hbest)

theorem heavyMate_free {g : Graph} {has : Bool} {maxW : Nat} {m : Matcher} {vw : Nat}
    (l : List (Nat × Nat)) (b0 : Option (Nat × Nat)) (h0 : ∀ b, b0 = some b → rd m.mtch b.1 = ok NULL32)
    {o : Option (Nat × Nat)} (h : l.foldlM (heavyMate g has maxW m vw) b0 = ok o) :
    ∀ b, o = some b → rd m.mtch b.1 = ok NULL32 := by
  induction l generalizing b0 with
  | nil => cases h; exact h0
  | cons q l ih =>
    rw [List.foldlM_cons] at h
    obtain ⟨b1, hb1, h⟩ := bind_eq_ok h
    refine ih b1 (fun b hb => ?_) h
    unfold heavyMate at hb1
    obtain ⟨uw, -, hb1⟩ := bind_eq_ok hb1
    obtain ⟨x, hx, hb1⟩ := bind_eq_ok hb1
    split at hb1
    · rename_i hc
      have hxf : x = false := by
        cases x with
        | false => rfl
        | true => simp at hc
      rw [hxf] at hx
      have hq := isMatched_false hx
      cases hb0 : b0 with
      | none =>
        rw [hb0] at hb1
        have := Res.ok.inj hb1
        rw [hb] at this
        cases this
        exact hq
      | some b' =>
        rw [hb0] at hb1
        simp only at hb1
        split at hb1
        · have := Res.ok.inj hb1
          rw [hb] at this
          cases this
          exact hq
        · have := Res.ok.inj hb1
          rw [hb] at this
          cases this
          exact h0 _ hb0
    · have := Res.ok.inj hb1
      rw [hb] at this
      exact h0 b this

theorem shemStepD_eq {g : Graph} (hu : g.unitEdge = false) (has : Bool) (maxW : Nat) (m : Matcher) (v : Nat) :
    shemStepD g has maxW m v = shemStep g has maxW m v := by
  unfold shemStepD shemStep
  refine bind_congr_ok fun b hb => ?_
  cases b with
  | true => rfl
  | false =>
    simp only [Bool.false_eq_true, if_false]
    refine bind_congr_ok fun _ _ => bind_congr2 ?_ fun ns _ => bind_congr_ok fun best hbest => ?_
    · unfold Graph.nbrsTrueD Graph.nbrsOf
      cases hes : g.edgesOf v with
      | ok es => rw [ok_bind, check_bind (Or.inr hu)]
      | ub => rfl
      | exn => rfl
      | diverge => rfl
    · cases best with
      | none => rfl
      | some u =>
        exact mateD_eq (isMatched_false hb) (heavyMate_free ns none (fun b hb => nomatch hb) hbest u rfl)

theorem foldlM_eq {α σ : Type} {f f' : σ → α → Res σ} (h : ∀ s x, f s x = f' s x) (l : List α) (s : σ) :
    l.foldlM f s = l.foldlM f' s := by
  rw [show f = f' from funext fun s => funext fun x => h s x]

theorem rmAggregateD_eq (E : Env) (maxW : Nat) (g : Graph) (r : E.rng.S) :
    rmAggregateD E maxW g r = rmAggregate E maxW g r := by
  unfold rmAggregateD rmAggregate
  simp only [foldlM_eq (rmStepD_eq g (!g.unitVtx) maxW _)]

/-- No assertion of the aggregators fails, on any graph. -/
theorem aggregateD_eq (E : Env) (s : Scheme) (maxW : Nat) (g : Graph) (r : E.rng.S) :
    aggregateD E s maxW g r = aggregate E s maxW g r := by
  cases s with
  | randomMatching => exact rmAggregateD_eq E maxW g r
  | sortedHeavyEdge =>
    show shemrmAggregateD E maxW g r = shemrmAggregate E maxW g r
    unfold shemrmAggregateD shemrmAggregate
    split
    · exact rmAggregateD_eq E maxW g r
    · rename_i hu
      unfold shemAggregateD shemAggregate
      simp only [foldlM_eq (shemStepD_eq (by simpa using hu) (!g.unitVtx) maxW)]

/-! ### contraction -/

theorem coarseD_eq {n : Nat} {a : Aggregation} (ha : AggOK n a) {v : Nat} (hv : v < n) :
    a.coarseD v = a.coarse v ∧ a.coarse v = ok (nth a.cmap v) := by
  unfold Aggregation.coarseD Aggregation.coarse
  rw [rd_of_lt (by rw [ha.len]; exact hv), ok_bind, check_bind (ha.lt v hv)]
  exact ⟨rfl, rfl⟩

theorem contractGroupD_eq {g : Graph} (hg : g.WF) {a : Aggregation} (ha : AggOK g.nv a) (c : Nat) (b : OneStep) :
    contractGroupD g (!g.unitVtx) (!g.unitEdge) a c (fiber (nth a.cmap) g.nv c) b =
      contractGroup g (!g.unitVtx) (!g.unitEdge) a (fiber (nth a.cmap) g.nv c) b := by
  unfold contractGroupD contractGroup
  refine foldlM_congr_inv (P := fun _ => True) trivial fun s v hv _ => ⟨?_, fun _ _ => trivial⟩
  obtain ⟨hvn, hvc⟩ := mem_fiber.mp hv
  obtain ⟨e1, e2⟩ := coarseD_eq ha hvn
  rw [e1, e2, ok_bind, check_bind hvc.symm]
  refine bind_congr_ok fun vw _ => ?_
  rw [Graph.nbrsOf_eq hg hvn, ok_bind, ok_bind]
  refine bind_congr2 ?_ fun _ _ => rfl
  refine foldlM_congr_inv (P := fun _ => True) trivial fun b q hq _ => ⟨?_, fun _ _ => trivial⟩
  rw [(coarseD_eq ha (Graph.nbrs_lt hg hvn hq)).1]

theorem Contracted.isValid {g : Graph} (hg : g.Good) {a : Aggregation} {cg : Graph}
    (h : Contracted g a cg) : ∃ b, cg.isValid = ok b ∧ (g.SymmAdj → b = true) := by
  obtain ⟨b, b1, b2⟩ := C69_simple h.wf.shaped (fun c hcn => h.simple c (by rw [← h.nv]; exact hcn))
  exact ⟨b, b1, fun hA => b2.mpr ⟨h.wf.tot_vtx, h.wf.dest_lt, h.wf.tot_edge, h.symm hg.symm, h.symmAdj hg.wf hA⟩⟩

theorem makeD_close {H : Prop} {g : Graph} (hg : g.Good) (hA : H → g.SymmAdj) {a : Aggregation} (ha : AggOK g.nv a)
    (hnc : a.nc < NULL32) : Close H (CoarseGraph.makeD g a) (CoarseGraph.make g a) := by
  have hsm := hg.small
  have hse := hsm.edge
  obtain ⟨cg, hcg, hcon⟩ := sat_iff.mp (contract_spec hg.wf (by omega) hsm.vtx ha hnc)
  unfold CoarseGraph.makeD CoarseGraph.make
  refine Close.bind ?_ fun _ _ => Close.refl _
  unfold contractD contract contractGraphD contractGraph
  unfold contract contractGraph at hcg
  refine Close.bind_ok fun b0 hb0 => ?_
  rw [hb0, ok_bind] at hcg
  have e : (List.range a.nc).foldlM (fun b c => do
      let group ← a.group c
      let r ← contractGroupD g (!g.unitVtx) (!g.unitEdge) a c group b
      r.1.finishVertex r.2) b0 = (List.range a.nc).foldlM (fun b c => do
      let group ← a.group c
      let r ← contractGroup g (!g.unitVtx) (!g.unitEdge) a group b
      r.1.finishVertex r.2) b0 := by
    refine foldlM_congr_inv (P := fun _ => True) trivial fun b c hc _ => ⟨?_, fun _ _ => trivial⟩
    rw [ha.group c (List.mem_range.mp hc), ok_bind, ok_bind, contractGroupD_eq hg.wf ha]
  rw [e]
  refine Close.bind_ok fun b hb => ?_
  rw [hb, ok_bind] at hcg
  unfold OneStep.finishD
  rw [hcg, ok_bind]
  obtain ⟨x, hx, hx'⟩ := hcon.isValid hg
  rw [hx, ok_bind]
  exact Close.check (fun h => hx' (hA h)) (Close.refl _)

/-! ### projection -/

theorem assignD_eq {g : Graph} {v part : Nat} {p : Partitioning} (h : rd p.asg v = ok NULL32) :
    p.assignD g v part = p.assign g v part := by
  unfold Partitioning.assignD
  rw [h, ok_bind, check_bind rfl]

theorem assign_asg {g : Graph} {v part : Nat} {p p' : Partitioning} (h : p.assign g v part = ok p') :
    v < p.asg.length ∧ p'.asg = p.asg.set v part := by
  unfold Partitioning.assign at h
  obtain ⟨_, -, h⟩ := bind_eq_ok h
  obtain ⟨_, -, h⟩ := bind_eq_ok h
  obtain ⟨_, -, h⟩ := bind_eq_ok h
  obtain ⟨a, ha, h⟩ := bind_eq_ok h
  have := Res.ok.inj h
  rw [← this]
  unfold wr at ha
  split at ha
  · rename_i hv
    exact ⟨hv, (Res.ok.inj ha).symm⟩
  · cases ha

theorem projectD_eq {P : SetImpl} {cg : CoarseGraph} {cp : Partitioning} (hk : 0 < cp.pw.length) (cc : Conn P) :
    cg.projectD cp cc = cg.project cp cc := by
  unfold CoarseGraph.projectD CoarseGraph.project Partitioning.freshD
  rw [check_bind hk, ok_bind]
  refine bind_congr2 ?_ fun _ _ => rfl
  have key : ∀ m, m ≤ cg.fine.nv → ∀ s : Partitioning, s.asg.length = cg.fine.nv →
      (∀ u, m ≤ u → u < cg.fine.nv → nth s.asg u = NULL32) →
      (List.range' m (cg.fine.nv - m)).foldlM (fun (fp : Partitioning) v => do
        let c ← cg.cmap.rd v
        let q ← rd cp.asg c
        fp.assignD cg.fine v q) s =
      (List.range' m (cg.fine.nv - m)).foldlM (fun (fp : Partitioning) v => do
        let c ← cg.cmap.rd v
        let q ← rd cp.asg c
        fp.assign cg.fine v q) s := by
    intro m hm
    induction hd : cg.fine.nv - m generalizing m with
    | zero => intro s _ _; rfl
    | succ d ih =>
      intro s hl hs
      rw [List.range'_succ, List.foldlM_cons, List.foldlM_cons]
      refine bind_congr2 ?_ fun s' hs' => ?_
      · refine bind_congr_ok fun _ _ => bind_congr_ok fun _ _ => assignD_eq ?_
        rw [rd_of_lt (by omega), hs m le_rfl (by omega)]
      · obtain ⟨c, -, hs'⟩ := bind_eq_ok hs'
        obtain ⟨q, -, hs'⟩ := bind_eq_ok hs'
        obtain ⟨h1, h2⟩ := assign_asg hs'
        refine ih (m + 1) (by omega) (by omega) s' (by rw [h2]; simp [hl]) fun u hu hu' => ?_
        rw [h2, nth_set h1, if_neg (by omega)]
        exact hs u (by omega) hu'
  have := key 0 (by omega) (Partitioning.fresh cp.pw.length cg.fine) (by simp [Partitioning.fresh])
    (fun u _ hu => by show nth (List.replicate _ _) u = _; rw [nth_replicate hu])
  rw [Nat.sub_zero, ← List.range_eq_range'] at this
  exact this

end Poros
