import Verif.Props.P93_AnyInput
import Verif.Props.P94_Scarce
/-
C104: calls on small graphs that need not be undirected, nor free of self loops, nor of total weight below 2^32.
-/
namespace Poros
open Finset Res

variable {E : Env} {g : Graph}

/-! ### Partitionings whose weights are right modulo 2^32 -/

/-- A complete two-part partitioning with true weights modulo 2^32. -/
def Kept (g : Graph) (p : Partitioning) : Prop := Tracks g 2 (fun v => some (p.lab v)) p

theorem Tracks.kept {p : Partitioning} {lab : Nat → Nat} (h : Tracks g 2 (fun v => some (lab v)) p) : Kept g p := by
  have hl : ∀ v, v < g.nv → lab v = p.lab v := fun v hv => (decodeLab_some (h.asg v hv)).symm
  refine ⟨h.asg_len, h.pw_len, fun v hv => ?_, fun v hv q hq => ?_, fun q hq => ?_⟩
  · rw [h.asg v hv, hl v hv]
  · rw [← hl v hv] at hq
    exact h.lt v hv q hq
  · rw [h.weights q hq, mapWeight_congr fun u hu => by rw [hl u hu]]

theorem Kept.lt {p : Partitioning} (h : Kept g p) {v : Nat} (hv : v < g.nv) : p.lab v < 2 :=
  Tracks.lt h v hv _ rfl

theorem Kept.move (hg : g.WF) {p : Partitioning} (h : Kept g p) {v q : Nat} (hv : v < g.nv) (hq : q < 2)
    (hne : p.lab v ≠ q) : Sat (p.move g v q) (fun p' => Kept g p' ∧ p'.lab = relabel p.lab v q) := by
  have ht := Tracks.move hg (by omega) h hv hq (by simp) (by simpa using hne)
  refine (ht.and_may (move_asg g p v q)).mono fun p' hp => ?_
  obtain ⟨h1, h2, -⟩ := hp
  refine ⟨?_, lab_of_set (by rw [Tracks.asg_len h]; exact hv) h2⟩
  have e : (fun u => if u = v then some q else some (p.lab u)) = fun u => some (relabel p.lab v q u) := by
    funext u; unfold relabel; split <;> rfl
  rw [e] at h1
  exact h1.kept

theorem Kept.rd_pw {p : Partitioning} (h : Kept g p) {q : Nat} (hq : q < 2) : rd p.pw q = ok (nth p.pw q) :=
  rd_of_lt (by rw [Tracks.pw_len h]; exact hq)

/-! ### Growing -/

/-- The weight of the edges from vertices that have left the queue. -/
def touched (pq : PQImpl) (g : Graph) (q : VQueue pq) (u : Nat) : Nat :=
  ∑ v ∈ range g.nv, if (pq.key q.q v).isSome then 0 else g.wt v u

theorem touched_le (pq : PQImpl) (q : VQueue pq) (u : Nat) : touched pq g q u ≤ g.sumEdge := by
  unfold touched Graph.sumEdge
  refine sum_le_sum fun v _ => ?_
  split
  · exact Nat.zero_le _
  · exact Graph.wt_le

/-- Between two iterations of the growing phase on any graph. -/
structure GrowInv (E : Env) (g : Graph) (s : VQueue E.pq × Partitioning) : Prop where
  part : Kept g s.2
  cap : s.1.cap = g.nv
  keys : ∀ u k, E.pq.key s.1.q u = some k → u < g.nv ∧ s.2.lab u = 1 ∧ 0 ≤ k ∧ k ≤ 1 + touched E.pq g s.1 u

theorem bfsStep_any (hg : g.WF) (he : g.sumEdge + 1 < 2147483648) {t : Target E.fp} (ht : t.Two)
    {s : VQueue E.pq × Partitioning} (h : GrowInv E g s) (hs : s.1.size > 0) :
    Sat (bfsStep g (!g.unitVtx) (!g.unitEdge) t s) (fun s' => GrowInv E g s' ∧ s'.1.size + 1 = s.1.size) := by
  obtain ⟨m, hm, -⟩ := VQueue.top_of_size hs
  obtain ⟨hv, hl1, -⟩ := h.keys _ _ hm
  unfold bfsStep
  rw [VQueue.pop_of_size hs, ok_bind]
  simp only
  rw [Graph.vwgtOf_eq hg hv, ok_bind, h.part.rd_pw (by omega), ok_bind, rd_of_lt (by rw [ht.mx]; omega), ok_bind]
  set v := E.pq.top s.1.q with hvdef
  have hdel : ∀ u, E.pq.key (E.pq.del s.1.q v) u = if u = v then none else E.pq.key s.1.q u :=
    E.pq.key_del s.1.q v
  have hltk : ∀ u k, E.pq.key s.1.q u = some k → u < g.nv := fun u k hk => (h.keys u k hk).1
  have htouch : ∀ (q' : VQueue E.pq), (∀ u, (E.pq.key q'.q u).isSome = (decide (u ≠ v) && (E.pq.key s.1.q u).isSome)) →
      ∀ u, touched E.pq g q' u = touched E.pq g s.1 u + g.wt v u := by
    intro q' hq' u
    unfold touched
    rw [← add_sum_erase _ _ (mem_range.mpr hv),
      ← add_sum_erase (range g.nv) (fun x => if (E.pq.key s.1.q x).isSome then 0 else g.wt x u) (mem_range.mpr hv)]
    have e1 : (∑ x ∈ (range g.nv).erase v, if (E.pq.key q'.q x).isSome then 0 else g.wt x u) =
        ∑ x ∈ (range g.nv).erase v, if (E.pq.key s.1.q x).isSome then 0 else g.wt x u :=
      sum_congr rfl fun x hx => by rw [hq', decide_eq_true (ne_of_mem_erase hx), Bool.true_and]
    rw [e1, hq' v, hm]
    simp
    omega
  have hsz : ∀ (q' : VQueue E.pq), (∀ u, (E.pq.key q'.q u).isSome = (decide (u ≠ v) && (E.pq.key s.1.q u).isSome)) →
      q'.size + 1 = s.1.size := fun q' hq' => VQueue.size_del (v := v) hltk (by rw [hm]; rfl) hq'
  have hsome0 : ∀ u, (E.pq.key (E.pq.del s.1.q v) u).isSome = (decide (u ≠ v) && (E.pq.key s.1.q u).isSome) := by
    intro u
    rw [hdel]
    by_cases hu : u = v <;> simp [hu]
  split
  · refine (h.part.move hg hv (by omega) (by omega)).bind fun p hp => ?_
    obtain ⟨hp1, hp2⟩ := hp
    rw [Graph.nbrsOf_eq hg hv, ok_bind]
    refine (bfsTouch_spec (g.nbrs v) (q := { s.1 with q := E.pq.del s.1.q v }) (n := g.nv) h.cap ?_ ?_).bind
      fun q' hq' => ?_
    · intro e hem
      have h1 := Graph.edge_le_wsum hem
      have h2 : g.wsum v (fun _ => true) ≤ g.sumEdge :=
        single_le_sum (f := fun v => g.wsum v (fun _ => true)) (fun _ _ => Nat.zero_le _) (mem_range.mpr hv)
      exact ⟨Graph.nbrs_lt hg hv hem, by omega⟩
    · intro u k hk
      rw [hdel] at hk
      split at hk
      · cases hk
      · obtain ⟨-, -, h3, h4⟩ := h.keys u k hk
        have h5 := touched_le (g := g) E.pq { s.1 with q := E.pq.del s.1.q v } u
        rw [htouch _ hsome0] at h5
        have : preW (g.nbrs v) u = g.wt v u := rfl
        omega
    · obtain ⟨hq1, hq2⟩ := hq'
      have hsome : ∀ u, (E.pq.key q'.q u).isSome = (decide (u ≠ v) && (E.pq.key s.1.q u).isSome) := by
        intro u
        rw [hq2]
        simp only [hdel, Option.isSome_map]
        by_cases hu : u = v <;> simp [hu]
      refine ⟨⟨hp1, hq1, fun u k hk => ?_⟩, hsz _ hsome⟩
      rw [hq2] at hk
      simp only [hdel] at hk
      split at hk
      · cases hk
      · rename_i hne
        cases hku : E.pq.key s.1.q u with
        | none => rw [hku] at hk; cases hk
        | some k' =>
          rw [hku] at hk
          simp only [Option.map_some, Option.some.injEq] at hk
          obtain ⟨h1, h2, h3, h4⟩ := h.keys u k' hku
          have : preW (g.nbrs v) u = g.wt v u := rfl
          refine ⟨h1, ?_, by omega, ?_⟩
          · show p.lab u = 1
            rw [hp2]; unfold relabel; rw [if_neg hne]; exact h2
          · show k ≤ 1 + (touched E.pq g q' u : Int)
            rw [htouch _ hsome]
            push_cast
            omega
  · refine ⟨⟨h.part, h.cap, fun u k hk => ?_⟩, hsz _ hsome0⟩
    rw [hdel] at hk
    split at hk
    · cases hk
    · obtain ⟨h1, h2, h3, h4⟩ := h.keys u k hk
      refine ⟨h1, h2, h3, ?_⟩
      rw [htouch _ hsome0]
      push_cast
      omega

theorem bfsPriorityMove_any (hg : g.WF) (he : g.sumEdge + 1 < 2147483648) {t : Target E.fp} (ht : t.Two) :
    ∀ fuel (s : VQueue E.pq × Partitioning), GrowInv E g s → s.1.size < fuel →
    Sat (bfsPriorityMove g (!g.unitVtx) (!g.unitEdge) t fuel s) (fun s' => GrowInv E g s' ∧
      (nth t.tw 0 ≤ nth s.2.pw 0 → s' = s)) := by
  intro fuel
  induction fuel with
  | zero => intro s _ h; omega
  | succ fuel ih =>
    intro s h hf
    unfold bfsPriorityMove
    split
    · rename_i hs
      rw [h.part.rd_pw (by omega), ok_bind, rd_of_lt (by rw [ht.tw]; omega), ok_bind]
      split
      · rename_i hlt
        refine (bfsStep_any hg he ht h hs).bind fun s' hs' => ?_
        exact (ih s' hs'.1 (by omega)).mono fun s'' h' => ⟨h'.1, fun hle => by omega⟩
      · exact ⟨h, fun _ => rfl⟩
    · exact ⟨h, fun _ => rfl⟩

theorem bfsGrow_any (hg : g.WF) (he : g.sumEdge + 1 < 2147483648) {t : Target E.fp} (ht : t.Two) {seed : Nat}
    (hseed : seed < g.nv) : Sat (bfsGrow t g seed) (fun s => GrowInv E g s ∧
      (nth t.tw 0 = 0 → nth s.2.pw 1 = g.totVtx ∧ ∀ v, v < g.nv → s.2.lab v = 1)) := by
  obtain ⟨q, hqe, hq1, hq2⟩ := sat_iff.mp (bfsQueue_spec (E := E) hseed)
  obtain ⟨p, hpe, hp⟩ := sat_iff.mp (Tracks.assignAll hg (by omega) (Tracks.fresh (g := g) (k := 2)) (q := 1) (by omega))
  have hlab : ∀ v, v < g.nv → p.lab v = 1 := fun v hv => decodeLab_some (hp.asg v hv)
  unfold bfsGrow
  rw [← bind_assoc, hqe, ok_bind, ht.k, hpe, ok_bind]
  have hw : nth p.pw 1 = g.totVtx := by
    rw [hp.weights 1 (by omega), hg.tot_vtx]
    simp [mapWeight, Graph.sumVtx]
  have hi : GrowInv E g (q, p) := by
    refine ⟨hp.kept, hq1, fun u k hk => ?_⟩
    simp only [hq2] at hk
    split at hk
    · rename_i h1
      cases hk
      exact ⟨by omega, hlab u (by omega), by omega, by omega⟩
    · split at hk
      · rename_i h2
        cases hk
        exact ⟨h2, hlab u h2, by omega, by omega⟩
      · cases hk
  have hsz : q.size < g.nv + 1 := by
    rw [VQueue.size_eq (n := g.nv) fun u k hk => (hi.keys u k hk).1]
    have := card_filter_le (range g.nv) (fun u => (E.pq.key q.q u).isSome)
    rw [card_range] at this
    exact Nat.lt_succ_of_le this
  refine (bfsPriorityMove_any hg he ht _ _ hi hsz).mono fun s hs => ⟨hs.1, fun h0 => ?_⟩
  rw [hs.2 (by rw [h0]; exact Nat.zero_le _)]
  exact ⟨hw, hlab⟩

/-! ### Balancing -/

theorem bfsLighter_any {t : Target E.fp} (ht : t.Two) {p : Partitioning} (hp : Kept g p) (w : Nat) :
    ∃ b, bfsLighter t w p = ok b := by
  unfold bfsLighter
  rw [rd_of_lt (by rw [ht.mx]; omega), ok_bind, hp.rd_pw (by omega), ok_bind, rd_of_lt (by rw [ht.mx]; omega), ok_bind]
  exact ⟨_, rfl⟩

theorem bfsUnitBalance_any (hg : g.WF) {t : Target E.fp} (ht : t.Two) {p : Partitioning} (hp : Kept g p) :
    ∀ remaining : List Nat, (∀ v ∈ remaining, v < g.nv ∧ p.lab v = 1) →
      Sat (bfsUnitBalance g t remaining p) (Kept g) := by
  intro remaining
  induction remaining with
  | nil => intro _; exact hp
  | cons v vs ih =>
    intro hr
    obtain ⟨hv, hl⟩ := hr v (by simp)
    unfold bfsUnitBalance
    rw [hp.rd_pw (by omega), ok_bind]
    obtain ⟨b, hb⟩ := bfsLighter_any ht hp (uadd 1 (nth p.pw 0))
    rw [hb, ok_bind]
    split
    · exact (hp.move hg hv (by omega) (by omega)).mono fun p' h => h.1
    · exact ih fun u hu => hr u (by simp [hu])

theorem bfsWeightLoop_any {B : Prop} (hg : g.WF) (hvw : g.vwgt.length ≠ g.nv → B) {t : Target E.fp} (ht : t.Two)
    {p : Partitioning} (hp : Kept g p) {remaining : List Nat} (hr : ∀ v ∈ remaining, v < g.nv ∧ p.lab v = 1) :
    ∀ fuel (q : VQueue E.pq), (∀ u k, E.pq.key q.q u = some k → u ∈ remaining) → q.size < fuel →
    Post B (bfsWeightLoop g t fuel q p) (Kept g) := by
  intro fuel
  induction fuel with
  | zero => intro q _ h; omega
  | succ fuel ih =>
    intro q hq hf
    unfold bfsWeightLoop
    split
    · rename_i hs
      obtain ⟨m, hm, -⟩ := VQueue.top_of_size hs
      obtain ⟨hv, hl⟩ := hr _ (hq _ _ hm)
      rw [VQueue.pop_of_size hs, ok_bind]
      simp only
      refine (Post_vwgtOf_true hvw hv).bind fun w _ => ?_
      rw [hp.rd_pw (by omega), ok_bind]
      obtain ⟨b, hb⟩ := bfsLighter_any ht hp (uadd w (nth p.pw 0))
      rw [hb, ok_bind]
      split
      · exact Post.of_sat ((hp.move hg hv (by omega) (by omega)).mono fun p' h => h.1)
      · refine ih _ (fun u k hk => ?_) ?_
        · simp only [E.pq.key_del] at hk
          split at hk
          · cases hk
          · exact hq u k hk
        · have := VQueue.size_del (q := q) (q' := { q with q := E.pq.del q.q (E.pq.top q.q) }) (n := g.nv)
            (v := E.pq.top q.q) (fun u k hk => (hr u (hq u k hk)).1) (by rw [hm]; rfl) (fun u => by
              rw [E.pq.key_del]
              by_cases hu : u = E.pq.top q.q <;> simp [hu])
          omega
    · exact hp

theorem bfsWeightBalance_any {B : Prop} (hg : g.WF) (hvw : g.vwgt.length ≠ g.nv → B) {t : Target E.fp} (ht : t.Two)
    {p : Partitioning} (hp : Kept g p) {remaining : List Nat} (hr : ∀ v ∈ remaining, v < g.nv ∧ p.lab v = 1)
    (hnd : remaining.Nodup) : Post B (bfsWeightBalance g t remaining p) (Kept g) := by
  unfold bfsWeightBalance
  refine (Post_foldlM (fun pre (q : VQueue E.pq) => q.cap = g.nv ∧
    ∀ u, (E.pq.key q.q u).isSome = decide (u ∈ pre)) ?_ ?_).bind fun q hq => ?_
  · exact ⟨rfl, fun u => by simp [VQueue.new, E.pq.key_empty]⟩
  · intro pre v post q hl ⟨h1, h2⟩
    have hv := (hr v (by rw [hl]; simp)).1
    have hnew : v ∉ pre := by
      rw [hl] at hnd
      have := List.disjoint_of_nodup_append hnd
      exact fun hm => this hm (by simp)
    refine (Post_vwgtOf_true hvw hv).bind fun w _ => ?_
    rw [VQueue.add_eq (by omega)
      (by have := h2 v; simp [hnew] at this; exact this)]
    refine ⟨h1, fun u => ?_⟩
    show (E.pq.key (E.pq.put _ _ _) u).isSome = _
    rw [E.pq.key_put]
    by_cases hu : u = v
    · simp [hu]
    · simp [hu, h2 u]
  · obtain ⟨h1, h2⟩ := hq
    have hmem : ∀ u k, E.pq.key q.q u = some k → u ∈ remaining := by
      intro u k hk
      have := h2 u
      rw [hk] at this
      simpa using this.symm
    refine bfsWeightLoop_any hg hvw ht hp hr _ _ hmem ?_
    have : q.size = remaining.length := by
      unfold VQueue.size
      refine List.Perm.length_eq ((List.perm_ext_iff_of_nodup (E.pq.nodup_elems _) hnd).mpr fun u => ?_)
      rw [E.pq.mem_elems, h2 u]; simp
    omega

/-- A target that leaves everything on the right of a graph whose total weight is 0 modulo 2^32. -/
def Stuck (g : Graph) {fp : FP} (t : Target fp) : Prop := nth t.tw 0 = 0 ∧ g.totVtx = 0

theorem bfsFrom_any {B : Prop} (hg : g.WF) (he : g.sumEdge + 1 < 2147483648)
    (hvw : ¬ (g.unitVtx = true → g.vwgt.length = g.nv) → B) {t : Target E.fp} (ht : t.Two) {seed : Nat} (hseed : seed < g.nv) :
    Post B (bfsFrom t g seed) (fun p => Kept g p ∧ (Stuck g t → AllRight g p.lab)) := by
  unfold bfsFrom
  refine (Post.of_sat (bfsGrow_any hg he ht hseed)).bind fun s hs => ?_
  obtain ⟨hi, hz⟩ := hs
  have hr : ∀ v ∈ s.1.remaining, v < g.nv ∧ s.2.lab v = 1 := by
    intro v hv
    unfold VQueue.remaining at hv
    rw [E.pq.mem_elems] at hv
    obtain ⟨k, hk⟩ := Option.isSome_iff_exists.mp hv
    exact ⟨(hi.keys v k hk).1, (hi.keys v k hk).2.1⟩
  have key : Post B (bfsBalance t g s.1.remaining s.2) (fun p => Kept g p ∧ (Stuck g t → AllRight g p.lab)) := by
    unfold bfsBalance
    rw [hi.part.rd_pw (by omega), ok_bind, rd_of_lt (by rw [ht.mx]; omega), ok_bind]
    split
    · rename_i hgt
      have hns : Stuck g t → False := fun h => by
        have := (hz h.1).1
        rw [h.2] at this
        omega
      split
      · rename_i hu
        exact (bfsWeightBalance_any hg (fun h => hvw fun h' => h (h' hu)) ht hi.part hr (E.pq.nodup_elems _)).mono fun p hp =>
          ⟨hp, fun h => (hns h).elim⟩
      · exact Post.of_sat ((bfsUnitBalance_any hg ht hi.part _ hr).mono fun p hp => ⟨hp, fun h => (hns h).elim⟩)
    · exact ⟨hi.part, fun h => (hz h.1).2⟩
  refine key.bind fun p hp => ?_
  refine (Post.of_sat (Tracks.recalcCut hg hp.1)).mono fun p' hp' => ?_
  have hlab : p'.lab = p.lab := by unfold Partitioning.lab; rw [hp'.2.1]
  exact ⟨hp'.1.kept, fun h => by rw [hlab]; exact hp.2 h⟩

theorem bfsBisect_any (hg : g.WF) (he : g.sumEdge + 1 < 2147483648) (hvw : g.unitVtx = true → g.vwgt.length = g.nv)
    {t : Target E.fp} (ht : t.Two) (h0 : 0 < g.nv) (r : E.rng.S) :
    Sat (bfsBisect t g r) (fun o => Kept g o.1 ∧ (Stuck g t → AllRight g o.1.lab)) := by
  have hnv := hg.nv_lt
  unfold bfsBisect RngImpl.randInRange
  rw [if_pos (Nat.zero_le _), ok_bind]
  have hr := E.rng.rand_range r 0 (usub g.nv 1) (Nat.zero_le _)
  rw [usub_eq (by omega) (by omega)] at hr
  rw [usub_eq (by omega) (by omega)]
  exact (bfsFrom_any hg he (fun h => h hvw) ht (seed := (E.rng.rand r 0 (g.nv - 1)).1) (by omega)).bind fun p hp => hp

/-! ### Choosing among the bisections -/

theorem calcMaxImbalance_any {t : Target E.fp} (ht : t.Two) {p : Partitioning} (hp : Kept g p) :
    ∃ x, calcMaxImbalance g p t = ok x := by
  suffices h : Sat (calcMaxImbalance g p t) (fun _ => True) by
    obtain ⟨x, hx, -⟩ := sat_iff.mp h
    exact ⟨x, hx⟩
  unfold calcMaxImbalance findMax
  refine Post.bind (Q := fun _ => True) ?_ fun _ _ => trivial
  refine Post_foldlM_range (fun _ _ => True) trivial fun i s hi _ => ?_
  rw [Tracks.pw_len hp] at hi
  unfold getImbalance getFraction
  rw [rd_of_lt (by rw [ht.frac]; exact hi), ok_bind, hp.rd_pw hi, ok_bind, ok_bind, ok_bind]
  split <;> trivial

theorem isBalanced_any {t : Target E.fp} (ht : t.Two) {p : Partitioning} (hp : Kept g p) :
    ∃ x, isBalanced p t = ok x := by
  suffices h : Sat (isBalanced p t) (fun _ => True) by
    obtain ⟨x, hx, -⟩ := sat_iff.mp h
    exact ⟨x, hx⟩
  unfold isBalanced
  refine Post_foldlM_range (fun _ _ => True) trivial fun i s hi _ => ?_
  rw [Tracks.pw_len hp] at hi
  unfold isOverWeight
  split
  · rw [rd_of_lt (by rw [ht.mx]; exact hi), ok_bind, hp.rd_pw hi, ok_bind]
    trivial
  · trivial

theorem multiBisect_any {B : Prop} {t : Target E.fp} (ht : t.Two) {bis : Bisector E} {R : Partitioning → Prop}
    (hbis : ∀ r, Post B (bis t g r) (fun o => Kept g o.1 ∧ R o.1)) {n : Nat} (hn : 0 < n) (r : E.rng.S) :
    Post B (multiBisect n bis t g r) (fun o => Kept g o.1 ∧ R o.1) := by
  unfold multiBisect
  refine (Post_foldlM_range (fun m (s : MultiState E) => 0 < m → Kept g s.best ∧ R s.best) (fun h => by omega)
    fun m s _ hs => ?_).bind fun s hs => hs hn
  unfold multiStep
  refine (hbis s.rng).bind fun o ho => ?_
  simp only
  obtain ⟨x, hx⟩ := calcMaxImbalance_any ht ho.1
  obtain ⟨y, hy⟩ := isBalanced_any ht ho.1
  rw [hx, ok_bind, hy, ok_bind]
  split
  · exact fun _ => ho
  · rename_i hc
    intro _
    refine hs ?_
    by_contra h0
    have : m = 0 := by omega
    simp [this] at hc

theorem fromPartitioning_any (P : SetImpl) (hg : g.WF) {p : Partitioning} (ha : p.asg.length = g.nv) :
    ∃ c, Conn.fromPartitioning P g p = ok c := by
  unfold Conn.fromPartitioning
  rw [setupConnections_eq hg ha, ok_bind]
  obtain ⟨c, hc, -⟩ := sat_iff.mp (Conn.ofArray_spec P (n := g.nv)
    (X := fun v => externalWeight g p.lab v % M32) (I := fun v => internalWeight g p.lab v % M32)
    (con := (List.range g.nv).map fun v => (externalWeight g p.lab v % M32, internalWeight g p.lab v % M32))
    (by simp) (fun v hv => by rw [nth_map (by simpa using hv), nth_range hv]))
  exact ⟨c, hc⟩

theorem execute_any (hml : ∀ tot, tot < M32 → E.fp.MultilevelOK tot) (s : Scheme) (hg : g.WF)
    (he : g.sumEdge + 1 < 2147483648) (hvw : g.unitVtx = true → g.vwgt.length = g.nv)
    (hstop : g.nv ≤ 20 ∨ g.ne = 0) (h0 : 0 < g.nv) {t : Target E.fp} (ht : t.Two) (r : E.rng.S) :
    Sat ((makeMultilevel E s).execute t g r) (fun o => Kept g o.1 ∧ (Stuck g t → AllRight g o.1.lab)) := by
  rw [execute_coarsest' hml s hg hstop]
  have : Sat (makeBisector E .bfs 8 t g r) (fun o => Kept g o.1 ∧ (Stuck g t → AllRight g o.1.lab)) :=
    multiBisect_any (R := fun p => Stuck g t → AllRight g p.lab) ht (fun r => bfsBisect_any hg he hvw ht h0 r) (by omega) r
  refine this.bind fun o ho => ?_
  obtain ⟨c, hc⟩ := fromPartitioning_any E.set hg (Tracks.asg_len ho.1)
  rw [hc, ok_bind]
  exact ho

/-! ### The call -/

theorem rbExecute_any_two {bis : Bisector E} (hg : g.WF) {R : Target E.fp → Partitioning → Prop} {t : Target E.fp}
    (hbis : ∀ bt r, IsHalvesTarget t.tw t.mx bt → Sat (bis bt g r) (fun o => Kept g o.1 ∧ R bt o.1))
    (hk : t.k = 2) (htw : t.tw.length = t.k) (hmx : t.mx.length = t.k) (hfp : E.fp.RecursiveOK)
    (hfit : WeightsFit NULL32 t.tw t.mx) (r : E.rng.S) :
    Sat (rbExecute bis t g r) (fun o => o.1.asg.length = g.nv ∧ ∃ bt p, IsHalvesTarget t.tw t.mx bt ∧ R bt p ∧
      ∀ v, v < g.nv → o.1.lab v = p.lab v) := by
  obtain ⟨h, hh, -, fr, hof, hbt⟩ := sat_iff.mp (Wp.post.mp (makeHalves_spec (bu := False) (be := False) (bd := False)
    (by omega) (by omega) htw hmx (M := NULL32) (by omega) (Or.inl ⟨hfp, hfit⟩)))
  unfold rbExecute
  rw [hk]
  unfold rbRecurse
  rw [hh, ok_bind, hof, ok_bind]
  simp only
  obtain ⟨o, ho, hkept, hR⟩ := sat_iff.mp (hbis _ r hbt)
  rw [ho, ok_bind]
  obtain ⟨out, h1, h2⟩ := Mapped.mapPartitioning_spec (mg := ⟨none, g⟩) (labels := Mem.alloc g.nv)
    ⟨fun _ h => (nomatch h), fun v hv => by simpa [superOf, Mem.alloc] using hv, fun u v _ _ h => h⟩
    (Tracks.asg_len hkept) 0
  rw [h1, ok_bind, if_neg (by omega), ok_bind]
  have hlab : ∀ v, v < g.nv → nth out v = some (o.1.lab v) := by
    intro v hv
    have h3 := h2.vals v (List.mem_range.mpr hv)
    have := hkept.lt hv
    simp only [superOf] at h3
    rw [h3, Nat.add_zero, Nat.mod_eq_of_lt (by norm_num; omega)]
  have hout : out = (List.range g.nv).map fun v => some (o.1.lab v) := by
    refine list_ext_nth ?_ fun v hv => ?_
    · rw [h2.len]; simp [Mem.alloc]
    · have hv' : v < g.nv := by rw [h2.len] at hv; simpa [Mem.alloc] using hv
      rw [hlab v hv', nth_map (by simpa using hv'), nth_range hv']
  rw [hout, freeze_some, ok_bind]
  have hl : ∀ v, v < g.nv → nth ((List.range g.nv).map o.1.lab) v = o.1.lab v := fun v hv => by
    rw [nth_map (by simpa using hv), nth_range hv]
  refine (ofLabels_spec hg (k := 2) (labels := (List.range g.nv).map o.1.lab) (by simp)
    (fun v hv => by rw [hl v hv]; exact hkept.lt hv)).bind fun p hp => ?_
  have hpl : p.asg.length = g.nv := by rw [hp.1]; simp
  unfold Partitioning.recalcCut
  rw [sumCut_eq hg hpl, ok_bind, ok_bind]
  refine ⟨hpl, _, o.1, hbt, hR, fun v hv => ?_⟩
  show nth p.asg v = _
  rw [hp.1]
  exact hl v hv

/-- What the chosen labels of a call inherit from every run. -/
theorem call_labels {i : Input} {o : Options E.fp} {P : Prepared E} (hp : prepare E i o = ok P) {n0 : Nat}
    {Q : (Nat → Nat) → Prop}
    (hrun : ∀ r p r', partitioner E P.scheme P.target P.graph r = ok (p, r') → p.asg.length = n0 ∧ Q p.lab)
    (hcuts : 0 < o.numGlobalCuts) {out out' : Out} (h : partGraphRecursive E i (some o) out = (out', ok 1)) :
    ∃ lab, Q lab ∧ ∀ v, v < n0 → nth out'.asg v = lab v := by
  obtain ⟨P', hp', hl⟩ := call_ok h
  rw [hp] at hp'
  cases hp'
  obtain ⟨ps, r', b, h1, h2, h3⟩ := cutsLoop_spec (bis := partitioner E P.scheme) (t := P.target) (g := P.graph)
    (n0 := n0) (fun r p r' hr' => (hrun r p r' hr').1)
    (r0 := E.rng.seed o.randomSeed) (out0 := out) o.numGlobalCuts.toNat 0 0 out _ [] rfl rfl
    (fun p hp => nomatch hp) ⟨fun _ => rfl, fun h => absurd rfl h⟩ (by rw [hl])
  rw [hl] at h3
  rw [Nat.zero_add] at h1 h2
  have hne : ps ≠ [] := by
    rintro rfl
    simp at h2
    omega
  obtain ⟨j, h4, -, h5⟩ := h3.2 hne
  have hall : ∀ {n : Nat} {r : E.rng.S} {ps : List Partitioning} {r' : E.rng.S},
      candidates (partitioner E P.scheme) P.target P.graph n r = ok (ps, r') → ∀ p ∈ ps, p.asg.length = n0 ∧ Q p.lab := by
    intro n
    induction n with
    | zero => intro r ps r' h p hp; cases h; cases hp
    | succ n ih =>
      intro r ps r' h p hp
      obtain ⟨a, h1, h⟩ := bind_eq_ok h
      obtain ⟨c, h2, h⟩ := bind_eq_ok h
      cases h
      rcases List.mem_append.mp hp with hp | hp
      · exact ih h1 p hp
      · rw [List.mem_singleton.mp hp]
        exact hrun _ _ _ h2
  obtain ⟨q1, q2⟩ := hall h1 _ (nth_mem h4.1)
  exact ⟨_, q2, fun v hv => h5.labels v (by omega)⟩

/-- A call as in C104: well-formed arrays, at least one vertex, at most 20 vertices or no edges, weights given, and
edge weights that add up to less than 2^31 - 1. Nothing is said about symmetry, self loops or the total vertex weight. -/
structure Input.Tiny (i : Input) : Prop where
  csr : CSR i.numVertices i.numEdges i.edgePrefix i.edgeList i.vertexWeights i.edgeWeights
  vertices : 0 < i.numVertices
  small : i.numVertices ≤ 20 ∨ i.numEdges = 0
  weights : i.vertexWeights.isSome
  edges : ∑ e ∈ range i.numEdges, weightAt i.edgeWeights e < 2 ^ 31 - 1

/-- The runs of such a call. -/
theorem Input.Tiny.runs (hfp : E.fp.CallOK) {i : Input} (hi : i.Tiny) (hk : i.numPartitions = 2) {o : Options E.fp}
    (ho : o.Known) :
    ∃ P : Prepared E, prepare E i o = ok P ∧ P.graph.nv = i.numVertices ∧
      Target.uniform 2 (i.totalWeight % 2 ^ 32) (E.fp.lit 3 2) = ok P.target ∧ P.target.tw.length = 2 ∧
      ∀ r, Sat (partitioner E P.scheme P.target P.graph r) (fun x => x.1.asg.length = P.graph.nv ∧
        ((i.totalWeight % 2 ^ 32 = 0 ∧ P.target.tw = [0, 0]) → AllRight P.graph x.1.lab)) := by
  have hc := hi.csr
  obtain ⟨g, hg, hr⟩ := ofPtrs_spec hc.nv_lt hc.xadj_len hc.adj_len hc.vw_len hc.aw_len
  have hwf := hc.wf hr
  have htot : g.totVtx = i.totalWeight % 2 ^ 32 := by
    rw [hr.totVtx_eq]
    norm_num
    rfl
  obtain ⟨s, hs⟩ := makeScheme_known ho
  obtain ⟨t, ht, hfit⟩ := hfp.uniform.uniform 2 (i.totalWeight % 2 ^ 32) (le_refl _) (by omega)
    (by have := Nat.mod_lt i.totalWeight (show 0 < 2 ^ 32 by norm_num); norm_num at this ⊢; exact this)
  have hprep : prepare E i o = ok ⟨g, s, t⟩ := by
    unfold prepare
    rw [rd_of_lt (by have := hc.xadj_len; omega), ok_bind]
    rw [show nth i.edgePrefix i.numVertices = i.numEdges from rfl, hg, ok_bind, hs, ok_bind, htot, hk]
    show (Target.uniform 2 _ _ >>= _) = _
    rw [ht, ok_bind]
  obtain ⟨-, h3, -, h4, h5, -⟩ := ofFractions_shape ht
  have hedge : g.sumEdge + 1 < 2147483648 := by
    rw [sumEdge_eq_slots hwf.xadj_zero hwf.xadj_last hwf.xadj_mono, hr.ne_eq,
      sum_congr rfl fun e he => hr.ew_at (mem_range.mp he)]
    have := hi.edges
    norm_num at this
    omega
  have hvw : g.unitVtx = true → g.vwgt.length = g.nv := by
    intro _
    rw [hr.vwgt_eq, hr.nv_eq]
    obtain ⟨l, hl⟩ := Option.isSome_iff_exists.mp hi.weights
    have := hc.vw_len
    rw [hl] at this ⊢
    simp only [shorter, not_lt] at this
    simp only [emptyIfNull, List.length_take]
    omega
  refine ⟨⟨g, s, t⟩, hprep, hr.nv_eq, ht, h4, fun r => ?_⟩
  refine (rbExecute_any_two (R := fun bt p => Stuck g bt → AllRight g p.lab) hwf (fun bt r hbt =>
    execute_any hfp.multilevel s hwf hedge hvw (by rw [hr.nv_eq, hr.ne_eq]; exact hi.small)
      (by rw [hr.nv_eq]; exact hi.vertices) hbt.two r) h3 (by rw [h3]; exact h4) (by rw [h3]; exact h5) hfp.recursive hfit
      r).mono fun x hx => ⟨hx.1, fun h0 => ?_⟩
  obtain ⟨-, bt, p, hbt, hR, hl⟩ := hx
  intro v hv
  rw [hl v hv]
  refine hR ⟨?_, by rw [htot]; exact h0.1⟩ v hv
  rw [hbt.left, h0.2]
  rfl

/-- **C104.** A call for two parts of a small graph given in well-formed arrays with vertex weights returns 1 with labels
below 2 and the halved listed cut, even if the graph is directed, has self loops, parallel edges, or a total vertex weight
beyond 2^32. -/
theorem C104_small_any (hfp : E.fp.CallOK) {i : Input} (hi : i.Tiny) (hk : i.numPartitions = 2) {o : Options E.fp}
    (ho : o.Known) (hcuts : 0 < o.numGlobalCuts) {out : Out} (hb : i.numVertices ≤ out.asg.length) :
    ∃ out', partGraphRecursive E i (some o) out = (out', ok 1) ∧ (∀ v, v < i.numVertices → nth out'.asg v < 2) ∧
      out'.cut = i.listedCut (nth out'.asg) % 2 ^ 32 / 2 ∧ out'.asg.length = out.asg.length ∧
      ∀ v, i.numVertices ≤ v → nth out'.asg v = nth out.asg v := by
  obtain ⟨P, hp, hnv, -, -, hrun⟩ := hi.runs hfp hk ho
  have h := call_total hp (fun r => by
    obtain ⟨x, hx, h1, -⟩ := sat_iff.mp (hrun r)
    exact ⟨x.1, x.2, hx, h1⟩) (out := out) (by omega)
  have he : partGraphRecursive E i (some o) out = ((partGraphRecursive E i (some o) out).1, ok 1) := Prod.ext rfl h
  obtain ⟨h1, h2⟩ := C93_any_graph hi.csr hcuts he
  rw [hk] at h1
  exact ⟨_, he, h1, h2⟩

/-- **C104.** In binary64: if the total vertex weight of such a graph is a multiple of 2^32, every vertex is put into part 1
and the reported cut is 0. -/
theorem C104_weight_wraps [Concrete.Log2Impl] {pq : PQImpl} {set : SetImpl} {rng : RngImpl} {i : Input} (hi : i.Tiny)
    (hk : i.numPartitions = 2) (hw : i.totalWeight % 2 ^ 32 = 0) {o : Options Concrete.fp} (ho : o.Known)
    (hcuts : 0 < o.numGlobalCuts) {out : Out} (hb : i.numVertices ≤ out.asg.length) :
    ∃ out', partGraphRecursive (dblEnv pq set rng) i (some o) out = (out', ok 1) ∧
      (∀ v, v < i.numVertices → nth out'.asg v = 1) ∧ out'.cut = 0 := by
  obtain ⟨out', h, -, hcut, -⟩ := C104_small_any (E := dblEnv pq set rng) Concrete.callOK hi hk ho hcuts hb
  obtain ⟨P, hp, hnv, ht, hl, hrun⟩ := hi.runs (E := dblEnv pq set rng) Concrete.callOK hk ho
  have htw : P.target.tw = [0, 0] := by
    rw [hw] at ht
    have := evenShares (fp := Concrete.fp) ht
    obtain ⟨b, e, -⟩ := even_two (W := 0) (by omega) this
    exact e
  obtain ⟨lab, hQ, hlab⟩ := call_labels (Q := AllRight P.graph) (n0 := i.numVertices) hp (fun r p r' hr => by
    obtain ⟨x, hx, h1, h2⟩ := sat_iff.mp (hrun r)
    rw [hr] at hx
    cases hx
    exact ⟨h1.trans hnv, h2 ⟨hw, htw⟩⟩) hcuts h
  have hone : ∀ v, v < i.numVertices → nth out'.asg v = 1 := fun v hv => by
    rw [hlab v hv]; exact hQ v (by rw [hnv]; exact hv)
  refine ⟨out', h, hone, ?_⟩
  rw [hcut]
  have : i.listedCut (nth out'.asg) = 0 := by
    rw [listedCut_eq hi.csr]
    refine sum_eq_zero fun v hv => sum_eq_zero fun u hu => if_neg ?_
    rw [hone v (mem_range.mp hv), hone u (mem_range.mp hu)]
    simp
  rw [this]
  rfl

/-- Three vertices: an edge listed only at its tail, a self loop and two parallel edges; the weights add up to 2^32. -/
def wildIn : Input :=
  { numVertices := 3, edgePrefix := [0, 2, 4, 4], edgeList := [1, 0, 2, 2],
    vertexWeights := some [4294967290, 4, 2], edgeWeights := some [7, 3, 5, 1], numPartitions := 2 }

/-- The same graph with moderate weights. -/
def wildIn' : Input := { wildIn with vertexWeights := some [4, 1, 2] }

/-- The hypotheses are met by a directed graph with a self loop and parallel edges. -/
example : wildIn.Tiny ∧ wildIn'.Tiny ∧ wildIn.totalWeight % 2 ^ 32 = 0 ∧ (Ex.cuts 1).Known ∧
    0 < (Ex.cuts 1).numGlobalCuts ∧
    partGraphRecursive Concrete.env wildIn (some (Ex.cuts 1)) Ex.before =
      ({ cut := 0, asg := [1, 1, 1, 9, 9, 9, 9, 9] }, ok 1) ∧
    partGraphRecursive Concrete.env wildIn' (some (Ex.cuts 1)) Ex.before =
      ({ cut := 3, asg := [1, 0, 0, 9, 9, 9, 9, 9] }, ok 1) :=
  ⟨⟨by constructor <;> decide +kernel, by decide, Or.inl (by decide), rfl, by decide +kernel⟩,
    ⟨by constructor <;> decide +kernel, by decide, Or.inl (by decide), rfl, by decide +kernel⟩, by decide +kernel, Or.inr rfl,
    by decide, by decide +kernel, by decide +kernel⟩

end Poros
