import Verif.Proofs.DebugFM
/-
Vertices of weighted degree 0 and the assertions of the debug build.
-/
namespace Poros
open Res Finset

/-- A vertex whose edges, if it has any, all have weight 0. -/
structure Weightless (g : Graph) (w : Nat) : Prop where
  lt : w < g.nv
  deg : g.wsum w (fun _ => true) = 0

/-- The vertex has no connectivity and is not in the border. -/
structure LoneOut {P : SetImpl} (w : Nat) (c : Conn P) : Prop where
  val : nth c.con w = (0, 0)
  out : P.has c.border.s w = false

theorem updateBorder_lone {P : SetImpl} {c c' : Conn P} {v w : Nat} {st : BorderStatus}
    (h : c.updateBorderStatus v = ok (st, c')) (hw : nth c.con w = (0, 0)) (ho : v = w ∨ P.has c.border.s w = false) :
    LoneOut w c' := by
  unfold Conn.updateBorderStatus VSet.has at h
  split at h
  · cases h
  simp only [ok_bind] at h
  unfold rd at h
  by_cases hlt : v < c.con.length
  swap
  · rw [List.getElem?_eq_none (by omega)] at h
    cases h
  have hx : c.con[v]? = some (nth c.con v) := by
    rw [List.getElem?_eq_getElem hlt]; simp [nth, hlt]
  rw [hx] at h
  simp only [ok_bind] at h
  split at h
  · rename_i hin
    split at h
    · unfold VSet.remove at h
      split at h
      · cases h
      simp only [ok_bind] at h
      cases h
      refine ⟨hw, ?_⟩
      show P.has (P.del c.border.s v) w = false
      rw [P.has_del]
      rcases ho with rfl | ho
      · simp
      · rw [ho]; simp
    · rename_i hne
      cases h
      rcases ho with rfl | ho
      · rw [hw] at hne; exact absurd rfl hne
      · exact ⟨hw, ho⟩
  · rename_i hin
    split at h
    · rename_i hgt
      unfold VSet.add at h
      split at h
      · cases h
      simp only [ok_bind] at h
      cases h
      have hvw : w ≠ v := by rintro rfl; rw [hw] at hgt; exact absurd hgt (by simp)
      refine ⟨hw, ?_⟩
      show P.has (P.ins c.border.s v) w = false
      rw [P.has_ins]
      rcases ho with rfl | ho
      · exact absurd rfl hvw
      · simp [hvw, ho]
    · cases h
      rcases ho with rfl | ho
      · exact ⟨hw, by simpa using hin⟩
      · exact ⟨hw, ho⟩

variable {E : Env}

theorem fmEdge_lone {queues : Bool} {dst w : Nat} {s s' : FMState E} {q : Nat × Nat} (hq : q.1 = w → q.2 = 0)
    (h : fmEdge queues dst s q = ok s') (hl : LoneOut w s.conn) : LoneOut w s'.conn := by
  have hset : ∀ (a b : FMState E) k x, FMState.setQ a k x = ok b → b.conn = a.conn := by
    intro a b k x hh
    unfold FMState.setQ at hh
    split at hh
    · cases hh; rfl
    · split at hh
      · cases hh; rfl
      · cases hh
  have key : Post True (fmEdge queues dst s q) (fun s' => LoneOut w s'.conn) := by
    unfold fmEdge
    refine Post.bind (Post_any _) fun _ _ => Post.bind (Post_any _) fun dir _ =>
      Post.bind (Q := fun x : BorderStatus × Conn E.set => LoneOut w x.2) ?_ fun x hx => ?_
    · unfold Conn.updateNeighbor
      refine Post.bind (Post_eq _) fun x hx => Post.bind (Post_eq _) fun con hcon => ?_
      refine may_iff.mpr fun y hy => updateBorder_lone hy ?_ (Or.inr hl.out)
      have hlt : q.1 < s.conn.con.length := by
        by_contra hc
        unfold rd at hx
        rw [List.getElem?_eq_none (by omega)] at hx
        cases hx
      rw [rd_of_lt hlt] at hx
      cases hx
      rw [wr_of_lt hlt] at hcon
      cases hcon
      show nth (s.conn.con.set q.1 _) w = _
      rw [nth_set hlt]
      split
      · rename_i e
        have h0 := hq e.symm
        rw [← e, hl.val, h0]
        have : umulI dir 0 = 0 := by simp [umulI]
        rw [this]
        rfl
      · exact hl.val
    · obtain ⟨st, conn⟩ := x
      simp only at hx ⊢
      split
      · refine Post.bind (Post_any _) fun vis _ => ?_
        split
        · exact hx
        · cases st <;> simp only
          · refine Post.bind (Post_any _) fun _ _ => Post.bind (Post_any _) fun _ _ => Post.bind (Post_any _) fun _ _ =>
              Post.bind (Post_any _) fun _ _ => may_iff.mpr fun b hb => by rw [hset _ b _ _ hb]; exact hx
          · refine Post.bind (Post_any _) fun _ _ => Post.bind (Post_any _) fun _ _ =>
              may_iff.mpr fun b hb => by rw [hset _ b _ _ hb]; exact hx
          · refine Post.bind (Post_any _) fun _ _ => Post.bind (Post_any _) fun _ _ => Post.bind (Post_any _) fun _ _ =>
              Post.bind (Post_any _) fun _ _ => may_iff.mpr fun b hb => by rw [hset _ b _ _ hb]; exact hx
          · exact hx
      · exact hx
  exact may_iff.mp key s' h

theorem Weightless.zero {g : Graph} (hg : g.Good) {w : Nat} (hw : Weightless g w) (lab : Nat → Nat) :
    externalWeight g lab w = 0 ∧ internalWeight g lab w = 0 := by
  have := internal_add_external hg.wf lab hw.lt
  have := hw.deg
  omega

theorem wsum_zero {g : Graph} {w : Nat} (h : g.wsum w (fun _ => true) = 0) : ∀ q ∈ g.nbrs w, q.2 = 0 := by
  intro q hq
  unfold Graph.wsum at h
  have := List.le_sum_of_mem (List.mem_map.mpr ⟨q, hq, rfl⟩ :
    (if (fun _ : Nat => true) q.1 = true then q.2 else 0) ∈ (g.nbrs w).map fun q => if (fun _ : Nat => true) q.1 = true then q.2 else 0)
  simp only [if_true] at this h
  omega

/-- Edges into a lone vertex weigh nothing. -/
theorem Weightless.into {g : Graph} (hg : g.Good) {w : Nat} (hw : Weightless g w) {v : Nat} (hv : v < g.nv) {q : Nat × Nat}
    (hq : q ∈ g.nbrs v) (e : q.1 = w) : q.2 = 0 := by
  have h1 : g.wt w v = 0 := by
    unfold Graph.wt Graph.wsum
    refine List.sum_eq_zero_iff.mpr ?_
    intro x hx
    obtain ⟨p, hp, rfl⟩ := List.mem_map.mp hx
    have := wsum_zero hw.deg p hp
    split <;> simp_all
  rw [hg.symm w v hw.lt hv] at h1
  unfold Graph.wt Graph.wsum at h1
  have := List.sum_eq_zero_iff.mp h1 _ (List.mem_map.mpr ⟨q, hq, rfl⟩)
  simpa [e] using this

/-- A move of `w` takes it out of the border, no move puts it in. -/
theorem fmMove_lone {g : Graph} (hg : g.Good) {w : Nat} (hw : Weightless g w) {queues : Bool} {s s' : FMState E}
    (hs : FMGood g s) {v dst : Nat} (hv : v < g.nv) (ho : v = w ∨ E.set.has s.conn.border.s w = false)
    (h : fmMove g queues v dst s = ok s') : E.set.has s'.conn.border.s w = false := by
  have hval : nth s.conn.con w = (0, 0) := by
    rw [hs.conn.vals w hw.lt, (hw.zero hg _).1, (hw.zero hg _).2]
  suffices H : Post True (fmMove g queues v dst s) (fun s' : FMState E => LoneOut w s'.conn) from
    (may_iff.mp H s' h).out
  unfold fmMove
  refine Post.bind (Post_any _) fun d _ => Post.bind (Q := fun x : BorderStatus × Conn E.set => LoneOut w x.2) ?_
    fun x hx => Post.bind (Post_any _) fun p _ => Post.bind (Post_eq _) fun ns hns => ?_
  · unfold Conn.move
    rw [rd_of_lt (by rw [hs.conn.len]; exact hv), ok_bind, wr_of_lt (by rw [hs.conn.len]; exact hv), ok_bind]
    refine may_iff.mpr fun y hy => updateBorder_lone hy ?_ ho
    show nth (s.conn.con.set v _) w = _
    rw [nth_set (by rw [hs.conn.len]; exact hv)]
    split
    · rename_i e; rw [← e, hval]
    · exact hval
  · obtain ⟨st, conn⟩ := x
    rw [Graph.nbrsOf_eq hg.wf hv] at hns
    cases hns
    refine Post_foldlM_inv (P := fun s' : FMState E => LoneOut w s'.conn) hx fun q s1 hq h1 => ?_
    exact may_iff.mpr fun s2 h2 => fmEdge_lone (hw.into hg hv hq) h2 h1

theorem verify_lone {g : Graph} (hg : g.Good) {w : Nat} (hw : Weightless g w) {s : FMState E} (h : FMGood g s)
    (ho : E.set.has s.conn.border.s w = false) : s.conn.verify g s.part = ok false := by
  obtain ⟨b, hb1, hb2⟩ := verify_eq hg.wf hg.small h.part.asg_len h.conn.len h.conn.cap
    (fun v hv => (h.conn.border_only v ((E.set.mem_elems _ _).mp hv)).1)
  rw [hb1]
  cases b with
  | false => rfl
  | true =>
    exfalso
    have := (E.set.mem_elems _ _).mp (((hb2.mp rfl).2 w).mpr ⟨hw.lt, Or.inr (hw.zero hg _).2⟩)
    rw [ho] at this
    cases this

/-- The step visits the vertex it moves. -/
theorem fmStep_lone {g : Graph} (hg : g.Good) {w : Nat} (hw : Weightless g w) {t : Target E.fp} (ht : t.Two)
    {lab0 : Nat → Nat} {ps ps' : PassState E} (h : PassInv g t lab0 ps) (hne : ps.s.q0.size > 0 ∨ ps.s.q1.size > 0)
    (hout : nth ps.s.visited w = true → E.set.has ps.s.conn.border.s w = false) (hs : fmStep g t ps = ok ps') :
    nth ps'.s.visited w = true → E.set.has ps'.s.conn.border.s w = false := by
  obtain ⟨-, -, side, v, hpick, hside, hsz, hv, hvn, -, hvis, -⟩ := (fmStep_spec hg ht h hne).elim_ok hs
  intro hwv
  rw [hvis, nth_set_true (by rw [h.queues.vis]; exact hvn)] at hwv
  suffices H : Post True (fmStep g t ps) (fun ps' : PassState E => E.set.has ps'.s.conn.border.s w = false) from
    may_iff.mp H ps' hs
  unfold fmStep
  rw [hpick, ok_bind]
  simp only
  rw [FMState.getQ_eq hside, ok_bind]
  obtain ⟨m, hm, _⟩ := VQueue.top_of_size hsz
  have hpop : (ps.s.qsel side).pop = ok (v, { ps.s.qsel side with q := E.pq.del (ps.s.qsel side).q v }) := by
    unfold VQueue.pop; rw [hm, ← hv]
  rw [hpop, ok_bind]
  simp only
  rw [FMState.setQ_eq hside, ok_bind]
  refine Post.bind (Post_any _) fun vis _ => ?_
  have e_part : (FMState.qset ps.s side { ps.s.qsel side with q := E.pq.del (ps.s.qsel side).q v }).part = ps.s.part :=
    FMState.qset_part _ _ _
  have e_conn : (FMState.qset ps.s side { ps.s.qsel side with q := E.pq.del (ps.s.qsel side).q v }).conn = ps.s.conn :=
    FMState.qset_conn _ _ _
  refine Post.bind (Post_eq _) fun s2 hs2 => Post.bind (Post_any _) fun bal _ => Post.bind (Post_any _) fun b _ => ?_
  have hfin : E.set.has s2.conn.border.s w = false := by
    refine fmMove_lone hg hw (s := _) ⟨?_, ?_⟩ hvn ?_ hs2
    · show IsExact g 2 (FMState.qset ps.s side _).part
      rw [e_part]; exact h.good.part
    · show ConnExact g (FMState.qset ps.s side _).part.lab (FMState.qset ps.s side _).conn
      rw [e_part, e_conn]; exact h.good.conn
    · show v = w ∨ E.set.has (FMState.qset ps.s side _).conn.border.s w = false
      rw [e_conn]
      exact hwv.elim (fun e => Or.inl e.symm) fun e => Or.inr (hout e)
  split
  · exact hfin
  · exact hfin

theorem fmLoop_lone {g : Graph} (hg : g.Good) {w : Nat} (hw : Weightless g w) {t : Target E.fp} (ht : t.Two)
    {lab0 : Nat → Nat} (maxBad fuel : Nat) {ps ps' : PassState E} (h : PassInv g t lab0 ps)
    (hout : nth ps.s.visited w = true → E.set.has ps.s.conn.border.s w = false)
    (hs : fmLoop g t maxBad fuel ps = ok ps') :
    nth ps'.s.visited w = true → E.set.has ps'.s.conn.border.s w = false := by
  induction fuel generalizing ps with
  | zero => cases hs
  | succ fuel ih =>
    unfold fmLoop at hs
    split at hs
    · rename_i hc
      cases h1 : fmStep g t ps with
      | ok ps1 =>
        rw [h1, ok_bind] at hs
        exact ih ((fmStep_spec hg ht h hc.1).elim_ok h1).1 (fmStep_lone hg hw ht h hc.1 hout h1) hs
      | ub => rw [h1] at hs; cases hs
      | exn => rw [h1] at hs; cases hs
      | diverge => rw [h1] at hs; cases hs
    · cases hs
      exact hout

/-- A full list of distinct vertices contains every vertex. -/
theorem mem_of_full {n : Nat} {l : List Nat} (hn : l.Nodup) (h : ∀ v ∈ l, v < n) (hl : n ≤ l.length) {w : Nat}
    (hw : w < n) : w ∈ l := by
  by_contra hc
  have := nodup_le (n := n) (l := w :: l) (List.nodup_cons.mpr ⟨hc, hn⟩) (by
    intro v hv
    rcases List.mem_cons.mp hv with rfl | hv
    · exact hw
    · exact h v hv)
  simp at this
  omega

/-- With a vertex of weighted degree 0 and no more vertices than bad moves allowed, the debug build of a pass fails an
assertion. -/
theorem fmPassD_lone {g : Graph} (hg : g.Good) {w : Nat} (hw : Weightless g w) {t : Target E.fp} (ht : t.Two)
    {maxBad : Nat} (hb : g.nv ≤ maxBad) {s : FMState E} (hs : FMGood g s) (hfr : FMFresh g s) :
    fmPassD g t maxBad s = exn := by
  unfold fmPassD
  have himb : ∀ {p : Partitioning}, IsExact g 2 p → calcMaxImbalanceD g p t = exn ∨
      calcMaxImbalanceD g p t = ok (maxImbalance g t p.lab) := by
    intro p hp
    rcases imbD_close (H := False) (g := g) ht (fun h => h.elim) hp.pw_len with e | ⟨-, e⟩
    · rw [e, calcMaxImbalance_eq ht hp]; exact Or.inr rfl
    · exact Or.inl e
  rcases himb hs.part with e | e
  · rw [e]; rfl
  rw [e, ok_bind]
  obtain ⟨s1, hs1e, hp1, hc1, hv1, hq1⟩ := sat_iff.mp (fillQueues_spec hg hs hfr)
  have hs1 : FMGood g s1 := ⟨by rw [hp1]; exact hs.part, by rw [hp1, hc1]; exact hs.conn⟩
  rw [hs1e, ok_bind]
  rcases himb hs1.part with e | e
  · rw [e]; rfl
  rw [e, ok_bind]
  have h0 : PassInv g t s.part.lab
      { s := s1, moves := [], bestCut := s1.part.cut, bestBal := maxImbalance g t s1.part.lab, numMoved := 0 } := by
    refine ⟨hs1, hq1, [], by simp, ?_, rfl, by simp [hp1], ?_, by simp [hp1], ImprovesStar.refl _⟩
    · intro v
      simp only [List.append_nil, List.not_mem_nil, false_iff, not_and]
      intro hv
      rw [hv1, hfr.visited, nth_replicate hv]; simp
    · show s1.part.cut = cutWeight g s.part.lab
      rw [hs1.part.cut_eq, hp1]
  rcases fmLoopD_close (H := False) hg ht (fun h => h.elim) maxBad (g.nv + 1) h0 with e | ⟨-, e⟩
  swap
  · rw [e]; rfl
  obtain ⟨ps, hps', hps, hstop⟩ := sat_iff.mp (fmLoop_spec hg ht maxBad (g.nv + 1) h0
    (by show g.nv < g.nv + 1 + 0; omega))
  rw [e, hps', ok_bind]
  have hvis : nth s1.visited w = false := by rw [hv1, hfr.visited, nth_replicate hw.lt]
  have hout := fmLoop_lone hg hw ht maxBad (g.nv + 1) h0 (fun h => by rw [hvis] at h; cases h) hps'
  have hnot : E.set.has ps.s.conn.border.s w = false := by
    cases hv : nth ps.s.visited w with
    | true => exact hout hv
    | false =>
      obtain ⟨kept, hnd, hmem, -⟩ := hps.best
      have hlt : ps.moves.length < maxBad := by
        by_contra hc
        have hk : w ∈ kept ++ ps.moves := mem_of_full hnd (fun v hv => ((hmem v).mp hv).1)
          (by rw [List.length_append]; omega) hw.lt
        rw [((hmem w).mp hk).2] at hv
        cases hv
      cases hh : E.set.has ps.s.conn.border.s w with
      | false => rfl
      | true =>
        exfalso
        apply hstop
        refine ⟨?_, hlt⟩
        have hl2 := hps.good.part.complete w hw.lt
        have hkey := hps.queues.keys _ hl2 w
        unfold expectKey at hkey
        rw [if_pos ⟨hw.lt, hv, rfl, hh⟩] at hkey
        have hsz := VQueue.size_pos_iff.mpr ⟨w, _, hkey⟩
        have : ps.s.part.lab w = 0 ∨ ps.s.part.lab w = 1 := by omega
        rcases this with e | e <;> rw [e] at hsz
        · exact Or.inl hsz
        · exact Or.inr hsz
  rw [verify_lone hg hw hps.good hnot, ok_bind, check_false (by simp)]
  rfl

theorem fmRefineD_lone {g : Graph} (hg : g.Good) {w : Nat} (hw : Weightless g w) {t : Target E.fp} (ht : t.Two)
    {maxIters maxMoves b : Nat} (hi : 0 < maxIters) (hb : maxBadMoves E.fp maxMoves g.nv = ok b) (hn : g.nv ≤ b)
    {p : Partitioning} {c : Conn E.set} (hp : IsExact g 2 p) (hc : ConnExact g p.lab c) :
    fmRefineD g t maxIters maxMoves p c = exn := by
  obtain ⟨m, rfl⟩ : ∃ m, maxIters = m + 1 := ⟨maxIters - 1, by omega⟩
  unfold fmRefineD
  rw [hb, ok_bind]
  unfold fmItersD
  have := fmPassD_lone hg hw ht hn (s := startState E g p c) ⟨hp, hc⟩ (start_fresh E g p c)
  unfold startState at this
  rw [this]
  rfl

end Poros
