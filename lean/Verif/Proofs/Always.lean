/-
No function of the partitioning pipeline throws or runs forever, whatever graph it is given.
-/
import Verif.Proofs.Api

namespace Poros

open Finset Res

variable {E : Env} {be : Prop} {g : Graph}

/-! ### Rules -/

theorem Stops.ok (a : α) : Stops be (Res.ok a) := trivial

theorem Stops.ub : Stops be (Res.ub : Res α) := trivial

theorem Stops.bind {r : Res α} {f : α → Res β} (h : Stops be r) (hf : ∀ a, Stops be (f a)) : Stops be (r >>= f) :=
  EndsE.bind h fun a _ => hf a

theorem Stops.foldlM {f : σ → α → Res σ} {l : List α} {s : σ} (h : ∀ s x, Stops be (f s x)) : Stops be (l.foldlM f s) :=
  EndsE.foldlM (fun _ _ => True) trivial fun _ x _ s _ _ => h s x

theorem Stops.mapM {f : α → Res β} {l : List α} (h : ∀ x, Stops be (f x)) : Stops be (l.mapM f) := by
  induction l with
  | nil => exact Stops.ok _
  | cons x xs ih =>
    rw [List.mapM_cons]
    exact (h x).bind fun _ => ih.bind fun _ => Stops.ok _

open Lean in
/-- Follow the structure of a program, using the given lemmas for its calls. -/
macro "stops" "[" ts:term,* "]" : tactic => do
  let alts ← ts.getElems.mapM fun t => `(tacticSeq| with_reducible apply $t)
  `(tactic| repeat' (first
    | intro _
    | with_reducible exact Stops.ok _
    | with_reducible exact Stops.ub
    | with_reducible exact Stops.rd _ _
    | with_reducible exact Stops.wr _ _ _
    | with_reducible apply Stops.bind
    | with_reducible apply Stops.foldlM
    | with_reducible apply Stops.mapM
    $[| $alts]*
    | split))

theorem Stops.memRd (m : Mem) (i : Nat) : Stops be (m.rd i) := by unfold Mem.rd; stops []
theorem Stops.memWr (m : Mem) (i x : Nat) : Stops be (m.wr i x) := by unfold Mem.wr; stops []
theorem Stops.freeze (m : Mem) : Stops be m.freeze := by unfold Mem.freeze; stops []
theorem Stops.isub (a b : Int) : Stops be (isub a b) := by unfold Poros.isub; stops []
theorem Stops.ineg (a : Int) : Stops be (ineg a) := by unfold Poros.ineg; stops [Stops.isub]
theorem Stops.cast {fp : FP} (x : fp.F) : Stops be (fp.cast x) := by unfold FP.cast; stops []

section
variable {P : PQImpl} (q : VQueue P)
theorem Stops.qAdd (k : Int) (v : Nat) : Stops be (q.add k v) := by unfold VQueue.add; stops []
theorem Stops.qRemove (v : Nat) : Stops be (q.remove v) := by unfold VQueue.remove; stops []
theorem Stops.qUpdate (k : Int) (v : Nat) : Stops be (q.update k v) := by unfold VQueue.update; stops []
theorem Stops.qDelta (k : Int) (v : Nat) : Stops be (q.updateByDelta k v) := by unfold VQueue.updateByDelta; stops [Stops.isub]
theorem Stops.qContains (v : Nat) : Stops be (q.contains v) := by unfold VQueue.contains; stops []
theorem Stops.qPeek : Stops be q.peek := by unfold VQueue.peek; stops []
theorem Stops.qMax : Stops be q.max := by unfold VQueue.max; stops []
theorem Stops.qPop : Stops be q.pop := by unfold VQueue.pop; stops []
end

section
variable {P : SetImpl} (s : VSet P) (v : Nat)
theorem Stops.sHas : Stops be (s.has v) := by unfold VSet.has; stops []
theorem Stops.sAdd : Stops be (s.add v) := by unfold VSet.add; stops []
theorem Stops.sRemove : Stops be (s.remove v) := by unfold VSet.remove; stops []
end

/-! ### Graphs and partitionings -/

theorem Stops.edgesOf (g : Graph) (v : Nat) : Stops be (g.edgesOf v) := by unfold Graph.edgesOf; stops []
theorem Stops.degreeOf (g : Graph) (v : Nat) : Stops be (g.degreeOf v) := by unfold Graph.degreeOf; stops []
theorem Stops.nbrsOf (g : Graph) (has : Bool) (v : Nat) : Stops be (g.nbrsOf has v) := by
  unfold Graph.nbrsOf Graph.dest Graph.ewgt; stops [Stops.edgesOf]
theorem Stops.sumWeights (n : Nat) (w : List Nat) : Stops be (sumWeights n w) := by
  unfold Poros.sumWeights
  stops []
theorem Stops.graphMake (a b c d : List Nat) : Stops be (Graph.make a b c d) := by
  unfold Graph.make
  generalize usub a.length 1 = n
  with_reducible refine Stops.bind (Stops.sumWeights n c) fun x => ?_
  with_reducible refine Stops.bind (Stops.sumWeights b.length d) fun y => ?_
  with_reducible exact Stops.ok _
section
attribute [local irreducible] EndsE
theorem Stops.ofPtrs (nv ne : Nat) (a b : List Nat) (c d : Option (List Nat)) : Stops be (Graph.ofPtrs nv ne a b c d) := by
  unfold Graph.ofPtrs
  split
  · exact Stops.ub
  · exact Stops.graphMake _ _ _ _
end
theorem Stops.sumPart (g : Graph) (has : Bool) (a pw : List Nat) : Stops be (sumPartitionWeight g has a pw) := by
  unfold sumPartitionWeight; stops [Stops.vwgtOf]
theorem Stops.sumCut (g : Graph) (has : Bool) (a : List Nat) : Stops be (sumCutEdgeWeight g has a) := by
  unfold sumCutEdgeWeight; stops [Stops.nbrsOf]
theorem Stops.ofLabels (k : Nat) (g : Graph) (l : List Nat) : Stops be (Partitioning.ofLabels k g l) := by
  unfold Partitioning.ofLabels; stops [Stops.sumPart, Stops.sumCut]
theorem Stops.recalcCut (g : Graph) (p : Partitioning) : Stops be (p.recalcCut g) := by
  unfold Partitioning.recalcCut; stops [Stops.sumCut]
theorem Stops.assignAll (g : Graph) (q : Nat) (p : Partitioning) : Stops be (p.assignAll g q) := by
  unfold Partitioning.assignAll; stops []
theorem Stops.assign (g : Graph) (v q : Nat) (p : Partitioning) : Stops be (p.assign g v q) := by
  unfold Partitioning.assign; stops [Stops.vwgtOf]
theorem Stops.counts (p : Partitioning) : Stops be p.calcVertexCounts := by
  unfold Partitioning.calcVertexCounts; stops []

section
variable {fp : FP} (p : Partitioning) (t : Target fp)
theorem Stops.overWeight (q : Nat) : Stops be (isOverWeight p t q) := by unfold isOverWeight; stops []
theorem Stops.balanced : Stops be (isBalanced p t) := by unfold isBalanced; stops [Stops.overWeight]
theorem Stops.maxImbalance (g : Graph) : Stops be (calcMaxImbalance g p t) := by
  unfold calcMaxImbalance findMax getImbalance getFraction; stops []
end

/-! ### Connectivity and refinement -/

section
variable {P : SetImpl}
theorem Stops.direction (a b : Nat) : Stops be (getDirection a b) := by unfold getDirection; stops [Stops.isub, Stops.ineg]
theorem Stops.setupConn (g : Graph) (has : Bool) (p : Partitioning) : Stops be (setupConnections g has p) := by
  unfold setupConnections; stops [Stops.nbrsOf]
theorem Stops.connArray (P : SetImpl) (a : List (Nat × Nat)) : Stops be (Conn.ofArray P a) := by
  unfold Conn.ofArray; stops [Stops.sAdd]
theorem Stops.connNew (P : SetImpl) (g : Graph) (p : Partitioning) : Stops be (Conn.fromPartitioning P g p) := by
  unfold Conn.fromPartitioning; stops [Stops.setupConn, Stops.connArray]
theorem Stops.border (c : Conn P) (v : Nat) : Stops be (c.updateBorderStatus v) := by
  unfold Conn.updateBorderStatus; stops [Stops.sHas, Stops.sAdd, Stops.sRemove]
theorem Stops.connMove (c : Conn P) (v : Nat) : Stops be (c.move v) := by unfold Conn.move; stops [Stops.border]
theorem Stops.neighbor (c : Conn P) (u w : Nat) (d : Int) : Stops be (c.updateNeighbor u w d) := by
  unfold Conn.updateNeighbor; stops [Stops.border]
theorem Stops.delta (c : Conn P) (v : Nat) : Stops be (c.delta v) := by unfold Conn.delta; stops [Stops.isub]
end

theorem Stops.getQ (s : FMState E) (i : Nat) : Stops be (s.getQ i) := by unfold FMState.getQ; stops []
theorem Stops.setQ (s : FMState E) (i : Nat) (q : VQueue E.pq) : Stops be (s.setQ i q) := by unfold FMState.setQ; stops []
theorem Stops.pickSide (s : FMState E) (t : Target E.fp) : Stops be (pickSide s t) := by
  unfold Poros.pickSide; stops [Stops.overWeight, Stops.qMax, Stops.qPeek]
theorem Stops.fmEdge (b : Bool) (dst : Nat) (s : FMState E) (q : Nat × Nat) : Stops be (fmEdge b dst s q) := by
  unfold Poros.fmEdge
  stops [Stops.direction, Stops.neighbor, Stops.delta, Stops.ineg, Stops.getQ, Stops.setQ, Stops.qAdd, Stops.qRemove, Stops.qUpdate]
theorem Stops.fmMove (g : Graph) (b : Bool) (v dst : Nat) (s : FMState E) : Stops be (fmMove g b v dst s) := by
  unfold Poros.fmMove
  stops [Stops.delta, Stops.connMove, Stops.move, Stops.nbrsOf, Stops.fmEdge]
theorem Stops.fill (s : FMState E) : Stops be (fillQueues s) := by
  unfold fillQueues
  stops [Stops.delta, Stops.ineg, Stops.getQ, Stops.setQ, Stops.qAdd]
theorem Stops.undo (g : Graph) (l : List Nat) (s : FMState E) : Stops be (fmUndo g l s) := by
  unfold fmUndo
  stops [Stops.fmMove]
theorem Stops.fmStep (g : Graph) (t : Target E.fp) (ps : PassState E) : Stops be (fmStep g t ps) := by
  unfold Poros.fmStep
  stops [Stops.pickSide, Stops.getQ, Stops.setQ, Stops.qPop, Stops.fmMove, Stops.maxImbalance, Stops.balanced]

/-! ### The loop of a pass ends -/

/-- What bounds the number of moves of a pass: the queues hold unmarked vertices only, each in the queue of its side. -/
def Marked (s : FMState E) : Prop :=
  ∀ u, ((E.pq.key s.q0.q u).isSome → s.visited[u]? ≠ some true ∧ s.part.asg[u]? = some 0) ∧
    ((E.pq.key s.q1.q u).isSome → s.visited[u]? ≠ some true ∧ s.part.asg[u]? = some 1)

theorem rd_some {l : List α} {i : Nat} {a : α} (h : rd l i = ok a) : l[i]? = some a := by
  unfold rd at h
  cases hl : l[i]? with
  | none => rw [hl] at h; cases h
  | some b => rw [hl] at h; cases h; rfl

/-- Adding, updating or removing an unmarked vertex in the queue of its side. -/
theorem Marked.setQ {s s' : FMState E} (h : Marked s) {u side : Nat} {q : VQueue E.pq} (hv : s.visited[u]? ≠ some true)
    (ha : s.part.asg[u]? = some side) {q0 : VQueue E.pq} (hq0 : s.getQ side = ok q0)
    (hq : ∀ x, (E.pq.key q.q x).isSome → x = u ∨ (E.pq.key q0.q x).isSome) (hs : s.setQ side q = ok s') : Marked s' := by
  unfold FMState.getQ at hq0
  unfold FMState.setQ at hs
  intro x
  split at hs
  · rename_i h0
    rw [if_pos h0] at hq0
    cases hq0
    cases hs
    refine ⟨fun hx => ?_, (h x).2⟩
    rcases hq x hx with rfl | hx
    · exact ⟨hv, by rw [ha, h0]⟩
    · exact (h x).1 hx
  · rename_i h0
    rw [if_neg h0] at hq0
    split at hs
    · rename_i h1
      rw [if_pos h1] at hq0
      cases hq0
      cases hs
      refine ⟨(h x).1, fun hx => ?_⟩
      rcases hq x hx with rfl | hx
      · exact ⟨hv, by rw [ha, h1]⟩
      · exact (h x).2 hx
    · cases hs

theorem setQ_rest {s s' : FMState E} {side : Nat} {q : VQueue E.pq} (hs : s.setQ side q = ok s') :
    s'.visited = s.visited ∧ s'.part = s.part ∧ s'.conn = s.conn := by
  unfold FMState.setQ at hs
  split at hs
  · cases hs; exact ⟨rfl, rfl, rfl⟩
  · split at hs
    · cases hs; exact ⟨rfl, rfl, rfl⟩
    · cases hs

theorem add_keys {P : PQImpl} {q q' : VQueue P} {k : Int} {v : Nat} (h : q.add k v = ok q') (x : Nat)
    (hx : (P.key q'.q x).isSome) : x = v ∨ (P.key q.q x).isSome := by
  unfold VQueue.add at h
  split at h
  · cases h
  · split at h
    · cases h
    · cases h
      rw [P.key_put] at hx
      split at hx
      · exact Or.inl (by assumption)
      · exact Or.inr hx

theorem update_keys {P : PQImpl} {q q' : VQueue P} {k : Int} {v : Nat} (h : q.update k v = ok q') (x : Nat)
    (hx : (P.key q'.q x).isSome) : x = v ∨ (P.key q.q x).isSome := by
  unfold VQueue.update at h
  split at h
  · cases h
  · split at h
    · cases h
    · cases h
      rw [P.key_put] at hx
      split at hx
      · exact Or.inl (by assumption)
      · exact Or.inr hx

theorem remove_keys {P : PQImpl} {q q' : VQueue P} {v : Nat} (h : q.remove v = ok q') (x : Nat)
    (hx : (P.key q'.q x).isSome) : x = v ∨ (P.key q.q x).isSome := by
  unfold VQueue.remove at h
  split at h
  · cases h
  · split at h
    · cases h
    · cases h
      rw [P.key_del] at hx
      split at hx
      · cases hx
      · exact Or.inr hx

theorem fmEdge_marked {dst : Nat} {s s' : FMState E} {q : Nat × Nat} (hm : Marked s) (h : fmEdge true dst s q = ok s') :
    Marked s' ∧ s'.visited = s.visited ∧ s'.part = s.part := by
  unfold fmEdge at h
  obtain ⟨home, hh, h⟩ := bind_eq_ok h
  obtain ⟨dir, -, h⟩ := bind_eq_ok h
  obtain ⟨⟨st, conn⟩, -, h⟩ := bind_eq_ok h
  simp only [if_true] at h
  obtain ⟨vis, hv, h⟩ := bind_eq_ok h
  have ha := rd_some hh
  have hv := rd_some hv
  cases vis with
  | true => cases h; exact ⟨hm, rfl, rfl⟩
  | false =>
    have hm' : Marked { s with conn := conn } := hm
    have hnv : ({ s with conn := conn } : FMState E).visited[q.1]? ≠ some true := by
      show s.visited[q.1]? ≠ some true
      rw [hv]
      simp
    cases st with
    | added =>
      obtain ⟨d, -, h⟩ := bind_eq_ok h
      obtain ⟨k, -, h⟩ := bind_eq_ok h
      obtain ⟨q0, h0, h⟩ := bind_eq_ok h
      obtain ⟨q1, h1, h⟩ := bind_eq_ok h
      obtain ⟨r1, r2, -⟩ := setQ_rest h
      exact ⟨hm'.setQ hnv ha h0 (add_keys h1) h, r1, r2⟩
    | removed =>
      obtain ⟨q0, h0, h⟩ := bind_eq_ok h
      obtain ⟨q1, h1, h⟩ := bind_eq_ok h
      obtain ⟨r1, r2, -⟩ := setQ_rest h
      exact ⟨hm'.setQ hnv ha h0 (remove_keys h1) h, r1, r2⟩
    | stillIn =>
      obtain ⟨d, -, h⟩ := bind_eq_ok h
      obtain ⟨k, -, h⟩ := bind_eq_ok h
      obtain ⟨q0, h0, h⟩ := bind_eq_ok h
      obtain ⟨q1, h1, h⟩ := bind_eq_ok h
      obtain ⟨r1, r2, -⟩ := setQ_rest h
      exact ⟨hm'.setQ hnv ha h0 (update_keys h1) h, r1, r2⟩
    | stillOut => cases h; exact ⟨hm', rfl, rfl⟩

theorem move_other {p p' : Partitioning} {v dst : Nat} (h : p.move g v dst = ok p') {u : Nat} (hu : u ≠ v) :
    p'.asg[u]? = p.asg[u]? := by
  unfold Partitioning.move at h
  obtain ⟨_, -, h⟩ := bind_eq_ok h
  obtain ⟨_, -, h⟩ := bind_eq_ok h
  obtain ⟨_, -, h⟩ := bind_eq_ok h
  obtain ⟨_, -, h⟩ := bind_eq_ok h
  obtain ⟨_, -, h⟩ := bind_eq_ok h
  obtain ⟨_, -, h⟩ := bind_eq_ok h
  obtain ⟨asg, ha, h⟩ := bind_eq_ok h
  cases h
  unfold wr at ha
  split at ha
  · cases ha
    exact List.getElem?_set_ne (Ne.symm hu)
  · cases ha

/-- Moving a vertex that is in no queue. -/
theorem fmMove_marked {v dst : Nat} {s s' : FMState E} (hm : Marked s) (h0 : (E.pq.key s.q0.q v).isSome = false)
    (h1 : (E.pq.key s.q1.q v).isSome = false) (h : fmMove g true v dst s = ok s') :
    Marked s' ∧ s'.visited = s.visited := by
  unfold fmMove at h
  obtain ⟨d, -, h⟩ := bind_eq_ok h
  obtain ⟨⟨st, conn⟩, -, h⟩ := bind_eq_ok h
  obtain ⟨part, hp, h⟩ := bind_eq_ok h
  obtain ⟨ns, -, h⟩ := bind_eq_ok h
  have hm' : Marked { s with conn := conn, part := part.addCut d } := by
    intro u
    refine ⟨fun hu => ?_, fun hu => ?_⟩
    · have hne : u ≠ v := by
        rintro rfl
        rw [show ({ s with conn := conn, part := part.addCut d } : FMState E).q0 = s.q0 from rfl, h0] at hu
        cases hu
      refine ⟨((hm u).1 hu).1, ?_⟩
      show part.asg[u]? = some 0
      rw [move_other hp hne]
      exact ((hm u).1 hu).2
    · have hne : u ≠ v := by
        rintro rfl
        rw [show ({ s with conn := conn, part := part.addCut d } : FMState E).q1 = s.q1 from rfl, h1] at hu
        cases hu
      refine ⟨((hm u).2 hu).1, ?_⟩
      show part.asg[u]? = some 1
      rw [move_other hp hne]
      exact ((hm u).2 hu).2
  suffices H : Post True (ns.foldlM (fmEdge true dst) { s with conn := conn, part := part.addCut d })
      (fun s' => Marked s' ∧ s'.visited = s.visited) from may_iff.mp H s' h
  refine Post_foldlM_inv _ ⟨hm', rfl⟩ fun q s1 _ hs1 => may_iff.mpr fun s2 hs2 => ?_
  obtain ⟨a, b, -⟩ := fmEdge_marked hs1.1 hs2
  exact ⟨a, b.trans hs1.2⟩

theorem count_set {l : List Bool} {v : Nat} (h : v < l.length) (hv : l[v]? ≠ some true) :
    (l.set v true).count false + 1 = l.count false := by
  have hf : l[v] = false := by
    rw [List.getElem?_eq_getElem h] at hv
    cases hl : l[v] with
    | true => exact absurd (by rw [hl]) hv
    | false => rfl
  rw [List.count_set (h := h)]
  have hp : 0 < l.count false := List.count_pos_iff.mpr (by rw [← hf]; exact List.getElem_mem h)
  rw [hf]
  simp
  omega

/-- A step marks one more vertex. -/
theorem fmStep_marked {t : Target E.fp} {ps ps' : PassState E} (hm : Marked ps.s) (h : fmStep g t ps = ok ps') :
    Marked ps'.s ∧ ps'.s.visited.length = ps.s.visited.length ∧
      ps'.s.visited.count false + 1 = ps.s.visited.count false := by
  unfold fmStep at h
  obtain ⟨side, -, h⟩ := bind_eq_ok h
  obtain ⟨q, hq, h⟩ := bind_eq_ok h
  obtain ⟨⟨v, q'⟩, hpop, h⟩ := bind_eq_ok h
  obtain ⟨s1, hs1, h⟩ := bind_eq_ok h
  obtain ⟨vis, hvis, h⟩ := bind_eq_ok h
  obtain ⟨s2, hs2, h⟩ := bind_eq_ok h
  obtain ⟨bal, -, h⟩ := bind_eq_ok h
  obtain ⟨b, -, h⟩ := bind_eq_ok h
  obtain ⟨r1, r2, -⟩ := setQ_rest hs1
  -- the popped vertex
  have hpk : (E.pq.key q.q v).isSome ∧ ∀ x, (E.pq.key q'.q x).isSome → x ≠ v ∧ (E.pq.key q.q x).isSome := by
    unfold VQueue.pop at hpop
    split at hpop
    · cases hpop
    · rename_i k hk
      cases hpop
      refine ⟨by rw [hk]; rfl, fun x hx => ?_⟩
      rw [E.pq.key_del] at hx
      split at hx
      · cases hx
      · exact ⟨by assumption, hx⟩
  have hm1 : Marked s1 ∧ (E.pq.key s1.q0.q v).isSome = false ∧ (E.pq.key s1.q1.q v).isSome = false ∧
      ps.s.visited[v]? ≠ some true := by
    unfold FMState.getQ at hq
    unfold FMState.setQ at hs1
    split at hs1
    · rename_i h0
      rw [if_pos h0] at hq
      cases hq
      cases hs1
      refine ⟨fun x => ⟨fun hx => (hm x).1 (hpk.2 x hx).2, (hm x).2⟩, ?_, ?_, ((hm v).1 hpk.1).1⟩
      · by_contra hc
        exact (hpk.2 v (Bool.eq_true_of_not_eq_false hc)).1 rfl
      · by_contra hc
        have e1 := ((hm v).1 hpk.1).2
        have e2 := ((hm v).2 (Bool.eq_true_of_not_eq_false hc)).2
        rw [e1] at e2
        cases e2
    · rename_i h0
      rw [if_neg h0] at hq
      split at hs1
      · rename_i h1
        rw [if_pos h1] at hq
        cases hq
        cases hs1
        refine ⟨fun x => ⟨(hm x).1, fun hx => (hm x).2 (hpk.2 x hx).2⟩, ?_, ?_, ((hm v).2 hpk.1).1⟩
        · by_contra hc
          have e1 := ((hm v).2 hpk.1).2
          have e2 := ((hm v).1 (Bool.eq_true_of_not_eq_false hc)).2
          rw [e1] at e2
          cases e2
        · by_contra hc
          exact (hpk.2 v (Bool.eq_true_of_not_eq_false hc)).1 rfl
      · cases hs1
  obtain ⟨hm1, k0, k1, hnv⟩ := hm1
  rw [r1] at hvis
  unfold wr at hvis
  split at hvis
  swap
  · cases hvis
  rename_i hlt
  have hvis := Res.ok.inj hvis
  have hm2 : Marked { s1 with visited := vis } := by
    intro x
    have hne : ∀ b, x ≠ v → s1.visited[x]? ≠ some b → vis[x]? ≠ some b := fun b hx hb => by
      rw [← hvis, List.getElem?_set_ne (Ne.symm hx), ← r1]
      exact hb
    refine ⟨fun hx => ?_, fun hx => ?_⟩
    · have hxv : x ≠ v := by
        rintro rfl
        rw [show ({ s1 with visited := vis } : FMState E).q0 = s1.q0 from rfl, k0] at hx
        cases hx
      exact ⟨hne true hxv ((hm1 x).1 hx).1, ((hm1 x).1 hx).2⟩
    · have hxv : x ≠ v := by
        rintro rfl
        rw [show ({ s1 with visited := vis } : FMState E).q1 = s1.q1 from rfl, k1] at hx
        cases hx
      exact ⟨hne true hxv ((hm1 x).2 hx).1, ((hm1 x).2 hx).2⟩
  obtain ⟨a, b⟩ := fmMove_marked hm2 k0 k1 hs2
  have key : Marked s2 ∧ s2.visited.length = ps.s.visited.length ∧ s2.visited.count false + 1 = ps.s.visited.count false := by
    rw [b]
    show _ ∧ vis.length = _ ∧ vis.count false + 1 = _
    rw [← hvis]
    exact ⟨a, List.length_set, count_set hlt hnv⟩
  split at h
  · rw [← Res.ok.inj h]; exact key
  · rw [← Res.ok.inj h]; exact key

theorem fmLoop_ends (t : Target E.fp) (maxBad : Nat) : ∀ fuel (ps : PassState E), Marked ps.s →
    ps.s.visited.count false < fuel →
    EndsE be (fmLoop g t maxBad fuel ps) (fun o => o.s.visited.length = ps.s.visited.length) := by
  intro fuel
  induction fuel with
  | zero => intro ps _ h; omega
  | succ fuel ih =>
    intro ps hm hf
    unfold fmLoop
    split
    · refine EndsE.bind (EndsE.and_may (Stops.fmStep g t ps) (may_iff.mpr fun ps' h => fmStep_marked hm h)) fun ps' h => ?_
      obtain ⟨h1, h2, h3⟩ := h
      exact (ih ps' h1 (by omega)).mono fun o ho => ho.trans h2
    · exact (rfl : ps.s.visited.length = _)

theorem fmEdge_visited {b : Bool} {dst : Nat} {s s' : FMState E} {q : Nat × Nat} (h : fmEdge b dst s q = ok s') :
    s'.visited = s.visited := by
  unfold fmEdge at h
  obtain ⟨home, hh, h⟩ := bind_eq_ok h
  obtain ⟨dir, -, h⟩ := bind_eq_ok h
  obtain ⟨⟨st, conn⟩, -, h⟩ := bind_eq_ok h
  simp only at h
  split at h
  · obtain ⟨vis, hv, h⟩ := bind_eq_ok h
    split at h
    · cases h; rfl
    · cases st with
      | added =>
        obtain ⟨d, -, h⟩ := bind_eq_ok h
        obtain ⟨k, -, h⟩ := bind_eq_ok h
        obtain ⟨q0, h0, h⟩ := bind_eq_ok h
        obtain ⟨q1, h1, h⟩ := bind_eq_ok h
        exact (setQ_rest h).1
      | removed =>
        obtain ⟨q0, h0, h⟩ := bind_eq_ok h
        obtain ⟨q1, h1, h⟩ := bind_eq_ok h
        exact (setQ_rest h).1
      | stillIn =>
        obtain ⟨d, -, h⟩ := bind_eq_ok h
        obtain ⟨k, -, h⟩ := bind_eq_ok h
        obtain ⟨q0, h0, h⟩ := bind_eq_ok h
        obtain ⟨q1, h1, h⟩ := bind_eq_ok h
        exact (setQ_rest h).1
      | stillOut => cases h; rfl
  · cases h; rfl

theorem fmMove_visited {b : Bool} {v dst : Nat} {s s' : FMState E} (h : fmMove g b v dst s = ok s') :
    s'.visited = s.visited := by
  unfold fmMove at h
  obtain ⟨d, -, h⟩ := bind_eq_ok h
  obtain ⟨⟨st, conn⟩, -, h⟩ := bind_eq_ok h
  obtain ⟨part, hp, h⟩ := bind_eq_ok h
  obtain ⟨ns, -, h⟩ := bind_eq_ok h
  suffices H : Post True (ns.foldlM (fmEdge b dst) { s with conn := conn, part := part.addCut d })
      (fun s' => s'.visited = s.visited) from may_iff.mp H s' h
  exact Post_foldlM_inv _ rfl fun q s1 _ hs1 => may_iff.mpr fun s2 hs2 => (fmEdge_visited hs2).trans hs1

theorem fmUndo_visited {l : List Nat} {s s' : FMState E} (h : fmUndo g l s = ok s') : s'.visited = s.visited := by
  unfold fmUndo at h
  suffices H : Post True (l.reverse.foldlM (fun s v => do
    let from_ ← rd s.part.asg v
    fmMove g false v (from_ ^^^ 1) s) s) (fun s' => s'.visited = s.visited) from may_iff.mp H s' h
  refine Post_foldlM_inv _ rfl fun q s1 _ hs1 => may_iff.mpr fun s2 hs2 => ?_
  obtain ⟨_, -, hs2⟩ := bind_eq_ok hs2
  exact (fmMove_visited hs2).trans hs1

theorem fillQueues_marked {s s' : FMState E} (hq0 : s.q0.q = E.pq.empty) (hq1 : s.q1.q = E.pq.empty)
    (hv : s.visited = List.replicate s.visited.length false) (h : fillQueues s = ok s') :
    Marked s' ∧ s'.visited = s.visited := by
  unfold fillQueues at h
  suffices H : Post True (s.conn.border.elems.foldlM (fun s v => do
    let side ← rd s.part.asg v
    let d ← s.conn.delta v
    let k ← ineg d
    let pq ← s.getQ side
    let pq ← pq.add k v
    s.setQ side pq) s) (fun s' => Marked s' ∧ s'.visited = s.visited) from may_iff.mp H s' h
  have hno : ∀ u, s.visited[u]? ≠ some true := fun u => by
    rw [hv, List.getElem?_replicate]
    split <;> simp
  refine Post_foldlM_inv _ ⟨fun u => ⟨fun h => ?_, fun h => ?_⟩, rfl⟩ fun v s1 _ hs1 => may_iff.mpr fun s2 hs2 => ?_
  · rw [hq0, E.pq.key_empty] at h; cases h
  · rw [hq1, E.pq.key_empty] at h; cases h
  · obtain ⟨side, ha, hs2⟩ := bind_eq_ok hs2
    obtain ⟨d, -, hs2⟩ := bind_eq_ok hs2
    obtain ⟨k, -, hs2⟩ := bind_eq_ok hs2
    obtain ⟨q0, h0, hs2⟩ := bind_eq_ok hs2
    obtain ⟨q1, h1, hs2⟩ := bind_eq_ok hs2
    exact ⟨hs1.1.setQ (by rw [hs1.2]; exact hno v) (rd_some ha) h0 (add_keys h1) hs2, (setQ_rest hs2).1.trans hs1.2⟩

theorem fmPass_ends (t : Target E.fp) (maxBad : Nat) {s : FMState E} (hq0 : s.q0.q = E.pq.empty)
    (hq1 : s.q1.q = E.pq.empty) (hv : s.visited = List.replicate g.nv false) :
    EndsE be (fmPass g t maxBad s) (fun o => o.1.visited.length = g.nv) := by
  unfold fmPass
  have hl : s.visited.length = g.nv := by rw [hv, List.length_replicate]
  refine EndsE.bind (EndsE.and_may (Stops.fill s) (may_iff.mpr fun s' h =>
    fillQueues_marked hq0 hq1 (by rw [hl]; exact hv) h)) fun s1 h1 => ?_
  refine EndsE.bind (Stops.maxImbalance _ _ _) fun bal _ => ?_
  refine EndsE.bind (fmLoop_ends (g := g) t maxBad (g.nv + 1) _ h1.1 ?_) fun ps hps => ?_
  · have := List.count_le_length (a := false) (l := s1.visited)
    rw [h1.2, hl] at this
    rw [h1.2]
    omega
  · refine EndsE.bind (EndsE.and_may (Stops.undo g _ _) (may_iff.mpr fun s' h => fmUndo_visited h)) fun s2 h2 => ?_
    show s2.visited.length = g.nv
    rw [h2, hps, h1.2, hl]

theorem fmIters_ends (t : Target E.fp) (maxBad : Nat) : ∀ n (s : FMState E), s.q0.q = E.pq.empty →
    s.q1.q = E.pq.empty → s.visited = List.replicate g.nv false → Stops be (fmIters g t maxBad n s) := by
  intro n
  induction n with
  | zero => intro s _ _ _; exact Stops.ok _
  | succ n ih =>
    intro s h0 h1 h2
    unfold fmIters
    refine EndsE.bind (fmPass_ends t maxBad h0 h1 h2) fun o ho => ?_
    simp only
    split
    · exact Stops.ok _
    · refine ih _ rfl rfl ?_
      show List.replicate o.1.visited.length false = _
      rw [ho]

theorem Stops.fmRefine (g : Graph) (t : Target E.fp) (maxIters maxMoves : Nat) (p : Partitioning) (c : Conn E.set) :
    Stops be (fmRefine g t maxIters maxMoves p c) := by
  unfold Poros.fmRefine
  refine Stops.bind ?_ fun maxBad => ?_
  · unfold maxBadMoves
    exact (Stops.cast _).bind fun a => Stops.ok _
  · exact Stops.bind (fmIters_ends t maxBad maxIters _ rfl rfl rfl) fun s => Stops.ok _

/-! ### Matching and contraction -/

theorem Stops.aggMake (m : Mem) (n : Nat) : Stops be (Aggregation.make m n) := by
  unfold Aggregation.make countGroups fillGroups
  stops [Stops.freeze, Stops.memWr]

theorem Stops.isMatched (m : Matcher) (v : Nat) : Stops be (m.isMatched v) := by
  unfold Matcher.isMatched; stops []

theorem Stops.mate (m : Matcher) (a b : Nat) : Stops be (m.mate a b) := by
  unfold Matcher.mate; stops []

theorem Stops.build (m : Matcher) : Stops be m.build := by
  unfold Matcher.build Matcher.buildStep
  stops [Stops.memWr, Stops.aggMake]

theorem Stops.firstMate (g : Graph) (has : Bool) (maxW : Nat) (order : List Nat) (m : Matcher) (vw : Nat) :
    ∀ l, Stops be (firstMate g has maxW order m vw l) := by
  intro l
  induction l with
  | nil => exact Stops.ok _
  | cons q qs ih =>
    unfold Poros.firstMate
    stops [Stops.vwgtOf, Stops.isMatched, ih]

theorem Stops.rmStep (g : Graph) (has : Bool) (maxW : Nat) (order : List Nat) (m : Matcher) (v : Nat) :
    Stops be (rmStep g has maxW order m v) := by
  unfold Poros.rmStep
  stops [Stops.vwgtOf, Stops.isMatched, Stops.nbrsOf, Stops.firstMate, Stops.mate]

theorem Stops.heavyMate (g : Graph) (has : Bool) (maxW : Nat) (m : Matcher) (vw : Nat) (b : Option (Nat × Nat)) (q : Nat × Nat) :
    Stops be (heavyMate g has maxW m vw b q) := by
  unfold Poros.heavyMate
  stops [Stops.vwgtOf, Stops.isMatched]

theorem Stops.shemStep (g : Graph) (has : Bool) (maxW : Nat) (m : Matcher) (v : Nat) :
    Stops be (shemStep g has maxW m v) := by
  unfold Poros.shemStep
  stops [Stops.vwgtOf, Stops.isMatched, Stops.nbrsOf, Stops.heavyMate, Stops.mate]

theorem Stops.rmAggregate (maxW : Nat) (g : Graph) (r : E.rng.S) : Stops be (rmAggregate E maxW g r) := by
  unfold Poros.rmAggregate
  stops [Stops.rmStep, Stops.build]

theorem Stops.shemAggregate (maxW : Nat) (g : Graph) (r : E.rng.S) : Stops be (shemAggregate E maxW g r) := by
  unfold Poros.shemAggregate ascendingRandom degrees
  stops [Stops.shemStep, Stops.build, Stops.degreeOf]

theorem Stops.agg (s : Scheme) (maxW : Nat) (g : Graph) (r : E.rng.S) : Stops be (aggregate E s maxW g r) := by
  unfold aggregate shemrmAggregate
  stops [Stops.rmAggregate, Stops.shemAggregate]

theorem Stops.group (a : Aggregation) (c : Nat) : Stops be (a.group c) := by
  unfold Aggregation.group; stops []

theorem Stops.addEdge (b : OneStep) (d w : Nat) : Stops be (b.addEdge d w) := by
  unfold OneStep.addEdge; stops [Stops.memRd, Stops.memWr]

theorem Stops.finishVertex (b : OneStep) (w : Nat) : Stops be (b.finishVertex w) := by
  unfold OneStep.finishVertex; stops [Stops.memRd, Stops.memWr]

section
attribute [local irreducible] EndsE
theorem Stops.finish (b : OneStep) : Stops be b.finish := by
  unfold OneStep.finish; stops [Stops.freeze]
end

theorem Stops.new (n m : Nat) : Stops be (OneStep.new n m) := by
  unfold OneStep.new; stops [Stops.memWr]

theorem Stops.contract (g : Graph) (a : Aggregation) : Stops be (contract g a) := by
  unfold Poros.contract contractGraph contractGroup Aggregation.coarse
  stops [Stops.new, Stops.group, Stops.vwgtOf, Stops.nbrsOf, Stops.addEdge, Stops.finishVertex, Stops.finish]

theorem Stops.coarse (g : Graph) (a : Aggregation) : Stops be (CoarseGraph.make g a) := by
  unfold CoarseGraph.make Aggregation.fillCoarseMap
  stops [Stops.contract, Stops.memWr]

theorem Stops.project {P : SetImpl} (cg : CoarseGraph) (p : Partitioning) (c : Conn P) : Stops be (cg.project p c) := by
  unfold CoarseGraph.project fillInConnectivity fillInOne interiorSum ConnBuilder.setInternal ConnBuilder.setExternal
    ConnBuilder.finish
  stops [Stops.memRd, Stops.memWr, Stops.assign, Stops.sHas, Stops.nbrsOf, Stops.degreeOf, Stops.freeze, Stops.connArray]

/-! ### The coarse graph has no more edges -/

theorem memWr_length {m m' : Mem} {i x : Nat} (h : m.wr i x = ok m') : i < m.length ∧ m'.length = m.length := by
  unfold Mem.wr Poros.wr at h
  split at h
  · cases h; exact ⟨by assumption, List.length_set⟩
  · cases h

/-- The edge slots used so far, including the one reserved for a self loop, are within the array. -/
def SlotsOK (n : Nat) (b : OneStep) : Prop := b.ne < M32 ∧ b.elist.length = n + 1 ∧ (n + 1 < M32 → 0 < b.ne ∧ b.ne ≤ n + 1)

theorem addEdge_slots {n : Nat} {b b' : OneStep} {d w : Nat} (hb : SlotsOK n b) (h : b.addEdge d w = ok b') : SlotsOK n b' := by
  unfold OneStep.addEdge at h
  obtain ⟨idx, -, h⟩ := bind_eq_ok h
  split at h
  · obtain ⟨ht, -, h⟩ := bind_eq_ok h
    obtain ⟨el, hel, h⟩ := bind_eq_ok h
    obtain ⟨ew, -, h⟩ := bind_eq_ok h
    obtain ⟨h1, h2⟩ := memWr_length hel
    obtain ⟨a, c, e⟩ := hb
    rw [← Res.ok.inj h]
    refine ⟨Nat.mod_lt _ (by omega), h2.trans c, fun hn => ?_⟩
    have he := e hn
    simp only [uadd]
    rw [Nat.mod_eq_of_lt (by omega)]
    omega
  · obtain ⟨_, -, h⟩ := bind_eq_ok h
    obtain ⟨_, -, h⟩ := bind_eq_ok h
    rw [← Res.ok.inj h]
    exact hb

theorem finishVertex_slots {n : Nat} {b b' : OneStep} {w : Nat} (hb : SlotsOK n b) (h : b.finishVertex w = ok b') :
    SlotsOK n b' := by
  unfold OneStep.finishVertex at h
  obtain ⟨_, -, h⟩ := bind_eq_ok h
  obtain ⟨_, -, h⟩ := bind_eq_ok h
  obtain ⟨_, -, h⟩ := bind_eq_ok h
  obtain ⟨_, -, h⟩ := bind_eq_ok h
  obtain ⟨el, h1, h⟩ := bind_eq_ok h
  obtain ⟨_, -, h⟩ := bind_eq_ok h
  obtain ⟨_, -, h⟩ := bind_eq_ok h
  obtain ⟨_, -, h⟩ := bind_eq_ok h
  obtain ⟨_, -, h⟩ := bind_eq_ok h
  obtain ⟨_, -, h⟩ := bind_eq_ok h
  obtain ⟨el', h2, h⟩ := bind_eq_ok h
  obtain ⟨_, -, h⟩ := bind_eq_ok h
  rw [← Res.ok.inj h]
  exact ⟨hb.1, (memWr_length h2).2.trans ((memWr_length h1).2.trans hb.2.1), hb.2.2⟩

theorem new_slots {m n : Nat} {b : OneStep} (h : OneStep.new m n = ok b) : SlotsOK n b := by
  unfold OneStep.new at h
  obtain ⟨_, -, h⟩ := bind_eq_ok h
  obtain ⟨_, -, h⟩ := bind_eq_ok h
  obtain ⟨el, h1, h⟩ := bind_eq_ok h
  obtain ⟨_, -, h⟩ := bind_eq_ok h
  rw [← Res.ok.inj h]
  refine ⟨by simp only; omega, (memWr_length h1).2.trans (by simp [Mem.alloc]), fun _ => ⟨by simp only; omega, by simp only; omega⟩⟩

theorem finish_slots {n : Nat} {b : OneStep} {cg : Graph} (hb : SlotsOK n b) (hn : n < M32) (h : b.finish = ok cg) :
    cg.ne ≤ n := by
  unfold OneStep.finish at h
  obtain ⟨_, -, h⟩ := bind_eq_ok h
  obtain ⟨el, he, h⟩ := bind_eq_ok h
  obtain ⟨_, -, h⟩ := bind_eq_ok h
  obtain ⟨_, -, h⟩ := bind_eq_ok h
  rw [← Res.ok.inj h]
  show el.length ≤ n
  unfold Mem.freeze at he
  rw [mapM_length he, List.length_take]
  refine le_trans (Nat.min_le_left _ _) ?_
  obtain ⟨a, -, c⟩ := hb
  by_cases h1 : n + 1 < M32
  · obtain ⟨c1, c2⟩ := c h1
    rw [usub_eq (by omega) (by omega)]
    omega
  · have : usub b.ne 1 < M32 := Nat.mod_lt _ (by omega)
    omega

theorem contract_ne {a : Aggregation} {cg : Graph} (hn : g.ne < M32) (h : contract g a = ok cg) : cg.ne ≤ g.ne := by
  unfold contract contractGraph at h
  obtain ⟨b0, h0, h⟩ := bind_eq_ok h
  obtain ⟨b, hb, h⟩ := bind_eq_ok h
  refine finish_slots ?_ hn h
  suffices H : Post True ((List.range a.nc).foldlM (fun b c => do
      let group ← a.group c
      let r ← contractGroup g (!g.unitVtx) (!g.unitEdge) a group b
      r.1.finishVertex r.2) b0) (SlotsOK g.ne) from may_iff.mp H b hb
  refine Post_foldlM_inv _ (new_slots h0) fun c b1 _ hs => may_iff.mpr fun b2 h2 => ?_
  obtain ⟨group, -, h2⟩ := bind_eq_ok h2
  obtain ⟨r, hr, h2⟩ := bind_eq_ok h2
  refine finishVertex_slots ?_ h2
  suffices H : Post True (contractGroup g (!g.unitVtx) (!g.unitEdge) a group b1) (fun r => SlotsOK g.ne r.1) from
    may_iff.mp H r hr
  unfold contractGroup
  refine Post_foldlM_inv (fun (r : OneStep × Nat) => SlotsOK g.ne r.1) hs fun v s1 _ hs1 => may_iff.mpr fun s2 h2 => ?_
  obtain ⟨_, -, h2⟩ := bind_eq_ok h2
  obtain ⟨ns, -, h2⟩ := bind_eq_ok h2
  obtain ⟨b3, h3, h2⟩ := bind_eq_ok h2
  rw [← Res.ok.inj h2]
  suffices H : Post True (ns.foldlM (fun (b : OneStep) (q : Nat × Nat) => do
      let c ← a.coarse q.1
      b.addEdge c q.2) s1.1) (SlotsOK g.ne) from may_iff.mp H b3 h3
  refine Post_foldlM_inv _ hs1 fun q b4 _ h4 => may_iff.mpr fun b5 h5 => ?_
  obtain ⟨_, -, h5⟩ := bind_eq_ok h5
  exact addEdge_slots h4 h5

theorem coarse_ne {a : Aggregation} {cg : CoarseGraph} (hn : g.ne < M32) (h : CoarseGraph.make g a = ok cg) :
    cg.coarse.ne ≤ g.ne := by
  unfold CoarseGraph.make at h
  obtain ⟨c, hc, h⟩ := bind_eq_ok h
  obtain ⟨_, -, h⟩ := bind_eq_ok h
  cases h
  exact contract_ne hn hc

/-! ### Bisectors -/

theorem size_le_cap {P : PQImpl} {q : VQueue P} (h : ∀ v, (P.key q.q v).isSome → v < q.cap) : q.size ≤ q.cap := by
  unfold VQueue.size
  have hs : P.elems q.q ⊆ List.range q.cap := fun v hv => List.mem_range.mpr (h v ((P.mem_elems _ _).mp hv))
  simpa using (List.subperm_of_subset (P.nodup_elems q.q) hs).length_le

/-- Every queued vertex is below the capacity. -/
def QFits (n : Nat) {P : PQImpl} (q : VQueue P) : Prop := q.cap = n ∧ ∀ v, (P.key q.q v).isSome → v < n

theorem add_fits {n : Nat} {P : PQImpl} {q q' : VQueue P} {k : Int} {v : Nat} (hq : QFits n q) (h : q.add k v = ok q') :
    QFits n q' := by
  have hk := add_keys h
  unfold VQueue.add at h
  split at h
  · cases h
  · rename_i hc
    split at h
    · cases h
    · cases h
      refine ⟨hq.1, fun u hu => ?_⟩
      rcases hk u hu with rfl | hu
      · have := hq.1; omega
      · exact hq.2 u hu

theorem size_delta {P : PQImpl} {q q' : VQueue P} {d : Int} {v : Nat} (h : q.updateByDelta d v = ok q') : q'.size ≤ q.size := by
  unfold VQueue.updateByDelta at h
  split at h
  · cases h
  · split at h
    · cases h
    · rename_i k hk
      obtain ⟨k', -, h⟩ := bind_eq_ok h
      cases h
      unfold VQueue.size
      refine (List.subperm_of_subset (P.nodup_elems _) fun u hu => ?_).length_le
      rw [P.mem_elems, P.key_put] at hu
      rw [P.mem_elems]
      split at hu
      · rename_i he
        rw [he, hk]; rfl
      · exact hu

theorem Stops.touch (ns : List (Nat × Nat)) (q : VQueue E.pq) : Stops be (bfsTouch ns q) := by
  unfold bfsTouch
  stops [Stops.qContains, Stops.qDelta]

theorem touch_size {ns : List (Nat × Nat)} {q q' : VQueue E.pq} (h : bfsTouch ns q = ok q') : q'.size ≤ q.size := by
  unfold bfsTouch at h
  suffices H : Post True (ns.foldlM (fun (q : VQueue E.pq) e => do
    let c ← q.contains e.1
    if c then q.updateByDelta (toI32 e.2) e.1 else .ok q) q) (fun q' => q'.size ≤ q.size) from may_iff.mp H q' h
  refine Post_foldlM_inv _ (le_refl _) fun e q1 _ h1 => may_iff.mpr fun q2 h2 => ?_
  obtain ⟨c, -, h2⟩ := bind_eq_ok h2
  split at h2
  · exact le_trans (size_delta h2) h1
  · cases h2; exact h1

theorem Stops.bfsStep (g : Graph) (a b : Bool) (t : Target E.fp) (s : VQueue E.pq × Partitioning) :
    Stops be (bfsStep g a b t s) := by
  unfold Poros.bfsStep
  stops [Stops.qPop, Stops.vwgtOf, Stops.move, Stops.nbrsOf, Stops.touch]

theorem bfsStep_size {a b : Bool} {t : Target E.fp} {s s' : VQueue E.pq × Partitioning} (hs : s.1.size > 0)
    (h : bfsStep g a b t s = ok s') : s'.1.size + 1 ≤ s.1.size := by
  unfold bfsStep at h
  rw [VQueue.pop_of_size hs, ok_bind] at h
  have hd : (⟨s.1.cap, E.pq.del s.1.q (E.pq.top s.1.q)⟩ : VQueue E.pq).size + 1 ≤ s.1.size := by
    obtain ⟨m, hm, -⟩ := VQueue.top_of_size hs
    exact size_del ((E.pq.mem_elems s.1.q (E.pq.top s.1.q)).mpr (by rw [hm]; rfl))
  simp only at h
  obtain ⟨_, -, h⟩ := bind_eq_ok h
  obtain ⟨_, -, h⟩ := bind_eq_ok h
  obtain ⟨_, -, h⟩ := bind_eq_ok h
  split at h
  · obtain ⟨_, -, h⟩ := bind_eq_ok h
    obtain ⟨_, -, h⟩ := bind_eq_ok h
    obtain ⟨q, hq, h⟩ := bind_eq_ok h
    rw [← Res.ok.inj h]
    have := touch_size hq
    simp only
    omega
  · rw [← Res.ok.inj h]
    exact hd

theorem bfsPriorityMove_ends (a b : Bool) (t : Target E.fp) : ∀ fuel (s : VQueue E.pq × Partitioning), s.1.size < fuel →
    Stops be (bfsPriorityMove g a b t fuel s) := by
  intro fuel
  induction fuel with
  | zero => intro s h; omega
  | succ fuel ih =>
    intro s h
    unfold bfsPriorityMove
    split
    · rename_i hs
      refine (Stops.rd _ _).bind fun w0 => (Stops.rd _ _).bind fun t0 => ?_
      split
      · refine EndsE.bind (EndsE.and_may (Stops.bfsStep g a b t s) (may_iff.mpr fun s' h => bfsStep_size hs h)) fun s' h' => ?_
        exact ih s' (by omega)
      · exact Stops.ok _
    · exact Stops.ok _

theorem Stops.bfsGrow (t : Target E.fp) (g : Graph) (seed : Nat) : Stops be (bfsGrow t g seed) := by
  unfold Poros.bfsGrow
  have hnew : QFits g.nv (VQueue.new E.pq g.nv) := ⟨rfl, fun v h => by
    rw [show (VQueue.new E.pq g.nv).q = E.pq.empty from rfl, E.pq.key_empty] at h; cases h⟩
  refine EndsE.bind (EndsE.and_may (Stops.qAdd _ _ _) (may_iff.mpr fun q h => add_fits hnew h)) fun q0 h0 => ?_
  refine EndsE.bind (EndsE.and_may (Q' := QFits g.nv) (Stops.foldlM fun q v => ?_) ?_) fun q h1 => ?_
  · stops [Stops.qAdd]
  · refine Post_foldlM_inv _ h0 fun v q1 _ h1 => may_iff.mpr fun q2 h2 => ?_
    split at h2
    · exact add_fits h1 h2
    · cases h2; exact h1
  · refine (Stops.assignAll _ _ _).bind fun p => ?_
    refine bfsPriorityMove_ends _ _ _ _ _ ?_
    have := size_le_cap (q := q) (fun v hv => by rw [h1.1]; exact h1.2 v hv)
    rw [h1.1] at this
    simp only
    omega

theorem Stops.unitBalance (g : Graph) (t : Target E.fp) : ∀ l (p : Partitioning), Stops be (bfsUnitBalance g t l p) := by
  intro l
  induction l with
  | nil => intro p; exact Stops.ok _
  | cons v vs ih =>
    intro p
    unfold bfsUnitBalance
    stops [Stops.lighter, Stops.move, ih]

theorem Stops.bfsBisect (t : Target E.fp) (g : Graph) (r : E.rng.S) : Stops be (bfsBisect t g r) := by
  unfold Poros.bfsBisect RngImpl.randInRange bfsFrom bfsBalance
  stops [Stops.bfsGrow, Stops.weightBalance, Stops.unitBalance, Stops.recalcCut]

theorem Stops.multi {bis : Bisector E} {t : Target E.fp} (h : ∀ r, Stops be (bis t g r)) (n : Nat) (r : E.rng.S) :
    Stops be (multiBisect n bis t g r) := by
  unfold multiBisect multiStep
  stops [h, Stops.maxImbalance, Stops.balanced]

/-! ### The multilevel bisector -/

theorem recurse_stops (s : Scheme) (hsr : E.fp.SelfRatio) (t : Target E.fp) (maxW : Nat) :
    ∀ fuel level parent (g : Graph) r, g.ne < M32 → (level = 0 ∨ parent.isSome) →
      (∀ p : Graph, parent = some p → g.ne ≤ p.ne) → (match parent with
        | none => g.ne + 1
        | some p => p.ne) < fuel →
      Stops be ((makeMultilevel E s).recurse maxW (compositeStop [vertexNumberStop 20, edgeRatioStop E.fp (E.fp.lit 95 2)]) t
        fuel level parent g r) := by
  intro fuel
  induction fuel with
  | zero => intro level parent g r _ _ _ hf; omega
  | succ fuel ih =>
    intro level parent g r hn hl hle hf
    unfold Multilevel.recurse
    rw [mlStop_eq _ _ _ hl, ok_bind]
    split
    · refine Stops.bind (Stops.multi (fun r => Stops.bfsBisect t g r) 8 r) fun o => ?_
      exact (Stops.connNew _ _ _).bind fun c => Stops.ok _
    · rename_i hstop
      have hf' : g.ne < fuel := by
        cases parent with
        | none => simp only at hf; omega
        | some p =>
          simp only at hf
          have hle := hle p rfl
          by_cases he : g.ne = p.ne
          · exfalso
            have h0 : 0 < g.ne := by
              by_contra h0
              have : g.ne = 0 := by omega
              simp [mlStops, this] at hstop
            have := hsr g.ne h0 hn
            simp [mlStops, ← he, this] at hstop
          · omega
      refine Stops.bind (Stops.agg s maxW g r) fun o => ?_
      refine EndsE.bind (EndsE.and_may (Stops.coarse g o.1) (may_iff.mpr fun cg h => coarse_ne hn h)) fun cg hc => ?_
      refine Stops.bind (ih (level + 1) (some g) cg.coarse o.2 (by omega) (Or.inr rfl)
        (fun p hp => by cases hp; exact hc) hf') fun i => ?_
      refine (Stops.project _ _ _).bind fun f => ?_
      exact (Stops.fmRefine g t 8 150 f.1 f.2).bind fun o => Stops.ok _

theorem Stops.execute (s : Scheme) (hml : E.fp.MultilevelOK 0) (hn : g.ne < M32) (t : Target E.fp) (r : E.rng.S) :
    Stops be ((makeMultilevel E s).execute t g r) := by
  unfold Multilevel.execute edgeRatioMake
  rw [if_neg (by simp [hml.ratio_pos, hml.ratio_lt]), ok_bind]
  refine (Stops.cast _).bind fun maxW => ?_
  exact (recurse_stops s hml.self t maxW (g.ne + 2) 0 none g r hn (Or.inl rfl) (fun p hp => by cases hp)
    (by simp only; omega)).bind fun o => Stops.ok _

/-! ### Extraction -/

theorem Stops.onNth {f : β → Res β} (h : ∀ b, Stops be (f b)) (bs : List β) (p : Nat) : Stops be (onNth bs p f) := by
  unfold Poros.onNth
  stops [h]

theorem Stops.shiftRight : ∀ n l, Stops be (TwoStep.shiftRight n l) := by
  intro n
  induction n with
  | zero => intro l; exact Stops.ok _
  | succ n ih =>
    intro l
    unfold TwoStep.shiftRight
    stops [ih]

theorem Stops.edgePhase (b : TwoStep) : Stops be b.beginEdgePhase := by
  unfold TwoStep.beginEdgePhase
  stops [Stops.shiftRight]

theorem Stops.subEdge (v d w : Nat) (b : TwoStep) : Stops be (b.addEdgeToVertex v d w) := by
  unfold TwoStep.addEdgeToVertex
  stops [Stops.memWr]

section
attribute [local irreducible] EndsE
theorem Stops.subFinish (b : TwoStep) : Stops be b.finish := by
  unfold TwoStep.finish
  stops [Stops.freeze, Stops.graphMake]
end

theorem Stops.superLabel (l : Option (List Nat)) (v : Nat) : Stops be (superLabel l v) := by
  unfold Poros.superLabel; stops []

theorem Stops.extract (g : Graph) (p : Partitioning) (l : Option (List Nat)) : Stops be (extractPartitions g p l) := by
  unfold extractPartitions fillMaps maybeFillWeights fillVertexWeights countSubEdges fillSubEdges
    TwoStep.setVertexWeight TwoStep.incVertexNumEdges
  stops [Stops.counts, Stops.superLabel, Stops.onNth, Stops.memWr, Stops.memRd, Stops.vwgtOf, Stops.nbrsOf, Stops.edgePhase,
    Stops.subEdge, Stops.subFinish, Stops.freeze]

/-! ### Extracted graphs have less than 2^32 edges -/

/-- The arrays of all builders are of allocatable size. -/
def Sized (bs : List TwoStep) : Prop := ∀ b ∈ bs, b.elist.length < M32

theorem edgePhase_sized {b b' : TwoStep} (h : b.beginEdgePhase = ok b') : b'.elist.length < M32 := by
  unfold TwoStep.beginEdgePhase at h
  obtain ⟨ne, hne, h⟩ := bind_eq_ok h
  obtain ⟨_, -, h⟩ := bind_eq_ok h
  rw [← Res.ok.inj h]
  show (List.replicate ne none).length < M32
  rw [List.length_replicate]
  have := List.mem_of_getElem? (rd_some hne)
  unfold prefixSumExclusive at this
  obtain ⟨i, -, rfl⟩ := List.mem_map.mp this
  exact Nat.mod_lt _ (by omega)

theorem mapM_all {f : α → Res β} {Q : β → Prop} (h : ∀ a b, f a = ok b → Q b) :
    ∀ {l : List α} {l' : List β}, l.mapM f = ok l' → ∀ b ∈ l', Q b
  | [], l', hl => by cases hl; intro b hb; cases hb
  | x :: xs, l', hl => by
    rw [List.mapM_cons] at hl
    obtain ⟨y, hy, hl⟩ := bind_eq_ok hl
    obtain ⟨ys, hys, hl⟩ := bind_eq_ok hl
    cases hl
    intro b hb
    rcases List.mem_cons.mp hb with rfl | hb
    · exact h _ _ hy
    · exact mapM_all h hys b hb

theorem addEdge_sized {v d w : Nat} {b b' : TwoStep} (h : b.addEdgeToVertex v d w = ok b') :
    b'.elist.length = b.elist.length := by
  unfold TwoStep.addEdgeToVertex at h
  obtain ⟨_, -, h⟩ := bind_eq_ok h
  obtain ⟨_, -, h⟩ := bind_eq_ok h
  obtain ⟨el, hel, h⟩ := bind_eq_ok h
  split at h
  · rw [← Res.ok.inj h]; exact (memWr_length hel).2
  · obtain ⟨_, -, h⟩ := bind_eq_ok h
    rw [← Res.ok.inj h]; exact (memWr_length hel).2

theorem onNth_sized {bs bs' : List TwoStep} {p : Nat} {f : TwoStep → Res TwoStep}
    (hf : ∀ b b', f b = ok b' → b'.elist.length = b.elist.length) (hs : Sized bs) (h : onNth bs p f = ok bs') : Sized bs' := by
  unfold onNth at h
  obtain ⟨b, hb, h⟩ := bind_eq_ok h
  obtain ⟨b1, h1, h⟩ := bind_eq_ok h
  unfold wr at h
  split at h
  · cases h
    intro x hx
    rcases List.mem_or_eq_of_mem_set hx with hx | rfl
    · exact hs x hx
    · rw [hf _ _ h1]
      exact hs b (List.mem_of_getElem? (rd_some hb))
  · cases h

theorem finish_ne {b : TwoStep} {sg : Graph} (h : b.finish = ok sg) : sg.ne = b.elist.length := by
  unfold TwoStep.finish at h
  obtain ⟨el, he, h⟩ := bind_eq_ok h
  obtain ⟨_, -, h⟩ := bind_eq_ok h
  obtain ⟨_, -, h⟩ := bind_eq_ok h
  unfold Graph.make at h
  obtain ⟨_, -, h⟩ := bind_eq_ok h
  obtain ⟨_, -, h⟩ := bind_eq_ok h
  rw [← Res.ok.inj h]
  show el.length = _
  unfold Mem.freeze at he
  exact mapM_length he

theorem extract_ne {p : Partitioning} {l : Option (List Nat)} {subs : List Subgraph} (h : extractPartitions g p l = ok subs) :
    ∀ s ∈ subs, s.graph.ne < M32 := by
  unfold extractPartitions at h
  obtain ⟨counts, -, h⟩ := bind_eq_ok h
  obtain ⟨m, -, h⟩ := bind_eq_ok h
  obtain ⟨b1, -, h⟩ := bind_eq_ok h
  obtain ⟨b2, -, h⟩ := bind_eq_ok h
  obtain ⟨b3, h3, h⟩ := bind_eq_ok h
  obtain ⟨b4, h4, h⟩ := bind_eq_ok h
  have s3 : Sized b3 := mapM_all (fun a b h => edgePhase_sized h) h3
  have s4 : Sized b4 := by
    suffices H : Post True (fillSubEdges g (!g.unitEdge) p m.2.2 b3) Sized from may_iff.mp H b4 h4
    unfold fillSubEdges
    refine Post_foldlM_inv _ s3 fun v c1 _ hc1 => may_iff.mpr fun c2 h2 => ?_
    obtain ⟨subV, -, h2⟩ := bind_eq_ok h2
    obtain ⟨vPid, -, h2⟩ := bind_eq_ok h2
    obtain ⟨ns, -, h2⟩ := bind_eq_ok h2
    suffices H : Post True (ns.foldlM (fun bs (q : Nat × Nat) => do
      let uPid ← rd p.asg q.1
      if vPid = uPid then do
        let subU ← m.2.2.rd q.1
        onNth bs vPid (TwoStep.addEdgeToVertex subV subU q.2)
      else .ok bs) c1) Sized from may_iff.mp H c2 h2
    refine Post_foldlM_inv _ hc1 fun q d1 _ hd1 => may_iff.mpr fun d2 h2 => ?_
    obtain ⟨_, -, h2⟩ := bind_eq_ok h2
    split at h2
    · obtain ⟨_, -, h2⟩ := bind_eq_ok h2
      exact onNth_sized (fun b b' h => addEdge_sized h) hd1 h2
    · cases h2; exact hd1
  refine mapM_all (Q := fun s : Subgraph => s.graph.ne < M32) (fun pid s hs => ?_) h
  obtain ⟨b, hb, hs⟩ := bind_eq_ok hs
  obtain ⟨_, -, hs⟩ := bind_eq_ok hs
  obtain ⟨sg, hsg, hs⟩ := bind_eq_ok hs
  obtain ⟨_, -, hs⟩ := bind_eq_ok hs
  rw [← Res.ok.inj hs]
  show sg.ne < M32
  rw [finish_ne hsg]
  exact s4 b (List.mem_of_getElem? (rd_some hb))

/-! ### Recursive bisection -/

theorem Stops.mapPart (m : Mapped) (p : Partitioning) (l : Mem) (o : Nat) : Stops be (m.mapPartitioning p l o) := by
  unfold Mapped.mapPartitioning wrapperMapPartitioning Subgraph.mapPartitioning
  stops [Stops.memWr]

theorem rbRecurse_stops {bis : Bisector E} (hbis : ∀ t g r, g.ne < M32 → Stops False (bis t g r)) :
    ∀ (fuel : Nat) (t : Target E.fp) (mg : Mapped) (offset : Nat) (s : Mem × E.rng.S), 2 ≤ t.k → t.k ≤ fuel → t.k < M32 →
      t.tw.length = t.k → t.mx.length = t.k → mg.graph.ne < M32 → Stops False (rbRecurse bis fuel t mg offset s) := by
  intro fuel
  induction fuel with
  | zero => intro t mg offset s h1 h2; omega
  | succ fuel ih =>
    intro t mg offset s hk hfuel hk' htw hmx hn
    unfold rbRecurse
    refine EndsE.bind (Wp.endsE.mp (makeHalves_spec (bu := True) (be := False) (bd := False) hk hk' htw hmx (M := NULL32)
      (by omega) (Or.inr trivial))) fun h hh => ?_
    obtain ⟨hnum, fr, hof, -⟩ := hh
    rw [hof, ok_bind]
    refine Stops.bind (hbis _ mg.graph s.2 hn) fun o => ?_
    refine Stops.bind (Stops.mapPart _ _ _ _) fun labels => ?_
    split
    swap
    · exact Stops.ok _
    rename_i hk2
    refine EndsE.bind (EndsE.and_may (Stops.extract _ _ _) (may_iff.mpr fun subs h => extract_ne h)) fun subs hsubs => ?_
    rw [hnum]
    refine Stops.foldlM fun s1 part => ?_
    unfold rbSide
    have side : ∀ b n off, b + n ≤ t.k → n < t.k → Stops False (if n > 1 then do
        let st ← halfTarget t b n
        let sg ← rd subs part
        rbRecurse bis fuel st { superMap := some sg.superMap, graph := sg.graph } off s1
      else .ok s1) := by
      intro b n off he hlt
      split
      swap
      · exact Stops.ok _
      obtain ⟨fr', hht⟩ := halfTarget_ok (t := t) (off := b) (n := n) (by omega) (by omega)
      rw [hht, ok_bind]
      refine EndsE.bind (EndsE.and_may (Stops.rd _ _) (may_iff.mpr fun sg h =>
        hsubs sg (List.mem_of_getElem? (rd_some h)))) fun sg hsg => ?_
      refine ih _ _ _ _ (by simp only; omega) (by simp only; omega) (by simp only; omega) ?_ ?_ hsg
      · simp only [List.length_take, List.length_drop]; omega
      · simp only [List.length_take, List.length_drop]; omega
    match part with
    | 0 =>
      rw [show rd [0, t.k / 2, t.k] 0 = ok 0 from rfl, ok_bind,
        show rd [0, t.k / 2, t.k] (0 + 1) = ok (t.k / 2) from rfl, ok_bind, usub_eq (by omega) (by omega)]
      exact side 0 (t.k / 2 - 0) _ (by omega) (by omega)
    | 1 =>
      rw [show rd [0, t.k / 2, t.k] 1 = ok (t.k / 2) from rfl, ok_bind,
        show rd [0, t.k / 2, t.k] (1 + 1) = ok t.k from rfl, ok_bind, usub_eq (by omega) (by omega)]
      exact side (t.k / 2) (t.k - t.k / 2) _ (by omega) (by omega)
    | 2 =>
      rw [show rd [0, t.k / 2, t.k] 2 = ok t.k from rfl, ok_bind,
        show rd [0, t.k / 2, t.k] (2 + 1) = ub from rfl]
      exact Stops.ub
    | n + 3 =>
      rw [show rd [0, t.k / 2, t.k] (n + 3) = ub from rfl]
      exact Stops.ub

theorem Stops.partitioner (s : Scheme) (hml : E.fp.MultilevelOK 0) {t : Target E.fp} (hk : 2 ≤ t.k) (hk' : t.k < M32)
    (htw : t.tw.length = t.k) (hmx : t.mx.length = t.k) (hn : g.ne < M32) (r : E.rng.S) :
    Stops False (partitioner E s t g r) := by
  unfold Poros.partitioner rbExecute
  refine Stops.bind (rbRecurse_stops (fun t g r h => Stops.execute s hml h t r) t.k t ⟨none, g⟩ 0 (Mem.alloc g.nv, r) hk
    (le_refl _) hk' htw hmx hn) fun o => ?_
  stops [Stops.freeze, Stops.ofLabels, Stops.recalcCut]

end Poros
