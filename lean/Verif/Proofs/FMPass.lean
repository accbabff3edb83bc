import Verif.SpecFP
import Verif.Proofs.FM
/-
FM passes and refinement.
-/
namespace Poros
open Res Finset

variable {E : Env}

/-! ### analysis functions -/

theorem list_two {α} {l : List α} (h : l.length = 2) : ∃ a b, l = [a, b] := by
  match l, h with
  | [a, b], _ => exact ⟨a, b, rfl⟩

theorem isOverWeight_eq {fp : FP} {t : Target fp} (ht : t.Two) {g : Graph} {p : Partitioning} (hp : IsExact g 2 p)
    {q : Nat} (hq : q < 2) : isOverWeight p t q = ok (decide (nth t.mx q < partWeight g p.lab q)) := by
  unfold isOverWeight
  rw [rd_of_lt (by rw [ht.mx]; exact hq), ok_bind, rd_of_lt (by rw [hp.pw_len]; exact hq), ok_bind,
    hp.weights q hq]

theorem isBalanced_eq {fp : FP} {t : Target fp} (ht : t.Two) {g : Graph} {p : Partitioning} (hp : IsExact g 2 p) :
    isBalanced p t = ok (decide (Balanced g t p.lab)) := by
  unfold isBalanced
  rw [hp.pw_len]
  have h0 := isOverWeight_eq ht hp (q := 0) (by omega)
  have h1 := isOverWeight_eq ht hp (q := 1) (by omega)
  simp only [show List.range 2 = [0, 1] from rfl, List.foldlM_cons, List.foldlM_nil, if_true, h0, ok_bind]
  have hb : Balanced g t p.lab ↔ ¬ (nth t.mx 0 < partWeight g p.lab 0) ∧ ¬ (nth t.mx 1 < partWeight g p.lab 1) := by
    unfold Balanced
    constructor
    · intro h; have := h 0 (by omega); have := h 1 (by omega); omega
    · intro h q hq
      have : q = 0 ∨ q = 1 := by omega
      rcases this with rfl | rfl <;> omega
  by_cases c0 : nth t.mx 0 < partWeight g p.lab 0
  · simp [c0, hb]
  · simp only [c0, decide_false, Bool.not_false, if_true, h1, ok_bind]
    by_cases c1 : nth t.mx 1 < partWeight g p.lab 1
    · simp [c1, hb]
    · simp [c0, c1, hb]

theorem calcMaxImbalance_eq {fp : FP} {t : Target fp} (ht : t.Two) {g : Graph} {p : Partitioning} (hp : IsExact g 2 p) :
    calcMaxImbalance g p t = ok (maxImbalance g t p.lab) := by
  obtain ⟨f0, f1, hf⟩ := list_two ht.frac
  unfold calcMaxImbalance findMax maxImbalance
  rw [hp.pw_len]
  have hw0 := hp.weights 0 (by omega)
  have hw1 := hp.weights 1 (by omega)
  have g0 : getImbalance g p t 0 = ok (imbalanceOf g p.lab 0 f0) := by
    unfold getImbalance getFraction imbalanceOf
    rw [hf, rd_of_lt (l := p.pw) (by rw [hp.pw_len]; omega), hw0]; rfl
  have g1 : getImbalance g p t 1 = ok (imbalanceOf g p.lab 1 f1) := by
    unfold getImbalance getFraction imbalanceOf
    rw [hf, rd_of_lt (l := p.pw) (by rw [hp.pw_len]; omega), hw1]; rfl
  simp only [show List.range 2 = [0, 1] from rfl, List.foldlM_cons, List.foldlM_nil, g0, g1, ok_bind, hf]
  unfold fmaxF
  by_cases c0 : fp.lt (fp.lit 0 0) (imbalanceOf g p.lab 0 f0) = true
  · simp only [c0, if_true, ok_bind]
    by_cases c1 : fp.lt (imbalanceOf g p.lab 0 f0) (imbalanceOf g p.lab 1 f1) = true
    · simp [c1]
    · simp [c1]
  · simp only [c0, ok_bind, if_false, Bool.false_eq_true]
    by_cases c1 : fp.lt (fp.lit 0 0) (imbalanceOf g p.lab 1 f1) = true
    · simp [c1]
    · simp [c1]

/-! ### queues -/

theorem VQueue.size_pos_iff {P : PQImpl} {q : VQueue P} : q.size > 0 ↔ ∃ u k, P.key q.q u = some k := by
  unfold VQueue.size
  rw [gt_iff_lt, List.length_pos_iff_exists_mem]
  constructor
  · rintro ⟨u, hu⟩
    rw [P.mem_elems, Option.isSome_iff_exists] at hu
    exact ⟨u, hu⟩
  · rintro ⟨u, hu⟩
    exact ⟨u, by rw [P.mem_elems, Option.isSome_iff_exists]; exact hu⟩

theorem VQueue.top_of_size {P : PQImpl} {q : VQueue P} (h : q.size > 0) :
    ∃ m, P.key q.q (P.top q.q) = some m ∧ ∀ u k, P.key q.q u = some k → k ≤ m := by
  obtain ⟨u, k, hk⟩ := VQueue.size_pos_iff.mp h
  obtain ⟨m, hm, _⟩ := P.top_max q.q u k hk
  refine ⟨m, hm, fun u' k' hk' => ?_⟩
  obtain ⟨m', hm', hle⟩ := P.top_max q.q u' k' hk'
  rw [hm] at hm'
  simp at hm'
  omega

theorem pickSide_spec {t : Target E.fp} (ht : t.Two) {g : Graph} {s : FMState E} (hp : IsExact g 2 s.part)
    (hne : s.q0.size > 0 ∨ s.q1.size > 0) :
    Sat (pickSide s t) (fun side => side < 2 ∧ (s.qsel side).size > 0) := by
  unfold pickSide
  rw [isOverWeight_eq ht hp (by omega), ok_bind]
  by_cases c0 : (decide (nth t.mx 0 < partWeight g s.part.lab 0) && decide (s.q0.size > 0)) = true
  · rw [if_pos c0]
    simp at c0
    exact ⟨by omega, c0.2⟩
  · rw [if_neg c0, isOverWeight_eq ht hp (by omega), ok_bind]
    by_cases c1 : (decide (nth t.mx 1 < partWeight g s.part.lab 1) && decide (s.q1.size > 0)) = true
    · rw [if_pos c1]
      simp at c1
      exact ⟨by omega, c1.2⟩
    · rw [if_neg c1]
      by_cases e0 : s.q0.size = 0
      · rw [if_pos e0]
        refine ⟨by omega, ?_⟩
        show s.q1.size > 0
        omega
      · rw [if_neg e0]
        by_cases e1 : s.q1.size = 0
        · rw [if_pos e1]
          refine ⟨by omega, ?_⟩
          show s.q0.size > 0
          omega
        · rw [if_neg e1]
          obtain ⟨m0, hm0, _⟩ := VQueue.top_of_size (q := s.q0) (by omega)
          obtain ⟨m1, hm1, _⟩ := VQueue.top_of_size (q := s.q1) (by omega)
          have x0 : s.q0.max = ok m0 := by unfold VQueue.max; rw [hm0]
          have x1 : s.q1.max = ok m1 := by unfold VQueue.max; rw [hm1]
          have p0 : s.q0.peek = ok (E.pq.top s.q0.q) := by unfold VQueue.peek; rw [hm0]
          have p1 : s.q1.peek = ok (E.pq.top s.q1.q) := by unfold VQueue.peek; rw [hm1]
          rw [x0, ok_bind, x1, ok_bind]
          have z0 : (s.qsel 0).size > 0 := by show s.q0.size > 0; omega
          have z1 : (s.qsel 1).size > 0 := by show s.q1.size > 0; omega
          split
          · exact ⟨by omega, z0⟩
          · split
            · exact ⟨by omega, z1⟩
            · rw [p0, ok_bind, p1, ok_bind]
              have : uadd (E.pq.top s.q0.q) (E.pq.top s.q1.q) % 2 = 0 ∨
                  uadd (E.pq.top s.q0.q) (E.pq.top s.q1.q) % 2 = 1 := by omega
              rcases this with h | h <;> rw [h]
              · exact ⟨by omega, z0⟩
              · exact ⟨by omega, z1⟩

/-- Empty queues, nothing visited. -/
structure FMFresh (g : Graph) (s : FMState E) : Prop where
  visited : s.visited = List.replicate g.nv false
  cap : ∀ side, side < 2 → (s.qsel side).cap = g.nv
  keys : ∀ side, side < 2 → ∀ u, E.pq.key (s.qsel side).q u = none

theorem fillQueues_spec {g : Graph} (hg : g.Good) {s : FMState E} (hs : FMGood g s) (hf : FMFresh g s) :
    Sat (fillQueues s) (fun s' => s'.part = s.part ∧ s'.conn = s.conn ∧ s'.visited = s.visited ∧ FMQueues g s') := by
  unfold fillQueues
  have hel : ∀ v, v ∈ s.conn.border.elems ↔ E.set.has s.conn.border.s v = true := fun v => E.set.mem_elems _ v
  refine (Post_foldlM (P := fun pre (s' : FMState E) => s'.part = s.part ∧ s'.conn = s.conn ∧
    s'.visited = s.visited ∧ (∀ side, side < 2 → (s'.qsel side).cap = g.nv) ∧
    ∀ side, side < 2 → ∀ u, E.pq.key (s'.qsel side).q u =
      if u ∈ pre ∧ s.part.lab u = side then
        some ((externalWeight g s.part.lab u : Int) - internalWeight g s.part.lab u) else none) ?_ ?_).mono ?_
  · exact ⟨rfl, rfl, rfl, hf.cap, fun side hside u => by simp [hf.keys side hside u]⟩
  · rintro pre v post s' hl ⟨hp, hc, hv', hcap, hk⟩
    have hvm : E.set.has s.conn.border.s v = true := (hel v).mp (by rw [hl]; simp)
    have hv : v < g.nv := (hs.conn.border_only v hvm).1
    have h2 := hs.part.complete v hv
    have hb := ext_int_lt hg s.part.lab hv
    have hnd : (pre ++ v :: post).Nodup := by rw [← hl]; exact E.set.nodup_elems _
    have hvpre : v ∉ pre := by
      intro h
      rw [List.nodup_append] at hnd
      exact hnd.2.2 v h v (by simp) rfl
    rw [hp, rd_of_lt (by rw [hs.part.asg_len]; exact hv), ok_bind]
    change Post _ (do
      let d ← s'.conn.delta v
      let k ← ineg d
      let pq ← s'.getQ (s.part.lab v)
      let pq ← pq.add k v
      s'.setQ (s.part.lab v) pq) _
    rw [hc, Conn.delta_eq hs.conn.toVals hv hb, ok_bind]
    have hneg : ineg ((internalWeight g s.part.lab v : Int) - externalWeight g s.part.lab v) =
        ok ((externalWeight g s.part.lab v : Int) - internalWeight g s.part.lab v) := by
      unfold ineg
      rw [isub_eq (by omega) (by omega)]
      congr 1; omega
    rw [hneg, ok_bind, FMState.getQ_eq h2, ok_bind, VQueue.add_eq (by rw [hcap _ h2]; exact hv)
      (by rw [hk _ h2]; simp [hvpre]), ok_bind, FMState.setQ_eq h2]
    refine ⟨by rw [FMState.qset_part]; exact hp, by rw [FMState.qset_conn]; exact hc,
      by rw [FMState.qset_visited]; exact hv', ?_, ?_⟩
    · intro side hside
      rw [FMState.qset_qsel h2 hside]
      split
      · exact hcap _ h2
      · exact hcap _ hside
    · intro side hside u
      rw [FMState.qset_qsel h2 hside]
      by_cases hsd : side = s.part.lab v
      · rw [if_pos hsd]
        show E.pq.key (E.pq.put _ _ _) u = _
        rw [E.pq.key_put]
        by_cases huv : u = v
        · subst huv; simp [hsd]
        · rw [if_neg huv, hk _ h2]; simp [huv, hsd]
      · rw [if_neg hsd, hk _ hside]
        by_cases huv : u = v
        · subst huv; simp [Ne.symm hsd]
        · simp [huv]
  · rintro s' ⟨hp, hc, hv, hcap, hk⟩
    refine ⟨hp, hc, hv, ?_⟩
    refine ⟨by rw [hv, hf.visited]; simp, hcap, fun side hside u => ?_⟩
    rw [hk side hside u, hp, hc, hv, hf.visited]
    unfold expectKey
    congr 1
    apply propext
    rw [hel u]
    constructor
    · rintro ⟨a, b⟩
      have := (hs.conn.border_only u a).1
      exact ⟨this, nth_replicate this, b, a⟩
    · rintro ⟨_, _, b, a⟩; exact ⟨a, b⟩

/-! ### trace of a pass -/

theorem foldl_flip_lt {n : Nat} (vs : List Nat) {lab : Nat → Nat} (h : ∀ u, u < n → lab u < 2) :
    ∀ u, u < n → vs.foldl flip lab u < 2 := by
  induction vs generalizing lab with
  | nil => exact h
  | cons v vs ih => exact ih (flip_lt h v)

theorem flip_flip {n : Nat} {lab : Nat → Nat} (h : ∀ u, u < n → lab u < 2) {v : Nat} (hv : v < n) :
    flip (flip lab v) v = lab := by
  funext u
  unfold flip
  by_cases huv : u = v
  · subst huv; simp; have := h u hv; omega
  · simp [huv]

/-- Invariant of the move loop. `lab0` are the labels at the start of the pass. -/
structure PassInv (g : Graph) (t : Target E.fp) (lab0 : Nat → Nat) (ps : PassState E) : Prop where
  good : FMGood g ps.s
  queues : FMQueues g ps.s
  best : ∃ kept : List Nat, (kept ++ ps.moves).Nodup ∧
    (∀ v, v ∈ kept ++ ps.moves ↔ v < g.nv ∧ nth ps.s.visited v = true) ∧
    ps.numMoved = (kept ++ ps.moves).length ∧
    ps.s.part.lab = (kept ++ ps.moves).foldl flip lab0 ∧
    ps.bestCut = cutWeight g (kept.foldl flip lab0) ∧
    ps.bestBal = maxImbalance g t (kept.foldl flip lab0) ∧
    ImprovesStar g t lab0 (kept.foldl flip lab0)

theorem nth_set_true {l : List Bool} {v u : Nat} (hv : v < l.length) :
    nth (l.set v true) u = true ↔ u = v ∨ nth l u = true := by
  rw [nth_set hv]; split <;> simp_all

/-- What one iteration of the move loop does to the observable state. -/
def StepOf (g : Graph) (t : Target E.fp) (ps ps' : PassState E) : Prop :=
  ∃ side v, pickSide ps.s t = ok side ∧ side < 2 ∧ (ps.s.qsel side).size > 0 ∧
    v = E.pq.top (ps.s.qsel side).q ∧ v < g.nv ∧ ps'.s.part.lab = flip ps.s.part.lab v ∧
    ps'.s.visited = ps.s.visited.set v true ∧
    ((fmAccept E.fp (decide (Balanced g t ps'.s.part.lab)) (maxImbalance g t ps'.s.part.lab) ps.bestBal
        (cutWeight g ps'.s.part.lab) ps.bestCut = true ∧ ps'.moves = [] ∧
        ps'.bestCut = cutWeight g ps'.s.part.lab ∧ ps'.bestBal = maxImbalance g t ps'.s.part.lab) ∨
      (fmAccept E.fp (decide (Balanced g t ps'.s.part.lab)) (maxImbalance g t ps'.s.part.lab) ps.bestBal
        (cutWeight g ps'.s.part.lab) ps.bestCut = false ∧ ps'.moves = ps.moves ++ [v] ∧
        ps'.bestCut = ps.bestCut ∧ ps'.bestBal = ps.bestBal))

theorem fmStep_spec {g : Graph} (hg : g.Good) {t : Target E.fp} (ht : t.Two) {lab0 : Nat → Nat} {ps : PassState E}
    (h : PassInv g t lab0 ps) (hne : ps.s.q0.size > 0 ∨ ps.s.q1.size > 0) :
    Sat (fmStep g t ps) (fun ps' => PassInv g t lab0 ps' ∧ ps'.numMoved = ps.numMoved + 1 ∧ StepOf g t ps ps') := by
  unfold fmStep
  refine (pickSide_spec ht h.good.part hne).with_eq.bind ?_
  rintro side ⟨⟨hside, hsz⟩, hpick⟩
  simp only
  rw [FMState.getQ_eq hside, ok_bind]
  obtain ⟨m, hm, _⟩ := VQueue.top_of_size hsz
  generalize hv : E.pq.top (ps.s.qsel side).q = v at hm
  have hpop : (ps.s.qsel side).pop = ok (v, { ps.s.qsel side with q := E.pq.del (ps.s.qsel side).q v }) := by
    unfold VQueue.pop; rw [hv, hm]
  rw [hpop, ok_bind]
  simp only
  rw [FMState.setQ_eq hside, ok_bind]
  have hkey := h.queues.keys side hside v
  rw [hm] at hkey
  unfold expectKey at hkey
  split at hkey
  swap
  · simp at hkey
  rename_i hcond
  obtain ⟨hvn, hvis, hlab, hhas⟩ := hcond
  rw [FMState.qset_visited, wr_of_lt (by rw [h.queues.vis]; exact hvn), ok_bind]
  generalize hs1 : ({ FMState.qset ps.s side { ps.s.qsel side with q := E.pq.del (ps.s.qsel side).q v }
    with visited := ps.s.visited.set v true } : FMState E) = s1
  have e_part : s1.part = ps.s.part := by rw [← hs1]; exact FMState.qset_part _ _ _
  have e_conn : s1.conn = ps.s.conn := by rw [← hs1]; exact FMState.qset_conn _ _ _
  have e_vis : s1.visited = ps.s.visited.set v true := by rw [← hs1]
  have e_q : ∀ side', side' < 2 → s1.qsel side' =
      if side' = side then { ps.s.qsel side with q := E.pq.del (ps.s.qsel side).q v } else ps.s.qsel side' := by
    intro side' h'
    rw [← hs1]
    exact FMState.qset_qsel hside h' _
  have hgood1 : FMGood g s1 := ⟨by rw [e_part]; exact h.good.part, by rw [e_part, e_conn]; exact h.good.conn⟩
  have hvl : v < ps.s.visited.length := by rw [h.queues.vis]; exact hvn
  have hq1 : FMQueues g s1 := by
    refine ⟨by rw [e_vis, List.length_set]; exact h.queues.vis, ?_, ?_⟩
    · intro side' h'
      rw [e_q side' h']
      split
      · exact h.queues.cap side hside
      · exact h.queues.cap side' h'
    · intro side' h' u
      rw [e_q side' h', e_part, e_conn, e_vis]
      unfold expectKey
      rw [nth_set hvl]
      by_cases huv : u = v
      · subst huv
        simp only [if_true, Bool.true_eq_false, false_and, and_false, if_false]
        by_cases hs' : side' = side
        · rw [if_pos hs']
          show E.pq.key (E.pq.del _ _) u = none
          rw [E.pq.key_del, if_pos rfl]
        · rw [if_neg hs', h.queues.keys side' h' u]
          unfold expectKey
          rw [if_neg]
          rintro ⟨_, _, hh, _⟩
          omega
      · rw [if_neg huv]
        by_cases hs' : side' = side
        · rw [if_pos hs']
          show E.pq.key (E.pq.del _ _) u = _
          rw [E.pq.key_del, if_neg huv, hs', h.queues.keys side hside u]
          rfl
        · rw [if_neg hs', h.queues.keys side' h' u]
          rfl
  have hdst : side ^^^ 1 = 1 - s1.part.lab v := by
    rw [e_part, hlab]
    have : side = 0 ∨ side = 1 := by omega
    rcases this with rfl | rfl <;> rfl
  refine (fmMove_spec hg true hgood1 hvn hdst (fun _ => ⟨hq1, by rw [e_vis]; exact nth_set_self hvl⟩)).bind ?_
  rintro s2 ⟨hgood2, hlab2, hvis2, hq2, _⟩
  rw [calcMaxImbalance_eq ht hgood2.part, ok_bind, isBalanced_eq ht hgood2.part, ok_bind]
  obtain ⟨kept, hnd, hmem, hnum, hl, hbc, hbb, hstar⟩ := h.best
  have hlab0 : s2.part.lab = ((kept ++ ps.moves) ++ [v]).foldl flip lab0 := by
    rw [hlab2, e_part, hl, List.foldl_append (l := kept ++ ps.moves) (l' := [v])]; rfl
  have hvnew : v ∉ kept ++ ps.moves := by
    intro hc
    have := ((hmem v).mp hc).2
    rw [hvis] at this; simp at this
  have hnd' : ((kept ++ ps.moves) ++ [v]).Nodup := by
    rw [List.nodup_append]
    refine ⟨hnd, by simp, ?_⟩
    intro a ha b hb
    simp at hb
    subst hb
    intro hab; subst hab; exact hvnew ha
  have hmem' : ∀ u, u ∈ (kept ++ ps.moves) ++ [v] ↔ u < g.nv ∧ nth s2.visited u = true := by
    intro u
    rw [hvis2, e_vis, nth_set_true hvl, List.mem_append, hmem u]
    simp
    constructor
    · rintro (⟨a, b⟩ | rfl)
      · exact ⟨a, Or.inr b⟩
      · exact ⟨hvn, Or.inl rfl⟩
    · rintro ⟨a, rfl | b⟩
      · exact Or.inr rfl
      · exact Or.inl ⟨a, b⟩
  have hstep : ∀ ps' : PassState E, ps'.s = s2 → _ → StepOf g t ps ps' := fun ps' e hh =>
    ⟨side, v, hpick, hside, hsz, hv.symm, hvn, by rw [e, hlab2, e_part], by rw [e, hvis2, e_vis], hh⟩
  split
  · rename_i hacc
    refine ⟨⟨hgood2, hq2 rfl, (kept ++ ps.moves) ++ [v], ?_, ?_, ?_, ?_, ?_, ?_, ?_⟩, rfl, hstep _ rfl (Or.inl ⟨?_, rfl, ?_, rfl⟩)⟩
    · simpa using hnd'
    · simpa using hmem'
    · simp [hnum]; omega
    · simpa using hlab0
    · rw [← hlab0]; exact hgood2.part.cut_eq
    · rw [← hlab0]
    · refine ImprovesStar.step hstar ?_ (by rw [← hlab0]; exact hgood2.part.complete)
      rw [← hlab0]
      unfold fmAccept at hacc
      rw [hbb, hbc, hgood2.part.cut_eq] at hacc
      unfold Improves
      simp only [Bool.or_eq_true, Bool.and_eq_true, Bool.not_eq_true', decide_eq_false_iff_not,
        decide_eq_true_eq] at hacc
      exact hacc
    · rw [← hgood2.part.cut_eq]; exact hacc
    · exact hgood2.part.cut_eq
  · rename_i hacc
    refine ⟨⟨hgood2, hq2 rfl, kept, ?_, ?_, ?_, ?_, hbc, hbb, hstar⟩, rfl, hstep _ rfl (Or.inr ⟨?_, rfl, rfl, rfl⟩)⟩
    · simpa [List.append_assoc] using hnd'
    · simpa [List.append_assoc] using hmem'
    · simp [hnum]; omega
    · simpa [List.append_assoc] using hlab0
    · rw [← hgood2.part.cut_eq]; simpa using hacc

theorem nodup_le {n : Nat} {l : List Nat} (hn : l.Nodup) (h : ∀ v ∈ l, v < n) : l.length ≤ n := by
  have := List.Nodup.length_le_card (α := Fin n) (l := l.pmap (fun v hv => ⟨v, hv⟩) h)
    (List.Nodup.pmap (fun a _ b _ hab => by simpa using hab) hn)
  simpa using this

theorem PassInv.numMoved_le {g : Graph} {t : Target E.fp} {lab0 : Nat → Nat} {ps : PassState E}
    (h : PassInv g t lab0 ps) : ps.numMoved ≤ g.nv := by
  obtain ⟨kept, hnd, hmem, hnum, _⟩ := h.best
  rw [hnum]
  exact nodup_le hnd fun v hv => ((hmem v).mp hv).1

theorem fmLoop_spec {g : Graph} (hg : g.Good) {t : Target E.fp} (ht : t.Two) {lab0 : Nat → Nat} (maxBad : Nat)
    (fuel : Nat) {ps : PassState E} (h : PassInv g t lab0 ps) (hf : g.nv < fuel + ps.numMoved) :
    Sat (fmLoop g t maxBad fuel ps) (fun ps' => PassInv g t lab0 ps' ∧
      ¬ ((ps'.s.q0.size > 0 ∨ ps'.s.q1.size > 0) ∧ ps'.moves.length < maxBad)) := by
  induction fuel generalizing ps with
  | zero => have := h.numMoved_le; omega
  | succ fuel ih =>
    unfold fmLoop
    split
    · rename_i hc
      refine (fmStep_spec hg ht h hc.1).bind ?_
      rintro ps' ⟨h', hn, -⟩
      exact ih h' (by omega)
    · rename_i hc
      exact ⟨h, hc⟩

theorem fmUndo_spec {g : Graph} (hg : g.Good) {s : FMState E} (moves : List Nat) (hs : FMGood g s)
    (hm : ∀ v ∈ moves, v < g.nv) {base : Nat → Nat} (hb : ∀ u, u < g.nv → base u < 2)
    (hl : s.part.lab = moves.foldl flip base) :
    Sat (fmUndo g moves s) (fun s' => FMGood g s' ∧ s'.part.lab = base ∧ s'.q0 = s.q0 ∧ s'.q1 = s.q1 ∧
      s'.visited = s.visited) := by
  unfold fmUndo
  induction moves using List.reverseRecOn generalizing s with
  | nil => exact ⟨hs, hl, rfl, rfl, rfl⟩
  | append_singleton l v ih =>
    rw [List.reverse_append, List.reverse_singleton, List.singleton_append, List.foldlM_cons]
    have hv : v < g.nv := hm v (by simp)
    have h2 := hs.part.complete v hv
    have hd : s.part.lab v ^^^ 1 = 1 - s.part.lab v := by
      have : s.part.lab v = 0 ∨ s.part.lab v = 1 := by omega
      rcases this with h | h <;> rw [h] <;> rfl
    rw [rd_of_lt (by rw [hs.part.asg_len]; exact hv), ok_bind]
    change Post _ ((fmMove g false v (s.part.lab v ^^^ 1) s) >>= _) _
    refine (fmMove_spec hg false hs hv hd (by simp)).bind ?_
    rintro s1 ⟨hg1, hl1, hv1, _, hq1⟩
    have hl2 : s1.part.lab = l.foldl flip base := by
      rw [hl1, hl, List.foldl_append]
      exact flip_flip (foldl_flip_lt l hb) hv
    refine (ih hg1 (fun u hu => hm u (by simp [hu])) hl2).mono ?_
    rintro s' ⟨a, b, c, d, e⟩
    exact ⟨a, b, c.trans (hq1 rfl).1, d.trans (hq1 rfl).2, e.trans hv1⟩

/-- One pass. -/
theorem fmPass_spec {g : Graph} (hg : g.Good) {t : Target E.fp} (ht : t.Two) (maxBad : Nat) {s : FMState E}
    (hs : FMGood g s) (hf : FMFresh g s) :
    Sat (fmPass g t maxBad s) (fun r => FMGood g r.1 ∧
      (∃ kept : List Nat, kept.Nodup ∧ (∀ v ∈ kept, v < g.nv) ∧ r.1.part.lab = kept.foldl flip s.part.lab ∧
        (r.2 = true ↔ kept = [])) ∧
      ImprovesStar g t s.part.lab r.1.part.lab ∧ FMFresh g r.1.clear) := by
  unfold fmPass
  refine (fillQueues_spec hg hs hf).bind ?_
  rintro s1 ⟨hp1, hc1, hv1, hq1⟩
  have hs1 : FMGood g s1 := ⟨by rw [hp1]; exact hs.part, by rw [hp1, hc1]; exact hs.conn⟩
  rw [calcMaxImbalance_eq ht hs1.part, ok_bind]
  have h0 : PassInv g t s.part.lab
      { s := s1, moves := [], bestCut := s1.part.cut, bestBal := maxImbalance g t s1.part.lab, numMoved := 0 } := by
    refine ⟨hs1, hq1, [], by simp, ?_, rfl, by simp [hp1], ?_, by simp [hp1], ImprovesStar.refl _⟩
    · intro v
      simp only [List.append_nil, List.not_mem_nil, false_iff, not_and]
      intro hv
      rw [hv1, hf.visited, nth_replicate hv]; simp
    · show s1.part.cut = cutWeight g s.part.lab
      rw [hs1.part.cut_eq, hp1]
  refine (fmLoop_spec hg ht maxBad (g.nv + 1) h0 (by show g.nv < g.nv + 1 + 0; omega)).bind ?_
  rintro ps ⟨hps, _⟩
  obtain ⟨kept, hnd, hmem, hnum, hl, hbc, hbb, hstar⟩ := hps.best
  have hkm : ∀ v ∈ kept ++ ps.moves, v < g.nv := fun v hv => ((hmem v).mp hv).1
  refine (fmUndo_spec hg ps.moves hps.good (fun v hv => hkm v (by simp [hv]))
    (base := kept.foldl flip s.part.lab) (foldl_flip_lt kept hs.part.complete)
    (by rw [hl, List.foldl_append])).bind ?_
  rintro s2 ⟨hg2, hl2, hq0, hq1', hv2⟩
  refine ⟨hg2, ⟨kept, ?_, ?_, hl2, ?_⟩, ?_, ?_⟩
  · exact (List.nodup_append.mp hnd).1
  · intro v hv; exact hkm v (by simp [hv])
  · simp only [decide_eq_true_eq, hnum, List.length_append]
    constructor
    · intro h; exact List.length_eq_zero_iff.mp (by omega)
    · rintro rfl; simp
  · rw [hl2]; exact hstar
  · have hcap := hps.queues.cap
    refine ⟨?_, ?_, ?_⟩
    · show List.replicate s2.visited.length false = _
      rw [hv2, hps.queues.vis]
    · intro side hside
      have : side = 0 ∨ side = 1 := by omega
      rcases this with rfl | rfl
      · show s2.q0.cap = g.nv
        rw [hq0]; exact hcap 0 (by omega)
      · show s2.q1.cap = g.nv
        rw [hq1']; exact hcap 1 (by omega)
    · intro side hside u
      have : side = 0 ∨ side = 1 := by omega
      rcases this with rfl | rfl
      · exact E.pq.key_empty u
      · exact E.pq.key_empty u

theorem ImprovesStar.trans {fp : FP} {g : Graph} {t : Target fp} {a b c : Nat → Nat} (h1 : ImprovesStar g t a b)
    (h2 : ImprovesStar g t b c) : ImprovesStar g t a c := by
  induction h2 with
  | refl => exact h1
  | step _ hi hc ih => exact ih.step hi hc

theorem fmIters_spec {g : Graph} (hg : g.Good) {t : Target E.fp} (ht : t.Two) (maxBad : Nat) (n : Nat) {s : FMState E}
    (hs : FMGood g s) (hf : FMFresh g s) :
    Sat (fmIters g t maxBad n s) (fun s' => FMGood g s' ∧ ImprovesStar g t s.part.lab s'.part.lab) := by
  induction n generalizing s with
  | zero => exact ⟨hs, ImprovesStar.refl _⟩
  | succ n ih =>
    unfold fmIters
    refine (fmPass_spec hg ht maxBad hs hf).bind ?_
    rintro ⟨s1, stop⟩ ⟨hg1, _, hst, hfr⟩
    simp only at hg1 hst hfr ⊢
    split
    · exact ⟨hg1, hst⟩
    · refine (ih (s := s1.clear) ⟨hg1.part, hg1.conn⟩ hfr).mono ?_
      rintro s2 ⟨a, b⟩
      exact ⟨a, hst.trans b⟩

theorem Post_cast {fp : FP} {B : Prop} {x : fp.F} {Q : Nat → Prop} (h0 : fp.toU32 x = none → B)
    (h1 : ∀ n, n < M32 → fp.toU32 x = some n → Q n) : Post B (fp.cast x) Q := by
  unfold FP.cast
  cases h : fp.toU32 x with
  | none => exact h0 h
  | some n => exact h1 n (fp.toU32_lt x n h) h

theorem fmRefine_spec {B : Prop} {g : Graph} (hg : g.Good) {t : Target E.fp} (ht : t.Two) (maxIters maxMoves : Nat)
    {p : Partitioning} {c : Conn E.set} (hp : IsExact g 2 p) (hc : ConnExact g p.lab c)
    (hB : ¬ E.fp.BadMovesOK g.nv → B) :
    Post B (fmRefine g t maxIters maxMoves p c) (fun r => IsExact g 2 r.1 ∧ ConnExact g r.1.lab r.2 ∧
      ImprovesStar g t p.lab r.1.lab) := by
  unfold fmRefine maxBadMoves
  refine Post.bind (Post.bind (Post_cast (fun h => hB (by simp [FP.BadMovesOK, h]))
    (fun n _ _ => trivial)) (Q' := fun _ => True) (fun _ _ => trivial)) fun maxBad _ => ?_
  refine Post.bind (Post.of_sat (fmIters_spec hg ht maxBad maxIters ⟨hp, hc⟩ ⟨rfl, ?_, ?_⟩)) ?_
  · intro side hside
    have : side = 0 ∨ side = 1 := by omega
    rcases this with rfl | rfl <;> rfl
  · intro side hside u
    have : side = 0 ∨ side = 1 := by omega
    rcases this with rfl | rfl <;> exact E.pq.key_empty u
  · rintro s ⟨a, b⟩
    exact ⟨a.part, a.conn, b⟩

end Poros
