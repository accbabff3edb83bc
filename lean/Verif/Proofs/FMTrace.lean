import Verif.SpecFM
import Verif.Proofs.FMPass
/-
FM refinement refines its specification (SpecFM.lean).
-/
namespace Poros
open Finset Res

variable {E : Env}

/-- The candidates of a state. -/
def candOf (g : Graph) (s : FMState E) (u : Nat) : Prop :=
  u < g.nv ∧ nth s.visited u = false ∧ E.set.has s.conn.border.s u = true

theorem key_iff {g : Graph} {s : FMState E} (hq : FMQueues g s) {side : Nat} (hs : side < 2) {u : Nat} {k : Int} :
    E.pq.key (s.qsel side).q u = some k ↔ candOf g s u ∧ s.part.lab u = side ∧ gain g s.part.lab u = k := by
  rw [hq.keys side hs u]
  unfold expectKey candOf gain
  constructor
  · intro h
    split at h
    · rename_i hc
      exact ⟨⟨hc.1, hc.2.1, hc.2.2.2⟩, hc.2.2.1, by simpa using h⟩
    · cases h
  · rintro ⟨⟨a, b, c⟩, d, e⟩
    rw [if_pos ⟨a, b, d, c⟩, ← e]

theorem candOf_set {g : Graph} {s : FMState E} (hg : FMGood g s) {moved : List Nat}
    (hm : ∀ v, v ∈ moved ↔ v < g.nv ∧ nth s.visited v = true) : CandSet g s.part.lab moved (candOf g s) := by
  constructor
  · intro v hv hn he
    refine ⟨hv, ?_, hg.conn.border_of_ext v hv he⟩
    cases hx : nth s.visited v with
    | false => rfl
    | true => exact absurd ((hm v).mpr ⟨hv, hx⟩) hn
  · rintro v ⟨a, b, c⟩
    refine ⟨a, fun h => ?_, (hg.conn.border_only v c).2⟩
    rw [((hm v).mp h).2] at b
    cases b

theorem queue_pos {g : Graph} {s : FMState E} (hq : FMQueues g s) {side : Nat} (hs : side < 2) :
    (s.qsel side).size > 0 ↔ ∃ u, candOf g s u ∧ s.part.lab u = side := by
  rw [VQueue.size_pos_iff]
  constructor
  · rintro ⟨u, k, h⟩
    have := (key_iff hq hs).mp h
    exact ⟨u, this.1, this.2.1⟩
  · rintro ⟨u, h1, h2⟩
    exact ⟨u, _, (key_iff hq hs).mpr ⟨h1, h2, rfl⟩⟩

/-- The top of a nonempty queue is a candidate of its side of largest gain. -/
theorem top_spec {g : Graph} {s : FMState E} (hq : FMQueues g s) {side : Nat} (hs : side < 2)
    (h : (s.qsel side).size > 0) :
    candOf g s (E.pq.top (s.qsel side).q) ∧ s.part.lab (E.pq.top (s.qsel side).q) = side ∧
      (s.qsel side).max = ok (gain g s.part.lab (E.pq.top (s.qsel side).q)) ∧
      (s.qsel side).peek = ok (E.pq.top (s.qsel side).q) ∧
      ∀ u, candOf g s u → s.part.lab u = side →
        gain g s.part.lab u ≤ gain g s.part.lab (E.pq.top (s.qsel side).q) := by
  obtain ⟨m, hm, hmax⟩ := VQueue.top_of_size h
  have := (key_iff hq hs).mp hm
  refine ⟨this.1, this.2.1, ?_, ?_, fun u h1 h2 => ?_⟩
  · unfold VQueue.max; rw [hm, this.2.2]
  · unfold VQueue.peek; rw [hm]
  · rw [this.2.2]; exact hmax u _ ((key_iff hq hs).mpr ⟨h1, h2, rfl⟩)

theorem pickSide_chosen {t : Target E.fp} (ht : t.Two) {g : Graph} {s : FMState E} (hg : FMGood g s)
    (hq : FMQueues g s) {side : Nat} (hs : side < 2) (hpos : (s.qsel side).size > 0) (hp : pickSide s t = ok side) :
    Chosen g t s.part.lab (candOf g s) (E.pq.top (s.qsel side).q) := by
  obtain ⟨t1, t2, t3, t4, t5⟩ := top_spec hq hs hpos
  have h2 := hg.part.complete
  have hc2 : ∀ u, candOf g s u → s.part.lab u = 0 ∨ s.part.lab u = 1 := fun u hu => by
    have := h2 u hu.1
    omega
  have hm : ∀ q, q < 2 → (MustRelieve g t s.part.lab (candOf g s) q ↔
      (decide (nth t.mx q < partWeight g s.part.lab q) && decide ((s.qsel q).size > 0)) = true) := by
    intro q hq2
    unfold MustRelieve
    simp only [Bool.and_eq_true, decide_eq_true_eq]
    rw [queue_pos hq hq2]
  have hm0 := hm 0 (by omega)
  have hm1 := hm 1 (by omega)
  unfold pickSide at hp
  rw [isOverWeight_eq ht hg.part (by omega), ok_bind] at hp
  change (if (decide (nth t.mx 0 < partWeight g s.part.lab 0) && decide ((s.qsel 0).size > 0)) = true then _ else _) = _ at hp
  by_cases c0 : (decide (nth t.mx 0 < partWeight g s.part.lab 0) && decide ((s.qsel 0).size > 0)) = true
  · rw [if_pos c0] at hp
    have hs0 : 0 = side := Res.ok.inj hp
    exact ⟨t1, fun u h1 h2 => t5 u h1 (h2.trans t2), fun _ => t2.trans hs0.symm, fun h => absurd (hm0.mpr c0) h,
      fun h => absurd (hm0.mpr c0) h, fun h => absurd (hm0.mpr c0) h⟩
  rw [if_neg c0, isOverWeight_eq ht hg.part (by omega), ok_bind] at hp
  change (if (decide (nth t.mx 1 < partWeight g s.part.lab 1) && decide ((s.qsel 1).size > 0)) = true then _ else _) = _ at hp
  have n0 : ¬ MustRelieve g t s.part.lab (candOf g s) 0 := fun h => c0 (hm0.mp h)
  by_cases c1 : (decide (nth t.mx 1 < partWeight g s.part.lab 1) && decide ((s.qsel 1).size > 0)) = true
  · rw [if_pos c1] at hp
    have hs1 : 1 = side := Res.ok.inj hp
    exact ⟨t1, fun u h1 h2 => t5 u h1 (h2.trans t2), fun h => absurd h n0, fun _ _ => t2.trans hs1.symm,
      fun _ h => absurd (hm1.mpr c1) h, fun _ h => absurd (hm1.mpr c1) h⟩
  rw [if_neg c1] at hp
  have n1 : ¬ MustRelieve g t s.part.lab (candOf g s) 1 := fun h => c1 (hm1.mp h)
  change (if (s.qsel 0).size = 0 then ok 1 else if (s.qsel 1).size = 0 then ok 0 else
    ((s.qsel 0).max >>= fun m0 => (s.qsel 1).max >>= fun m1 => if m0 > m1 then ok 0 else if m0 < m1 then ok 1 else
      (s.qsel 0).peek >>= fun a => (s.qsel 1).peek >>= fun b => ok (uadd a b % 2))) = ok side at hp
  -- one side without candidates
  have alone : ∀ q, q < 2 → (s.qsel q).size = 0 → ∀ u, candOf g s u → s.part.lab u ≠ q := by
    intro q hq2 hz u hu he
    have := (queue_pos hq hq2).mpr ⟨u, hu, he⟩
    omega
  by_cases e0 : (s.qsel 0).size = 0
  · rw [if_pos e0] at hp
    have hs1 : 1 = side := Res.ok.inj hp
    have al := alone 0 (by omega) e0
    refine ⟨t1, fun u h1 h2 => t5 u h1 (h2.trans t2), fun h => absurd h n0, fun _ h => absurd h n1,
      fun _ _ u hu => t5 u hu ?_, fun _ _ ⟨u, hu, hne, _⟩ => ?_⟩
    · have := hc2 u hu; have := al u hu; omega
    · have := hc2 u hu; have := al u hu; rw [t2] at hne; omega
  rw [if_neg e0] at hp
  by_cases e1 : (s.qsel 1).size = 0
  · rw [if_pos e1] at hp
    have hs1 : 0 = side := Res.ok.inj hp
    have al := alone 1 (by omega) e1
    refine ⟨t1, fun u h1 h2 => t5 u h1 (h2.trans t2), fun h => absurd h n0, fun _ h => absurd h n1,
      fun _ _ u hu => t5 u hu ?_, fun _ _ ⟨u, hu, hne, _⟩ => ?_⟩
    · have := hc2 u hu; have := al u hu; omega
    · have := hc2 u hu; have := al u hu; rw [t2] at hne; omega
  rw [if_neg e1] at hp
  obtain ⟨a1, a2, a3, a4, a5⟩ := top_spec hq (show 0 < 2 by omega) (by omega)
  obtain ⟨b1, b2, b3, b4, b5⟩ := top_spec hq (show 1 < 2 by omega) (by omega)
  rw [a3, ok_bind, b3, ok_bind] at hp
  generalize hA : E.pq.top (s.qsel 0).q = a at *
  generalize hB : E.pq.top (s.qsel 1).q = b at *
  by_cases x0 : gain g s.part.lab a > gain g s.part.lab b
  · rw [if_pos x0] at hp
    obtain rfl : 0 = side := Res.ok.inj hp
    rw [hA]
    refine ⟨a1, fun u h1 h2 => a5 u h1 (h2.trans a2), fun h => absurd h n0, fun _ h => absurd h n1,
      fun _ _ u hu => ?_, fun _ _ ⟨u, hu, hne, he⟩ => ?_⟩
    · rcases hc2 u hu with h | h
      · exact a5 u hu h
      · have := b5 u hu h; omega
    · rcases hc2 u hu with h | h
      · omega
      · have := b5 u hu h; omega
  rw [if_neg x0] at hp
  by_cases x1 : gain g s.part.lab a < gain g s.part.lab b
  · rw [if_pos x1] at hp
    obtain rfl : 1 = side := Res.ok.inj hp
    rw [hB]
    refine ⟨b1, fun u h1 h2 => b5 u h1 (h2.trans b2), fun h => absurd h n0, fun _ h => absurd h n1,
      fun _ _ u hu => ?_, fun _ _ ⟨u, hu, hne, he⟩ => ?_⟩
    · rcases hc2 u hu with h | h
      · have := a5 u hu h; omega
      · exact b5 u hu h
    · rcases hc2 u hu with h | h
      · have := a5 u hu h; omega
      · omega
  rw [if_neg x1, a4, ok_bind, b4, ok_bind] at hp
  have hpar : uadd a b % 2 = side := Res.ok.inj hp
  have hpar' : (a + b) % 2 = side := by unfold uadd at hpar; omega
  have hge : gain g s.part.lab a = gain g s.part.lab b := by omega
  rcases (show side = 0 ∨ side = 1 by omega) with rfl | rfl
  · rw [hA]
    refine ⟨a1, fun u h1 h2 => a5 u h1 (h2.trans a2), fun h => absurd h n0, fun _ h => absurd h n1,
      fun _ _ u hu => ?_, fun _ _ _ => ⟨b, b1, by omega, hge.symm, by omega⟩⟩
    rcases hc2 u hu with h | h
    · exact a5 u hu h
    · have := b5 u hu h; omega
  · rw [hB]
    refine ⟨b1, fun u h1 h2 => b5 u h1 (h2.trans b2), fun h => absurd h n0, fun _ h => absurd h n1,
      fun _ _ u hu => ?_, fun _ _ _ => ⟨a, a1, by omega, hge, by omega⟩⟩
    rcases hc2 u hu with h | h
    · have := a5 u hu h; omega
    · exact b5 u hu h

/-- The connection between the state of the move loop and the specification. -/
structure Linked (g : Graph) (t : Target E.fp) (maxBad : Nat) (lab0 : Nat → Nat) (ps : PassState E)
    (best : Nat → Nat) (moved : List Nat) : Prop where
  run : PassTo g t maxBad lab0 ps.s.part.lab best moved ps.moves.length
  mem : ∀ v, v ∈ moved ↔ v < g.nv ∧ nth ps.s.visited v = true
  len : moved.length = ps.numMoved
  cut : ps.bestCut = cutWeight g best
  bal : ps.bestBal = maxImbalance g t best
  lab : ps.s.part.lab = ps.moves.foldl flip best

theorem accept_iff {g : Graph} {t : Target E.fp} {best lab : Nat → Nat} :
    fmAccept E.fp (decide (Balanced g t lab)) (maxImbalance g t lab) (maxImbalance g t best) (cutWeight g lab)
      (cutWeight g best) = true ↔ Improves g t best lab := by
  unfold fmAccept Improves
  simp only [Bool.or_eq_true, Bool.and_eq_true, Bool.not_eq_true', decide_eq_false_iff_not, decide_eq_true_eq]

theorem Linked.step {g : Graph} {t : Target E.fp} (ht : t.Two) {maxBad : Nat} {lab0 : Nat → Nat} {ps ps' : PassState E}
    {best : Nat → Nat} {moved : List Nat} (h : Linked g t maxBad lab0 ps best moved) (hi : PassInv g t lab0 ps)
    (hb : ps.moves.length < maxBad) (hn : ps'.numMoved = ps.numMoved + 1) (hs : StepOf g t ps ps') :
    ∃ best' moved', Linked g t maxBad lab0 ps' best' moved' := by
  obtain ⟨side, v, h1, h2, h3, h4, h5, h6, h7, h8⟩ := hs
  have hC := candOf_set hi.good h.mem
  have hch := pickSide_chosen ht hi.good hi.queues h2 h3 h1
  rw [← h4] at hch
  have hvl : v < ps.s.visited.length := by rw [hi.queues.vis]; exact h5
  have hmem : ∀ u, u ∈ v :: moved ↔ u < g.nv ∧ nth ps'.s.visited u = true := by
    intro u
    rw [h7, nth_set_true hvl, List.mem_cons, h.mem u]
    constructor
    · rintro (rfl | ⟨a, b⟩)
      · exact ⟨h5, Or.inl rfl⟩
      · exact ⟨a, Or.inr b⟩
    · rintro ⟨a, rfl | b⟩
      · exact Or.inl rfl
      · exact Or.inr ⟨a, b⟩
  have hlen : (v :: moved).length = ps'.numMoved := by rw [List.length_cons, h.len, hn]
  rw [h.cut, h.bal] at h8
  rcases h8 with ⟨a, b, c, d⟩ | ⟨a, b, c, d⟩
  · refine ⟨_, v :: moved, ?_, hmem, hlen, c, d, by rw [b]; rfl⟩
    rw [accept_iff, h6] at a
    have := PassTo.accept h.run hb hC hch a
    rw [b, h6]
    exact this
  · refine ⟨best, v :: moved, ?_, hmem, hlen, c, d, ?_⟩
    · have a' : ¬ Improves g t best ps'.s.part.lab := fun hh => by
        rw [accept_iff.mpr hh] at a; cases a
      rw [h6] at a'
      have := PassTo.reject h.run hb hC hch a'
      rw [b, h6, List.length_append]
      exact this
    · rw [h6, b, List.foldl_append, ← h.lab]
      rfl

theorem fmLoop_trace {g : Graph} (hg : g.Good) {t : Target E.fp} (ht : t.Two) {lab0 : Nat → Nat} (maxBad : Nat)
    (fuel : Nat) {ps : PassState E} (h : PassInv g t lab0 ps) (hf : g.nv < fuel + ps.numMoved)
    {best : Nat → Nat} {moved : List Nat} (hl : Linked g t maxBad lab0 ps best moved) :
    Sat (fmLoop g t maxBad fuel ps) (fun ps' => PassInv g t lab0 ps' ∧
      (∃ best' moved', Linked g t maxBad lab0 ps' best' moved') ∧
      ¬ ((ps'.s.q0.size > 0 ∨ ps'.s.q1.size > 0) ∧ ps'.moves.length < maxBad)) := by
  induction fuel generalizing ps best moved with
  | zero => have := h.numMoved_le; omega
  | succ fuel ih =>
    unfold fmLoop
    split
    · rename_i hc
      refine (fmStep_spec hg ht h hc.1).bind ?_
      rintro ps' ⟨h', hn, hs⟩
      obtain ⟨b', m', hl'⟩ := hl.step ht h hc.2 hn hs
      exact ih h' (by omega) hl'
    · rename_i hc
      exact ⟨h, ⟨best, moved, hl⟩, hc⟩

theorem PassTo.bad_le {fp : FP} {g : Graph} {t : Target fp} {maxBad : Nat} {lab0 lab best : Nat → Nat} {moved : List Nat}
    {bad : Nat} (h : PassTo g t maxBad lab0 lab best moved bad) : bad ≤ maxBad ∧ bad ≤ moved.length := by
  induction h with
  | start => simp
  | accept => simp
  | reject h hb => simp; omega

theorem PassTo.two {fp : FP} {g : Graph} {t : Target fp} {maxBad : Nat} {lab0 lab best : Nat → Nat} {moved : List Nat}
    {bad : Nat} (h : PassTo g t maxBad lab0 lab best moved bad) (h0 : ∀ u, u < g.nv → lab0 u < 2) :
    (∀ u, u < g.nv → lab u < 2) ∧ (∀ u, u < g.nv → best u < 2) ∧ ∀ u ∈ moved, u < g.nv := by
  induction h with
  | start => exact ⟨h0, h0, by simp⟩
  | accept _ _ hC hv _ ih =>
    exact ⟨flip_lt ih.1 _, flip_lt ih.1 _, List.forall_mem_cons.mpr ⟨(hC.only _ hv.cand).1, ih.2.2⟩⟩
  | reject _ _ hC hv _ ih =>
    exact ⟨flip_lt ih.1 _, ih.2.1, List.forall_mem_cons.mpr ⟨(hC.only _ hv.cand).1, ih.2.2⟩⟩

theorem fmPass_trace {g : Graph} (hg : g.Good) {t : Target E.fp} (ht : t.Two) (maxBad : Nat) {s : FMState E}
    (hs : FMGood g s) (hf : FMFresh g s) :
    Sat (fmPass g t maxBad s) (fun r => PassDone g t maxBad s.part.lab r.1.part.lab r.2) := by
  unfold fmPass
  refine (fillQueues_spec hg hs hf).bind ?_
  rintro s1 ⟨hp1, hc1, hv1, hq1⟩
  have hs1 : FMGood g s1 := ⟨by rw [hp1]; exact hs.part, by rw [hp1, hc1]; exact hs.conn⟩
  rw [calcMaxImbalance_eq ht hs1.part, ok_bind]
  have hvis : ∀ v, v < g.nv → nth s1.visited v = false := by
    intro v hv
    rw [hv1, hf.visited, nth_replicate hv]
  have h0 : PassInv g t s.part.lab
      { s := s1, moves := [], bestCut := s1.part.cut, bestBal := maxImbalance g t s1.part.lab, numMoved := 0 } := by
    refine ⟨hs1, hq1, [], by simp, ?_, rfl, by simp [hp1], ?_, by simp [hp1], ImprovesStar.refl _⟩
    · intro v
      simp only [List.append_nil, List.not_mem_nil, false_iff, not_and]
      intro hv
      rw [hvis v hv]; simp
    · show s1.part.cut = cutWeight g s.part.lab
      rw [hs1.part.cut_eq, hp1]
  have hl0 : Linked g t maxBad s.part.lab
      { s := s1, moves := [], bestCut := s1.part.cut, bestBal := maxImbalance g t s1.part.lab, numMoved := 0 }
      s.part.lab [] := by
    refine ⟨?_, ?_, rfl, ?_, ?_, ?_⟩
    · show PassTo g t maxBad s.part.lab s1.part.lab s.part.lab [] 0
      rw [hp1]; exact PassTo.start
    · intro v
      simp only [List.not_mem_nil, false_iff, not_and]
      intro hv
      rw [hvis v hv]; simp
    · show s1.part.cut = _
      rw [hs1.part.cut_eq, hp1]
    · show maxImbalance g t s1.part.lab = _
      rw [hp1]
    · show s1.part.lab = _
      rw [hp1]; rfl
  refine (fmLoop_trace hg ht maxBad (g.nv + 1) h0 (by show g.nv < g.nv + 1 + 0; omega) hl0).bind ?_
  rintro ps ⟨hps, ⟨best, moved, hl⟩, hend⟩
  obtain ⟨w1, w2, w3⟩ := hl.run.two hs.part.complete
  obtain ⟨kept, -, hmem, -⟩ := hps.best
  refine (fmUndo_spec hg ps.moves hps.good (fun v hv => ((hmem v).mp (by simp [hv])).1) w2 hl.lab).bind ?_
  rintro s2 ⟨hg2, hl2, -⟩
  refine ⟨ps.s.part.lab, moved, ps.moves.length, ?_, ?_, ?_⟩
  · show PassTo g t maxBad s.part.lab ps.s.part.lab s2.part.lab moved ps.moves.length
    rw [hl2]; exact hl.run
  · have hb := hl.run.bad_le
    by_cases hx : ps.moves.length < maxBad
    · right
      have hno : ∀ u, ¬ candOf g ps.s u := by
        intro u hu
        apply hend
        refine ⟨?_, hx⟩
        have := hps.good.part.complete u hu.1
        rcases (show ps.s.part.lab u = 0 ∨ ps.s.part.lab u = 1 by omega) with h | h
        · left; exact (queue_pos hps.queues (show 0 < 2 by omega)).mpr ⟨u, hu, h⟩
        · right; exact (queue_pos hps.queues (show 1 < 2 by omega)).mpr ⟨u, hu, h⟩
      have hC := candOf_set hps.good hl.mem
      exact ⟨fun v a b c => hno v (hC.all v a b c), fun v h => h.elim⟩
    · left; omega
  · show decide (ps.numMoved = ps.moves.length) = true ↔ ps.moves.length = moved.length
    rw [decide_eq_true_iff, hl.len, eq_comm]

theorem fmIters_trace {g : Graph} (hg : g.Good) {t : Target E.fp} (ht : t.Two) (maxBad : Nat) (n : Nat) {s : FMState E}
    (hs : FMGood g s) (hf : FMFresh g s) :
    Sat (fmIters g t maxBad n s) (fun s' => Refined g t maxBad n s.part.lab s'.part.lab) := by
  induction n generalizing s with
  | zero => exact Refined.zero
  | succ n ih =>
    unfold fmIters
    refine ((fmPass_spec hg ht maxBad hs hf).and (fmPass_trace hg ht maxBad hs hf)).bind ?_
    rintro ⟨s1, stop⟩ ⟨⟨hg1, _, hst, hfr⟩, hd⟩
    simp only at hg1 hst hfr hd ⊢
    cases stop with
    | true => exact Refined.last hd
    | false =>
      refine (ih (s := s1.clear) ⟨hg1.part, hg1.conn⟩ hfr).mono fun s2 h2 => ?_
      exact Refined.more hd h2

theorem fmRefine_trace {g : Graph} (hg : g.Good) {t : Target E.fp} (ht : t.Two) (maxIters maxMoves : Nat)
    {p : Partitioning} {c : Conn E.set} (hp : IsExact g 2 p) (hc : ConnExact g p.lab c)
    {r : Partitioning × Conn E.set} (hr : fmRefine g t maxIters maxMoves p c = ok r) :
    ∃ a, E.fp.toU32 (E.fp.mul (E.fp.ofNat g.nv) (E.fp.lit 1 2)) = some a ∧
      Refined g t (min maxMoves (max a 25)) maxIters p.lab r.1.lab := by
  unfold fmRefine maxBadMoves FP.cast at hr
  cases ha : E.fp.toU32 (E.fp.mul (E.fp.ofNat g.nv) (E.fp.lit 1 2)) with
  | none => rw [ha] at hr; simp at hr
  | some a =>
    rw [ha] at hr
    simp only [ok_bind] at hr
    refine ⟨a, rfl, ?_⟩
    have := fmIters_trace (s := { part := p, conn := c, q0 := VQueue.new E.pq g.nv, q1 := VQueue.new E.pq g.nv, visited := List.replicate g.nv false }) hg ht (min maxMoves (max a 25)) maxIters ⟨hp, hc⟩ ⟨rfl, ?_, ?_⟩
    · obtain ⟨s, h1, h2⟩ := sat_iff.mp this
      rw [h1, ok_bind] at hr
      rw [← Res.ok.inj hr]
      exact h2
    · intro side hside
      rcases (show side = 0 ∨ side = 1 by omega) with rfl | rfl <;> rfl
    · intro side hside u
      rcases (show side = 0 ∨ side = 1 by omega) with rfl | rfl <;> exact E.pq.key_empty u

end Poros
