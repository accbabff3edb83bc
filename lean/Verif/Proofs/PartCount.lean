import Verif.Proofs.Timed
/-
The bisector of a call returns a partitioning with as many parts as its target, whatever the input.
-/
namespace Poros
namespace PartCount
open Res

variable {E : Env}

/-- Any result of the first step will do. -/
theorem may_step {α β : Type} {r : Res α} {f : α → Res β} {Q : β → Prop} (h : ∀ a, r = ok a → May (f a) Q) :
    May (r >>= f) Q := by
  cases r
  · exact h _ rfl
  all_goals trivial

theorem move_len (p : Partitioning) (g : Graph) (v q : Nat) :
    May (p.move g v q) fun p' => p'.pw.length = p.pw.length := by
  unfold Partitioning.move
  refine may_step fun w _ => may_step fun c _ => may_step fun o1 _ => may_step fun pw h1 => may_step fun o2 _ =>
    may_step fun pw' h2 => may_step fun asg _ => ?_
  exact (wr_len h2).trans (wr_len h1)

theorem assign_len (p : Partitioning) (g : Graph) (v q : Nat) :
    May (p.assign g v q) fun p' => p'.pw.length = p.pw.length := by
  unfold Partitioning.assign
  refine may_step fun w _ => may_step fun c _ => may_step fun pw h1 => may_step fun asg _ => ?_
  exact wr_len h1

theorem assignAll_len (p : Partitioning) (g : Graph) (q : Nat) :
    May (p.assignAll g q) fun p' => p'.pw.length = p.pw.length := by
  unfold Partitioning.assignAll
  refine may_step fun pw h1 => ?_
  exact (wr_len h1).trans (by simp)

theorem recalcCut_len (p : Partitioning) (g : Graph) : May (p.recalcCut g) fun p' => p'.pw.length = p.pw.length := by
  unfold Partitioning.recalcCut
  exact may_step fun _ _ => rfl

/-! ### Growing -/

theorem bfsStep_len (g : Graph) (hv he : Bool) (t : Target E.fp) (s : VQueue E.pq × Partitioning) :
    May (bfsStep g hv he t s) fun s' => s'.2.pw.length = s.2.pw.length := by
  unfold bfsStep
  refine may_step fun x _ => may_step fun w _ => may_step fun w0 _ => may_step fun m0 _ => ?_
  split
  · refine may_step fun p hp => may_step fun ns _ => may_step fun q _ => ?_
    exact (move_len _ _ _ _).elim_ok hp
  · exact rfl

theorem bfsPriorityMove_len (g : Graph) (hv he : Bool) (t : Target E.fp) : ∀ (fuel : Nat) (s : VQueue E.pq × Partitioning),
    May (bfsPriorityMove g hv he t fuel s) fun s' => s'.2.pw.length = s.2.pw.length := by
  intro fuel
  induction fuel with
  | zero => intro s; trivial
  | succ fuel ih =>
    intro s
    unfold bfsPriorityMove
    split
    · refine may_step fun w0 _ => may_step fun t0 _ => ?_
      split
      · refine may_step fun s' hs' => (ih s').mono fun s'' h => ?_
        exact h.trans ((bfsStep_len g hv he t s).elim_ok hs')
      · exact rfl
    · exact rfl

theorem bfsWeightLoop_len (g : Graph) (t : Target E.fp) : ∀ (fuel : Nat) (q : VQueue E.pq) (p : Partitioning),
    May (bfsWeightLoop g t fuel q p) fun p' => p'.pw.length = p.pw.length := by
  intro fuel
  induction fuel with
  | zero => intro q p; trivial
  | succ fuel ih =>
    intro q p
    unfold bfsWeightLoop
    split
    · refine may_step fun x _ => may_step fun w _ => may_step fun w0 _ => may_step fun b _ => ?_
      split
      · exact move_len _ _ _ _
      · exact ih _ _
    · exact rfl

theorem bfsUnitBalance_len (g : Graph) (t : Target E.fp) : ∀ (vs : List Nat) (p : Partitioning),
    May (bfsUnitBalance g t vs p) fun p' => p'.pw.length = p.pw.length := by
  intro vs
  induction vs with
  | nil => intro p; exact rfl
  | cons v vs ih =>
    intro p
    unfold bfsUnitBalance
    refine may_step fun w0 _ => may_step fun b _ => ?_
    split
    · exact move_len _ _ _ _
    · exact ih _

theorem bfsBalance_len (t : Target E.fp) (g : Graph) (l : List Nat) (p : Partitioning) :
    May (bfsBalance t g l p) fun p' => p'.pw.length = p.pw.length := by
  unfold bfsBalance
  refine may_step fun w1 _ => may_step fun m1 _ => ?_
  split
  · split
    · unfold bfsWeightBalance
      exact may_step fun q _ => bfsWeightLoop_len _ _ _ _ _
    · exact bfsUnitBalance_len _ _ _ _
  · exact rfl

theorem bfsFrom_len (t : Target E.fp) (g : Graph) (seed : Nat) : May (bfsFrom t g seed) fun p => p.pw.length = t.k := by
  unfold bfsFrom
  refine may_step fun x hx => may_step fun p hp => (recalcCut_len p g).mono fun p' h => ?_
  rw [h, (bfsBalance_len _ _ _ _).elim_ok hp]
  unfold bfsGrow at hx
  obtain ⟨_, _, hx⟩ := bind_eq_ok hx
  obtain ⟨_, _, hx⟩ := bind_eq_ok hx
  obtain ⟨p0, h0, hx⟩ := bind_eq_ok hx
  rw [(bfsPriorityMove_len _ _ _ _ _ _).elim_ok hx]
  show p0.pw.length = _
  rw [(assignAll_len _ _ _).elim_ok h0]
  simp [Partitioning.fresh]

theorem bfsBisect_len (t : Target E.fp) (g : Graph) (r : E.rng.S) :
    May (bfsBisect (E := E) t g r) fun o => o.1.pw.length = t.k := by
  unfold bfsBisect
  refine may_step fun x _ => may_step fun p hp => ?_
  exact (bfsFrom_len t g _).elim_ok hp

theorem multiBisect_len {n : Nat} {bis : Bisector E} {t : Target E.fp} {g : Graph} (h : ∀ r, May (bis t g r) fun o =>
    o.1.pw.length = 2) (r : E.rng.S) : May (multiBisect n bis t g r) fun o => o.1.pw.length = 2 := by
  unfold multiBisect
  refine (Post_foldlM_inv (B := True) (fun s : MultiState E => s.best.pw.length = 2) (by simp [Partitioning.fresh])
    fun b s _ hs => ?_).bind fun s hs => hs
  unfold multiStep
  refine may_step fun x hx => may_step fun bal _ => may_step fun b _ => ?_
  split
  · exact (h _).elim_ok hx
  · exact hs

/-! ### Refining -/

theorem setQ_part {s s' : FMState E} {side : Nat} {q : VQueue E.pq} (h : s.setQ side q = ok s') : s'.part = s.part := by
  unfold FMState.setQ at h
  split at h
  · cases h; rfl
  · split at h
    · cases h; rfl
    · cases h

theorem fmEdge_part (queues : Bool) (dst : Nat) (s : FMState E) (q : Nat × Nat) :
    May (fmEdge queues dst s q) fun s' => s'.part = s.part := by
  unfold fmEdge
  refine may_step fun home _ => may_step fun dir _ => may_step fun x _ => ?_
  obtain ⟨st, conn⟩ := x
  simp only
  cases queues
  · exact rfl
  · simp only [if_true]
    refine may_step fun vis _ => ?_
    split
    · exact rfl
    · cases st
      all_goals simp only
      · refine may_step fun d _ => may_step fun k _ => may_step fun pq _ => may_step fun pq' _ => ?_
        exact may_iff.mpr fun s' h => (setQ_part h).trans rfl
      · refine may_step fun pq _ => may_step fun pq' _ => ?_
        exact may_iff.mpr fun s' h => (setQ_part h).trans rfl
      · refine may_step fun d _ => may_step fun k _ => may_step fun pq _ => may_step fun pq' _ => ?_
        exact may_iff.mpr fun s' h => (setQ_part h).trans rfl
      · exact rfl

theorem fmMove_len (g : Graph) (queues : Bool) (v dst : Nat) (s : FMState E) :
    May (fmMove g queues v dst s) fun s' => s'.part.pw.length = s.part.pw.length := by
  unfold fmMove
  refine may_step fun d _ => may_step fun x _ => may_step fun p hp => may_step fun ns _ => ?_
  refine (Post_foldlM_inv (B := True) (fun s' : FMState E => s'.part = p.addCut d) rfl fun q s' _ hs =>
    (fmEdge_part queues dst s' q).mono fun s'' h => h.trans hs).mono fun s' h => ?_
  have e := (move_len _ _ _ _).elim_ok hp
  rw [h]
  exact e

theorem fillQueues_part (s : FMState E) : May (fillQueues s) fun s' => s'.part = s.part := by
  unfold fillQueues
  refine Post_foldlM_inv (B := True) (fun s' : FMState E => s'.part = s.part) rfl fun v s' _ hs => ?_
  refine may_step fun side _ => may_step fun d _ => may_step fun k _ => may_step fun pq _ => may_step fun pq' _ => ?_
  exact may_iff.mpr fun s'' h => (setQ_part h).trans hs

theorem fmStep_len (g : Graph) (t : Target E.fp) (ps : PassState E) :
    May (fmStep g t ps) fun ps' => ps'.s.part.pw.length = ps.s.part.pw.length := by
  unfold fmStep
  refine may_step fun side _ => ?_
  simp only
  refine may_step fun pq _ => may_step fun x _ => may_step fun s1 h1 => may_step fun vis _ => may_step fun s2 h2 =>
    may_step fun bal _ => may_step fun b _ => ?_
  have e : s2.part.pw.length = ps.s.part.pw.length := by
    rw [(fmMove_len _ _ _ _ _).elim_ok h2, ← setQ_part h1]
  split
  · exact e
  · exact e

theorem fmLoop_len (g : Graph) (t : Target E.fp) (maxBad : Nat) : ∀ (fuel : Nat) (ps : PassState E),
    May (fmLoop g t maxBad fuel ps) fun ps' => ps'.s.part.pw.length = ps.s.part.pw.length := by
  intro fuel
  induction fuel with
  | zero => intro ps; trivial
  | succ fuel ih =>
    intro ps
    unfold fmLoop
    split
    · refine may_step fun ps' h => (ih ps').mono fun ps'' h' => h'.trans ((fmStep_len g t ps).elim_ok h)
    · exact rfl

theorem fmUndo_len (g : Graph) (moves : List Nat) (s : FMState E) :
    May (fmUndo g moves s) fun s' => s'.part.pw.length = s.part.pw.length := by
  unfold fmUndo
  refine Post_foldlM_inv (B := True) (fun s' : FMState E => s'.part.pw.length = s.part.pw.length) rfl fun v s' _ hs => ?_
  refine may_step fun side _ => (fmMove_len _ _ _ _ _).mono fun s'' h => h.trans hs

theorem fmPass_len (g : Graph) (t : Target E.fp) (maxBad : Nat) (s : FMState E) :
    May (fmPass g t maxBad s) fun o => o.1.part.pw.length = s.part.pw.length := by
  unfold fmPass
  refine may_step fun s1 h1 => may_step fun bal _ => may_step fun ps h2 => may_step fun s3 h3 => ?_
  show s3.part.pw.length = _
  rw [(fmUndo_len _ _ _).elim_ok h3, (fmLoop_len _ _ _ _ _).elim_ok h2, (fillQueues_part _).elim_ok h1]

theorem fmIters_len (g : Graph) (t : Target E.fp) (maxBad : Nat) : ∀ (n : Nat) (s : FMState E),
    May (fmIters g t maxBad n s) fun s' => s'.part.pw.length = s.part.pw.length := by
  intro n
  induction n with
  | zero => intro s; exact rfl
  | succ n ih =>
    intro s
    unfold fmIters
    refine may_step fun x hx => ?_
    have e := (fmPass_len g t maxBad s).elim_ok hx
    obtain ⟨s1, stop⟩ := x
    simp only at e ⊢
    split
    · exact e
    · exact (ih s1.clear).mono fun s' h => h.trans e

theorem fmRefine_len (g : Graph) (t : Target E.fp) (a b : Nat) (p : Partitioning) (c : Conn E.set) :
    May (fmRefine g t a b p c) fun o => o.1.pw.length = p.pw.length := by
  unfold fmRefine
  refine may_step fun m _ => may_step fun s hs => ?_
  exact (fmIters_len _ _ _ _ _).elim_ok hs

/-! ### All levels -/

theorem project_len {P : SetImpl} (cg : CoarseGraph) (cp : Partitioning) (cc : Conn P) :
    May (cg.project cp cc) fun o => o.1.pw.length = cp.pw.length := by
  unfold CoarseGraph.project
  refine (Post_foldlM_inv (B := True) (fun p : Partitioning => p.pw.length = cp.pw.length) (by simp [Partitioning.fresh])
    fun v p _ hp => ?_).bind fun p hp => may_step fun b _ => may_step fun conn _ => hp
  exact may_step fun c _ => may_step fun q _ => (assign_len _ _ _ _).mono fun p' h => h.trans hp

theorem recurse_len {m : Multilevel E} {t : Target E.fp} {n : Nat} (hi : ∀ g r, May (m.init t g r) fun o => o.1.pw.length = n)
    (hr : ∀ g p c, May (m.refine t g p c) fun o => o.1.pw.length = p.pw.length) (maxW : Nat) (stop : Criterion) :
    ∀ (fuel level : Nat) (parent : Option Graph) (g : Graph) (r : E.rng.S),
      May (m.recurse maxW stop t fuel level parent g r) fun o => o.1.1.pw.length = n := by
  intro fuel
  induction fuel with
  | zero => intros; trivial
  | succ fuel ih =>
    intro level parent g r
    unfold Multilevel.recurse
    refine may_step fun b _ => ?_
    cases b
    · refine may_step fun a _ => may_step fun cg _ => may_step fun i h1 => may_step fun fine h2 => may_step fun o h3 => ?_
      show o.1.pw.length = n
      rw [(hr _ _ _).elim_ok h3, (project_len _ _ _).elim_ok h2, (ih _ _ _ _).elim_ok h1]
    · refine may_step fun x hx => may_step fun c _ => ?_
      exact (hi _ _).elim_ok hx

theorem makeMultilevel_len (s : Scheme) (t : Target E.fp) (g : Graph) (r : E.rng.S) (o : Partitioning × E.rng.S)
    (hk : t.k = 2) (h : (makeMultilevel E s).execute t g r = ok o) : o.1.pw.length = 2 := by
  unfold Multilevel.execute at h
  obtain ⟨_, _, h⟩ := bind_eq_ok h
  obtain ⟨_, _, h⟩ := bind_eq_ok h
  obtain ⟨x, hx, h⟩ := bind_eq_ok h
  have e := (recurse_len (m := makeMultilevel E s) (t := t) (n := 2)
    (fun g r => multiBisect_len (fun r => (bfsBisect_len t g r).mono fun o ho => ho.trans hk) r)
    (fun g p c => fmRefine_len g t 8 150 p c) _ _ _ _ _ _ _).elim_ok hx
  obtain ⟨x1, x2⟩ := x
  cases h
  exact e

/-! ### The partitioner of a call -/

theorem partitioner_alike (clk : Clock E.fp) (s : Scheme) (t : Target E.fp) (g : Graph) (r : E.rng.S) (w : Watch E.fp)
    (hl : w.keeper.secs.length = 8) :
    Alike (fun o' o => o'.1 = o.1 ∧ o'.2.1 = o.2 ∧ ∃ n, Took clk n w o'.2.2 ∧
        (t.Sized → 2 ≤ t.k → t.k < M32 → n = t.k - 1))
      (partitionerT E clk s t g (r, w)) (partitioner E s t g r) :=
  rbExecute_alike (fun t g r w hl => (execute_alike (makeMultilevel E s) clk t g r w hl).mono fun o' o h =>
    ⟨h.1, h.2.1, by
      obtain ⟨l, h1, h2⟩ := h.2.2
      refine ⟨l, h1, fun hs => ?_⟩
      have := BisSeq.cons (h2 hs) (BisSeq.nil (Nat.le_refl _))
      rwa [List.append_nil] at this⟩) (makeMultilevel_len s) t g r w hl

theorem cutsLoop_alike {clk : Clock E.fp} {run' : E.rng.S × Watch E.fp → Res (Partitioning × (E.rng.S × Watch E.fp))}
    {run : E.rng.S → Res (Partitioning × E.rng.S)} {C : Prop} {k : Nat}
    (hrun : ∀ r w, w.keeper.secs.length = 8 → Alike (fun o' o => o'.1 = o.1 ∧ o'.2.1 = o.2 ∧ ∃ n, Took clk n w o'.2.2 ∧
        (C → n = k)) (run' (r, w)) (run r)) :
    ∀ (n i best : Nat) (out : Out) (r : E.rng.S) (w : Watch E.fp), w.keeper.secs.length = 8 →
      (cutsLoopT run' n i best out (r, w)).1 = (cutsLoop run n i best out r).1 ∧
      Alike (fun s' _ => ∃ m, Took clk m w s'.2 ∧ (C → m = k * n)) (cutsLoopT run' n i best out (r, w)).2
        (cutsLoop run n i best out r).2 := by
  intro n
  induction n with
  | zero => intro i best out r w hl; exact ⟨rfl, 0, Took.refl hl, fun _ => rfl⟩
  | succ n ih =>
    intro i best out r w hl
    unfold cutsLoopT cutsLoop
    have h := hrun r w hl
    generalize run' (r, w) = x' at h
    generalize run r = x at h
    have next : ∀ (o' : Partitioning × (E.rng.S × Watch E.fp)) (o : Partitioning × E.rng.S), o'.2.1 = o.2 →
        (∃ n, Took clk n w o'.2.2 ∧ (C → n = k)) → ∀ (best : Nat) (out : Out),
        (cutsLoopT run' n (i + 1) best out o'.2).1 = (cutsLoop run n (i + 1) best out o.2).1 ∧
        Alike (fun s' _ => ∃ m, Took clk m w s'.2 ∧ (C → m = k * (n + 1))) (cutsLoopT run' n (i + 1) best out o'.2).2
          (cutsLoop run n (i + 1) best out o.2).2 := by
      intro o' o h2 h3 best out
      obtain ⟨m, h3, h4⟩ := h3
      obtain ⟨p', r', w'⟩ := o'
      simp only at h2 h3 h4
      subst h2
      obtain ⟨g1, g2⟩ := ih (i + 1) best out o.2 w' h3.length
      refine ⟨g1, g2.mono fun s' _ hs => ?_⟩
      obtain ⟨m', hm, hm'⟩ := hs
      exact ⟨m + m', h3.trans hm, fun hc => by rw [h4 hc, hm' hc, Nat.mul_succ, Nat.add_comm]⟩
    cases x' with
    | ok o' =>
      cases x with
      | ok o =>
        obtain ⟨h1, h2, h3⟩ := h
        simp only [andThen]
        rw [h1]
        split
        · unfold writeOut
          cases o.1.output out.asg with
          | ok a => exact next o' o h2 h3 _ _
          | ub => exact ⟨rfl, trivial⟩
          | exn => exact ⟨rfl, trivial⟩
          | diverge => exact ⟨rfl, trivial⟩
        · exact next o' o h2 h3 _ _
      | ub => exact h.elim
      | exn => exact h.elim
      | diverge => exact h.elim
    | ub => cases x <;> first | exact h.elim | exact ⟨rfl, trivial⟩
    | exn => cases x <;> first | exact h.elim | exact ⟨rfl, trivial⟩
    | diverge => cases x <;> first | exact h.elim | exact ⟨rfl, trivial⟩

end PartCount
end Poros
