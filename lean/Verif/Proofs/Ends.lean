import Verif.Proofs.RandomBisect
import Verif.Proofs.Multilevel
import Verif.Proofs.Aggregators
/-
Termination: no component of the multilevel bisector runs forever on a valid graph, whatever else happens.
-/
namespace Poros
open Finset Res

variable {E : Env} {be : Prop}

theorem EndsE.of_sat {r : Res α} {Q : α → Prop} (h : Sat r Q) : EndsE be r Q := by
  cases r <;> simp_all [EndsE, Sat, Post]

theorem EndsE.mono {r : Res α} {Q Q' : α → Prop} (h : EndsE be r Q) (hq : ∀ a, Q a → Q' a) : EndsE be r Q' := by
  cases r <;> first | exact hq _ h | exact h

theorem EndsE.and_may {r : Res α} {Q Q' : α → Prop} (h : EndsE be r Q) (h' : May r Q') : EndsE be r Q' := by
  cases r <;> simp_all [EndsE, May, Post]

theorem EndsE.bind {r : Res α} {f : α → Res β} {Q : α → Prop} {Q' : β → Prop} (h : EndsE be r Q)
    (hf : ∀ a, Q a → EndsE be (f a) Q') : EndsE be (r >>= f) Q' := by
  cases r <;> first | exact hf _ h | exact h

theorem EndsE.ne {r : Res α} {Q : α → Prop} (h : EndsE be r Q) : r ≠ diverge := by
  rintro rfl; exact h

theorem EndsE.foldlM {f : σ → α → Res σ} {l : List α} {s : σ} (P : List α → σ → Prop) (h0 : P [] s)
    (hstep : ∀ pre x post s, l = pre ++ x :: post → P pre s → EndsE be (f s x) (P (pre ++ [x]))) :
    EndsE be (l.foldlM f s) (P l) := by
  suffices H : ∀ (post pre : List α) (s : σ), l = pre ++ post → P pre s →
      EndsE be (post.foldlM f s) (P l) from H l [] s rfl h0
  intro post
  induction post with
  | nil => intro pre s hl hp; simp at hl; subst hl; exact hp
  | cons x xs ih =>
    intro pre s hl hp
    rw [List.foldlM_cons]
    exact (hstep pre x xs s hl hp).bind fun a ha => ih (pre ++ [x]) a (by simp [hl]) ha

abbrev Stops (be : Prop) (r : Res α) : Prop := EndsE be r (fun _ => True)

theorem Stops.rd (l : List α) (i : Nat) : Stops be (rd l i) := by
  unfold Poros.rd
  cases l[i]? <;> trivial

theorem Stops.wr (l : List α) (i : Nat) (x : α) : Stops be (wr l i x) := by
  unfold Poros.wr
  split <;> trivial

theorem Stops.vwgtOf (g : Graph) (has : Bool) (v : Nat) : Stops be (g.vwgtOf has v) := by
  unfold Graph.vwgtOf
  split
  · exact Stops.rd _ _
  · trivial

theorem Stops.move (g : Graph) (v q : Nat) (p : Partitioning) : Stops be (p.move g v q) := by
  unfold Partitioning.move
  refine (Stops.vwgtOf _ _ _).bind fun _ _ => (Stops.rd _ _).bind fun _ _ => (Stops.rd _ _).bind fun _ _ =>
    (Stops.wr _ _ _).bind fun _ _ => (Stops.rd _ _).bind fun _ _ => (Stops.wr _ _ _).bind fun _ _ =>
    (Stops.wr _ _ _).bind fun _ _ => trivial

theorem Stops.lighter (t : Target E.fp) (w : Nat) (p : Partitioning) : Stops be (bfsLighter t w p) := by
  unfold bfsLighter
  exact (Stops.rd _ _).bind fun _ _ => (Stops.rd _ _).bind fun _ _ => (Stops.rd _ _).bind fun _ _ => trivial

theorem size_put {P : PQImpl} (q : P.Q) (v : Nat) (k : Int) : (P.elems (P.put q v k)).length ≤ (P.elems q).length + 1 := by
  have hs : P.elems (P.put q v k) ⊆ v :: P.elems q := by
    intro u hu
    rw [P.mem_elems, P.key_put] at hu
    by_cases huv : u = v
    · simp [huv]
    · rw [if_neg huv] at hu
      exact List.mem_cons_of_mem _ ((P.mem_elems _ _).mpr hu)
  have := (List.subperm_of_subset (P.nodup_elems _) hs).length_le
  simpa using this

theorem size_del {P : PQImpl} {q : P.Q} {v : Nat} (hv : v ∈ P.elems q) :
    (P.elems (P.del q v)).length + 1 ≤ (P.elems q).length := by
  have hn : v ∉ P.elems (P.del q v) := by
    rw [P.mem_elems, P.key_del]; simp
  have hs : (v :: P.elems (P.del q v)) ⊆ P.elems q := by
    intro u hu
    rcases List.mem_cons.mp hu with rfl | hu
    · exact hv
    · rw [P.mem_elems, P.key_del] at hu
      split at hu
      · cases hu
      · exact (P.mem_elems _ _).mpr hu
  have := (List.subperm_of_subset (List.nodup_cons.mpr ⟨hn, P.nodup_elems _⟩) hs).length_le
  simpa using this

theorem Stops.weightLoop (g : Graph) (t : Target E.fp) :
    ∀ fuel (q : VQueue E.pq) (p : Partitioning), q.size < fuel → Stops be (bfsWeightLoop g t fuel q p) := by
  intro fuel
  induction fuel with
  | zero => intro q p h; omega
  | succ fuel ih =>
    intro q p h
    unfold bfsWeightLoop
    split
    · rename_i hs
      rw [VQueue.pop_of_size hs, ok_bind]
      simp only
      refine (Stops.vwgtOf _ _ _).bind fun _ _ => (Stops.rd _ _).bind fun _ _ => (Stops.lighter _ _ _).bind fun b _ => ?_
      split
      · exact Stops.move _ _ _ _
      · refine ih _ _ ?_
        obtain ⟨m, hm, -⟩ := VQueue.top_of_size hs
        have := size_del ((E.pq.mem_elems q.q (E.pq.top q.q)).mpr (by rw [hm]; rfl))
        unfold VQueue.size at h ⊢
        simp only
        omega
    · trivial

theorem Stops.weightBalance (g : Graph) (t : Target E.fp) (remaining : List Nat) (p : Partitioning) :
    Stops be (bfsWeightBalance g t remaining p) := by
  unfold bfsWeightBalance
  refine (EndsE.foldlM (fun pre (q : VQueue E.pq) => q.size ≤ pre.length) ?_ ?_).bind fun q hq => ?_
  · have : E.pq.elems E.pq.empty = [] := by
      cases h : E.pq.elems E.pq.empty with
      | nil => rfl
      | cons a l =>
        have := (E.pq.mem_elems E.pq.empty a).mp (by rw [h]; simp)
        rw [E.pq.key_empty] at this; cases this
    simp [VQueue.size, VQueue.new, this]
  · intro pre v post q _ hq
    refine (Stops.vwgtOf _ _ _).bind fun w _ => ?_
    unfold VQueue.add
    split
    · trivial
    · split
      · trivial
      · have := size_put (P := E.pq) q.q v (toI32 w)
        simp only [EndsE, List.length_append, List.length_cons, List.length_nil]
        unfold VQueue.size at hq ⊢
        simp only
        omega
  · exact Stops.weightLoop g t _ _ _ (by omega)

theorem bfsBisect_ends {g : Graph} (hg : g.Good) {t : Target E.fp} (ht : t.Two) (r : E.rng.S) :
    EndsE be (bfsBisect t g r) (fun o => IsExact g 2 o.1) := by
  have hmay : May (bfsBisect t g r) (fun o => IsExact g 2 o.1) :=
    (bfsBisect_spec (B := True) hg ht (fun _ => trivial) r).mono fun o ⟨_, _, _, _, h⟩ => h.exact
  refine EndsE.and_may (Q := fun _ => True) ?_ hmay
  have hnv := hg.wf.nv_lt
  unfold bfsBisect RngImpl.randInRange
  rw [if_pos (Nat.zero_le _), ok_bind]
  by_cases h0 : 0 < g.nv
  · have hr := E.rng.rand_range r 0 (usub g.nv 1) (Nat.zero_le _)
    rw [usub_eq (by omega) (by omega)] at hr
    rw [usub_eq (by omega) (by omega)]
    refine EndsE.bind (Q := fun _ => True) ?_ fun p _ => trivial
    unfold bfsFrom
    refine (EndsE.of_sat (bfsGrow_spec hg.plain ht (seed := (E.rng.rand r 0 (g.nv - 1)).1) (by omega))).bind fun s hs => ?_
    obtain ⟨hi, -⟩ := hs
    have hr : ∀ v ∈ s.1.remaining, v < g.nv ∧ s.2.lab v = 1 := by
      intro v hv
      unfold VQueue.remaining at hv
      rw [E.pq.mem_elems] at hv
      obtain ⟨k, hk⟩ := Option.isSome_iff_exists.mp hv
      exact ⟨(hi.keys v k hk).1, (hi.keys v k hk).2.1⟩
    have key : EndsE be (bfsBalance t g s.1.remaining s.2) (Weighed g 2) := by
      unfold bfsBalance
      rw [hi.part.rd_pw (by omega), ok_bind, rd_of_lt (by rw [ht.mx]; omega), ok_bind]
      split
      · split
        · refine (Stops.weightBalance g t _ _).and_may ?_
          exact (bfsWeightBalance_spec (B := True) hg.plain (fun _ => trivial) ht hi.part hr (E.pq.nodup_elems _)).mono
            fun p hp => hp.1
        · exact (EndsE.of_sat (bfsUnitBalance_spec hg.plain ht hi.part _ hr)).mono fun p hp => hp.1
      · exact hi.part
    refine key.bind fun p hp => ?_
    exact (EndsE.of_sat (hp.recalcCut hg.wf hg.symm hg.small)).mono fun _ _ => trivial
  · have hn : g.nv = 0 := by omega
    have hb : bfsFrom t g (E.rng.rand r 0 (usub g.nv 1)).1 = ub := by
      unfold bfsFrom bfsGrow VQueue.add
      rw [if_pos (by show g.nv ≤ _; omega)]
      rfl
    simp only
    rw [hb]
    trivial

theorem multiBisect_ends {g : Graph} {t : Target E.fp} (ht : t.Two) {bis : Bisector E}
    (hbis : ∀ r, EndsE be (bis t g r) (fun o => IsExact g 2 o.1)) {n : Nat} (hn : 0 < n) (r : E.rng.S) :
    EndsE be (multiBisect n bis t g r) (fun o => IsExact g 2 o.1) := by
  have hb : ∀ r, Post True (bis t g r) (fun o => IsExact g 2 o.1 ∧ IsExact g 2 o.1) := fun r => by
    have := hbis r
    cases h : bis t g r with
    | ok o => rw [h] at this; exact ⟨this, this⟩
    | ub => trivial
    | exn => trivial
    | diverge => trivial
  refine EndsE.and_may (Q := fun _ => True) ?_ ((multiBisect_spec (B := True) ht hb hn r).mono fun _ h => h.1)
  unfold multiBisect
  refine EndsE.bind (Q := fun _ => True) ?_ fun _ _ => trivial
  refine EndsE.foldlM (fun _ _ => True) trivial ?_
  intro pre b post s _ _
  unfold multiStep
  refine (hbis s.rng).bind fun o ho => ?_
  simp only
  rw [calcMaxImbalance_eq ht ho, ok_bind, isBalanced_eq ht ho, ok_bind]
  split <;> trivial

theorem fmRefine_ends {g : Graph} (hg : g.Good) {t : Target E.fp} (ht : t.Two) (maxIters maxMoves : Nat)
    {p : Partitioning} {c : Conn E.set} (hp : IsExact g 2 p) (hc : ConnExact g p.lab c) :
    EndsE be (fmRefine g t maxIters maxMoves p c) (fun o => IsExact g 2 o.1 ∧ ConnExact g o.1.lab o.2) := by
  by_cases hB : E.fp.BadMovesOK g.nv
  · exact (EndsE.of_sat (fmRefine_spec hg ht maxIters maxMoves hp hc (fun h => h hB))).mono fun _ h => ⟨h.1, h.2.1⟩
  · unfold FP.BadMovesOK at hB
    unfold fmRefine maxBadMoves FP.cast
    cases h : E.fp.toU32 (E.fp.mul (E.fp.ofNat g.nv) (E.fp.lit 1 2)) with
    | none => trivial
    | some n => rw [h] at hB; exact absurd rfl hB

/-- What the parts of a multilevel bisector need for termination. -/
structure Multilevel.Ending (be : Prop) (m : Multilevel E) (t : Target E.fp) : Prop where
  agg : ∀ g maxW r, g.Good → EndsE be (m.agg maxW g r) (fun o => AggOK g.nv o.1 ∧ o.1.nc ≤ g.nv)
  init : ∀ g r, g.Good → EndsE be (m.init t g r) (fun o => IsExact g 2 o.1)
  refine : ∀ g p c, g.Good → IsExact g 2 p → ConnExact g p.lab c →
    EndsE be (m.refine t g p c) (fun o => IsExact g 2 o.1 ∧ ConnExact g o.1.lab o.2)

theorem mlStops_ne {fp : FP} (hsr : fp.SelfRatio) {f g : Graph} (hg : g.WF) (hle : g.ne ≤ f.ne)
    (h : mlStops fp (fp.lit 95 2) (some f) g = false) : g.ne < f.ne := by
  by_contra hlt
  have he : g.ne = f.ne := by omega
  have h0 : 0 < g.ne := by
    by_contra h0
    have : g.ne = 0 := by omega
    simp [mlStops, this] at h
  have := hsr g.ne h0 (by have := hg.ne_lt; omega)
  simp [mlStops, ← he, this] at h

theorem Multilevel.recurse_ends {m : Multilevel E} {t : Target E.fp} (hm : Multilevel.Ending be m t) (hsr : E.fp.SelfRatio)
    (maxW : Nat) : ∀ fuel level parent g r, g.Good → (level = 0 ∨ parent.isSome) →
      (∀ p, parent = some p → g.ne ≤ p.ne) → (match parent with
        | none => g.ne + 1
        | some p => p.ne) < fuel →
      EndsE be (m.recurse maxW (compositeStop [vertexNumberStop 20, edgeRatioStop E.fp (E.fp.lit 95 2)]) t fuel level
        parent g r) (fun o => IsExact g 2 o.1.1 ∧ ConnExact g o.1.1.lab o.1.2) := by
  intro fuel
  induction fuel with
  | zero => intro level parent g r _ _ _ hf; omega
  | succ fuel ih =>
    intro level parent g r hg hl hle hf
    unfold Multilevel.recurse
    rw [mlStop_eq _ _ _ hl, ok_bind]
    split
    · refine (hm.init g r hg).bind fun o ho => ?_
      refine (EndsE.of_sat (fromPartitioning_spec E.set hg.wf hg.small ho.asg_len)).bind fun c hc => ?_
      exact ⟨ho, hc.1⟩
    · rename_i hstop
      have hf' : g.ne < fuel := by
        cases parent with
        | none => simp only at hf; omega
        | some p =>
          simp only at hf
          have := mlStops_ne hsr hg.wf (hle p rfl) (by simpa using hstop)
          omega
      refine (hm.agg g maxW r hg).bind fun o ho => ?_
      obtain ⟨ha, hnc⟩ := ho
      have hsm := hg.small
      have hse := hsm.edge
      refine (EndsE.of_sat (CoarseGraph.make_spec hg.wf (by omega) hsm.vtx ha
        (lt_of_le_of_lt hnc hg.wf.nv_lt))).bind fun cg hc => ?_
      have hcg := hc.con.good ha hg
      refine (ih (level + 1) (some g) cg.coarse o.2 hcg (Or.inr rfl)
        (fun p hp => by cases hp; exact hc.con.ne_le) hf').bind fun i hi => ?_
      obtain ⟨i1, i2⟩ := hi
      refine (EndsE.of_sat (project_spec hg.wf hg.symm hsm ha hc (by omega) i1 i2)).bind fun f hf => ?_
      refine (hm.refine g f.1 f.2 hg hf.exact hf.conn).bind fun o ho => ?_
      exact ho

theorem Multilevel.execute_ends {m : Multilevel E} {t : Target E.fp} (hm : Multilevel.Ending be m t) (hsr : E.fp.SelfRatio)
    (hr : ((E.fp.le (E.fp.lit 95 2) (E.fp.lit 0 0) || E.fp.le (E.fp.lit 1 0) (E.fp.lit 95 2)) = true) → be)
    {g : Graph} (hg : g.Good) (r : E.rng.S) : EndsE be (m.execute t g r) (fun o => IsExact g 2 o.1) := by
  unfold Multilevel.execute edgeRatioMake
  split
  · exact hr (by assumption)
  · rw [ok_bind]
    refine EndsE.bind (Q := fun _ => True) ?_ fun maxW _ => ?_
    · unfold FP.cast
      split <;> trivial
    · refine (Multilevel.recurse_ends hm hsr maxW (g.ne + 2) 0 none g r hg (Or.inl rfl) (fun p hp => by cases hp)
        (by simp only; omega)).bind fun o ho => ?_
      exact ho.1

theorem makeMultilevel_ending (s : Scheme) {t : Target E.fp} (ht : t.Two) : Multilevel.Ending be (makeMultilevel E s) t where
  agg g maxW r hg := by
    refine (EndsE.of_sat (aggregate_spec E s hg.wf hg.noLoop maxW r)).mono fun o ho => ?_
    obtain ⟨f, -, h, -⟩ := ho
    exact ⟨h.ok, h.size.1⟩
  init g r hg := multiBisect_ends ht (fun r => bfsBisect_ends hg ht r) (by omega) r
  refine g p c hg hp hc := fmRefine_ends hg ht 8 150 hp hc

end Poros
