import Verif.Proofs.ScaleML
import Verif.Proofs.RandomBisect
/-
The initial bisections with scaled edge weights.
-/
namespace Poros
open Res Finset

variable {E : Env} {alike : (Int → Int) → E.pq.Q → E.pq.Q → Prop} {c : Nat}

theorem nbr_le_wsum {g : Graph} {v : Nat} {q : Nat × Nat} (h : q ∈ g.nbrs v) : q.2 ≤ g.wsum v (fun _ => true) := by
  unfold Graph.wsum
  simp only [if_true]
  exact List.single_le_sum (fun _ _ => Nat.zero_le _) _ (List.mem_map.mpr ⟨q, h, rfl⟩)

theorem nbrsOf_lt {g : Graph} (hg : g.WF) {v : Nat} {l : List (Nat × Nat)} (hl : g.nbrsOf (!g.unitEdge) v = ok l) :
    v < g.nv ∧ l = g.nbrs v := by
  have hv : v < g.nv := by
    by_contra hn
    unfold Graph.nbrsOf Graph.edgesOf at hl
    obtain ⟨r, hr, _⟩ := bind_eq_ok hl
    obtain ⟨b, hb, hr⟩ := bind_eq_ok hr
    obtain ⟨e, he, hr⟩ := bind_eq_ok hr
    rw [rd_of_le (by rw [hg.xadj_len]; omega)] at he
    cases he
  rw [Graph.nbrsOf_eq hg hv] at hl
  exact ⟨hv, (Res.ok.inj hl).symm⟩

theorem nbrsOf_small {g : Graph} (hg : g.Good) {v : Nat} {l : List (Nat × Nat)} (hl : g.nbrsOf (!g.unitEdge) v = ok l) :
    ∀ q ∈ l, q.2 < 2147483648 := by
  obtain ⟨hv, rfl⟩ := nbrsOf_lt hg.wf hl
  intro q hq
  have h1 := nbr_le_wsum hq
  have h2 := two_wdeg_le hg hv
  have h3 := hg.small.edge
  omega

theorem bfsTouch_lock (ho : OrderBased E.pq alike) (hc : 0 < c) {l : List (Nat × Nat)} {q q' : VQueue E.pq}
    (h : VQA alike c q q') (hl : ∀ e ∈ l, e.2 < 2147483648) (hl' : ∀ e ∈ l, c * e.2 < 2147483648) :
    Lock (VQA alike c) (bfsTouch l q) (bfsTouch (l.map (sc c)) q') := by
  unfold bfsTouch
  refine Lock.foldlM_map ?_ h
  intro q q' e he h
  show Lock _ (q.contains e.1 >>= _) (q'.contains e.1 >>= _)
  rw [h.contains ho]
  refine Lock.same fun b _ => ?_
  cases b with
  | false => exact Lock.ok h
  | true =>
    simp only [if_true]
    show Lock _ _ (q'.updateByDelta (toI32 (c * e.2)) e.1)
    rw [toI32_eq (hl e he), toI32_eq (hl' e he), Nat.cast_mul]
    exact h.updateByDelta ho hc _ _

theorem bfsStep_lock (ho : OrderBased E.pq alike) (hc : 0 < c) {g g' : Graph} (hS : Scaled c g g') (hg : g.Good)
    (hg' : g'.Good) (t : Target E.fp) {s s' : VQueue E.pq × Partitioning} (hp : PRel s.2 s'.2)
    (hpop : Lock (fun a b => b.1 = a.1 ∧ VQA alike c a.2 b.2) s.1.pop s'.1.pop) :
    Lock (fun a b => VQA alike c a.1 b.1 ∧ PRel a.2 b.2) (bfsStep g (!g.unitVtx) (!g.unitEdge) t s)
      (bfsStep g' (!g'.unitVtx) (!g'.unitEdge) t s') := by
  unfold bfsStep
  refine hpop.bind fun a b _ _ hab => ?_
  obtain ⟨v, q⟩ := a
  obtain ⟨v', q'⟩ := b
  obtain ⟨hv, hq⟩ := hab
  simp only at hv hq ⊢
  subst hv
  rw [hS.vwgtOf, hS.unitVtx, hp.2]
  refine Lock.same fun w _ => Lock.same fun w0 _ => Lock.same fun m0 _ => ?_
  split
  · refine (hp.move hS v' 0).bind fun p p' _ _ hpp => ?_
    refine (hS.nbrsOf_lock hg.wf hg'.wf v').bind fun l l' hl hl' e => ?_
    subst e
    have b1 := nbrsOf_small hg hl
    have b2 := nbrsOf_small hg' hl'
    refine (bfsTouch_lock ho hc hq b1 fun e he => b2 _ (List.mem_map.mpr ⟨e, he, rfl⟩)).bind fun x y _ _ hxy => ?_
    exact Lock.ok ⟨hxy, hpp⟩
  · exact Lock.ok ⟨hq, hp⟩

/-- What the second half of the bisector looks at. -/
def GrowRel (a b : VQueue E.pq × Partitioning) : Prop := b.1.remaining = a.1.remaining ∧ PRel a.2 b.2

theorem bfsPriorityMove_lock (ho : OrderBased E.pq alike) (hc : 0 < c) {g g' : Graph} (hS : Scaled c g g') (hg : g.Good)
    (hg' : g'.Good) (t : Target E.fp) : ∀ fuel {s s' : VQueue E.pq × Partitioning}, VQA alike c s.1 s'.1 → PRel s.2 s'.2 →
    Lock GrowRel (bfsPriorityMove g (!g.unitVtx) (!g.unitEdge) t fuel s)
      (bfsPriorityMove g' (!g'.unitVtx) (!g'.unitEdge) t fuel s') := by
  intro fuel
  induction fuel with
  | zero => intro s s' _ _ a b h; cases h
  | succ fuel ih =>
    intro s s' hq hp
    unfold bfsPriorityMove
    rw [hq.size ho, hp.2]
    split
    · refine Lock.same fun w0 _ => Lock.same fun t0 _ => ?_
      split
      · exact (bfsStep_lock ho hc hS hg hg' t hp (hq.pop ho hc)).bind fun a b _ _ hab => ih hab.1 hab.2
      · exact Lock.ok ⟨hq.remaining ho, hp⟩
    · exact Lock.ok ⟨hq.remaining ho, hp⟩

theorem bfsGrow_lock (ho : OrderBased E.pq alike) (hc : 0 < c) {g g' : Graph} (hS : Scaled c g g') (hg : g.Good)
    (hg' : g'.Good) {t : Target E.fp} (ht : t.Two) {seed : Nat} (hseed : seed < g.nv) :
    Lock GrowRel (bfsGrow t g seed) (bfsGrow t g' seed) := by
  obtain ⟨q0, p0, hq0, hp0, he, hinv, hsz, hk⟩ := bfsGrow_init hg.plain ht hseed
  obtain ⟨q0', p0', hq0', hp0', he', -, -, -⟩ := bfsGrow_init hg'.plain ht (show seed < g'.nv by rw [hS.nv]; exact hseed)
  rw [he, he', hS.nv]
  rw [hS.nv, hq0] at hq0'
  have e1 : q0 = q0' := Res.ok.inj hq0'
  have hpp : (Partitioning.fresh 2 g').assignAll g' 1 = (Partitioning.fresh 2 g).assignAll g 1 := by
    unfold Partitioning.assignAll Partitioning.fresh
    rw [hS.nv, hS.totVtx]
  rw [hpp, hp0] at hp0'
  have e2 : p0 = p0' := Res.ok.inj hp0'
  subst e1 e2
  have hself : PRel p0 p0 := ⟨rfl, rfl⟩
  unfold bfsPriorityMove
  split
  · refine Lock.same fun w0 _ => Lock.same fun t0 _ => ?_
    split
    · have hpop : Lock (fun a b => b.1 = a.1 ∧ VQA alike c a.2 b.2) q0.pop q0.pop := by
        intro a b ha hb
        have hab : a = b := Res.ok.inj (ha.symm.trans hb)
        subst hab
        refine ⟨rfl, rfl, ho.fixed _ _ (keepsOrder_mul hc) fun u k hu => ?_⟩
        unfold VQueue.pop at ha
        obtain ⟨m, hm, hle⟩ := E.pq.top_max q0.q seed 1 (by rw [(hk seed).1, if_pos rfl])
        rw [hm] at ha
        have ha := Res.ok.inj ha
        subst ha
        simp only at hu
        rw [E.pq.key_del] at hu
        have hts : E.pq.top q0.q = seed := by
          by_contra hne
          rw [(hk _).1, if_neg hne] at hm
          split at hm
          · cases hm; omega
          · cases hm
        rw [hts] at hu
        split at hu
        · cases hu
        · rename_i hne
          rw [(hk u).1, if_neg hne] at hu
          split at hu
          · cases hu; rfl
          · cases hu
      exact (bfsStep_lock ho hc hS hg hg' t hself hpop).bind fun a b _ _ hab =>
        bfsPriorityMove_lock ho hc hS hg hg' t _ hab.1 hab.2
    · exact Lock.ok ⟨rfl, hself⟩
  · exact Lock.ok ⟨rfl, hself⟩

theorem bfsLighter_scale {t : Target E.fp} {p p' : Partitioning} (h : PRel p p') (w : Nat) :
    bfsLighter t w p' = bfsLighter t w p := by
  unfold bfsLighter; rw [h.2]

theorem bfsUnitBalance_lock {g g' : Graph} (hS : Scaled c g g') {t : Target E.fp} (l : List Nat) {p p' : Partitioning}
    (h : PRel p p') : Lock PRel (bfsUnitBalance g t l p) (bfsUnitBalance g' t l p') := by
  induction l with
  | nil => exact Lock.ok h
  | cons v vs ih =>
    unfold bfsUnitBalance
    rw [h.2]
    refine Lock.same fun w0 _ => ?_
    rw [bfsLighter_scale h]
    refine Lock.same fun b _ => ?_
    split
    · exact h.move hS v 0
    · exact ih

theorem bfsWeightLoop_lock {g g' : Graph} (hS : Scaled c g g') {t : Target E.fp} (fuel : Nat) {p p' : Partitioning}
    (h : PRel p p') : ∀ q : VQueue E.pq, Lock PRel (bfsWeightLoop g t fuel q p) (bfsWeightLoop g' t fuel q p') := by
  induction fuel with
  | zero => intro q a b h; cases h
  | succ fuel ih =>
    intro q
    unfold bfsWeightLoop
    rw [h.2]
    split
    · refine Lock.same fun x _ => ?_
      obtain ⟨v, q⟩ := x
      simp only
      rw [hS.vwgtOf]
      refine Lock.same fun w _ => Lock.same fun w0 _ => ?_
      rw [bfsLighter_scale h]
      refine Lock.same fun b _ => ?_
      split
      · exact h.move hS v 0
      · exact ih q
    · exact Lock.ok h

theorem bfsBalance_lock {g g' : Graph} (hS : Scaled c g g') {t : Target E.fp} (l : List Nat) {p p' : Partitioning}
    (h : PRel p p') : Lock PRel (bfsBalance t g l p) (bfsBalance t g' l p') := by
  unfold bfsBalance
  rw [h.2, hS.unitVtx]
  refine Lock.same fun w1 _ => Lock.same fun m1 _ => ?_
  split
  · split
    · unfold bfsWeightBalance
      simp only [hS.vwgtOf, hS.nv]
      exact Lock.same fun q _ => bfsWeightLoop_lock hS _ h q
    · exact bfsUnitBalance_lock hS l h
  · exact Lock.ok h

theorem bfsFrom_lock (ho : OrderBased E.pq alike) (hc : 0 < c) {g g' : Graph} (hS : Scaled c g g') (hg : g.Good)
    (hg' : g'.Good) {t : Target E.fp} (ht : t.Two) {seed : Nat} (hseed : seed < g.nv) :
    Lock PRel (bfsFrom t g seed) (bfsFrom t g' seed) := by
  unfold bfsFrom
  refine (bfsGrow_lock ho hc hS hg hg' ht hseed).bind fun a b _ _ hab => ?_
  obtain ⟨q, p⟩ := a
  obtain ⟨q', p'⟩ := b
  obtain ⟨hr, hp⟩ := hab
  simp only at hr hp ⊢
  rw [hr]
  refine (bfsBalance_lock hS _ hp).bind fun x y _ _ hxy => ?_
  unfold Partitioning.recalcCut
  intro z z' hz hz'
  obtain ⟨_, _, hz⟩ := bind_eq_ok hz
  obtain ⟨_, _, hz'⟩ := bind_eq_ok hz'
  cases hz; cases hz'
  exact hxy

theorem bfsBisect_lock (ho : OrderBased E.pq alike) (hc : 0 < c) {g g' : Graph} (hS : Scaled c g g') (hg : g.Good)
    (hg' : g'.Good) {t : Target E.fp} (ht : t.Two) (r : E.rng.S) :
    Lock (fun a b => (PRel a.1 b.1 ∧ b.2 = a.2) ∧ IsExact g 2 a.1 ∧ IsExact g' 2 b.1) (bfsBisect t g r) (bfsBisect t g' r) := by
  intro a b ha hb
  obtain ⟨_, _, _, _, u⟩ := (bfsBisect_spec (B := True) hg ht (fun _ => trivial) r).elim_ok ha
  obtain ⟨_, _, _, _, u'⟩ := (bfsBisect_spec (B := True) hg' ht (fun _ => trivial) r).elim_ok hb
  refine ⟨?_, u.exact, u'.exact⟩
  unfold bfsBisect at ha hb
  rw [hS.nv] at hb
  refine Lock.same (S := fun a b => PRel a.1 b.1 ∧ b.2 = a.2) (fun x hx => ?_) a b ha hb
  obtain ⟨seed, r2⟩ := x
  simp only
  by_cases hs : seed < g.nv
  · exact (bfsFrom_lock ho hc hS hg hg' ht hs).bind fun x y _ _ hxy => Lock.ok ⟨hxy, rfl⟩
  · have : bfsFrom t g seed = ub := by
      unfold bfsFrom bfsGrow VQueue.add VQueue.new
      simp only
      rw [if_pos (by omega)]; rfl
    rw [this]
    exact Lock.ub_left

/-! ### the best of several bisections -/

structure MRel (c : Nat) (s s' : MultiState E) : Prop where
  cut : s'.bestCut = c * s.bestCut
  bal : s'.bestBal = s.bestBal
  found : s'.found = s.found
  best : PRel s.best s'.best
  rng : s'.rng = s.rng

theorem multiStep_lock (hc : 0 < c) {g g' : Graph} (hS : Scaled c g g') (hg : g.WF) {t : Target E.fp} {bis : Bisector E}
    (hb : ∀ r, Lock (fun a b => (PRel a.1 b.1 ∧ b.2 = a.2) ∧ IsExact g 2 a.1 ∧ IsExact g' 2 b.1) (bis t g r) (bis t g' r))
    {s s' : MultiState E} (h : MRel c s s') (m : Nat) : Lock (MRel c) (multiStep bis t g s m) (multiStep bis t g' s' m) := by
  unfold multiStep
  rw [h.rng]
  refine (hb s.rng).bind fun a b _ _ hab => ?_
  obtain ⟨p, r⟩ := a
  obtain ⟨p', r'⟩ := b
  obtain ⟨⟨hp, hr⟩, he, he'⟩ := hab
  simp only at hp hr he he' ⊢
  subst hr
  have hcut := he.cut_scaled hS hg he' hp
  rw [hp.calcMaxImbalance hS, hp.isBalanced]
  refine Lock.same fun balance _ => Lock.same fun bal _ => ?_
  have hlt : decide (p'.cut < s'.bestCut) = decide (p.cut < s.bestCut) := by
    rw [hcut, h.cut]
    exact decide_eq_decide.mpr (Nat.mul_lt_mul_left hc)
  rw [h.found, h.bal, hlt]
  split
  · exact Lock.ok ⟨hcut, rfl, rfl, hp, rfl⟩
  · exact Lock.ok ⟨h.cut, rfl, rfl, h.best, rfl⟩

theorem multiBisect_lock (hc : 0 < c) {g g' : Graph} (hS : Scaled c g g') (hg : g.WF) {t : Target E.fp} {bis : Bisector E}
    (hb : ∀ r, Lock (fun a b => (PRel a.1 b.1 ∧ b.2 = a.2) ∧ IsExact g 2 a.1 ∧ IsExact g' 2 b.1) (bis t g r) (bis t g' r))
    (n : Nat) (r : E.rng.S) :
    Lock (fun a b => PRel a.1 b.1 ∧ b.2 = a.2) (multiBisect n bis t g r) (multiBisect n bis t g' r) := by
  unfold multiBisect
  refine Lock.bind (R := MRel c) ?_ fun s s' _ _ h => Lock.ok ⟨h.best, h.rng⟩
  refine Lock.foldlM (fun s s' m _ h => multiStep_lock hc hS hg hb h m) ?_
  have : Partitioning.fresh 2 g' = Partitioning.fresh 2 g := by unfold Partitioning.fresh; rw [hS.nv]
  rw [this]
  exact ⟨by simp, rfl, rfl, ⟨rfl, rfl⟩, rfl⟩

/-! ### the multilevel bisector -/

theorem init_lock (ho : OrderBased E.pq alike) (hc : 0 < c) {g g' : Graph} (hS : Scaled c g g') (hg : g.Good)
    (hg' : g'.Good) {t : Target E.fp} (ht : t.Two) (r : E.rng.S) :
    Lock (fun a b => (PRel a.1 b.1 ∧ b.2 = a.2) ∧ IsExact g 2 a.1 ∧ IsExact g' 2 b.1) (makeBisector E .bfs 8 t g r)
      (makeBisector E .bfs 8 t g' r) := by
  have hx : ∀ g : Graph, g.Good → ∀ r, Post True (bfsBisect t g r) (fun o => IsExact g 2 o.1 ∧ IsExact g 2 o.1) := by
    intro g hg r
    refine (bfsBisect_spec (B := True) hg ht (fun _ => trivial) r).mono fun o ho => ?_
    obtain ⟨_, _, _, _, u⟩ := ho
    exact ⟨u.exact, u.exact⟩
  unfold makeBisector
  intro a b ha hb
  refine ⟨multiBisect_lock hc hS hg.wf (bfsBisect_lock ho hc hS hg hg' ht) 8 r a b ha hb, ?_, ?_⟩
  · exact ((multiBisect_spec (B := True) ht (R := IsExact g 2) (hx g hg) (by decide) r).elim_ok ha).1
  · exact ((multiBisect_spec (B := True) ht (R := IsExact g' 2) (hx g' hg') (by decide) r).elim_ok hb).1

/-- The results of the two runs of a level. -/
structure LevelRel (E : Env) (g g' : Graph) (a b : (Partitioning × Conn E.set) × E.rng.S) : Prop where
  part : PRel a.1.1 b.1.1
  border : b.1.2.border = a.1.2.border
  rng : b.2 = a.2
  exact : IsExact g 2 a.1.1
  conn : ConnExact g a.1.1.lab a.1.2
  exact' : IsExact g' 2 b.1.1
  conn' : ConnExact g' b.1.1.lab b.1.2

theorem mlStops_scale {fp : FP} (ratio : fp.F) {g g' : Graph} (hS : Scaled c g g') {parent parent' : Option Graph}
    (hp : parent'.map Graph.ne = parent.map Graph.ne) : mlStops fp ratio parent' g' = mlStops fp ratio parent g := by
  unfold mlStops
  rw [hS.nv, hS.ne]
  cases parent <;> cases parent' <;> simp at hp ⊢
  rw [hp]

theorem recurse_lock (ho : OrderBased E.pq alike) (hc : 0 < c) (s : Scheme) (maxW : Nat) {t : Target E.fp} (ht : t.Two) :
    ∀ fuel level {parent parent' : Option Graph} {g g' : Graph} (r : E.rng.S), Scaled c g g' → g.Good → g'.Good →
      (s = .sortedHeavyEdge → g'.unitEdge = g.unitEdge) → (level = 0 ∨ parent.isSome) → parent'.map Graph.ne = parent.map Graph.ne →
      Lock (LevelRel E g g')
        ((makeMultilevel E s).recurse maxW (compositeStop [vertexNumberStop 20, edgeRatioStop E.fp (E.fp.lit 95 2)]) t fuel
          level parent g r)
        ((makeMultilevel E s).recurse maxW (compositeStop [vertexNumberStop 20, edgeRatioStop E.fp (E.fp.lit 95 2)]) t fuel
          level parent' g' r) := by
  intro fuel
  induction fuel with
  | zero => intro level parent parent' g g' r _ _ _ _ _ _ a b h; cases h
  | succ fuel ih =>
    intro level parent parent' g g' r hS hg hg' hu hl hp
    have hl' : level = 0 ∨ parent'.isSome := by
      rcases hl with h | h
      · exact Or.inl h
      · right
        cases parent <;> cases parent' <;> simp at hp h ⊢
    unfold Multilevel.recurse
    rw [mlStop_eq _ _ _ hl, mlStop_eq _ _ _ hl', mlStops_scale _ hS hp, ok_bind, ok_bind]
    split
    · refine (init_lock ho hc hS hg hg' ht r).bind fun a b _ _ hab => ?_
      obtain ⟨p, r1⟩ := a
      obtain ⟨p', r1'⟩ := b
      obtain ⟨⟨h1, h2⟩, he, he'⟩ := hab
      simp only at h1 h2 he he' ⊢
      refine (fromPartitioning_lock hS hc hg hg' he he' h1).bind fun k k' hk hk' hb => ?_
      have u := (fromPartitioning_spec E.set hg.wf hg.small he.asg_len).elim_ok hk
      have u' := (fromPartitioning_spec E.set hg'.wf hg'.small he'.asg_len).elim_ok hk'
      exact Lock.ok ⟨h1, hb, h2, he, u.1, he', u'.1⟩
    · show Lock _ (aggregate E s maxW g r >>= _) (aggregate E s maxW g' r >>= _)
      rw [aggregate_scale hc hS hg.wf hg'.wf s hu]
      refine Lock.same fun x hx => ?_
      obtain ⟨a, r1⟩ := x
      simp only
      obtain ⟨mt, -, hbf, -⟩ := (aggregate_spec E s hg.wf hg.noLoop maxW r).elim_ok hx
      have ha : AggOK g.nv a := hbf.ok
      have hnc : a.nc < NULL32 := lt_of_le_of_lt hbf.size.1 hg.wf.nv_lt
      have e1 := hg.small.edge
      have e2 := hg'.small.edge
      have ha' : AggOK g'.nv a := by rw [hS.nv]; exact ha
      refine (make_lock hS hg hg' ha hnc).bind fun cg cg' hcg hcg' hcr => ?_
      have k := (CoarseGraph.make_spec hg.wf (by omega) hg.small.vtx ha hnc).elim_ok hcg
      have k' := (CoarseGraph.make_spec hg'.wf (by omega) hg'.small.vtx ha' hnc).elim_ok hcg'
      refine (ih (level + 1) (parent := some g) (parent' := some g') r1 hcr.coarse (k.con.good ha hg) (k'.con.good ha' hg')
        (fun _ => hcr.flag) (Or.inr rfl) (by simp [hS.ne])).bind fun i i' _ _ hi => ?_
      obtain ⟨⟨cp, cc⟩, r2⟩ := i
      obtain ⟨⟨cp', cc'⟩, r2'⟩ := i'
      have hir := hi.rng
      simp only at hir ⊢
      subst hir
      refine (project_lock hS hc hg hg' ha k k' hi.exact hi.exact' hi.conn hi.conn' hi.part).bind fun f f' hf hf' hff => ?_
      have u := (project_spec hg.wf hg.symm hg.small ha k (by decide) hi.exact hi.conn).elim_ok hf
      have u' := (project_spec hg'.wf hg'.symm hg'.small ha' k' (by decide) hi.exact' hi.conn').elim_ok hf'
      show Lock _ (fmRefine g t 8 150 f.1 f.2 >>= _) (fmRefine g' t 8 150 f'.1 f'.2 >>= _)
      refine (fmRefine_lock ho hc hS hg hg' ht 8 150 u.exact u.conn u'.exact u'.conn hff.1 hff.2).bind
        fun o o' hoo hoo' hrel => ?_
      have v := (fmRefine_spec (B := True) hg ht 8 150 u.exact u.conn (fun _ => trivial)).elim_ok hoo
      have v' := (fmRefine_spec (B := True) hg' ht 8 150 u'.exact u'.conn (fun _ => trivial)).elim_ok hoo'
      exact Lock.ok ⟨hrel.1, hrel.2, rfl, v.1, v.2.1, v'.1, v'.2.1⟩

theorem execute_lock (ho : OrderBased E.pq alike) (hc : 0 < c) (s : Scheme) {g g' : Graph} (hS : Scaled c g g') (hg : g.Good)
    (hg' : g'.Good) (hu : s = .sortedHeavyEdge → g'.unitEdge = g.unitEdge) {t : Target E.fp} (ht : t.Two) (r : E.rng.S) :
    Lock (fun a b => (PRel a.1 b.1 ∧ b.2 = a.2) ∧ IsExact g 2 a.1 ∧ IsExact g' 2 b.1) ((makeMultilevel E s).execute t g r)
      ((makeMultilevel E s).execute t g' r) := by
  unfold Multilevel.execute
  rw [hS.totVtx, hS.ne]
  refine Lock.same fun ratio hr => Lock.same fun maxW _ => ?_
  unfold edgeRatioMake at hr
  split at hr
  · cases hr
  · have hr := Res.ok.inj hr
    subst hr
    exact (recurse_lock ho hc s maxW ht (g.ne + 2) 0 r hS hg hg' hu (Or.inl rfl) rfl).bind fun a b _ _ h =>
      Lock.ok ⟨⟨h.part, h.rng⟩, h.exact, h.exact'⟩

end Poros
