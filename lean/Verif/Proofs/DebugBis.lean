import Verif.Proofs.DebugSim
import Verif.Proofs.DebugAgg
import Verif.Proofs.NullSafe
import Verif.Props.P30_Multilevel
/-
The assertions of initial and multilevel bisection.
-/
namespace Poros
open Finset Res

variable {E : Env}

theorem Weighed.moveD {g : Graph} {p : Partitioning} (h : Weighed g 2 p) {v : Nat} (hv : v < g.nv) (hl : p.lab v = 1) :
    p.moveD g v 0 = p.move g v 0 := by
  have : rd p.asg v = ok (p.lab v) := rd_of_lt (by rw [h.asg_len]; exact hv)
  rw [hl] at this
  exact moveD_eq this (by decide) (by decide)

/-! ### breadth-first growing -/

theorem bfsStepD_eq {g : Graph} {t : Target E.fp} {seed : Nat} {s : VQueue E.pq × Partitioning}
    (h : BfsInv g (nth t.mx 0) seed s) (hs : s.1.size > 0) (a b : Bool) : bfsStepD g a b t s = bfsStep g a b t s := by
  obtain ⟨m, hm, htop⟩ := VQueue.top_of_size hs
  obtain ⟨hv, hl1, hkey⟩ := h.keys _ _ hm
  unfold bfsStepD bfsStep
  rw [VQueue.pop_of_size hs, ok_bind, ok_bind]
  simp only
  rw [h.part.moveD hv hl1]

theorem bfsPriorityMoveD_eq {g : Graph} (hg : g.Good) {t : Target E.fp} (ht : t.Two) {seed : Nat} :
    ∀ fuel (s : VQueue E.pq × Partitioning), BfsInv g (nth t.mx 0) seed s →
    bfsPriorityMoveD g (!g.unitVtx) (!g.unitEdge) t fuel s = bfsPriorityMove g (!g.unitVtx) (!g.unitEdge) t fuel s := by
  intro fuel
  induction fuel with
  | zero => intro s _; rfl
  | succ fuel ih =>
    intro s h
    unfold bfsPriorityMoveD bfsPriorityMove
    split
    · rename_i hs
      refine bind_congr_ok fun _ _ => bind_congr_ok fun _ _ => ?_
      split
      · refine bind_congr2 (bfsStepD_eq h hs _ _) fun s' hs' => ?_
        exact ih s' ((bfsStep_spec hg.plain ht h hs).elim_ok hs').1
      · rfl
    · rfl

theorem bfsGrowD_eq {g : Graph} (hg : g.Good) {t : Target E.fp} (ht : t.Two) (seed : Nat) :
    bfsGrowD t g seed = bfsGrow t g seed := by
  by_cases hseed : seed < g.nv
  · obtain ⟨q, p, hqe, hpe, e, hi, -⟩ := bfsGrow_init hg.plain (t := t) ht hseed
    rw [e, ← bfsPriorityMoveD_eq hg ht _ _ hi]
    unfold bfsGrowD Partitioning.freshD
    rw [← bind_assoc, hqe, ok_bind, ht.k, check_bind (by omega), ok_bind, hpe, ok_bind]
  · unfold bfsGrowD bfsGrow VQueue.add
    rw [if_pos (by show g.nv ≤ _; omega)]
    rfl

/-! ### the fallback -/

theorem bfsUnitBalanceD_eq {g : Graph} {t : Target E.fp} {p : Partitioning} (hp : Weighed g 2 p) :
    ∀ remaining : List Nat, (∀ v ∈ remaining, v < g.nv ∧ p.lab v = 1) →
    bfsUnitBalanceD g t remaining p = bfsUnitBalance g t remaining p := by
  intro remaining
  induction remaining with
  | nil => intro _; rfl
  | cons v vs ih =>
    intro hr
    obtain ⟨hv, hl⟩ := hr v (by simp)
    unfold bfsUnitBalanceD bfsUnitBalance
    rw [hp.moveD hv hl, ih fun u hu => hr u (by simp [hu])]

theorem vwgtTrueD_close {H : Prop} {g : Graph} (v : Nat) (hH : ¬ H) (hu : g.unitVtx = true) {β : Type}
    (f : Nat → Res β) {r : Res β} : Close H (g.vwgtTrueD v >>= f) r := by
  unfold Graph.vwgtTrueD
  rw [check_false (by rw [hu]; simp)]
  exact Or.inr ⟨hH, rfl⟩

theorem bfsWeightBalanceD_close {H : Prop} {g : Graph} {t : Target E.fp} {p : Partitioning} (hH : ¬ H)
    (hu : g.unitVtx = true) (remaining : List Nat) :
    Close H (bfsWeightBalanceD g t remaining p) (bfsWeightBalance g t remaining p) := by
  unfold bfsWeightBalanceD bfsWeightBalance
  cases remaining with
  | nil =>
    refine Close.bind_ok fun q hq => ?_
    have := Res.ok.inj hq
    subst this
    have h0 : ¬ (VQueue.new E.pq g.nv).size > 0 := by
      intro h
      obtain ⟨m, hm, -⟩ := VQueue.top_of_size h
      have := E.pq.key_empty (E.pq.top (VQueue.new E.pq g.nv).q)
      change E.pq.key E.pq.empty (E.pq.top (VQueue.new E.pq g.nv).q) = some m at hm
      rw [hm] at this
      cases this
    show Close H (bfsWeightLoopD g t 1 _ p) (bfsWeightLoop g t 1 _ p)
    unfold bfsWeightLoopD bfsWeightLoop
    rw [if_neg h0, if_neg h0]
    exact Close.refl _
  | cons v vs =>
    rw [List.foldlM_cons, bind_assoc, bind_assoc]
    exact vwgtTrueD_close v hH hu _

/-- The initial bisection does not need the fallback for unit weights, which is the wrong one. -/
def BfsAssert (g : Graph) (t : Target E.fp) : Prop := g.unitVtx = true → Fits t g.nv

theorem bfsFromD_close {H : Prop} {g : Graph} (hg : g.Good) {t : Target E.fp} (ht : t.Two)
    (hf : H → BfsAssert g t) (seed : Nat) : Close H (bfsFromD t g seed) (bfsFrom t g seed) := by
  unfold bfsFromD bfsFrom
  rw [check_bind ht.k, bfsGrowD_eq hg ht]
  by_cases hseed : seed < g.nv
  · obtain ⟨s, hs, hi, -⟩ := sat_iff.mp (bfsGrow_spec hg.plain ht hseed)
    rw [hs, ok_bind, ok_bind]
    obtain ⟨q, p⟩ := s
    simp only
    refine Close.bind ?_ fun _ _ => Close.refl _
    have hr : ∀ v ∈ q.remaining, v < g.nv ∧ p.lab v = 1 := by
      intro v hv
      unfold VQueue.remaining at hv
      rw [E.pq.mem_elems] at hv
      obtain ⟨k, hk⟩ := Option.isSome_iff_exists.mp hv
      exact ⟨(hi.keys v k hk).1, (hi.keys v k hk).2.1⟩
    unfold bfsBalanceD bfsBalance
    rw [hi.part.rd_pw (by omega), ok_bind, ok_bind, rd_of_lt (by rw [ht.mx]; omega), ok_bind, ok_bind]
    split
    · rename_i hgt
      split
      · rename_i hu
        refine bfsWeightBalanceD_close (fun hH => ?_) hu _
        have hu1 : ∀ v, v < g.nv → g.vw v = 1 := by
          intro v _
          unfold Graph.vw
          rw [hu]; rfl
        obtain ⟨s', hs', -, hU⟩ := sat_iff.mp (bfsGrow_unit hg ht hu1 (hf hH hu).left hseed)
        rw [hs] at hs'
        cases hs'
        obtain ⟨-, h2⟩ := (bfsGrow_spec hg.plain ht hseed).elim_ok hs
        have hsum := partWeight_two hi.part.complete
        have hfr := (hf hH hu).right
        rw [unit_sum hu1] at hsum
        have h4 : partWeight g p.lab 1 ≤ nth t.mx 1 := by
          rcases h2 with h | h
          · have : partWeight g p.lab 1 = 0 := by
              unfold partWeight
              refine sum_eq_zero fun v hv => ?_
              rw [if_neg]
              intro hl
              have := (E.pq.mem_elems q.q v).mpr (hU.queued v (mem_range.mp hv) hl)
              have hp := List.length_pos_of_mem this
              unfold VQueue.size at h
              simp only at h
              omega
            omega
          · simp only at h hsum
            omega
        exact absurd h4 (by simpa using hgt)
      · exact Or.inl (bfsUnitBalanceD_eq hi.part _ hr)
    · exact Close.refl _
  · have : bfsGrow t g seed = ub := by
      unfold bfsGrow VQueue.add
      rw [if_pos (by show g.nv ≤ _; omega)]
      rfl
    rw [this]
    exact Close.refl _

theorem bfsBisectD_close {H : Prop} {g : Graph} (hg : g.Good) {t : Target E.fp} (ht : t.Two)
    (hf : H → BfsAssert g t) (r : E.rng.S) : Close H (bfsBisectD t g r) (bfsBisect t g r) :=
  Close.bind_ok fun _ _ => (bfsFromD_close hg ht hf _).bind fun _ _ => Close.refl _

theorem multiBisectD_close {H : Prop} {g : Graph} {t : Target E.fp} (ht : t.Two) {d b : Bisector E}
    (hd : ∀ r, Close H (d t g r) (b t g r)) (hb : ∀ r o, b t g r = ok o → IsExact g 2 o.1) (hf : H → PosFrac t 2) (n : Nat)
    (r : E.rng.S) : Close H (multiBisectD n d t g r) (multiBisect n b t g r) := by
  unfold multiBisectD multiBisect Partitioning.freshD
  rw [check_bind (by omega), ok_bind]
  refine (Close.foldlM (P := fun _ => True) trivial fun s i _ _ => ⟨?_, fun _ _ => trivial⟩).bind fun _ _ => Close.refl _
  unfold multiStepD multiStep
  refine (hd s.rng).bind fun o ho => ?_
  have hx := hb _ _ ho
  obtain ⟨p, r'⟩ := o
  simp only
  refine (calcMaxImbalanceD_close (by rw [hx.pw_len, ht.frac]) ?_).bind fun _ _ => Close.refl _
  rw [hx.pw_len]
  exact hf

/-- The bisector of the library may run its assertions on `g`. -/
theorem initD_close {H : Prop} {g : Graph} (hg : g.Good) {t : Target E.fp} (ht : t.Two) (hf : H → BfsAssert g t)
    (hp : H → PosFrac t 2) (n : Nat) (r : E.rng.S) :
    Close H (multiBisectD n bfsBisectD t g r) (makeBisector E .bfs n t g r) := by
  refine multiBisectD_close ht (bfsBisectD_close hg ht hf) (fun r o ho => ?_) hp n r
  obtain ⟨_, _, _, _, h⟩ := (bfsBisect_spec (B := True) hg ht (fun _ => trivial) r).elim_ok ho
  exact h.exact

/-! ### graphs that stay free of isolated vertices -/

/-- Every nonempty set of vertices that no edge of positive weight leaves has two vertices and weighs more than
`maxW`. -/
def Sturdy (g : Graph) (maxW : Nat) : Prop :=
  ∀ S : Finset Nat, S ⊆ range g.nv → S.Nonempty → (∀ v ∈ S, ∀ u, u < g.nv → u ∉ S → g.wt v u = 0) →
    2 ≤ S.card ∧ maxW < ∑ v ∈ S, g.vw v

theorem Sturdy.deg {g : Graph} (hg : g.WF) {maxW : Nat} (h : Sturdy g maxW) {v : Nat} (hv : v < g.nv) :
    0 < g.wsum v fun _ => true := by
  by_contra h0
  have h0 : g.wsum v (fun _ => true) = 0 := by omega
  have := h {v} (by simpa using hv) (by simp) fun x hx u hu _ => by
    rw [Finset.mem_singleton] at hx
    subst hx
    rw [Graph.wsum_eq_sum hg hv] at h0
    have := (Finset.sum_eq_zero_iff.mp h0) u (mem_range.mpr hu)
    simpa using this
  simp at this

theorem betweenWeight_ge {g : Graph} (cmap : Nat → Nat) {v u : Nat} (hv : v < g.nv) (hu : u < g.nv) :
    g.wt v u ≤ betweenWeight g cmap (cmap v) (cmap u) := by
  unfold betweenWeight
  refine le_trans ?_ (Finset.single_le_sum (fun _ _ => Nat.zero_le _) (mem_range.mpr hv))
  rw [if_pos rfl]
  refine le_trans ?_ (Finset.single_le_sum (fun _ _ => Nat.zero_le _) (mem_range.mpr hu))
  rw [if_pos rfl]

theorem Sturdy.coarse {g : Graph} {maxW : Nat} (h : Sturdy g maxW) (hn : g.sumVtx < NULL32) {f : Nat → Option Nat}
    {a : Aggregation} (hb : BuiltFrom g.nv f a) (hr : RunInv g maxW (List.range g.nv) f) {cg : Graph}
    (hc : Contracted g a cg) : Sturdy cg maxW := by
  intro S' hS' hne hout
  let S := (range g.nv).filter fun v => nth a.cmap v ∈ S'
  have hmem : ∀ v, v ∈ S ↔ v < g.nv ∧ nth a.cmap v ∈ S' := fun v => by simp [S]
  have hlt : ∀ c ∈ S', c < a.nc := fun c hcS => by rw [← hc.nv]; exact mem_range.mp (hS' hcS)
  have key := h S (Finset.filter_subset _ _) (by
      obtain ⟨c, hcS⟩ := hne
      obtain ⟨v, hv, hvc⟩ := hb.surj c (hlt c hcS)
      exact ⟨v, (hmem v).mpr ⟨hv, hvc ▸ hcS⟩⟩) (by
      intro v hv u hu hun
      rw [hmem] at hv hun
      have hun : nth a.cmap u ∉ S' := fun hx => hun ⟨hu, hx⟩
      have h1 := betweenWeight_ge (g := g) (nth a.cmap) hv.1 hu
      have h2 := hb.ok.lt u hu
      rw [← hc.wt _ _ (hb.ok.lt v hv.1) h2 (fun he => hun (he ▸ hv.2)), hout _ hv.2 _ (by rw [hc.nv]; exact h2) hun] at h1
      omega)
  have hw : ∑ c ∈ S', cg.vw c = ∑ v ∈ S, g.vw v := by
    rw [Finset.sum_congr rfl fun c hcS => hc.vw c (hlt c hcS)]
    unfold groupWeight
    rw [Finset.sum_comm]
    rw [Finset.sum_filter]
    refine Finset.sum_congr rfl fun v _ => ?_
    rw [Finset.sum_ite_eq]
  rw [hw]
  refine ⟨?_, key.2⟩
  by_contra hcard
  have hcard : S'.card = 1 := by
    have := Finset.card_pos.mpr hne
    omega
  obtain ⟨c, rfl⟩ := Finset.card_eq_one.mp hcard
  obtain ⟨x, hx, y, hy, hxy⟩ := Finset.one_lt_card.mp (show 1 < S.card by omega)
  rw [hmem, Finset.mem_singleton] at hx hy
  have hfx : f x = some y := by
    rcases (hb.same x y hx.1 hy.1).mp (by unfold Aggregation.same; rw [hx.2, hy.2]) with h | h
    · exact absurd h hxy
    · exact h
  have hS : S = {x, y} := by
    ext z
    rw [hmem, Finset.mem_singleton, Finset.mem_insert, Finset.mem_singleton]
    constructor
    · rintro ⟨hz, hzc⟩
      rcases (hb.same x z hx.1 hz).mp (by unfold Aggregation.same; rw [hx.2, hzc]) with h | h
      · exact Or.inl h.symm
      · rw [hfx] at h
        exact Or.inr (Option.some.inj h).symm
    · rintro (rfl | rfl)
      · exact hx
      · exact hy
  have hsum : ∑ v ∈ S, g.vw v = g.vw x + g.vw y := by rw [hS, Finset.sum_pair hxy]
  have hle : ∑ v ∈ S, g.vw v ≤ g.sumVtx :=
    Finset.sum_le_sum_of_subset (Finset.filter_subset _ _)
  have hal := hr.allowed x y hx.1 hfx
  unfold okPair isAllowed at hal
  rw [uadd_eq (by omega)] at hal
  simp only [Bool.or_eq_true, decide_eq_true_eq] at hal
  omega

/-! ### multilevel bisection -/

/-- What the assertions of multilevel bisection need of the graph. -/
structure MLAssert (g : Graph) (t : Target E.fp) (maxW : Nat) : Prop where
  adj : 20 < g.nv → g.SymmAdj
  bfs : g.nv ≤ 20 ∨ g.ne = 0 → BfsAssert g t
  sturdy : 20 < g.nv → Sturdy g maxW
  vtx : 20 < g.nv → g.sumVtx < NULL32

theorem MLAssert.coarse {g : Graph} {t : Target E.fp} {maxW : Nat} (h : MLAssert g t maxW) (hg : g.Good) (hn : 20 < g.nv)
    {a : Aggregation} (ha : AggFrom g maxW a) {cg : Graph} (hc : Contracted g a cg) : MLAssert cg t maxW := by
  obtain ⟨f, -, hb, hr⟩ := ha
  refine ⟨fun _ => hc.symmAdj hg.wf (h.adj hn), fun _ hu => ?_, fun _ => (h.sturdy hn).coarse (h.vtx hn) hb hr hc, fun _ => ?_⟩
  · rw [hc.unitV] at hu; cases hu
  · rw [hc.sumVtx hb.ok]; exact h.vtx hn

theorem recurseD_close {H : Prop} (s : Scheme) {t : Target E.fp} (ht : t.Two) (hpf : H → PosFrac t 2) (maxW : Nat) :
    ∀ fuel level parent (g : Graph) r, g.Good → (H → MLAssert g t maxW) → (level = 0 ∨ parent.isSome) →
      (parent = none ∨ g.unitVtx = false) →
      Close H ((makeMultilevelD E s).recurseD maxW
          (compositeStop [vertexNumberStop 20, edgeRatioStop E.fp (E.fp.lit 95 2)]) t fuel level parent g r)
        ((makeMultilevel E s).recurse maxW
          (compositeStop [vertexNumberStop 20, edgeRatioStop E.fp (E.fp.lit 95 2)]) t fuel level parent g r) := by
  intro fuel
  induction fuel with
  | zero => intro level parent g r _ _ _ _; exact Close.refl _
  | succ fuel ih =>
    intro level parent g r hg hA hl hpar
    unfold Multilevel.recurseD Multilevel.recurse
    rw [mlStop_eq _ _ _ hl, ok_bind, ok_bind]
    split
    · rename_i hstop
      refine (initD_close hg ht (fun h => ?_) hpf 8 r).bind fun _ _ => Close.refl _
      rcases hpar with rfl | hu
      · exact (hA h).bfs (by simpa [mlStops] using hstop)
      · intro hu'
        rw [hu] at hu'; cases hu'
    · rename_i hstop
      have hnv : 20 < g.nv := by
        by_contra hn
        exact hstop (by simp [mlStops, show g.nv ≤ 20 by omega])
      refine Close.bind (Or.inl (aggregateD_eq E s maxW g r)) fun o ho => ?_
      have ha := (aggregate_spec E s hg.wf hg.noLoop maxW r).elim_ok ho
      obtain ⟨f, hf1, hf2, hf3⟩ := ha
      have hok := hf2.ok
      have hnc : o.1.nc < NULL32 := lt_of_le_of_lt hf2.size.1 hg.wf.nv_lt
      have hsm := hg.small
      have hse := hsm.edge
      obtain ⟨a, r'⟩ := o
      simp only at hok hnc hf2 ⊢
      refine (makeD_close hg (fun h => (hA h).adj hnv) hok hnc).bind fun cg hcg => ?_
      have hc := (CoarseGraph.make_spec hg.wf (by omega) hsm.vtx hok hnc).elim_ok hcg
      have hcg := hc.con.good hok hg
      refine (ih (level + 1) (some g) cg.coarse r' hcg (fun h => (hA h).coarse hg hnv ⟨f, hf1, hf2, hf3⟩ hc.con)
        (Or.inr rfl) (Or.inr hc.con.unitV)).bind fun i hi => ?_
      have hi' := (Multilevel.recurse_spec (B := True)
        (makeMultilevel_contract s ht cg.coarse.totVtx (fun _ => trivial)) maxW (fun _ => trivial) fuel (level + 1)
        (some g) cg.coarse r' hcg ⟨Or.inl trivial, rfl⟩ (Or.inr rfl) (fun p hp => by cases hp; exact hc.con.ne_le)
        (Or.inr trivial)).elim_ok hi
      obtain ⟨i1, i2, -⟩ := hi'
      obtain ⟨info, r''⟩ := i
      simp only at i1 i2 ⊢
      refine Close.bind (Or.inl (projectD_eq (by rw [i1.pw_len]; omega) _)) fun fine hfine => ?_
      have hp := (project_spec hg.wf hg.symm hsm hok hc (by omega) i1 i2).elim_ok hfine
      refine Close.bind ?_ fun _ _ => Close.refl _
      exact fmRefineD_close hg ht (fun h => ⟨hpf h, fun v hv => ((hA h).sturdy hnv).deg hg.wf hv⟩) 8 150 hp.exact hp.conn

theorem executeD_close {H : Prop} (s : Scheme) {t : Target E.fp} (ht : t.Two) (hpf : H → PosFrac t 2) {g : Graph}
    (hg : g.Good) (hA : H → ∀ maxW, E.fp.cast (E.fp.div (E.fp.mul (E.fp.lit 15 1) (E.fp.ofNat g.totVtx))
      (E.fp.ofNat 20)) = ok maxW → MLAssert g t maxW) (r : E.rng.S) :
    Close H ((makeMultilevelD E s).executeD t g r) ((makeMultilevel E s).execute t g r) := by
  unfold Multilevel.executeD Multilevel.execute
  refine Close.bind_ok fun ratio hratio => Close.bind_ok fun maxW hmax => ?_
  have : ratio = edgeRatioStop E.fp (E.fp.lit 95 2) := by
    unfold edgeRatioMake at hratio
    split at hratio
    · cases hratio
    · exact (Res.ok.inj hratio).symm
  subst this
  exact (recurseD_close s ht hpf maxW _ _ _ g r hg (fun h => hA h maxW hmax) (Or.inl rfl) (Or.inl rfl)).bind fun _ _ => Close.refl _

end Poros
