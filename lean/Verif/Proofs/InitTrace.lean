import Verif.SpecInit
import Verif.Proofs.RandomBisect
namespace Poros
open Finset Res

variable {E : Env}

theorem put_eq (lab : Nat → Nat) (v q : Nat) : put lab v q = relabel lab v q := rfl

theorem bfsKey_eq (g : Graph) (seed : Nat) (lab : Nat → Nat) (u : Nat) : bfsKey g seed lab u = (tie g seed lab u : Int) := by
  unfold bfsKey tie linkWeight
  split <;> push_cast <;> rfl

/-- The queue holds exactly the vertices not looked at. -/
def Unseen (g : Graph) (q : VQueue E.pq) (seen : List Nat) : Prop :=
  ∀ u, (E.pq.key q.q u).isSome = decide (u < g.nv ∧ u ∉ seen)

theorem Unseen.empty {g : Graph} {q : VQueue E.pq} {seen : List Nat} (h : Unseen g q seen) :
    q.size = 0 ↔ ∀ v, v < g.nv → v ∈ seen := by
  unfold VQueue.size
  rw [List.length_eq_zero_iff, List.eq_nil_iff_forall_not_mem]
  constructor
  · intro hn v hv
    by_contra hs
    have := h v
    exact hn v ((E.pq.mem_elems _ _).mpr (by rw [this]; simp [hv, hs]))
  · intro hall v hm
    rw [E.pq.mem_elems, h v] at hm
    simp only [decide_eq_true_eq] at hm
    exact hm.2 (hall v hm.1)

theorem grow_trace {g : Graph} (hg : g.Plain) {t : Target E.fp} (ht : t.Two) {seed : Nat} :
    ∀ fuel (s : VQueue E.pq × Partitioning) seen, BfsInv g (nth t.mx 0) seed s → Unseen g s.1 seen →
    Grown g t seed s.2.lab seen → s.1.size < fuel →
    Sat (bfsPriorityMove g (!g.unitVtx) (!g.unitEdge) t fuel s) (fun s' => BfsInv g (nth t.mx 0) seed s' ∧
      ∃ seen', Unseen g s'.1 seen' ∧ Grown g t seed s'.2.lab seen' ∧ GrownOut g t s'.2.lab seen') := by
  intro fuel
  induction fuel with
  | zero => intro s seen _ _ _ h; omega
  | succ fuel ih =>
    intro s seen h hu hgr hf
    unfold bfsPriorityMove
    split
    · rename_i hs
      rw [h.part.rd_pw (by omega), ok_bind, rd_of_lt (by rw [ht.tw]; omega), ok_bind]
      split
      · rename_i hlt
        refine (bfsStep_full hg ht h hs).bind fun s' hs' => ?_
        obtain ⟨h1, h2, v, hv, hl, hk, hm1, hm2, hin, hbest⟩ := hs'
        have hvs : v ∉ seen := by
          rw [hu v] at hin; simp only [decide_eq_true_eq] at hin; exact hin.2
        have hnext : NextGrown g seed s.2.lab seen v := by
          refine ⟨hv, hvs, fun u hun hus => ?_⟩
          have := hbest u (by rw [hu u]; simp [hun, hus])
          rw [bfsKey_eq, bfsKey_eq] at this
          omega
        have hu' : Unseen g s'.1 (v :: seen) := by
          intro u
          rw [hk u, hu u]
          by_cases e : u = v <;> simp [e]
        refine ih s' (v :: seen) h1 hu' ?_ (by omega)
        by_cases hfit : g.vw v + partWeight g s.2.lab 0 ≤ nth t.mx 0
        · rw [hm1 hfit, ← put_eq]
          exact .take hgr hlt hnext (by omega)
        · rw [hm2 hfit]
          exact .skip hgr hlt hnext (by omega)
      · rename_i hnl
        exact ⟨h, seen, hu, hgr, Or.inl (by omega)⟩
    · exact ⟨h, seen, hu, hgr, Or.inr (hu.empty.mp (by omega))⟩

theorem bfsGrow_trace {g : Graph} (hg : g.Plain) {t : Target E.fp} (ht : t.Two) {seed : Nat} (hseed : seed < g.nv) :
    Sat (bfsGrow t g seed) (fun s => BfsInv g (nth t.mx 0) seed s ∧
      ∃ seen, Unseen g s.1 seen ∧ Grown g t seed s.2.lab seen ∧ GrownOut g t s.2.lab seen) := by
  obtain ⟨q0, p0, h1, h2, h3, h4⟩ := bfsGrow_start hg (t := t) ht hseed
  rw [h1]
  refine grow_trace hg ht _ _ [] h2 ?_ (.start fun v hv => (h4 v).2 hv) h3
  intro u
  rw [(h4 u).1]
  by_cases e : u = seed
  · subst e; simp [hseed]
  · by_cases h : u < g.nv <;> simp [e, h]

/-- The test of the fallback. -/
def lighter {fp : FP} (g : Graph) (t : Target fp) (lab : Nat → Nat) : Bool :=
  fp.lt (fp.div (fp.ofNat (1 + partWeight g lab 0)) (fp.ofNat (nth t.mx 0)))
    (fp.div (fp.ofNat (partWeight g lab 1)) (fp.ofNat (nth t.mx 1)))

theorem bfsLighter_eq {t : Target E.fp} (ht : t.Two) {g : Graph} (hg : g.Plain) {p : Partitioning} (hp : Weighed g 2 p)
    (hlt : partWeight g p.lab 0 < g.sumVtx) : bfsLighter t (uadd 1 (partWeight g p.lab 0)) p = ok (lighter g t p.lab) := by
  have := hg.small.vtx
  unfold bfsLighter lighter
  rw [rd_of_lt (by rw [ht.mx]; omega), ok_bind, hp.rd_pw (by omega), ok_bind, rd_of_lt (by rw [ht.mx]; omega), ok_bind,
    uadd_eq (by omega)]

/-- What the fallback does with the vertices `remaining`. -/
def Fallback (g : Graph) (t : Target E.fp) (remaining : List Nat) (p p' : Partitioning) : Prop :=
  Weighed g 2 p' ∧ if lighter g t p.lab = true ∧ remaining ≠ [] then ∃ v, v ∈ remaining ∧ p'.lab = relabel p.lab v 0
    else p' = p

theorem unitBalance_trace {g : Graph} (hg : g.Plain) {t : Target E.fp} (ht : t.Two) {p : Partitioning}
    (hp : Weighed g 2 p) (hlt : partWeight g p.lab 0 < g.sumVtx) : ∀ remaining : List Nat,
    (∀ v ∈ remaining, v < g.nv ∧ p.lab v = 1) → Sat (bfsUnitBalance g t remaining p) (Fallback g t remaining p) := by
  intro remaining
  induction remaining with
  | nil => intro _; exact ⟨hp, by simp⟩
  | cons v vs ih =>
    intro hr
    obtain ⟨hv, hl⟩ := hr v (by simp)
    unfold bfsUnitBalance
    rw [hp.rd_pw (by omega), ok_bind, bfsLighter_eq ht hg hp hlt, ok_bind]
    split
    · rename_i hb
      refine (hp.move hg.wf hg.small (by omega) hv (by omega) (by omega)).mono fun p' h => ?_
      exact ⟨h.1, by rw [if_pos ⟨hb, by simp⟩]; exact ⟨v, by simp, h.2.1⟩⟩
    · rename_i hb
      refine (ih fun u hu => hr u (by simp [hu])).mono fun p' h => ⟨h.1, ?_⟩
      have h2 := h.2
      rw [if_neg (fun h => hb h.1)] at h2
      rw [if_neg (fun h => hb h.1)]
      exact h2

theorem vwgtOf_true_unit {g : Graph} (hg : g.WF) (hu : g.unitVtx = true) (v : Nat) :
    Post True (g.vwgtOf true v) (fun w => w = 1) := by
  unfold Graph.vwgtOf
  rw [if_pos rfl, Post_rd]
  exact ⟨fun h => hg.vwgt_unit hu v h, fun _ => trivial⟩

theorem weightLoop_trace {g : Graph} (hg : g.Plain) (hu : g.unitVtx = true) {t : Target E.fp} (ht : t.Two)
    {p : Partitioning} (hp : Weighed g 2 p) (hlt : partWeight g p.lab 0 < g.sumVtx) {remaining : List Nat}
    (hr : ∀ v ∈ remaining, v < g.nv ∧ p.lab v = 1) :
    ∀ fuel (q : VQueue E.pq), (∀ u k, E.pq.key q.q u = some k → u ∈ remaining) → q.size < fuel →
    Post True (bfsWeightLoop g t fuel q p) (fun p' => Weighed g 2 p' ∧ if lighter g t p.lab = true ∧ 0 < q.size then
      ∃ v, v ∈ remaining ∧ p'.lab = relabel p.lab v 0 else p' = p) := by
  intro fuel
  induction fuel with
  | zero => intro q _ h; omega
  | succ fuel ih =>
    intro q hq hf
    unfold bfsWeightLoop
    split
    · rename_i hs
      obtain ⟨m, hm, -⟩ := VQueue.top_of_size hs
      have hmem := hq _ _ hm
      obtain ⟨hv, hl⟩ := hr _ hmem
      rw [VQueue.pop_of_size hs, ok_bind]
      simp only
      refine (vwgtOf_true_unit hg.wf hu _).bind fun w hw => ?_
      rw [hw, hp.rd_pw (by omega), ok_bind, bfsLighter_eq ht hg hp hlt, ok_bind]
      split
      · rename_i hb
        refine (Post.of_sat (hp.move hg.wf hg.small (by omega) hv (by omega) (by omega))).mono fun p' h => ?_
        exact ⟨h.1, by rw [if_pos ⟨hb, hs⟩]; exact ⟨_, hmem, h.2.1⟩⟩
      · rename_i hb
        refine (ih { q with q := E.pq.del q.q (E.pq.top q.q) } (fun u k hk => ?_) ?_).mono fun p' h => ⟨h.1, ?_⟩
        · simp only [E.pq.key_del] at hk
          split at hk
          · cases hk
          · exact hq u k hk
        · have := VQueue.size_del (q := q) (q' := { q with q := E.pq.del q.q (E.pq.top q.q) }) (n := g.nv)
            (v := E.pq.top q.q) (fun u k hk => (hr u (hq u k hk)).1) (by rw [hm]; rfl) (fun u => by
              rw [E.pq.key_del]
              by_cases hu : u = E.pq.top q.q <;> simp [hu])
          omega
        · have h2 := h.2
          rw [if_neg (fun h => hb h.1)] at h2
          rw [if_neg (fun h => hb h.1)]
          exact h2
    · rename_i hs
      exact ⟨hp, by rw [if_neg (fun h => hs h.2)]⟩

theorem weightBalance_trace {g : Graph} (hg : g.Plain) (hu : g.unitVtx = true) {t : Target E.fp} (ht : t.Two)
    {p : Partitioning} (hp : Weighed g 2 p) (hlt : partWeight g p.lab 0 < g.sumVtx) {remaining : List Nat}
    (hr : ∀ v ∈ remaining, v < g.nv ∧ p.lab v = 1) (hnd : remaining.Nodup) :
    Post True (bfsWeightBalance g t remaining p) (Fallback g t remaining p) := by
  unfold bfsWeightBalance
  refine (Post_foldlM (fun pre (q : VQueue E.pq) => q.cap = g.nv ∧
    ∀ u, (E.pq.key q.q u).isSome = decide (u ∈ pre)) ?_ ?_).bind fun q hq => ?_
  · exact ⟨rfl, fun u => by simp [VQueue.new, E.pq.key_empty]⟩
  · intro pre v post q hl ⟨h1, h2⟩
    have hv := (hr v (by rw [hl]; simp)).1
    have hnew : v ∉ pre := by
      rw [hl] at hnd
      have := List.disjoint_of_nodup_append hnd
      exact fun hm => this hm (by simp)
    refine (Post_vwgtOf_true (fun _ => trivial) hv).bind fun w _ => ?_
    rw [VQueue.add_eq (by omega)
      (by have := h2 v; simp [hnew] at this; exact this)]
    refine ⟨h1, fun u => ?_⟩
    show (E.pq.key (E.pq.put _ _ _) u).isSome = _
    rw [E.pq.key_put]
    by_cases hu : u = v
    · simp [hu]
    · simp [hu, h2 u]
  · obtain ⟨h1, h2⟩ := hq
    have hmem : ∀ u k, E.pq.key q.q u = some k → u ∈ remaining := by
      intro u k hk
      have := h2 u
      rw [hk] at this
      simpa using this.symm
    have hsz : q.size = remaining.length := by
      unfold VQueue.size
      refine List.Perm.length_eq ((List.perm_ext_iff_of_nodup (E.pq.nodup_elems _) hnd).mpr fun u => ?_)
      rw [E.pq.mem_elems, h2 u]; simp
    refine (weightLoop_trace hg hu ht hp hlt hr _ _ hmem (by omega)).mono fun p' h => ⟨h.1, ?_⟩
    have h2 := h.2
    simp only [hsz, List.length_pos_iff] at h2
    exact h2

theorem recalcCut_asg (g : Graph) (p : Partitioning) : Post True (p.recalcCut g) (fun p' => p'.asg = p.asg) := by
  unfold Partitioning.recalcCut
  cases sumCutEdgeWeight g (!g.unitEdge) p.asg <;> first | exact rfl | trivial

theorem bfsFrom_trace {g : Graph} (hg : g.Plain) {t : Target E.fp} (ht : t.Two) {seed : Nat} (hseed : seed < g.nv) :
    Post True (bfsFrom t g seed) (fun p => GrownTo g t seed p.lab) := by
  unfold bfsFrom
  refine (Post.of_sat (bfsGrow_trace hg ht hseed)).bind fun s hs => ?_
  obtain ⟨hi, seen, hu, hgr, hout⟩ := hs
  have hmem : ∀ v, v ∈ s.1.remaining ↔ v < g.nv ∧ v ∉ seen := by
    intro v
    unfold VQueue.remaining
    rw [E.pq.mem_elems, hu v]
    simp
  have hr : ∀ v ∈ s.1.remaining, v < g.nv ∧ s.2.lab v = 1 := by
    intro v hv
    unfold VQueue.remaining at hv
    rw [E.pq.mem_elems] at hv
    obtain ⟨k, hk⟩ := Option.isSome_iff_exists.mp hv
    exact ⟨(hi.keys v k hk).1, (hi.keys v k hk).2.1⟩
  have hnil : s.1.remaining ≠ [] ↔ ∃ v, v < g.nv ∧ v ∉ seen := by
    constructor
    · intro h
      obtain ⟨v, hv⟩ := List.exists_mem_of_ne_nil _ h
      exact ⟨v, (hmem v).mp hv⟩
    · rintro ⟨v, hv⟩
      exact List.ne_nil_of_mem ((hmem v).mpr hv)
  have key : Post True (bfsBalance t g s.1.remaining s.2) (fun p => Weighed g 2 p ∧
      ((OneMore g t s.2.lab seen ∧ ∃ v, v < g.nv ∧ v ∉ seen ∧ p.lab = put s.2.lab v 0) ∨
        (¬ OneMore g t s.2.lab seen ∧ p.lab = s.2.lab))) := by
    unfold bfsBalance
    rw [hi.part.rd_pw (by omega), ok_bind, rd_of_lt (by rw [ht.mx]; omega), ok_bind]
    split
    · rename_i hgt
      have hlt : partWeight g s.2.lab 0 < g.sumVtx := by
        have := partWeight_two hi.part.complete; omega
      have fin : ∀ p, Fallback g t s.1.remaining s.2 p → Weighed g 2 p ∧
          ((OneMore g t s.2.lab seen ∧ ∃ v, v < g.nv ∧ v ∉ seen ∧ p.lab = put s.2.lab v 0) ∨
            (¬ OneMore g t s.2.lab seen ∧ p.lab = s.2.lab)) := by
        rintro p ⟨h1, h2⟩
        refine ⟨h1, ?_⟩
        by_cases hc : lighter g t s.2.lab = true ∧ s.1.remaining ≠ []
        · rw [if_pos hc] at h2
          obtain ⟨v, hv, he⟩ := h2
          exact Or.inl ⟨⟨hgt, hnil.mp hc.2, hc.1⟩, v, ((hmem v).mp hv).1, ((hmem v).mp hv).2, he⟩
        · rw [if_neg hc] at h2
          exact Or.inr ⟨fun ho => hc ⟨ho.2.2, hnil.mpr ho.2.1⟩, by rw [h2]⟩
      split
      · rename_i hun
        exact (weightBalance_trace hg hun ht hi.part hlt hr (E.pq.nodup_elems _)).mono fun p hp => fin p hp
      · exact (Post.of_sat (unitBalance_trace hg ht hi.part hlt _ hr)).mono fun p hp => fin p hp
    · rename_i hgt
      exact ⟨hi.part, Or.inr ⟨fun ho => hgt ho.1, rfl⟩⟩
  refine key.bind fun p hp => ?_
  refine (recalcCut_asg g p).mono fun p' hp' => ?_
  have hlab : p'.lab = p.lab := by unfold Partitioning.lab; rw [hp']
  exact ⟨hseed, s.2.lab, seen, hgr, hout, by rw [hlab]; exact hp.2⟩

/-! ### random bisection -/

theorem fillLeft_trace {g : Graph} (hg : g.Good) {t : Target E.fp} (ht : t.Two) :
    ∀ (order : List Nat) (p : Partitioning), (∀ v ∈ order, v < g.nv ∧ p.lab v = 1) → order.Nodup → LeftOK g t p →
    Sat (fillLeft g (!g.unitVtx) t order p) (fun p' => LeftOK g t p' ∧ Filled g t order p.lab p'.lab) := by
  intro order
  have hsv := hg.small.vtx
  induction order with
  | nil => intro p _ _ h; exact ⟨h, .done⟩
  | cons v vs ih =>
    intro p ho hnd h
    obtain ⟨hv, hl⟩ := ho v (by simp)
    unfold fillLeft
    rw [h.1.rd_pw (by omega), ok_bind, Graph.vwgtOf_eq hg.wf hv, ok_bind, rd_of_lt (by rw [ht.mx]; omega), ok_bind]
    have hroom := partWeight_room (g := g) p.lab (q := 0) hv (by omega)
    rw [uadd_eq (by omega)]
    split
    · rename_i hgt
      exact ⟨h, .full hgt⟩
    · rename_i hle
      rw [h.1.calcMaxImbalance ht, ok_bind]
      refine (h.1.move hg.wf hg.small (by omega) hv (by omega) (by omega)).bind fun p' hp => ?_
      obtain ⟨hp1, hp2, -⟩ := hp
      have hpw := partWeight_relabel (q := 0) p.lab hv 0
      rw [if_neg (by omega), if_pos rfl, ← hp2] at hpw
      rw [hp1.calcMaxImbalance ht, ok_bind]
      split
      · rename_i hw
        have hl0 : p'.lab v = 0 := by rw [hp2]; simp [relabel]
        refine (hp1.move hg.wf hg.small (by omega) hv (q := 1) (by omega) (by omega)).mono fun p'' hp'' => ?_
        have hback : p''.lab = p.lab := by
          rw [hp''.2.1, hp2]
          funext u
          unfold relabel
          by_cases e : u = v
          · rw [if_pos e, e, hl]
          · rw [if_neg e, if_neg e]
        refine ⟨⟨hp''.1, by rw [hback]; exact h.2⟩, ?_⟩
        rw [hback]
        exact .worse (by omega) (by rw [put_eq, ← hp2]; exact hw)
      · rename_i hw
        refine (ih p' (fun u hu => ?_) hnd.of_cons ⟨hp1, by omega⟩).mono fun p'' h'' => ⟨h''.1, ?_⟩
        · obtain ⟨h1, h2⟩ := ho u (by simp [hu])
          refine ⟨h1, ?_⟩
          have : u ≠ v := fun e => (List.nodup_cons.mp hnd).1 (e ▸ hu)
          rw [hp2]; unfold relabel; rw [if_neg this]; exact h2
        · refine .take (by omega) (by rw [put_eq, ← hp2]; simpa using hw) ?_
          rw [put_eq, ← hp2]
          exact h''.2

theorem weightPairs_all {g : Graph} (hg : g.WF) {p : Partitioning} (hp : p.asg.length = g.nv) :
    Sat (weightPairs g (!g.unitVtx) p) (fun s =>
      (∀ e, e ∈ s.1 ↔ e.1 < g.nv ∧ p.lab e.1 = 0 ∧ e.2 = g.vw e.1) ∧
      (∀ e, e ∈ s.2 ↔ e.1 < g.nv ∧ p.lab e.1 ≠ 0 ∧ e.2 = g.vw e.1)) := by
  unfold weightPairs
  refine Post_foldlM_range (fun m (s : List (Nat × Nat) × List (Nat × Nat)) =>
      (∀ e, e ∈ s.1 ↔ e.1 < m ∧ p.lab e.1 = 0 ∧ e.2 = g.vw e.1) ∧
      (∀ e, e ∈ s.2 ↔ e.1 < m ∧ p.lab e.1 ≠ 0 ∧ e.2 = g.vw e.1)) ?_ ?_
  · exact ⟨by simp, by simp⟩
  · intro v s hv ⟨h1, h2⟩
    rw [Graph.vwgtOf_eq hg hv, ok_bind, rd_of_lt (by omega), ok_bind]
    split
    · rename_i ha
      have ha : p.lab v = 0 := ha
      refine ⟨fun e => ?_, fun e => ?_⟩
      · rw [List.mem_append, h1 e, List.mem_singleton]
        constructor
        · rintro (⟨a, b, c⟩ | rfl)
          · exact ⟨by omega, b, c⟩
          · exact ⟨by simp, ha, rfl⟩
        · rintro ⟨a, b, c⟩
          by_cases hev : e.1 = v
          · right; rw [← hev, ← c]
          · left; exact ⟨by omega, b, c⟩
      · rw [h2 e]
        constructor
        · rintro ⟨a, b, c⟩; exact ⟨by omega, b, c⟩
        · rintro ⟨a, b, c⟩
          have : e.1 ≠ v := fun h => b (by rw [h]; exact ha)
          exact ⟨by omega, b, c⟩
    · rename_i ha
      have ha : p.lab v ≠ 0 := ha
      refine ⟨fun e => ?_, fun e => ?_⟩
      · rw [h1 e]
        constructor
        · rintro ⟨a, b, c⟩; exact ⟨by omega, b, c⟩
        · rintro ⟨a, b, c⟩
          have : e.1 ≠ v := fun h => ha (by rw [← h]; exact b)
          exact ⟨by omega, b, c⟩
      · rw [List.mem_cons, h2 e]
        constructor
        · rintro (rfl | ⟨a, b, c⟩)
          · exact ⟨by simp, ha, rfl⟩
          · exact ⟨by omega, b, c⟩
        · rintro ⟨a, b, c⟩
          by_cases hev : e.1 = v
          · left; rw [← hev, ← c]
          · right; exact ⟨by omega, b, c⟩

theorem sortPairs_sorted (l : List (Nat × Nat)) : (sortPairs E l).Pairwise (fun a b => a.2 ≤ b.2) := by
  unfold sortPairs
  rw [List.pairwise_map]
  refine (E.rng.sort_sorted (l.map Prod.snd)).imp_of_mem ?_
  intro a b ha hb h
  have hp := E.rng.sort_perm (l.map Prod.snd)
  have ha' : a < l.length := by simpa using hp.mem_iff.mp ha
  have hb' : b < l.length := by simpa using hp.mem_iff.mp hb
  rwa [nth_map ha', nth_map hb'] at h

theorem sorted_nth {l : List (Nat × Nat)} (h : l.Pairwise (fun a b => a.2 ≤ b.2)) :
    ∀ {i j : Nat}, i ≤ j → j < l.length → (nth l i).2 ≤ (nth l j).2 := by
  induction l with
  | nil => intro i j _ hj; simp at hj
  | cons x xs ih =>
    intro i j hij hj
    obtain ⟨h1, h2⟩ := List.pairwise_cons.mp h
    cases j with
    | zero =>
      have : i = 0 := by omega
      rw [this]
    | succ j =>
      have hj' : j < xs.length := by simpa using hj
      cases i with
      | zero => exact h1 _ (nth_mem hj')
      | succ i => exact ih h2 (by omega) hj'

theorem exists_nth_of_mem {α : Type} [Inhabited α] {l : List α} {x : α} (h : x ∈ l) : ∃ i, i < l.length ∧ nth l i = x := by
  induction l with
  | nil => cases h
  | cons y ys ih =>
    rcases List.mem_cons.mp h with rfl | h
    · exact ⟨0, by simp, rfl⟩
    · obtain ⟨i, h1, h2⟩ := ih h
      exact ⟨i + 1, by simpa using h1, h2⟩

theorem wrapSub_eq {a b : Nat} (ha : a < M32) (hb : b < M32) : ofI32 (toI32 a - toI32 b) = wrapSub a b := by
  rw [ofI32_sub]
  unfold wrapSub
  rw [Nat.mod_eq_of_lt ha, Nat.mod_eq_of_lt hb]
  show (a + (4294967296 - b)) % 4294967296 = _
  rw [show a + (4294967296 - b) = a + 4294967296 - b by omega]

theorem swap_trace {g : Graph} (hg : g.Good) {t : Target E.fp} {p : Partitioning}
    (h : LeftOK g t p) (hR : nth t.mx 1 < partWeight g p.lab 1) (hm0 : nth t.mx 0 < M32) :
    Post True (swapBalanceRight E g (nth t.mx 0) (nth t.mx 1) p) (fun p' => Weighed g 2 p' ∧
      Exchanged g t p.lab p'.lab) := by
  have hsv := hg.small.vtx
  have hp1 := partWeight_le (g := g) p.lab 1
  have hp0 := partWeight_le (g := g) p.lab 0
  unfold swapBalanceRight
  refine (Post.of_sat (weightPairs_all hg.wf h.1.asg_len)).bind fun s hs => ?_
  obtain ⟨s1, s2⟩ := hs
  simp only
  rw [h.1.rd_pw (by omega), ok_bind, h.1.rd_pw (by omega), ok_bind]
  have hsl := sortPairs_sorted (E := E) s.1
  have hsr := sortPairs_sorted (E := E) s.2
  have hpl : (sortPairs E s.1).Perm s.1 := sortPairs_perm s.1
  have hpr : (sortPairs E s.2).Perm s.2 := sortPairs_perm s.2
  generalize sortPairs E s.1 = left at *
  generalize sortPairs E s.2 = right at *
  have hne : right ≠ [] := by
    intro he
    have : partWeight g p.lab 1 = 0 := by
      unfold partWeight
      refine Finset.sum_eq_zero fun v hv => ?_
      rw [if_neg]
      intro hl
      have := hpr.mem_iff.mpr ((s2 (v, g.vw v)).mpr ⟨Finset.mem_range.mp hv, by simp [hl], rfl⟩)
      rw [he] at this
      cases this
    omega
  have hlen : 0 < right.length := List.length_pos_iff.mpr hne
  unfold lastPair
  rw [if_neg (by rw [List.length_append]; omega), rd_of_lt (by rw [List.length_append]; omega), ok_bind]
  have hlast : nth (left ++ right) ((left ++ right).length - 1) = nth right (right.length - 1) := by
    rw [nth_append_right (by rw [List.length_append]; omega)]
    congr 1
    rw [List.length_append]; omega
  rw [hlast]
  have hlmem : nth right (right.length - 1) ∈ s.2 := hpr.mem_iff.mp (nth_mem (by omega))
  have hmax : ∀ x ∈ right, x.2 ≤ (nth right (right.length - 1)).2 := by
    intro x hx
    obtain ⟨i, h1, h2⟩ := exists_nth_of_mem hx
    rw [← h2]
    exact sorted_nth hsr (by omega) (by omega)
  generalize nth right (right.length - 1) = last at *
  obtain ⟨l1, l2, l3⟩ := (s2 last).mp hlmem
  have hl1 : p.lab last.1 = 1 := by have := h.1.complete last.1 l1; omega
  have hvl := Graph.vw_le (g := g) l1
  have hheavy : ∀ u, u < g.nv → p.lab u = 1 → g.vw u ≤ g.vw last.1 := by
    intro u hu hl
    have := hmax (u, g.vw u) (hpr.mem_iff.mpr ((s2 (u, g.vw u)).mpr ⟨hu, by simp [hl], rfl⟩))
    rw [l3] at this
    exact this
  rw [usub_eq h.2 hm0, usub_eq (by omega) (by omega)]
  unfold isub
  split
  · rw [ok_bind]
    split
    · rw [ok_bind]
      have hlo0 := wrapSub_eq (a := last.2) (b := nth t.mx 0 - partWeight g p.lab 0) (by omega) (by omega)
      have hhi0 := wrapSub_eq (a := last.2) (b := partWeight g p.lab 1 - nth t.mx 1) (by omega) (by omega)
      generalize hzlo : toI32 last.2 - toI32 (nth t.mx 0 - partWeight g p.lab 0) = zlo at *
      generalize hzhi : toI32 last.2 - toI32 (partWeight g p.lab 1 - nth t.mx 1) = zhi at *
      rw [l3] at hlo0 hhi0
      have hfit : ∀ u, u < g.nv → p.lab u = 0 → ofI32 zlo ≤ g.vw u → g.vw u < ofI32 zhi →
          lowerBound left zlo < lowerBound left zhi ∧ (nth left (lowerBound left zlo)).2 ≤ g.vw u := by
        intro u hu hl h1 h2
        obtain ⟨i, hi, he⟩ := exists_nth_of_mem (hpl.mem_iff.mpr ((s1 (u, g.vw u)).mpr ⟨hu, hl, rfl⟩))
        have hge : lowerBound left zlo ≤ i := by
          by_contra hc
          have := lowerBound_lt (l := left) (z := zlo) (i := i) (by omega)
          rw [he] at this
          simp only at this
          omega
        have hlt : i < lowerBound left zhi := by
          by_contra hc
          have a := lowerBound_ge (l := left) (z := zhi) (by omega)
          have b := sorted_nth hsl (i := lowerBound left zhi) (j := i) (by omega) hi
          rw [he] at b
          simp only at b
          omega
        refine ⟨by omega, ?_⟩
        have b := sorted_nth hsl hge hi
        rw [he] at b
        exact b
      split
      · rename_i hlt
        have hub := lowerBound_le left zhi
        have hlol : lowerBound left zlo < left.length := by omega
        have hge := lowerBound_ge (l := left) hlol
        have hlt' := lowerBound_lt hlt
        refine (Post.of_sat (h.1.move hg.wf hg.small (by omega) l1 (q := 0) (by omega) (by omega))).bind
          fun p' hp' => ?_
        obtain ⟨w1, w2, -⟩ := hp'
        rw [rd_of_lt (by rw [List.length_append]; omega), ok_bind, nth_append_left hlol]
        obtain ⟨m1, m2, m3⟩ := (s1 (nth left (lowerBound left zlo))).mp (hpl.mem_iff.mp (nth_mem hlol))
        have hne' : (nth left (lowerBound left zlo)).1 ≠ last.1 := by intro e; rw [e] at m2; omega
        have hl0 : p'.lab (nth left (lowerBound left zlo)).1 = 0 := by
          rw [w2]; unfold relabel; rw [if_neg hne']; exact m2
        refine (Post.of_sat (w1.move hg.wf hg.small (by omega) m1 (q := 1) (by omega) (by omega))).mono
          fun p'' hp'' => ?_
        refine ⟨hp''.1, last.1, l1, hl1, hheavy, Or.inl ⟨(nth left (lowerBound left zlo)).1, ?_, ?_, ?_⟩⟩
        · refine ⟨m1, m2, ?_, ?_⟩
          · rw [← hlo0, ← m3]; exact hge
          · rw [← hhi0, ← m3]; exact hlt'
        · rintro x ⟨x1, x2, x3, x4⟩
          rw [← m3]
          exact (hfit x x1 x2 (by rw [hlo0]; exact x3) (by rw [hhi0]; exact x4)).2
        · rw [hp''.2.1, w2]; rfl
      · rename_i hnlt
        refine ⟨h.1, last.1, l1, hl1, hheavy, Or.inr ⟨?_, rfl⟩⟩
        rintro x ⟨x1, x2, x3, x4⟩
        exact hnlt (hfit x x1 x2 (by rw [hlo0]; exact x3) (by rw [hhi0]; exact x4)).1
    · trivial
  · trivial

theorem randomBisect_trace {g : Graph} (hg : g.Good) {t : Target E.fp} (ht : t.Two)
    (hm0 : nth t.mx 0 < M32) (r : E.rng.S) :
    Post True (randomBisect t g r) (fun o => o.2 = (E.rng.perm r g.nv).2 ∧
      FilledTo g t (E.rng.perm r g.nv).1 o.1.lab) := by
  unfold randomBisect
  refine (Post.of_sat (Weighed.assignAll hg.wf hg.small (by omega) (q := 1) (by omega))).bind fun p hp => ?_
  simp only [randomOrder]
  have hperm := E.rng.perm_perm r g.nv
  refine (Post.of_sat (fillLeft_trace hg ht _ p (fun v hv => ?_) ?_ ⟨hp.1, ?_⟩)).bind fun p' hp' => ?_
  · have := List.mem_range.mp (hperm.mem_iff.mp hv)
    exact ⟨this, hp.2 v this⟩
  · exact hperm.nodup_iff.mpr List.nodup_range
  · rw [partWeight_all hp.2 (by omega)]; omega
  · obtain ⟨hp', hfill⟩ := hp'
    have key : Post True (randBalance t g p') (fun p2 => Weighed g 2 p2 ∧
        ((nth t.mx 1 < partWeight g p'.lab 1 ∧ Exchanged g t p'.lab p2.lab) ∨
          (partWeight g p'.lab 1 ≤ nth t.mx 1 ∧ p2.lab = p'.lab))) := by
      unfold randBalance
      rw [hp'.1.rd_pw (by omega), ok_bind, rd_of_lt (by rw [ht.mx]; omega), ok_bind]
      split
      · rename_i hgt
        rw [rd_of_lt (by rw [ht.mx]; omega), ok_bind]
        exact (swap_trace hg hp' hgt hm0).mono fun _ h => ⟨h.1, Or.inl ⟨hgt, h.2⟩⟩
      · rename_i hgt
        exact ⟨hp'.1, Or.inr ⟨by omega, rfl⟩⟩
    refine key.bind fun p2 h2 => ?_
    refine (Post.of_sat (h2.1.recalcCut hg.wf hg.symm hg.small)).bind fun p3 h3 => ?_
    have : p3.lab = p2.lab := by unfold Partitioning.lab; rw [h3.2]
    refine ⟨rfl, p.lab, p'.lab, hp.2, hfill, ?_⟩
    show (_ ∨ _ ∧ p3.lab = _)
    rw [this]
    exact h2.2

end Poros
