import Verif.Model.Bisectors
import Verif.Proofs.FMPass
/-
Partitionings with exact weights but any cut, and breadth-first bisection.
-/
namespace Poros
open Finset Res

variable {E : Env}

/-! ### partitionings with exact weights -/

/-- A complete partitioning with true weights; nothing is said about the cut. -/
def Weighed (g : Graph) (k : Nat) (p : Partitioning) : Prop := IsExact g k (p.setCut (cutWeight g p.lab))

theorem Weighed.asg_len {g : Graph} {k : Nat} {p : Partitioning} (h : Weighed g k p) : p.asg.length = g.nv :=
  (show IsExact g k (p.setCut _) from h).asg_len
theorem Weighed.pw_len {g : Graph} {k : Nat} {p : Partitioning} (h : Weighed g k p) : p.pw.length = k :=
  (show IsExact g k (p.setCut _) from h).pw_len
theorem Weighed.complete {g : Graph} {k : Nat} {p : Partitioning} (h : Weighed g k p) :
    ∀ v, v < g.nv → p.lab v < k :=
  (show IsExact g k (p.setCut _) from h).complete
theorem Weighed.weights {g : Graph} {k : Nat} {p : Partitioning} (h : Weighed g k p) :
    ∀ q, q < k → nth p.pw q = partWeight g p.lab q :=
  (show IsExact g k (p.setCut _) from h).weights

theorem Weighed.rd_pw {g : Graph} {k : Nat} {p : Partitioning} (h : Weighed g k p) {q : Nat} (hq : q < k) :
    rd p.pw q = ok (partWeight g p.lab q) := by
  rw [rd_of_lt (by rw [h.pw_len]; exact hq), h.weights q hq]

theorem IsExact.weighed {g : Graph} {k : Nat} {p : Partitioning} (h : IsExact g k p) : Weighed g k p :=
  ⟨h.asg_len, h.pw_len, h.complete, h.weights, rfl⟩

theorem Weighed.tracks {g : Graph} {k : Nat} (hk : k ≤ NULL32) {p : Partitioning} (hm : g.Small)
    (h : Weighed g k p) : Tracks g k (fun v => some (p.lab v)) p :=
  ((IsExact.tracks hk hm h).setCut p.cut : Tracks g k (fun v => some (p.lab v)) _)

theorem Tracks.weighed {g : Graph} {k : Nat} {p : Partitioning} {lab : Nat → Nat} (hm : g.Small)
    (h : Tracks g k (fun v => some (lab v)) p) : Weighed g k p := by
  have hlab : ∀ v, v < g.nv → p.lab v = lab v := fun v hv => decodeLab_some (h.asg v hv)
  exact (h.setCut (cutWeight g p.lab)).exact hm (cutWeight_congr hlab)

theorem move_asg (g : Graph) (p : Partitioning) (v q : Nat) :
    May (p.move g v q) (fun p' => p'.asg = p.asg.set v q ∧ p'.cut = p.cut) := by
  unfold Partitioning.move
  rw [may_iff]
  intro a ha
  revert ha
  cases g.vwgtOf (!g.unitVtx) v <;> simp
  cases rd p.asg v <;> simp
  rename_i w c
  cases rd p.pw c <;> simp
  rename_i o1
  cases wr p.pw c (usub o1 w) <;> simp
  rename_i pw1
  cases rd pw1 q <;> simp
  rename_i o2
  cases wr pw1 q (uadd o2 w) <;> simp
  unfold wr
  split <;> simp
  rintro rfl
  simp

/-- The labels after putting `v` into part `q`. -/
def relabel (lab : Nat → Nat) (v q : Nat) : Nat → Nat := fun u => if u = v then q else lab u

theorem lab_of_set {p p' : Partitioning} {v q : Nat} (hv : v < p.asg.length) (h : p'.asg = p.asg.set v q) :
    p'.lab = relabel p.lab v q := by
  funext u
  unfold Partitioning.lab relabel
  rw [h, nth_set hv]

theorem partWeight_relabel {g : Graph} (lab : Nat → Nat) {v q : Nat} (hv : v < g.nv) (r : Nat) :
    partWeight g (relabel lab v q) r + (if lab v = r then g.vw v else 0) =
      partWeight g lab r + (if q = r then g.vw v else 0) := by
  have := partWeight_update lab (relabel lab v q) hv (fun u _ hne => by simp [relabel, hne]) r
  simpa [relabel] using this

theorem Weighed.move {g : Graph} (hg : g.WF) (hm : g.Small) {k : Nat} (hk : k ≤ NULL32) {p : Partitioning}
    (h : Weighed g k p) {v q : Nat} (hv : v < g.nv) (hq : q < k) (hne : p.lab v ≠ q) :
    Sat (p.move g v q) (fun p' => Weighed g k p' ∧ p'.lab = relabel p.lab v q ∧ p'.cut = p.cut) := by
  have ht := (h.tracks hk hm).move hg hk hv hq (by simp) (by simpa using hne)
  refine (ht.and_may (move_asg g p v q)).mono fun p' hp => ?_
  obtain ⟨h1, h2, h3⟩ := hp
  refine ⟨?_, lab_of_set (by rw [h.asg_len]; exact hv) h2, h3⟩
  refine Tracks.weighed (lab := relabel p.lab v q) hm ?_
  have e : (fun u => if u = v then some q else some (p.lab u)) = fun u => some (relabel p.lab v q u) := by
    funext u; unfold relabel; split <;> rfl
  rw [← e]; exact h1

theorem Weighed.recalcCut {g : Graph} (hg : g.WF) (hs : g.Symm) (hm : g.Small) {k : Nat} {p : Partitioning}
    (h : Weighed g k p) : Sat (p.recalcCut g) (fun p' => IsExact g k p' ∧ p'.asg = p.asg) := by
  have hse := hm.edge
  unfold Partitioning.recalcCut
  rw [sumCut_exact hg hs (by omega) h.asg_len, ok_bind]
  exact ⟨h, rfl⟩

theorem Weighed.assignAll {g : Graph} (hg : g.WF) (hm : g.Small) {k : Nat} (hk : k ≤ NULL32) {q : Nat} (hq : q < k) :
    Sat ((Partitioning.fresh k g).assignAll g q) (fun p => Weighed g k p ∧ ∀ v, v < g.nv → p.lab v = q) := by
  refine ((Tracks.fresh (g := g) (k := k)).assignAll hg hk hq).mono fun p hp => ?_
  exact ⟨hp.weighed hm, fun v hv => decodeLab_some (hp.asg v hv)⟩

theorem Weighed.isBalanced {fp : FP} {t : Target fp} (ht : t.Two) {g : Graph} {p : Partitioning} (hp : Weighed g 2 p) :
    isBalanced p t = ok (decide (Balanced g t p.lab)) := by
  have h : IsExact g 2 (p.setCut (cutWeight g p.lab)) := hp
  have := isBalanced_eq ht h
  exact this

theorem Weighed.calcMaxImbalance {fp : FP} {t : Target fp} (ht : t.Two) {g : Graph} {p : Partitioning}
    (hp : Weighed g 2 p) : calcMaxImbalance g p t = ok (maxImbalance g t p.lab) := by
  have h : IsExact g 2 (p.setCut (cutWeight g p.lab)) := hp
  have := calcMaxImbalance_eq ht h
  exact this

theorem partWeight_all {g : Graph} {lab : Nat → Nat} {q r : Nat} (h : ∀ v, v < g.nv → lab v = q) (hne : q ≠ r) :
    partWeight g lab r = 0 := by
  unfold partWeight
  refine Finset.sum_eq_zero fun v hv => ?_
  rw [h v (Finset.mem_range.mp hv), if_neg hne]

theorem partWeight_room {g : Graph} (lab : Nat → Nat) {v q : Nat} (hv : v < g.nv) (hne : lab v ≠ q) :
    partWeight g lab q + g.vw v ≤ g.sumVtx := by
  have := partWeight_relabel (q := q) lab hv q
  rw [if_neg hne, if_pos rfl] at this
  have h2 := partWeight_le (g := g) (relabel lab v q) q
  omega

/-! ### queues -/

theorem VQueue.size_eq {P : PQImpl} {q : VQueue P} {n : Nat} (h : ∀ u k, P.key q.q u = some k → u < n) :
    q.size = ((range n).filter fun u => (P.key q.q u).isSome).card := by
  unfold VQueue.size
  rw [← List.toFinset_card_of_nodup (P.nodup_elems q.q)]
  congr 1
  ext u
  simp only [List.mem_toFinset, P.mem_elems, Finset.mem_filter, Finset.mem_range]
  constructor
  · intro hs
    obtain ⟨k, hk⟩ := Option.isSome_iff_exists.mp hs
    exact ⟨h u k hk, hs⟩
  · exact fun h => h.2

theorem VQueue.size_del {P : PQImpl} {q q' : VQueue P} {n v : Nat} (h : ∀ u k, P.key q.q u = some k → u < n)
    (hv : (P.key q.q v).isSome) (h' : ∀ u, (P.key q'.q u).isSome = (decide (u ≠ v) && (P.key q.q u).isSome)) :
    q'.size + 1 = q.size := by
  have hn : ∀ u k, P.key q'.q u = some k → u < n := by
    intro u k hk
    have := h' u
    rw [hk] at this
    simp at this
    obtain ⟨k', hk'⟩ := Option.isSome_iff_exists.mp this.2
    exact h u k' hk'
  rw [VQueue.size_eq h, VQueue.size_eq hn]
  have : (range n).filter (fun u => (P.key q'.q u).isSome) =
      ((range n).filter fun u => (P.key q.q u).isSome).erase v := by
    ext u
    simp only [Finset.mem_filter, Finset.mem_erase, h']
    simp
    tauto
  rw [this]
  refine Finset.card_erase_add_one ?_
  obtain ⟨k, hk⟩ := Option.isSome_iff_exists.mp hv
  simp [h v k hk, hv]

theorem VQueue.pop_of_size {P : PQImpl} {q : VQueue P} (h : q.size > 0) :
    q.pop = ok (P.top q.q, { q with q := P.del q.q (P.top q.q) }) := by
  obtain ⟨m, hm, -⟩ := VQueue.top_of_size h
  unfold VQueue.pop
  rw [hm]

/-! ### breadth-first bisection -/

/-- The weight of the edges between `u` and the part `q`. -/
def linkWeight (g : Graph) (lab : Nat → Nat) (q u : Nat) : Nat :=
  ∑ v ∈ range g.nv, if lab v = q then g.wt v u else 0

/-- What growing needs of a graph: its arrays are consistent, its total weights fit, and the edges into and out of a
vertex fit a signed number. -/
structure Graph.Plain (g : Graph) : Prop where
  wf : g.WF
  small : g.Small
  inw : ∀ u, u < g.nv → (∑ v ∈ range g.nv, g.wt v u) < 2147483648
  outw : ∀ u, u < g.nv → g.wsum u (fun _ => true) < 2147483648

theorem Graph.Good.plain {g : Graph} (hg : g.Good) : g.Plain := by
  have out : ∀ u, u < g.nv → g.wsum u (fun _ => true) < 2147483648 := by
    intro u hu
    have h2 := two_wdeg_le hg hu
    have h3 := hg.small.edge
    omega
  refine ⟨hg.wf, hg.small, fun u hu => ?_, out⟩
  refine lt_of_le_of_lt ?_ (out u hu)
  rw [Graph.wsum_eq_sum hg.wf hu]
  refine Finset.sum_le_sum fun v hv => ?_
  rw [hg.symm v u (Finset.mem_range.mp hv) hu]
  simp

theorem linkWeight_le {g : Graph} (hg : g.Plain) (lab : Nat → Nat) (q : Nat) {u : Nat} (hu : u < g.nv) :
    linkWeight g lab q u < 2147483648 := by
  refine lt_of_le_of_lt ?_ (hg.inw u hu)
  unfold linkWeight
  refine Finset.sum_le_sum fun v _ => ?_
  split <;> simp

theorem linkWeight_relabel {g : Graph} (lab : Nat → Nat) {v q : Nat} (hv : v < g.nv) (hne : lab v ≠ q) (u : Nat) :
    linkWeight g (relabel lab v q) q u = linkWeight g lab q u + g.wt v u := by
  unfold linkWeight
  rw [← Finset.add_sum_erase _ _ (Finset.mem_range.mpr hv),
    ← Finset.add_sum_erase (range g.nv) (fun v => if lab v = q then g.wt v u else 0) (Finset.mem_range.mpr hv)]
  have : (∑ x ∈ (range g.nv).erase v, if relabel lab v q x = q then g.wt x u else 0) =
      ∑ x ∈ (range g.nv).erase v, if lab x = q then g.wt x u else 0 :=
    Finset.sum_congr rfl fun x hx => by
      unfold relabel; rw [if_neg (Finset.ne_of_mem_erase hx)]
  rw [this]
  simp [relabel, hne]
  omega

/-- The priority of a vertex during growing: its connection to the left side, plus one for the seed. -/
def bfsKey (g : Graph) (seed : Nat) (lab : Nat → Nat) (u : Nat) : Int :=
  (if u = seed then 1 else 0) + linkWeight g lab 0 u

/-- Between two iterations of the growing phase. -/
structure BfsInv (g : Graph) (mx0 seed : Nat) (s : VQueue E.pq × Partitioning) : Prop where
  part : Weighed g 2 s.2
  cap : s.1.cap = g.nv
  keys : ∀ u k, E.pq.key s.1.q u = some k → u < g.nv ∧ s.2.lab u = 1 ∧ k = bfsKey g seed s.2.lab u
  left : partWeight g s.2.lab 0 ≤ mx0
  fresh : (E.pq.key s.1.q seed).isSome → ∀ u, linkWeight g s.2.lab 0 u = 0

theorem bfsKey_bounds {g : Graph} (hg : g.Plain) (seed : Nat) (lab : Nat → Nat) {u : Nat} (hu : u < g.nv) (hs : u ≠ seed) :
    0 ≤ bfsKey g seed lab u ∧ bfsKey g seed lab u < 2147483648 := by
  unfold bfsKey
  rw [if_neg hs]
  have h1 := linkWeight_le hg lab 0 hu
  omega

theorem bfsTouch_spec (ns : List (Nat × Nat)) {q : VQueue E.pq} {n : Nat} (hcap : q.cap = n)
    (hns : ∀ e ∈ ns, e.1 < n ∧ e.2 < 2147483648)
    (hb : ∀ u k, E.pq.key q.q u = some k → 0 ≤ k ∧ k + preW ns u < 2147483648) :
    Sat (bfsTouch ns q) (fun q' => q'.cap = n ∧ ∀ u, E.pq.key q'.q u = (E.pq.key q.q u).map (· + (preW ns u : Int))) := by
  unfold bfsTouch
  refine Post_foldlM (fun pre (q' : VQueue E.pq) => q'.cap = n ∧
    ∀ u, E.pq.key q'.q u = (E.pq.key q.q u).map (· + (preW pre u : Int))) ?_ ?_
  · refine ⟨hcap, fun u => ?_⟩
    cases E.pq.key q.q u <;> simp [preW]
  · intro pre e post q' hl ⟨h1, h2⟩
    have he := hns e (by rw [hl]; simp)
    have hpre : ∀ u, preW (pre ++ [e]) u ≤ preW ns u := by
      intro u
      rw [hl]; unfold preW; simp
    unfold VQueue.contains
    rw [if_neg (by omega), ok_bind]
    have hk := h2 e.1
    cases hq : E.pq.key q.q e.1 with
    | none =>
      rw [hq] at hk
      rw [hk]
      refine ⟨h1, fun u => ?_⟩
      rw [h2 u, preW_append]
      by_cases hu : e.1 = u
      · rw [← hu, hq]; rfl
      · simp [hu]
    | some k =>
      rw [hq] at hk
      rw [hk]
      show Post _ (VQueue.updateByDelta _ _ _) _
      unfold VQueue.updateByDelta
      rw [if_neg (by omega), hk]
      simp only [Option.map_some]
      have hb1 := hb e.1 k hq
      have hb2 := hpre e.1
      rw [preW_append, if_pos rfl] at hb2
      rw [toI32_eq he.2, isub_eq (by omega) (by omega), ok_bind]
      refine ⟨h1, fun u => ?_⟩
      show E.pq.key (E.pq.put _ _ _) u = _
      rw [E.pq.key_put]
      by_cases hu : u = e.1
      · rw [if_pos hu, hu, hq, preW_append, if_pos rfl]
        simp only [Option.map_some]
        congr 1
        push_cast; omega
      · rw [if_neg hu, h2 u, preW_append, if_neg (Ne.symm hu)]; rfl

theorem bfsStep_full {g : Graph} (hg : g.Plain) {t : Target E.fp} (ht : t.Two) {seed : Nat}
    {s : VQueue E.pq × Partitioning} (h : BfsInv g (nth t.mx 0) seed s) (hs : s.1.size > 0) :
    Sat (bfsStep g (!g.unitVtx) (!g.unitEdge) t s) (fun s' => BfsInv g (nth t.mx 0) seed s' ∧
      s'.1.size + 1 = s.1.size ∧ ∃ v, v < g.nv ∧ s.2.lab v = 1 ∧
        (∀ u, (E.pq.key s'.1.q u).isSome = (decide (u ≠ v) && (E.pq.key s.1.q u).isSome)) ∧
        (g.vw v + partWeight g s.2.lab 0 ≤ nth t.mx 0 → s'.2.lab = relabel s.2.lab v 0) ∧
        (¬ g.vw v + partWeight g s.2.lab 0 ≤ nth t.mx 0 → s'.2.lab = s.2.lab) ∧ (E.pq.key s.1.q v).isSome ∧
        ∀ u, (E.pq.key s.1.q u).isSome → bfsKey g seed s.2.lab u ≤ bfsKey g seed s.2.lab v) := by
  obtain ⟨m, hm, htop⟩ := VQueue.top_of_size hs
  obtain ⟨hv, hl1, hkey⟩ := h.keys _ _ hm
  unfold bfsStep
  rw [VQueue.pop_of_size hs, ok_bind]
  simp only
  rw [Graph.vwgtOf_eq hg.wf hv, ok_bind, h.part.rd_pw (by omega), ok_bind,
    rd_of_lt (by rw [ht.mx]; omega), ok_bind]
  set v := E.pq.top s.1.q with hvdef
  have hroom := partWeight_room (g := g) s.2.lab (q := 0) hv (by omega)
  have hsv := hg.small.vtx
  have hbest : ∀ u, (E.pq.key s.1.q u).isSome → bfsKey g seed s.2.lab u ≤ bfsKey g seed s.2.lab v := by
    intro u hu
    obtain ⟨k, hk⟩ := Option.isSome_iff_exists.mp hu
    obtain ⟨m', hm', hle⟩ := E.pq.top_max _ _ _ hk
    rw [hm] at hm'
    cases hm'
    rw [← (h.keys u k hk).2.2, ← hkey]
    exact hle
  have hin : (E.pq.key s.1.q v).isSome := by rw [hm]; rfl
  have hfirst : (E.pq.key s.1.q seed).isSome → v = seed := by
    intro hss
    have h1 := hbest seed hss
    have h2 := h.fresh hss
    by_contra hne
    unfold bfsKey at h1
    rw [if_pos rfl, if_neg hne, h2, h2] at h1
    omega
  have hdel : ∀ u, E.pq.key (E.pq.del s.1.q v) u = if u = v then none else E.pq.key s.1.q u :=
    E.pq.key_del s.1.q v
  have hltk : ∀ u k, E.pq.key s.1.q u = some k → u < g.nv := fun u k hk => (h.keys u k hk).1
  split
  · rename_i hle
    rw [uadd_eq (by omega)] at hle
    refine (h.part.move hg.wf hg.small (by omega) hv (by omega) (by omega)).bind fun p hp => ?_
    obtain ⟨hp1, hp2, -⟩ := hp
    rw [Graph.nbrsOf_eq hg.wf hv, ok_bind]
    have hwt : ∀ u, preW (g.nbrs v) u = g.wt v u := fun u => rfl
    have hkeyb : ∀ u, u < g.nv → bfsKey g seed s.2.lab u + g.wt v u = bfsKey g seed p.lab u := by
      intro u hu
      unfold bfsKey
      rw [hp2, linkWeight_relabel s.2.lab hv (by omega)]
      push_cast; omega
    refine (bfsTouch_spec (g.nbrs v) (q := { s.1 with q := E.pq.del s.1.q v }) (n := g.nv) h.cap ?_ ?_).bind
      fun q' hq' => ?_
    · intro e he
      have h1 := Graph.edge_le_wsum he
      have h2 := hg.outw _ hv
      exact ⟨Graph.nbrs_lt hg.wf hv he, by omega⟩
    · intro u k hk
      rw [hdel] at hk
      split at hk
      · cases hk
      · obtain ⟨h1, h2, h3⟩ := h.keys u k hk
        rename_i hne
        have hns : u ≠ seed := by
          rintro rfl
          exact hne (hfirst (by rw [hk]; rfl)).symm
        have h4 := bfsKey_bounds hg seed s.2.lab h1 hns
        have h5 := bfsKey_bounds hg seed p.lab h1 hns
        rw [hwt]
        have := hkeyb u h1
        omega
    · obtain ⟨hq1, hq2⟩ := hq'
      refine ⟨⟨hp1, hq1, ?_, ?_, fun hss => ?_⟩, ?_⟩
      · intro u k hk
        rw [hq2] at hk
        simp only [hdel] at hk
        split at hk
        · cases hk
        · rename_i hne
          cases hku : E.pq.key s.1.q u with
          | none => rw [hku] at hk; cases hk
          | some k' =>
            rw [hku] at hk
            simp only [Option.map_some, Option.some.injEq] at hk
            obtain ⟨h1, h2, h3⟩ := h.keys u k' hku
            refine ⟨h1, ?_, ?_⟩
            · show p.lab u = 1
              rw [hp2]; unfold relabel; rw [if_neg hne]; exact h2
            · rw [← hk, h3, hwt]
              exact hkeyb u h1
      · show partWeight g p.lab 0 ≤ _
        have := partWeight_relabel (q := 0) s.2.lab hv 0
        rw [if_neg (by omega), if_pos rfl] at this
        rw [hp2]; omega
      · rw [hq2] at hss
        simp only [hdel, Option.isSome_map] at hss
        split at hss
        · cases hss
        · rename_i hne
          exact absurd (hfirst hss).symm hne
      · have hsome : ∀ u, (E.pq.key q'.q u).isSome = (decide (u ≠ v) && (E.pq.key s.1.q u).isSome) := by
          intro u
          rw [hq2]
          simp only [hdel, Option.isSome_map]
          by_cases hu : u = v <;> simp [hu]
        exact ⟨VQueue.size_del (v := v) hltk (by rw [hm]; rfl) hsome, v, hv, hl1, hsome,
          fun _ => hp2, fun h => absurd hle h, hin, hbest⟩
  · refine ⟨⟨h.part, h.cap, ?_, h.left, fun hss => ?_⟩, ?_⟩
    · intro u k hk
      rw [hdel] at hk
      split at hk
      · cases hk
      · exact h.keys u k hk
    · simp only [hdel] at hss
      split at hss
      · cases hss
      · rename_i hne
        exact absurd (hfirst hss).symm hne
    · have hsome : ∀ u, (E.pq.key (E.pq.del s.1.q v) u).isSome =
          (decide (u ≠ v) && (E.pq.key s.1.q u).isSome) := by
        intro u
        rw [hdel]
        by_cases hu : u = v <;> simp [hu]
      refine ⟨VQueue.size_del (v := v) hltk (by rw [hm]; rfl) hsome, v, hv, hl1, hsome, fun hle => ?_,
        fun _ => rfl, hin, hbest⟩
      rename_i hgt
      rw [uadd_eq (by omega)] at hgt
      omega

theorem bfsStep_spec {g : Graph} (hg : g.Plain) {t : Target E.fp} (ht : t.Two) {seed : Nat}
    {s : VQueue E.pq × Partitioning} (h : BfsInv g (nth t.mx 0) seed s) (hs : s.1.size > 0) :
    Sat (bfsStep g (!g.unitVtx) (!g.unitEdge) t s) (fun s' => BfsInv g (nth t.mx 0) seed s' ∧
      s'.1.size + 1 = s.1.size) :=
  (bfsStep_full hg ht h hs).mono fun _ h => ⟨h.1, h.2.1⟩

theorem bfsPriorityMove_spec {g : Graph} (hg : g.Plain) {t : Target E.fp} (ht : t.Two) {seed : Nat} :
    ∀ fuel (s : VQueue E.pq × Partitioning), BfsInv g (nth t.mx 0) seed s → s.1.size < fuel →
    Sat (bfsPriorityMove g (!g.unitVtx) (!g.unitEdge) t fuel s) (fun s' => BfsInv g (nth t.mx 0) seed s' ∧
      (s'.1.size = 0 ∨ nth t.tw 0 ≤ partWeight g s'.2.lab 0)) := by
  intro fuel
  induction fuel with
  | zero => intro s _ h; omega
  | succ fuel ih =>
    intro s h hf
    unfold bfsPriorityMove
    split
    · rename_i hs
      rw [h.part.rd_pw (by omega), ok_bind, rd_of_lt (by rw [ht.tw]; omega), ok_bind]
      split
      · refine (bfsStep_spec hg ht h hs).bind fun s' hs' => ?_
        exact ih s' hs'.1 (by omega)
      · rename_i hnl
        exact ⟨h, Or.inr (by omega)⟩
    · exact ⟨h, Or.inl (by omega)⟩

theorem bfsQueue_spec {g : Graph} {seed : Nat} (hseed : seed < g.nv) :
    Sat ((VQueue.new E.pq g.nv).add 1 seed >>= fun q => (List.range g.nv).foldlM (fun (q : VQueue E.pq) v =>
      if v ≠ seed then q.add 0 v else .ok q) q) (fun q => q.cap = g.nv ∧ ∀ u, E.pq.key q.q u =
        if u = seed then some 1 else if u < g.nv then some 0 else none) := by
  rw [VQueue.add_eq (show seed < (VQueue.new E.pq g.nv).cap from hseed) (E.pq.key_empty seed), ok_bind]
  refine Post_foldlM_range (fun m (q : VQueue E.pq) => q.cap = g.nv ∧ ∀ u, E.pq.key q.q u =
    if u = seed then some 1 else if u < m then some 0 else none) ?_ ?_
  · refine ⟨rfl, fun u => ?_⟩
    show E.pq.key (E.pq.put E.pq.empty seed 1) u = _
    rw [E.pq.key_put, E.pq.key_empty]
    simp
  · intro v q hv ⟨h1, h2⟩
    by_cases hvs : v = seed
    · rw [if_neg (by simp [hvs])]
      refine ⟨h1, fun u => ?_⟩
      rw [h2 u]
      by_cases hu : u = seed
      · simp [hu]
      · have : u < v ↔ u < v + 1 := by omega
        simp [hu, this]
    · rw [if_pos hvs, VQueue.add_eq (by omega) (by rw [h2 v, if_neg hvs, if_neg (by omega)])]
      refine ⟨h1, fun u => ?_⟩
      show E.pq.key (E.pq.put q.q v 0) u = _
      rw [E.pq.key_put, h2 u]
      by_cases hu : u = v
      · rw [if_pos hu, if_neg (by omega), if_pos (by omega)]
      · have : u < v ↔ u < v + 1 := by omega
        simp [hu, this]

/-- The state in which the growing phase starts. -/
theorem bfsGrow_init {g : Graph} (hg : g.Plain) {t : Target E.fp} (ht : t.Two) {seed : Nat} (hseed : seed < g.nv) :
    ∃ q0 p0, ((VQueue.new E.pq g.nv).add 1 seed >>= fun q => (List.range g.nv).foldlM (fun (q : VQueue E.pq) v =>
        if v ≠ seed then q.add 0 v else .ok q) q) = ok q0 ∧ (Partitioning.fresh 2 g).assignAll g 1 = ok p0 ∧
      bfsGrow t g seed = bfsPriorityMove g (!g.unitVtx) (!g.unitEdge) t (g.nv + 1) (q0, p0) ∧
      BfsInv g (nth t.mx 0) seed (q0, p0) ∧ q0.size < g.nv + 1 ∧
      ∀ u, (E.pq.key q0.q u = if u = seed then some 1 else if u < g.nv then some 0 else none) ∧
        (u < g.nv → p0.lab u = 1) := by
  obtain ⟨q, hqe, hq1, hq2⟩ := sat_iff.mp (bfsQueue_spec (E := E) hseed)
  obtain ⟨p, hpe, hp1, hp2⟩ := sat_iff.mp (Weighed.assignAll (k := 2) hg.wf hg.small (by omega) (q := 1) (by omega))
  have hl0 : ∀ u, linkWeight g p.lab 0 u = 0 := by
    intro u
    unfold linkWeight
    refine Finset.sum_eq_zero fun v hv => ?_
    rw [hp2 v (Finset.mem_range.mp hv), if_neg (by omega)]
  refine ⟨q, p, hqe, hpe, ?_, ⟨hp1, hq1, ?_, ?_, fun _ => hl0⟩, ?_, fun u => ⟨hq2 u, hp2 u⟩⟩
  · unfold bfsGrow
    rw [← bind_assoc, hqe, ok_bind, ht.k, hpe, ok_bind]
  · intro u k hk
    simp only [hq2] at hk
    unfold bfsKey
    rw [hl0]
    split at hk
    · rename_i h1
      cases hk
      subst h1
      exact ⟨hseed, hp2 _ hseed, by simp⟩
    · rename_i h1
      split at hk
      · rename_i h2
        cases hk
        exact ⟨h2, hp2 u h2, by simp [h1]⟩
      · cases hk
  · show partWeight g p.lab 0 ≤ _
    rw [partWeight_all hp2 (by omega)]
    omega
  · rw [VQueue.size_eq (n := g.nv)]
    · have := Finset.card_filter_le (range g.nv) (fun u => (E.pq.key q.q u).isSome)
      rw [Finset.card_range] at this
      omega
    · intro u k hk
      simp only [hq2] at hk
      split at hk
      · rename_i h1; omega
      · split at hk
        · rename_i h1 h2; exact h2
        · cases hk

theorem bfsGrow_start {g : Graph} (hg : g.Plain) {t : Target E.fp} (ht : t.Two) {seed : Nat} (hseed : seed < g.nv) :
    ∃ q0 p0, bfsGrow t g seed = bfsPriorityMove g (!g.unitVtx) (!g.unitEdge) t (g.nv + 1) (q0, p0) ∧
      BfsInv g (nth t.mx 0) seed (q0, p0) ∧ q0.size < g.nv + 1 ∧
      ∀ u, (E.pq.key q0.q u = if u = seed then some 1 else if u < g.nv then some 0 else none) ∧
        (u < g.nv → p0.lab u = 1) := by
  obtain ⟨q0, p0, -, -, h⟩ := bfsGrow_init hg (t := t) ht hseed
  exact ⟨q0, p0, h⟩

theorem bfsGrow_spec {g : Graph} (hg : g.Plain) {t : Target E.fp} (ht : t.Two) {seed : Nat} (hseed : seed < g.nv) :
    Sat (bfsGrow t g seed) (fun s => BfsInv g (nth t.mx 0) seed s ∧
      (s.1.size = 0 ∨ nth t.tw 0 ≤ partWeight g s.2.lab 0)) := by
  obtain ⟨q0, p0, h1, h2, h3, -⟩ := bfsGrow_start hg (t := t) ht hseed
  rw [h1]
  exact bfsPriorityMove_spec hg ht _ _ h2 h3

theorem bfsStep_empty {g : Graph} {t : Target E.fp} {a b : Bool} {s : VQueue E.pq × Partitioning}
    (h : ¬ s.1.size > 0) : bfsStep g a b t s = ub := by
  unfold bfsStep VQueue.pop
  have : E.pq.key s.1.q (E.pq.top s.1.q) = none := by
    by_contra hn
    have hm : E.pq.top s.1.q ∈ E.pq.elems s.1.q := (E.pq.mem_elems _ _).mpr (by
      cases hk : E.pq.key s.1.q (E.pq.top s.1.q)
      · exact absurd hk hn
      · rfl)
    exact h (List.length_pos_of_mem hm)
  rw [this]
  rfl

/-! ### the balancing fallback -/

theorem bfsLighter_ok {t : Target E.fp} (ht : t.Two) {g : Graph} {p : Partitioning} (hp : Weighed g 2 p) (w : Nat) :
    ∃ b, bfsLighter t w p = ok b := by
  unfold bfsLighter
  rw [rd_of_lt (by rw [ht.mx]; omega), ok_bind, hp.rd_pw (by omega), ok_bind, rd_of_lt (by rw [ht.mx]; omega), ok_bind]
  exact ⟨_, rfl⟩

/-- At most one of the given vertices has been moved to the left. -/
def MovedOne (g : Graph) (remaining : List Nat) (p p' : Partitioning) : Prop :=
  Weighed g 2 p' ∧ (p' = p ∨ ∃ v, v ∈ remaining ∧ p'.lab = relabel p.lab v 0)

theorem bfsUnitBalance_spec {g : Graph} (hg : g.Plain) {t : Target E.fp} (ht : t.Two) {p : Partitioning}
    (hp : Weighed g 2 p) : ∀ remaining : List Nat, (∀ v ∈ remaining, v < g.nv ∧ p.lab v = 1) →
    Sat (bfsUnitBalance g t remaining p) (MovedOne g remaining p) := by
  intro remaining
  induction remaining with
  | nil => intro _; exact ⟨hp, Or.inl rfl⟩
  | cons v vs ih =>
    intro hr
    obtain ⟨hv, hl⟩ := hr v (by simp)
    unfold bfsUnitBalance
    rw [hp.rd_pw (by omega), ok_bind]
    obtain ⟨b, hb⟩ := bfsLighter_ok ht hp (uadd 1 (partWeight g p.lab 0))
    rw [hb, ok_bind]
    split
    · refine (hp.move hg.wf hg.small (by omega) hv (by omega) (by omega)).mono fun p' h => ?_
      exact ⟨h.1, Or.inr ⟨v, by simp, h.2.1⟩⟩
    · refine (ih fun u hu => hr u (by simp [hu])).mono fun p' h => ⟨h.1, ?_⟩
      rcases h.2 with h | ⟨u, hu, h⟩
      · exact Or.inl h
      · exact Or.inr ⟨u, by simp [hu], h⟩

theorem Post_vwgtOf_true {B : Prop} {g : Graph} (hB : g.vwgt.length ≠ g.nv → B) {v : Nat} (hv : v < g.nv) :
    Post B (g.vwgtOf true v) (fun _ => True) := by
  unfold Graph.vwgtOf
  rw [if_pos rfl, Post_rd]
  exact ⟨fun _ => trivial, fun h => hB (by omega)⟩

theorem bfsWeightLoop_spec {B : Prop} {g : Graph} (hg : g.Plain) (hvw : g.vwgt.length ≠ g.nv → B) {t : Target E.fp} (ht : t.Two)
    {p : Partitioning} (hp : Weighed g 2 p) {remaining : List Nat} (hr : ∀ v ∈ remaining, v < g.nv ∧ p.lab v = 1) :
    ∀ fuel (q : VQueue E.pq), (∀ u k, E.pq.key q.q u = some k → u ∈ remaining) → q.size < fuel →
    Post B (bfsWeightLoop g t fuel q p) (MovedOne g remaining p) := by
  intro fuel
  induction fuel with
  | zero => intro q _ h; omega
  | succ fuel ih =>
    intro q hq hf
    unfold bfsWeightLoop
    split
    · rename_i hs
      obtain ⟨m, hm, -⟩ := VQueue.top_of_size hs
      have hmem := hq _ _ hm
      obtain ⟨hv, hl⟩ := hr _ hmem
      rw [VQueue.pop_of_size hs, ok_bind]
      simp only
      refine (Post_vwgtOf_true hvw hv).bind fun w _ => ?_
      rw [hp.rd_pw (by omega), ok_bind]
      obtain ⟨b, hb⟩ := bfsLighter_ok ht hp (uadd w (partWeight g p.lab 0))
      rw [hb, ok_bind]
      split
      · refine (Post.of_sat (hp.move hg.wf hg.small (by omega) hv (by omega) (by omega))).mono fun p' h => ?_
        exact ⟨h.1, Or.inr ⟨_, hmem, h.2.1⟩⟩
      · refine ih _ (fun u k hk => ?_) ?_
        · simp only [E.pq.key_del] at hk
          split at hk
          · cases hk
          · exact hq u k hk
        · have := VQueue.size_del (q := q) (q' := { q with q := E.pq.del q.q (E.pq.top q.q) }) (n := g.nv)
            (v := E.pq.top q.q) (fun u k hk => (hr u (hq u k hk)).1) (by rw [hm]; rfl) (fun u => by
              rw [E.pq.key_del]
              by_cases hu : u = E.pq.top q.q <;> simp [hu])
          omega
    · exact ⟨hp, Or.inl rfl⟩

theorem bfsWeightBalance_spec {B : Prop} {g : Graph} (hg : g.Plain) (hvw : g.vwgt.length ≠ g.nv → B) {t : Target E.fp} (ht : t.Two)
    {p : Partitioning} (hp : Weighed g 2 p) {remaining : List Nat} (hr : ∀ v ∈ remaining, v < g.nv ∧ p.lab v = 1)
    (hnd : remaining.Nodup) :
    Post B (bfsWeightBalance g t remaining p) (MovedOne g remaining p) := by
  unfold bfsWeightBalance
  refine (Post_foldlM (fun pre (q : VQueue E.pq) => q.cap = g.nv ∧
    ∀ u, (E.pq.key q.q u).isSome = decide (u ∈ pre)) ?_ ?_).bind fun q hq => ?_
  · exact ⟨rfl, fun u => by simp [VQueue.new, E.pq.key_empty]⟩
  · intro pre v post q hl ⟨h1, h2⟩
    have hv := (hr v (by rw [hl]; simp)).1
    have hnew : v ∉ pre := by
      rw [hl] at hnd
      have := List.disjoint_of_nodup_append hnd
      exact fun hm => this hm (by simp)
    refine (Post_vwgtOf_true hvw hv).bind fun w _ => ?_
    rw [VQueue.add_eq (by omega)
      (by have := h2 v; simp [hnew] at this; exact this)]
    refine ⟨h1, fun u => ?_⟩
    show (E.pq.key (E.pq.put _ _ _) u).isSome = _
    rw [E.pq.key_put]
    by_cases hu : u = v
    · simp [hu]
    · simp [hu, h2 u]
  · obtain ⟨h1, h2⟩ := hq
    have hmem : ∀ u k, E.pq.key q.q u = some k → u ∈ remaining := by
      intro u k hk
      have := h2 u
      rw [hk] at this
      simpa using this.symm
    refine bfsWeightLoop_spec hg hvw ht hp hr _ _ hmem ?_
    have : q.size = remaining.length := by
      unfold VQueue.size
      refine List.Perm.length_eq ((List.perm_ext_iff_of_nodup (E.pq.nodup_elems _) hnd).mpr fun u => ?_)
      rw [E.pq.mem_elems, h2 u]; simp
    omega

/-- What breadth-first bisection from `seed` yields: the labels `grown` of the growing phase, or those with one
more vertex moved to the left because the right side was too heavy. -/
structure BfsOut (g : Graph) (t : Target E.fp) (grown : Nat → Nat) (p : Partitioning) : Prop where
  exact : IsExact g 2 p
  left : partWeight g grown 0 ≤ nth t.mx 0
  grown_lt : ∀ v, v < g.nv → grown v < 2
  moved : (∀ v, v < g.nv → p.lab v = grown v) ∨ (nth t.mx 1 < partWeight g grown 1 ∧
    ∃ v, v < g.nv ∧ grown v = 1 ∧ ∀ u, u < g.nv → p.lab u = if u = v then 0 else grown u)

theorem bfsFrom_spec {B : Prop} {g : Graph} (hg : g.Good) {t : Target E.fp} (ht : t.Two) {seed : Nat}
    (hseed : seed < g.nv) (hB : ¬ (g.unitVtx = true → g.vwgt.length = g.nv) → B) :
    Post B (bfsFrom t g seed) (fun p => ∃ s : VQueue E.pq × Partitioning, bfsGrow t g seed = ok s ∧ BfsOut g t s.2.lab p) := by
  unfold bfsFrom
  refine (Post.of_sat (bfsGrow_spec hg.plain ht hseed)).with_eq.bind fun s hs => ?_
  obtain ⟨⟨hi, -⟩, heq⟩ := hs
  have hr : ∀ v ∈ s.1.remaining, v < g.nv ∧ s.2.lab v = 1 := by
    intro v hv
    unfold VQueue.remaining at hv
    rw [E.pq.mem_elems] at hv
    obtain ⟨k, hk⟩ := Option.isSome_iff_exists.mp hv
    exact ⟨(hi.keys v k hk).1, (hi.keys v k hk).2.1⟩
  have key : Post B (bfsBalance t g s.1.remaining s.2) (fun p => Weighed g 2 p ∧ (p = s.2 ∨
      (nth t.mx 1 < partWeight g s.2.lab 1 ∧ ∃ v, v ∈ s.1.remaining ∧ p.lab = relabel s.2.lab v 0))) := by
    unfold bfsBalance
    rw [hi.part.rd_pw (by omega), ok_bind, rd_of_lt (by rw [ht.mx]; omega), ok_bind]
    split
    · rename_i hgt
      split
      · rename_i hu
        refine (bfsWeightBalance_spec hg.plain (fun h => hB fun h' => h (h' hu)) ht hi.part hr
          (E.pq.nodup_elems _)).mono fun p hp => ?_
        exact ⟨hp.1, hp.2.imp id fun h => ⟨hgt, h⟩⟩
      · refine (Post.of_sat (bfsUnitBalance_spec hg.plain ht hi.part _ hr)).mono fun p hp => ?_
        exact ⟨hp.1, hp.2.imp id fun h => ⟨hgt, h⟩⟩
    · exact ⟨hi.part, Or.inl rfl⟩
  refine key.bind fun p hp => ?_
  refine (Post.of_sat (hp.1.recalcCut hg.wf hg.symm hg.small)).mono fun p' hp' => ?_
  refine ⟨s, heq, hp'.1, hi.left, hi.part.complete, ?_⟩
  have hlab : p'.lab = p.lab := by unfold Partitioning.lab; rw [hp'.2]
  rcases hp.2 with h | ⟨h1, v, hv, h2⟩
  · left; intro v _; rw [hlab, h]
  · right
    refine ⟨h1, v, (hr v hv).1, (hr v hv).2, fun u _ => ?_⟩
    rw [hlab, h2]; rfl

end Poros
