import Verif.Proofs.Connectivity
/-
Lemmas about one FM move.
-/
namespace Poros
open Res Finset

variable {E : Env}

/-! ### effect of a flip on connectivity -/

theorem flip_self (lab : Nat → Nat) (v : Nat) : flip lab v v = 1 - lab v := by simp [flip]
theorem flip_ne (lab : Nat → Nat) {u v : Nat} (h : u ≠ v) : flip lab v u = lab u := by simp [flip, h]

theorem flip_lt {n : Nat} {lab : Nat → Nat} (h : ∀ u, u < n → lab u < 2) (v : Nat) :
    ∀ u, u < n → flip lab v u < 2 := by
  intro u hu
  unfold flip
  split
  · omega
  · exact h u hu

theorem external_flip_self {g : Graph} (hl : g.NoLoop) {lab : Nat → Nat} (h2 : ∀ u, u < g.nv → lab u < 2)
    {v : Nat} (hv : v < g.nv) : externalWeight g (flip lab v) v = internalWeight g lab v := by
  unfold externalWeight internalWeight
  refine Finset.sum_congr rfl fun u hu => ?_
  have hu := Finset.mem_range.mp hu
  by_cases huv : u = v
  · subst huv; simp [Graph.wt_self hl hu]
  · rw [flip_self, flip_ne _ huv]
    have := h2 u hu; have := h2 v hv
    by_cases he : lab u = lab v
    · rw [if_pos he, if_pos (by omega)]
    · rw [if_neg he, if_neg (by omega)]

theorem internal_flip_self {g : Graph} (hl : g.NoLoop) {lab : Nat → Nat} (h2 : ∀ u, u < g.nv → lab u < 2)
    {v : Nat} (hv : v < g.nv) : internalWeight g (flip lab v) v = externalWeight g lab v := by
  unfold externalWeight internalWeight
  refine Finset.sum_congr rfl fun u hu => ?_
  have hu := Finset.mem_range.mp hu
  by_cases huv : u = v
  · subst huv; simp [Graph.wt_self hl hu]
  · rw [flip_self, flip_ne _ huv]
    have := h2 u hu; have := h2 v hv
    by_cases he : lab u = lab v
    · rw [if_neg (by omega), if_neg (by omega)]
    · rw [if_pos (by omega), if_pos (by omega)]

theorem external_flip_ne {g : Graph} {lab : Nat → Nat} (h2 : ∀ u, u < g.nv → lab u < 2)
    {v u : Nat} (hv : v < g.nv) (hu : u < g.nv) (hne : u ≠ v) :
    externalWeight g (flip lab v) u =
      shiftX (decide (lab u = 1 - lab v)) (externalWeight g lab u) (g.wt u v) ∧
    internalWeight g (flip lab v) u =
      shiftI (decide (lab u = 1 - lab v)) (internalWeight g lab u) (g.wt u v) ∧
    (if decide (lab u = 1 - lab v) then g.wt u v ≤ externalWeight g lab u
      else g.wt u v ≤ internalWeight g lab u) := by
  have hm : v ∈ range g.nv := Finset.mem_range.mpr hv
  have a := h2 u hu
  have b := h2 v hv
  have e : ∀ l : Nat → Nat, externalWeight g l u = (if l v ≠ l u then g.wt u v else 0) +
      ∑ x ∈ (range g.nv).erase v, if l x ≠ l u then g.wt u x else 0 := fun l => by
    unfold externalWeight; rw [← Finset.add_sum_erase _ _ hm]
  have i : ∀ l : Nat → Nat, internalWeight g l u = (if l v = l u then g.wt u v else 0) +
      ∑ x ∈ (range g.nv).erase v, if l x = l u then g.wt u x else 0 := fun l => by
    unfold internalWeight; rw [← Finset.add_sum_erase _ _ hm]
  have e1 : (∑ x ∈ (range g.nv).erase v, if flip lab v x ≠ flip lab v u then g.wt u x else 0) =
      ∑ x ∈ (range g.nv).erase v, if lab x ≠ lab u then g.wt u x else 0 :=
    Finset.sum_congr rfl fun x hx => by rw [flip_ne _ hne, flip_ne _ (Finset.ne_of_mem_erase hx)]
  have i1 : (∑ x ∈ (range g.nv).erase v, if flip lab v x = flip lab v u then g.wt u x else 0) =
      ∑ x ∈ (range g.nv).erase v, if lab x = lab u then g.wt u x else 0 :=
    Finset.sum_congr rfl fun x hx => by rw [flip_ne _ hne, flip_ne _ (Finset.ne_of_mem_erase hx)]
  rw [e (flip lab v), i (flip lab v), e lab, i lab, e1, i1, flip_self, flip_ne _ hne]
  by_cases ht : lab u = 1 - lab v
  · have h1 : lab v ≠ lab u := by omega
    have h2 : 1 - lab v = lab u := by omega
    have h5 : decide (lab u = 1 - lab v) = true := by simp [ht]
    have h6 : ¬ (1 - lab v ≠ lab u) := by omega
    have h7 : ¬ (lab v = lab u) := h1
    rw [h5, if_neg h6, if_pos h1, if_pos h2, if_neg h7]
    simp only [shiftX, shiftI, if_true]
    omega
  · have h1 : lab v = lab u := by omega
    have h2 : ¬ (1 - lab v = lab u) := by omega
    have h5 : decide (lab u = 1 - lab v) = false := by simp [ht]
    have h6 : 1 - lab v ≠ lab u := h2
    have h7 : ¬ (lab v ≠ lab u) := by omega
    rw [h5, if_pos h6, if_neg h7, if_neg h2, if_pos h1]
    simp only [shiftX, shiftI, Bool.false_eq_true, if_false]
    omega

/-! ### queues -/

/-- The queue of a side. -/
def FMState.qsel (s : FMState E) (side : Nat) : VQueue E.pq := if side = 0 then s.q0 else s.q1

theorem FMState.getQ_eq {s : FMState E} {side : Nat} (h : side < 2) : s.getQ side = ok (s.qsel side) := by
  have : side = 0 ∨ side = 1 := by omega
  rcases this with rfl | rfl <;> rfl

/-- Replacing the queue of a side. -/
def FMState.qset (s : FMState E) (side : Nat) (q : VQueue E.pq) : FMState E :=
  if side = 0 then { s with q0 := q } else { s with q1 := q }

theorem FMState.setQ_eq {s : FMState E} {side : Nat} (h : side < 2) (q : VQueue E.pq) :
    s.setQ side q = ok (s.qset side q) := by
  have : side = 0 ∨ side = 1 := by omega
  rcases this with rfl | rfl <;> rfl

theorem FMState.qset_part (s : FMState E) (side : Nat) (q : VQueue E.pq) : (s.qset side q).part = s.part := by
  unfold qset; split <;> rfl
theorem FMState.qset_conn (s : FMState E) (side : Nat) (q : VQueue E.pq) : (s.qset side q).conn = s.conn := by
  unfold qset; split <;> rfl
theorem FMState.qset_visited (s : FMState E) (side : Nat) (q : VQueue E.pq) :
    (s.qset side q).visited = s.visited := by
  unfold qset; split <;> rfl
theorem FMState.qset_qsel {s : FMState E} {side side' : Nat} (h : side < 2) (h' : side' < 2) (q : VQueue E.pq) :
    (s.qset side q).qsel side' = if side' = side then q else s.qsel side' := by
  have : side = 0 ∨ side = 1 := by omega
  have : side' = 0 ∨ side' = 1 := by omega
  rcases ‹side = 0 ∨ side = 1› with rfl | rfl <;> rcases ‹side' = 0 ∨ side' = 1› with rfl | rfl <;> rfl

/-- The expected content of the queue of `side` at `u`: the unvisited border vertices of that side with
priority minus delta. -/
def expectKey (n : Nat) (lab X I : Nat → Nat) (visited : List Bool) (has : Nat → Bool) (side u : Nat) :
    Option Int :=
  if u < n ∧ nth visited u = false ∧ lab u = side ∧ has u = true then some ((X u : Int) - I u) else none

/-- Queue discipline. -/
structure QInv (n : Nat) (lab X I : Nat → Nat) (s : FMState E) : Prop where
  vis : s.visited.length = n
  cap : ∀ side, side < 2 → (s.qsel side).cap = n
  keys : ∀ side, side < 2 → ∀ u, E.pq.key (s.qsel side).q u =
    expectKey n lab X I s.visited (E.set.has s.conn.border.s) side u

theorem VQueue.add_eq {P : PQImpl} {q : VQueue P} {k : Int} {v : Nat} (h : v < q.cap) (hn : P.key q.q v = none) :
    q.add k v = ok { q with q := P.put q.q v k } := by
  simp [VQueue.add, Nat.not_le.mpr h, hn]
theorem VQueue.remove_eq {P : PQImpl} {q : VQueue P} {v : Nat} {k : Int} (h : v < q.cap)
    (hn : P.key q.q v = some k) : q.remove v = ok { q with q := P.del q.q v } := by
  simp [VQueue.remove, Nat.not_le.mpr h, hn]
theorem VQueue.update_eq {P : PQImpl} {q : VQueue P} {v : Nat} {k k' : Int} (h : v < q.cap)
    (hn : P.key q.q v = some k') : q.update k v = ok { q with q := P.put q.q v k } := by
  simp [VQueue.update, Nat.not_le.mpr h, hn]

/-- What happened to one queue, given its key map afterwards. -/
theorem QInv.of_step {n : Nat} {lab X I X' I' : Nat → Nat} {s : FMState E} {conn' : Conn E.set}
    (h : QInv n lab X I s) {u side : Nat} (hs : side < 2) (hlab : lab u = side) (hvis : nth s.visited u = false)
    (hu : u < n) (hX : ∀ x, x ≠ u → X' x = X x) (hI : ∀ x, x ≠ u → I' x = I x)
    (hb : ∀ x, x ≠ u → E.set.has conn'.border.s x = E.set.has s.conn.border.s x)
    (q' : VQueue E.pq) (hcap : q'.cap = n)
    (hq : ∀ x, E.pq.key q'.q x = if x = u then
        (if E.set.has conn'.border.s u then some ((X' u : Int) - I' u) else none)
      else E.pq.key (s.qsel side).q x) :
    QInv n lab X' I' (FMState.qset { s with conn := conn' } side q') := by
  refine ⟨by rw [FMState.qset_visited]; exact h.vis, ?_, ?_⟩
  · intro side' hs'
    rw [FMState.qset_qsel hs hs']
    split
    · exact hcap
    · exact h.cap side' hs'
  · intro side' hs' x
    rw [FMState.qset_qsel hs hs', FMState.qset_visited, FMState.qset_conn]
    split
    · rename_i hss
      subst hss
      rw [hq x]
      by_cases hxu : x = u
      · subst hxu
        rw [if_pos rfl]
        unfold expectKey
        simp [hu, hvis, hlab]
      · rw [if_neg hxu, h.keys side' hs x]
        unfold expectKey
        simp only [hX x hxu, hI x hxu, hb x hxu]
    · rename_i hss
      have : FMState.qsel { s with conn := conn' } side' = s.qsel side' := rfl
      rw [this, h.keys side' hs' x]
      by_cases hxu : x = u
      · subst hxu
        unfold expectKey
        have : ¬ lab x = side' := by omega
        simp [this]
      · unfold expectKey
        simp only [hX x hxu, hI x hxu, hb x hxu]

theorem QInv.of_same {n : Nat} {lab X I X' I' : Nat → Nat} {s : FMState E} {conn' : Conn E.set}
    (h : QInv n lab X I s)
    (hk : ∀ side, side < 2 → ∀ x, expectKey n lab X I s.visited (E.set.has s.conn.border.s) side x =
      expectKey n lab X' I' s.visited (E.set.has conn'.border.s) side x) :
    QInv n lab X' I' { s with conn := conn' } :=
  ⟨h.vis, h.cap, fun side hs x => (h.keys side hs x).trans (hk side hs x)⟩

/-! ### one edge -/

theorem fmEdge_spec (queues : Bool) {n dst : Nat} {lab X I X' I' : Nat → Nat} {s : FMState E} {q : Nat × Nat}
    (hasg : s.part.asg.length = n) (hlab : ∀ u, u < n → nth s.part.asg u = lab u)
    (h2 : ∀ u, u < n → lab u < 2) (hc : ConnVals n X I s.conn)
    (hq : queues = true → QInv n lab X I s) (hu : q.1 < n) (hto : dst < 2)
    (hw : if decide (lab q.1 = dst) then q.2 ≤ X q.1 else q.2 ≤ I q.1)
    (hb : X q.1 + I q.1 < 2147483648)
    (hX : ∀ x, x ≠ q.1 → X' x = X x) (hI : ∀ x, x ≠ q.1 → I' x = I x)
    (hXu : X' q.1 = shiftX (decide (lab q.1 = dst)) (X q.1) q.2)
    (hIu : I' q.1 = shiftI (decide (lab q.1 = dst)) (I q.1) q.2) :
    Sat (fmEdge queues dst s q) (fun s' => s'.part = s.part ∧ s'.visited = s.visited ∧
      ConnVals n X' I' s'.conn ∧ (queues = true → QInv n lab X' I' s') ∧
      (queues = false → s'.q0 = s.q0 ∧ s'.q1 = s.q1)) := by
  have hlu := h2 q.1 hu
  unfold fmEdge
  simp only
  rw [rd_of_lt (by omega), ok_bind, hlab q.1 hu, getDirection_eq hto hlu, ok_bind]
  refine (Conn.updateNeighbor_spec hc hu (decide (lab q.1 = dst)) hw hb hX hI hXu hIu).bind ?_
  rintro ⟨st, conn'⟩ ⟨hcv, hst, hbs⟩
  simp only at hcv hst hbs ⊢
  have hb' : X' q.1 + I' q.1 < 2147483648 := by
    rw [hXu, hIu]; unfold shiftX shiftI
    split at hw <;> simp_all; omega
  cases queues with
  | false => exact ⟨rfl, rfl, hcv, by simp, fun _ => ⟨rfl, rfl⟩⟩
  | true =>
    have hq := hq rfl
    simp only [if_true]
    rw [rd_of_lt (by rw [hq.vis]; exact hu), ok_bind]
    cases hvis : nth s.visited q.1 with
    | true =>
      simp only [if_true]
      refine ⟨rfl, rfl, hcv, fun _ => ?_, by simp⟩
      refine hq.of_same fun side hs x => ?_
      unfold expectKey
      by_cases hx : x = q.1
      · subst hx; simp [hvis]
      · simp only [hX x hx, hI x hx, hbs x hx]
    | false =>
      simp only [Bool.false_eq_true, if_false]
      have hkey := hq.keys (lab q.1) hlu q.1
      unfold expectKey at hkey
      simp only [hu, hvis, true_and] at hkey
      have hcap := hq.cap (lab q.1) hlu
      have hdel := Conn.delta_eq hcv hu hb'
      have hneg : ineg ((I' q.1 : Int) - X' q.1) = ok ((X' q.1 : Int) - I' q.1) := by
        unfold ineg
        rw [isub_eq (by omega) (by omega)]
        congr 1; omega
      have getq : FMState.getQ { s with conn := conn' } (lab q.1) = ok (s.qsel (lab q.1)) :=
        FMState.getQ_eq hlu
      cases h1 : E.set.has s.conn.border.s q.1 <;> cases h3 : E.set.has conn'.border.s q.1 <;>
        rw [h1, h3] at hst <;> subst hst <;> simp only [statusOf] <;> rw [h1] at hkey
      · -- still out
        refine ⟨rfl, rfl, hcv, fun _ => ?_, by simp⟩
        refine hq.of_same fun side hs x => ?_
        unfold expectKey
        by_cases hx : x = q.1
        · subst hx; simp [h1, h3]
        · simp only [hX x hx, hI x hx, hbs x hx]
      · -- added
        have hdel : Conn.delta ({ s with conn := conn' } : FMState E).conn q.1 = _ := hdel
        rw [hdel, ok_bind, hneg, ok_bind, getq, ok_bind,
          VQueue.add_eq (by omega) (by simpa using hkey), ok_bind, FMState.setQ_eq hlu]
        refine ⟨FMState.qset_part _ _ _, FMState.qset_visited _ _ _, by rw [FMState.qset_conn]; exact hcv,
          fun _ => ?_, by simp⟩
        refine hq.of_step hlu rfl hvis hu hX hI hbs _ (by exact hcap) fun x => ?_
        show E.pq.key (E.pq.put _ _ _) x = _
        rw [E.pq.key_put, h3]; rfl
      · -- removed
        rw [getq, ok_bind, VQueue.remove_eq (by omega) (by simpa using hkey), ok_bind, FMState.setQ_eq hlu]
        refine ⟨FMState.qset_part _ _ _, FMState.qset_visited _ _ _, by rw [FMState.qset_conn]; exact hcv,
          fun _ => ?_, by simp⟩
        refine hq.of_step hlu rfl hvis hu hX hI hbs _ (by exact hcap) fun x => ?_
        show E.pq.key (E.pq.del _ _) x = _
        rw [E.pq.key_del, h3]; rfl
      · -- still in
        have hdel : Conn.delta ({ s with conn := conn' } : FMState E).conn q.1 = _ := hdel
        rw [hdel, ok_bind, hneg, ok_bind, getq, ok_bind,
          VQueue.update_eq (by omega) (by simpa using hkey), ok_bind, FMState.setQ_eq hlu]
        refine ⟨FMState.qset_part _ _ _, FMState.qset_visited _ _ _, by rw [FMState.qset_conn]; exact hcv,
          fun _ => ?_, by simp⟩
        refine hq.of_step hlu rfl hvis hu hX hI hbs _ (by exact hcap) fun x => ?_
        show E.pq.key (E.pq.put _ _ _) x = _
        rw [E.pq.key_put, h3]; rfl

/-! ### one move -/

/-- Weight of the edges of a prefix that lead to `u`. -/
def preW (pre : List (Nat × Nat)) (u : Nat) : Nat := (pre.map fun q => if q.1 == u then q.2 else 0).sum

theorem preW_append (pre : List (Nat × Nat)) (q : Nat × Nat) (u : Nat) :
    preW (pre ++ [q]) u = preW pre u + if q.1 = u then q.2 else 0 := by
  unfold preW; simp

/-- The good states between two FM moves. -/
structure FMGood (g : Graph) (s : FMState E) : Prop where
  part : IsExact g 2 s.part
  conn : ConnExact g s.part.lab s.conn

theorem move_exact {g : Graph} (hg : g.Good) {p : Partitioning} (hp : IsExact g 2 p) {v : Nat} (hv : v < g.nv) :
    Sat (p.move g v (1 - p.lab v)) (fun p' => Tracks g 2 (fun u => some (flip p.lab v u)) p' ∧
      p'.cut = p.cut ∧ p'.asg = p.asg.set v (1 - p.lab v)) := by
  have h2 := hp.complete v hv
  have ht := (hp.tracks (by omega) hg.small).move hg.wf (by omega) hv (q := 1 - p.lab v) (by omega) (by simp)
    (by simp; omega)
  have hcut : May (p.move g v (1 - p.lab v)) (fun p' => p'.cut = p.cut ∧
      p'.asg = p.asg.set v (1 - p.lab v)) := by
    unfold Partitioning.move
    rw [may_iff]
    intro a ha
    revert ha
    cases g.vwgtOf (!g.unitVtx) v <;> simp
    cases rd p.asg v <;> simp
    rename_i w c
    cases rd p.pw c <;> simp
    rename_i o1
    cases wr p.pw c (usub o1 w) <;> simp
    rename_i pw1
    cases rd pw1 (1 - p.lab v) <;> simp
    rename_i o2
    cases wr pw1 (1 - p.lab v) (uadd o2 w) <;> simp
    rw [wr_of_lt (by rw [hp.asg_len]; exact hv)]
    simp
    rintro rfl
    simp
  refine (ht.and_may hcut).mono fun p' h => ⟨?_, h.2⟩
  have e : (fun u => if u = v then some (1 - p.lab v) else some (p.lab u)) =
      fun u => some (flip p.lab v u) := by
    funext u; unfold flip; split <;> rfl
  rw [← e]; exact h.1

/-- The queue discipline for a state with true connectivity. -/
abbrev FMQueues (g : Graph) (s : FMState E) : Prop :=
  QInv g.nv s.part.lab (externalWeight g s.part.lab) (internalWeight g s.part.lab) s

theorem lab_set {g : Graph} {p p' : Partitioning} (hp : IsExact g 2 p) {v : Nat} (hv : v < g.nv)
    (h : p'.asg = p.asg.set v (1 - p.lab v)) : p'.lab = flip p.lab v := by
  funext u
  unfold Partitioning.lab flip
  rw [h, nth_set (by rw [hp.asg_len]; exact hv)]
  rfl

/-- External and internal weights of `u` while the edges of `v` are being swung, after those in `pre`. -/
def XPre (g : Graph) (L : Nat → Nat) (v : Nat) (pre : List (Nat × Nat)) (u : Nat) : Nat :=
  if u = v then internalWeight g L v else
    shiftX (decide (flip L v u = 1 - L v)) (externalWeight g L u) (preW pre u)
def IPre (g : Graph) (L : Nat → Nat) (v : Nat) (pre : List (Nat × Nat)) (u : Nat) : Nat :=
  if u = v then externalWeight g L v else
    shiftI (decide (flip L v u = 1 - L v)) (internalWeight g L u) (preW pre u)

/-- Bounds on the values of a neighbour in the middle of a move. -/
theorem pre_bounds {g : Graph} (hg : g.Good) {L : Nat → Nat} (h2 : ∀ u, u < g.nv → L u < 2) {v : Nat} (hv : v < g.nv)
    {pre post : List (Nat × Nat)} {q : Nat × Nat} (hl : g.nbrs v = pre ++ q :: post) :
    q.1 < g.nv ∧ q.1 ≠ v ∧
    (if decide (flip L v q.1 = 1 - L v) then q.2 ≤ XPre g L v pre q.1 else q.2 ≤ IPre g L v pre q.1) ∧
    XPre g L v pre q.1 + IPre g L v pre q.1 < 2147483648 ∧
    (∀ x, x ≠ q.1 → XPre g L v (pre ++ [q]) x = XPre g L v pre x) ∧
    (∀ x, x ≠ q.1 → IPre g L v (pre ++ [q]) x = IPre g L v pre x) ∧
    XPre g L v (pre ++ [q]) q.1 = shiftX (decide (flip L v q.1 = 1 - L v)) (XPre g L v pre q.1) q.2 ∧
    IPre g L v (pre ++ [q]) q.1 = shiftI (decide (flip L v q.1 = 1 - L v)) (IPre g L v pre q.1) q.2 := by
  have hqm : q ∈ g.nbrs v := by rw [hl]; simp
  have hu : q.1 < g.nv := Graph.nbrs_lt hg.wf hv hqm
  have hne : q.1 ≠ v := hg.noLoop v hv q hqm
  have hlq : flip L v q.1 = L q.1 := flip_ne _ hne
  obtain ⟨_, _, hle⟩ := external_flip_ne (g := g) h2 hv hu hne
  rw [hg.symm q.1 v hu hv] at hle
  -- the prefix plus this edge is at most the whole weight
  have hpre : preW pre q.1 + q.2 ≤ g.wt v q.1 := by
    unfold Graph.wt Graph.wsum preW
    rw [hl]
    simp
  have hb := ext_int_lt hg L hu
  refine ⟨hu, hne, ?_, ?_, ?_, ?_, ?_, ?_⟩
  · simp only [XPre, IPre, if_neg hne, hlq]
    by_cases ht : L q.1 = 1 - L v
    · simp only [ht, decide_true, if_true, shiftX] at hle ⊢
      omega
    · simp only [ht, decide_false, Bool.false_eq_true, if_false, shiftI] at hle ⊢
      omega
  · simp only [XPre, IPre, if_neg hne, hlq]
    by_cases ht : L q.1 = 1 - L v
    · simp only [ht, decide_true, if_true, shiftX, shiftI] at hle ⊢
      omega
    · simp only [ht, decide_false, Bool.false_eq_true, if_false, shiftI, shiftX] at hle ⊢
      omega
  · intro x hx; simp only [XPre]; split
    · rfl
    · rw [preW_append, if_neg (Ne.symm hx), Nat.add_zero]
  · intro x hx; simp only [IPre]; split
    · rfl
    · rw [preW_append, if_neg (Ne.symm hx), Nat.add_zero]
  · simp only [XPre, if_neg hne, preW_append, if_true]
    unfold shiftX; split <;> omega
  · simp only [IPre, if_neg hne, preW_append, if_true]
    unfold shiftI; split <;> omega

theorem fmMove_spec {g : Graph} (hg : g.Good) (queues : Bool) {s : FMState E} (hs : FMGood g s)
    {v dst : Nat} (hv : v < g.nv) (hto : dst = 1 - s.part.lab v)
    (hq : queues = true → FMQueues g s ∧ nth s.visited v = true) :
    Sat (fmMove g queues v dst s) (fun s' => FMGood g s' ∧ s'.part.lab = flip s.part.lab v ∧
      s'.visited = s.visited ∧ (queues = true → FMQueues g s') ∧
      (queues = false → s'.q0 = s.q0 ∧ s'.q1 = s.q1)) := by
  subst hto
  have hv2 := hs.part.complete v hv
  have hval := hs.conn.toVals
  have hlt2 := hs.part.complete
  have hb := fun u (hu : u < g.nv) => ext_int_lt hg s.part.lab hu
  unfold fmMove
  rw [Conn.delta_eq hval hv (hb v hv), ok_bind]
  -- the connectivity after flipping `v` itself
  refine (Conn.move_spec hval hv
    (X' := fun u => if u = v then internalWeight g s.part.lab v else externalWeight g s.part.lab u)
    (I' := fun u => if u = v then externalWeight g s.part.lab v else internalWeight g s.part.lab u)
    (by intro u hu; simp [hu]) (by intro u hu; simp [hu]) (by simp) (by simp)).bind ?_
  rintro ⟨st, conn1⟩ ⟨hc1, hst1, hbs1⟩
  simp only at hc1 hst1 hbs1 ⊢
  refine (move_exact hg hs.part hv).bind ?_
  rintro p1 ⟨hp1, hcut1, hasg1⟩
  have hlab1 : p1.lab = flip s.part.lab v := lab_set hs.part hv hasg1
  rw [Graph.nbrsOf_eq hg.wf hv, ok_bind]
  -- loop
  let L := s.part.lab
  let lab' := flip L v
  have hlab'2 : ∀ u, u < g.nv → lab' u < 2 := flip_lt hlt2 v
  let d := ((internalWeight g L v : Int) - externalWeight g L v)
  have hall : ∀ q ∈ g.nbrs v, q.1 < g.nv := fun q hq => Graph.nbrs_lt hg.wf hv hq
  let XP : List (Nat × Nat) → Nat → Nat := XPre g L v
  let IP : List (Nat × Nat) → Nat → Nat := IPre g L v
  refine (Post_foldlM (P := fun pre (s' : FMState E) => s'.part = p1.addCut d ∧ s'.visited = s.visited ∧
      ConnVals g.nv (XP pre) (IP pre) s'.conn ∧ (queues = true → QInv g.nv lab' (XP pre) (IP pre) s') ∧
      (queues = false → s'.q0 = s.q0 ∧ s'.q1 = s.q1)) ?_ ?_).mono ?_
  · refine ⟨rfl, rfl, hc1.congr ?_ ?_, ?_, fun _ => ⟨rfl, rfl⟩⟩
    · intro u hu; simp only [XP, XPre]; split
      · rfl
      · simp [shiftX, preW, L]
    · intro u hu; simp only [IP, IPre]; split
      · rfl
      · simp [shiftI, preW, L]
    · intro hqt
      obtain ⟨hqi, hvis⟩ := hq hqt
      refine ⟨hqi.vis, hqi.cap, fun side hside u => ?_⟩
      refine (hqi.keys side hside u).trans ?_
      unfold expectKey
      by_cases huv : u = v
      · subst huv; simp [hvis]
      · simp only [XP, IP, XPre, IPre, huv, if_false, hbs1 u huv, lab', flip_ne _ huv]
        simp [shiftX, shiftI, preW, L]
  · rintro pre q post s' hl ⟨hpart, hvis', hcv, hqi, hqs⟩
    obtain ⟨hu, hne, hw, hbb, h1, h2, h3, h4⟩ := pre_bounds hg hlt2 hv hl
    have hasg' : s'.part.asg = p1.asg := by rw [hpart]; rfl
    refine (fmEdge_spec queues (X' := XP (pre ++ [q])) (I' := IP (pre ++ [q])) (lab := lab')
      (by rw [hasg', hasg1, List.length_set, hs.part.asg_len])
      (fun u _ => by rw [hasg']; exact congrFun hlab1 u) hlab'2 hcv hqi hu (by omega) hw hbb h1 h2 h3 h4).mono ?_
    rintro s'' ⟨a, b, c, e, f⟩
    exact ⟨a.trans hpart, b.trans hvis', c, e, fun hf =>
      ⟨(f hf).1.trans (hqs hf).1, (f hf).2.trans (hqs hf).2⟩⟩
  · rintro s' ⟨hpart, hvis', hcv, hqi, hqs⟩
    have hXfin : ∀ u, u < g.nv → XP (g.nbrs v) u = externalWeight g lab' u := by
      intro u hu
      by_cases huv : u = v
      · subst huv
        simp only [XP, XPre, if_true]
        exact (external_flip_self hg.noLoop hlt2 hu).symm
      · obtain ⟨e, _, _⟩ := external_flip_ne (g := g) hlt2 hv hu huv
        rw [hg.symm u v hu hv] at e
        simp only [XP, XPre, if_neg huv]
        rw [flip_ne L huv]
        exact e.symm
    have hIfin : ∀ u, u < g.nv → IP (g.nbrs v) u = internalWeight g lab' u := by
      intro u hu
      by_cases huv : u = v
      · subst huv
        simp only [IP, IPre, if_true]
        exact (internal_flip_self hg.noLoop hlt2 hu).symm
      · obtain ⟨_, e, _⟩ := external_flip_ne (g := g) hlt2 hv hu huv
        rw [hg.symm u v hu hv] at e
        simp only [IP, IPre, if_neg huv]
        rw [flip_ne L huv]
        exact e.symm
    have hlabf : s'.part.lab = lab' := by rw [hpart]; exact hlab1
    have hce : ConnExact g lab' s'.conn := hcv.exact hXfin hIfin
    have hcutf := cut_flip hg.symm hg.noLoop L lab' hv (fun u _ hne => flip_ne _ hne) hlt2 (flip_self _ _)
    have hexact : IsExact g 2 s'.part := by
      rw [hpart]
      refine (hp1.setCut _).exact hg.small ?_
      show uadd p1.cut (ofI32 d) = _
      rw [hcut1, hs.part.cut_eq]
      have h1 := two_cut_le hg.wf hg.symm L
      have h2 := two_cut_le hg.wf hg.symm lab'
      have h3 := hg.small.edge
      have h4 := hb v hv
      change cutWeight g lab' + externalWeight g L v = cutWeight g L + internalWeight g L v at hcutf
      change uadd (cutWeight g L) (ofI32 ((internalWeight g L v : Int) - externalWeight g L v)) =
        cutWeight g lab'
      unfold uadd ofI32
      omega
    refine ⟨⟨hexact, by rw [hlabf]; exact hce⟩, hlabf, hvis', fun hqt => ?_, hqs⟩
    have := hqi hqt
    show QInv g.nv s'.part.lab (externalWeight g s'.part.lab) (internalWeight g s'.part.lab) s'
    rw [hlabf]
    refine ⟨this.vis, this.cap, fun side hside u => (this.keys side hside u).trans ?_⟩
    unfold expectKey
    by_cases hu : u < g.nv
    · rw [hXfin u hu, hIfin u hu]
    · simp [hu]

end Poros
