import Verif.Props.P104_SmallAny
/-
Two-way refinement on graphs that need not be undirected. The connectivity then is not the one of any labelling: a move
updates the targets of the edges of the moved vertex, while the weights were set up from the edges of the vertex itself.
The difference between what is stored and what the incoming edges say does not change, which bounds the stored values.
-/
namespace Poros
open Finset Res

variable {E : Env} {g : Graph}

/-- The weight of the edges to `u`. -/
def inW (g : Graph) (u : Nat) : Nat := ∑ v ∈ range g.nv, g.wt v u

/-- The weight of the edges from `u`. -/
def outW (g : Graph) (u : Nat) : Nat := ∑ v ∈ range g.nv, g.wt u v

/-- The weight of the edges to `u` from the other side, and from its own side. -/
def inExt (g : Graph) (lab : Nat → Nat) (u : Nat) : Nat := ∑ v ∈ range g.nv, if lab v ≠ lab u then g.wt v u else 0
def inInt (g : Graph) (lab : Nat → Nat) (u : Nat) : Nat := ∑ v ∈ range g.nv, if lab v = lab u then g.wt v u else 0

theorem inExt_add_inInt (g : Graph) (lab : Nat → Nat) (u : Nat) : inExt g lab u + inInt g lab u = inW g u := by
  unfold inExt inInt inW
  rw [← sum_add_distrib]
  refine sum_congr rfl fun v _ => ?_
  by_cases h : lab v = lab u <;> simp [h]

theorem outW_eq (hg : g.WF) {u : Nat} (hu : u < g.nv) : outW g u = g.wsum u (fun _ => true) := by
  rw [Graph.wsum_eq_sum hg hu]
  simp [outW]

/-- Without self loops the edges from and to a vertex are different edges. -/
theorem in_add_out (hg : g.WF) (hl : g.NoLoop) {u : Nat} (hu : u < g.nv) : inW g u + outW g u ≤ g.sumEdge := by
  have hs : g.sumEdge = ∑ v ∈ range g.nv, outW g v := by
    unfold Graph.sumEdge
    exact sum_congr rfl fun v hv => (outW_eq hg (mem_range.mp hv)).symm
  rw [hs, ← add_sum_erase _ _ (mem_range.mpr hu)]
  unfold inW
  rw [← add_sum_erase _ _ (mem_range.mpr hu), Graph.wt_self hl hu]
  have : ∑ x ∈ (range g.nv).erase u, g.wt x u ≤ ∑ x ∈ (range g.nv).erase u, outW g x :=
    sum_le_sum fun x _ => single_le_sum (f := fun y => g.wt x y) (fun _ _ => Nat.zero_le _) (mem_range.mpr hu)
  omega

theorem inExt_flip_self (hl : g.NoLoop) {lab : Nat → Nat} (h2 : ∀ u, u < g.nv → lab u < 2) {v : Nat} (hv : v < g.nv) :
    inExt g (flip lab v) v = inInt g lab v ∧ inInt g (flip lab v) v = inExt g lab v := by
  unfold inExt inInt
  constructor <;> refine sum_congr rfl fun u hu => ?_
  all_goals
    have hu := mem_range.mp hu
    have := h2 u hu
    have := h2 v hv
    by_cases huv : u = v
    · subst huv; simp [Graph.wt_self hl hu]
    · rw [flip_self, flip_ne _ huv]
      by_cases he : lab u = lab v
      · have h1 : lab u ≠ 1 - lab v := by omega
        simp only [he, ne_eq, not_true_eq_false, if_true, if_false]
        try (rw [he] at h1; simp [h1])
      · have h1 : lab u = 1 - lab v := by omega
        simp only [h1, ne_eq, not_true_eq_false, if_false, if_true] at he ⊢
        try simp [he]

theorem inExt_flip_ne {lab : Nat → Nat} (h2 : ∀ u, u < g.nv → lab u < 2) {v u : Nat} (hv : v < g.nv) (hu : u < g.nv)
    (hne : u ≠ v) :
    (lab u = 1 - lab v → inExt g (flip lab v) u + g.wt v u = inExt g lab u ∧
      inInt g (flip lab v) u = inInt g lab u + g.wt v u) ∧
    (lab u ≠ 1 - lab v → inExt g (flip lab v) u = inExt g lab u + g.wt v u ∧
      inInt g (flip lab v) u + g.wt v u = inInt g lab u) := by
  have hm : v ∈ range g.nv := mem_range.mpr hv
  have a := h2 u hu
  have b := h2 v hv
  have e : ∀ l : Nat → Nat, inExt g l u = (if l v ≠ l u then g.wt v u else 0) +
      ∑ x ∈ (range g.nv).erase v, if l x ≠ l u then g.wt x u else 0 := fun l => by
    unfold inExt; rw [← add_sum_erase _ _ hm]
  have i : ∀ l : Nat → Nat, inInt g l u = (if l v = l u then g.wt v u else 0) +
      ∑ x ∈ (range g.nv).erase v, if l x = l u then g.wt x u else 0 := fun l => by
    unfold inInt; rw [← add_sum_erase _ _ hm]
  have e1 : (∑ x ∈ (range g.nv).erase v, if flip lab v x ≠ flip lab v u then g.wt x u else 0) =
      ∑ x ∈ (range g.nv).erase v, if lab x ≠ lab u then g.wt x u else 0 :=
    sum_congr rfl fun x hx => by rw [flip_ne _ hne, flip_ne _ (ne_of_mem_erase hx)]
  have i1 : (∑ x ∈ (range g.nv).erase v, if flip lab v x = flip lab v u then g.wt x u else 0) =
      ∑ x ∈ (range g.nv).erase v, if lab x = lab u then g.wt x u else 0 :=
    sum_congr rfl fun x hx => by rw [flip_ne _ hne, flip_ne _ (ne_of_mem_erase hx)]
  rw [e (flip lab v), i (flip lab v), e lab, i lab, e1, i1, flip_self, flip_ne _ hne]
  constructor
  · intro ht
    rw [if_neg (show ¬ (1 - lab v ≠ lab u) by omega), if_pos (show lab v ≠ lab u by omega),
      if_pos (show 1 - lab v = lab u by omega), if_neg (show ¬ (lab v = lab u) by omega)]
    omega
  · intro ht
    rw [if_pos (show 1 - lab v ≠ lab u by omega), if_neg (show ¬ (lab v ≠ lab u) by omega),
      if_neg (show ¬ (1 - lab v = lab u) by omega), if_pos (show lab v = lab u by omega)]
    omega

/-! ### Stored values -/

/-- A stored pair that differs from `(x, i)` by amounts between `-a` and `b`, modulo 2^32. -/
def Near (a b : Nat) (x i : Int) (c : Nat × Nat) : Prop :=
  ∃ d e : Int, -(a : Int) ≤ d ∧ d ≤ b ∧ -(a : Int) ≤ e ∧ e ≤ b ∧
    (c.1 : Int) = (x + d) % 4294967296 ∧ (c.2 : Int) = (i + e) % 4294967296

theorem Near.swap {a b : Nat} {x i : Int} {c : Nat × Nat} (h : Near a b x i c) : Near a b i x (c.2, c.1) := by
  obtain ⟨d, e, h1, h2, h3, h4, h5, h6⟩ := h
  exact ⟨e, d, h3, h4, h1, h2, h6, h5⟩

theorem Near.shift {a b : Nat} {x i : Int} {c : Nat × Nat} (h : Near a b x i c) (tow : Bool) (w : Nat) :
    Near a b (x - (if tow then (w : Int) else -w)) (i + (if tow then (w : Int) else -w))
      (usub c.1 (umulI (if tow then 1 else -1) w), uadd c.2 (umulI (if tow then 1 else -1) w)) := by
  obtain ⟨d, e, h1, h2, h3, h4, h5, h6⟩ := h
  refine ⟨d, e, h1, h2, h3, h4, ?_, ?_⟩
  · cases tow <;> simp only [Bool.false_eq_true, if_false, if_true, usub, umulI] <;> omega
  · cases tow <;> simp only [Bool.false_eq_true, if_false, if_true, uadd, umulI] <;> omega

theorem toI32_of_mod {n : Nat} {z : Int} (h : (n : Int) = z % 4294967296) (h1 : -2147483648 ≤ z) (h2 : z < 2147483648) :
    toI32 n = z := by
  unfold toI32
  split <;> omega

/-- The difference of such a pair can be computed. -/
theorem Near.delta {P : SetImpl} {a b : Nat} {x i : Int} {c : Conn P} {v : Nat} (hv : v < c.con.length)
    (h : Near a b x i (nth c.con v)) (hx : 0 ≤ x) (hi : 0 ≤ i) (hs : x + i = a) (hb : a + b < 1073741824) :
    ∃ d, c.delta v = ok d ∧ ineg d = ok (-d) := by
  obtain ⟨d, e, h1, h2, h3, h4, h5, h6⟩ := h
  refine ⟨(i + e) - (x + d), ?_, ?_⟩
  · unfold Conn.delta
    rw [rd_of_lt hv, ok_bind, toI32_of_mod h5 (by omega) (by omega), toI32_of_mod h6 (by omega) (by omega),
      isub_eq (by omega) (by omega)]
  · unfold ineg
    rw [isub_eq (by omega) (by omega)]
    congr 1
    omega

/-- Connectivity whose values are near the functions `X` and `I`. -/
structure DConn {P : SetImpl} (g : Graph) (X I : Nat → Int) (c : Conn P) : Prop where
  len : c.con.length = g.nv
  cap : c.border.cap = g.nv
  only : ∀ v, P.has c.border.s v = true → v < g.nv
  vals : ∀ v, v < g.nv → Near (inW g v) (outW g v) (X v) (I v) (nth c.con v)

/-- Storing new values at `v` and refreshing the border. -/
theorem DConn.store {P : SetImpl} {X I X' I' : Nat → Int} {c : Conn P} (h : DConn g X I c) {v : Nat} (hv : v < g.nv)
    (hX : ∀ u, u ≠ v → X' u = X u) (hI : ∀ u, u ≠ v → I' u = I u) {z : Nat × Nat}
    (hz : Near (inW g v) (outW g v) (X' v) (I' v) z) :
    Sat (Conn.updateBorderStatus { c with con := c.con.set v z } v) (fun r =>
      DConn g X' I' r.2 ∧ BorderStep v c r.2 r.1) := by
  have hvc : v < c.con.length := by rw [h.len]; exact hv
  have hvals : ∀ u, u < g.nv → Near (inW g u) (outW g u) (X' u) (I' u) (nth (c.con.set v z) u) := by
    intro u hu
    rw [nth_set hvc]
    split
    · subst_vars; exact hz
    · rename_i hne; rw [hX u hne, hI u hne]; exact h.vals u hu
  have hbc : v < c.border.cap := by rw [h.cap]; exact hv
  unfold Conn.updateBorderStatus
  rw [VSet.has_eq (show v < c.border.cap from hbc), ok_bind, rd_of_lt (by simpa using hvc), ok_bind]
  have done : ∀ (b : VSet P), b.cap = c.border.cap → (∀ u, u ≠ v → P.has b.s u = P.has c.border.s u) →
      DConn g X' I' (⟨b, c.con.set v z⟩ : Conn P) := by
    intro b hb ho
    refine ⟨by simp [h.len], hb.trans h.cap, fun u hu => ?_, hvals⟩
    by_cases huv : u = v
    · rw [huv]; exact hv
    · exact h.only u (by rw [← ho u huv]; exact hu)
  cases hb : P.has c.border.s v
  · simp only [Bool.false_eq_true, if_false]
    split
    · rw [VSet.add_eq (show v < c.border.cap from hbc) hb, ok_bind]
      have ho : ∀ u, u ≠ v → P.has (P.ins c.border.s v) u = P.has c.border.s u := fun u hu => by rw [P.has_ins, if_neg hu]
      refine ⟨done { c.border with s := P.ins c.border.s v } rfl ho, ?_, ho⟩
      show _ = statusOf (P.has c.border.s v) (P.has (P.ins c.border.s v) v)
      rw [hb, P.has_ins, if_pos rfl]; rfl
    · refine ⟨done c.border rfl fun _ _ => rfl, ?_, fun _ _ => rfl⟩
      show _ = statusOf (P.has c.border.s v) (P.has c.border.s v)
      rw [hb]; rfl
  · simp only [if_true]
    split
    · rw [VSet.remove_eq (show v < c.border.cap from hbc) hb, ok_bind]
      have ho : ∀ u, u ≠ v → P.has (P.del c.border.s v) u = P.has c.border.s u := fun u hu => by rw [P.has_del, if_neg hu]
      refine ⟨done { c.border with s := P.del c.border.s v } rfl ho, ?_, ho⟩
      show _ = statusOf (P.has c.border.s v) (P.has (P.del c.border.s v) v)
      rw [hb, P.has_del, if_pos rfl]; rfl
    · refine ⟨done c.border rfl fun _ _ => rfl, ?_, fun _ _ => rfl⟩
      show _ = statusOf (P.has c.border.s v) (P.has c.border.s v)
      rw [hb]; rfl

/-! ### One edge -/

/-- The queue of a side holds the unvisited border vertices of the side. -/
structure DQueues (n : Nat) (lab : Nat → Nat) (s : FMState E) : Prop where
  vis : s.visited.length = n
  cap : ∀ side, side < 2 → (s.qsel side).cap = n
  keys : ∀ side, side < 2 → ∀ u, (E.pq.key (s.qsel side).q u).isSome =
    decide (u < n ∧ nth s.visited u = false ∧ lab u = side ∧ E.set.has s.conn.border.s u = true)

theorem DQueues.of_step {n : Nat} {lab : Nat → Nat} {s : FMState E} {conn' : Conn E.set} (h : DQueues n lab s) {u : Nat}
    (hu : u < n) (hs : lab u < 2) (hvis : nth s.visited u = false)
    (hb : ∀ x, x ≠ u → E.set.has conn'.border.s x = E.set.has s.conn.border.s x)
    (q' : VQueue E.pq) (hcap : q'.cap = n)
    (hq : ∀ x, (E.pq.key q'.q x).isSome =
      if x = u then E.set.has conn'.border.s u else (E.pq.key (s.qsel (lab u)).q x).isSome) :
    DQueues n lab (FMState.qset { s with conn := conn' } (lab u) q') := by
  refine ⟨by rw [FMState.qset_visited]; exact h.vis, fun side hside => ?_, fun side hside x => ?_⟩
  · rw [FMState.qset_qsel hs hside]
    split
    · exact hcap
    · exact h.cap side hside
  · rw [FMState.qset_qsel hs hside, FMState.qset_visited, FMState.qset_conn]
    by_cases hsd : side = lab u
    · rw [if_pos hsd, hq]
      by_cases hx : x = u
      · rw [if_pos hx, hx]
        simp [hu, hvis, hsd]
      · rw [if_neg hx, h.keys _ hs, hsd]
        simp only [hb x hx]
    · rw [if_neg hsd]
      refine (h.keys side hside x).trans ?_
      by_cases hx : x = u
      · rw [hx]; simp [Ne.symm hsd]
      · simp only [hb x hx]

theorem DQueues.of_same {n : Nat} {lab : Nat → Nat} {s : FMState E} {conn' : Conn E.set} (h : DQueues n lab s) {u : Nat}
    (hu : nth s.visited u = true ∨ E.set.has conn'.border.s u = E.set.has s.conn.border.s u)
    (hb : ∀ x, x ≠ u → E.set.has conn'.border.s x = E.set.has s.conn.border.s x) :
    DQueues n lab { s with conn := conn' } := by
  refine ⟨h.vis, h.cap, fun side hside x => (h.keys side hside x).trans ?_⟩
  by_cases hx : x = u
  · rw [hx]
    rcases hu with hu | hu
    · simp [hu]
    · simp only [hu]
  · simp only [hb x hx]

theorem fmEdge_any (queues : Bool) {dst : Nat} {lab : Nat → Nat} {X I X' I' : Nat → Int} {s : FMState E} {q : Nat × Nat}
    (hasg : s.part.asg.length = g.nv) (hlab : ∀ u, u < g.nv → nth s.part.asg u = lab u)
    (h2 : ∀ u, u < g.nv → lab u < 2) (hc : DConn g X I s.conn)
    (hq : queues = true → DQueues g.nv lab s) (hu : q.1 < g.nv) (hto : dst < 2)
    (hX : ∀ x, x ≠ q.1 → X' x = X x) (hI : ∀ x, x ≠ q.1 → I' x = I x)
    (hXu : X' q.1 = X q.1 - (if decide (lab q.1 = dst) then (q.2 : Int) else -q.2))
    (hIu : I' q.1 = I q.1 + (if decide (lab q.1 = dst) then (q.2 : Int) else -q.2))
    (h0 : 0 ≤ X' q.1) (h1 : 0 ≤ I' q.1) (hs : X' q.1 + I' q.1 = inW g q.1)
    (hb : inW g q.1 + outW g q.1 < 1073741824) :
    Sat (fmEdge queues dst s q) (fun s' => s'.part = s.part ∧ s'.visited = s.visited ∧
      DConn g X' I' s'.conn ∧ (queues = true → DQueues g.nv lab s') ∧
      (queues = false → s'.q0 = s.q0 ∧ s'.q1 = s.q1)) := by
  have hlu := h2 q.1 hu
  unfold fmEdge
  simp only
  rw [rd_of_lt (by omega), ok_bind, hlab q.1 hu, getDirection_eq hto hlu, ok_bind]
  have hup : Sat (s.conn.updateNeighbor q.1 q.2 (if decide (lab q.1 = dst) then 1 else -1)) (fun r =>
      DConn g X' I' r.2 ∧ BorderStep q.1 s.conn r.2 r.1) := by
    unfold Conn.updateNeighbor
    rw [rd_of_lt (by rw [hc.len]; exact hu), ok_bind, wr_of_lt (by rw [hc.len]; exact hu), ok_bind]
    refine hc.store hu hX hI ?_
    rw [hXu, hIu]
    exact (hc.vals q.1 hu).shift _ _
  refine hup.bind ?_
  rintro ⟨st, conn'⟩ ⟨hcv, hst, hbs⟩
  simp only at hcv hst hbs ⊢
  cases queues with
  | false => exact ⟨rfl, rfl, hcv, by simp, fun _ => ⟨rfl, rfl⟩⟩
  | true =>
    have hq := hq rfl
    simp only [if_true]
    rw [rd_of_lt (by rw [hq.vis]; exact hu), ok_bind]
    cases hvis : nth s.visited q.1 with
    | true =>
      simp only [if_true]
      exact ⟨rfl, rfl, hcv, fun _ => hq.of_same (Or.inl hvis) hbs, by simp⟩
    | false =>
      simp only [Bool.false_eq_true, if_false]
      have hkey := hq.keys (lab q.1) hlu q.1
      simp only [hu, hvis, true_and] at hkey
      have hcap := hq.cap (lab q.1) hlu
      obtain ⟨d, hdel, hneg⟩ := (hcv.vals q.1 hu).delta (by rw [hcv.len]; exact hu) h0 h1 hs hb
      have getq : FMState.getQ { s with conn := conn' } (lab q.1) = ok (s.qsel (lab q.1)) := FMState.getQ_eq hlu
      have hdel : Conn.delta ({ s with conn := conn' } : FMState E).conn q.1 = _ := hdel
      have fin : ∀ q' : VQueue E.pq, q'.cap = g.nv → (∀ x, (E.pq.key q'.q x).isSome =
          if x = q.1 then E.set.has conn'.border.s q.1 else (E.pq.key (s.qsel (lab q.1)).q x).isSome) →
          Sat (ok (FMState.qset { s with conn := conn' } (lab q.1) q')) (fun s' => s'.part = s.part ∧
            s'.visited = s.visited ∧ DConn g X' I' s'.conn ∧ (True → DQueues g.nv lab s') ∧
            (true = false → s'.q0 = s.q0 ∧ s'.q1 = s.q1)) := by
        intro q' h1 h2
        exact ⟨FMState.qset_part _ _ _, FMState.qset_visited _ _ _, by rw [FMState.qset_conn]; exact hcv,
          fun _ => hq.of_step hu hlu hvis hbs q' h1 h2, by simp⟩
      cases h1 : E.set.has s.conn.border.s q.1 <;> cases h3 : E.set.has conn'.border.s q.1 <;>
        rw [h1, h3] at hst <;> subst hst <;> simp only [statusOf] <;> rw [h1] at hkey
      · exact ⟨rfl, rfl, hcv, fun _ => hq.of_same (Or.inr (by rw [h1, h3])) hbs, by simp⟩
      · rw [hdel, ok_bind, hneg, ok_bind, getq, ok_bind, VQueue.add_eq (by omega) (by simpa using hkey), ok_bind,
          FMState.setQ_eq hlu]
        refine fin _ (by exact hcap) fun x => ?_
        show (E.pq.key (E.pq.put _ _ _) x).isSome = _
        rw [E.pq.key_put, h3]
        split <;> rfl
      · obtain ⟨k, hk⟩ := Option.isSome_iff_exists.mp (show _ = true by rw [hkey]; simp)
        rw [getq, ok_bind, VQueue.remove_eq (by omega) hk, ok_bind, FMState.setQ_eq hlu]
        refine fin _ (by exact hcap) fun x => ?_
        show (E.pq.key (E.pq.del _ _) x).isSome = _
        rw [E.pq.key_del, h3]
        split <;> rfl
      · obtain ⟨k, hk⟩ := Option.isSome_iff_exists.mp (show _ = true by rw [hkey]; simp)
        rw [hdel, ok_bind, hneg, ok_bind, getq, ok_bind, VQueue.update_eq (by omega) hk, ok_bind, FMState.setQ_eq hlu]
        refine fin _ (by exact hcap) fun x => ?_
        show (E.pq.key (E.pq.put _ _ _) x).isSome = _
        rw [E.pq.key_put, h3]
        split <;> rfl

/-! ### One move -/

/-- A graph for the theorems of this file. -/
structure Graph.Free (g : Graph) : Prop where
  wf : g.WF
  noLoop : g.NoLoop
  vtx : g.sumVtx < M32
  edge : g.sumEdge < 1073741824

/-- Connectivity as it can be during the refinement of a bisection with the given labels. -/
abbrev DExact {P : SetImpl} (g : Graph) (lab : Nat → Nat) (c : Conn P) : Prop :=
  DConn g (fun u => (inExt g lab u : Int)) (fun u => (inInt g lab u : Int)) c

structure FMAny (g : Graph) (s : FMState E) : Prop where
  part : Kept g s.part
  conn : DExact g s.part.lab s.conn

theorem Kept.setCut {p : Partitioning} (h : Kept g p) (c : Nat) : Kept g { p with cut := c } :=
  Tracks.setCut h c

theorem relabel_flip (lab : Nat → Nat) (v : Nat) : relabel lab v (1 - lab v) = flip lab v := by
  funext u
  unfold relabel flip
  split
  · subst_vars; rfl
  · rfl

theorem fmMove_any (hg : g.Free) (queues : Bool) {s : FMState E} (hs : FMAny g s) {v dst : Nat} (hv : v < g.nv)
    (hto : dst = 1 - s.part.lab v) (hq : queues = true → DQueues g.nv s.part.lab s ∧ nth s.visited v = true) :
    Sat (fmMove g queues v dst s) (fun s' => FMAny g s' ∧ s'.part.lab = flip s.part.lab v ∧ s'.visited = s.visited ∧
      (queues = true → DQueues g.nv s'.part.lab s') ∧ (queues = false → s'.q0 = s.q0 ∧ s'.q1 = s.q1)) := by
  subst hto
  have hlt2 : ∀ u, u < g.nv → s.part.lab u < 2 := fun u hu => hs.part.lt hu
  have hv2 := hlt2 v hv
  have hbd : ∀ u, u < g.nv → inW g u + outW g u < 1073741824 := fun u hu =>
    lt_of_le_of_lt (in_add_out hg.wf hg.noLoop hu) hg.edge
  unfold fmMove
  obtain ⟨d, hd, -⟩ := (hs.conn.vals v hv).delta (by rw [hs.conn.len]; exact hv) (by omega) (by omega)
    (by have := inExt_add_inInt g s.part.lab v; omega) (hbd v hv)
  rw [hd, ok_bind]
  let L := s.part.lab
  have hmv : Sat (s.conn.move v) (fun r =>
      DConn g (fun u => if u = v then (inInt g L v : Int) else inExt g L u)
        (fun u => if u = v then (inExt g L v : Int) else inInt g L u) r.2 ∧ BorderStep v s.conn r.2 r.1) := by
    unfold Conn.move
    rw [rd_of_lt (by rw [hs.conn.len]; exact hv), ok_bind, wr_of_lt (by rw [hs.conn.len]; exact hv), ok_bind]
    refine hs.conn.store hv (fun u hu => if_neg hu) (fun u hu => if_neg hu) ?_
    rw [if_pos rfl, if_pos rfl]
    exact (hs.conn.vals v hv).swap
  refine hmv.bind ?_
  rintro ⟨st, conn1⟩ ⟨hc1, -, hbs1⟩
  simp only at hc1 hbs1 ⊢
  refine ((hs.part.move hg.wf hv (q := 1 - s.part.lab v) (by omega) (by omega))).bind ?_
  rintro p1 ⟨hp1, hlab1⟩
  rw [relabel_flip] at hlab1
  rw [Graph.nbrsOf_eq hg.wf hv, ok_bind]
  let lab' := flip L v
  have hlab'2 : ∀ u, u < g.nv → lab' u < 2 := flip_lt hlt2 v
  let sg : Nat → Nat → Int := fun u w => if decide (lab' u = 1 - L v) then (w : Int) else -w
  let XP : List (Nat × Nat) → Nat → Int := fun pre u =>
    if u = v then (inInt g L v : Int) else inExt g L u - sg u (preW pre u)
  let IP : List (Nat × Nat) → Nat → Int := fun pre u =>
    if u = v then (inExt g L v : Int) else inInt g L u + sg u (preW pre u)
  refine (Post_foldlM (P := fun pre (s' : FMState E) => s'.part = p1.addCut d ∧ s'.visited = s.visited ∧
      DConn g (XP pre) (IP pre) s'.conn ∧ (queues = true → DQueues g.nv lab' s') ∧
      (queues = false → s'.q0 = s.q0 ∧ s'.q1 = s.q1)) ?_ ?_).mono ?_
  · refine ⟨rfl, rfl, ?_, fun hqt => ?_, fun _ => ⟨rfl, rfl⟩⟩
    · have e1 : XP [] = fun u => if u = v then (inInt g L v : Int) else inExt g L u := by
        funext u; simp [XP, sg, preW]
      have e2 : IP [] = fun u => if u = v then (inExt g L v : Int) else inInt g L u := by
        funext u; simp [IP, sg, preW]
      rw [e1, e2]; exact hc1
    · obtain ⟨hqi, hvis⟩ := hq hqt
      refine ⟨hqi.vis, hqi.cap, fun side hside u => (hqi.keys side hside u).trans ?_⟩
      by_cases huv : u = v
      · subst huv; simp [hvis]
      · simp only [hbs1 u huv, lab', flip_ne _ huv, L]
  · rintro pre q post s' hl ⟨hpart, hvis', hcv, hqi, hqs⟩
    have hqm : q ∈ g.nbrs v := by rw [hl]; simp
    have hu : q.1 < g.nv := Graph.nbrs_lt hg.wf hv hqm
    have hne : q.1 ≠ v := hg.noLoop v hv q hqm
    have hpre : preW pre q.1 + q.2 ≤ g.wt v q.1 := by
      unfold Graph.wt Graph.wsum preW
      rw [hl]
      simp
    have hasg' : s'.part.asg = p1.asg := by rw [hpart]; rfl
    have hlq : lab' q.1 = L q.1 := flip_ne _ hne
    obtain ⟨ht, hf⟩ := inExt_flip_ne (g := g) (lab := L) hlt2 hv hu hne
    have hsum := inExt_add_inInt g L q.1
    have hother : ∀ x, x ≠ q.1 → preW (pre ++ [q]) x = preW pre x := fun x hx => by
      rw [preW_append, if_neg (Ne.symm hx), Nat.add_zero]
    have hthis : preW (pre ++ [q]) q.1 = preW pre q.1 + q.2 := by rw [preW_append, if_pos rfl]
    refine (fmEdge_any (g := g) queues (X' := XP (pre ++ [q])) (I' := IP (pre ++ [q])) (lab := lab') (dst := 1 - L v)
      (by rw [hasg', Tracks.asg_len hp1])
      (fun u _ => by rw [hasg']; exact congrFun hlab1 u) hlab'2 hcv hqi hu (by omega)
      (fun x hx => by simp only [XP, hother x hx]) (fun x hx => by simp only [IP, hother x hx]) ?_ ?_ ?_ ?_ ?_
      (hbd _ hu)).mono ?_
    · simp only [XP, if_neg hne, hthis, sg]
      split <;> omega
    · simp only [IP, if_neg hne, hthis, sg]
      split <;> omega
    · simp only [XP, if_neg hne, hthis, sg, hlq]
      by_cases hh : L q.1 = 1 - L v
      · have := (ht hh).1
        simp only [hh, decide_true, if_true]
        omega
      · simp only [hh, decide_false, Bool.false_eq_true, if_false]
        omega
    · simp only [IP, if_neg hne, hthis, sg, hlq]
      by_cases hh : L q.1 = 1 - L v
      · simp only [hh, decide_true, if_true]
        omega
      · have := (hf hh).2
        simp only [hh, decide_false, Bool.false_eq_true, if_false]
        omega
    · simp only [XP, IP, if_neg hne]
      omega
    · rintro s'' ⟨a, b, c, e, f⟩
      exact ⟨a.trans hpart, b.trans hvis', c, e, fun hf =>
        ⟨(f hf).1.trans (hqs hf).1, (f hf).2.trans (hqs hf).2⟩⟩
  · rintro s' ⟨hpart, hvis', hcv, hqi, hqs⟩
    have hlab2 : s'.part.lab = lab' := by rw [hpart]; exact hlab1
    have hpw : ∀ u, preW (g.nbrs v) u = g.wt v u := fun u => rfl
    have hX : ∀ u, u < g.nv → XP (g.nbrs v) u = inExt g lab' u ∧ IP (g.nbrs v) u = inInt g lab' u := by
      intro u hu
      by_cases huv : u = v
      · obtain ⟨e1, e2⟩ := inExt_flip_self hg.noLoop hlt2 hv
        simp only [XP, IP, huv, if_true]
        rw [show inExt g lab' v = inInt g L v from e1, show inInt g lab' v = inExt g L v from e2]
        exact ⟨rfl, rfl⟩
      · obtain ⟨ht, hf⟩ := inExt_flip_ne (g := g) (lab := L) hlt2 hv hu huv
        simp only [XP, IP, if_neg huv, hpw, sg, show lab' u = L u from flip_ne _ huv]
        by_cases hh : L u = 1 - L v
        · obtain ⟨a, b⟩ := ht hh
          simp only [hh, decide_true, if_true]
          constructor
          · show _ = ((inExt g (flip L v) u : Nat) : Int); omega
          · show _ = ((inInt g (flip L v) u : Nat) : Int); omega
        · obtain ⟨a, b⟩ := hf hh
          simp only [hh, decide_false, Bool.false_eq_true, if_false]
          constructor
          · show _ = ((inExt g (flip L v) u : Nat) : Int); omega
          · show _ = ((inInt g (flip L v) u : Nat) : Int); omega
    refine ⟨⟨?_, ?_⟩, hlab2, hvis', fun h => ?_, hqs⟩
    · rw [hpart]; exact hp1.setCut _
    · rw [hlab2]
      exact ⟨hcv.len, hcv.cap, hcv.only, fun u hu => by
        have := hcv.vals u hu
        rw [(hX u hu).1, (hX u hu).2] at this
        exact this⟩
    · rw [hlab2]; exact hqi h

/-! ### One pass -/

theorem isOverWeight_any {t : Target E.fp} (ht : t.Two) {p : Partitioning} (hp : Kept g p) {q : Nat} (hq : q < 2) :
    ∃ b, isOverWeight p t q = ok b := by
  unfold isOverWeight
  rw [rd_of_lt (by rw [ht.mx]; exact hq), ok_bind, hp.rd_pw hq, ok_bind]
  exact ⟨_, rfl⟩

theorem pickSide_any {t : Target E.fp} (ht : t.Two) {s : FMState E} (hp : Kept g s.part)
    (hne : s.q0.size > 0 ∨ s.q1.size > 0) :
    Sat (pickSide s t) (fun side => side < 2 ∧ (s.qsel side).size > 0) := by
  unfold pickSide
  obtain ⟨b0, h0⟩ := isOverWeight_any ht hp (q := 0) (by omega)
  obtain ⟨b1, h1⟩ := isOverWeight_any ht hp (q := 1) (by omega)
  rw [h0, ok_bind]
  split
  · rename_i c0
    simp at c0
    exact ⟨by omega, c0.2⟩
  · rw [h1, ok_bind]
    split
    · rename_i c1
      simp at c1
      exact ⟨by omega, c1.2⟩
    · by_cases e0 : s.q0.size = 0
      · rw [if_pos e0]
        refine ⟨by omega, ?_⟩
        show s.q1.size > 0
        omega
      · rw [if_neg e0]
        by_cases e1 : s.q1.size = 0
        · rw [if_pos e1]
          refine ⟨by omega, ?_⟩
          show s.q0.size > 0
          omega
        · rw [if_neg e1]
          obtain ⟨m0, hm0, _⟩ := VQueue.top_of_size (q := s.q0) (by omega)
          obtain ⟨m1, hm1, _⟩ := VQueue.top_of_size (q := s.q1) (by omega)
          have x0 : s.q0.max = ok m0 := by unfold VQueue.max; rw [hm0]
          have x1 : s.q1.max = ok m1 := by unfold VQueue.max; rw [hm1]
          have p0 : s.q0.peek = ok (E.pq.top s.q0.q) := by unfold VQueue.peek; rw [hm0]
          have p1 : s.q1.peek = ok (E.pq.top s.q1.q) := by unfold VQueue.peek; rw [hm1]
          rw [x0, ok_bind, x1, ok_bind]
          have z0 : (s.qsel 0).size > 0 := by show s.q0.size > 0; omega
          have z1 : (s.qsel 1).size > 0 := by show s.q1.size > 0; omega
          split
          · exact ⟨by omega, z0⟩
          · split
            · exact ⟨by omega, z1⟩
            · rw [p0, ok_bind, p1, ok_bind]
              have : uadd (E.pq.top s.q0.q) (E.pq.top s.q1.q) % 2 = 0 ∨
                  uadd (E.pq.top s.q0.q) (E.pq.top s.q1.q) % 2 = 1 := by omega
              rcases this with h | h <;> rw [h]
              · exact ⟨by omega, z0⟩
              · exact ⟨by omega, z1⟩

theorem fillQueues_any (hg : g.Free) {s : FMState E} (hs : FMAny g s) (hf : FMFresh g s) :
    Sat (fillQueues s) (fun s' => s'.part = s.part ∧ s'.conn = s.conn ∧ s'.visited = s.visited ∧
      DQueues g.nv s.part.lab s') := by
  unfold fillQueues
  have hel : ∀ v, v ∈ s.conn.border.elems ↔ E.set.has s.conn.border.s v = true := fun v => E.set.mem_elems _ v
  refine (Post_foldlM (P := fun pre (s' : FMState E) => s'.part = s.part ∧ s'.conn = s.conn ∧
    s'.visited = s.visited ∧ (∀ side, side < 2 → (s'.qsel side).cap = g.nv) ∧
    ∀ side, side < 2 → ∀ u, (E.pq.key (s'.qsel side).q u).isSome = decide (u ∈ pre ∧ s.part.lab u = side)) ?_ ?_).mono ?_
  · exact ⟨rfl, rfl, rfl, hf.cap, fun side hside u => by simp [hf.keys side hside u]⟩
  · rintro pre v post s' hl ⟨hp, hc, hv', hcap, hk⟩
    have hvm : E.set.has s.conn.border.s v = true := (hel v).mp (by rw [hl]; simp)
    have hv : v < g.nv := hs.conn.only v hvm
    have h2 := hs.part.lt hv
    have hnd : (pre ++ v :: post).Nodup := by rw [← hl]; exact E.set.nodup_elems _
    have hvpre : v ∉ pre := by
      intro h
      rw [List.nodup_append] at hnd
      exact hnd.2.2 v h v (by simp) rfl
    rw [hp, rd_of_lt (by rw [Tracks.asg_len hs.part]; exact hv), ok_bind]
    change Post _ (do
      let d ← s'.conn.delta v
      let k ← ineg d
      let pq ← s'.getQ (s.part.lab v)
      let pq ← pq.add k v
      s'.setQ (s.part.lab v) pq) _
    obtain ⟨d, hd, hneg⟩ := (hs.conn.vals v hv).delta (by rw [hs.conn.len]; exact hv) (by omega) (by omega)
      (by have := inExt_add_inInt g s.part.lab v; omega)
      (lt_of_le_of_lt (in_add_out hg.wf hg.noLoop hv) hg.edge)
    rw [hc, hd, ok_bind, hneg, ok_bind, FMState.getQ_eq h2, ok_bind, VQueue.add_eq (by rw [hcap _ h2]; exact hv)
      (by have := hk _ h2 v; simpa [hvpre] using this), ok_bind, FMState.setQ_eq h2]
    refine ⟨by rw [FMState.qset_part]; exact hp, by rw [FMState.qset_conn]; exact hc,
      by rw [FMState.qset_visited]; exact hv', ?_, ?_⟩
    · intro side hside
      rw [FMState.qset_qsel h2 hside]
      split
      · exact hcap _ h2
      · exact hcap _ hside
    · intro side hside u
      rw [FMState.qset_qsel h2 hside]
      by_cases hsd : side = s.part.lab v
      · rw [if_pos hsd]
        show (E.pq.key (E.pq.put _ _ _) u).isSome = _
        rw [E.pq.key_put]
        by_cases huv : u = v
        · subst huv; simp [hsd]
        · rw [if_neg huv, hk _ h2]; simp [huv, hsd]
      · rw [if_neg hsd, hk _ hside]
        by_cases huv : u = v
        · subst huv; simp [Ne.symm hsd]
        · simp [huv]
  · rintro s' ⟨hp, hc, hv, hcap, hk⟩
    refine ⟨hp, hc, hv, by rw [hv, hf.visited]; simp, hcap, fun side hside u => ?_⟩
    rw [hk side hside u, hc, hv, hf.visited]
    congr 1
    apply propext
    rw [hel u]
    constructor
    · rintro ⟨a, b⟩
      have := hs.conn.only u a
      exact ⟨this, nth_replicate this, b, a⟩
    · rintro ⟨_, _, b, a⟩; exact ⟨a, b⟩

/-- The number of vertices that have not been moved in this pass. -/
def unmoved (g : Graph) (visited : List Bool) : Nat := ((range g.nv).filter fun u => nth visited u = false).card

theorem unmoved_set {visited : List Bool} (hl : visited.length = g.nv) {v : Nat} (hv : v < g.nv)
    (h : nth visited v = false) : unmoved g (visited.set v true) < unmoved g visited := by
  unfold unmoved
  refine card_lt_card ⟨fun u hu => ?_, fun hsub => ?_⟩
  · rw [mem_filter, nth_set (by omega)] at hu
    rw [mem_filter]
    refine ⟨hu.1, ?_⟩
    have := hu.2
    split at this
    · cases this
    · exact this
  · have : v ∈ (range g.nv).filter fun u => nth (visited.set v true) u = false :=
      hsub (by rw [mem_filter]; exact ⟨mem_range.mpr hv, h⟩)
    rw [mem_filter, nth_set_self (by omega)] at this
    cases this.2

theorem Graph.Free.small (hg : g.Free) : g.Small := ⟨hg.vtx, by have := hg.edge; omega⟩

theorem Kept.weighed (hg : g.Free) {p : Partitioning} (h : Kept g p) : Weighed g 2 p := Tracks.weighed hg.small h

/-- Invariant of the move loop. -/
structure PassAny (g : Graph) (t : Target E.fp) (Q : (Nat → Nat) → Prop) (ps : PassState E) : Prop where
  any : FMAny g ps.s
  queues : DQueues g.nv ps.s.part.lab ps.s
  moves : ∀ v ∈ ps.moves, v < g.nv
  best : ∃ best, Q best ∧ (∀ v, v < g.nv → best v < 2) ∧ ps.bestBal = maxImbalance g t best ∧
    ps.s.part.lab = ps.moves.foldl flip best

theorem fmStep_any (hg : g.Free) {t : Target E.fp} (ht : t.Two) {Q : (Nat → Nat) → Prop} (hQ : Keepable g t Q)
    {ps : PassState E} (h : PassAny g t Q ps) (hne : ps.s.q0.size > 0 ∨ ps.s.q1.size > 0) :
    Sat (fmStep g t ps) (fun ps' => PassAny g t Q ps' ∧ unmoved g ps'.s.visited < unmoved g ps.s.visited) := by
  unfold fmStep
  refine (pickSide_any ht h.any.part hne).bind ?_
  rintro side ⟨hside, hsz⟩
  simp only
  rw [FMState.getQ_eq hside, ok_bind]
  obtain ⟨m, hm, _⟩ := VQueue.top_of_size hsz
  generalize hv : E.pq.top (ps.s.qsel side).q = v at hm
  have hpop : (ps.s.qsel side).pop = ok (v, { ps.s.qsel side with q := E.pq.del (ps.s.qsel side).q v }) := by
    unfold VQueue.pop; rw [hv, hm]
  rw [hpop, ok_bind]
  simp only
  rw [FMState.setQ_eq hside, ok_bind]
  have hkey := h.queues.keys side hside v
  rw [hm] at hkey
  obtain ⟨hvn, hvis, hlab, hhas⟩ := of_decide_eq_true hkey.symm
  rw [FMState.qset_visited, wr_of_lt (by rw [h.queues.vis]; exact hvn), ok_bind]
  generalize hs1 : ({ FMState.qset ps.s side { ps.s.qsel side with q := E.pq.del (ps.s.qsel side).q v }
    with visited := ps.s.visited.set v true } : FMState E) = s1
  have e_part : s1.part = ps.s.part := by rw [← hs1]; exact FMState.qset_part _ _ _
  have e_conn : s1.conn = ps.s.conn := by rw [← hs1]; exact FMState.qset_conn _ _ _
  have e_vis : s1.visited = ps.s.visited.set v true := by rw [← hs1]
  have e_q : ∀ side', side' < 2 → s1.qsel side' =
      if side' = side then { ps.s.qsel side with q := E.pq.del (ps.s.qsel side).q v } else ps.s.qsel side' := by
    intro side' h'
    rw [← hs1]
    exact FMState.qset_qsel hside h' _
  have hany1 : FMAny g s1 := ⟨by rw [e_part]; exact h.any.part, by rw [e_part, e_conn]; exact h.any.conn⟩
  have hvl : v < ps.s.visited.length := by rw [h.queues.vis]; exact hvn
  have hq1 : DQueues g.nv s1.part.lab s1 := by
    refine ⟨by rw [e_vis, List.length_set]; exact h.queues.vis, ?_, ?_⟩
    · intro side' h'
      rw [e_q side' h']
      split
      · exact h.queues.cap side hside
      · exact h.queues.cap side' h'
    · intro side' h' u
      rw [e_q side' h', e_part, e_conn, e_vis]
      rw [nth_set hvl]
      by_cases huv : u = v
      · subst huv
        simp only [if_true, Bool.true_eq_false, false_and, and_false, decide_false]
        by_cases hs' : side' = side
        · rw [if_pos hs']
          show (E.pq.key (E.pq.del _ _) u).isSome = false
          rw [E.pq.key_del, if_pos rfl]
          rfl
        · rw [if_neg hs', h.queues.keys side' h' u, decide_eq_false_iff_not]
          rintro ⟨_, _, hh, _⟩
          omega
      · rw [if_neg huv]
        by_cases hs' : side' = side
        · rw [if_pos hs']
          show (E.pq.key (E.pq.del _ _) u).isSome = _
          rw [E.pq.key_del, if_neg huv, hs', h.queues.keys side hside u]
        · rw [if_neg hs', h.queues.keys side' h' u]
  have hdst : side ^^^ 1 = 1 - s1.part.lab v := by
    rw [e_part, hlab]
    have : side = 0 ∨ side = 1 := by omega
    rcases this with rfl | rfl <;> rfl
  refine (fmMove_any hg true hany1 hvn hdst (fun _ => ⟨hq1, by rw [e_vis]; exact nth_set_self hvl⟩)).bind ?_
  rintro s2 ⟨hany2, hlab2, hvis2, hq2, _⟩
  rw [(hany2.part.weighed hg).calcMaxImbalance ht, ok_bind, (hany2.part.weighed hg).isBalanced ht, ok_bind]
  obtain ⟨best, b1, b2, b3, b4⟩ := h.best
  have hdec : unmoved g s2.visited < unmoved g ps.s.visited := by
    rw [hvis2, e_vis]
    exact unmoved_set h.queues.vis hvn hvis
  split
  · rename_i hacc
    refine ⟨⟨hany2, hq2 rfl, (fun v hv => nomatch hv), s2.part.lab, hQ best _ (fun u hu => hany2.part.lt hu) ?_ b1,
      (fun u hu => hany2.part.lt hu), rfl, rfl⟩, hdec⟩
    rw [b3] at hacc
    unfold fmAccept at hacc
    simp only [Bool.or_eq_true, Bool.and_eq_true, Bool.not_eq_true', decide_eq_false_iff_not, decide_eq_true_eq] at hacc
    rcases hacc with ⟨-, h⟩ | ⟨-, h⟩
    · exact Or.inl h
    · exact Or.inr h
  · refine ⟨⟨hany2, hq2 rfl, fun u hu => ?_, best, b1, b2, b3, ?_⟩, hdec⟩
    · rcases List.mem_append.mp hu with hu | hu
      · exact h.moves u hu
      · rw [List.mem_singleton.mp hu]; exact hvn
    · show s2.part.lab = (ps.moves ++ [v]).foldl flip best
      rw [hlab2, e_part, List.foldl_append, ← b4]
      rfl

theorem fmLoop_any (hg : g.Free) {t : Target E.fp} (ht : t.Two) {Q : (Nat → Nat) → Prop} (hQ : Keepable g t Q) (maxBad : Nat) :
    ∀ (fuel : Nat) {ps : PassState E}, PassAny g t Q ps → unmoved g ps.s.visited < fuel →
    Sat (fmLoop g t maxBad fuel ps) (PassAny g t Q)
  | 0, _, _, hf => by omega
  | fuel + 1, ps, h, hf => by
    unfold fmLoop
    split
    · rename_i hc
      refine (fmStep_any hg ht hQ h hc.1).bind ?_
      rintro ps' ⟨h', hn⟩
      exact fmLoop_any hg ht hQ maxBad fuel h' (by omega)
    · exact h

theorem fmUndo_any (hg : g.Free) {s : FMState E} (moves : List Nat) (hs : FMAny g s) (hm : ∀ v ∈ moves, v < g.nv)
    {base : Nat → Nat} (hb : ∀ u, u < g.nv → base u < 2) (hl : s.part.lab = moves.foldl flip base) :
    Sat (fmUndo g moves s) (fun s' => FMAny g s' ∧ s'.part.lab = base ∧ s'.q0 = s.q0 ∧ s'.q1 = s.q1 ∧
      s'.visited = s.visited) := by
  unfold fmUndo
  induction moves using List.reverseRecOn generalizing s with
  | nil => exact ⟨hs, hl, rfl, rfl, rfl⟩
  | append_singleton l v ih =>
    rw [List.reverse_append, List.reverse_singleton, List.singleton_append, List.foldlM_cons]
    have hv : v < g.nv := hm v (by simp)
    have h2 := hs.part.lt hv
    have hd : s.part.lab v ^^^ 1 = 1 - s.part.lab v := by
      have : s.part.lab v = 0 ∨ s.part.lab v = 1 := by omega
      rcases this with h | h <;> rw [h] <;> rfl
    rw [rd_of_lt (by rw [Tracks.asg_len hs.part]; exact hv), ok_bind]
    change Post _ ((fmMove g false v (s.part.lab v ^^^ 1) s) >>= _) _
    refine (fmMove_any hg false hs hv hd (by simp)).bind ?_
    rintro s1 ⟨hg1, hl1, hv1, _, hq1⟩
    have hl2 : s1.part.lab = l.foldl flip base := by
      rw [hl1, hl, List.foldl_append]
      exact flip_flip (foldl_flip_lt l hb) hv
    refine (ih hg1 (fun u hu => hm u (by simp [hu])) hl2).mono ?_
    rintro s' ⟨a, b, c, d, e⟩
    exact ⟨a, b, c.trans (hq1 rfl).1, d.trans (hq1 rfl).2, e.trans hv1⟩

theorem fmPass_any (hg : g.Free) {t : Target E.fp} (ht : t.Two) {Q : (Nat → Nat) → Prop} (hQ : Keepable g t Q) (maxBad : Nat)
    {s : FMState E} (hs : FMAny g s) (hq : Q s.part.lab) (hf : FMFresh g s) :
    Sat (fmPass g t maxBad s) (fun r => FMAny g r.1 ∧ Q r.1.part.lab ∧ FMFresh g r.1.clear) := by
  unfold fmPass
  refine (fillQueues_any hg hs hf).bind ?_
  rintro s1 ⟨hp1, hc1, hv1, hq1⟩
  have hs1 : FMAny g s1 := ⟨by rw [hp1]; exact hs.part, by rw [hp1, hc1]; exact hs.conn⟩
  rw [(hs1.part.weighed hg).calcMaxImbalance ht, ok_bind]
  have hun : ∀ vis : List Bool, unmoved g vis < g.nv + 1 := fun vis => by
    have := card_filter_le (range g.nv) (fun u => nth vis u = false)
    rw [card_range] at this
    exact Nat.lt_succ_of_le this
  refine (fmLoop_any hg ht hQ maxBad (g.nv + 1)
    (ps := { s := s1, moves := [], bestCut := s1.part.cut, bestBal := maxImbalance g t s1.part.lab, numMoved := 0 })
    ⟨hs1, by rw [hp1]; exact hq1, (fun v hv => nomatch hv), s1.part.lab, by rw [hp1]; exact hq,
      (fun u hu => hs1.part.lt hu), rfl, rfl⟩ (hun _)).bind fun ps hps => ?_
  obtain ⟨best, b1, b2, -, b4⟩ := hps.best
  refine (fmUndo_any hg ps.moves hps.any hps.moves b2 b4).bind ?_
  rintro s2 ⟨ha, hbase, hq0, hq1', hv2⟩
  have hcap := hps.queues.cap
  refine ⟨ha, by rw [show s2.part.lab = best from hbase]; exact b1, ?_, ?_, ?_⟩
  · show List.replicate s2.visited.length false = _
    rw [hv2, hps.queues.vis]
  · intro side hside
    have : side = 0 ∨ side = 1 := by omega
    rcases this with rfl | rfl
    · show s2.q0.cap = g.nv
      rw [hq0]; exact hcap 0 (by omega)
    · show s2.q1.cap = g.nv
      rw [hq1']; exact hcap 1 (by omega)
  · intro side hside u
    have : side = 0 ∨ side = 1 := by omega
    rcases this with rfl | rfl
    · exact E.pq.key_empty u
    · exact E.pq.key_empty u

theorem fmIters_any (hg : g.Free) {t : Target E.fp} (ht : t.Two) {Q : (Nat → Nat) → Prop} (hQ : Keepable g t Q) (maxBad : Nat) :
    ∀ (n : Nat) {s : FMState E}, FMAny g s → Q s.part.lab → FMFresh g s →
      Sat (fmIters g t maxBad n s) (fun s' => FMAny g s' ∧ Q s'.part.lab)
  | 0, _, hs, hq, _ => ⟨hs, hq⟩
  | n + 1, s, hs, hq, hf => by
    unfold fmIters
    refine (fmPass_any hg ht hQ maxBad hs hq hf).bind ?_
    rintro ⟨s1, stop⟩ ⟨h1, h2, h3⟩
    simp only at h1 h2 h3 ⊢
    split
    · exact ⟨h1, h2⟩
    · exact fmIters_any hg ht hQ maxBad n (s := s1.clear) ⟨h1.part, h1.conn⟩ h2 h3

theorem fmRefine_any (hg : g.Free) {t : Target E.fp} (ht : t.Two) {Q : (Nat → Nat) → Prop} (hQ : Keepable g t Q)
    (maxIters maxMoves : Nat) (hb : E.fp.BadMovesOK g.nv) {p : Partitioning} {c : Conn E.set} (hp : Kept g p)
    (hq : Q p.lab) (hc : DExact g p.lab c) :
    Sat (fmRefine g t maxIters maxMoves p c) (fun r => Kept g r.1 ∧ DExact g r.1.lab r.2 ∧ Q r.1.lab) := by
  unfold fmRefine maxBadMoves
  refine Post.bind (Post.bind (Post_cast (fun h => by simp [FP.BadMovesOK, h] at hb)
    (fun n _ _ => trivial)) (Q' := fun _ => True) (fun _ _ => trivial)) fun maxBad _ => ?_
  refine Post.bind (fmIters_any hg ht hQ maxBad maxIters ⟨hp, hc⟩ hq ⟨rfl, ?_, ?_⟩) ?_
  · intro side hside
    have : side = 0 ∨ side = 1 := by omega
    rcases this with rfl | rfl <;> rfl
  · intro side hside u
    have : side = 0 ∨ side = 1 := by omega
    rcases this with rfl | rfl <;> exact E.pq.key_empty u
  · rintro s ⟨hs, hq⟩
    exact ⟨hs.part, hs.conn, hq⟩

/-! ### Projection -/

/-- Values between 0 and the weight of the edges from the vertex. -/
theorem Near.start {a b : Nat} {x i : Nat} (h : x + i = a) {c : Nat × Nat} (h1 : c.1 ≤ b) (h2 : c.2 ≤ b)
    (hb : b < 1073741824) : Near a b x i c :=
  ⟨(c.1 : Int) - x, (c.2 : Int) - i, by omega, by omega, by omega, by omega, by omega, by omega⟩

theorem DConn.ofArray (P : SetImpl) (hg : g.Free) {con : List (Nat × Nat)} (hl : con.length = g.nv)
    (hb : ∀ v, v < g.nv → (nth con v).1 ≤ outW g v ∧ (nth con v).2 ≤ outW g v) (lab : Nat → Nat) :
    Sat (Conn.ofArray P con) (DExact g lab) := by
  refine (Conn.ofArray_spec P (n := g.nv) (X := fun v => (nth con v).1) (I := fun v => (nth con v).2) hl
    (fun v _ => rfl)).mono fun c hc => ?_
  obtain ⟨h1, h2, -⟩ := hc
  refine ⟨h2.len, h2.cap, fun v hv => (h2.only v hv).1, fun v hv => ?_⟩
  rw [h1]
  obtain ⟨b1, b2⟩ := hb v hv
  have hbo : outW g v < 1073741824 := by
    have := in_add_out hg.wf hg.noLoop hv
    have := hg.edge
    omega
  exact Near.start (inExt_add_inInt g lab v) b1 b2 hbo

theorem fromPartitioning_free (P : SetImpl) (hg : g.Free) {p : Partitioning} (ha : p.asg.length = g.nv) :
    Sat (Conn.fromPartitioning P g p) (DExact g p.lab) := by
  unfold Conn.fromPartitioning
  rw [setupConnections_eq hg.wf ha, ok_bind]
  refine DConn.ofArray P hg (by simp) (fun v hv => ?_) _
  rw [nth_map (by simpa using hv), nth_range hv]
  have h1 := internal_add_external hg.wf p.lab hv
  rw [← outW_eq hg.wf hv] at h1
  have := Nat.mod_le (externalWeight g p.lab v) M32
  have := Nat.mod_le (internalWeight g p.lab v) M32
  simp only
  omega

theorem fillIn_any {P : SetImpl} (hg : g.Free) {part : Partitioning} (hp : part.asg.length = g.nv)
    {cc : Conn P} {cmap : Mem} {cm : Nat → Nat} (hcm : ∀ v, v < g.nv → nth cmap v = some (cm v) ∧ cm v < cc.border.cap) :
    Sat (fillInConnectivity g (!g.unitEdge) part cc cmap (ConnBuilder.start g.nv)) (fun b =>
      b.ext.length = g.nv ∧ b.int.length = g.nv ∧ ∀ v, v < g.nv → ∃ x i,
        nth b.ext v = some x ∧ nth b.int v = some i ∧ x ≤ outW g v ∧ i ≤ outW g v) := by
  unfold fillInConnectivity
  refine Post_foldlM_range (fun m (b : ConnBuilder) => b.ext.length = g.nv ∧ b.int.length = g.nv ∧ ∀ v, v < m → ∃ x i,
        nth b.ext v = some x ∧ nth b.int v = some i ∧ x ≤ outW g v ∧ i ≤ outW g v) ?_ ?_
  · exact ⟨by simp [ConnBuilder.start, Mem.alloc], by simp [ConnBuilder.start, Mem.alloc],
      fun v hv => absurd hv (Nat.not_lt_zero _)⟩
  · rintro v b hv ⟨h1, h2, h3⟩
    have fin : ∀ x i, x ≤ outW g v → i ≤ outW g v →
        Sat (do let b ← b.setInternal v i; b.setExternal v x) (fun b =>
          b.ext.length = g.nv ∧ b.int.length = g.nv ∧ ∀ u, u < v + 1 → ∃ x i,
        nth b.ext u = some x ∧ nth b.int u = some i ∧ x ≤ outW g u ∧ i ≤ outW g u) := by
      intro x i hx hi
      unfold ConnBuilder.setInternal ConnBuilder.setExternal
      rw [Mem.wr_of_lt (by omega), ok_bind, ok_bind, Mem.wr_of_lt (by simp only; omega), ok_bind]
      refine ⟨by simp [h1], by simp [h2], fun u hu => ?_⟩
      simp only
      rw [nth_set (by omega), nth_set (by omega)]
      by_cases huv : u = v
      · rw [if_pos huv, if_pos huv, huv]; exact ⟨x, i, rfl, rfl, hx, hi⟩
      · rw [if_neg huv, if_neg huv]; exact h3 u (by omega)
    unfold fillInOne
    obtain ⟨c1, c2⟩ := hcm v hv
    rw [Mem.rd_of_some c1, ok_bind, VSet.has_eq c2, ok_bind]
    have hsum := internal_add_external hg.wf part.lab hv
    have hout := outW_eq hg.wf hv
    split
    · rw [rd_of_lt (by omega), ok_bind, Graph.nbrsOf_eq hg.wf hv, ok_bind, project_inner hg.wf hp hv, ok_bind]
      have e1 := internal_eq_wsum hg.wf part.lab hv
      have e2 := external_eq_wsum hg.wf part.lab hv
      unfold Partitioning.lab at e1 e2 hsum
      refine fin _ _ ?_ ?_
      · simp only; rw [← e2]
        exact le_trans (Nat.mod_le _ _) (by omega)
      · simp only; rw [← e1]
        exact le_trans (Nat.mod_le _ _) (by omega)
    · have e : g.wsum v (fun _ => true) = ((g.nbrs v).map Prod.snd).sum := by
        unfold Graph.wsum; rfl
      have : ∃ y, interiorSum g (!g.unitEdge) v = ok y ∧ y ≤ outW g v := by
        unfold interiorSum
        split
        · rw [Graph.nbrsOf_eq hg.wf hv, ok_bind]
          have := foldl_sum_eq (g.nbrs v) 0
          rw [show (0 % M32) = 0 from rfl] at this
          refine ⟨_, this, ?_⟩
          rw [hout, e, Nat.zero_add]
          exact Nat.mod_le _ _
        · rename_i hu
          have hu : g.unitEdge = true := by simpa using hu
          refine ⟨_, degreeOf_eq hg.wf hv, ?_⟩
          have : ((g.nbrs v).map Prod.snd).sum = (g.nbrs v).length := by
            unfold Graph.nbrs Graph.ew
            simp [hu, Function.comp_def]
          rw [hout, e, this]
      obtain ⟨y, h4, h5⟩ := this
      rw [h4, ok_bind]
      exact fin _ _ (Nat.zero_le _) h5

theorem project_any {P : SetImpl} (hg : g.Free) {a : Aggregation} (ha : AggOK g.nv a) {cg : CoarseGraph}
    (hc : IsCoarse g a cg) {cp : Partitioning} (hcp : Kept cg.coarse cp) {cc : Conn P} (hcc : cc.border.cap = cg.coarse.nv) :
    Sat (cg.project cp cc) (fun o => Kept g o.1 ∧ DExact g o.1.lab o.2 ∧
      ∀ v, v < g.nv → o.1.lab v = cp.lab (nth a.cmap v)) := by
  unfold CoarseGraph.project
  rw [hc.fine, Tracks.pw_len hcp]
  have hnv := hc.con.nv
  let lab' : Nat → Nat := fun v => cp.lab (nth a.cmap v)
  refine (show Sat _ (Tracks g 2 (fun v => some (lab' v))) from ?_).bind fun fp hfp => ?_
  · refine (Post_foldlM_range (fun m fp => Tracks g 2 (fun v => if v < m then some (lab' v) else none) fp) ?_ ?_).mono ?_
    · simpa using Tracks.fresh
    · intro v fp hv h
      have hcv := ha.lt v hv
      rw [Mem.rd_of_some (hc.cmap v hv), ok_bind, rd_of_lt (by rw [Tracks.asg_len hcp, hnv]; exact hcv), ok_bind]
      refine (h.assign hg.wf (by omega) hv (hcp.lt (v := nth a.cmap v) (by rw [hnv]; exact hcv)) (by simp)).mono fun p hp => ?_
      have : (fun u => if u = v then some (nth cp.asg (nth a.cmap v)) else if u < v then some (lab' u) else none) =
          (fun u => if u < v + 1 then some (lab' u) else none) := by
        funext u
        by_cases h1 : u = v
        · rw [if_pos h1, if_pos (by omega), h1]; rfl
        · by_cases h2 : u < v
          · rw [if_neg h1, if_pos h2, if_pos (by omega)]
          · rw [if_neg h1, if_neg h2, if_neg (by omega)]
      rw [← this]; exact hp
    · intro fp h
      refine ⟨h.asg_len, h.pw_len, fun v hv => ?_, fun v hv q hq => ?_, fun q hq => ?_⟩
      · rw [h.asg v hv, if_pos hv]
      · exact h.lt v hv q (by rw [if_pos hv]; exact hq)
      · rw [h.weights q hq]
        congr 1
        exact mapWeight_congr (fun u hu => by rw [if_pos hu]) q
  refine (fillIn_any (P := P) hg hfp.asg_len (cc := cc) (cm := nth a.cmap) (fun v hv => ⟨hc.cmap v hv, ?_⟩)).bind fun b hb => ?_
  · rw [hcc, hnv]; exact ha.lt v hv
  · unfold ConnBuilder.finish
    obtain ⟨b1, b2, b3⟩ := hb
    rw [freeze_spec (fun v => (nth b.ext v).getD 0) b1 (fun v hv => by
        obtain ⟨x, i, e, -⟩ := b3 v hv; rw [e]; rfl), ok_bind,
      freeze_spec (fun v => (nth b.int v).getD 0) b2 (fun v hv => by
        obtain ⟨x, i, -, e, -⟩ := b3 v hv; rw [e]; rfl), ok_bind]
    refine (DConn.ofArray P hg (by simp) (fun v hv => ?_) (fp.setCut cp.cut).lab).bind fun c h => ?_
    · obtain ⟨x, i, e1, e2, e3, e4⟩ := b3 v hv
      rw [nth_eq_getElem (by simpa using hv)]
      simp [e1, e2, e3, e4]
    · exact ⟨hfp.kept.setCut _, h, fun v hv => decodeLab_some (hfp.asg v hv)⟩

/-! ### The multilevel bisector -/

theorem Contracted.free {a : Aggregation} {cg : Graph} (h : Contracted g a cg) (ha : AggOK g.nv a) (hg : g.Free) :
    cg.Free :=
  ⟨h.wf, h.noLoop, by rw [h.sumVtx ha]; exact hg.vtx, lt_of_le_of_lt h.sumEdge_le hg.edge⟩

theorem Graph.Free.plain (hg : g.Free) : g.Plain := by
  refine ⟨hg.wf, hg.small, fun u hu => ?_, fun u hu => ?_⟩ <;> have h1 := in_add_out hg.wf hg.noLoop hu <;>
    have h2 := hg.edge
  · unfold inW at h1; omega
  · rw [outW_eq hg.wf hu] at h1; omega

/-- What the initial bisection of a coarsest graph needs: a vertex, and vertex weights if they are read. -/
abbrev Readable (g : Graph) (c : Prop) : Prop := 0 < g.nv ∧ (c → g.unitVtx = true → g.vwgt.length = g.nv)

theorem bfsBisect_free {B : Prop} (hg : g.Free) (hB : ¬ Readable g True → B) {t : Target E.fp} (ht : t.Two) (r : E.rng.S) :
    Post B (bfsBisect t g r) (fun o => Kept g o.1 ∧ ∃ seed, GrownTo g t seed o.1.lab) := by
  have hnv := hg.wf.nv_lt
  have he := hg.edge
  unfold bfsBisect RngImpl.randInRange
  rw [if_pos (Nat.zero_le _), ok_bind]
  by_cases h0 : 0 < g.nv
  · have hr := E.rng.rand_range r 0 (usub g.nv 1) (Nat.zero_le _)
    rw [usub_eq (by omega) (by omega)] at hr
    rw [usub_eq (by omega) (by omega)]
    have hseed : (E.rng.rand r 0 (g.nv - 1)).1 < g.nv := by omega
    refine ((bfsFrom_any hg.wf (by omega) (fun h => hB fun h' => h (h'.2 trivial)) ht hseed).and_may
      (bfsFrom_trace hg.plain ht hseed)).bind fun p hp => ?_
    exact ⟨hp.1.1, _, hp.2⟩
  · have hn : g.nv = 0 := by omega
    have hb : bfsFrom t g (E.rng.rand r 0 (usub g.nv 1)).1 = ub := by
      unfold bfsFrom bfsGrow VQueue.add
      rw [if_pos (by show g.nv ≤ _; omega)]
      rfl
    simp only
    rw [hb]
    exact hB fun h => h0 h.1

theorem recurse_any {B : Prop} (s : Scheme) (hsr : E.fp.SelfRatio) (hbm : ∀ n, n < NULL32 → E.fp.BadMovesOK n)
    {t : Target E.fp} (ht : t.Two) (maxW : Nat) :
    ∀ fuel level parent (g : Graph) r, g.Free →
      (¬ Readable g (mlStops E.fp (E.fp.lit 95 2) parent g = true) → B) →
      (level = 0 ∨ parent.isSome) → (∀ p : Graph, parent = some p → g.ne ≤ p.ne) → (match parent with
        | none => g.ne + 1
        | some p => p.ne) < fuel →
      Post B ((makeMultilevel E s).recurse maxW (compositeStop [vertexNumberStop 20, edgeRatioStop E.fp (E.fp.lit 95 2)]) t
        fuel level parent g r) (fun o => Kept g o.1.1 ∧ DExact g o.1.1.lab o.1.2 ∧ Loose E s t maxW g o.1.1.lab) := by
  intro fuel
  induction fuel with
  | zero => intro level parent g r _ _ _ _ hf; omega
  | succ fuel ih =>
    intro level parent g r hg hB hl hle hf
    have he := hg.edge
    unfold Multilevel.recurse
    rw [mlStop_eq _ _ _ hl, ok_bind]
    split
    · rename_i hstop
      have : Post B (makeBisector E .bfs 8 t g r) (fun o => Kept g o.1 ∧ ∃ seed, GrownTo g t seed o.1.lab) :=
        multiBisect_any (R := fun p => ∃ seed, GrownTo g t seed p.lab) ht
          (fun r => bfsBisect_free hg (fun h => hB fun h' => h ⟨h'.1, fun _ => h'.2 hstop⟩) ht r) (by omega) r
      refine this.bind fun o ho => ?_
      refine (Post.of_sat (fromPartitioning_free E.set hg (Tracks.asg_len ho.1))).bind fun c hc => ?_
      obtain ⟨seed, hs⟩ := ho.2
      exact ⟨ho.1, hc, .grown hs⟩
    · rename_i hstop
      have hf' : g.ne < fuel := by
        cases parent with
        | none => simp only at hf; omega
        | some p =>
          simp only at hf
          have hle := hle p rfl
          by_cases he : g.ne = p.ne
          · exfalso
            have h0 : 0 < g.ne := by
              by_contra h0
              have : g.ne = 0 := by omega
              simp [mlStops, this] at hstop
            have := hsr g.ne h0 (by have := hg.wf.ne_lt; omega)
            simp [mlStops, ← he, this] at hstop
          · omega
      refine (Post.of_sat (aggregate_greedy E s hg.wf hg.noLoop hg.vtx maxW r)).bind fun o ho => ?_
      obtain ⟨f, -, hvis, -, hb⟩ := ho
      have ha := hb.ok
      refine (Post.of_sat (CoarseGraph.make_spec hg.wf (by omega) hg.vtx ha
        (lt_of_le_of_lt hb.size.1 hg.wf.nv_lt))).bind fun cg hc => ?_
      refine (ih (level + 1) (some g) cg.coarse o.2 (hc.con.free ha hg)
        (fun h => hB fun h' => h ⟨by rw [hc.con.nv]; exact lt_of_le_of_lt (Nat.zero_le _) (ha.lt 0 h'.1),
          fun _ h => by rw [hc.con.unitV] at h; cases h⟩) (Or.inr rfl)
        (fun p hp => by cases hp; exact hc.con.ne_le) hf').bind fun i hi => ?_
      refine (Post.of_sat (project_any hg ha hc hi.1 hi.2.1.cap)).bind fun fi hf => ?_
      refine (Post.of_sat (fmRefine_any hg ht (Q := fun x => ∀ Q, Keepable g t Q → Q fi.1.lab → Q x)
        (fun x y h2 h hx Q hQ h0 => hQ x y h2 h (hx Q hQ h0)) 8 150 (hbm _ hg.wf.nv_lt) hf.1
        (fun _ _ h => h) hf.2.1)).bind fun o2 ho2 => ?_
      exact ⟨ho2.1, ho2.2.1, .level ⟨hb.contraction hc.con, f, hvis, hb.same⟩ hi.2.2 hf.2.2 ho2.2.2
        fun v hv => ho2.1.lt hv⟩

theorem execute_free (s : Scheme) (hml : ∀ tot, tot < M32 → E.fp.MultilevelOK tot)
    (hbm : ∀ n, n < NULL32 → E.fp.BadMovesOK n) (hg : g.Free) (h0 : 0 < g.nv)
    (hvw : g.nv ≤ 20 ∨ g.ne = 0 → g.unitVtx = true → g.vwgt.length = g.nv) {t : Target E.fp} (ht : t.Two) (r : E.rng.S) :
    Sat ((makeMultilevel E s).execute t g r) (fun o => Kept g o.1) := by
  have hok := hml g.totVtx (by rw [hg.wf.tot_vtx]; exact Nat.mod_lt _ (by norm_num))
  unfold Multilevel.execute edgeRatioMake
  rw [if_neg (by simp [hok.ratio_pos, hok.ratio_lt]), ok_bind]
  refine (Post_cast (fun h => by have := hok.cast; rw [h] at this; cases this)
    (fun n _ _ => trivial) : Sat _ (fun _ => True)).bind fun maxW _ => ?_
  refine (recurse_any (B := False) s hok.self hbm ht maxW (g.ne + 2) 0 none g r hg
    (fun h => h ⟨h0, fun hs => hvw (by simpa [mlStops] using hs)⟩) (Or.inl rfl) (fun p hp => by cases hp)
    (by simp only; omega)).bind fun o ho => ?_
  exact ho.1

/-- The same with doubles: what is known of the labels. -/
theorem execute_loose [Concrete.Log2Impl] {B : Prop} {pq : PQImpl} {set : SetImpl} {rng : RngImpl} (s : Scheme) (hg : g.Free)
    (hB : ¬ Readable g (g.nv ≤ 20 ∨ g.ne = 0) → B) {t : Target Concrete.fp} (ht : t.Two) (r : rng.S) :
    Post B ((makeMultilevel (dblEnv pq set rng) s).execute t g r) (fun o =>
      Sides g o.1 ∧ LooseBis (dblEnv pq set rng) s t g o.1.lab) := by
  have htot : g.totVtx = g.sumVtx := by rw [hg.wf.tot_vtx]; exact Nat.mod_eq_of_lt hg.vtx
  have htv : g.totVtx < M32 := by rw [htot]; exact hg.vtx
  have hok := Concrete.multilevelOK htv
  unfold Multilevel.execute edgeRatioMake
  rw [if_neg (by simp [hok.ratio_pos, hok.ratio_lt]), ok_bind]
  have hc : FP.cast (dblEnv pq set rng).fp ((dblEnv pq set rng).fp.div ((dblEnv pq set rng).fp.mul
      ((dblEnv pq set rng).fp.lit 15 1) ((dblEnv pq set rng).fp.ofNat g.totVtx))
      ((dblEnv pq set rng).fp.ofNat 20)) = ok (3 * g.totVtx / 40) := by
    unfold FP.cast
    rw [show (dblEnv pq set rng).fp.toU32 _ = _ from Concrete.coarseLimit htv]
  rw [hc, ok_bind]
  refine (recurse_any (E := dblEnv pq set rng) s hok.self (fun n hn => Concrete.badMovesOK (lt_trans hn (by decide))) ht
    (3 * g.totVtx / 40) (g.ne + 2) 0 none g r hg
    (fun h => hB fun h' => h ⟨h'.1, fun hs => h'.2 (by simpa [mlStops] using hs)⟩) (Or.inl rfl) (fun p hp => by cases hp)
    (by simp only; omega)).bind fun o ho => ?_
  refine ⟨⟨Tracks.asg_len ho.1, Tracks.pw_len ho.1, fun v hv => ho.1.lt hv⟩, ?_⟩
  unfold LooseBis
  rw [← htot]
  exact ho.2.2

/-- The class is closed under taking the subgraph of a part. -/
theorem free_closed : PartClosed Graph.Free :=
  ⟨fun _ h => h.wf, fun g lab p s hg hi => ⟨hi.valid, hi.noLoop hg.noLoop, lt_of_le_of_lt (by
      rw [hi.sumVtx]; exact partWeight_le lab p) hg.vtx, lt_of_le_of_lt (hi.sumEdge_le hg.wf) hg.edge⟩⟩

end Poros
