import Verif.SpecConn
import Verif.Proofs.Partitioning
/-
Lemmas about two-way connectivity.
-/
namespace Poros
open Res Finset

variable {P : SetImpl}

/-! ### sets -/

theorem VSet.has_eq {s : VSet P} {v : Nat} (h : v < s.cap) : s.has v = ok (P.has s.s v) := by
  simp [VSet.has, Nat.not_le.mpr h]

theorem VSet.add_eq {s : VSet P} {v : Nat} (h : v < s.cap) (hn : P.has s.s v = false) :
    s.add v = ok { s with s := P.ins s.s v } := by
  simp [VSet.add, Nat.not_le.mpr h, hn]

theorem VSet.remove_eq {s : VSet P} {v : Nat} (h : v < s.cap) (hn : P.has s.s v = true) :
    s.remove v = ok { s with s := P.del s.s v } := by
  simp [VSet.remove, Nat.not_le.mpr h, hn]

/-! ### connectivity values -/

/-- Stored connectivity given by the functions `X` (external) and `I` (internal). -/
structure ConnVals (n : Nat) (X I : Nat → Nat) (c : Conn P) : Prop where
  len : c.con.length = n
  cap : c.border.cap = n
  vals : ∀ v, v < n → nth c.con v = (X v, I v)
  mem : ∀ v, v < n → 0 < X v → P.has c.border.s v = true
  only : ∀ v, P.has c.border.s v = true → v < n ∧ (0 < X v ∨ I v = 0)

theorem ConnVals.exact {g : Graph} {lab : Nat → Nat} {X I : Nat → Nat} {c : Conn P}
    (h : ConnVals g.nv X I c) (hX : ∀ v, v < g.nv → X v = externalWeight g lab v)
    (hI : ∀ v, v < g.nv → I v = internalWeight g lab v) : ConnExact g lab c where
  len := h.len
  cap := h.cap
  vals v hv := by rw [h.vals v hv, hX v hv, hI v hv]
  border_of_ext v hv hp := h.mem v hv (by rw [hX v hv]; exact hp)
  border_only v hv := by
    obtain ⟨a, b⟩ := h.only v hv
    exact ⟨a, by rw [← hX v a, ← hI v a]; exact b⟩

theorem ConnExact.toVals {g : Graph} {lab : Nat → Nat} {c : Conn P} (h : ConnExact g lab c) :
    ConnVals g.nv (externalWeight g lab) (internalWeight g lab) c :=
  ⟨h.len, h.cap, h.vals, h.border_of_ext, h.border_only⟩

theorem ConnVals.congr {n : Nat} {X I X' I' : Nat → Nat} {c : Conn P} (h : ConnVals n X I c)
    (hX : ∀ v, v < n → X v = X' v) (hI : ∀ v, v < n → I v = I' v) : ConnVals n X' I' c where
  len := h.len
  cap := h.cap
  vals v hv := by rw [h.vals v hv, hX v hv, hI v hv]
  mem v hv hp := h.mem v hv (by rw [hX v hv]; exact hp)
  only v hv := by
    obtain ⟨a, b⟩ := h.only v hv
    exact ⟨a, by rw [← hX v a, ← hI v a]; exact b⟩

/-- The status reported for a change of membership. -/
def statusOf : Bool → Bool → BorderStatus
  | true, true => .stillIn
  | true, false => .removed
  | false, true => .added
  | false, false => .stillOut

/-- Membership changes at most at `v`, and the status reports the change. -/
def BorderStep (v : Nat) (c c' : Conn P) (st : BorderStatus) : Prop :=
  st = statusOf (P.has c.border.s v) (P.has c'.border.s v) ∧
    ∀ u, u ≠ v → P.has c'.border.s u = P.has c.border.s u

/-- The common part of `move` and `updateNeighbor`: store new values at `v` and refresh the border. -/
theorem store_update {n : Nat} {X I X' I' : Nat → Nat} {c : Conn P} (h : ConnVals n X I c) {v : Nat} (hv : v < n)
    (hX : ∀ u, u ≠ v → X' u = X u) (hI : ∀ u, u ≠ v → I' u = I u) :
    Sat (Conn.updateBorderStatus { c with con := c.con.set v (X' v, I' v) } v) (fun r =>
      ConnVals n X' I' r.2 ∧ BorderStep v c r.2 r.1) := by
  unfold Conn.updateBorderStatus
  have hvals : ∀ u, u < n → nth (c.con.set v (X' v, I' v)) u = (X' u, I' u) := by
    intro u hu
    rw [nth_set (by rw [h.len]; exact hv)]
    split
    · subst_vars; rfl
    · rename_i hne; rw [h.vals u hu, hX u hne, hI u hne]
  rw [VSet.has_eq (by show v < c.border.cap; rw [h.cap]; exact hv), ok_bind,
    rd_of_lt (by simp [h.len, hv]), ok_bind]
  simp only [hvals v hv]
  cases hb : P.has c.border.s v
  · simp only [Bool.false_eq_true, if_false]
    by_cases hx : X' v > 0
    · rw [if_pos hx, VSet.add_eq (by show v < c.border.cap; rw [h.cap]; exact hv) hb, ok_bind]
      refine ⟨⟨by simp [h.len], h.cap, hvals, ?_, ?_⟩, ?_, ?_⟩
      · intro u hu hp
        show P.has (P.ins c.border.s v) u = true
        rw [P.has_ins]
        split
        · rfl
        · rename_i hne; exact h.mem u hu (by rw [← hX u hne]; exact hp)
      · intro u hu
        change P.has (P.ins c.border.s v) u = true at hu
        rw [P.has_ins] at hu
        split at hu
        · subst_vars; exact ⟨hv, Or.inl hx⟩
        · rename_i hne; rw [hX u hne, hI u hne]; exact h.only u hu
      · show _ = statusOf (P.has c.border.s v) (P.has (P.ins c.border.s v) v)
        rw [hb, P.has_ins, if_pos rfl]; rfl
      · intro u hne
        show P.has (P.ins c.border.s v) u = _
        rw [P.has_ins, if_neg hne]
    · rw [if_neg hx]
      refine ⟨⟨by simp [h.len], h.cap, hvals, ?_, ?_⟩, ?_, ?_⟩
      · intro u hu hp
        by_cases hne : u = v
        · subst hne; omega
        · exact h.mem u hu (by rw [← hX u hne]; exact hp)
      · intro u hu
        by_cases hne : u = v
        · subst hne
          change P.has c.border.s u = true at hu
          rw [hb] at hu; simp at hu
        · rw [hX u hne, hI u hne]; exact h.only u hu
      · show _ = statusOf (P.has c.border.s v) (P.has c.border.s v)
        rw [hb]; rfl
      · intro u hne; rfl
  · simp only [if_true]
    by_cases hx : X' v = 0
    · rw [if_pos hx, VSet.remove_eq (by show v < c.border.cap; rw [h.cap]; exact hv) hb, ok_bind]
      refine ⟨⟨by simp [h.len], h.cap, hvals, ?_, ?_⟩, ?_, ?_⟩
      · intro u hu hp
        show P.has (P.del c.border.s v) u = true
        rw [P.has_del]
        split
        · subst_vars; omega
        · rename_i hne; exact h.mem u hu (by rw [← hX u hne]; exact hp)
      · intro u hu
        change P.has (P.del c.border.s v) u = true at hu
        rw [P.has_del] at hu
        split at hu
        · simp at hu
        · rename_i hne; rw [hX u hne, hI u hne]; exact h.only u hu
      · show _ = statusOf (P.has c.border.s v) (P.has (P.del c.border.s v) v)
        rw [hb, P.has_del, if_pos rfl]; rfl
      · intro u hne
        show P.has (P.del c.border.s v) u = _
        rw [P.has_del, if_neg hne]
    · rw [if_neg hx]
      refine ⟨⟨by simp [h.len], h.cap, hvals, ?_, ?_⟩, ?_, ?_⟩
      · intro u hu hp
        by_cases hne : u = v
        · subst hne; exact hb
        · exact h.mem u hu (by rw [← hX u hne]; exact hp)
      · intro u hu
        by_cases hne : u = v
        · subst hne; exact ⟨hv, Or.inl (by omega)⟩
        · rw [hX u hne, hI u hne]; exact h.only u hu
      · show _ = statusOf (P.has c.border.s v) (P.has c.border.s v)
        rw [hb]; rfl
      · intro u hne; rfl

theorem Conn.move_spec {n : Nat} {X I X' I' : Nat → Nat} {c : Conn P} (h : ConnVals n X I c) {v : Nat} (hv : v < n)
    (hX : ∀ u, u ≠ v → X' u = X u) (hI : ∀ u, u ≠ v → I' u = I u) (hXv : X' v = I v) (hIv : I' v = X v) :
    Sat (c.move v) (fun r => ConnVals n X' I' r.2 ∧ BorderStep v c r.2 r.1) := by
  unfold Conn.move
  rw [rd_of_lt (by rw [h.len]; exact hv), ok_bind, h.vals v hv, wr_of_lt (by rw [h.len]; exact hv), ok_bind]
  have := store_update h hv hX hI
  rw [hXv, hIv] at this
  exact this

/-- The new external weight of a neighbour when an edge of weight `w` swings. -/
def shiftX (towards : Bool) (x w : Nat) : Nat := if towards then x - w else x + w
def shiftI (towards : Bool) (i w : Nat) : Nat := if towards then i + w else i - w

theorem Conn.updateNeighbor_spec {n : Nat} {X I X' I' : Nat → Nat} {c : Conn P} (h : ConnVals n X I c)
    {u w : Nat} (hu : u < n) (tow : Bool)
    (hw : if tow then w ≤ X u else w ≤ I u) (hb : X u + I u < 2147483648)
    (hX : ∀ x, x ≠ u → X' x = X x) (hI : ∀ x, x ≠ u → I' x = I x)
    (hXu : X' u = shiftX tow (X u) w) (hIu : I' u = shiftI tow (I u) w) :
    Sat (c.updateNeighbor u w (if tow then 1 else -1))
      (fun r => ConnVals n X' I' r.2 ∧ BorderStep u c r.2 r.1) := by
  unfold Conn.updateNeighbor
  rw [rd_of_lt (by rw [h.len]; exact hu), ok_bind, h.vals u hu, wr_of_lt (by rw [h.len]; exact hu), ok_bind]
  have := store_update h hu hX hI
  have e : (X' u, I' u) = (usub (X u, I u).1 (umulI (if tow then 1 else -1) w),
      uadd (X u, I u).2 (umulI (if tow then 1 else -1) w)) := by
    rw [hXu, hIu]
    cases tow
    · simp only [Bool.false_eq_true, if_false] at *
      rw [umulI_neg_one]
      simp only [shiftX, shiftI, usub, uadd, Bool.false_eq_true, if_false, Prod.mk.injEq]
      omega
    · simp only [if_true] at *
      rw [umulI_one (by omega)]
      simp only [shiftX, shiftI, usub, uadd, if_true, Prod.mk.injEq]
      omega
  rw [e] at this
  exact this

theorem Conn.delta_eq {n : Nat} {X I : Nat → Nat} {c : Conn P} (h : ConnVals n X I c) {v : Nat} (hv : v < n)
    (hb : X v + I v < 2147483648) : c.delta v = ok ((I v : Int) - X v) := by
  unfold Conn.delta
  rw [rd_of_lt (by rw [h.len]; exact hv), ok_bind, h.vals v hv, toI32_eq (by simp only; omega),
    toI32_eq (by simp only; omega), isub_eq (by simp only; omega) (by simp only; omega)]

theorem getDirection_eq {a b : Nat} (ha : a < 2) (hb : b < 2) :
    getDirection a b = ok (if (decide (b = a)) then 1 else -1) := by
  have : a = 0 ∨ a = 1 := by omega
  have : b = 0 ∨ b = 1 := by omega
  rcases ‹a = 0 ∨ a = 1› with rfl | rfl <;> rcases ‹b = 0 ∨ b = 1› with rfl | rfl <;> decide

/-! ### fresh connectivity -/

theorem setup_inner {g : Graph} (hg : g.WF) {asg : List Nat} (ha : asg.length = g.nv) {v : Nat} (hv : v < g.nv)
    (home : Nat) :
    (g.nbrs v).foldlM (fun (pair : Nat × Nat) q => do
      let other ← rd asg q.1
      if other = home then (.ok (pair.1, uadd pair.2 q.2) : Res (Nat × Nat))
      else .ok (uadd pair.1 q.2, pair.2)) (0, 0) =
      ok (g.wsum v (fun u => nth asg u != home) % M32, g.wsum v (fun u => nth asg u == home) % M32) := by
  unfold Graph.wsum
  have key : ∀ (l : List (Nat × Nat)) (a b : Nat), (∀ q ∈ l, q.1 < g.nv) →
      l.foldlM (fun (pair : Nat × Nat) q => do
        let other ← rd asg q.1
        if other = home then (.ok (pair.1, uadd pair.2 q.2) : Res (Nat × Nat))
        else .ok (uadd pair.1 q.2, pair.2)) (a % M32, b % M32) =
      ok ((a + (l.map fun q => if nth asg q.1 != home then q.2 else 0).sum) % M32,
        (b + (l.map fun q => if nth asg q.1 == home then q.2 else 0).sum) % M32) := by
    intro l
    induction l with
    | nil => intro a b _; simp
    | cons q l ih =>
      intro a b hl
      have ih := fun a b => ih a b fun y hy => hl y (by simp [hy])
      rw [List.foldlM_cons, rd_of_lt (by rw [ha]; exact hl q (by simp)), ok_bind]
      by_cases hq : nth asg q.1 = home
      · rw [if_pos hq, ok_bind]
        have : uadd (b % M32) q.2 = (b + q.2) % M32 := by unfold uadd; omega
        simp only [this]
        rw [ih a (b + q.2)]
        simp [hq, Nat.add_assoc]
      · rw [if_neg hq, ok_bind]
        have : uadd (a % M32) q.2 = (a + q.2) % M32 := by unfold uadd; omega
        simp only [this]
        rw [ih (a + q.2) b]
        simp [hq, Nat.add_assoc]
  have := key (g.nbrs v) 0 0 (fun q hq => Graph.nbrs_lt hg hv hq)
  simpa using this

theorem setupConnections_eq {g : Graph} (hg : g.WF) {p : Partitioning} (ha : p.asg.length = g.nv) :
    setupConnections g (!g.unitEdge) p = ok ((List.range g.nv).map fun v =>
      (externalWeight g p.lab v % M32, internalWeight g p.lab v % M32)) := by
  unfold setupConnections
  refine mapM_ok_eq_map fun v hv => ?_
  have hv : v < g.nv := List.mem_range.mp hv
  rw [rd_of_lt (by omega), ok_bind, Graph.nbrsOf_eq hg hv, ok_bind, setup_inner hg ha hv,
    external_eq_wsum hg _ hv, internal_eq_wsum hg _ hv]
  rfl

theorem Conn.ofArray_spec (P : SetImpl) {n : Nat} {X I : Nat → Nat} {con : List (Nat × Nat)} (hl : con.length = n)
    (hv : ∀ v, v < n → nth con v = (X v, I v)) :
    Sat (Conn.ofArray P con) (fun c => c.con = con ∧ ConnVals n X I c ∧
      ∀ v, P.has c.border.s v = decide (v < n ∧ (0 < X v ∨ I v = 0))) := by
  unfold Conn.ofArray
  refine Post.bind (Post_foldlM_range (fun m (b : VSet P) => b.cap = n ∧
    ∀ v, P.has b.s v = decide (v < m ∧ (0 < X v ∨ I v = 0))) ?_ ?_) (fun b h => ?_)
  · exact ⟨by simp [VSet.new, hl], fun v => by simp [VSet.new, P.has_empty]⟩
  · intro i b hi ⟨hc, hb⟩
    rw [rd_of_lt hi, ok_bind, hv i (by omega)]
    have hni : P.has b.s i = false := by rw [hb i]; simp
    by_cases hs : shouldBeInBorder (X i, I i) = true
    · rw [if_pos hs, VSet.add_eq (by omega) hni]
      refine ⟨hc, fun v => ?_⟩
      show P.has (P.ins b.s i) v = _
      have hs' : 0 < X i ∨ I i = 0 := by simpa [shouldBeInBorder] using hs
      rw [P.has_ins, hb v]
      by_cases hvi : v = i
      · subst hvi; rw [if_pos rfl]; symm; rw [decide_eq_true_iff]; exact ⟨by omega, hs'⟩
      · rw [if_neg hvi]; congr 1; apply propext; constructor
        · rintro ⟨a, b⟩; exact ⟨by omega, b⟩
        · rintro ⟨a, b⟩; exact ⟨by omega, b⟩
    · rw [if_neg hs]
      refine ⟨hc, fun v => ?_⟩
      have hs' : ¬ (0 < X i ∨ I i = 0) := by simpa [shouldBeInBorder] using hs
      rw [hb v]
      congr 1; apply propext; constructor
      · rintro ⟨a, b⟩; exact ⟨by omega, b⟩
      · rintro ⟨a, b⟩
        refine ⟨?_, b⟩
        by_contra hlt
        have : v = i := by omega
        exact hs' (this ▸ b)
  · rw [hl] at h
    refine ⟨rfl, ⟨hl, h.1, hv, ?_, ?_⟩, h.2⟩
    · intro v hv' hx
      rw [h.2 v, decide_eq_true_iff]; exact ⟨hv', Or.inl hx⟩
    · intro v hv'
      rw [h.2 v, decide_eq_true_iff] at hv'
      exact hv'

theorem ext_int_fits {g : Graph} (hg : g.WF) (hm : g.Small) (lab : Nat → Nat) {v : Nat} (hv : v < g.nv) :
    externalWeight g lab v + internalWeight g lab v < M32 := by
  have := internal_add_external hg lab hv
  have := Graph.wdeg_le (g := g) hv
  have := hm.edge
  omega

/-- Twice the weighted degree of a vertex fits into the total. -/
theorem two_wdeg_le {g : Graph} (hg : g.Good) {u : Nat} (hu : u < g.nv) :
    2 * g.wsum u (fun _ => true) ≤ g.sumEdge := by
  unfold Graph.sumEdge
  rw [← Finset.add_sum_erase _ _ (Finset.mem_range.mpr hu)]
  have h1 : g.wsum u (fun _ => true) = ∑ v ∈ (range g.nv).erase u, g.wt u v := by
    rw [Graph.wsum_eq_sum hg.wf hu, ← Finset.add_sum_erase _ _ (Finset.mem_range.mpr hu)]
    simp [Graph.wt_self hg.noLoop hu]
  have h2 : (∑ v ∈ (range g.nv).erase u, g.wt u v) ≤ ∑ v ∈ (range g.nv).erase u, g.wsum v (fun _ => true) := by
    refine Finset.sum_le_sum fun v hv => ?_
    rw [hg.symm u v hu (Finset.mem_range.mp (Finset.mem_of_mem_erase hv))]
    exact Graph.wt_le
  omega

/-- In an undirected graph without loops whose edge weights, counted in both directions, add up to less than 2^32, the
edges of a vertex fit a signed number. -/
theorem ext_int_lt {g : Graph} (hg : g.Good) (lab : Nat → Nat) {v : Nat} (hv : v < g.nv) :
    externalWeight g lab v + internalWeight g lab v < 2147483648 := by
  have := internal_add_external hg.wf lab hv
  have := two_wdeg_le hg hv
  have := hg.small.edge
  omega

theorem fromPartitioning_spec (P : SetImpl) {g : Graph} (hg : g.WF) (hm : g.Small) {p : Partitioning}
    (ha : p.asg.length = g.nv) :
    Sat (Conn.fromPartitioning P g p) (fun c => ConnExact g p.lab c ∧
      ∀ v, P.has c.border.s v =
        decide (v < g.nv ∧ (0 < externalWeight g p.lab v ∨ internalWeight g p.lab v = 0))) := by
  unfold Conn.fromPartitioning
  rw [setupConnections_eq hg ha, ok_bind]
  refine (Conn.ofArray_spec P (n := g.nv) (X := externalWeight g p.lab) (I := internalWeight g p.lab)
    (by simp) ?_).mono (fun c h => ⟨h.2.1.exact (fun _ _ => rfl) (fun _ _ => rfl), h.2.2⟩)
  intro v hv
  rw [nth_map (by simpa using hv), nth_range hv]
  have := ext_int_fits hg hm p.lab hv
  rw [Nat.mod_eq_of_lt (by omega), Nat.mod_eq_of_lt (by omega)]

end Poros
