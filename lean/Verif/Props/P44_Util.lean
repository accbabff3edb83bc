import Verif.SpecUtil
import Verif.Proofs.Graph
import Verif.Examples
/-
C44, C45, C46, C52, C64, C65, C66, C67: vertex and edge sets, orders, visit tracker, time keeper, timed wrappers.
-/
namespace Poros
open Res

variable {E : Env} {fp : FP} {g : Graph}

/-! ### C44 -/

theorem IndexSet.loop_eq {stop : Nat} (hs : stop < M32) : ∀ (n fuel it : Nat), it < M32 → usub stop it = n → n < fuel →
    IndexSet.loop stop fuel it = ok ((List.range n).map fun i => (it + i) % M32) := by
  intro n
  induction n with
  | zero =>
    intro fuel it hit hn hf
    obtain ⟨f, rfl⟩ := Nat.exists_eq_succ_of_ne_zero (n := fuel) (by omega)
    unfold IndexSet.loop
    rw [if_neg (by unfold usub at hn; omega)]
    rfl
  | succ n ih =>
    intro fuel it hit hn hf
    obtain ⟨f, rfl⟩ := Nat.exists_eq_succ_of_ne_zero (n := fuel) (by omega)
    unfold IndexSet.loop
    rw [if_pos (by unfold usub at hn; omega), ih f (uadd it 1) (uadd_lt _ _) (by unfold usub uadd at *; omega) (by omega),
      ok_bind, List.range_succ_eq_map, List.map_cons, List.map_map]
    refine congrArg ok ?_
    rw [Nat.add_zero, Nat.mod_eq_of_lt hit]
    refine congrArg _ (List.map_congr_left fun i _ => ?_)
    simp only [Function.comp, uadd]
    omega

/-- **C44, all ranges.** Iterating any set ends and yields `size()` distinct indices, counting upwards from `begin`
modulo `2^32` (so a set whose end is below its begin wraps around). -/
theorem C44_iterate_wrapping {s : IndexSet} (hb : s.b < 2 ^ 32) (he : s.e < 2 ^ 32) {fuel : Nat} (hf : s.size < fuel) :
    ∃ l, s.iterate fuel = ok l ∧ l.length = s.size ∧ l.Nodup ∧ ∀ i, i < l.length → nth l i = (s.b + i) % 2 ^ 32 := by
  have hb' : s.b < M32 := by simpa using hb
  have he' : s.e < M32 := by simpa using he
  refine ⟨_, IndexSet.loop_eq he' _ _ _ hb' rfl hf, by simp [IndexSet.size], ?_, fun i hi => ?_⟩
  · have hlt := usub_lt s.e s.b
    refine (List.nodup_range).map_on fun x hx y hy hxy => ?_
    rw [List.mem_range] at hx hy
    omega
  · simp only [List.length_map, List.length_range] at hi
    rw [nth_map (by simpa using hi), nth_range hi]
    norm_num

/-- **C44.** Iterating a set yields each index from `begin` to `end` exactly once in increasing order, and `size()` is the
number of indices yielded. -/
theorem C44_iterate {s : IndexSet} (hb : s.b ≤ s.e) (he : s.e < 2 ^ 32) {fuel : Nat} (hf : s.e - s.b < fuel) :
    ∃ l, s.iterate fuel = ok l ∧ l.Pairwise (· < ·) ∧ (∀ i, i ∈ l ↔ s.b ≤ i ∧ i < s.e) ∧ s.size = l.length := by
  have he' : s.e < M32 := by simpa using he
  have hs : usub s.e s.b = s.e - s.b := usub_eq hb he'
  have h := IndexSet.loop_eq he' _ fuel s.b (by omega) hs (by omega)
  have e : ((List.range (s.e - s.b)).map fun i => (s.b + i) % M32) = List.range' s.b (s.e - s.b) := by
    rw [List.range'_eq_map_range]
    refine List.map_congr_left fun i hi => ?_
    rw [List.mem_range] at hi
    omega
  rw [e] at h
  refine ⟨_, h, List.pairwise_lt_range', fun i => ?_, by simp [IndexSet.size, hs]⟩
  rw [List.mem_range'_1]
  omega

theorem IndexSet.iterate_eq {s : IndexSet} (hb : s.b ≤ s.e) (he : s.e < M32) {fuel : Nat} (hf : s.e - s.b < fuel) :
    s.iterate fuel = ok (List.range' s.b (s.e - s.b)) := by
  obtain ⟨l, h, hp, hm, -⟩ := C44_iterate hb (by simpa using he) hf
  rw [h]
  refine congrArg ok (List.Perm.eq_of_pairwise (le := (· < ·)) (fun a b _ _ h1 h2 => absurd h1 (by omega)) hp
    List.pairwise_lt_range' ?_)
  rw [List.perm_ext_iff_of_nodup (hp.imp fun h => Nat.ne_of_lt h) List.nodup_range']
  intro a
  rw [hm, List.mem_range'_1]
  omega

/-- **C44, whole graph.** Iterating over all vertices of a graph and over the edges of each visits every edge of the
graph exactly once, in order. -/
theorem C44_graph (h : g.WF) {fuel : Nat} (hf : g.nv + g.ne < fuel) :
    g.vertices.iterate fuel = ok (List.range g.nv) ∧
    (do let es ← (List.range g.nv).mapM (fun v => do (← g.edgeSetOf v).iterate fuel)
        ok es.flatten) = ok (List.range g.ne) := by
  have hnv := h.nv_lt
  have hne := h.ne_lt
  constructor
  · rw [IndexSet.iterate_eq (s := g.vertices) (Nat.zero_le _) (show g.nv < M32 by omega) (show g.nv - 0 < fuel by omega)]
    show ok (List.range' 0 (g.nv - 0)) = _
    rw [Nat.sub_zero, List.range_eq_range']
  · have e : (List.range g.nv).mapM (fun v => do (← g.edgeSetOf v).iterate fuel) =
        ok ((List.range g.nv).map fun v => List.range' (nth g.xadj v) (nth g.xadj (v + 1) - nth g.xadj v)) := by
      refine mapM_ok_eq_map fun v hv => ?_
      rw [List.mem_range] at hv
      have h1 := h.xadj_mono v hv
      have h2 := Graph.xadj_le_ne h (v := v + 1) (by omega)
      unfold Graph.edgeSetOf
      rw [rd_of_lt (by rw [h.xadj_len]; omega), ok_bind, rd_of_lt (by rw [h.xadj_len]; omega), ok_bind, ok_bind]
      exact IndexSet.iterate_eq h1 (show nth g.xadj (v + 1) < M32 by omega)
        (show nth g.xadj (v + 1) - nth g.xadj v < fuel by omega)
    rw [e, ok_bind]
    refine congrArg ok ?_
    have key : ∀ n, n ≤ g.nv → ((List.range n).map fun v =>
        List.range' (nth g.xadj v) (nth g.xadj (v + 1) - nth g.xadj v)).flatten = List.range (nth g.xadj n) := by
      intro n
      induction n with
      | zero => intro _; rw [h.xadj_zero]; rfl
      | succ n ih =>
        intro hn
        have h1 := h.xadj_mono n (by omega)
        rw [List.range_succ, List.map_append, List.flatten_append, ih (by omega), List.range_eq_range',
          List.range_eq_range']
        simp only [List.map_cons, List.map_nil, List.flatten_cons, List.flatten_nil, List.append_nil]
        rw [show nth g.xadj (n + 1) = nth g.xadj n + (nth g.xadj (n + 1) - nth g.xadj n) by omega]
        rw [show nth g.xadj n + (nth g.xadj (n + 1) - nth g.xadj n) - nth g.xadj n =
          nth g.xadj (n + 1) - nth g.xadj n by omega]
        have := List.range'_append (s := 0) (m := nth g.xadj n) (n := nth g.xadj (n + 1) - nth g.xadj n) (step := 1)
        simpa using this
    rw [key _ (Nat.le_refl _), h.xadj_last]

/-- The hypotheses are met. -/
example : (IndexSet.mk 3 7).iterate 9 = ok [3, 4, 5, 6] ∧ (IndexSet.mk 4294967294 1).iterate 9 = ok [4294967294, 4294967295, 0] ∧
    Ex.tri2.WF ∧ 0 < Ex.tri2.ne := ⟨by decide +kernel, by decide +kernel, Ex.tri2_wf, by decide⟩

/-! ### C64 -/

/-- **C64.** `set[i]` is the `i`-th vertex iterated for sets that begin at 0, and never for other sets. -/
theorem C64_indexing {s : IndexSet} (hb : s.b ≤ s.e) (he : s.e < 2 ^ 32) {fuel : Nat} (hf : s.e - s.b < fuel) :
    ∃ l, s.iterate fuel = ok l ∧ ∀ i, i < l.length → (s.get i = nth l i ↔ s.b = 0) := by
  obtain ⟨l, h1, -, -, h2⟩ := C44_iterate_wrapping (s := s) (by omega) he
    (show s.size < fuel by unfold IndexSet.size; rw [usub_eq hb (by simpa using he)]; exact hf)
  refine ⟨l, h1, fun i hi => ?_⟩
  obtain ⟨l', h3, -, h4, h5⟩ := C44_iterate hb he hf
  rw [h1] at h3
  cases h3
  rw [h2 i hi]
  have hsz : s.size = s.e - s.b := usub_eq hb (by simpa using he)
  unfold IndexSet.get
  have : (s.b + i) % 2 ^ 32 = s.b + i := Nat.mod_eq_of_lt (by omega)
  omega

/-! ### C45 -/

theorem degreeOf_val (h : g.WF) {v : Nat} (hv : v < g.nv) : g.degreeOf v = ok (nth g.xadj (v + 1) - nth g.xadj v) := by
  have h1 := h.xadj_mono v hv
  have h2 := Graph.xadj_le_ne h (v := v + 1) (by omega)
  have hne := h.ne_lt
  unfold Graph.degreeOf
  rw [rd_of_lt (by rw [h.xadj_len]; omega), ok_bind, rd_of_lt (by rw [h.xadj_len]; omega), ok_bind,
    usub_eq h1 (by omega)]

theorem Mem_freeze_map_some (l : List Nat) : Mem.freeze (l.map some) = ok l := by
  unfold Mem.freeze
  rw [mapM_ok_eq_map (g := fun c => c.getD 0)]
  · rw [List.map_map]; simp
  · intro c hc
    obtain ⟨a, -, rfl⟩ := List.mem_map.mp hc
    rfl

theorem degreesOf_eq (h : g.WF) {fuel : Nat} (hf : g.nv < fuel) :
    degreesOf g g.vertices fuel = ok ((List.range g.nv).map (degree g)) := by
  have hnv := h.nv_lt
  have hsz : g.vertices.size = g.nv := usub_eq (Nat.zero_le _) (show g.nv < M32 by omega)
  unfold degreesOf
  rw [hsz, IndexSet.iterate_eq (s := g.vertices) (Nat.zero_le _) (show g.nv < M32 by omega) (show g.nv - 0 < fuel by omega),
    ok_bind, show List.range' g.vertices.b (g.vertices.e - g.vertices.b) = List.range g.nv by
      rw [List.range_eq_range']; rfl]
  have key : Sat ((List.range g.nv).foldlM (fun ds v => do
      let d ← g.degreeOf v
      Mem.wr ds v d) (Mem.alloc g.nv)) (fun ds => ds = ((List.range g.nv).map (degree g)).map some) := by
    refine (Post_foldlM_range (P := fun n (ds : Mem) => ds.length = g.nv ∧
      ∀ v, v < n → nth ds v = some (degree g v)) (by simp [Mem.alloc]) fun i ds hi hd => ?_).mono fun ds hd => ?_
    · rw [degreeOf_val h hi, ok_bind]
      unfold Mem.wr
      rw [wr_of_lt (by omega)]
      refine ⟨by simp [hd.1], fun v hv => ?_⟩
      rw [nth_set (by omega)]
      by_cases e : i = v
      · subst e; rw [if_pos rfl, degree, Graph.nbrs_length]
      · rw [if_neg (Ne.symm e)]; exact hd.2 v (by omega)
    · refine list_ext_nth (by simp [hd.1]) fun i hi => ?_
      rw [hd.2 i (by omega), nth_map (by simp; omega), nth_map (by simp; omega), nth_range (by omega)]
  obtain ⟨ds, e, rfl⟩ := sat_iff.mp key
  rw [e, ok_bind, Mem_freeze_map_some]

theorem degreeOrder_of {o : List Nat} (h1 : o.Perm (List.range ((List.range g.nv).map (degree g)).length))
    (h2 : o.Pairwise fun a b => nth ((List.range g.nv).map (degree g)) a ≤ nth ((List.range g.nv).map (degree g)) b) :
    DegreeOrder g o := by
  rw [List.length_map, List.length_range] at h1
  refine ⟨h1, h2.imp_of_mem fun {a b} ha hb h => ?_⟩
  have ha := List.mem_range.mp (h1.mem_iff.mp ha)
  have hb := List.mem_range.mp (h1.mem_iff.mp hb)
  rwa [nth_map (by simpa using ha), nth_map (by simpa using hb), nth_range ha, nth_range hb] at h

/-- **C45.** On all vertices of a graph, the random order visits every vertex exactly once, and both degree-sorted orders
visit every vertex exactly once in non-decreasing degree; for every random engine. -/
theorem C45_orders (h : g.WF) {fuel : Nat} (hf : g.nv < fuel) (r : E.rng.S) :
    (randomOrderOf E g.vertices r).1.Perm (List.range g.nv) ∧
    (∃ o, ascendingOf E g g.vertices fuel = ok o ∧ DegreeOrder g o) ∧
    (∃ o r', ascendingRandomOf E g g.vertices fuel r = ok (o, r') ∧ DegreeOrder g o) := by
  have hnv := h.nv_lt
  have hsz : g.vertices.size = g.nv := usub_eq (Nat.zero_le _) (show g.nv < M32 by omega)
  refine ⟨?_, ?_, ?_⟩
  · unfold randomOrderOf
    rw [hsz]
    exact E.rng.perm_perm r g.nv
  · unfold ascendingOf
    rw [degreesOf_eq h hf, ok_bind]
    exact ⟨_, rfl, degreeOrder_of (E.rng.sort_perm _) (E.rng.sort_sorted _)⟩
  · unfold ascendingRandomOf
    rw [degreesOf_eq h hf, ok_bind]
    exact ⟨_, _, rfl, degreeOrder_of (E.rng.sortRandom_perm _ _) (E.rng.sortRandom_sorted _ _)⟩

/-- **C45.** The orders used inside the aggregators are these orders. -/
theorem C45_orders_used (h : g.WF) {fuel : Nat} (hf : g.nv < fuel) (r : E.rng.S) :
    randomOrder E g r = randomOrderOf E g.vertices r ∧ ascending E g = ascendingOf E g g.vertices fuel ∧
    ascendingRandom E g r = ascendingRandomOf E g g.vertices fuel r := by
  have hnv := h.nv_lt
  have hsz : g.vertices.size = g.nv := usub_eq (Nat.zero_le _) (show g.nv < M32 by omega)
  have hd : degrees g = ok ((List.range g.nv).map (degree g)) :=
    mapM_ok_eq_map fun v hv => by
      rw [degreeOf_val h (List.mem_range.mp hv), degree, Graph.nbrs_length]
  refine ⟨?_, ?_, ?_⟩
  · unfold randomOrder randomOrderOf; rw [hsz]
  · unfold ascending ascendingOf; rw [degreesOf_eq h hf, hd]
  · unfold ascendingRandom ascendingRandomOf; rw [degreesOf_eq h hf, hd]

/-! ### C65 -/

/-- **C65.** On a set that does not begin at vertex 0, the random order is an order of the first vertices of the graph
instead of the set, and the degree-sorted orders write outside their array: undefined behaviour. -/
theorem C65_subset_orders (h : g.WF) {s : IndexSet} (hb : 0 < s.b) (hbe : s.b < s.e) (he : s.e ≤ g.nv) {fuel : Nat}
    (hf : s.e - s.b < fuel) (r : E.rng.S) :
    (s.b ≤ s.e - 1 ∧ s.e - 1 ∉ (randomOrderOf E s r).1) ∧ ascendingOf E g s fuel = ub ∧
    ascendingRandomOf E g s fuel r = ub := by
  have hnv := h.nv_lt
  have hsz : s.size = s.e - s.b := usub_eq (Nat.le_of_lt hbe) (show s.e < M32 by omega)
  have hd : degreesOf g s fuel = ub := by
    unfold degreesOf
    rw [hsz, IndexSet.iterate_eq (Nat.le_of_lt hbe) (show s.e < M32 by omega) hf, ok_bind]
    have hl : List.range' s.b (s.e - s.b) = List.range' s.b (s.e - s.b - 1) ++ [s.e - 1] := by
      rw [show s.e - s.b = s.e - s.b - 1 + 1 by omega, List.range'_concat]
      simp; omega
    have key : ∀ (l : List Nat) (ds : Mem), (∀ v ∈ l, v < g.nv) →
        l.foldlM (fun ds v => do
          let d ← g.degreeOf v
          Mem.wr ds v d) ds = ub ∨ ∃ ds', l.foldlM (fun ds v => do
          let d ← g.degreeOf v
          Mem.wr ds v d) ds = ok ds' ∧ ds'.length = ds.length := by
      intro l
      induction l with
      | nil => intro ds _; exact Or.inr ⟨ds, rfl, rfl⟩
      | cons v vs ih =>
        intro ds hv
        rw [List.foldlM_cons, degreeOf_val h (hv v (by simp)), ok_bind]
        unfold Mem.wr
        by_cases hlt : v < ds.length
        · rw [wr_of_lt hlt, ok_bind]
          rcases ih (ds.set v (some (nth g.xadj (v + 1) - nth g.xadj v))) (fun u hu => hv u (by simp [hu])) with h | ⟨d, h, hl⟩
          · exact Or.inl h
          · exact Or.inr ⟨d, h, by rw [hl, List.length_set]⟩
        · left
          rw [show wr ds v (some (nth g.xadj (v + 1) - nth g.xadj v)) = ub by unfold wr; rw [if_neg hlt], ub_bind]
    rw [hl, List.foldlM_append]
    rcases key (List.range' s.b (s.e - s.b - 1)) (Mem.alloc (s.e - s.b)) (fun v hv => by
        rw [List.mem_range'_1] at hv; omega) with h' | ⟨ds, h', hlen⟩
    · rw [h', ub_bind, ub_bind]
    · rw [h', ok_bind, List.foldlM_cons, degreeOf_val h (by omega), ok_bind]
      have : wr ds (s.e - 1) (some (nth g.xadj (s.e - 1 + 1) - nth g.xadj (s.e - 1))) = ub := by
        unfold wr
        rw [if_neg (by rw [hlen]; simp [Mem.alloc]; omega)]
      unfold Mem.wr
      rw [this, ub_bind, ub_bind]
  refine ⟨⟨by omega, fun hm => ?_⟩, ?_, ?_⟩
  · unfold randomOrderOf at hm
    rw [(E.rng.perm_perm r s.size).mem_iff, hsz, List.mem_range] at hm
    omega
  · unfold ascendingOf; rw [hd, ub_bind]
  · unfold ascendingRandomOf; rw [hd, ub_bind]

/-- The hypotheses are met. -/
example : Ex.tri2.WF ∧ 0 < (IndexSet.mk 2 5).b ∧ (IndexSet.mk 2 5).e ≤ Ex.tri2.nv := ⟨Ex.tri2_wf, by decide, by decide⟩

/-! ### C46 -/

/-- **C46.** After any sequence of visit, unvisit and clear calls with indices in range, an index is reported visited
exactly if it was visited after its last unvisit or clear; the size does not change. -/
theorem C46_visited {n : Nat} {h : List VisitOp} (hr : ∀ op ∈ h, op.InRange n) :
    ∃ t, h.foldlM VisitOp.run (VisitTracker.new n) = ok t ∧ t.size = n ∧
      ∀ i, i < n → ∃ b, t.hasVisited i = ok b ∧ (b = true ↔ Visited h i) := by
  have key := sat_iff.mp (Post_foldlM (B := False) (f := VisitOp.run) (l := h) (s := VisitTracker.new n)
    (fun pre t => t.bits.length = n ∧ ∀ i, i < n → (nth t.bits i = true ↔ Visited pre i))
    ⟨by simp [VisitTracker.new], fun i hi => by
      simp only [VisitTracker.new]
      rw [nth_replicate hi]
      constructor
      · intro h; cases h
      · rintro ⟨b, a, he, -⟩; simp at he⟩ ?_)
  · obtain ⟨t, h1, h2, h3⟩ := key
    refine ⟨t, h1, h2, fun i hi => ⟨_, rd_of_lt (by omega), h3 i hi⟩⟩
  · intro pre op post t hl ⟨hlen, hv⟩
    have hop := hr op (by rw [hl]; simp)
    have snoc : ∀ i, Visited (pre ++ [op]) i ↔ op = .visit i ∨ (Visited pre i ∧ op ≠ .unvisit i ∧ op ≠ .clear) := by
      intro i
      constructor
      · rintro ⟨b, a, he, h1, h2⟩
        rcases List.eq_nil_or_concat a with rfl | ⟨a', x, rfl⟩
        · left
          have := List.append_inj_right' he rfl
          simpa using this
        · right
          rw [List.concat_eq_append] at *
          rw [← List.cons_append, ← List.append_assoc] at he
          have e1 := List.append_inj_left' he rfl
          have e2 : op = x := by simpa using List.append_inj_right' he rfl
          subst e2
          rw [List.mem_append] at h1 h2
          push Not at h1 h2
          refine ⟨⟨b, a', e1, h1.1, h2.1⟩, fun e => h1.2 (by simp [e]), fun e => h2.2 (by simp [e])⟩
      · rintro (rfl | ⟨⟨b, a, he, h1, h2⟩, h3, h4⟩)
        · exact ⟨pre, [], rfl, by simp, by simp⟩
        · refine ⟨b, a ++ [op], by rw [he]; simp, ?_, ?_⟩
          · rw [List.mem_append, not_or]; exact ⟨h1, by simpa using fun e => h3 e.symm⟩
          · rw [List.mem_append, not_or]; exact ⟨h2, by simpa using fun e => h4 e.symm⟩
    cases op with
    | visit j =>
      have hj : j < n := hop
      show Post False (VisitTracker.visit t j) _
      unfold VisitTracker.visit
      rw [wr_of_lt (by omega), ok_bind]
      refine ⟨by simp [hlen], fun i hi => ?_⟩
      rw [nth_set (by omega), snoc i]
      by_cases e : j = i
      · subst e; simp
      · rw [if_neg (Ne.symm e), hv i hi]; simp [e]
    | unvisit j =>
      have hj : j < n := hop
      show Post False (VisitTracker.unvisit t j) _
      unfold VisitTracker.unvisit
      rw [wr_of_lt (by omega), ok_bind]
      refine ⟨by simp [hlen], fun i hi => ?_⟩
      rw [nth_set (by omega), snoc i]
      by_cases e : j = i
      · subst e; simp
      · rw [if_neg (Ne.symm e), hv i hi]; simp [e]
    | clear =>
      refine ⟨by simp [VisitTracker.clear, hlen], fun i hi => ?_⟩
      rw [snoc i]
      simp only [VisitTracker.clear]
      rw [nth_replicate (by omega)]
      simp

/-- The hypotheses are met, with all kinds of calls. -/
example : (∀ op ∈ [VisitOp.visit 1, .clear, .visit 0, .visit 2, .unvisit 0], op.InRange 3) ∧
    [VisitOp.visit 1, .clear, .visit 0, .visit 2, .unvisit 0].foldlM VisitOp.run (VisitTracker.new 3) =
      ok ⟨[false, false, true]⟩ :=
  ⟨by intro op h; simp at h; rcases h with rfl | rfl | rfl | rfl | rfl <;> simp [VisitOp.InRange], by decide⟩

/-! ### C52 -/

theorem reported_snoc (h : List (Nat × fp.F)) (r : Nat × fp.F) (c : Nat) :
    reported (h ++ [r]) c = if r.1 = c then fp.add (reported h c) r.2 else reported h c := by
  unfold reported
  rw [List.filter_append]
  by_cases e : r.1 = c
  · rw [if_pos e]; simp [e]
  · rw [if_neg e]; simp [e]

/-- **C52.** A report raises an exception exactly if its category is not one of the eight. After any sequence of reports
with exceptions ignored, the time of every category is the sum of its reports in order, so refused reports changed
nothing; the categories are listed under their names. -/
theorem C52_times (h : List (Nat × fp.F)) :
    ∃ t : TimeKeeper fp, TimeKeeper.reports h = ok t ∧
      t.times = ok [("Total", reported h 0), ("Coarsening", reported h 1), ("Aggregation", reported h 2),
        ("Contraction", reported h 3), ("Initial Partitioning", reported h 4), ("Uncoarsening", reported h 5),
        ("Refinement", reported h 6), ("Projection", reported h 7)] ∧
      ∀ c s, (t.reportTime c s = exn ↔ 8 ≤ c) := by
  have key := sat_iff.mp (Post_foldlM (B := False) (l := h) (s := TimeKeeper.new fp)
    (f := fun t r => match t.reportTime r.1 r.2 with
      | .exn => .ok t
      | x => x)
    (fun pre t => t.secs = (List.range 8).map (reported pre)) rfl ?_)
  · obtain ⟨t, h1, h2⟩ := key
    refine ⟨t, h1, ?_, fun c s => ?_⟩
    · show _ = ok ((List.range 8).map fun c => (nth timeNames c, reported h c))
      unfold TimeKeeper.times
      rw [h2, List.length_map, List.length_range]
      refine mapM_ok_eq_map fun i hi => ?_
      rw [List.mem_range] at hi
      rw [rd_of_lt (show i < timeNames.length from hi), ok_bind, rd_of_lt (by simpa using hi), ok_bind,
        nth_map (by simpa using hi), nth_range hi]
    · have hl : t.secs.length = 8 := by rw [h2]; simp
      unfold TimeKeeper.reportTime
      rw [hl]
      by_cases hc : 8 ≤ c
      · rw [if_pos hc]; simp [hc]
      · rw [if_neg hc, rd_of_lt (by omega), ok_bind, wr_of_lt (by omega), ok_bind]
        simp; omega
  · intro pre r post t hl ht
    have hlen : t.secs.length = 8 := by rw [ht]; simp
    unfold TimeKeeper.reportTime
    rw [hlen]
    by_cases hc : 8 ≤ r.1
    · rw [if_pos hc]
      show t.secs = _
      rw [ht]
      refine List.map_congr_left fun c hc' => ?_
      rw [List.mem_range] at hc'
      rw [reported_snoc, if_neg (by omega)]
    · rw [if_neg hc, rd_of_lt (by omega), ok_bind, wr_of_lt (by omega), ok_bind]
      show t.secs.set r.1 _ = _
      refine list_ext_nth (by simp [hlen]) fun i hi => ?_
      have hi8 : i < 8 := by simpa [hlen] using hi
      rw [nth_set (by omega), nth_map (by simpa using hi8), nth_range hi8, reported_snoc, ht,
        nth_map (by simpa using (by omega : r.1 < 8)), nth_range (by omega), nth_map (by simpa using hi8), nth_range hi8]
      by_cases e : r.1 = i
      · subst e; simp
      · rw [if_neg e, if_neg (Ne.symm e)]

/-! ### C66 -/

/-- **C66.** A timed wrapper around any operation behaves as the operation: it ends normally exactly if the operation
does, with the same result, and otherwise fails in the same way. With a time keeper that has seen any history of
reports, the measured time is added to its category (one of the eight) and to no other; without one nothing is
reported. -/
theorem C66_timed {α : Type} {op : Res α} {cat : Nat} (hc : cat < 8) (s : fp.F) (h : List (Nat × fp.F)) {t : TimeKeeper fp}
    (ht : TimeKeeper.reports h = ok t) :
    timed cat op (none : Option (TimeKeeper fp)) s = (do let a ← op; ok (a, none)) ∧
    ∃ t', TimeKeeper.reports (h ++ [(cat, s)]) = ok t' ∧
      timed cat op (some t) s = (do let a ← op; ok (a, some t')) := by
  have hne : t.reportTime cat s ≠ exn := by
    obtain ⟨t2, h1, -, h2⟩ := C52_times h
    rw [ht] at h1
    cases h1
    intro e
    have := (h2 cat s).mp e
    omega
  obtain ⟨t', h1, -⟩ := C52_times (h ++ [(cat, s)])
  refine ⟨by cases op <;> rfl, t', h1, ?_⟩
  have hrep : t.reportTime cat s = ok t' := by
    have h1' := h1
    unfold TimeKeeper.reports at h1' ht
    rw [List.foldlM_append, ht, ok_bind, List.foldlM_cons] at h1'
    simp only [List.foldlM_nil] at h1'
    generalize t.reportTime cat s = x at hne h1'
    cases x with
    | ok a => exact h1'
    | ub => cases h1'
    | exn => exact absurd rfl hne
    | diverge => cases h1'
  cases op with
  | ok a =>
    unfold timed timedReport
    rw [ok_bind, ok_bind, ofI32_nat (by omega)]
    show ((t.reportTime cat s >>= fun t => ok (some t)) >>= _) = _
    rw [hrep]
    rfl
  | ub => rfl
  | exn => rfl
  | diverge => rfl

/-! ### C67 -/

/-- **C67.** The multilevel k-way partitioner does nothing: whatever the graph and target, every vertex is left unassigned. -/
theorem C67_stub (t : Target fp) (g : Graph) : ∀ v, v < g.nv → (multilevelPartition t g).lab v = 2 ^ 32 - 1 := by
  intro v hv
  show nth (List.replicate g.nv _) v = _
  rw [nth_replicate hv]
  norm_num

end Poros
