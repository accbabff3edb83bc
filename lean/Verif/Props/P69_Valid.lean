import Verif.Model.GraphValid
import Verif.Proofs.Csr
import Verif.Props.P02_Contraction
import Verif.Props.P07_Subgraph
import Verif.Examples
/-
C69: the debug-build validity check of graphs.
-/
namespace Poros
open Finset Res

/-- Arrays of the right lengths and an increasing edge prefix: what a graph needs for its validity check to make
sense. Nothing is assumed about destinations, totals or symmetry. -/
structure Graph.Shaped (g : Graph) : Prop where
  nv_lt : g.nv < NULL32
  ne_lt : g.ne < NULL32
  xadj_len : g.xadj.length = g.nv + 1
  adj_len : g.adjncy.length = g.ne
  xadj_zero : nth g.xadj 0 = 0
  xadj_mono : ∀ v, v < g.nv → nth g.xadj v ≤ nth g.xadj (v + 1)
  xadj_last : nth g.xadj g.nv = g.ne
  vwgt_len : g.unitVtx = false → g.vwgt.length = g.nv
  adjwgt_len : g.unitEdge = false → g.adjwgt.length = g.ne

theorem allM_eq {f : α → Res Bool} {p : α → Bool} {l : List α} (h : ∀ x ∈ l, f x = ok (p x)) :
    allM f l = ok (l.all p) := by
  induction l with
  | nil => rfl
  | cons x xs ih =>
    rw [allM, h x (by simp), ok_bind, ih fun y hy => h y (by simp [hy])]
    cases hp : p x <;> simp [hp]

theorem foldlM_uadd_range {f : Nat → Res Nat} {w : Nat → Nat} {n : Nat} (h : ∀ i, i < n → f i = ok (w i)) :
    (List.range n).foldlM (fun s i => do
      let x ← f i
      .ok (uadd s x)) 0 = ok ((∑ i ∈ range n, w i) % M32) := by
  induction n with
  | zero => simp
  | succ n ih =>
    rw [List.range_succ, List.foldlM_append, ih fun i hi => h i (by omega), ok_bind, List.foldlM_cons,
      h n (by omega), ok_bind, sum_range_succ]
    simp [uadd]

/-- The first edge from `u` back to `v`, if any, has weight `w`. -/
def Graph.RevAt (g : Graph) (v u w : Nat) : Prop := (g.nbrs u).find? (fun q => q.1 == v) = some (v, w)

theorem Graph.Shaped.mono {g : Graph} (h : g.Shaped) {u v : Nat} (huv : u ≤ v) (hv : v ≤ g.nv) :
    nth g.xadj u ≤ nth g.xadj v := by
  induction v with
  | zero => obtain rfl : u = 0 := by omega
            exact le_refl _
  | succ v ih =>
    rcases Nat.lt_or_ge u (v + 1) with hlt | hge
    · exact le_trans (ih (by omega) (by omega)) (h.xadj_mono v (by omega))
    · obtain rfl : u = v + 1 := by omega
      exact le_refl _

theorem Graph.Shaped.slot_lt {g : Graph} (h : g.Shaped) {v e : Nat} (hv : v < g.nv)
    (he : e ∈ List.range' (nth g.xadj v) (nth g.xadj (v + 1) - nth g.xadj v)) : e < g.ne := by
  rw [List.mem_range'_1] at he
  have := h.mono (u := v + 1) (by omega) (le_refl g.nv)
  have := h.xadj_mono v hv
  have := h.xadj_last
  omega

theorem Graph.Shaped.edgesOf {g : Graph} (h : g.Shaped) {v : Nat} (hv : v < g.nv) :
    g.edgesOf v = ok (List.range' (nth g.xadj v) (nth g.xadj (v + 1) - nth g.xadj v)) := by
  unfold Graph.edgesOf
  have := h.xadj_len
  rw [rd_of_lt (by omega), ok_bind, rd_of_lt (by omega), ok_bind, if_pos (h.xadj_mono v hv)]

theorem Graph.Shaped.revOk {g : Graph} (h : g.Shaped) {v e : Nat} (he : e < g.ne) {fs : List Nat}
    (hfs : ∀ f ∈ fs, f < g.ne) :
    g.revOk v e fs = ok (decide ((fs.map fun f => (nth g.adjncy f, g.ew f)).find? (fun q => q.1 == v) =
      some (v, g.ew e))) := by
  induction fs with
  | nil => simp [Graph.revOk]
  | cons f fs ih =>
    have hf : f < g.ne := hfs f (by simp)
    rw [Graph.revOk, Graph.dest, rd_of_lt (by rw [h.adj_len]; exact hf), ok_bind]
    by_cases hd : v = nth g.adjncy f
    · rw [if_pos hd]
      cases hu : g.unitEdge with
      | true => simp [hd, Graph.ew, hu]
      | false =>
        have hl := h.adjwgt_len hu
        simp only [Graph.ewgt, if_true, Bool.false_eq_true, if_false]
        rw [rd_of_lt (by omega), ok_bind, rd_of_lt (by omega), ok_bind]
        simp [hd, Graph.ew, hu, eq_comm]
    · rw [if_neg hd, ih fun x hx => hfs x (by simp [hx])]
      rw [List.map_cons, List.find?_cons_of_neg (by simpa using fun h => hd h.symm)]

theorem Graph.Shaped.isValid {g : Graph} (h : g.Shaped) :
    ∃ b, g.isValid = ok b ∧ (b = true ↔
      g.totVtx = g.sumVtx % M32 ∧ (∀ e, e < g.ne → nth g.adjncy e < g.nv) ∧ g.totEdge = g.sumEdge % M32 ∧
      ∀ v, v < g.nv → ∀ u w, (u, w) ∈ g.nbrs v → g.RevAt v u w) := by
  have e1 := foldlM_uadd_range (f := g.vwgtOf (!g.unitVtx)) (w := g.vw) (n := g.nv) (by
    intro v hv
    unfold Graph.vwgtOf Graph.vw
    cases hu : g.unitVtx with
    | true => simp
    | false => simp only [Bool.not_false, if_true, Bool.false_eq_true, if_false]
               exact rd_of_lt (by rw [h.vwgt_len hu]; exact hv))
  have e3 := foldlM_uadd_range (f := g.ewgt (!g.unitEdge)) (w := g.ew) (n := g.ne) (by
    intro e he
    unfold Graph.ewgt Graph.ew
    cases hu : g.unitEdge with
    | true => simp
    | false => simp only [Bool.not_false, if_true, Bool.false_eq_true, if_false]
               exact rd_of_lt (by rw [h.adjwgt_len hu]; exact he))
  rw [← sumEdge_eq_slots h.xadj_zero h.xadj_last h.xadj_mono] at e3
  have e2 := allM_eq (l := List.range g.ne) (f := fun e => do
      let u ← g.dest e
      .ok (decide (u < g.nv))) (p := fun e => decide (nth g.adjncy e < g.nv)) (by
    intro e he
    rw [List.mem_range] at he
    rw [Graph.dest, rd_of_lt (by rw [h.adj_len]; exact he), ok_bind])
  unfold Graph.isValid
  rw [e1, ok_bind]
  by_cases h1 : (∑ v ∈ range g.nv, g.vw v) % M32 ≠ g.totVtx
  · rw [if_pos h1]
    exact ⟨false, rfl, by simp only [Bool.false_eq_true, false_iff]; rintro ⟨h, -⟩; exact h1 h.symm⟩
  rw [if_neg h1, e2, ok_bind]
  cases hd : (List.range g.ne).all fun e => decide (nth g.adjncy e < g.nv) with
  | false =>
    refine ⟨false, rfl, ?_⟩
    simp only [Bool.false_eq_true, false_iff]
    rintro ⟨-, h, -⟩
    rw [List.all_eq_false] at hd
    obtain ⟨e, he, hn⟩ := hd
    exact hn (by simpa using h e (by simpa using he))
  | true =>
    rw [List.all_eq_true] at hd
    have hdest : ∀ e, e < g.ne → nth g.adjncy e < g.nv := fun e he => by simpa using hd e (by simpa using he)
    simp only [Bool.not_true, Bool.false_eq_true, if_false]
    rw [e3, ok_bind]
    by_cases h3 : g.sumEdge % M32 ≠ g.totEdge
    · rw [if_pos h3]
      exact ⟨false, rfl, by simp only [Bool.false_eq_true, false_iff]; rintro ⟨-, -, h, -⟩; exact h3 h.symm⟩
    rw [if_neg h3]
    have e4 : ∀ v, v < g.nv → g.checkVertex v =
        ok ((List.range' (nth g.xadj v) (nth g.xadj (v + 1) - nth g.xadj v)).all fun e =>
          decide ((g.nbrs (nth g.adjncy e)).find? (fun q => q.1 == v) = some (v, g.ew e))) := by
      intro v hv
      unfold Graph.checkVertex
      rw [h.edgesOf hv, ok_bind]
      refine allM_eq fun e he => ?_
      have he' := h.slot_lt hv he
      rw [Graph.dest, rd_of_lt (by rw [h.adj_len]; exact he'), ok_bind, h.edgesOf (hdest e he'), ok_bind,
        h.revOk he' fun f hf => h.slot_lt (hdest e he') hf]
      rfl
    refine ⟨_, allM_eq fun v hv => e4 v (List.mem_range.mp hv), ?_⟩
    simp only [List.all_eq_true, decide_eq_true_eq, List.mem_range]
    refine ⟨fun hh => ⟨(not_not.mp h1).symm, hdest, (not_not.mp h3).symm, fun v hv u w hw => ?_⟩, fun hh v hv e he => ?_⟩
    · unfold Graph.nbrs at hw
      rw [List.mem_map] at hw
      obtain ⟨e, he, hq⟩ := hw
      have := hh v hv e he
      rw [Prod.mk.injEq] at hq
      rw [hq.1, hq.2] at this
      exact this
    · refine hh.2.2.2 v hv _ _ ?_
      unfold Graph.nbrs
      rw [List.mem_map]
      exact ⟨e, he, rfl⟩

/-- No vertex lists a neighbour twice. -/
def Graph.NoParallel (g : Graph) : Prop := ∀ v, v < g.nv → ((g.nbrs v).map Prod.fst).Nodup

theorem wt_of_nodup {l : List (Nat × Nat)} (h : (l.map Prod.fst).Nodup) (u w : Nat) (hm : (u, w) ∈ l) :
    (l.map fun q => if (q.1 == u) = true then q.2 else 0).sum = w ∧ l.find? (fun q => q.1 == u) = some (u, w) := by
  induction l with
  | nil => simp at hm
  | cons q l ih =>
    rw [List.map_cons, List.nodup_cons] at h
    rw [List.mem_cons] at hm
    rcases hm with rfl | hm
    · refine ⟨?_, by simp⟩
      have : (l.map fun q => if (q.1 == u) = true then q.2 else 0).sum = 0 := by
        rw [List.sum_eq_zero_iff]
        intro x hx
        obtain ⟨q, hq, rfl⟩ := List.mem_map.mp hx
        have : q.1 ≠ u := fun hh => h.1 (List.mem_map.mpr ⟨q, hq, hh⟩)
        simp [this]
      rw [List.map_cons, List.sum_cons, this]
      simp
    · have hne : q.1 ≠ u := fun hh => h.1 (List.mem_map.mpr ⟨_, hm, hh.symm⟩)
      have := ih h.2 hm
      refine ⟨by rw [List.map_cons, List.sum_cons, this.1]; simp [hne], ?_⟩
      rw [List.find?_cons_of_neg (by simpa using hne)]
      exact this.2

/-- **C69.** On every graph whose arrays have the right lengths the check finishes, and it accepts exactly if both
stored totals are the sums of the weights (modulo 2^32), all destinations are vertices, and for every edge from `v`
to `u` the *first* edge listed from `u` back to `v` exists and has the same weight. -/
theorem C69_isValid {g : Graph} (h : g.Shaped) :
    ∃ b, g.isValid = ok b ∧ (b = true ↔
      g.totVtx = g.sumVtx % M32 ∧ (∀ e, e < g.ne → nth g.adjncy e < g.nv) ∧ g.totEdge = g.sumEdge % M32 ∧
      ∀ v, v < g.nv → ∀ u w, (u, w) ∈ g.nbrs v → (g.nbrs u).find? (fun q => q.1 == v) = some (v, w)) :=
  h.isValid

theorem Graph.Shaped.dest_nbrs {g : Graph} (h : g.Shaped) (hd : ∀ e, e < g.ne → nth g.adjncy e < g.nv) {v u w : Nat}
    (hv : v < g.nv) (hm : (u, w) ∈ g.nbrs v) : u < g.nv := by
  unfold Graph.nbrs at hm
  obtain ⟨e, he, hq⟩ := List.mem_map.mp hm
  rw [Prod.mk.injEq] at hq
  rw [← hq.1]
  exact hd e (h.slot_lt hv he)

/-- **C69.** On graphs without parallel edges the check decides validity: it accepts exactly if the totals are right,
the destinations are vertices, and edges and their weights are symmetric. -/
theorem C69_simple {g : Graph} (h : g.Shaped) (hs : g.NoParallel) :
    ∃ b, g.isValid = ok b ∧ (b = true ↔
      g.totVtx = g.sumVtx % M32 ∧ (∀ e, e < g.ne → nth g.adjncy e < g.nv) ∧ g.totEdge = g.sumEdge % M32 ∧
      g.Symm ∧ g.SymmAdj) := by
  obtain ⟨b, h1, h2⟩ := h.isValid
  refine ⟨b, h1, h2.trans ⟨?_, ?_⟩⟩
  · rintro ⟨a1, a2, a3, a4⟩
    have hA : g.SymmAdj := fun v u hv hu ⟨w, hw⟩ => ⟨w, List.mem_of_find?_eq_some (a4 v hv u w hw)⟩
    refine ⟨a1, a2, a3, fun v u hv hu => ?_, hA⟩
    by_cases hvu : ∃ w, (u, w) ∈ g.nbrs v
    · obtain ⟨w, hw⟩ := hvu
      have hr := List.mem_of_find?_eq_some (a4 v hv u w hw)
      exact (wt_of_nodup (hs v hv) u w hw).1.trans (wt_of_nodup (hs u hu) v w hr).1.symm
    · have hz : ∀ v u, (¬ ∃ w, (u, w) ∈ g.nbrs v) → g.wt v u = 0 := by
        intro v u hn
        unfold Graph.wt Graph.wsum
        rw [List.sum_eq_zero_iff]
        intro x hx
        obtain ⟨q, hq, rfl⟩ := List.mem_map.mp hx
        have : q.1 ≠ u := fun hh => hn ⟨q.2, by rw [← hh]; exact hq⟩
        simp [this]
      rw [hz v u hvu, hz u v fun ⟨w, hw⟩ => hvu (hA u v hu hv ⟨w, hw⟩)]
  · rintro ⟨a1, a2, a3, a4, a5⟩
    refine ⟨a1, a2, a3, fun v hv u w hw => ?_⟩
    have hu := h.dest_nbrs a2 hv hw
    obtain ⟨w', hw'⟩ := a5 v u hv hu ⟨w, hw⟩
    have e := a4 v u hv hu
    have e1 := wt_of_nodup (hs v hv) u w hw
    have e2 := wt_of_nodup (hs u hu) v w' hw'
    have : w = w' := by
      rw [← e1.1, ← e2.1]; exact e
    unfold Graph.RevAt
    rw [this]
    exact e2.2

/-- **C69.** Two edges from `v` to `u` with different weights make the check reject, however symmetric the graph is. -/
theorem C69_parallel {g : Graph} (h : g.Shaped) {v u w w' : Nat} (hv : v < g.nv) (hw : (u, w) ∈ g.nbrs v)
    (hw' : (u, w') ∈ g.nbrs v) (hne : w ≠ w') : g.isValid = ok false := by
  obtain ⟨b, h1, h2⟩ := h.isValid
  cases b with
  | false => exact h1
  | true =>
    have := (h2.mp rfl).2.2.2
    have e := (this v hv u w hw).symm.trans (this v hv u w' hw')
    simp only [Option.some.injEq, Prod.mk.injEq, true_and] at e
    exact absurd e hne

theorem Graph.WF.shaped {g : Graph} (h : g.WF) : g.Shaped :=
  ⟨h.nv_lt, h.ne_lt, h.xadj_len, h.adj_len, h.xadj_zero, h.xadj_mono, h.xadj_last, h.vwgt_len, h.adjwgt_len⟩

/-- **C69.** The contraction of a symmetric graph passes the check (which the one-step builder asserts,
src/graph/OneStepGraphBuilder.cpp:90). -/
theorem C69_contracted {g : Graph} (hg : g.WF) (hs : g.Symm) (hA : g.SymmAdj) (hS : g.sumEdge < M32)
    (hV : g.sumVtx < M32) {cmap : List Nat} {nc : Nat} (hc : CoarseMap g cmap nc) :
    ∃ a cg, Aggregation.make (cmap.map some) nc = ok a ∧ contract g a = ok cg ∧ cg.isValid = ok true := by
  obtain ⟨a, cg, h1, h2, h3, h4, h5, h6⟩ := contract_total hg hS hV hc
  refine ⟨a, cg, h1, h2, ?_⟩
  obtain ⟨b, b1, b2⟩ := C69_simple h6.wf.shaped (fun c hcn => h6.simple c (by rw [← h6.nv]; exact hcn))
  rw [b1, b2.mpr ⟨h6.wf.tot_vtx, h6.wf.dest_lt, h6.wf.tot_edge, h6.symm hs, h6.symmAdj hg hA⟩]

theorem find?_filter_of_imp {α : Type} {l : List α} {p q : α → Bool} (h : ∀ x ∈ l, p x = true → q x = true) :
    (l.filter q).find? p = l.find? p := by
  induction l with
  | nil => rfl
  | cons x xs ih =>
    have ih := ih fun y hy => h y (by simp [hy])
    cases hq : q x with
    | true =>
      rw [List.filter_cons_of_pos hq]
      cases hp : p x <;> simp [hp, ih]
    | false =>
      rw [List.filter_cons_of_neg (by simp [hq]), ih]
      have : p x = false := by
        cases hp : p x with
        | false => rfl
        | true => rw [h x (by simp) hp] at hq; exact absurd hq (by simp)
      simp [this]

/-- **C69.** If a graph passes the check, so do all subgraphs extracted from it (the two-step builder asserts it,
src/graph/TwoStepGraphBuilder.cpp:134), with or without parallel edges. -/
theorem C69_extracted {g : Graph} {part : Partitioning} {k : Nat} {labels : Option (List Nat)}
    (hg : g.WF) (hok : g.isValid = ok true) (hp : CompletePart g k part) (hlab : LabelsOK g.nv labels) :
    ∃ subs, extractPartitions g part labels = ok subs ∧ subs.length = k ∧
      ∀ p, p < k → (nth subs p).graph.isValid = ok true := by
  obtain ⟨subs, h1, h2, h3⟩ := extract_spec hg hp.asg_len hp.pw_len hp.lt hlab
  refine ⟨subs, h1, h2, fun p hpk => ?_⟩
  obtain ⟨b0, g1, g2⟩ := hg.shaped.isValid
  rw [hok] at g1
  obtain rfl := Res.ok.inj g1
  have hrev := (g2.mp rfl).2.2.2
  have hi := (h3 p hpk).induced
  have hw := (h3 p hpk).wf
  generalize (nth subs p).graph = s at hi hw
  obtain ⟨b, b1, b2⟩ := hw.shaped.isValid
  rw [b1, b2.mpr ⟨hw.tot_vtx, hw.dest_lt, hw.tot_edge, ?_⟩]
  intro i hin j w hm
  have hj : j < s.nv := hi.dest i hin _ hm
  have hv : ∀ i, i < s.nv → nth (vertsOf g part.lab p) i < g.nv ∧ part.lab (nth (vertsOf g part.lab p) i) = p :=
    fun i hi' => mem_fiber.mp (nth_mem (l := vertsOf g part.lab p) (i := i) (by rw [← hi.nv]; exact hi'))
  have hin' : (nth (vertsOf g part.lab p) j, w) ∈ g.nbrs (nth (vertsOf g part.lab p) i) := by
    have : (nth (vertsOf g part.lab p) j, w) ∈
        (s.nbrs i).map (fun q => (nth (vertsOf g part.lab p) q.1, q.2)) := List.mem_map.mpr ⟨_, hm, rfl⟩
    rw [hi.nbrs i hin] at this
    exact (List.mem_filter.mp this).1
  have hf := hrev _ (hv i hin).1 _ _ hin'
  unfold Graph.RevAt at hf ⊢
  rw [← find?_filter_of_imp (q := fun q => decide (part.lab q.1 = p)) (by
    intro q _ hq
    have : q.1 = nth (vertsOf g part.lab p) i := by simpa using hq
    simp [this, (hv i hin).2]), ← hi.nbrs j hj, List.find?_map] at hf
  have e : (s.nbrs j).find? ((fun q : Nat × Nat => q.1 == nth (vertsOf g part.lab p) i) ∘
      fun q => (nth (vertsOf g part.lab p) q.1, q.2)) = (s.nbrs j).find? (fun q => q.1 == i) := by
    have : ∀ l : List (Nat × Nat), (∀ q ∈ l, q.1 < s.nv) →
        l.find? ((fun q : Nat × Nat => q.1 == nth (vertsOf g part.lab p) i) ∘
          fun q => (nth (vertsOf g part.lab p) q.1, q.2)) = l.find? (fun q => q.1 == i) := by
      intro l hl
      induction l with
      | nil => rfl
      | cons q l ih =>
        have hq : q.1 < s.nv := hl q (by simp)
        have : (nth (vertsOf g part.lab p) q.1 == nth (vertsOf g part.lab p) i) = (q.1 == i) := by
          rw [Bool.eq_iff_iff]
          simp only [beq_iff_eq]
          rw [nth_eq_getElem (show q.1 < (vertsOf g part.lab p).length by rw [← hi.nv]; exact hq),
            nth_eq_getElem (show i < (vertsOf g part.lab p).length by rw [← hi.nv]; exact hin)]
          exact List.Nodup.getElem_inj_iff (fiber_nodup part.lab g.nv p)
        rw [List.find?_cons, List.find?_cons, ih fun q hq => hl q (by simp [hq])]
        simp only [Function.comp_apply, this]
    exact this _ fun q hq => hi.dest j hj q hq
  rw [e] at hf
  cases hx : (s.nbrs j).find? (fun q => q.1 == i) with
  | none => rw [hx] at hf; simp at hf
  | some q =>
    rw [hx] at hf
    have h1 := List.find?_some hx
    simp only [Option.map_some, Option.some.injEq, Prod.mk.injEq] at hf
    simp only [beq_iff_eq] at h1
    rw [Option.some.injEq, Prod.ext_iff]
    exact ⟨h1, hf.2⟩

/-- Two vertices joined by two edges, of weights 1 and 2. -/
def twinGraph : Graph :=
  { unitEdge := false, unitVtx := true, nv := 2, ne := 4, totVtx := 2, totEdge := 6,
    xadj := [0, 2, 4], adjncy := [1, 1, 0, 0], vwgt := [], adjwgt := [1, 2, 1, 2] }

/-- The hypotheses are met: the check accepts `tri2`, its contraction and its subgraphs, and rejects the symmetric
`twinGraph`, which is a legal input to partitioning. -/
example : Ex.tri2.Shaped ∧ Ex.tri2.NoParallel ∧ Ex.tri2.isValid = ok true ∧
    ({ Ex.tri2 with totEdge := 5 } : Graph).isValid = ok false ∧
    ({ Ex.tri2 with adjwgt := 9 :: Ex.tri2.adjwgt.tail } : Graph).isValid = ok false :=
  ⟨Ex.tri2_wf.shaped, by unfold Graph.NoParallel; decide +kernel, by decide +kernel, by decide +kernel, by decide +kernel⟩

example : twinGraph.Good ∧ twinGraph.SymmAdj ∧ twinGraph.isValid = ok false := by
  have hw : twinGraph.WF := by constructor <;> decide +kernel
  refine ⟨⟨hw, Graph.symm_of (by decide +kernel), by unfold Graph.NoLoop; decide +kernel,
    by constructor <;> decide +kernel⟩, ?_, C69_parallel hw.shaped (v := 0) (u := 1) (w := 1) (w' := 2) (by decide)
      (by decide +kernel) (by decide +kernel) (by decide)⟩
  intro v u hv hu _
  have hv' : v = 0 ∨ v = 1 := by change v < 2 at hv; omega
  have hu' : u = 0 ∨ u = 1 := by change u < 2 at hu; omega
  rename_i h
  obtain ⟨w, hw'⟩ := h
  rcases hv' with rfl | rfl <;> rcases hu' with rfl | rfl
  · exact ⟨w, hw'⟩
  · exact ⟨1, by decide +kernel⟩
  · exact ⟨1, by decide +kernel⟩
  · exact ⟨w, hw'⟩

example : ∃ a cg, Aggregation.make ([0, 0, 1, 2, 2, 2].map some) 4 = ok a ∧ contract Ex.tri2 a = ok cg ∧
    cg.isValid = ok true :=
  C69_contracted Ex.tri2_wf Ex.tri2_symm (by
    obtain ⟨b, h1, h2⟩ := C69_simple Ex.tri2_wf.shaped (by unfold Graph.NoParallel; decide +kernel)
    rw [show Ex.tri2.isValid = ok true by decide +kernel] at h1
    exact (h2.mp (Res.ok.inj h1).symm).2.2.2.2) (by decide +kernel) (by decide +kernel) coarse_example

end Poros
