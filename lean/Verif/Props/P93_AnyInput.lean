import Verif.Props.P92_SelfLoop
/-
C93: what a successful call has written, for every input: directed graphs, self loops, any weights.
-/
namespace Poros
open Finset Res

variable {E : Env} {g : Graph}

theorem May_wr {l : Mem} {i x : Nat} {n : Nat} (h : l.length = n) : May (Mem.wr l i x) fun l' => l'.length = n := by
  unfold Mem.wr wr
  split
  · show (l.set i (some x)).length = n
    simpa using h
  · trivial

theorem mapPartitioning_len (m : Mapped) (p : Partitioning) {labels : Mem} {n : Nat} (h : labels.length = n) (offset : Nat) :
    May (m.mapPartitioning p labels offset) fun l => l.length = n := by
  unfold Mapped.mapPartitioning
  split
  · refine Post_foldlM_inv (fun l : Mem => l.length = n) h fun v l _ hl => ?_
    exact Post.bind (Q := fun _ => True) (may_iff.mpr fun _ _ => trivial) fun a _ => May_wr hl
  · refine Post_foldlM_inv (fun l : Mem => l.length = n) h fun v l _ hl => ?_
    refine Post.bind (Q := fun _ => True) (may_iff.mpr fun _ _ => trivial) fun a _ => ?_
    exact Post.bind (Q := fun _ => True) (may_iff.mpr fun _ _ => trivial) fun a _ => May_wr hl

theorem rbRecurse_len (bis : Bisector E) {n : Nat} : ∀ (fuel : Nat) (t : Target E.fp) (mg : Mapped) (offset : Nat)
    (s : Mem × E.rng.S), s.1.length = n → May (rbRecurse bis fuel t mg offset s) fun o => o.1.length = n
  | 0, _, _, _, _, _ => trivial
  | fuel + 1, t, mg, offset, s, h => by
    unfold rbRecurse
    refine Post.bind (Q := fun _ => True) (may_iff.mpr fun _ _ => trivial) fun hh _ => ?_
    refine Post.bind (Q := fun _ => True) (may_iff.mpr fun _ _ => trivial) fun bt _ => ?_
    refine Post.bind (Q := fun _ => True) (may_iff.mpr fun _ _ => trivial) fun o _ => ?_
    refine Post.bind (mapPartitioning_len mg o.1 h offset) fun labels hl => ?_
    split
    · refine Post.bind (Q := fun _ => True) (may_iff.mpr fun _ _ => trivial) fun parts _ => ?_
      refine Post_foldlM_inv (fun s : Mem × E.rng.S => s.1.length = n) hl fun part s _ hs => ?_
      unfold rbSide
      refine Post.bind (Q := fun _ => True) (may_iff.mpr fun _ _ => trivial) fun b _ => ?_
      refine Post.bind (Q := fun _ => True) (may_iff.mpr fun _ _ => trivial) fun e _ => ?_
      split
      · refine Post.bind (Q := fun _ => True) (may_iff.mpr fun _ _ => trivial) fun st _ => ?_
        refine Post.bind (Q := fun _ => True) (may_iff.mpr fun _ _ => trivial) fun sg _ => ?_
        exact rbRecurse_len bis fuel st _ _ s hs
      · exact hs
    · exact hl

theorem mapM_len {α β : Type} {f : α → Res β} : ∀ {l : List α} {r : List β}, l.mapM f = ok r → r.length = l.length
  | [], r, h => by
    rw [List.mapM_nil] at h
    cases h
    rfl
  | a :: l, r, h => by
    rw [List.mapM_cons] at h
    obtain ⟨x, -, h⟩ := bind_eq_ok h
    obtain ⟨y, h2, h⟩ := bind_eq_ok h
    cases h
    simp [mapM_len h2]

/-- Adding up partition weights touches the weight of every label. -/
theorem sumPartitionWeight_labels {has : Bool} {asg : List Nat} {k : Nat} {pw : List Nat}
    (h : sumPartitionWeight g has asg (List.replicate k 0) = ok pw) : ∀ v, v < g.nv → nth asg v < k := by
  unfold sumPartitionWeight at h
  have := Wp_foldlM_range (bu := True) (be := True) (bd := True) (n := g.nv) (s := List.replicate k 0)
    (f := fun pw v => do
      let part ← rd asg v
      let w ← g.vwgtOf has v
      let old ← rd pw part
      wr pw part (uadd old w)) (P := fun n pw => pw.length = k ∧ ∀ v, v < n → nth asg v < k)
    ⟨by simp, fun v hv => by omega⟩ (fun v pw hv hp => by
      by_cases hlt : v < asg.length
      · rw [rd_of_lt hlt, ok_bind]
        refine Wp.bind (Q := fun _ => True) (Wp.post.mpr (may_iff.mpr fun _ _ => trivial)) fun w _ => ?_
        refine Wp.bind (Q := fun _ => True) (Wp.post.mpr (may_iff.mpr fun _ _ => trivial)) fun old _ => ?_
        refine Wp_wr.mono fun pw' hw => ?_
        obtain ⟨h1, rfl⟩ := hw
        refine ⟨by simpa using hp.1, fun u hu => ?_⟩
        by_cases huv : u = v
        · subst huv; rw [hp.1] at h1; exact h1
        · exact hp.2 u (by omega)
      · rw [rd_of_le (by omega)]; trivial)
  exact (this.elim_ok h).2

/-- Every run that ends. -/
theorem rbExecute_any (bis : Bisector E) {t : Target E.fp} (hg : g.WF) {r r' : E.rng.S} {p : Partitioning}
    (h : rbExecute bis t g r = ok (p, r')) :
    p.asg.length = g.nv ∧ (∀ v, v < g.nv → p.lab v < t.k) ∧
      p.cut = (∑ v ∈ range g.nv, externalWeight g p.lab v) % M32 / 2 := by
  unfold rbExecute at h
  obtain ⟨o, h1, h⟩ := bind_eq_ok h
  obtain ⟨labels, h2, h⟩ := bind_eq_ok h
  obtain ⟨p1, h3, h⟩ := bind_eq_ok h
  obtain ⟨p2, h4, h⟩ := bind_eq_ok h
  cases h
  have hl : o.1.length = g.nv := (rbRecurse_len bis _ _ _ _ _ (by simp [Mem.alloc])).elim_ok h1
  have hl2 : labels.length = g.nv := by rw [← hl]; exact mapM_len h2
  unfold Partitioning.ofLabels at h3
  obtain ⟨pw, h5, h3⟩ := bind_eq_ok h3
  obtain ⟨cut, -, h3⟩ := bind_eq_ok h3
  cases h3
  unfold Partitioning.recalcCut at h4
  rw [sumCut_eq hg hl2, ok_bind] at h4
  cases h4
  exact ⟨hl2, sumPartitionWeight_labels h5, rfl⟩

/-- The weight of the edges in the caller's lists (each direction is an edge of its own) whose ends have different
labels. -/
def Input.listedCut (i : Input) (lab : Nat → Nat) : Nat :=
  ∑ v ∈ range i.numVertices, ∑ e ∈ Ico (nth i.edgePrefix v) (nth i.edgePrefix (v + 1)),
    if lab (nth i.edgeList e) ≠ lab v then weightAt i.edgeWeights e else 0

theorem listedCut_eq {i : Input}
    (hc : CSR i.numVertices i.numEdges i.edgePrefix i.edgeList i.vertexWeights i.edgeWeights) (lab : Nat → Nat) :
    i.listedCut lab = ∑ v ∈ range i.numVertices, ∑ u ∈ range i.numVertices,
      if lab u ≠ lab v then csrWt i.edgePrefix i.edgeList i.edgeWeights v u else 0 := by
  unfold Input.listedCut csrWt
  refine sum_congr rfl fun v hv => ?_
  have hv := mem_range.mp hv
  have e1 : ∀ u ∈ range i.numVertices, (if lab u ≠ lab v then
      ∑ e ∈ Ico (nth i.edgePrefix v) (nth i.edgePrefix (v + 1)), if nth i.edgeList e = u then weightAt i.edgeWeights e else 0
      else 0) = ∑ e ∈ Ico (nth i.edgePrefix v) (nth i.edgePrefix (v + 1)),
        if u = nth i.edgeList e then (if lab u ≠ lab v then weightAt i.edgeWeights e else 0) else 0 := by
    intro u _
    by_cases h : lab u ≠ lab v
    · rw [if_pos h]
      refine sum_congr rfl fun e _ => ?_
      rw [if_pos h]
      by_cases he : nth i.edgeList e = u
      · rw [if_pos he, if_pos he.symm]
      · rw [if_neg he, if_neg (Ne.symm he)]
    · rw [if_neg h]
      simp [if_neg h]
  rw [sum_congr rfl e1, sum_comm]
  refine sum_congr rfl fun e he => ?_
  have h2 : nth i.edgePrefix (v + 1) ≤ i.numEdges := by
    have := hc.xadj_le (u := v + 1) (v := i.numVertices) (by omega) (le_refl _)
    rwa [hc.last] at this
  have := hc.dest e (by rw [mem_Ico] at he; omega)
  rw [sum_ite_eq' (range i.numVertices) (nth i.edgeList e), if_pos (mem_range.mpr this)]

/-- **C93.** Whatever the caller's graph in well-formed CSR arrays (directed or not, self loops, any weights) and number
of parts: if a call with `numGlobalCuts ≥ 1` returns 1, every vertex has got a label below the number of parts, nothing
beyond the first `numVertices` entries has changed, and the written cut is half the weight of the listed edges between
different labels, that weight taken modulo 2^32. -/
theorem C93_any_graph {i : Input} (hc : CSR i.numVertices i.numEdges i.edgePrefix i.edgeList i.vertexWeights i.edgeWeights)
    {o : Options E.fp} (hcuts : 0 < o.numGlobalCuts) {out out' : Out}
    (h : partGraphRecursive E i (some o) out = (out', ok 1)) :
    (∀ v, v < i.numVertices → nth out'.asg v < i.numPartitions) ∧
      out'.cut = i.listedCut (nth out'.asg) % 2 ^ 32 / 2 ∧
      out'.asg.length = out.asg.length ∧ ∀ v, i.numVertices ≤ v → nth out'.asg v = nth out.asg v := by
  obtain ⟨P, hp, hl⟩ := call_ok h
  obtain ⟨g, hg, hr⟩ := ofPtrs_spec hc.nv_lt hc.xadj_len hc.adj_len hc.vw_len hc.aw_len
  have hwf := hc.wf hr
  unfold prepare at hp
  rw [rd_of_lt (by have := hc.xadj_len; omega), ok_bind] at hp
  rw [show nth i.edgePrefix i.numVertices = i.numEdges from rfl, hg, ok_bind] at hp
  obtain ⟨s, -, hp⟩ := bind_eq_ok hp
  obtain ⟨t, ht, hp⟩ := bind_eq_ok hp
  cases hp
  obtain ⟨-, hk, -⟩ := ofFractions_shape ht
  have key : ∀ r p r', partitioner E s t g r = ok (p, r') → _ := fun r p r' hr' => rbExecute_any _ hwf hr'
  obtain ⟨ps, r', b, h1, h2, h3⟩ := cutsLoop_spec (bis := partitioner E s) (t := t) (g := g)
    (n0 := g.nv) (fun r p r' hr' => (key r p r' hr').1)
    (r0 := E.rng.seed o.randomSeed) (out0 := out) o.numGlobalCuts.toNat 0 0 out _ [] rfl rfl
    (fun p hp => nomatch hp) ⟨fun _ => rfl, fun h => absurd rfl h⟩ (by rw [hl])
  rw [hl] at h3
  rw [Nat.zero_add] at h1 h2
  have hne : ps ≠ [] := by
    rintro rfl
    simp at h2
    omega
  obtain ⟨j, h4, -, h5⟩ := h3.2 hne
  have hall : ∀ {n : Nat} {r : E.rng.S} {ps : List Partitioning} {r' : E.rng.S},
      candidates (partitioner E s) t g n r = ok (ps, r') → ∀ p ∈ ps,
        p.asg.length = g.nv ∧ (∀ v, v < g.nv → p.lab v < t.k) ∧
          p.cut = (∑ v ∈ range g.nv, externalWeight g p.lab v) % M32 / 2 := by
    intro n
    induction n with
    | zero => intro r ps r' h p hp; cases h; cases hp
    | succ n ih =>
      intro r ps r' h p hp
      obtain ⟨a, h1, h⟩ := bind_eq_ok h
      obtain ⟨c, h2, h⟩ := bind_eq_ok h
      cases h
      rcases List.mem_append.mp hp with hp | hp
      · exact ih h1 p hp
      · rw [List.mem_singleton.mp hp]
        exact key _ _ _ h2
  obtain ⟨q1, q2, q3⟩ := hall h1 _ (nth_mem h4.1)
  rw [hr.nv_eq] at q1 q2
  have hlab : ∀ v, v < i.numVertices → nth out'.asg v = (nth ps j).lab v := fun v hv => h5.labels v (by omega)
  refine ⟨fun v hv => ?_, ?_, h5.len, fun v hv => h5.rest v (by omega)⟩
  · rw [hlab v hv, ← hk]
    exact q2 v hv
  · rw [h5.cut, q3, listedCut_eq hc, hr.nv_eq]
    have : ∑ v ∈ range i.numVertices, externalWeight g (nth ps j).lab v =
        ∑ v ∈ range i.numVertices, ∑ u ∈ range i.numVertices,
          if nth out'.asg u ≠ nth out'.asg v then csrWt i.edgePrefix i.edgeList i.edgeWeights v u else 0 := by
      unfold externalWeight
      rw [hr.nv_eq]
      refine sum_congr rfl fun v hv => sum_congr rfl fun u hu => ?_
      rw [hlab v (mem_range.mp hv), hlab u (mem_range.mp hu), hc.wt_eq hr (mem_range.mp hv)]
    rw [this]
    norm_num

/-- **C93, undirected graphs.** If moreover the graph is undirected (self loops allowed), the written cut is the true cut
without its highest bit: it is the true cut exactly if that is below 2^31. -/
theorem C93_undirected {i : Input} (hc : CSR i.numVertices i.numEdges i.edgePrefix i.edgeList i.vertexWeights i.edgeWeights)
    (hs : ∀ v u, v < i.numVertices → u < i.numVertices →
      csrWt i.edgePrefix i.edgeList i.edgeWeights v u = csrWt i.edgePrefix i.edgeList i.edgeWeights u v)
    {o : Options E.fp} (hcuts : 0 < o.numGlobalCuts) {out out' : Out}
    (h : partGraphRecursive E i (some o) out = (out', ok 1)) :
    out'.cut = i.cut (nth out'.asg) % 2 ^ 31 ∧ (out'.cut = i.cut (nth out'.asg) ↔ i.cut (nth out'.asg) < 2 ^ 31) := by
  have h1 := (C93_any_graph hc hcuts h).2.1
  have h2 : i.listedCut (nth out'.asg) = 2 * i.cut (nth out'.asg) := by
    rw [listedCut_eq hc, sum_pairs_symm]
    · unfold Input.cut csrCut
      simp
    · intro v u hv hu
      rw [hs v u hv hu]
      by_cases he : nth out'.asg u = nth out'.asg v
      · simp [he]
      · rw [if_pos he, if_pos (Ne.symm he)]
  rw [h2] at h1
  have h3 : out'.cut = i.cut (nth out'.asg) % 2 ^ 31 := by
    rw [h1]
    norm_num
    omega
  refine ⟨h3, ?_⟩
  rw [h3]
  norm_num

/-- Two vertices joined by an edge of weight 2^31 + 5. -/
def heavyIn : Input :=
  { numVertices := 2, edgePrefix := [0, 1, 2], edgeList := [1, 0], vertexWeights := none,
    edgeWeights := some [2147483653, 2147483653], numPartitions := 2 }

/-- An arc from 0 to 1 of weight 7, and no arc back. -/
def arcIn : Input :=
  { numVertices := 2, edgePrefix := [0, 1, 1], edgeList := [1], vertexWeights := none,
    edgeWeights := some [7], numPartitions := 2 }

/-- The call for the heavy edge returns 1 and reports the cut 5; the call for the arc reports 3. -/
example : CSR heavyIn.numVertices heavyIn.numEdges heavyIn.edgePrefix heavyIn.edgeList heavyIn.vertexWeights
      heavyIn.edgeWeights ∧
    (∀ v < heavyIn.numVertices, ∀ u < heavyIn.numVertices, csrWt heavyIn.edgePrefix heavyIn.edgeList heavyIn.edgeWeights v u =
      csrWt heavyIn.edgePrefix heavyIn.edgeList heavyIn.edgeWeights u v) ∧
    partGraphRecursive Concrete.env heavyIn (some (Ex.cuts 1)) Ex.before =
      ({ cut := 5, asg := [0, 1, 9, 9, 9, 9, 9, 9] }, ok 1) ∧ heavyIn.cut (nth [0, 1]) = 2147483653 ∧
    CSR arcIn.numVertices arcIn.numEdges arcIn.edgePrefix arcIn.edgeList arcIn.vertexWeights arcIn.edgeWeights ∧
    partGraphRecursive Concrete.env arcIn (some (Ex.cuts 1)) Ex.before =
      ({ cut := 3, asg := [0, 1, 9, 9, 9, 9, 9, 9] }, ok 1) ∧ 0 < (Ex.cuts 1).numGlobalCuts :=
  ⟨by constructor <;> decide +kernel, by decide +kernel, by decide +kernel, by decide +kernel,
    by constructor <;> decide +kernel, by decide +kernel, by decide⟩

end Poros
