import Verif.Proofs.ScaleBFS
import Verif.Proofs.RBMore
import Verif.Proofs.DebugApi
/-
Recursive bisection with scaled edge weights.
-/
namespace Poros
open Res Finset

variable {E : Env} {alike : (Int → Int) → E.pq.Q → E.pq.Q → Prop} {c : Nat}

/-! ### slots and neighbours -/

theorem Graph.slot {g : Graph} (hg : g.WF) {e : Nat} (he : e < g.ne) :
    ∃ v, v < g.nv ∧ nth g.xadj v ≤ e ∧ e < nth g.xadj (v + 1) := by
  have : ∀ n, n ≤ g.nv → e < nth g.xadj n → ∃ v, v < n ∧ nth g.xadj v ≤ e ∧ e < nth g.xadj (v + 1) := by
    intro n
    induction n with
    | zero => intro _ h; rw [hg.xadj_zero] at h; omega
    | succ n ih =>
      intro hn h
      by_cases hle : nth g.xadj n ≤ e
      · exact ⟨n, by omega, hle, h⟩
      · obtain ⟨v, h1, h2⟩ := ih (by omega) (by omega)
        exact ⟨v, by omega, h2⟩
  exact this g.nv le_rfl (by rw [hg.xadj_last]; exact he)

theorem Graph.nth_nbrs {g : Graph} {v j : Nat} (hj : j < nth g.xadj (v + 1) - nth g.xadj v) :
    nth (g.nbrs v) j = (nth g.adjncy (nth g.xadj v + j), g.ew (nth g.xadj v + j)) := by
  unfold Graph.nbrs
  have : nth (List.range' (nth g.xadj v) (nth g.xadj (v + 1) - nth g.xadj v)) j = nth g.xadj v + j := by
    rw [nth_eq_getElem (by simpa using hj)]; simp
  rw [nth_map (by simpa using hj), this]

theorem Scaled.of_nbrs {g g' : Graph} (hg : g.WF)
    (eq : g' = { g with adjwgt := g'.adjwgt, totEdge := g'.totEdge, unitEdge := g'.unitEdge })
    (h : ∀ v, v < g.nv → g'.nbrs v = (g.nbrs v).map (sc c)) : Scaled c g g' := by
  refine ⟨eq, fun e he => ?_⟩
  obtain ⟨v, hv, h1, h2⟩ := Graph.slot hg he
  have hx : g'.xadj = g.xadj := by rw [eq]
  have hj : e - nth g.xadj v < nth g.xadj (v + 1) - nth g.xadj v := by omega
  have a1 := Graph.nth_nbrs hj
  have a2 := Graph.nth_nbrs (g := g') (v := v) (j := e - nth g.xadj v) (by rw [hx]; exact hj)
  rw [hx, h v hv, nth_map (by rw [Graph.nbrs_length]; exact hj), a1] at a2
  rw [show nth g.xadj v + (e - nth g.xadj v) = e by omega] at a2
  exact (congrArg Prod.snd a2).symm

/-- No edge has weight one. -/
def NoOnes (g : Graph) : Prop := ∀ v, v < g.nv → ∀ q ∈ g.nbrs v, q.2 ≠ 1

theorem NoOnes.empty {g : Graph} (h : NoOnes g) (hg : g.WF) (hu : g.unitEdge = true) : g.ne = 0 := by
  by_contra hne
  obtain ⟨v, hv, h1, h2⟩ := Graph.slot hg (e := 0) (by omega)
  have hj : 0 < nth g.xadj (v + 1) - nth g.xadj v := by omega
  have a1 := Graph.nth_nbrs hj
  have hm : nth (g.nbrs v) 0 ∈ g.nbrs v := nth_mem (by rw [Graph.nbrs_length]; exact hj)
  refine h v hv _ hm ?_
  rw [a1]
  show g.ew _ = 1
  unfold Graph.ew
  rw [hu]; rfl

theorem NoOnes.scaled {g g' : Graph} (h : NoOnes g) (hg : g.WF) (hS : Scaled c g g') : NoOnes g' := by
  intro v hv q hq
  rw [hS.nv] at hv
  rw [hS.nbrs hg hv] at hq
  obtain ⟨q0, h0, rfl⟩ := List.mem_map.mp hq
  intro h1
  exact h v hv q0 h0 (Nat.eq_one_of_mul_eq_one_left h1)

theorem NoOnes.induced {g s : Graph} (h : NoOnes g) {lab : Nat → Nat} {p : Nat} (hi : IsInduced g lab p s) : NoOnes s := by
  intro i hin q hq h1
  have hv := mem_vertsOf.mp (nth_mem (l := vertsOf g lab p) (i := i) (by rw [← hi.nv]; exact hin))
  have hm : (nth (vertsOf g lab p) q.1, q.2) ∈ (s.nbrs i).map (fun q => (nth (vertsOf g lab p) q.1, q.2)) :=
    List.mem_map.mpr ⟨q, hq, rfl⟩
  rw [hi.nbrs i hin] at hm
  exact h _ hv.1 _ (List.mem_filter.mp hm).1 h1

/-! ### extraction -/

/-- The same graph but for edge weights. -/
def GEq (g g' : Graph) : Prop := g' = { g with adjwgt := g'.adjwgt, totEdge := g'.totEdge, unitEdge := g'.unitEdge }

/-- The builder of the other run. -/
def TSRel (b b' : TwoStep) : Prop := b' = { b with unitE := b'.unitE, ewgt := b'.ewgt }

theorem rd_lock {α β : Type} {R : α → β → Prop} {l : List α} {l' : List β} (h : List.Forall₂ R l l') (i : Nat) :
    Lock R (rd l i) (rd l' i) := by
  induction h generalizing i with
  | nil => exact Lock.ub_left
  | cons hab _ ih =>
    cases i with
    | zero => exact Lock.ok hab
    | succ i => exact ih i

theorem wr2_lock {α β : Type} {R : α → β → Prop} {l : List α} {l' : List β} (h : List.Forall₂ R l l') {x : α} {y : β}
    (hxy : R x y) (i : Nat) : Lock (List.Forall₂ R) (wr l i x) (wr l' i y) := by
  by_cases hi : i < l.length
  · rw [wr_of_lt hi, wr_of_lt (by rw [← h.length_eq]; exact hi)]
    exact Lock.ok (Forall2_set h hxy i)
  · unfold Poros.wr
    rw [if_neg hi]
    exact Lock.ub_left

theorem onNth_lock {α : Type} {R : α → α → Prop} {l l' : List α} (h : List.Forall₂ R l l') (p : Nat) {f f' : α → Res α}
    (hf : ∀ a b, R a b → Lock R (f a) (f' b)) : Lock (List.Forall₂ R) (onNth l p f) (onNth l' p f') := by
  unfold onNth
  refine (rd_lock h p).bind fun a b _ _ hab => ?_
  exact (hf a b hab).bind fun x y _ _ hxy => wr2_lock h hxy p

theorem TSRel.setVertexWeight {b b' : TwoStep} (h : TSRel b b') (v w : Nat) :
    Lock TSRel (b.setVertexWeight v w) (b'.setVertexWeight v w) := by
  obtain ⟨nv, ne, uv, ue, pre, el, vw, ew⟩ := b
  obtain ⟨nv', ne', uv', ue', pre', el', vw', ew'⟩ := b'
  simp only [TSRel, TwoStep.mk.injEq, true_and, and_true] at h
  obtain ⟨rfl, rfl, rfl, rfl, rfl, rfl⟩ := h
  unfold TwoStep.setVertexWeight
  exact Lock.same fun vw _ => Lock.ok rfl

theorem TSRel.incVertexNumEdges {b b' : TwoStep} (h : TSRel b b') (v : Nat) :
    Lock TSRel (b.incVertexNumEdges v) (b'.incVertexNumEdges v) := by
  obtain ⟨nv, ne, uv, ue, pre, el, vw, ew⟩ := b
  obtain ⟨nv', ne', uv', ue', pre', el', vw', ew'⟩ := b'
  simp only [TSRel, TwoStep.mk.injEq, true_and, and_true] at h
  obtain ⟨rfl, rfl, rfl, rfl, rfl, rfl⟩ := h
  unfold TwoStep.incVertexNumEdges
  exact Lock.same fun old _ => Lock.same fun pre _ => Lock.ok rfl

theorem TSRel.beginEdgePhase {b b' : TwoStep} (h : TSRel b b') : Lock TSRel b.beginEdgePhase b'.beginEdgePhase := by
  obtain ⟨nv, ne, uv, ue, pre, el, vw, ew⟩ := b
  obtain ⟨nv', ne', uv', ue', pre', el', vw', ew'⟩ := b'
  simp only [TSRel, TwoStep.mk.injEq, true_and, and_true] at h
  obtain ⟨rfl, rfl, rfl, rfl, rfl, rfl⟩ := h
  unfold TwoStep.beginEdgePhase
  exact Lock.same fun old _ => Lock.same fun pre _ => Lock.ok rfl

theorem TSRel.addEdgeToVertex {b b' : TwoStep} (h : TSRel b b') (v d w w' : Nat) :
    Lock TSRel (b.addEdgeToVertex v d w) (b'.addEdgeToVertex v d w') := by
  obtain ⟨nv, ne, uv, ue, pre, el, vw, ew⟩ := b
  obtain ⟨nv', ne', uv', ue', pre', el', vw', ew'⟩ := b'
  simp only [TSRel, TwoStep.mk.injEq, true_and, and_true] at h
  obtain ⟨rfl, rfl, rfl, rfl, rfl, rfl⟩ := h
  unfold TwoStep.addEdgeToVertex
  refine Lock.same fun idx _ => Lock.same fun pre _ => Lock.same fun el _ => ?_
  intro x y hx hy
  have hx : ∃ e, x = ⟨nv', ne', uv', ue, pre, el, vw', e⟩ := by
    cases ue with
    | true => exact ⟨_, (Res.ok.inj hx).symm⟩
    | false =>
      obtain ⟨e, _, hx⟩ := bind_eq_ok (show (_ >>= _) = ok x from hx)
      exact ⟨e, (Res.ok.inj hx).symm⟩
  have hy : ∃ e, y = ⟨nv', ne', uv', ue', pre, el, vw', e⟩ := by
    cases ue' with
    | true => exact ⟨_, (Res.ok.inj hy).symm⟩
    | false =>
      obtain ⟨e, _, hy⟩ := bind_eq_ok (show (_ >>= _) = ok y from hy)
      exact ⟨e, (Res.ok.inj hy).symm⟩
  obtain ⟨e, rfl⟩ := hx
  obtain ⟨e', rfl⟩ := hy
  rfl

/-- The constructor sets the unit flag on a graph without edges. -/
theorem make_unit {xadj adjncy vwgt adjwgt : List Nat} {g : Graph} (h : Graph.make xadj adjncy vwgt adjwgt = ok g)
    (h0 : g.ne = 0) : g.unitEdge = true := by
  unfold Graph.make at h
  obtain ⟨v, _, h⟩ := bind_eq_ok h
  obtain ⟨e, he, h⟩ := bind_eq_ok h
  cases h
  simp only at h0 ⊢
  unfold sumWeights at he
  rw [if_neg (by omega)] at he
  cases he; rfl

/-- The subgraphs of the two runs. -/
structure SRel (s s' : Subgraph) : Prop where
  superMap : s'.superMap = s.superMap
  graph : GEq s.graph s'.graph
  unit : s.graph.ne = 0 → s.graph.unitEdge = true
  unit' : s'.graph.ne = 0 → s'.graph.unitEdge = true

theorem TSRel.finish {b b' : TwoStep} (h : TSRel b b') :
    Lock (fun g g' => GEq g g' ∧ (g.ne = 0 → g.unitEdge = true) ∧ (g'.ne = 0 → g'.unitEdge = true)) b.finish b'.finish := by
  obtain ⟨nv, ne, uv, ue, pre, el, vw, ew⟩ := b
  obtain ⟨nv', ne', uv', ue', pre', el', vw', ew'⟩ := b'
  simp only [TSRel, TwoStep.mk.injEq, true_and, and_true] at h
  obtain ⟨rfl, rfl, rfl, rfl, rfl, rfl⟩ := h
  unfold TwoStep.finish
  refine Lock.same fun el _ => Lock.same fun vw _ => ?_
  intro x y hx hy
  obtain ⟨e, _, hx⟩ := bind_eq_ok hx
  obtain ⟨e', _, hy⟩ := bind_eq_ok hy
  refine ⟨?_, make_unit hx, make_unit hy⟩
  unfold Graph.make at hx hy
  obtain ⟨v1, hv, hx⟩ := bind_eq_ok hx
  obtain ⟨v1', hv', hy⟩ := bind_eq_ok hy
  have : v1 = v1' := Res.ok.inj (hv.symm.trans hv')
  subst this
  obtain ⟨e1, _, hx⟩ := bind_eq_ok hx
  obtain ⟨e1', _, hy⟩ := bind_eq_ok hy
  cases hx; cases hy
  rfl

theorem extract_lock {g g' : Graph} (hS : Scaled c g g') (hg : g.WF) (hg' : g'.WF) {p p' : Partitioning} (h : PRel p p')
    (labels : Option (List Nat)) :
    Lock (List.Forall₂ SRel) (extractPartitions g p labels) (extractPartitions g' p' labels) := by
  have hm : fillMaps g' p' labels = fillMaps g p labels := by
    funext s
    unfold fillMaps
    rw [hS.nv, h.1]
  have hcc : p'.calcVertexCounts = p.calcVertexCounts := by
    unfold Partitioning.calcVertexCounts
    rw [h.1, h.2]
  unfold extractPartitions
  rw [hcc, hm, hS.nv]
  refine Lock.same fun counts hcnt => Lock.same fun m hfm => ?_
  clear hcnt hfm
  have h0 : List.Forall₂ TSRel (counts.map (TwoStep.configured g)) (counts.map (TwoStep.configured g')) := by
    induction counts with
    | nil => exact .nil
    | cons n ns ih =>
      refine .cons ?_ ih
      unfold TSRel TwoStep.configured
      rw [hS.unitVtx]; rfl
  refine Lock.bind (R := List.Forall₂ TSRel) ?_ fun b1 b1' _ _ h1 => ?_
  · unfold maybeFillWeights
    rw [hS.unitVtx]
    split
    · unfold fillVertexWeights
      rw [hS.nv]
      refine Lock.foldlM ?_ h0
      intro bs bs' v _ hb
      rw [h.1, hS.vwgtOf]
      refine Lock.same fun vs _ => Lock.same fun pid _ => Lock.same fun w _ => ?_
      exact onNth_lock hb pid fun a b hab => hab.setVertexWeight _ _
    · exact Lock.ok h0
  refine Lock.bind (R := List.Forall₂ TSRel) ?_ fun b2 b2' e2 e2' h2 => ?_
  · unfold countSubEdges
    rw [hS.nv]
    refine Lock.foldlM ?_ h1
    intro bs bs' v _ hb
    rw [h.1, hS.nbrsOf_false]
    refine Lock.same fun vs _ => Lock.same fun pid _ => Lock.same fun ns _ => ?_
    refine Lock.foldlM ?_ hb
    intro bs bs' q _ hb
    refine Lock.same fun up _ => ?_
    split
    · exact onNth_lock hb pid fun a b hab => hab.incVertexNumEdges _
    · exact Lock.ok hb
  refine Lock.bind (R := List.Forall₂ TSRel) ?_ fun b3 b3' _ _ h3 => ?_
  · clear h0 h1 e2 e2'
    induction h2 with
    | nil => exact Lock.ok .nil
    | cons hab _ ih =>
      rw [List.mapM_cons, List.mapM_cons]
      refine hab.beginEdgePhase.bind fun x y _ _ hxy => ?_
      exact ih.bind fun xs ys _ _ hs => Lock.ok (.cons hxy hs)
  refine Lock.bind (R := List.Forall₂ TSRel) ?_ fun b4 b4' _ _ h4 => ?_
  · unfold fillSubEdges
    rw [hS.nv]
    refine Lock.foldlM ?_ h3
    intro bs bs' v _ hb
    rw [h.1]
    refine Lock.same fun vs _ => Lock.same fun pid _ => ?_
    refine (hS.nbrsOf_lock hg hg' v).bind fun ns ns' _ _ hn => ?_
    subst hn
    refine Lock.foldlM_map ?_ hb
    intro bs bs' q _ hb
    show Lock _ (rd p.asg q.1 >>= _) (rd p.asg q.1 >>= _)
    refine Lock.same fun up _ => ?_
    split
    · show Lock _ (m.2.2.rd q.1 >>= _) (m.2.2.rd q.1 >>= _)
      refine Lock.same fun su _ => ?_
      exact onNth_lock hb pid fun a b hab => hab.addEdgeToVertex _ _ _ _
    · exact Lock.ok hb
  refine Lock.mapM fun pid _ => ?_
  refine (rd_lock h4 pid).bind fun b b' _ _ hb => ?_
  refine Lock.same fun sm _ => ?_
  refine hb.finish.bind fun sg sg' _ _ hsg => ?_
  exact Lock.same fun sm _ => Lock.ok ⟨rfl, hsg.1, hsg.2.1, hsg.2.2⟩

theorem map_inj_on {α β : Type} {f : α → β} : ∀ {l l' : List α}, (∀ x ∈ l, ∀ y ∈ l', f x = f y → x = y) →
    l.map f = l'.map f → l = l'
  | [], [], _, _ => rfl
  | [], y :: ys, _, h => by simp at h
  | x :: xs, [], _, h => by simp at h
  | x :: xs, y :: ys, hf, h => by
    simp only [List.map_cons, List.cons.injEq] at h
    rw [hf x (by simp) y (by simp) h.1, map_inj_on (fun a ha b hb => hf a (by simp [ha]) b (by simp [hb])) h.2]

/-- The subgraphs of the scaled graph are the scaled subgraphs. -/
theorem induced_scaled {g g' : Graph} (hS : Scaled c g g') (hg : g.WF) {lab : Nat → Nat} {p : Nat} {s s' : Graph}
    (hi : IsInduced g lab p s) (hi' : IsInduced g' lab p s') (he : GEq s s') : Scaled c s s' := by
  have hnv : s'.nv = s.nv := by rw [he]
  have hV : vertsOf g' lab p = vertsOf g lab p := by unfold vertsOf; rw [hS.nv]
  refine Scaled.of_nbrs hi.valid he fun v hv => ?_
  have hv' : v < s'.nv := by rw [hnv]; exact hv
  have hm := mem_vertsOf.mp (nth_mem (l := vertsOf g lab p) (i := v) (by rw [← hi.nv]; exact hv))
  have a := hi.nbrs v hv
  have a' := hi'.nbrs v hv'
  rw [hV, hS.nbrs hg hm.1] at a'
  have hfil : ((g.nbrs (nth (vertsOf g lab p) v)).map (sc c)).filter (fun q => decide (lab q.1 = p)) =
      ((g.nbrs (nth (vertsOf g lab p) v)).filter fun q => decide (lab q.1 = p)).map (sc c) := by
    rw [List.filter_map]; rfl
  rw [hfil, ← a, List.map_map] at a'
  have hnd : (vertsOf g lab p).Nodup := fiber_nodup lab g.nv p
  refine map_inj_on (f := fun q : Nat × Nat => (nth (vertsOf g lab p) q.1, q.2)) ?_ (a'.trans (by rw [List.map_map]; rfl))
  intro x hx y hy hxy
  have h1 := hi'.dest v hv' x hx
  obtain ⟨y0, hy0, rfl⟩ := List.mem_map.mp hy
  have h2 : (sc c y0).1 < s.nv := hi.dest v hv y0 hy0
  simp only [Prod.mk.injEq] at hxy
  have h3 := hxy.1
  have hl := hi.nv
  rw [nth_eq_getElem (by omega), nth_eq_getElem (by omega)] at h3
  exact Prod.ext ((List.Nodup.getElem_inj_iff hnd).mp h3) hxy.2

/-! ### the recursion -/

theorem makeHalves_two {fp : FP} {t : Target fp} {h : Halves} (he : makeHalves t = ok h) {bt : Target fp}
    (hb : Target.ofWeights 2 h.tw h.mx = ok bt) : bt.Two := by
  unfold makeHalves at he
  obtain ⟨s, hs, he⟩ := bind_eq_ok he
  cases he
  have hl : s.tw.length = 2 ∧ s.mx.length = 2 := by
    suffices H : Post True ((List.range t.k).foldlM (halvesStep t) { tw := [0, 0], mx := [0, 0], num := [0, 0, 0] })
        (fun s => s.tw.length = 2 ∧ s.mx.length = 2) from may_iff.mp H s hs
    refine Post_foldlM_range (B := True) (P := fun _ (s : Halves) => s.tw.length = 2 ∧ s.mx.length = 2) ⟨rfl, rfl⟩ fun i s _ h => ?_
    refine may_iff.mpr fun s2 h2 => ?_
    unfold halvesStep at h2
    obtain ⟨_, _, h2⟩ := bind_eq_ok h2
    obtain ⟨_, _, h2⟩ := bind_eq_ok h2
    obtain ⟨tw, e1, h2⟩ := bind_eq_ok h2
    obtain ⟨_, _, h2⟩ := bind_eq_ok h2
    obtain ⟨_, _, h2⟩ := bind_eq_ok h2
    obtain ⟨_, _, h2⟩ := bind_eq_ok h2
    obtain ⟨mx, e2, h2⟩ := bind_eq_ok h2
    obtain ⟨_, _, h2⟩ := bind_eq_ok h2
    obtain ⟨_, _, h2⟩ := bind_eq_ok h2
    cases h2
    exact ⟨by rw [wr_length e1]; exact h.1, by rw [wr_length e2]; exact h.2⟩
  obtain ⟨fr, hfr, h2, -⟩ := ofWeights_ok (fp := fp) (n := 2) (tw := s.tw) (mx := s.mx) (by omega)
  simp only at hb
  rw [h2] at hb
  cases hb
  exact ⟨rfl, hfr, hl.1, hl.2⟩

/-- What heavy-edge matching needs: the two graphs agree on being unweighted, and if they will be split no edge has
weight one. -/
def FlagOK (s : Scheme) (k : Nat) (g g' : Graph) : Prop :=
  s = .sortedHeavyEdge → g'.unitEdge = g.unitEdge ∧ (2 < k → NoOnes g)

theorem mapPartitioning_scale {mg mg' : Mapped} (hs : mg'.superMap = mg.superMap) (hS : Scaled c mg.graph mg'.graph)
    {p p' : Partitioning} (h : PRel p p') (labels : Mem) (offset : Nat) :
    mg'.mapPartitioning p' labels offset = mg.mapPartitioning p labels offset := by
  unfold Mapped.mapPartitioning
  rw [hs]
  cases mg.superMap with
  | none => simp only; unfold wrapperMapPartitioning; rw [hS.nv, h.1]
  | some l => simp only; unfold Subgraph.mapPartitioning; simp only; rw [hS.nv, h.1]

theorem forall2_nth {α β : Type} [Inhabited α] [Inhabited β] {R : α → β → Prop} {l : List α} {l' : List β}
    (h : List.Forall₂ R l l') {i : Nat} (hi : i < l.length) : R (nth l i) (nth l' i) := by
  have := h.length_eq
  rw [nth_eq_getElem hi, nth_eq_getElem (by omega)]
  exact h.get hi (by omega)

theorem rbRecurse_lock (ho : OrderBased E.pq alike) (hc : 0 < c) (s : Scheme) : ∀ fuel (t : Target E.fp) (mg mg' : Mapped)
    (offset : Nat) (st : Mem × E.rng.S), mg'.superMap = mg.superMap → LabelsOK mg.graph.nv mg.superMap →
    Scaled c mg.graph mg'.graph → mg.graph.Good → mg'.graph.Good → FlagOK s t.k mg.graph mg'.graph →
    Lock (fun a b => b = a) (rbRecurse (makeMultilevel E s).execute fuel t mg offset st)
      (rbRecurse (makeMultilevel E s).execute fuel t mg' offset st) := by
  intro fuel
  induction fuel with
  | zero => intro t mg mg' offset st _ _ _ _ _ _ a b h; cases h
  | succ fuel ih =>
    intro t mg mg' offset st hsup hlab hS hg hg' hf
    unfold rbRecurse
    refine Lock.same fun h hh => Lock.same fun bt hbt => ?_
    have ht : bt.Two := makeHalves_two hh hbt
    refine (execute_lock ho hc s hS hg hg' (fun e => (hf e).1) ht st.2).bind fun o o' _ _ hoo => ?_
    obtain ⟨p, r⟩ := o
    obtain ⟨p', r'⟩ := o'
    obtain ⟨⟨hp, hr⟩, hx, hx'⟩ := hoo
    simp only at hp hr hx hx' ⊢
    subst hr
    rw [mapPartitioning_scale hsup hS hp, hsup]
    refine Lock.same fun labels _ => ?_
    split
    · rename_i hk
      have hlab' : LabelsOK mg'.graph.nv mg.superMap := by rw [hS.nv]; exact hlab
      obtain ⟨subs, e1, l1, s1⟩ := extract_spec hg.wf hx.asg_len hx.pw_len hx.complete hlab
      obtain ⟨subs', e1', l1', s1'⟩ := extract_spec hg'.wf hx'.asg_len hx'.pw_len hx'.complete hlab'
      refine (extract_lock hS hg.wf hg'.wf hp mg.superMap).bind fun a b ha hb hab => ?_
      have : a = subs := Res.ok.inj (ha.symm.trans e1)
      subst this
      have : b = subs' := Res.ok.inj (hb.symm.trans e1')
      subst this
      rw [l1, l1']
      refine Lock.foldlM ?_ rfl
      intro x x' part hpart hxx
      subst hxx
      have hpart : part < 2 := List.mem_range.mp hpart
      unfold rbSide
      refine Lock.same fun b1 _ => Lock.same fun e2 _ => ?_
      split
      · refine Lock.same fun st2 _ => ?_
        rw [rd_of_lt (show part < a.length by omega), rd_of_lt (show part < b.length by omega)]
        simp only [ok_bind]
        have k := s1 part hpart
        have k' := s1' part hpart
        rw [hp.lab] at k'
        have hrel := forall2_nth hab (show part < a.length by omega)
        have hSs := induced_scaled hS hg.wf k.induced k'.induced hrel.graph
        have hgs := k.induced.good hg k.wf
        have hgs' := k'.induced.good hg' k'.wf
        refine ih _ _ _ _ _ (congrArg some hrel.superMap) ?_ hSs hgs hgs' ?_
        · show (nth a part).graph.nv ≤ (nth a part).superMap.length
          rw [k.superMap, List.length_map, k.induced.nv]
        · intro es
          have hno := (hf es).2 hk
          have n1 := hno.induced k.induced
          have n2 := n1.scaled hgs.wf hSs
          refine ⟨?_, fun _ => n1⟩
          show (nth b part).graph.unitEdge = (nth a part).graph.unitEdge
          cases hu : (nth a part).graph.unitEdge with
          | true => exact hrel.unit' (by rw [hSs.ne]; exact n1.empty hgs.wf hu)
          | false =>
            by_contra hu'
            have h0 := n2.empty hgs'.wf (by simpa using hu')
            have := hrel.unit (by rw [← hSs.ne]; exact h0)
            rw [hu] at this; cases this
      · exact Lock.eq rfl
    · exact Lock.eq rfl

theorem rbExecute_lock (ho : OrderBased E.pq alike) (hc : 0 < c) (s : Scheme) {t : Target E.fp} (hk : 2 ≤ t.k)
    (hk' : t.k < M32) (htw : t.tw.length = t.k) (hmx : t.mx.length = t.k) {g g' : Graph} (hS : Scaled c g g') (hg : g.Good)
    (hg' : g'.Good) (hf : FlagOK s t.k g g') (r : E.rng.S) :
    Lock (fun a b => b.1.asg = a.1.asg ∧ b.1.cut = c * a.1.cut ∧ b.2 = a.2) (partitioner E s t g r)
      (partitioner E s t g' r) := by
  have hx : ∀ g : Graph, g.Good → ∀ o, partitioner E s t g r = ok o → IsExact g t.k o.1 := by
    intro g hg o h
    exact ((rbExecute_run (bu := True) (be := True) (bd := True) (R := fun _ _ _ _ _ => True) (S := g.sumVtx) (M := NULL32)
      (by decide) (fun bt g r hg _ ht _ _ => Wp.post.mpr (may_iff.mpr fun o ho =>
        ⟨makeMultilevel_exact s hg ht ho, trivial⟩)) hk hk' htw hmx (Or.inr ⟨trivial, rfl⟩) hg le_rfl r).elim_ok h).1
  intro a b ha hb
  have x := hx g hg a ha
  have x' := hx g' hg' b hb
  have hab : b.1.asg = a.1.asg ∧ b.2 = a.2 := by
    unfold partitioner rbExecute at ha hb
    refine Lock.bind (S := fun (a b : Partitioning × E.rng.S) => b.1.asg = a.1.asg ∧ b.2 = a.2) (R := fun a b => b = a) ?_ ?_ a b ha hb
    · rw [hS.nv]
      exact rbRecurse_lock ho hc s _ t _ _ 0 _ rfl trivial hS hg hg' hf
    · rintro o _ _ _ rfl
      refine Lock.same fun labels _ => ?_
      intro y y' hy hy'
      obtain ⟨p1, h1, hy⟩ := bind_eq_ok hy
      obtain ⟨p2, h2, hy⟩ := bind_eq_ok hy
      obtain ⟨p1', h1', hy'⟩ := bind_eq_ok hy'
      obtain ⟨p2', h2', hy'⟩ := bind_eq_ok hy'
      cases hy; cases hy'
      have e : ∀ {g : Graph} {p1 p2 : Partitioning}, Partitioning.ofLabels t.k g labels = ok p1 → p1.recalcCut g = ok p2 →
          p2.asg = labels := by
        intro g p1 p2 h1 h2
        unfold Partitioning.ofLabels at h1
        obtain ⟨_, _, h1⟩ := bind_eq_ok h1
        obtain ⟨_, _, h1⟩ := bind_eq_ok h1
        cases h1
        unfold Partitioning.recalcCut at h2
        obtain ⟨_, _, h2⟩ := bind_eq_ok h2
        cases h2; rfl
      exact ⟨(e h1' h2').trans (e h1 h2).symm, rfl⟩
  refine ⟨hab.1, ?_, hab.2⟩
  refine x.cut_scaled hS hg.wf x' (x.prel hS x' fun v _ => ?_)
  unfold Partitioning.lab; rw [hab.1]

end Poros
