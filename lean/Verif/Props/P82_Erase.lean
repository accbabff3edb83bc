import Verif.Proofs.Erase
import Verif.Props.P40_Api
/-
C82-C84: what a call depends on. Null edge weights are unit edge weights; null vertex weights, where they are safe, are
unit vertex weights; a call depends neither on the caller's output memory nor on array entries outside the graph.
-/
namespace Poros
open Finset Res

variable {E : Env}

/-- The weights the arrays stand for, and the arrays, determine the constructed graph. -/
theorem Represents.ext {nv ne : Nat} {x ad x' ad' : List Nat} {vw aw vw' aw' : Option (List Nat)} {a b : Graph}
    (ha : Represents nv ne x ad vw aw a) (hb : Represents nv ne x' ad' vw' aw' b)
    (hx : x'.take (nv + 1) = x.take (nv + 1)) (hd : ad'.take ne = ad.take ne)
    (hv : ∀ i, i < nv → weightAt vw' i = weightAt vw i) (he : ∀ i, i < ne → weightAt aw' i = weightAt aw i) :
    b = { a with vwgt := (emptyIfNull vw').take nv, adjwgt := (emptyIfNull aw').take ne } := by
  have h1 : b.unitVtx = a.unitVtx := by
    rw [Bool.eq_iff_iff, ha.unitVtx_iff, hb.unitVtx_iff]
    exact forall_congr' fun i => forall_congr' fun hi => by rw [hv i hi]
  have h2 : b.unitEdge = a.unitEdge := by
    rw [Bool.eq_iff_iff, ha.unitEdge_iff, hb.unitEdge_iff]
    exact forall_congr' fun i => forall_congr' fun hi => by rw [he i hi]
  have h3 : b.totVtx = a.totVtx := by
    rw [ha.totVtx_eq, hb.totVtx_eq, sum_congr rfl fun i hi => hv i (mem_range.mp hi)]
  have h4 : b.totEdge = a.totEdge := by
    rw [ha.totEdge_eq, hb.totEdge_eq, sum_congr rfl fun i hi => he i (mem_range.mp hi)]
  have h5 : b.xadj = a.xadj := by rw [ha.xadj_eq, hb.xadj_eq, hx]
  have h6 : b.adjncy = a.adjncy := by rw [ha.adj_eq, hb.adj_eq, hd]
  have h7 : b.nv = a.nv := by rw [ha.nv_eq, hb.nv_eq]
  have h8 : b.ne = a.ne := by rw [ha.ne_eq, hb.ne_eq]
  have h9 := hb.vwgt_eq
  have h10 := hb.adjwgt_eq
  cases a
  cases b
  simp only at h1 h2 h3 h4 h5 h6 h7 h8 h9 h10 ⊢
  rw [h1, h2, h3, h4, h5, h6, h7, h8, h9, h10]

/-- The call, after the graph is known. -/
def callWith (E : Env) (k : Nat) (o : Options E.fp) (out : Out) (g : Graph) : Out × Res Nat :=
  andThen (do
    let s ← makeScheme o.aggregationScheme
    let t ← Target.ofFractions k g.totVtx (E.fp.lit 3 2) (paramFractions E.fp k)
    .ok ({ graph := g, scheme := s, target := t } : Prepared E)) out fun p =>
      let l := cutsLoop (partitioner E p.scheme p.target p.graph) o.numGlobalCuts.toNat 0 0 out
        (E.rng.seed o.randomSeed)
      andThen l.2 l.1 fun _ => (l.1, .ok 1)

theorem andThen_bind {r : Res α} {f : α → Res β} {out : Out} {k : β → Out × Res γ} :
    andThen (r >>= f) out k = andThen r out fun a => andThen (f a) out k := by
  cases r <;> rfl

theorem call_eq (i : Input) (o : Options E.fp) (out : Out) : partGraphRecursive E i (some o) out =
    andThen (rd i.edgePrefix i.numVertices) out fun ne =>
      andThen (Graph.ofPtrs i.numVertices ne i.edgePrefix i.edgeList i.vertexWeights i.edgeWeights) out
        (callWith E i.numPartitions o out) := by
  unfold partGraphRecursive prepare
  simp only [andThen_bind]
  congr 1
  funext ne
  congr 1
  funext g
  unfold callWith
  simp only [andThen_bind]

/-- The number of edges, as the call reads it. -/
theorem rd_numEdges {i : Input} {ne : Nat} (h : rd i.edgePrefix i.numVertices = ok ne) : ne = i.numEdges := by
  by_cases hl : i.numVertices < i.edgePrefix.length
  · rw [rd_of_lt hl] at h
    cases h
    rfl
  · unfold rd at h
    rw [List.getElem?_eq_none (by omega)] at h
    cases h

theorem or_last {p q r s : Prop} (h : p ∨ q ∨ r) : p ∨ q ∨ r ∨ s := by tauto

theorem or_third {p q r s : Prop} (h : p ∨ q ∨ s) : p ∨ q ∨ r ∨ s := by tauto

theorem ofPtrs_bad {nv ne : Nat} {x ad : List Nat} {vw aw : Option (List Nat)}
    (h : x.length < nv + 1 ∨ ad.length < ne ∨ shorter vw nv ∨ shorter aw ne) :
    Graph.ofPtrs nv ne x ad vw aw = ub := by
  unfold Graph.ofPtrs
  rw [if_pos h]

theorem ofPtrs_ok {nv ne : Nat} {x ad : List Nat} {vw aw : Option (List Nat)}
    (h : ¬ (x.length < nv + 1 ∨ ad.length < ne ∨ shorter vw nv ∨ shorter aw ne)) :
    Graph.ofPtrs nv ne x ad vw aw = Graph.make (x.take (nv + 1)) (ad.take ne) ((emptyIfNull vw).take nv)
      ((emptyIfNull aw).take ne) := by
  unfold Graph.ofPtrs
  rw [if_neg h]

theorem callWith_below {k : Nat} {o : Options E.fp} {out : Out} {a b : Graph} (ht : b.totVtx = a.totVtx)
    (h : ∀ s t r, Below (partitioner E s t a r) (partitioner E s t b r)) :
    (callWith E k o out a).2 = ub ∨ callWith E k o out a = callWith E k o out b := by
  unfold callWith
  simp only [andThen_bind, ht]
  cases makeScheme o.aggregationScheme with
  | ub => exact Or.inl rfl
  | exn => exact Or.inr rfl
  | diverge => exact Or.inr rfl
  | ok s =>
    cases Target.ofFractions k a.totVtx (E.fp.lit 3 2) (paramFractions E.fp k) with
    | ub => exact Or.inl rfl
    | exn => exact Or.inr rfl
    | diverge => exact Or.inr rfl
    | ok t =>
      rcases cutsLoop_below (h s t) o.numGlobalCuts.toNat 0 0 out (E.rng.seed o.randomSeed) with h1 | h1
      · left
        simp only [andThen, h1]
      · right
        simp only [andThen, h1]

theorem callWith_eq {k : Nat} {o : Options E.fp} {out : Out} {a b : Graph} (ht : b.totVtx = a.totVtx)
    (h : ∀ s t r, partitioner E s t b r = partitioner E s t a r) : callWith E k o out b = callWith E k o out a := by
  unfold callWith
  simp only [andThen_bind, ht]
  congr 1
  funext s
  congr 1
  funext t
  simp only [andThen]
  rw [show partitioner E s t b = partitioner E s t a from funext (h s t)]

/-! ### C82 -/

/-- **C82.** Edge weights that are all one and a null edge weight array lead to the same call: the same return value,
the same exception, the same memory written, on every input. -/
theorem C82_null_edge_weights {i : Input} (hn : i.edgeWeights = none) (hv : i.numVertices < 2 ^ 32 - 1) {l : List Nat}
    (hl : i.numEdges ≤ l.length) (h1 : ∀ e, e < i.numEdges → nth l e = 1) (o : Option (Options E.fp)) (out : Out) :
    partGraphRecursive E { i with edgeWeights := some l } o out = partGraphRecursive E i o out := by
  cases o with
  | none => rfl
  | some o =>
    rw [call_eq, call_eq]
    show andThen (rd i.edgePrefix i.numVertices) out (fun ne =>
      andThen (Graph.ofPtrs i.numVertices ne i.edgePrefix i.edgeList i.vertexWeights (some l)) out
        (callWith E i.numPartitions o out)) = _
    rw [hn]
    cases hr : rd i.edgePrefix i.numVertices with
    | ub => simp only [andThen]
    | exn => simp only [andThen]
    | diverge => simp only [andThen]
    | ok ne =>
      have hne := rd_numEdges hr
      subst hne
      show andThen (Graph.ofPtrs i.numVertices i.numEdges i.edgePrefix i.edgeList i.vertexWeights (some l)) out _ =
        andThen (Graph.ofPtrs i.numVertices i.numEdges i.edgePrefix i.edgeList i.vertexWeights none) out _
      have hs : ¬ shorter (some l) i.numEdges := by unfold shorter; simp; omega
      have hs' : ¬ shorter none i.numEdges := fun h => h
      by_cases hc : i.edgePrefix.length < i.numVertices + 1 ∨ i.edgeList.length < i.numEdges ∨
          shorter i.vertexWeights i.numVertices
      · rw [ofPtrs_bad (or_last hc), ofPtrs_bad (or_last hc)]
      · simp only [not_or, not_lt] at hc
        obtain ⟨a, ha, ra⟩ := ofPtrs_spec (by omega) hc.1 hc.2.1 hc.2.2 hs'
        obtain ⟨b, hb, rb⟩ := ofPtrs_spec (by omega) hc.1 hc.2.1 hc.2.2 hs
        rw [ha, hb]
        have hE : EEq a b := by
          have := ra.ext rb rfl rfl (fun _ _ => rfl) (fun e he => h1 e he)
          refine ⟨ra.unitEdge_iff.mpr fun _ _ => rfl, ?_⟩
          rw [this, ← ra.vwgt_eq]
        exact callWith_eq hE.tot_eq fun s t r => hE.partitioner s t r

/-- The hypotheses are met by the triangle without weights, and such a call does return 1 (on a square). -/
example : Ex.triIn.edgeWeights = none ∧ Ex.triIn.numVertices < 2 ^ 32 - 1 ∧
    Ex.triIn.numEdges ≤ [1, 1, 1, 1, 1, 1].length ∧ ∀ e, e < Ex.triIn.numEdges → nth [1, 1, 1, 1, 1, 1] e = 1 := by
  decide

/-! ### C83 -/

/-- **C83.** Where a call with null vertex weights is not undefined behaviour, it is the same call as with an explicit
array of ones. -/
theorem C83_null_vertex_weights {i : Input} (hn : i.vertexWeights = none) (hv : i.numVertices < 2 ^ 32 - 1)
    {l : List Nat} (hl : i.numVertices ≤ l.length) (h1 : ∀ v, v < i.numVertices → nth l v = 1)
    (o : Option (Options E.fp)) (out : Out) :
    (partGraphRecursive E i o out).2 = ub ∨
      partGraphRecursive E i o out = partGraphRecursive E { i with vertexWeights := some l } o out := by
  cases o with
  | none => exact Or.inr rfl
  | some o =>
    rw [call_eq, call_eq]
    show _ ∨ _ = andThen (rd i.edgePrefix i.numVertices) out (fun ne =>
      andThen (Graph.ofPtrs i.numVertices ne i.edgePrefix i.edgeList (some l) i.edgeWeights) out
        (callWith E i.numPartitions o out))
    rw [hn]
    cases hr : rd i.edgePrefix i.numVertices with
    | ub => simp only [andThen, true_or]
    | exn => simp only [andThen, or_true]
    | diverge => simp only [andThen, or_true]
    | ok ne =>
      have hne := rd_numEdges hr
      subst hne
      show (andThen (Graph.ofPtrs i.numVertices i.numEdges i.edgePrefix i.edgeList none i.edgeWeights) out
        (callWith E i.numPartitions o out)).2 = ub ∨
        andThen (Graph.ofPtrs i.numVertices i.numEdges i.edgePrefix i.edgeList none i.edgeWeights) out
          (callWith E i.numPartitions o out) =
        andThen (Graph.ofPtrs i.numVertices i.numEdges i.edgePrefix i.edgeList (some l) i.edgeWeights) out
          (callWith E i.numPartitions o out)
      have hs : ¬ shorter (some l) i.numVertices := by unfold shorter; simp; omega
      have hs' : ¬ shorter none i.numVertices := fun h => h
      by_cases hc : i.edgePrefix.length < i.numVertices + 1 ∨ i.edgeList.length < i.numEdges ∨
          shorter i.edgeWeights i.numEdges
      · left
        rw [ofPtrs_bad (or_third hc)]
        rfl
      · simp only [not_or, not_lt] at hc
        obtain ⟨a, ha, ra⟩ := ofPtrs_spec (by omega) hc.1 hc.2.1 hs' hc.2.2
        obtain ⟨b, hb, rb⟩ := ofPtrs_spec (by omega) hc.1 hc.2.1 hs hc.2.2
        rw [ha, hb]
        have hV : VEq a b := by
          have := ra.ext rb rfl rfl (fun v hv => h1 v hv) (fun _ _ => rfl)
          refine ⟨ra.unitVtx_iff.mpr fun _ _ => rfl, ?_⟩
          rw [this, ← ra.adjwgt_eq]
        have h0 : a.vwgt = [] := by
          rw [ra.vwgt_eq]
          simp [emptyIfNull]
        exact callWith_below hV.tot_eq fun s t r => hV.partitioner h0 s t r

/-- A square without weight arrays. -/
def Ex.squareIn : Input :=
  { numVertices := 4, edgePrefix := [0, 2, 4, 6, 8], edgeList := [1, 3, 0, 2, 1, 3, 0, 2], vertexWeights := none,
    edgeWeights := none, numPartitions := 2 }

/-- The hypotheses are met by the square without weights, and its call returns 1. -/
example : Ex.squareIn.vertexWeights = none ∧ Ex.squareIn.numVertices < 2 ^ 32 - 1 ∧
    Ex.squareIn.numVertices ≤ [1, 1, 1, 1].length ∧ (∀ v, v < Ex.squareIn.numVertices → nth [1, 1, 1, 1] v = 1) ∧
    (partGraphRecursive Concrete.env Ex.squareIn (some (Ex.cuts 2)) Ex.before).2 = ok 1 := by
  refine ⟨rfl, by decide, by decide, by decide, by decide +kernel⟩

/-- The triangle takes the other alternative (C42). -/
example : (partGraphRecursive Concrete.env Ex.triIn (some (Ex.cuts 1)) Ex.before).2 = ub := by decide +kernel

/-! ### C84 -/

/-- The two memories hold the same cut and the same first `n` labels. -/
structure Out.Agree (n : Nat) (a b : Out) : Prop where
  cut : a.cut = b.cut
  labels : ∀ v, v < n → nth a.asg v = nth b.asg v

theorem cutsLoop_outs {S : Type} {run : S → Res (Partitioning × S)} {n0 : Nat}
    (hrun : ∀ s p s', run s = ok (p, s') → p.asg.length = n0) :
    ∀ (n i best : Nat) (a b : Out) (s : S), n0 ≤ a.asg.length → n0 ≤ b.asg.length → (i ≠ 0 → a.Agree n0 b) →
      (cutsLoop run n i best a s).2 = (cutsLoop run n i best b s).2 ∧
        (n ≠ 0 ∨ i ≠ 0 → (cutsLoop run n i best a s).2 = ok () →
          (cutsLoop run n i best a s).1.Agree n0 (cutsLoop run n i best b s).1)
  | 0, i, best, a, b, s, ha, hb, hab => ⟨rfl, fun h _ => hab (h.resolve_left fun h => h rfl)⟩
  | n + 1, i, best, a, b, s, ha, hb, hab => by
    unfold cutsLoop
    cases hr : run s with
    | ub => exact ⟨rfl, fun _ h => nomatch h⟩
    | exn => exact ⟨rfl, fun _ h => nomatch h⟩
    | diverge => exact ⟨rfl, fun _ h => nomatch h⟩
    | ok r =>
      have hl := hrun s r.1 r.2 hr
      simp only [andThen]
      by_cases hc : i = 0 ∨ r.1.cut < best
      · rw [if_pos hc, if_pos hc]
        obtain ⟨x, hx, hx1, hx2, hx3⟩ := output_spec (p := r.1) (buf := a.asg) (by omega)
        obtain ⟨y, hy, hy1, hy2, hy3⟩ := output_spec (p := r.1) (buf := b.asg) (by omega)
        unfold writeOut
        rw [hx, hy]
        simp only [andThen]
        have := cutsLoop_outs hrun n (i + 1) r.1.cut ⟨r.1.cut, x⟩ ⟨r.1.cut, y⟩ r.2 (by simp only; omega)
          (by simp only; omega) fun _ => ⟨rfl, fun v hv => by
            simp only
            rw [hx2 v (by omega), hy2 v (by omega)]⟩
        exact ⟨this.1, fun _ => this.2 (Or.inr (by omega))⟩
      · rw [if_neg hc, if_neg hc]
        have := cutsLoop_outs hrun n (i + 1) best a b r.2 ha hb fun _ => hab (by omega)
        exact ⟨this.1, fun _ => this.2 (Or.inr (by omega))⟩

/-- **C84, output memory.** What the caller's output memory held before does not matter: with buffers of sufficient size
two calls that differ only in it end the same way, and when they return 1 they leave the same cut and labels. -/
theorem C84_output_memory {i : Input} (hv : i.Valid) (hk : 2 ≤ i.numPartitions) (hk' : i.numPartitions < 2 ^ 32)
    (o : Options E.fp) {a b : Out} (ha : i.numVertices ≤ a.asg.length) (hb : i.numVertices ≤ b.asg.length) :
    (partGraphRecursive E i (some o) a).2 = (partGraphRecursive E i (some o) b).2 ∧
      (0 < o.numGlobalCuts → (partGraphRecursive E i (some o) a).2 = ok 1 →
        (partGraphRecursive E i (some o) a).1.Agree i.numVertices (partGraphRecursive E i (some o) b).1) := by
  unfold partGraphRecursive
  simp only
  cases hp : prepare E i o with
  | ub => exact ⟨rfl, fun _ h => nomatch h⟩
  | exn => exact ⟨rfl, fun _ h => nomatch h⟩
  | diverge => exact ⟨rfl, fun _ h => nomatch h⟩
  | ok P =>
    have hP := prepare_ok hv hp
    have hn : P.graph.nv = i.numVertices := hP.rep.nv_eq
    have := cutsLoop_outs (run := partitioner E P.scheme P.target P.graph) (n0 := i.numVertices)
      (fun r p r' h => (partitioner_exact hk hk' hP h).asg_len.trans hn) o.numGlobalCuts.toNat 0 0 a b
      (E.rng.seed o.randomSeed) ha hb (fun h => absurd rfl h)
    simp only [andThen]
    revert this
    generalize cutsLoop (partitioner E P.scheme P.target P.graph) o.numGlobalCuts.toNat 0 0 a
      (E.rng.seed o.randomSeed) = x
    generalize cutsLoop (partitioner E P.scheme P.target P.graph) o.numGlobalCuts.toNat 0 0 b
      (E.rng.seed o.randomSeed) = y
    obtain ⟨x1, x2⟩ := x
    obtain ⟨y1, y2⟩ := y
    rintro ⟨h1, h2⟩
    simp only at h1 h2
    subst h1
    cases x2 with
    | ub => exact ⟨rfl, fun _ h => nomatch h⟩
    | exn => exact ⟨rfl, fun _ h => nomatch h⟩
    | diverge => exact ⟨rfl, fun _ h => nomatch h⟩
    | ok u => exact ⟨rfl, fun h _ => h2 (Or.inl (by omega)) rfl⟩

/-- **C84, input arrays.** Whatever the caller's arrays hold beyond the graph does not matter. -/
theorem C84_beyond_graph {i : Input} (hv : i.Valid) (x y z w : List Nat) (o : Option (Options E.fp)) (out : Out) :
    partGraphRecursive E
      { i with edgePrefix := i.edgePrefix ++ x, edgeList := i.edgeList ++ y,
               vertexWeights := i.vertexWeights.map (· ++ z), edgeWeights := i.edgeWeights.map (· ++ w) } o out =
      partGraphRecursive E i o out := by
  cases o with
  | none => rfl
  | some o =>
    rw [call_eq, call_eq]
    have hx := hv.csr.xadj_len
    have hd := hv.csr.adj_len
    have hs := hv.csr.vw_len
    have ht := hv.csr.aw_len
    have hr : rd (i.edgePrefix ++ x) i.numVertices = rd i.edgePrefix i.numVertices := by
      unfold rd
      rw [List.getElem?_append_left (by omega)]
    have hlong : ∀ (q : Option (List Nat)) (e : List Nat) (n : Nat), ¬ shorter q n → ¬ shorter (q.map (· ++ e)) n := by
      intro q e n h
      cases q with
      | none => exact h
      | some q =>
        simp only [shorter, Option.map_some, List.length_append] at h ⊢
        omega
    have htake : ∀ (q : Option (List Nat)) (e : List Nat) (n : Nat), ¬ shorter q n →
        (emptyIfNull (q.map (· ++ e))).take n = (emptyIfNull q).take n := by
      intro q e n h
      cases q with
      | none => rfl
      | some q =>
        simp only [shorter, not_lt] at h
        exact List.take_append_of_le_length h
    have hg : Graph.ofPtrs i.numVertices i.numEdges (i.edgePrefix ++ x) (i.edgeList ++ y)
        (i.vertexWeights.map (· ++ z)) (i.edgeWeights.map (· ++ w)) =
        Graph.ofPtrs i.numVertices i.numEdges i.edgePrefix i.edgeList i.vertexWeights i.edgeWeights := by
      rw [ofPtrs_ok, ofPtrs_ok, htake _ _ _ hs, htake _ _ _ ht, List.take_append_of_le_length hx,
        List.take_append_of_le_length hd]
      · simp only [not_or, not_lt]
        exact ⟨hx, hd, hs, ht⟩
      · simp only [not_or, not_lt, List.length_append]
        exact ⟨by omega, by omega, hlong _ _ _ hs, hlong _ _ _ ht⟩
    show andThen (rd (i.edgePrefix ++ x) i.numVertices) out (fun ne =>
      andThen (Graph.ofPtrs i.numVertices ne (i.edgePrefix ++ x) (i.edgeList ++ y)
        (i.vertexWeights.map (· ++ z)) (i.edgeWeights.map (· ++ w))) out (callWith E i.numPartitions o out)) = _
    rw [hr, rd_of_lt (by omega)]
    simp only [andThen]
    rw [show nth i.edgePrefix i.numVertices = i.numEdges from rfl, hg]

/-- The hypotheses are met. -/
example : Ex.tri2In.Valid ∧ 2 ≤ Ex.tri2In.numPartitions ∧ Ex.tri2In.numPartitions < 2 ^ 32 ∧
    Ex.tri2In.numVertices ≤ Ex.before.asg.length ∧ 0 < (Ex.cuts 3).numGlobalCuts ∧
    (partGraphRecursive Concrete.env Ex.tri2In (some (Ex.cuts 3)) Ex.before).2 = ok 1 :=
  ⟨Ex.tri2In_valid, by decide, by decide, by decide, by decide, by rw [Ex.tri2In_call]⟩

end Poros
