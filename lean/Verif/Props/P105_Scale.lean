import Verif.SpecScale
import Verif.Proofs.ScaleRB
import Verif.Props.P82_Erase
import Verif.ExamplesApi
/-
C105: multiplying all edge weights by a positive number changes no label and multiplies the reported cut.
-/
namespace Poros
open Finset Res

variable {E : Env} {alike : (Int → Int) → E.pq.Q → E.pq.Q → Prop} {c : Nat}

theorem represents_scaled {i i' : Input} (h : i.ScaledBy c i') {g g' : Graph}
    (hg : Represents i.numVertices i.numEdges i.edgePrefix i.edgeList i.vertexWeights i.edgeWeights g)
    (hg' : Represents i'.numVertices i'.numEdges i'.edgePrefix i'.edgeList i'.vertexWeights i'.edgeWeights g') :
    Scaled c g g' := by
  have hr := h.rest
  have a1 : i'.numVertices = i.numVertices := by rw [hr]
  have a2 : i'.edgePrefix = i.edgePrefix := by rw [hr]
  have a3 : i'.edgeList = i.edgeList := by rw [hr]
  have a4 : i'.vertexWeights = i.vertexWeights := by rw [hr]
  have a5 : i'.numEdges = i.numEdges := by unfold Input.numEdges; rw [a1, a2]
  rw [a1, a2, a3, a4, a5] at hg'
  have h1 : g'.unitVtx = g.unitVtx := by rw [Bool.eq_iff_iff, hg.unitVtx_iff, hg'.unitVtx_iff]
  have h3 : g'.totVtx = g.totVtx := by rw [hg.totVtx_eq, hg'.totVtx_eq]
  have h5 : g'.xadj = g.xadj := by rw [hg.xadj_eq, hg'.xadj_eq]
  have h6 : g'.adjncy = g.adjncy := by rw [hg.adj_eq, hg'.adj_eq]
  have h7 : g'.nv = g.nv := by rw [hg.nv_eq, hg'.nv_eq]
  have h8 : g'.ne = g.ne := by rw [hg.ne_eq, hg'.ne_eq]
  have h9 : g'.vwgt = g.vwgt := by rw [hg.vwgt_eq, hg'.vwgt_eq]
  refine ⟨?_, fun e he => ?_⟩
  · cases g
    cases g'
    simp only at h1 h3 h5 h6 h7 h8 h9 ⊢
    rw [h1, h3, h5, h6, h7, h8, h9]
  · rw [hg.ne_eq] at he
    rw [hg.ew_at he, hg'.ew_at he, h.weight e he]

/-- The loop over the runs keeps the labels and scales the best cut. -/
theorem cutsLoop_lock {S : Type} {run run' : S → Res (Partitioning × S)} (hc : 0 < c)
    (h : ∀ s, Lock (fun a b => b.1.asg = a.1.asg ∧ b.1.cut = c * a.1.cut ∧ b.2 = a.2) (run s) (run' s)) :
    ∀ (n i best : Nat) (out out' : Out) (s : S) (x x' : Out), out'.asg = out.asg → (i = 0 ∨ out'.cut = c * out.cut) →
      0 < i + n → cutsLoop run n i best out s = (x, ok ()) → cutsLoop run' n i (c * best) out' s = (x', ok ()) →
      x'.asg = x.asg ∧ x'.cut = c * x.cut
  | 0, i, best, out, out', s, x, x', ha, hq, hi, h1, h2 => by
    simp only [cutsLoop, Prod.mk.injEq] at h1 h2
    rw [← h1.1, ← h2.1]
    exact ⟨ha, by rcases hq with hq | hq <;> [omega; exact hq]⟩
  | n + 1, i, best, out, out', s, x, x', ha, hq, hi, h1, h2 => by
    unfold cutsLoop at h1 h2
    cases hr : run s with
    | ub => simp [hr, andThen] at h1
    | exn => simp [hr, andThen] at h1
    | diverge => simp [hr, andThen] at h1
    | ok a =>
      cases hr' : run' s with
      | ub => simp [hr', andThen] at h2
      | exn => simp [hr', andThen] at h2
      | diverge => simp [hr', andThen] at h2
      | ok b =>
        obtain ⟨e1, e2, e3⟩ := h s a b hr hr'
        simp only [hr, andThen] at h1
        simp only [hr', andThen] at h2
        have hcond : (i = 0 ∨ b.1.cut < c * best) ↔ (i = 0 ∨ a.1.cut < best) := by
          rw [e2, Nat.mul_lt_mul_left hc]
        by_cases hw : i = 0 ∨ a.1.cut < best
        · simp only [hw, hcond.mpr hw, if_true] at h1 h2
          unfold writeOut at h1 h2
          have hou : b.1.output out'.asg = (a.1.output out.asg >>= fun w => ok (c * w.1, w.2)) := by
            unfold Partitioning.output
            rw [e1, ha, e2]
            generalize (List.range a.1.asg.length).foldlM (m := Res) (fun out v => do
              let x ← rd a.1.asg v
              wr out v x) out.asg = z
            cases z <;> rfl
          rw [hou] at h2
          cases ho : a.1.output out.asg with
          | ub => simp [ho, andThen] at h1
          | exn => simp [ho, andThen] at h1
          | diverge => simp [ho, andThen] at h1
          | ok w =>
            have hw1 : w.1 = a.1.cut := by
              unfold Partitioning.output at ho
              obtain ⟨_, _, ho⟩ := bind_eq_ok ho
              cases ho
              rfl
            simp only [ho, andThen] at h1
            simp only [ho, ok_bind, andThen] at h2
            rw [e3, e2] at h2
            exact cutsLoop_lock hc h n (i + 1) a.1.cut { cut := w.1, asg := w.2 } { cut := c * w.1, asg := w.2 }
              a.2 x x' rfl (Or.inr rfl) (by omega) h1 h2
        · have hw' : ¬ (i = 0 ∨ b.1.cut < c * best) := fun z => hw (hcond.mp z)
          simp only [hw, hw', if_false] at h1 h2
          rw [e3] at h2
          exact cutsLoop_lock hc h n (i + 1) best out out' a.2 x x' ha (by
            rcases hq with hq | hq
            · exact absurd (Or.inl hq) hw
            · exact Or.inr hq) (by omega) h1 h2

/-- C105: if both calls succeed, they return the same labels, and the cut of the second is the cut of the first times
`c`. -/
theorem C105_scaled_edges (ho : OrderBased E.pq alike) (hc : 0 < c) {i i' : Input} (hs : i.ScaledBy c i') (hv : i.Valid)
    (hv' : i'.Valid) (hk : 2 ≤ i.numPartitions) (hk' : i.numPartitions < 2 ^ 32) {o : Options E.fp}
    (hn : 0 < o.numGlobalCuts) (hf : FactorFree o i) {out out1 out2 : Out}
    (h1 : partGraphRecursive E i (some o) out = (out1, ok 1))
    (h2 : partGraphRecursive E i' (some o) out = (out2, ok 1)) :
    out2.asg = out1.asg ∧ out2.cut = c * out1.cut := by
  obtain ⟨P, hp, h1⟩ := call_ok h1
  obtain ⟨P', hp', h2⟩ := call_ok h2
  have q := prepare_ok hv hp
  have q' := prepare_ok hv' hp'
  have hS := represents_scaled hs q.rep q'.rep
  have hr := hs.rest
  have esch : P'.scheme = P.scheme := Res.ok.inj (q'.scheme.symm.trans q.scheme)
  have etar : P'.target = P.target := by
    have t1 := q'.target
    rw [show i'.numPartitions = i.numPartitions by rw [hr], show i'.totalWeight = i.totalWeight by rw [hr]; rfl] at t1
    exact Res.ok.inj (t1.symm.trans q.target)
  have hflag : FlagOK P.scheme P.target.k P.graph P'.graph := by
    intro hsch
    have hh := q.scheme
    rw [hsch] at hh
    rcases hf with hf | hf
    · unfold makeScheme at hh
      rw [if_pos hf] at hh
      cases hh
    have hne : i'.numEdges = i.numEdges := by unfold Input.numEdges; rw [hr]
    have hvw : ∀ e, e < i.numEdges → weightAt i.edgeWeights e ≠ 1 → P'.graph.unitEdge = P.graph.unitEdge := by
      intro e he hw
      rw [Bool.eq_iff_iff, q.rep.unitEdge_iff, q'.rep.unitEdge_iff]
      refine ⟨fun h => absurd (h e (by rw [hne]; exact he)) ?_, fun h => absurd (h e he) hw⟩
      rw [hs.weight e he]
      exact fun h => hw (Nat.eq_one_of_mul_eq_one_left h)
    rcases hf with ⟨h2k, e, he, hw⟩ | hall
    · exact ⟨hvw e he hw, fun h => absurd h (by rw [q.k, h2k]; decide)⟩
    · refine ⟨?_, fun _ v hv x hx => ?_⟩
      · by_cases h0 : 0 < i.numEdges
        · exact hvw 0 h0 (hall 0 h0)
        · rw [Bool.eq_iff_iff, q.rep.unitEdge_iff, q'.rep.unitEdge_iff]
          exact ⟨fun _ e he => absurd he (by omega), fun _ e he => absurd he (by omega)⟩
      · unfold Graph.nbrs at hx
        obtain ⟨e, he, rfl⟩ := List.mem_map.mp hx
        rw [List.mem_range'_1] at he
        have := Graph.xadj_le_ne q.good.wf (v := v + 1) (by omega)
        have he' : e < i.numEdges := by have := q.rep.ne_eq; omega
        show P.graph.ew e ≠ 1
        rw [q.rep.ew_at he']
        exact hall e he'
  rw [esch, etar] at h2
  refine cutsLoop_lock hc (fun s => rbExecute_lock ho hc P.scheme (by rw [q.k]; exact hk) ?_ q.tw q.mx hS q.good q'.good hflag s)
    _ 0 0 out out _ out1 out2 rfl (Or.inl rfl) (by omega) h1 h2
  rw [q.k]
  exact hk'

/-- For two parts both calls do succeed (with vertex weights), so the statement needs no success hypothesis. -/
theorem C105_scaled_edges_two_parts (hfp : E.fp.CallOK) (ho : OrderBased E.pq alike) (hc : 0 < c) {i i' : Input}
    (hs : i.ScaledBy c i') (hv : i.Valid) (hv' : i'.Valid) (hk : i.numPartitions = 2) (h0 : 0 < i.numVertices)
    (hw : i.vertexWeights.isSome) {o : Options E.fp} (hkn : o.Known) (hn : 0 < o.numGlobalCuts) (hf : FactorFree o i)
    {out : Out} (hout : i.numVertices ≤ out.asg.length) :
    ∃ out1 out2, partGraphRecursive E i (some o) out = (out1, ok 1) ∧
      partGraphRecursive E i' (some o) out = (out2, ok 1) ∧ out2.asg = out1.asg ∧ out2.cut = c * out1.cut := by
  have h1 := C54_bisection_call_total hfp hv hk h0 hw hkn hout
  have h2 := C54_bisection_call_total hfp hv' (by rw [hs.rest]; exact hk) (by rw [hs.rest]; exact h0)
    (by rw [hs.rest]; exact hw) hkn (out := out) (by rw [hs.rest]; exact hout)
  exact ⟨_, _, Prod.ext rfl h1, Prod.ext rfl h2,
    C105_scaled_edges ho hc hs hv hv' (by omega) (by omega) hn hf (Prod.ext rfl h1) (Prod.ext rfl h2)⟩

namespace Concrete

/-- The same vertices in the same order, with their keys under a function. -/
def MapKeys (f : Int → Int) (q q' : List (Nat × Int)) : Prop :=
  q'.map Prod.fst = q.map Prod.fst ∧ ∀ v, look q' v = (look q v).map f

theorem argmax_congr {f g : Nat → Int} : ∀ {l : List Nat}, (∀ a ∈ l, ∀ b ∈ l, f a ≤ f b ↔ g a ≤ g b) → argmax f l = argmax g l
  | [], _ => rfl
  | [a], _ => rfl
  | a :: b :: l, h => by
    have ih := argmax_congr (f := f) (g := g) (l := b :: l) fun x hx y hy =>
      h x (List.mem_cons_of_mem _ hx) y (List.mem_cons_of_mem _ hy)
    have hm := argmax_mem f (l := b :: l) (by simp)
    simp only [argmax, ← ih]
    simp only [h _ (List.mem_cons_of_mem _ hm) a (by simp)]

theorem fst_filter (q : List (Nat × Int)) (v : Nat) :
    (q.filter fun p => p.1 != v).map Prod.fst = (q.map Prod.fst).filter fun u => u != v := by
  rw [List.filter_map]
  rfl

theorem MapKeys.del {f : Int → Int} {q q' : List (Nat × Int)} (h : MapKeys f q q') (v : Nat) :
    MapKeys f (q.filter fun p => p.1 != v) (q'.filter fun p => p.1 != v) := by
  refine ⟨by rw [fst_filter, fst_filter, h.1], fun u => ?_⟩
  rw [look_filter, look_filter, h.2]
  split <;> rfl

theorem MapKeys.put {f : Int → Int} {q q' : List (Nat × Int)} (h : MapKeys f q q') (v : Nat) (k : Int) :
    MapKeys f ((v, k) :: q) ((v, f k) :: q') := by
  refine ⟨by simp only [List.map_cons, h.1], fun u => ?_⟩
  simp only [look, h.2]
  split <;> rfl

theorem MapKeys.top {f : Int → Int} (hf : KeepsOrder f) {q q' : List (Nat × Int)} (h : MapKeys f q q') :
    argmax (fun u => (look q' u).getD 0) (q'.map Prod.fst) = argmax (fun u => (look q u).getD 0) (q.map Prod.fst) := by
  rw [h.1]
  refine argmax_congr fun a ha b hb => ?_
  obtain ⟨x, hx⟩ := Option.isSome_iff_exists.mp ((look_isSome q a).mpr ha)
  obtain ⟨y, hy⟩ := Option.isSome_iff_exists.mp ((look_isSome q b).mpr hb)
  rw [h.2, h.2, hx, hy]
  simp only [Option.map_some, Option.getD_some]
  constructor
  · intro h
    by_contra hh
    have := hf y x (by omega)
    omega
  · intro h
    rcases Int.lt_or_eq_of_le h with h | h
    · exact Int.le_of_lt (hf x y h)
    · rw [h]

/-- The list queue of the examples is one whose choices depend on the order of the keys only. -/
theorem orderBased : OrderBased pq MapKeys where
  empty f _ := ⟨rfl, fun _ => rfl⟩
  put f q q' v k _ h := (MapKeys.del h v).put v k
  del f q q' v _ h := MapKeys.del h v
  key f q q' v h := h.2 v
  top f q q' hf h _ := MapKeys.top hf h
  elems f q q' h := congrArg List.dedup h.1
  fixed f q hf h := by
    refine ⟨rfl, fun v => ?_⟩
    cases hl : look q v with
    | none => rfl
    | some k => rw [Option.map_some, h v k hl]

end Concrete

namespace Ex

/-- The two triangles with all edge weights times 3. -/
def tri2By3 : Input := { tri2In with edgeWeights := some [6, 3, 6, 9, 9, 3, 3, 3, 6, 12, 6, 6, 12, 6] }

theorem tri2By3_valid : tri2By3.Valid :=
  valid_of (by constructor <;> decide +kernel) (by decide +kernel) (by decide +kernel) (by decide +kernel)
    (by decide +kernel)

/-- The hypotheses of C105 hold of the two triangles. -/
example : ∃ out1 out2, partGraphRecursive Concrete.env tri2In (some (cuts 3)) before = (out1, ok 1) ∧
    partGraphRecursive Concrete.env tri2By3 (some (cuts 3)) before = (out2, ok 1) ∧ out2.asg = out1.asg ∧
    out2.cut = 3 * out1.cut :=
  C105_scaled_edges_two_parts Concrete.callOK Concrete.orderBased (by decide) ⟨rfl, by decide +kernel⟩ tri2In_valid
    tri2By3_valid rfl (by decide) (by decide) (Or.inr rfl) (by decide) (Or.inr (Or.inl ⟨rfl, 0, by decide, by decide⟩))
    (by decide)

theorem tri2By3_call : partGraphRecursive Concrete.env tri2By3 (some (cuts 3)) before =
    ({ cut := 3, asg := [0, 0, 0, 1, 1, 1, 9, 9] }, .ok 1) := by decide +kernel

/-- A comb: a path of 15 vertices, each with one more neighbour, all edges of weight `w`. -/
def combIn (w : Nat) : Input :=
  { numVertices := 30,
    edgePrefix := [0, 2, 5, 8, 11, 14, 17, 20, 23, 26, 29, 32, 35, 38, 41, 43, 44, 45, 46, 47, 48, 49, 50, 51, 52, 53, 54,
      55, 56, 57, 58],
    edgeList := [1, 15, 0, 2, 16, 1, 3, 17, 2, 4, 18, 3, 5, 19, 4, 6, 20, 5, 7, 21, 6, 8, 22, 7, 9, 23, 8, 10, 24, 9, 11,
      25, 10, 12, 26, 11, 13, 27, 12, 14, 28, 13, 29, 0, 1, 2, 3, 4, 5, 6, 7, 8, 9, 10, 11, 12, 13, 14],
    vertexWeights := some (List.replicate 30 1), edgeWeights := some (List.replicate 58 w), numPartitions := 2 }

theorem combIn_valid1 : (combIn 1).Valid :=
  valid_of (by constructor <;> decide +kernel) (by decide +kernel) (by decide +kernel) (by decide +kernel)
    (by decide +kernel)

theorem combIn_valid2 : (combIn 2).Valid :=
  valid_of (by constructor <;> decide +kernel) (by decide +kernel) (by decide +kernel) (by decide +kernel)
    (by decide +kernel)

theorem combIn_scaled : (combIn 1).ScaledBy 2 (combIn 2) := ⟨rfl, by decide +kernel⟩

def before30 : Out := { cut := 7, asg := List.replicate 30 9 }

theorem combIn_call1 : partGraphRecursive Concrete.env (combIn 1) (some (cuts 1)) before30 =
    ({ cut := 2, asg := [0, 0, 0, 0, 0, 0, 0, 0, 1, 1, 1, 1, 1, 1, 1, 0, 0, 0, 0, 0, 0, 0, 1, 1, 1, 1, 1, 1, 1, 1] },
      .ok 1) := by decide +kernel

theorem combIn_call2 : partGraphRecursive Concrete.env (combIn 2) (some (cuts 1)) before30 =
    ({ cut := 2, asg := [0, 0, 0, 0, 0, 0, 0, 1, 1, 1, 1, 1, 1, 1, 1, 0, 0, 0, 0, 0, 0, 0, 1, 1, 1, 1, 1, 1, 1, 1] },
      .ok 1) := by decide +kernel

end Ex

/-- C105, refuted for edge weights that are all 1 under the default scheme: with all weights 1 the matching is random,
with all weights 2 it is by weight, and for some input the two answers differ. -/
theorem C105_unit_weights_differ : ∃ (E : Env) (alike : (Int → Int) → E.pq.Q → E.pq.Q → Prop) (i i' : Input)
    (o : Options E.fp) (out out1 out2 : Out), OrderBased E.pq alike ∧ i.ScaledBy 2 i' ∧ i.Valid ∧ i'.Valid ∧
      i.numPartitions = 2 ∧ o.aggregationScheme = 1 ∧ o.numGlobalCuts = 1 ∧
      partGraphRecursive E i (some o) out = (out1, ok 1) ∧ partGraphRecursive E i' (some o) out = (out2, ok 1) ∧
      out2.asg ≠ out1.asg ∧ out2.cut ≠ 2 * out1.cut :=
  ⟨Concrete.env, Concrete.MapKeys, Ex.combIn 1, Ex.combIn 2, Ex.cuts 1, Ex.before30, _, _, Concrete.orderBased,
    Ex.combIn_scaled, Ex.combIn_valid1, Ex.combIn_valid2, rfl, rfl, rfl, Ex.combIn_call1, Ex.combIn_call2, by decide,
    by decide⟩

end Poros
