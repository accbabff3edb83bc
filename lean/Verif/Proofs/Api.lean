import Verif.SpecApi
import Verif.Proofs.Csr
import Verif.Proofs.RBMore
/-
The C interface.
-/
namespace Poros
open Finset Res

variable {E : Env}

/-! ### The graph -/

theorem Input.Valid.good {i : Input} (h : i.Valid) :
    ∃ g, Graph.ofPtrs i.numVertices i.numEdges i.edgePrefix i.edgeList i.vertexWeights i.edgeWeights = ok g ∧
      g.Good ∧ Represents i.numVertices i.numEdges i.edgePrefix i.edgeList i.vertexWeights i.edgeWeights g ∧
      g.sumVtx = i.totalWeight := by
  have hc := h.csr
  obtain ⟨g, hg, hr⟩ := ofPtrs_spec hc.nv_lt hc.xadj_len hc.adj_len hc.vw_len hc.aw_len
  have hwf := hc.wf hr
  have hs : g.sumVtx = i.totalWeight := by
    unfold Graph.sumVtx Input.totalWeight
    rw [hr.nv_eq]
    exact sum_congr rfl fun v hv => hr.vw_at (mem_range.mp hv)
  refine ⟨g, hg, ⟨hwf, ?_, ?_, ?_, ?_⟩, hr, hs⟩
  · intro v u hv hu
    rw [hr.nv_eq] at hv hu
    rw [hc.wt_eq hr hv u, hc.wt_eq hr hu v]
    exact h.symm v u hv hu
  · intro v hv q hq
    rw [hr.nv_eq] at hv
    unfold Graph.nbrs at hq
    obtain ⟨e, he, rfl⟩ := List.mem_map.mp hq
    rw [List.mem_range'_1] at he
    rw [hr.xadj_at (by omega), hr.xadj_at (by omega)] at he
    have h1 : nth i.edgePrefix v ≤ nth i.edgePrefix (v + 1) := hc.mono v hv
    have h2 : nth i.edgePrefix (v + 1) ≤ i.numEdges := by
      have := hc.xadj_le (u := v + 1) (v := i.numVertices) (by omega) (le_refl _)
      rw [hc.last] at this
      exact this
    show nth g.adjncy e ≠ v
    rw [hr.adj_at (by omega)]
    exact h.noLoop v hv e he.1 (by omega)
  · rw [hs]
    have := h.vtxFits
    norm_num at this
    exact this
  · rw [sumEdge_eq_slots hwf.xadj_zero hwf.xadj_last hwf.xadj_mono]
    rw [hr.ne_eq]
    have := h.edgeFits
    rw [sum_congr rfl fun e he => hr.ew_at (mem_range.mp he)]
    simpa using this

/-! ### Two parts -/

/-- With two parts, recursive bisection only uses the bisector on the given graph. -/
theorem rbExecute_congr {bis bis' : Bisector E} {t : Target E.fp} (hk : t.k = 2) {g : Graph}
    (h : ∀ bt r, bis bt g r = bis' bt g r) (r : E.rng.S) : rbExecute bis t g r = rbExecute bis' t g r := by
  have h2 : ¬ t.k > 2 := by omega
  unfold rbExecute
  rw [hk]
  simp only [rbRecurse, h, h2, if_false]

/-- The whole run for two parts: only the bisection of the given graph matters. -/
theorem rbExecute_two {bu be bd : Prop} {bis : Bisector E} {R : Target E.fp → Partitioning → Prop} {M : Nat}
    (hM : M < M32) {g : Graph} (hg : g.Good)
    (hbis : ∀ bt r, bt.Two → nth bt.mx 0 ≤ M → nth bt.mx 1 ≤ M →
      Wp bu be bd (bis bt g r) (fun o => IsExact g 2 o.1 ∧ R bt o.1))
    {t : Target E.fp} (hk : t.k = 2) (htw : t.tw.length = t.k) (hmx : t.mx.length = t.k)
    (hfp : (E.fp.RecursiveOK ∧ WeightsFit M t.tw t.mx) ∨ (bu ∧ M = NULL32)) (r : E.rng.S) :
    Wp bu be bd (rbExecute bis t g r) (fun o => IsExact g t.k o.1 ∧
      RBTree (fun bt g' p => g' = g → R bt p) t.tw t.mx g o.1.lab) := by
  let bis' : Bisector E := fun bt g' r => if g' = g then bis bt g' r else do
    let p ← Partitioning.ofLabels 2 g' (List.replicate g'.nv 0)
    .ok (p, r)
  rw [rbExecute_congr (bis' := bis') hk (fun bt r => by simp [bis'])]
  refine rbExecute_spec hM (S := g.sumVtx) (fun bt g' r hg' _ hb h0 h1 => ?_) (by omega) (by omega) htw hmx hfp hg
    (le_refl _) r
  by_cases he : g' = g
  · subst he
    simp only [bis', if_true]
    exact (hbis bt r hb h0 h1).mono fun o ho => ⟨ho.1, fun _ => ho.2⟩
  · simp only [bis', if_neg he]
    refine (Wp.of_sat (ofLabels_exact hg'.wf hg'.symm hg'.small (k := 2) (labels := List.replicate g'.nv 0)
      (by simp) (fun v hv => by rw [nth_replicate hv]; omega))).bind fun p hp => ?_
    exact ⟨hp.2, fun h => absurd h he⟩

/-! ### Output -/

theorem output_spec {p : Partitioning} {buf : List Nat} (h : p.asg.length ≤ buf.length) :
    ∃ b, p.output buf = ok (p.cut, b) ∧ b.length = buf.length ∧
      (∀ v, v < p.asg.length → nth b v = nth p.asg v) ∧ (∀ v, p.asg.length ≤ v → nth b v = nth buf v) := by
  have key : Sat ((List.range p.asg.length).foldlM (fun out v => do
      let a ← rd p.asg v
      wr out v a) buf) (fun b => b.length = buf.length ∧
      (∀ v, v < p.asg.length → nth b v = nth p.asg v) ∧ (∀ v, p.asg.length ≤ v → nth b v = nth buf v)) := by
    refine Post_foldlM_range (fun i b => b.length = buf.length ∧
      (∀ v, v < i → nth b v = nth p.asg v) ∧ (∀ v, i ≤ v → nth b v = nth buf v))
      ⟨rfl, fun v hv => absurd hv (by omega), fun _ _ => rfl⟩ fun i b hi hb => ?_
    rw [rd_of_lt hi, ok_bind, wr_of_lt (by omega)]
    refine ⟨by simpa using hb.1, fun v hv => ?_, fun v hv => ?_⟩
    · rw [nth_set (by omega)]
      split
      · subst_vars; rfl
      · exact hb.2.1 v (by omega)
    · rw [nth_set_ne (by omega)]
      exact hb.2.2 v (by omega)
  obtain ⟨b, hb, h1⟩ := sat_iff.mp key
  refine ⟨b, ?_, h1⟩
  unfold Partitioning.output
  rw [hb, ok_bind]

/-- A finished output wrote exactly the partitioning. -/
theorem output_isOutput {p : Partitioning} {out : Out} {w : Nat × List Nat} (h : p.output out.asg = ok w) :
    IsOutput p out { cut := w.1, asg := w.2 } := by
  by_cases hl : p.asg.length ≤ out.asg.length
  · obtain ⟨b, hb, h1, h2, h3⟩ := output_spec (p := p) hl
    rw [hb] at h
    cases h
    exact ⟨rfl, h1, h2, h3⟩
  · exfalso
    have key : May ((List.range p.asg.length).foldlM (fun out v => do
        let a ← rd p.asg v
        wr out v a) out.asg) (fun b => p.asg.length ≤ out.asg.length) := by
      refine (Post_foldlM_range (B := True) (fun i b => b.length = out.asg.length ∧ i ≤ b.length)
        ⟨rfl, by omega⟩ fun i b hi hb => ?_).mono fun b hb => by omega
      rw [rd_of_lt hi, ok_bind, Post_wr]
      refine ⟨fun hlt => ⟨by simpa using hb.1, by simp; omega⟩, fun _ => trivial⟩
    unfold Partitioning.output at h
    revert key h
    generalize (List.range p.asg.length).foldlM (fun out v => do
        let a ← rd p.asg v
        wr out v a) out.asg = x
    intro h key
    cases x with
    | ok b => exact hl key
    | _ => cases h

theorem IsOutput.trans {p q : Partitioning} {a b c : Out} (h1 : IsOutput p a b) (h2 : IsOutput q b c)
    (hl : p.asg.length = q.asg.length) : IsOutput q a c :=
  ⟨h2.cut, h2.len.trans h1.len, h2.labels, fun v hv => by rw [h2.rest v hv, h1.rest v (by omega)]⟩

/-! ### The loop over the global cuts -/

/-- What has happened after the runs `ps`. -/
def LoopInv (ps : List Partitioning) (bestCut : Nat) (out0 out : Out) : Prop :=
  (ps = [] → out = out0) ∧
  (ps ≠ [] → ∃ j, FirstBest ps j ∧ bestCut = (nth ps j).cut ∧ IsOutput (nth ps j) out0 out)

theorem FirstBest.snoc_better {ps : List Partitioning} {p : Partitioning} (h : ps = [] ∨ ∃ j, FirstBest ps j ∧
    p.cut < (nth ps j).cut) : FirstBest (ps ++ [p]) ps.length := by
  have hp : nth (ps ++ [p]) ps.length = p := by rw [nth_append_right (le_refl _)]; simp [nth]
  rcases h with rfl | ⟨j, hj, hlt⟩
  · refine ⟨by simp, fun m hm => ?_, fun m hm => absurd hm (by simp)⟩
    simp at hm
    subst hm
    exact le_refl _
  · refine ⟨by simp, fun m hm => ?_, fun m hm => ?_⟩
    · rw [hp]
      by_cases hm' : m < ps.length
      · rw [nth_append_left hm']
        exact le_of_lt (lt_of_lt_of_le hlt (hj.2.1 m hm'))
      · obtain rfl : m = ps.length := by simp at hm; omega
        rw [hp]
    · rw [hp, nth_append_left hm]
      exact lt_of_lt_of_le hlt (hj.2.1 m hm)

theorem FirstBest.snoc_worse {ps : List Partitioning} {p : Partitioning} {j : Nat} (hj : FirstBest ps j)
    (hle : (nth ps j).cut ≤ p.cut) : FirstBest (ps ++ [p]) j ∧ nth (ps ++ [p]) j = nth ps j := by
  have hp : nth (ps ++ [p]) ps.length = p := by rw [nth_append_right (le_refl _)]; simp [nth]
  have e := nth_append_left (m := [p]) hj.1
  refine ⟨⟨by simp; have := hj.1; omega, fun m hm => ?_, fun m hm => ?_⟩, e⟩
  · rw [e]
    by_cases hm' : m < ps.length
    · rw [nth_append_left hm']; exact hj.2.1 m hm'
    · obtain rfl : m = ps.length := by simp at hm; omega
      rw [hp]; exact hle
  · rw [e, nth_append_left (by have := hj.1; omega)]
    exact hj.2.2 m hm

theorem candidates_succ {bis : Bisector E} {t : Target E.fp} {g : Graph} {i : Nat} {r0 r r' : E.rng.S}
    {ps : List Partitioning} {p : Partitioning} (h : candidates bis t g i r0 = ok (ps, r))
    (hp : bis t g r = ok (p, r')) : candidates bis t g (i + 1) r0 = ok (ps ++ [p], r') := by
  show (candidates bis t g i r0 >>= _) = _
  rw [h, ok_bind]
  show (bis t g r >>= _) = _
  rw [hp, ok_bind]

theorem cutsLoop_spec {bis : Bisector E} {t : Target E.fp} {g : Graph} {n0 : Nat}
    (hlen : ∀ r p r', bis t g r = ok (p, r') → p.asg.length = n0) {r0 : E.rng.S} {out0 : Out} :
    ∀ (n i bestCut : Nat) (out : Out) (r : E.rng.S) (ps : List Partitioning),
      candidates bis t g i r0 = ok (ps, r) → ps.length = i → (∀ p ∈ ps, p.asg.length = n0) →
      LoopInv ps bestCut out0 out →
      (cutsLoop (bis t g) n i bestCut out r).2 = ok () →
      ∃ ps' r' b, candidates bis t g (i + n) r0 = ok (ps', r') ∧ ps'.length = i + n ∧
        LoopInv ps' b out0 (cutsLoop (bis t g) n i bestCut out r).1
  | 0, i, bestCut, out, r, ps, hc, hl, _, hinv, _ => ⟨ps, r, bestCut, hc, hl, hinv⟩
  | n + 1, i, bestCut, out, r, ps, hc, hl, hps, hinv, hok => by
    cases hr : bis t g r with
    | ub => simp [cutsLoop, hr, andThen] at hok
    | exn => simp [cutsLoop, hr, andThen] at hok
    | diverge => simp [cutsLoop, hr, andThen] at hok
    | ok o =>
      obtain ⟨p, r'⟩ := o
      have hpl := hlen r p r' hr
      have hc' := candidates_succ hc hr
      have hps' : ∀ q ∈ ps ++ [p], q.asg.length = n0 := by
        intro q hq
        rcases List.mem_append.mp hq with h | h
        · exact hps q h
        · rw [List.mem_singleton.mp h]; exact hpl
      have e : i + (n + 1) = i + 1 + n := by omega
      rw [e]
      by_cases hb : i = 0 ∨ p.cut < bestCut
      · cases ho : p.output out.asg with
        | ub => simp [cutsLoop, hr, andThen, hb, writeOut, ho] at hok
        | exn => simp [cutsLoop, hr, andThen, hb, writeOut, ho] at hok
        | diverge => simp [cutsLoop, hr, andThen, hb, writeOut, ho] at hok
        | ok w =>
          have hstep : cutsLoop (bis t g) (n + 1) i bestCut out r =
              cutsLoop (bis t g) n (i + 1) p.cut { cut := w.1, asg := w.2 } r' := by
            simp [cutsLoop, hr, andThen, hb, writeOut, ho]
          rw [hstep] at hok ⊢
          refine cutsLoop_spec hlen n (i + 1) p.cut _ r' (ps ++ [p]) hc' (by simp [hl]) hps' ⟨by simp, fun _ => ?_⟩ hok
          have hw := output_isOutput ho
          have hp : nth (ps ++ [p]) ps.length = p := by rw [nth_append_right (le_refl _)]; simp [nth]
          by_cases he : ps = []
          · refine ⟨ps.length, FirstBest.snoc_better (Or.inl he), by rw [hp], ?_⟩
            rw [hp, ← hinv.1 he]
            exact hw
          · obtain ⟨j, h1, h2, h3⟩ := hinv.2 he
            refine ⟨ps.length, FirstBest.snoc_better (Or.inr ⟨j, h1, ?_⟩), by rw [hp], ?_⟩
            · rcases hb with h | h
              · exact absurd (List.length_eq_zero_iff.mp (hl.trans h)) he
              · omega
            · rw [hp]
              exact h3.trans hw (by rw [hps _ (nth_mem h1.1), hpl])
      · have hstep : cutsLoop (bis t g) (n + 1) i bestCut out r = cutsLoop (bis t g) n (i + 1) bestCut out r' := by
          simp [cutsLoop, hr, andThen, hb]
        rw [hstep] at hok ⊢
        have he : ps ≠ [] := by rintro rfl; simp at hl; omega
        obtain ⟨j, h1, h2, h3⟩ := hinv.2 he
        obtain ⟨h4, h5⟩ := h1.snoc_worse (p := p) (by omega)
        refine cutsLoop_spec hlen n (i + 1) bestCut _ r' (ps ++ [p]) hc' (by simp [hl]) hps' ⟨by simp, fun _ => ?_⟩ hok
        exact ⟨j, h4, by rw [h5]; exact h2, by rw [h5]; exact h3⟩

/-- The loop finishes if every run does and the buffer is long enough. -/
theorem cutsLoop_total {bis : Bisector E} {t : Target E.fp} {g : Graph} {n0 : Nat}
    (hbis : ∀ r, ∃ p r', bis t g r = ok (p, r') ∧ p.asg.length = n0) :
    ∀ (n i bestCut : Nat) (out : Out) (r : E.rng.S), n0 ≤ out.asg.length →
      (cutsLoop (bis t g) n i bestCut out r).2 = ok ()
  | 0, _, _, _, _, _ => rfl
  | n + 1, i, bestCut, out, r, hl => by
    obtain ⟨p, r', hr, hp⟩ := hbis r
    by_cases hb : i = 0 ∨ p.cut < bestCut
    · obtain ⟨b, h1, h2, -⟩ := output_spec (p := p) (buf := out.asg) (by omega)
      have hstep : cutsLoop (bis t g) (n + 1) i bestCut out r =
          cutsLoop (bis t g) n (i + 1) p.cut { cut := p.cut, asg := b } r' := by
        simp [cutsLoop, hr, andThen, hb, writeOut, h1]
      rw [hstep]
      exact cutsLoop_total hbis n (i + 1) p.cut _ r' (by show n0 ≤ b.length; omega)
    · have hstep : cutsLoop (bis t g) (n + 1) i bestCut out r = cutsLoop (bis t g) n (i + 1) bestCut out r' := by
        simp [cutsLoop, hr, andThen, hb]
      rw [hstep]
      exact cutsLoop_total hbis n (i + 1) bestCut out r' hl

end Poros

namespace Poros
open Finset Res
variable {E : Env}

/-! ### The target -/

theorem mapM_length {f : α → Res β} {l : List α} {m : List β} (h : l.mapM f = ok m) : m.length = l.length := by
  have : May (l.mapM f) (fun out => out.length = l.length) :=
    (Post_mapM (B := True) (f := f) (l := l) (fun _ _ => True) (fun x _ => by cases f x <;> trivial)).mono fun _ h => h.1
  exact may_iff.mp this m h

theorem ofFractions_shape {fp : FP} {k tot : Nat} {tol : fp.F} {fr : List fp.F} {t : Target fp}
    (h : Target.ofFractions k tot tol fr = ok t) :
    k ≤ fr.length ∧ t.k = k ∧ t.frac = fr.take k ∧ t.tw.length = k ∧ t.mx.length = k ∧
      calcTargetWeight fp tot (fr.take k) = ok t.tw ∧ calcMaxWeight fp tot tol (fr.take k) = ok t.mx := by
  unfold Target.ofFractions at h
  simp only at h
  split at h
  · cases h
  · rename_i hl
    revert h
    generalize (List.range k).foldlM (fun acc i => do
      let f ← rd (fr.take k) i
      if fp.lt f (fp.lit 0 0) || fp.lt (fp.lit 1 0) f then Target.invalidFractions (fr.take k)
      else .ok (fp.add acc f)) (fp.lit 0 0) = x
    intro h
    cases x with
    | ok sum =>
      simp only [ok_bind] at h
      split at h
      · unfold Target.invalidFractions at h
        cases h0 : rd (fr.take k) 0 with
        | ok a =>
          rw [h0, ok_bind] at h
          cases h1 : rd (fr.take k) 1 with
          | ok a => rw [h1, ok_bind] at h; cases h
          | _ => rw [h1] at h; cases h
        | _ => rw [h0] at h; cases h
      · cases h2 : calcTargetWeight fp tot (fr.take k) with
        | ok tw =>
          rw [h2, ok_bind] at h
          cases h3 : calcMaxWeight fp tot tol (fr.take k) with
          | ok mx =>
            rw [h3, ok_bind] at h
            cases h
            have e1 : tw.length = k := by
              unfold calcTargetWeight at h2
              rw [mapM_length h2]; simp; omega
            have e2 : mx.length = k := by
              unfold calcMaxWeight at h3
              rw [mapM_length h3]; simp; omega
            exact ⟨by omega, rfl, rfl, e1, e2, rfl, rfl⟩
          | _ => rw [h3] at h; cases h
        | _ => rw [h2] at h; cases h
    | _ => cases h

theorem bind_eq_ok {x : Res α} {f : α → Res β} {b : β} (h : (x >>= f) = ok b) : ∃ a, x = ok a ∧ f a = ok b := by
  cases x with
  | ok a => exact ⟨a, rfl, h⟩
  | _ => cases h

/-- What is known after the preparations. -/
structure PreparedOK (i : Input) (o : Options E.fp) (P : Prepared E) : Prop where
  good : P.graph.Good
  rep : Represents i.numVertices i.numEdges i.edgePrefix i.edgeList i.vertexWeights i.edgeWeights P.graph
  sum : P.graph.sumVtx = i.totalWeight
  scheme : makeScheme o.aggregationScheme = ok P.scheme
  target : Target.uniform i.numPartitions i.totalWeight (E.fp.lit 3 2) = ok P.target
  k : P.target.k = i.numPartitions
  tw : P.target.tw.length = P.target.k
  mx : P.target.mx.length = P.target.k

theorem totVtx_eq {g : Graph} (hg : g.Good) : g.totVtx = g.sumVtx := by
  rw [hg.wf.tot_vtx, Nat.mod_eq_of_lt hg.small.vtx]

theorem prepare_eq {i : Input} (hv : i.Valid) (o : Options E.fp) :
    ∃ g, g.Good ∧ Represents i.numVertices i.numEdges i.edgePrefix i.edgeList i.vertexWeights i.edgeWeights g ∧
      g.sumVtx = i.totalWeight ∧ prepare E i o = (do
        let s ← makeScheme o.aggregationScheme
        let t ← Target.uniform i.numPartitions i.totalWeight (E.fp.lit 3 2)
        .ok { graph := g, scheme := s, target := t }) := by
  obtain ⟨g, hg, hgood, hr, hs⟩ := hv.good
  refine ⟨g, hgood, hr, hs, ?_⟩
  unfold prepare
  rw [rd_of_lt (by have := hv.csr.xadj_len; omega), ok_bind]
  rw [show nth i.edgePrefix i.numVertices = i.numEdges from rfl, hg, ok_bind, totVtx_eq hgood, hs]
  rfl

theorem prepare_ok {i : Input} (hv : i.Valid) {o : Options E.fp} {P : Prepared E} (h : prepare E i o = ok P) :
    PreparedOK i o P := by
  obtain ⟨g, hgood, hr, hs, he⟩ := prepare_eq hv o
  rw [he] at h
  obtain ⟨s, h1, h⟩ := bind_eq_ok h
  obtain ⟨t, h2, h⟩ := bind_eq_ok h
  cases h
  obtain ⟨-, h3, -, h4, h5, -⟩ := ofFractions_shape h2
  exact ⟨hgood, hr, hs, h1, h2, h3, by rw [h3]; exact h4, by rw [h3]; exact h5⟩

/-- A call that returned 1 with at least one run. -/
theorem call_ok {i : Input} {o : Options E.fp} {out out' : Out}
    (h : partGraphRecursive E i (some o) out = (out', ok 1)) :
    ∃ P, prepare E i o = ok P ∧
      cutsLoop (partitioner E P.scheme P.target P.graph) o.numGlobalCuts.toNat 0 0 out (E.rng.seed o.randomSeed) =
        (out', ok ()) := by
  unfold partGraphRecursive at h
  simp only at h
  cases hp : prepare E i o with
  | ok P =>
    refine ⟨P, rfl, ?_⟩
    rw [hp] at h
    simp only [andThen] at h
    revert h
    generalize cutsLoop (partitioner E P.scheme P.target P.graph) o.numGlobalCuts.toNat 0 0 out
      (E.rng.seed o.randomSeed) = l
    intro h
    obtain ⟨l1, l2⟩ := l
    cases l2 with
    | ok u => simp only at h; cases h; rfl
    | _ => simp at h
  | _ => rw [hp] at h; simp [andThen] at h

end Poros

namespace Poros
open Finset Res
variable {E : Env}

/-! ### Termination -/

theorem cutsLoop_ends {S : Type} {run : S → Res (Partitioning × S)} (h : ∀ s, run s ≠ diverge) :
    ∀ (n i bestCut : Nat) (out : Out) (s : S), (cutsLoop run n i bestCut out s).2 ≠ diverge
  | 0, _, _, _, _ => by intro h; cases h
  | n + 1, i, bestCut, out, s => by
    unfold cutsLoop
    cases hr : run s with
    | diverge => exact absurd hr (h s)
    | ub => intro h; cases h
    | exn => intro h; cases h
    | ok r =>
      simp only [andThen]
      split
      · unfold writeOut
        cases ho : r.1.output out.asg with
        | diverge =>
          exfalso
          have : Wp True True False (r.1.output out.asg) (fun _ => True) := by
            unfold Partitioning.output
            refine Wp.bind (Q := fun _ => True) (Wp_foldlM_range (fun _ _ => True) trivial fun i s _ _ => ?_)
              fun _ _ => trivial
            unfold rd wr
            split
            · rw [ok_bind]
              split <;> trivial
            · trivial
          rw [ho] at this
          exact this
        | ub => intro h; cases h
        | exn => intro h; cases h
        | ok w => exact cutsLoop_ends h n _ _ _ _
      · exact cutsLoop_ends h n _ _ _ _

theorem cutsLoop_noexn {S : Type} {run : S → Res (Partitioning × S)} (h : ∀ s, run s ≠ exn) :
    ∀ (n i bestCut : Nat) (out : Out) (s : S), (cutsLoop run n i bestCut out s).2 ≠ exn
  | 0, _, _, _, _ => by intro h; cases h
  | n + 1, i, bestCut, out, s => by
    unfold cutsLoop
    cases hr : run s with
    | exn => exact absurd hr (h s)
    | ub => intro h; cases h
    | diverge => intro h; cases h
    | ok r =>
      simp only [andThen]
      split
      · unfold writeOut
        cases ho : r.1.output out.asg with
        | exn =>
          exfalso
          have : Wp True False True (r.1.output out.asg) (fun _ => True) := by
            unfold Partitioning.output
            refine Wp.bind (Q := fun _ => True) (Wp_foldlM_range (fun _ _ => True) trivial fun i s _ _ => ?_)
              fun _ _ => trivial
            unfold rd wr
            split
            · rw [ok_bind]
              split <;> trivial
            · trivial
          rw [ho] at this
          exact this
        | ub => intro h; cases h
        | diverge => intro h; cases h
        | ok w => exact cutsLoop_noexn h n _ _ _ _
      · exact cutsLoop_noexn h n _ _ _ _

theorem Wp_mapM {bu be bd : Prop} {f : α → Res β} {l : List α} (h : ∀ x ∈ l, Wp bu be bd (f x) (fun _ => True)) :
    Wp bu be bd (l.mapM f) (fun _ => True) := by
  induction l with
  | nil => trivial
  | cons x xs ih =>
    rw [List.mapM_cons]
    refine (h x (by simp)).bind fun b _ => ?_
    refine (ih fun y hy => h y (by simp [hy])).bind fun bs _ => trivial

theorem uniform_ends {fp : FP} (k tot : Nat) (tol : fp.F) :
    Ends (Target.uniform (fp := fp) k tot tol) (fun _ => True) := by
  have hinv : ∀ {α : Type} (fr : List fp.F), Wp True True False (Target.invalidFractions fr : Res α) (fun _ => True) := by
    intro α fr
    unfold Target.invalidFractions
    refine Wp.bind (Q := fun _ => True) ?_ fun _ _ => Wp.bind (Q := fun _ => True) ?_ fun _ _ => trivial
    all_goals unfold rd; split <;> trivial
  have hcast : ∀ x : fp.F, Wp True True False (fp.cast x) (fun _ => True) := by
    intro x
    unfold FP.cast
    split <;> trivial
  refine Wp.ends.mp ?_
  unfold Target.uniform Target.ofFractions
  simp only
  split
  · trivial
  · refine Wp.bind (Q := fun _ => True) (Wp_foldlM_range (fun _ _ => True) trivial fun i s _ _ => ?_) fun sum _ => ?_
    · refine Wp.bind (Q := fun _ => True) (by unfold rd; split <;> trivial) fun _ _ => ?_
      split
      · exact hinv _
      · trivial
    · split
      · exact hinv _
      · exact Wp.bind (Q := fun _ => True) (Wp_mapM fun x _ => hcast _) fun _ _ =>
          Wp.bind (Q := fun _ => True) (Wp_mapM fun x _ => hcast _) fun _ _ => trivial

end Poros
