import Verif.Props.P75_Call
import Verif.Props.P19_Partitioning
/-
C76: the stored cut over histories of operations. C77: calls with the default options.
-/
namespace Poros
open Finset Res

theorem Tracks.mapCut_eq {g : Graph} {k : Nat} {f : Nat → Option Nat} {p : Partitioning} (h : Tracks g k f p) :
    cutWeight g (nth p.asg) = mapCut g f := by
  unfold cutWeight mapCut
  refine sum_congr rfl fun v hv => sum_congr rfl fun u hu => ?_
  have hv := mem_range.mp hv
  have hu := mem_range.mp hu
  have e : nth p.asg u ≠ nth p.asg v ↔ f u ≠ f v := by
    rw [← h.asg u (by omega), ← h.asg v hv]
    constructor
    · intro hne he
      unfold decodeLab at he
      split at he <;> split at he <;> simp_all
    · intro hne he
      rw [he] at hne
      exact hne rfl
  by_cases hc : f u ≠ f v
  · rw [if_pos hc, if_pos (e.mpr hc)]
  · rw [if_neg hc, if_neg fun h => hc (e.mp h)]

theorem POp.run_cut {g : Graph} (hg : g.WF) (hs : g.Symm) (hm : g.sumEdge < 2 ^ 32) {k : Nat} {f : Nat → Option Nat}
    {p : Partitioning} (h : Tracks g k f p) (op : POp) {p' : Partitioning} (hr : op.run g p = ok p') :
    p'.cut = op.specCut g f p.cut := by
  have bnd : ∀ {α : Type} {x : Res α} {y : α → Res Partitioning} {c : Nat}, (∀ a r, y a = ok r → r.cut = c) →
      ∀ r, (x >>= y) = ok r → r.cut = c := by
    intro α x y c hy r hx
    obtain ⟨a, -, h2⟩ := bind_eq_ok hx
    exact hy a r h2
  cases op with
  | assign v q =>
    refine bnd (fun a r h1 => ?_) p' hr
    refine bnd (fun b r h1 => ?_) r h1
    refine bnd (fun b r h1 => ?_) r h1
    refine bnd (fun b r h1 => ?_) r h1
    cases h1; rfl
  | move v q =>
    refine bnd (fun a r h1 => ?_) p' hr
    refine bnd (fun b r h1 => ?_) r h1
    refine bnd (fun b r h1 => ?_) r h1
    refine bnd (fun b r h1 => ?_) r h1
    refine bnd (fun b r h1 => ?_) r h1
    refine bnd (fun b r h1 => ?_) r h1
    refine bnd (fun b r h1 => ?_) r h1
    cases h1; rfl
  | unassign v =>
    refine bnd (fun a r h1 => ?_) p' hr
    refine bnd (fun b r h1 => ?_) r h1
    refine bnd (fun b r h1 => ?_) r h1
    refine bnd (fun b r h1 => ?_) r h1
    refine bnd (fun b r h1 => ?_) r h1
    cases h1; rfl
  | assignAll q =>
    refine bnd (fun a r h1 => ?_) p' hr
    cases h1; rfl
  | unassignAll => cases hr; rfl
  | recalcCut =>
    have : p.recalcCut g = ok p' := hr
    rw [C21_recalc_cut hg hs hm h.asg_len] at this
    cases this
    exact h.mapCut_eq
  | setCut w => cases hr; rfl
  | addCut d =>
    cases hr
    show uadd p.cut (ofI32 d) = _
    show (p.cut + (d % (4294967296 : Int)).toNat) % 4294967296 = (((p.cut : Int) + d) % 2 ^ 32).toNat
    omega

/-- **C76.** After every legal history of operations on a fresh partitioning of a symmetric graph, the stored cut is
what the last operations that concern it say: zero after assigning all vertices to one partition, the given number
after setting it, the 32-bit sum after adding to it, the true cut of the assignment at that moment after recalculating
it. Assigning, moving and unassigning vertices does not touch it, and neither does unassigning all of them. -/
theorem C76_stored_cut {g : Graph} (hg : g.WF) (hs : g.Symm) (hm : g.sumEdge < 2 ^ 32) {k : Nat} (hk : k ≤ NULL32)
    (ops : List POp) (hops : LegalHistory g.nv k (fun _ => none) ops) :
    ∃ p, ops.foldlM (POp.run g) (Partitioning.fresh k g) = ok p ∧ p.cut = historyCut g (fun _ => none) 0 ops := by
  have key : ∀ (ops : List POp) (f : Nat → Option Nat) (p : Partitioning), Tracks g k f p → LegalHistory g.nv k f ops →
      ∃ p', ops.foldlM (POp.run g) p = ok p' ∧ p'.cut = historyCut g f p.cut ops := by
    intro ops
    induction ops with
    | nil => intro f p _ _; exact ⟨p, rfl, rfl⟩
    | cons op ops ih =>
      intro f p ht hl
      obtain ⟨p1, h1, ht1⟩ := sat_iff.mp (ht.run hg hk op hl.1)
      obtain ⟨p2, h2, hc⟩ := ih _ p1 ht1 hl.2
      refine ⟨p2, ?_, ?_⟩
      · rw [List.foldlM_cons, h1, ok_bind, h2]
      · rw [hc, POp.run_cut hg hs hm ht op h1]
        rfl
  exact key ops _ _ Tracks.fresh hops

/-- The hypotheses are met, by a history that uses every operation; the cut stored at the end is stale: all vertices
but one are unassigned, but 5 is still the stored cut. -/
example : Ex.tri2.WF ∧ Ex.tri2.Symm ∧ Ex.tri2.sumEdge < 2 ^ 32 ∧
    LegalHistory Ex.tri2.nv 3 (fun _ => none)
      [.assign 0 2, .setCut 5, .move 0 1, .unassign 0, .assignAll 2, .addCut (-1), .move 1 0, .recalcCut, .unassignAll,
        .assign 5 0] ∧
    historyCut Ex.tri2 (fun _ => none) 0
      [.assign 0 2, .setCut 5, .move 0 1, .unassign 0, .assignAll 2, .addCut (-1), .move 1 0, .recalcCut, .unassignAll,
        .assign 5 0] = 5 := by
  refine ⟨Ex.tri2_good.wf, Ex.tri2_good.symm, by decide +kernel, ?_, by decide +kernel⟩
  simp [LegalHistory, POp.Legal, POp.spec, Ex.tri2]

/-! ### C77 -/

/-- **C77.** A call with the default options on a valid nonempty graph with a vertex weight array, for two parts,
always returns 1, and is the run of the specification for exactly one cut, seed 0 and sorted heavy edge matching; the
default tolerance is the 3 per cent that the limits are made with. -/
theorem C77_defaults [Concrete.Log2Impl] (pq : PQImpl) (set : SetImpl) (rng : RngImpl) {i : Input} (hv : i.Valid)
    (hk : i.numPartitions = 2) (h0 : 0 < i.numVertices) (hw : i.vertexWeights.isSome) {out : Out}
    (hb : i.numVertices ≤ out.asg.length) :
    ∃ out' g tw mx lab r',
      partGraphRecursive (dblEnv pq set rng) i (some (defaultOptions Concrete.fp)) out = (out', ok 1) ∧
      i.Describes g ∧ EvenShares Concrete.fp 2 i.totalWeight tw mx ∧
      RBRun (MLBisected (dblEnv pq set rng) .sortedHeavyEdge) tw mx g (rng.seed 0) lab r' ∧
      (∀ v, v < i.numVertices → nth out'.asg v = lab v) ∧ out'.cut = i.cut lab ∧
      (defaultOptions Concrete.fp).imbalanceTolerance = Concrete.fp.lit 3 2 ∧
      (defaultOptions Concrete.fp).targetPartitionFractions = none := by
  obtain ⟨out', h1, -⟩ := C54_binary64 pq set rng hv hk h0 hw (o := defaultOptions Concrete.fp) (Or.inr rfl) (show (0 : Int) < 1 from by decide) hb
  obtain ⟨g, s, tw, mx, labs, j, hc⟩ := C75_call (pq := pq) (set := set) (rng := rng) hv (by omega) (by omega)
    (o := defaultOptions Concrete.fp) (show (0 : Int) < 1 from by decide) h1
  have hs : s = .sortedHeavyEdge := by
    rcases hc.scheme with ⟨h, -⟩ | ⟨-, h⟩
    · exact absurd h (by show ¬ ((1 : Int) = 0); decide)
    · exact h
  subst hs
  have hlen : labs.length = 1 := by
    have := hc.count
    have h2 : (defaultOptions Concrete.fp).numGlobalCuts = 1 := rfl
    rw [h2] at this
    exact_mod_cast this
  obtain ⟨lab, rfl⟩ : ∃ lab, labs = [lab] := List.length_eq_one_iff.mp hlen
  have hj : j = 0 := by have := hc.index; simp at this; exact this
  subst hj
  obtain ⟨r', hr⟩ := hc.runs
  have hrun : RBRun (MLBisected (dblEnv pq set rng) .sortedHeavyEdge) tw mx g (rng.seed 0) lab r' := by
    generalize hl : [lab] = l at hr
    cases hr with
    | none => cases hl
    | @more cs r1 c _ ha hb =>
      have hcs : cs = [] ∧ lab = c := by
        cases cs with
        | nil => simp at hl; exact ⟨rfl, hl⟩
        | cons a t => simp at hl
      obtain ⟨rfl, rfl⟩ := hcs
      generalize hn : ([] : List (Nat → Nat)) = l2 at ha
      cases ha with
      | none => exact hb
      | more _ _ => simp at hn
  exact ⟨out', g, tw, mx, lab, r', h1, hc.graph, hk ▸ hc.shares, hrun, hc.labels, hc.cut, rfl, rfl⟩

/-- The hypotheses are met. -/
example : Ex.tri2In.Valid ∧ Ex.tri2In.numPartitions = 2 ∧ 0 < Ex.tri2In.numVertices ∧
    Ex.tri2In.vertexWeights.isSome ∧ Ex.tri2In.numVertices ≤ Ex.before.asg.length :=
  ⟨Ex.tri2In_valid, rfl, by decide, rfl, by decide⟩

end Poros
