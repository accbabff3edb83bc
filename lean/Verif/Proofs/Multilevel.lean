import Verif.Model.Multilevel
import Verif.Proofs.Projection
import Verif.Proofs.FMPass
namespace Poros
open Finset Res

variable {E : Env}

/-- The cut and the two side weights of a bisection, as one fact. -/
def cutAndWeights (I : Nat → Nat → Nat → Prop) (g : Graph) (lab : Nat → Nat) : Prop :=
  I (cutWeight g lab) (partWeight g lab 0) (partWeight g lab 1)

/-- What the parts of a multilevel bisector must do. `K` are the graphs the initial bisector accepts, `I` is a
property of (cut, left weight, right weight) it establishes and the refiner keeps. -/
structure Multilevel.Contract (B : Prop) (m : Multilevel E) (t : Target E.fp) (K : Graph → Prop)
    (I : Nat → Nat → Nat → Prop) : Prop where
  agg : ∀ g maxW r, g.WF → g.NoLoop → Post B (m.agg maxW g r) (fun o => AggOK g.nv o.1 ∧ o.1.nc ≤ g.nv)
  closed : ∀ g a cg, g.Good → K g → AggOK g.nv a → Contracted g a cg → K cg
  init : ∀ g r, g.Good → K g → Post B (m.init t g r) (fun o => IsExact g 2 o.1 ∧ cutAndWeights I g o.1.lab)
  refine : ∀ g p c, g.Good → IsExact g 2 p → ConnExact g p.lab c → cutAndWeights I g p.lab →
    Post B (m.refine t g p c) (fun o => IsExact g 2 o.1 ∧ ConnExact g o.1.lab o.2 ∧ cutAndWeights I g o.1.lab)

theorem Contracted.good {g : Graph} {a : Aggregation} {cg : Graph} (h : Contracted g a cg) (ha : AggOK g.nv a)
    (hg : g.Good) : cg.Good := ⟨h.wf, h.symm hg.symm, h.noLoop, h.small ha hg.small⟩

/-- When the multilevel bisector stops coarsening. -/
def mlStops (fp : FP) (ratio : fp.F) (parent : Option Graph) (g : Graph) : Bool :=
  decide (g.nv ≤ 20) || decide (g.ne = 0) || (match parent with
      | none => false
      | some f => decide (f.ne = 0) || fp.lt ratio (fp.div (fp.ofNat g.ne) (fp.ofNat f.ne)))

/-- The composite of the two criteria of the multilevel bisector. -/
theorem mlStop_eq {fp : FP} (ratio : fp.F) (level : Nat) (parent : Option Graph) (hl : level = 0 ∨ parent.isSome)
    (g : Graph) : compositeStop [vertexNumberStop 20, edgeRatioStop fp ratio] level parent (some g) =
    ok (mlStops fp ratio parent g) := by
  unfold mlStops
  unfold compositeStop vertexNumberStop
  rw [ok_bind]
  by_cases h1 : g.nv ≤ 20
  · simp [h1]
  · simp only [h1, decide_false, Bool.false_or, Bool.false_eq_true, if_false]
    unfold compositeStop edgeRatioStop
    rw [if_neg (by cases parent <;> simp_all)]
    by_cases h2 : g.ne = 0
    · simp [h2]
    · simp only [h2, if_false, decide_false, Bool.false_or]
      cases parent with
      | none => simp [compositeStop]
      | some f =>
        simp only
        by_cases h3 : f.ne = 0
        · simp [h3]
        · simp only [h3, if_false, decide_false, Bool.false_or, ok_bind]
          split <;> simp_all [compositeStop]

theorem Multilevel.recurse_spec {B : Prop} {m : Multilevel E} {t : Target E.fp} {K : Graph → Prop}
    {I : Nat → Nat → Nat → Prop} (hm : m.Contract B t K I) (maxW : Nat) (hB : ¬ E.fp.SelfRatio → B) :
    ∀ fuel level parent g r, g.Good → K g → (level = 0 ∨ parent.isSome) →
      (∀ p, parent = some p → g.ne ≤ p.ne) → (p_fuel : (match parent with
        | none => g.ne + 1
        | some p => p.ne) < fuel ∨ B) →
      Post B (m.recurse maxW (compositeStop [vertexNumberStop 20, edgeRatioStop E.fp (E.fp.lit 95 2)]) t fuel level
        parent g r) (fun o => IsExact g 2 o.1.1 ∧ ConnExact g o.1.1.lab o.1.2 ∧ cutAndWeights I g o.1.1.lab) := by
  intro fuel
  induction fuel with
  | zero =>
    intro level parent g r hg hK hl hle hf
    rcases hf with h | h
    · omega
    · exact h
  | succ fuel ih =>
    intro level parent g r hg hK hl hle hf
    unfold Multilevel.recurse
    rw [mlStop_eq _ _ _ hl, ok_bind]
    split
    · refine (hm.init g r hg hK).bind fun o ho => ?_
      refine (Post.of_sat (fromPartitioning_spec E.set hg.wf hg.small ho.1.asg_len)).bind fun c hc => ?_
      exact ⟨ho.1, hc.1, ho.2⟩
    · rename_i hstop
      have hf' : g.ne < fuel ∨ B := by
        rcases hf with h | h
        · cases parent with
          | none => left; simp only at h; omega
          | some p =>
            simp only at h
            have hle := hle p rfl
            by_cases he : g.ne = p.ne
            · right
              refine hB fun hsr => ?_
              have h0 : 0 < g.ne := by
                by_contra h0
                have : g.ne = 0 := by omega
                simp [mlStops, this] at hstop
              have := hsr g.ne h0 (by have := hg.wf.ne_lt; omega)
              simp [mlStops, ← he, this] at hstop
            · left; omega
        · exact Or.inr h
      refine (hm.agg g maxW r hg.wf hg.noLoop).bind fun o ho => ?_
      obtain ⟨ha, hnc⟩ := ho
      have hsm := hg.small
      have hse := hsm.edge
      refine (Post.of_sat (CoarseGraph.make_spec hg.wf (by omega) hsm.vtx ha
        (lt_of_le_of_lt hnc hg.wf.nv_lt))).bind fun cg hc => ?_
      have hcg := hc.con.good ha hg
      refine (ih (level + 1) (some g) cg.coarse o.2 hcg (hm.closed g _ _ hg hK ha hc.con) (Or.inr rfl)
        (fun p hp => by cases hp; exact hc.con.ne_le) hf').bind fun i hi => ?_
      obtain ⟨i1, i2, i3⟩ := hi
      refine (Post.of_sat (project_spec hg.wf hg.symm hsm ha hc (by omega) i1 i2)).bind fun f hf => ?_
      have hI : cutAndWeights I g f.1.lab := by
        unfold cutAndWeights at i3 ⊢
        rw [hc.con.cut ha hg.symm, hc.con.partWeight ha, hc.con.partWeight ha] at i3
        rw [cutWeight_congr hf.lab, partWeight_congr hf.lab, partWeight_congr hf.lab]
        exact i3
      refine (hm.refine g f.1 f.2 hg hf.exact hf.conn hI).bind fun o ho => ?_
      exact ho

theorem Multilevel.execute_spec {B : Prop} {m : Multilevel E} {t : Target E.fp} {K : Graph → Prop}
    {I : Nat → Nat → Nat → Prop} (hm : m.Contract B t K I) {g : Graph} (hg : g.Good) (hK : K g)
    (hB : ¬ E.fp.MultilevelOK g.totVtx → B) (r : E.rng.S) :
    Post B (m.execute t g r) (fun o => IsExact g 2 o.1 ∧ cutAndWeights I g o.1.lab) := by
  unfold Multilevel.execute edgeRatioMake
  split
  · rename_i h
    refine hB fun hok => ?_
    simp [hok.ratio_pos, hok.ratio_lt] at h
  · rw [ok_bind]
    refine (Post_cast (fun h => hB fun hok => ?_) (fun n _ _ => trivial) : Post B _ (fun _ => True)).bind
      fun maxW _ => ?_
    · have := hok.cast; rw [h] at this; cases this
    · refine (Multilevel.recurse_spec hm maxW (fun h => hB fun hok => h hok.self) (g.ne + 2) 0 none g r hg hK
        (Or.inl rfl) (fun p hp => by cases hp) (Or.inl (by simp only; omega))).bind fun o ho => ?_
      exact ⟨ho.1, ho.2.2⟩

end Poros
