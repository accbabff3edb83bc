import Verif.SpecML
import Verif.Proofs.Greedy
import Verif.Props.P30_Multilevel
import Verif.Props.P70_FMTrace
namespace Poros
open Finset Res

theorem BuiltFrom.contraction {g : Graph} {f : Nat → Option Nat} {a : Aggregation} {cg : Graph}
    (h : BuiltFrom g.nv f a) (hc : Contracted g a cg) : IsContraction g (nth a.cmap) cg where
  valid := hc.wf
  fewer := hc.ne_le
  lt v hv := by rw [hc.nv]; exact h.ok.lt v hv
  onto c hcn := by rw [hc.nv] at hcn; exact h.surj c hcn
  vw c hcn := hc.vw c (by rwa [hc.nv] at hcn)
  wt c d h1 h2 hne := hc.wt c d (by rwa [hc.nv] at h1) (by rwa [hc.nv] at h2) hne
  noLoop := hc.noLoop
  simple c hcn := hc.simple c (by rwa [hc.nv] at hcn)
  adj c d hcn := hc.adj c d (by rwa [hc.nv] at hcn)

section
variable {pq : PQImpl} {set : SetImpl} {rng : RngImpl}

/-- The environment with binary64 doubles. -/
abbrev dblEnv [Concrete.Log2Impl] (pq : PQImpl) (set : SetImpl) (rng : RngImpl) : Env := ⟨pq, set, rng, Concrete.fp⟩

/-- The criteria, for doubles. -/
theorem mlStops_iff [Concrete.Log2Impl] {parent : Option Graph} {g : Graph} (hle : ∀ f, parent = some f → g.ne ≤ f.ne ∧ f.ne < M32) :
    mlStops Concrete.fp (Concrete.fp.lit 95 2) parent g = true ↔ Coarsest parent g := by
  unfold mlStops Coarsest
  cases parent with
  | none => simp
  | some f =>
    obtain ⟨h1, h2⟩ := hle f rfl
    simp only [Bool.or_eq_true, decide_eq_true_eq, Option.some.injEq, exists_eq_left']
    by_cases h0 : f.ne = 0
    · have : g.ne = 0 := by omega
      simp [this, h0]
    · rw [Concrete.ratio_095 (by omega) h2 h1]
      constructor
      · rintro ((h | h) | h | h)
        · exact Or.inl h
        · exact Or.inr (Or.inl h)
        · exact absurd h h0
        · exact Or.inr (Or.inr h)
      · rintro (h | h | h)
        · exact Or.inl (Or.inl h)
        · exact Or.inl (Or.inr h)
        · exact Or.inr (Or.inr h)

theorem recurse_trace [Concrete.Log2Impl] (s : Scheme) {t : Target Concrete.fp} (ht : t.Two) (maxW tot : Nat)
    {init : Graph → rng.S → (Nat → Nat) → rng.S → Prop}
    (hinit : ∀ g r p r', g.Good → makeBisector (dblEnv pq set rng) .bfs 8 t g r = ok (p, r') → init g r p.lab r') :
    ∀ fuel level parent g r, g.Good → g.totVtx = tot → (level = 0 ∨ parent.isSome) →
      (∀ f, parent = some f → g.ne ≤ f.ne ∧ f.ne < M32) →
      Post True ((makeMultilevel (dblEnv pq set rng) s).recurse maxW
        (compositeStop [vertexNumberStop 20, edgeRatioStop Concrete.fp (Concrete.fp.lit 95 2)]) t fuel level
        parent g r) (fun o => IsExact g 2 o.1.1 ∧ ConnExact g o.1.1.lab o.1.2 ∧
          ∃ hier, MLRun (dblEnv pq set rng) s t maxW init parent g r o.1.1.lab o.2 hier) := by
  have hm := makeMultilevel_contract (E := dblEnv pq set rng) (B := True) s ht tot (fun _ => trivial)
  intro fuel
  induction fuel with
  | zero => intros; trivial
  | succ fuel ih =>
    intro level parent g r hg htot hl hle
    have hK : (True ∨ (0 < g.nv ∧ HasWeights g)) ∧ g.totVtx = tot := ⟨Or.inl trivial, htot⟩
    unfold Multilevel.recurse
    rw [mlStop_eq _ _ _ hl, ok_bind]
    split
    · rename_i hstop
      rw [mlStops_iff hle] at hstop
      refine (hm.init g r hg hK).with_eq.bind fun o ho => ?_
      refine (Post.of_sat (fromPartitioning_spec set hg.wf hg.small ho.1.1.asg_len)).bind fun c hc => ?_
      exact ⟨ho.1.1, hc.1, [g], .coarsest hstop (hinit g r o.1 o.2 hg ho.2)⟩
    · rename_i hstop
      rw [mlStops_iff hle] at hstop
      have hsm := hg.small
      have hse := hsm.edge
      refine (Post.of_sat (aggregate_greedy (dblEnv pq set rng) s hg.wf hg.noLoop hsm.vtx maxW r)).bind fun o ho => ?_
      obtain ⟨f, hr, hvis, -, hb⟩ := ho
      refine (Post.of_sat (CoarseGraph.make_spec hg.wf (by omega) hsm.vtx hb.ok
        (lt_of_le_of_lt hb.size.1 hg.wf.nv_lt))).bind fun cg hc => ?_
      have hcg := hc.con.good hb.ok hg
      refine (ih (level + 1) (some g) cg.coarse o.2 hcg (by rw [hc.con.totVtx hb.ok hg.wf, htot]) (Or.inr rfl)
        (fun p hp => by cases hp; exact ⟨hc.con.ne_le, lt_trans hg.wf.ne_lt (by decide)⟩)).bind fun i hi => ?_
      obtain ⟨i1, i2, hier, i3⟩ := hi
      refine (Post.of_sat (project_spec hg.wf hg.symm hsm hb.ok hc (by decide) i1 i2)).bind fun fi hf => ?_
      refine (fmRefine_spec (E := dblEnv pq set rng) (B := True) hg ht 8 150 hf.exact hf.conn
        (fun _ => trivial)).with_eq.bind fun o2 ho2 => ?_
      obtain ⟨⟨e1, e2, -⟩, e3⟩ := ho2
      obtain ⟨a, h1, h2⟩ := C70_fm_run (E := dblEnv pq set rng) hg ht 8 150 hf.exact hf.conn e3
      have ha := Option.some.inj (h1.symm.trans (Concrete.onePercent (lt_trans hg.wf.nv_lt (by decide))))
      rw [ha] at h2
      refine ⟨e1, e2, g :: hier, .level hstop ⟨hb.contraction hc.con, f, hvis, hb.same⟩ ?_ hf.lab h2⟩
      rw [← hr]
      exact i3

end

end Poros
