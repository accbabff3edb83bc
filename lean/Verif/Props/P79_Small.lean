import Verif.Props.P78_Quality
import Verif.Props.P42_Refuted
/-
C79: graphs that are too small for the number of parts.
-/
namespace Poros
open Finset Res Concrete

variable {pq : PQImpl} {set : SetImpl} {rng : RngImpl}

theorem MLRun.nonempty {E : Env} {s : Scheme} {t : Target E.fp} {maxW : Nat}
    {init : Graph → E.rng.S → (Nat → Nat) → E.rng.S → Prop}
    (hinit : ∀ g r lab r', init g r lab r' → 0 < g.nv) {parent : Option Graph} {g : Graph} {r : E.rng.S}
    {lab : Nat → Nat} {r' : E.rng.S} {hier : List Graph} (h : MLRun E s t maxW init parent g r lab r' hier) : 0 < g.nv := by
  induction h with
  | coarsest _ hi => exact hinit _ _ _ _ hi
  | level _ hc _ _ _ ih =>
    obtain ⟨v, hv, -⟩ := hc.1.onto 0 ih
    omega

theorem MLBisected.nonempty {E : Env} {s : Scheme} {t : Target E.fp} {g : Graph} {r : E.rng.S} {lab : Nat → Nat}
    {r' : E.rng.S} (h : MLBisected E s t g r lab r') : 0 < g.nv := by
  obtain ⟨hier, h⟩ := h
  refine h.nonempty fun g r lab r' hi => ?_
  obtain ⟨seed, hs⟩ := hi.grown
  have := hs.1
  omega

theorem RBRun.parts_le {fp : FP} {S : Type} {R : Target fp → Graph → S → (Nat → Nat) → S → Prop}
    (hR : ∀ t g r lab r', R t g r lab r' → 0 < g.nv) {tw mx : List Nat} {g : Graph} {r : S} {lab : Nat → Nat} {r' : S}
    (h : RBRun R tw mx g r lab r') : tw.length ≤ max 1 (3 * g.nv) := by
  induction h with
  | leaf hk => omega
  | @node tw mx g lab bt side sL sR labL labR r r1 r2 r3 hk hm hbt hr hp hL hRt runL runR labelsL labelsR ihL ihR =>
    have h0 := hR _ _ _ _ _ hr
    have hs : sL.nv + sR.nv = g.nv := by
      have := sum_sides hp hL hRt (fun _ => 1)
      simpa using this.symm
    rw [List.length_take] at ihL
    rw [List.length_drop] at ihR
    omega

/-- **C79.** A successful call for two or more parts has at most three times as many parts as the graph has vertices. -/
theorem C79_success_needs_vertices [Concrete.Log2Impl] {i : Input} (hv : i.Valid) (hk : 2 ≤ i.numPartitions) (hk' : i.numPartitions < 2 ^ 32)
    {o : Options Concrete.fp} (hc : 0 < o.numGlobalCuts) {out out' : Out}
    (h : partGraphRecursive (dblEnv pq set rng) i (some o) out = (out', ok 1)) : i.numPartitions ≤ 3 * i.numVertices := by
  obtain ⟨g, s, tw, mx, labs, j, hcall⟩ := C75_call (pq := pq) (set := set) (rng := rng) hv hk hk' hc h
  obtain ⟨r', hrep⟩ := hcall.runs
  obtain ⟨r0, r1, hrun⟩ := hrep.all _ (nth_mem hcall.index)
  have := hrun.parts_le fun _ _ _ _ _ h => h.nonempty
  rw [hcall.shares.len.1, hcall.graph.nv] at this
  omega

/-- **C79.** Asking for two or more parts and more than three times as many as there are vertices is undefined
behaviour. -/
theorem C79_too_small [Concrete.Log2Impl] {i : Input} (hv : i.Valid) (hk : 2 ≤ i.numPartitions) (hk' : i.numPartitions < 2 ^ 32)
    (hsmall : 3 * i.numVertices < i.numPartitions) {o : Options Concrete.fp} (ho : o.Known) (hc : 0 < o.numGlobalCuts)
    (out : Out) : (partGraphRecursive (dblEnv pq set rng) i (some o) out).2 = ub := by
  rcases C61_no_exception (E := dblEnv pq set rng) Concrete.callOK hv hk hk' ho out with h | h
  · exfalso
    have := C79_success_needs_vertices (pq := pq) (set := set) (rng := rng) hv hk hk' hc (out := out) (Prod.ext rfl h)
    omega
  · exact h

/-- A single vertex of weight 5. -/
def oneIn (k : Nat) : Input :=
  { numVertices := 1, edgePrefix := [0, 0], edgeList := [], vertexWeights := some [5], edgeWeights := none,
    numPartitions := k }

theorem oneIn_valid : (oneIn 4).Valid :=
  Ex.valid_of (by constructor <;> decide +kernel) (by decide +kernel) (by decide +kernel) (by decide +kernel)
    (by decide +kernel)

/-- The hypotheses are met by one vertex and four parts; the bound is sharp, as one vertex and three parts succeed. -/
example : (oneIn 4).Valid ∧ 2 ≤ (oneIn 4).numPartitions ∧ 3 * (oneIn 4).numVertices < (oneIn 4).numPartitions ∧
    (Ex.cuts 1).Known ∧ 0 < (Ex.cuts 1).numGlobalCuts ∧
    partGraphRecursive Concrete.env (oneIn 3) (some (Ex.cuts 1)) Ex.before =
      ({ cut := 0, asg := [2, 9, 9, 9, 9, 9, 9, 9] }, ok 1) :=
  ⟨oneIn_valid, by decide, by decide, Or.inr rfl, by decide, by decide +kernel⟩

end Poros
