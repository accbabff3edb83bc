import Verif.Proofs.MLTrace
import Verif.Proofs.RunTrace
/-
C72: multilevel bisection is an implementation of the specification in SpecML.lean. C73: the sizes of its hierarchy.
-/
namespace Poros
open Finset Res

variable {pq : PQImpl} {set : SetImpl} {rng : RngImpl}

/-- **C72.** Whatever multilevel bisection of a valid graph returns is the outcome of a run of the specification: the
graph is coarsened by the greedy matching of the scheme with the weight limit 3/40 of the total weight (7.5 per cent),
until at most 20 vertices, no edges, or more than 95 per cent of the previous edges are left; the coarsest graph is
bisected by keeping the best of eight bisections grown from random seeds; and at each finer level the labels of the coarse vertices are handed down and
refined by at most 8 passes of FM refinement, each ending after min(150, max(n/100, 25)) moves without acceptance. On
a nonempty graph with vertex weights it does return. -/
theorem C72_multilevel_run [Concrete.Log2Impl] (s : Scheme) {t : Target Concrete.fp} (ht : t.Two) {g : Graph} (hg : g.Good) (r : rng.S) :
    (∀ p r', (makeMultilevel (dblEnv pq set rng) s).execute t g r = ok (p, r') →
      MLBisected (dblEnv pq set rng) s t g r p.lab r') ∧
    (0 < g.nv → HasWeights g → ∃ o, (makeMultilevel (dblEnv pq set rng) s).execute t g r = ok o) := by
  have htv : g.totVtx < M32 := by rw [hg.tot]; exact hg.small.vtx
  constructor
  · intro p r' h
    have key : Post True ((makeMultilevel (dblEnv pq set rng) s).execute t g r) (fun o =>
        MLBisected (dblEnv pq set rng) s t g r o.1.lab o.2) := by
      unfold Multilevel.execute edgeRatioMake
      split
      · trivial
      · rw [ok_bind]
        have hc : FP.cast (dblEnv pq set rng).fp ((dblEnv pq set rng).fp.div ((dblEnv pq set rng).fp.mul
            ((dblEnv pq set rng).fp.lit 15 1) ((dblEnv pq set rng).fp.ofNat g.totVtx))
            ((dblEnv pq set rng).fp.ofNat 20)) = ok (3 * g.totVtx / 40) := by
          unfold FP.cast
          rw [show (dblEnv pq set rng).fp.toU32 _ = _ from Concrete.coarseLimit htv]
        rw [hc, ok_bind]
        refine (recurse_trace (pq := pq) (set := set) (rng := rng) s ht (3 * g.totVtx / 40) g.totVtx (fun g r p r' hg h => sown_of hg ht h)
          (g.ne + 2) 0 none g r hg rfl (Or.inl rfl) (fun f hf => by cases hf)).bind fun o ho => ?_
        obtain ⟨-, -, hier, h⟩ := ho
        exact ⟨hier, by rw [← hg.tot]; exact h⟩
    exact key.elim_ok h
  · intro h0 hw
    exact (C35_multilevel (E := dblEnv pq set rng) s ht hg r).2 h0 hw (Concrete.multilevelOK htv)
      (fun n hn => Concrete.badMovesOK (lt_trans hn (by decide)))

/-! ### C73 -/

theorem MLRun.edges {E : Env} {s : Scheme} {t : Target E.fp} {maxW : Nat}
    {init : Graph → E.rng.S → (Nat → Nat) → E.rng.S → Prop} {parent : Option Graph} {g : Graph} {r : E.rng.S}
    {lab : Nat → Nat} {r' : E.rng.S} {hier : List Graph} (h : MLRun E s t maxW init parent g r lab r' hier) :
    ∀ f, parent = some f → g.ne ≤ f.ne → (hier.map Graph.ne).sum ≤ 19 * f.ne := by
  induction h with
  | coarsest => intro f _ hle; simp; omega
  | @level parent g r cmap cg clab r' hier lab0 lab hc hco _ _ _ ih =>
    intro f hf hle
    have := ih g rfl hco.1.fewer
    have h2 : ¬ 19 * f.ne < 20 * g.ne := fun h => hc (Or.inr (Or.inr ⟨f, hf, h⟩))
    simp only [List.map_cons, List.sum_cons]
    omega

theorem MLRun.depth {E : Env} {s : Scheme} {t : Target E.fp} {maxW : Nat}
    {init : Graph → E.rng.S → (Nat → Nat) → E.rng.S → Prop} {parent : Option Graph} {g : Graph} {r : E.rng.S}
    {lab : Nat → Nat} {r' : E.rng.S} {hier : List Graph} (h : MLRun E s t maxW init parent g r lab r' hier) :
    ∀ f, parent = some f → 0 < f.ne → 20 ^ (hier.length - 1) ≤ 19 ^ (hier.length - 1) * f.ne := by
  induction h with
  | coarsest => intro f _ h0; simp; omega
  | @level parent g r cmap cg clab r' hier lab0 lab hc hco hrun _ _ ih =>
    intro f hf h0
    have hg0 : 0 < g.ne := by
      by_contra h; exact hc (Or.inr (Or.inl (by omega)))
    have := ih g rfl hg0
    have h2 : ¬ 19 * f.ne < 20 * g.ne := fun h => hc (Or.inr (Or.inr ⟨f, hf, h⟩))
    have hl : 1 ≤ hier.length := by cases hrun <;> simp
    obtain ⟨n, hn⟩ : ∃ n, hier.length = n + 1 := ⟨hier.length - 1, by omega⟩
    rw [hn] at this
    simp only [List.length_cons, hn, Nat.add_sub_cancel] at this ⊢
    calc 20 ^ (n + 1) = 20 ^ n * 20 := pow_succ _ _
      _ ≤ 19 ^ n * g.ne * 20 := Nat.mul_le_mul_right _ this
      _ = 19 ^ n * (20 * g.ne) := by ring
      _ ≤ 19 ^ n * (19 * f.ne) := Nat.mul_le_mul_left _ (by omega)
      _ = 19 ^ (n + 1) * f.ne := by ring

theorem visitOrder_perm (E : Env) (s : Scheme) (g : Graph) (r : E.rng.S) :
    (visitOrder E s g r).1.Perm (List.range g.nv) := by
  unfold visitOrder
  split
  · simpa using E.rng.sortRandom_perm r ((List.range g.nv).map fun v => (g.nbrs v).length)
  · exact E.rng.perm_perm r g.nv

theorem joinable_comm (g : Graph) (maxW v u : Nat) : joinable g maxW v u = joinable g maxW u v := by
  unfold joinable; rw [Nat.add_comm]

theorem Visits.joinable {g : Graph} (hnl : g.NoLoop) {maxW : Nat} {heavy : Bool} {order : List Nat}
    {f f' : Nat → Option Nat} (h : Visits g maxW heavy order f f') (ho : ∀ v ∈ order, v < g.nv)
    (hf : ∀ v u, f v = some u → v ≠ u ∧ joinable g maxW v u = true) :
    ∀ v u, f' v = some u → v ≠ u ∧ joinable g maxW v u = true := by
  induction h with
  | nil => exact hf
  | @cons v vs f f' f'' hv _ ih =>
    refine ih (fun x hx => ho x (by simp [hx])) ?_
    have key : ∀ q, q ∈ eligible g maxW f v → ∀ x y, joined f v q.1 x = some y →
        x ≠ y ∧ Poros.joinable g maxW x y = true := by
      intro q hq x y hxy
      obtain ⟨h1, -, h3⟩ := mem_eligible hq
      have hne := hnl v (ho v (by simp)) q h1
      unfold joined at hxy
      split at hxy
      · cases hxy; subst_vars; exact ⟨Ne.symm hne, h3⟩
      · split at hxy
        · cases hxy; subst_vars; exact ⟨hne, by rw [joinable_comm]; exact h3⟩
        · exact hf x y hxy
    cases hv with
    | taken => exact hf
    | alone => exact hf
    | first _ _ e => exact key _ (by rw [e]; simp)
    | heaviest _ _ e => exact key _ (by rw [e]; simp)

theorem IsContraction.sumVtx {g : Graph} {cmap : Nat → Nat} {cg : Graph} (h : IsContraction g cmap cg) :
    cg.sumVtx = g.sumVtx := by
  have := sum_groups g.nv cg.nv cmap h.lt g.vw
  simp only [sum_over_fiber] at this
  unfold Graph.sumVtx
  rw [← this]
  exact sum_congr rfl fun c hc => h.vw c (mem_range.mp hc)

/-- Weights of the vertices of a coarse graph. -/
theorem Coarsened.weights {E : Env} {s : Scheme} {maxW : Nat} {g : Graph} {r : E.rng.S} {cmap : Nat → Nat} {cg : Graph}
    (h : Coarsened E s maxW g r cmap cg) (hnl : g.NoLoop) {M : Nat} (hM : ∀ v, v < g.nv → g.vw v ≤ M)
    {c : Nat} (hc : c < cg.nv) : cg.vw c ≤ max maxW M ∨ cg.vw c = 4294967295 := by
  obtain ⟨h1, f, h2, h3⟩ := h
  obtain ⟨v, hv, rfl⟩ := h1.onto c hc
  rw [h1.vw _ hc]
  have hj := h2.joinable hnl (fun x hx => by simpa using (visitOrder_perm E s g r).mem_iff.mp hx)
    (fun _ _ h => nomatch h)
  have e : groupWeight g cmap (cmap v) = ∑ u ∈ range g.nv, if v = u ∨ f v = some u then g.vw u else 0 := by
    unfold groupWeight
    refine sum_congr rfl fun u hu => ?_
    have := h3 v u hv (mem_range.mp hu)
    by_cases hh : cmap v = cmap u
    · rw [if_pos hh.symm, if_pos (this.mp hh)]
    · rw [if_neg (fun hx => hh hx.symm), if_neg (fun hx => hh (this.mpr hx))]
  rw [e]
  cases hfv : f v with
  | none =>
    have e2 : ∑ u ∈ range g.nv, (if v = u ∨ (none : Option Nat) = some u then g.vw u else 0) = g.vw v := by
      simp [hv]
    rw [e2]
    left; have := hM v hv; omega
  | some w =>
    obtain ⟨hne, hjo⟩ := hj v w hfv
    have e2 : ∑ u ∈ range g.nv, (if v = u ∨ some w = some u then g.vw u else 0) =
        g.vw v + if w < g.nv then g.vw w else 0 := by
      have : ∀ u ∈ range g.nv, (if v = u ∨ some w = some u then g.vw u else 0) =
          (if v = u then g.vw u else 0) + if w = u then g.vw u else 0 := by
        intro u _
        by_cases h1 : v = u
        · have : w ≠ u := fun h => hne (h1.trans h.symm)
          simp [h1, this]
        · simp [h1]
      rw [sum_congr rfl this, sum_add_distrib, sum_ite_eq, sum_ite_eq, if_pos (mem_range.mpr hv)]
      simp only [mem_range]
    rw [e2]
    unfold Poros.joinable at hjo
    simp only [Bool.or_eq_true, decide_eq_true_eq] at hjo
    have := hM v hv
    split
    · rcases hjo with h | h
      · left; omega
      · right; exact h
    · left; omega

theorem MLRun.weights {E : Env} {s : Scheme} {t : Target E.fp} {maxW : Nat}
    {init : Graph → E.rng.S → (Nat → Nat) → E.rng.S → Prop} {parent : Option Graph} {g : Graph} {r : E.rng.S}
    {lab : Nat → Nat} {r' : E.rng.S} {hier : List Graph} (h : MLRun E s t maxW init parent g r lab r' hier) {M W : Nat} :
    g.NoLoop → g.sumVtx = W → W < 4294967295 → (∀ v, v < g.nv → g.vw v ≤ max maxW M) →
    ∀ x ∈ hier, x.sumVtx = W ∧ ∀ v, v < x.nv → x.vw v ≤ max maxW M := by
  induction h with
  | coarsest =>
    intro _ h1 _ h2 x hx
    rw [List.mem_singleton] at hx; subst hx; exact ⟨h1, h2⟩
  | @level parent g r cmap cg clab r' hier lab0 lab hc hco _ _ _ ih =>
    intro hnl h1 hW h2 x hx
    rcases List.mem_cons.mp hx with rfl | hx
    · exact ⟨h1, h2⟩
    · have hs : cg.sumVtx = W := by rw [hco.1.sumVtx, h1]
      refine ih hco.1.noLoop hs hW (fun c hcn => ?_) x hx
      rcases hco.weights hnl h2 hcn with h | h
      · omega
      · have := Finset.single_le_sum (f := cg.vw) (fun _ _ => Nat.zero_le _) (mem_range.mpr hcn)
        unfold Graph.sumVtx at hs
        omega

/-- The hierarchy of graphs a multilevel bisection builds has altogether at most 20 times as
many edges as the graph it starts from, and its number of levels is at most logarithmic: with `d + 2` levels the graph
has at least `(20/19)^d` edges. -/
theorem MLRun.hierarchy {E : Env} {s : Scheme} {t : Target E.fp} {maxW : Nat}
    {init : Graph → E.rng.S → (Nat → Nat) → E.rng.S → Prop} {g : Graph} {r : E.rng.S}
    {lab : Nat → Nat} {r' : E.rng.S} {hier : List Graph} (h : MLRun E s t maxW init none g r lab r' hier) :
    (hier.map Graph.ne).sum ≤ 20 * g.ne ∧ ∀ d, hier.length = d + 2 → 20 ^ d ≤ 19 ^ d * g.ne := by
  cases h with
  | coarsest => exact ⟨by simp; omega, fun d hd => by simp at hd⟩
  | level hc hco hrun _ _ =>
    have hg0 : 0 < g.ne := by
      by_contra h; exact hc (Or.inr (Or.inl (by omega)))
    have h1 := hrun.edges g rfl hco.1.fewer
    have h2 := hrun.depth g rfl hg0
    refine ⟨by simp only [List.map_cons, List.sum_cons]; omega, fun d hd => ?_⟩
    rw [List.length_cons] at hd
    rwa [Nat.sub_eq_of_eq_add (Nat.add_right_cancel hd)] at h2

/-- **C73, edges and levels.** The hierarchy of graphs that a multilevel bisection builds has altogether at most 20 times
as many edges as the graph it starts from, and its number of levels is at most logarithmic: with `d + 2` levels the graph
has at least `(20/19)^d` edges. -/
theorem C73_hierarchy [Concrete.Log2Impl] (s : Scheme) {t : Target Concrete.fp} (ht : t.Two) {g : Graph} (hg : g.Good)
    {r : rng.S} {p : Partitioning} {r' : rng.S}
    (h : (makeMultilevel (dblEnv pq set rng) s).execute t g r = ok (p, r')) :
    ∃ hier, MLRun (dblEnv pq set rng) s t (3 * g.sumVtx / 40) (Sown (dblEnv pq set rng) t) none g r p.lab r' hier ∧
      (hier.map Graph.ne).sum ≤ 20 * g.ne ∧ ∀ d, hier.length = d + 2 → 20 ^ d ≤ 19 ^ d * g.ne := by
  obtain ⟨hier, hrun⟩ := (C72_multilevel_run s ht hg r).1 p r' h
  exact ⟨hier, hrun, MLRun.hierarchy (E := dblEnv pq set rng) hrun⟩

/-- **C73, weights.** All graphs of the hierarchy have the total weight of the graph it starts from, and no vertex of
any of them is heavier than 7.5 per cent of it (rounded down), or than the heaviest vertex of the starting graph if
that is heavier. (The total `2^32 - 1` is excluded: it is the code for "no weight".) -/
theorem C73_weights [Concrete.Log2Impl] (s : Scheme) {t : Target Concrete.fp} (ht : t.Two) {g : Graph} (hg : g.Good)
    (hW : g.sumVtx < 4294967295) {M : Nat} (hM : ∀ v, v < g.nv → g.vw v ≤ M) {r : rng.S} {p : Partitioning} {r' : rng.S}
    (h : (makeMultilevel (dblEnv pq set rng) s).execute t g r = ok (p, r')) :
    ∃ hier, MLRun (dblEnv pq set rng) s t (3 * g.sumVtx / 40) (Sown (dblEnv pq set rng) t) none g r p.lab r' hier ∧
      ∀ x ∈ hier, x.sumVtx = g.sumVtx ∧ ∀ v, v < x.nv → x.vw v ≤ max (3 * g.sumVtx / 40) M := by
  obtain ⟨hier, hrun⟩ := (C72_multilevel_run s ht hg r).1 p r' h
  refine ⟨hier, hrun, hrun.weights hg.noLoop rfl hW fun v hv => ?_⟩
  have := hM v hv
  omega

/-- The hypotheses are met by `path22`, whose bisection (P30) returns; the first level is not the coarsest one. -/
example : path22.Good ∧ halves22.Two ∧ path22.totVtx = 44 ∧ ¬ Coarsest none path22 ∧
    (∃ p, (makeMultilevel (dblEnv Concrete.pq Concrete.set Concrete.rng) .sortedHeavyEdge).execute halves22 path22 ()
      = ok (p, ()) ∧ p.cut = 1) := by
  refine ⟨path22_good, ⟨rfl, rfl, rfl, rfl⟩, rfl, ?_, ?_⟩
  · rintro (h | h | ⟨f, h, -⟩)
    · exact absurd h (by decide)
    · exact absurd h (by decide)
    · cases h
  · obtain ⟨⟨p, ⟨⟩⟩, h⟩ := (C72_multilevel_run (pq := Concrete.pq) (set := Concrete.set) (rng := Concrete.rng)
      .sortedHeavyEdge (t := halves22) ⟨rfl, rfl, rfl, rfl⟩ path22_good ()).2 (by decide) (fun h => nomatch h)
    refine ⟨p, h, ?_⟩
    have hv : ((makeMultilevel Concrete.env .sortedHeavyEdge).execute halves22 path22 ()).value =
      ok { cut := 1, pw := [22, 22], asg := List.replicate 11 0 ++ List.replicate 11 1 } := by decide +kernel
    rw [show (makeMultilevel Concrete.env .sortedHeavyEdge).execute halves22 path22 () = ok (p, ()) from h] at hv
    have hv : ok p = ok (Partitioning.mk 1 [22, 22] (List.replicate 11 0 ++ List.replicate 11 1)) := hv
    injection hv with hv
    rw [hv]

end Poros
