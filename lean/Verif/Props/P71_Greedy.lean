import Verif.Proofs.Greedy
import Verif.Examples
/-
C71: which matching the aggregation schemes compute.
-/
namespace Poros
open Finset Res

/-- **C71.** Aggregating a valid loop-free graph always succeeds and is greedy matching as specified in
SpecMatch.lean. The heavy-edge scheme on a graph with edge weights visits the vertices by increasing degree and joins
a vertex with its first eligible neighbour by a heaviest edge; the random scheme, and the heavy-edge scheme on a graph
without edge weights, visit them in the order the random engine permutes them and join with the first eligible
neighbour. Two different vertices share a coarse vertex exactly if they are joined, and every coarse vertex occurs. -/
theorem C71_greedy (E : Env) (s : Scheme) {g : Graph} (hg : g.WF) (hnl : g.NoLoop) (hV : g.sumVtx < M32) (maxW : Nat)
    (r : E.rng.S) :
    ∃ a f, aggregate E s maxW g r = ok (a, (visitOrder E s g r).2) ∧
      Visits g maxW (joinsHeavy s g) (visitOrder E s g r).1 (fun _ => none) f ∧
      (∀ v u, v < g.nv → u < g.nv → v ≠ u → (a.coarse v = a.coarse u ↔ f v = some u)) ∧
      (∀ c, c < a.nc → ∃ v, v < g.nv ∧ a.coarse v = ok c) ∧
      (s = .sortedHeavyEdge → g.unitEdge = false → ByDegree g (visitOrder E s g r).1) ∧
      (s = .randomMatching ∨ g.unitEdge = true → visitOrder E s g r = E.rng.perm r g.nv) := by
  obtain ⟨⟨a, r'⟩, h1, f, h2, h3, h4, h5⟩ := sat_iff.mp (aggregate_greedy E s hg hnl hV maxW r)
  simp only at h2
  subst h2
  have hco : ∀ v, v < g.nv → a.coarse v = ok (nth a.cmap v) := fun v hv => by
    unfold Aggregation.coarse; rw [rd_of_lt (by rw [h5.ok.len]; exact hv)]
  refine ⟨a, f, h1, h3, ?_, ?_, ?_, ?_⟩
  · intro v u hv hu hne
    rw [hco v hv, hco u hu]
    have := h5.same v u hv hu
    unfold Aggregation.same at this
    constructor
    · intro he
      have he : nth a.cmap v = nth a.cmap u := by injection he
      exact (this.mp he).resolve_left hne
    · intro he; rw [this.mpr (Or.inr he)]
  · intro c hc
    obtain ⟨v, hv, he⟩ := h5.surj c hc
    exact ⟨v, hv, by rw [hco v hv, he]⟩
  · intro hs hu
    unfold visitOrder
    rw [if_pos (by simp [joinsHeavy, hs, hu])]
    exact byDegree_of (E.rng.sortRandom_perm _ _) (E.rng.sortRandom_sorted _ _)
  · intro h
    unfold visitOrder
    rw [if_neg (by rcases h with h | h <;> simp [joinsHeavy, h])]

/-- The specification leaves no choice: the visiting order determines the matching. -/
theorem Visits.unique {g : Graph} {maxW : Nat} {heavy : Bool} {order : List Nat} {f a b : Nat → Option Nat}
    (ha : Visits g maxW heavy order f a) (hb : Visits g maxW heavy order f b) : a = b := by
  have split_unique : ∀ (p p' t t' : List (Nat × Nat)) (q q' : Nat × Nat), p ++ q :: t = p' ++ q' :: t' →
      (∀ x ∈ p, x.2 < q.2) → (∀ x ∈ t, x.2 ≤ q.2) → (∀ x ∈ p', x.2 < q'.2) → (∀ x ∈ t', x.2 ≤ q'.2) → q = q' := by
    intro p
    induction p with
    | nil =>
      intro p' t t' q q' h1 _ h3 h4 _
      cases p' with
      | nil => simp only [List.nil_append, List.cons.injEq] at h1; exact h1.1
      | cons y ys =>
        simp only [List.nil_append, List.cons_append, List.cons.injEq] at h1
        obtain ⟨rfl, rfl⟩ := h1
        have := h4 q (by simp)
        have := h3 q' (by simp)
        omega
    | cons x xs ih =>
      intro p' t t' q q' h1 h2 h3 h4 h5
      cases p' with
      | nil =>
        simp only [List.nil_append, List.cons_append, List.cons.injEq] at h1
        obtain ⟨rfl, rfl⟩ := h1
        have := h2 x (by simp)
        have := h5 q (by simp)
        omega
      | cons y ys =>
        simp only [List.cons_append, List.cons.injEq] at h1
        exact ih ys t t' q q' h1.2 (fun z hz => h2 z (by simp [hz])) h3 (fun z hz => h4 z (by simp [hz])) h5
  have one : ∀ {f v a b}, Visit g maxW heavy f v a → Visit g maxW heavy f v b → a = b := by
    intro f v a b h1 h2
    cases h1 with
    | taken h =>
      cases h2 with
      | taken => rfl
      | alone h' => exact absurd h' h
      | first _ h' => exact absurd h' h
      | heaviest _ h' => exact absurd h' h
    | alone h e =>
      cases h2 with
      | taken h' => exact absurd h h'
      | alone => rfl
      | first _ _ e' => rw [e] at e'; cases e'
      | heaviest _ _ e' =>
        rw [e] at e'
        exact absurd e'.symm (by simp)
    | first hh h e =>
      cases h2 with
      | taken h' => exact absurd h h'
      | alone _ e' => rw [e] at e'; cases e'
      | first _ _ e' => rw [e] at e'; cases e'; rfl
      | heaviest hh' => rw [hh] at hh'; cases hh'
    | heaviest hh h e a2 a3 =>
      cases h2 with
      | taken h' => exact absurd h h'
      | alone _ e' =>
        rw [e] at e'
        exact absurd e' (by simp)
      | first hh' => rw [hh] at hh'; cases hh'
      | heaviest _ _ e' b2 b3 =>
        rw [e] at e'
        rw [split_unique _ _ _ _ _ _ e' a2 a3 b2 b3]
  induction ha with
  | nil => cases hb; rfl
  | cons h _ ih =>
    cases hb with
    | cons h' hb' =>
      cases one h h'
      exact ih hb'

/-- **C71, determinacy.** The visiting order determines the matching: if two engines, in whatever states, yield the same
visiting order, then they join the same vertices. -/
theorem C71_determined (E E' : Env) (s : Scheme) {g : Graph} (hg : g.WF) (hnl : g.NoLoop) (hV : g.sumVtx < M32)
    (maxW : Nat) {r : E.rng.S} {r' : E'.rng.S} (ho : (visitOrder E s g r).1 = (visitOrder E' s g r').1) :
    ∃ a b, aggregate E s maxW g r = ok (a, (visitOrder E s g r).2) ∧
      aggregate E' s maxW g r' = ok (b, (visitOrder E' s g r').2) ∧
      ∀ v u, v < g.nv → u < g.nv → (a.coarse v = a.coarse u ↔ b.coarse v = b.coarse u) := by
  obtain ⟨a, f, h1, h2, h3, -⟩ := C71_greedy E s hg hnl hV maxW r
  obtain ⟨b, f', k1, k2, k3, -⟩ := C71_greedy E' s hg hnl hV maxW r'
  rw [ho] at h2
  have := h2.unique k2
  subst this
  refine ⟨a, b, h1, k1, fun v u hv hu => ?_⟩
  by_cases hne : v = u
  · subst hne; exact ⟨fun _ => rfl, fun _ => rfl⟩
  · rw [h3 v u hv hu hne, k3 v u hv hu hne]

/-- **C71, ascending order.** The degree-sorted vertex orders list every vertex once, by increasing degree. -/
theorem C71_orders (E : Env) {g : Graph} (hg : g.WF) (r : E.rng.S) :
    (∃ order, ascending E g = ok order ∧ ByDegree g order) ∧
    (∃ order r', ascendingRandom E g r = ok (order, r') ∧ ByDegree g order) := by
  constructor
  · unfold ascending
    rw [degrees_eq hg, ok_bind]
    exact ⟨_, rfl, byDegree_of (E.rng.sort_perm _) (E.rng.sort_sorted _)⟩
  · unfold ascendingRandom
    rw [degrees_eq hg, ok_bind]
    exact ⟨_, _, rfl, byDegree_of (E.rng.sortRandom_perm _ _) (E.rng.sortRandom_sorted _ _)⟩

/-- The hypotheses are met, and both kinds of matching occur. -/
example : Ex.tri2.WF ∧ Ex.tri2.NoLoop ∧ Ex.tri2.sumVtx < M32 ∧ joinsHeavy .sortedHeavyEdge Ex.tri2 = true ∧
    joinsHeavy .sortedHeavyEdge Ex.triU = false ∧
    (∃ a r', aggregate Concrete.env .sortedHeavyEdge 3 Ex.tri2 () = ok (a, r') ∧
      a.groups = ok [[0, 1], [2], [3], [4, 5]]) := by
  refine ⟨Ex.tri2_wf, Ex.tri2_noLoop, by decide +kernel, by decide +kernel, by decide +kernel, _, _, rfl,
    by decide +kernel⟩

end Poros
