import Verif.Proofs.Greedy
import Verif.Props.P12_Aggregation
import Verif.Props.P71_Greedy
import Mathlib.Algebra.BigOperators.Ring.Finset
/-
C119: how good the matchings behind the two aggregation schemes are.
-/
namespace Poros
open Finset Res

/-- The vertices that are not alone number at most twice as many as the vertices that coarsening saves. -/
theorem BuiltFrom.paired_le {n : Nat} {f : Nat → Option Nat} {a : Aggregation} (hm : IsMatching n f)
    (h : BuiltFrom n f a) :
    ((range n).filter fun v => f v ≠ none).card ≤ 2 * (n - a.nc) := by
  classical
  have hs := sum_fiber (nth a.cmap) a.nc n h.ok.lt
  have hpos : ∀ c ∈ range a.nc, 1 ≤ (fiber (nth a.cmap) n c).length := fun c hc => by
    obtain ⟨v, hv, he⟩ := h.surj c (mem_range.mp hc)
    exact List.length_pos_of_mem (mem_fiber.mpr ⟨hv, he⟩)
  rw [Finset.card_eq_sum_card_fiberwise (f := nth a.cmap) (t := range a.nc)
    (fun v hv => by
      have : v < n := by simpa using (mem_filter.mp hv).1
      simpa using h.ok.lt v this)]
  have key : ∀ c ∈ range a.nc, (((range n).filter fun v => f v ≠ none).filter fun v => nth a.cmap v = c).card + 2 ≤
      2 * (fiber (nth a.cmap) n c).length := by
    intro c hc
    have h1 := hpos c hc
    have hsub : (((range n).filter fun v => f v ≠ none).filter fun v => nth a.cmap v = c) ⊆
        (fiber (nth a.cmap) n c).toFinset := by
      intro v hv
      simp only [mem_filter, mem_range] at hv
      rw [List.mem_toFinset, mem_fiber]
      exact ⟨hv.1.1, hv.2⟩
    have hle := (card_le_card hsub).trans (List.toFinset_card_le _)
    by_cases h2 : 2 ≤ (fiber (nth a.cmap) n c).length
    · omega
    · have h1 : (fiber (nth a.cmap) n c).length = 1 := by omega
      have h0 : (((range n).filter fun v => f v ≠ none).filter fun v => nth a.cmap v = c).card = 0 := by
        rw [card_eq_zero, filter_eq_empty_iff]
        intro v hv he
        obtain ⟨hv, hf⟩ := mem_filter.mp hv
        have hv := mem_range.mp hv
        obtain ⟨u, hu⟩ := Option.ne_none_iff_exists'.mp hf
        have hun := hm.lt v u hv hu
        have hsame := (h.same v u hv hun).mpr (Or.inr hu)
        unfold Aggregation.same at hsame
        have h2 : ({v, u} : Finset Nat) ⊆ (fiber (nth a.cmap) n c).toFinset := by
          intro x hx
          rw [List.mem_toFinset, mem_fiber]
          rcases mem_insert.mp hx with rfl | hx
          · exact ⟨hv, he⟩
          · rw [mem_singleton.mp hx]; exact ⟨hun, by rw [← hsame, he]⟩
        have h3 := (card_le_card h2).trans (List.toFinset_card_le _)
        rw [card_pair (hm.ne v u hv hu).symm] at h3
        omega
      omega
  have := sum_le_sum key
  rw [sum_add_distrib, ← Finset.mul_sum, hs] at this
  have h2 : ∑ _x ∈ range a.nc, 2 = 2 * a.nc := by simp; omega
  omega

/-- **C119.** Aggregation coarsens at least half as well as any matching could: if some of the edges of the graph, no
two with a common end and each light enough to be contracted, are chosen in whatever way, then the aggregation saves at
least half as many vertices as they would. -/
theorem C119_half_of_any_matching (E : Env) (s : Scheme) {g : Graph} (hg : g.WF) (hnl : g.NoLoop) (maxW : Nat) (r : E.rng.S)
    (hw : ∀ v u, v < g.nv → u < g.nv → v ≠ u → g.vw v + g.vw u < M32) :
    ∃ a r', aggregate E s maxW g r = ok (a, r') ∧ ∀ pairs : List (Nat × Nat),
      (∀ p ∈ pairs, p.1 < g.nv ∧ g.Adj p.1 p.2 ∧ g.vw p.1 + g.vw p.2 ≤ maxW) →
      (pairs.flatMap fun p => [p.1, p.2]).Nodup → 2 * a.nc + pairs.length ≤ 2 * g.nv := by
  classical
  obtain ⟨⟨a, r'⟩, h1, f, hf, hb, hr⟩ := sat_iff.mp (aggregate_spec E s hg hnl maxW r)
  refine ⟨a, r', h1, fun pairs hp hd => ?_⟩
  have hsize : a.nc ≤ g.nv := hb.size.1
  have hle : _ ≤ 2 * (g.nv - a.nc) := hb.paired_le hf
  suffices h : pairs.length ≤ ((range g.nv).filter fun v => f v ≠ none).card by omega
  let e : Nat × Nat → Nat := fun p => if f p.1 = none then p.2 else p.1
  have hsub : ∀ l : List (Nat × Nat), (l.map e).Sublist (l.flatMap fun p => [p.1, p.2]) := by
    intro l
    induction l with
    | nil => exact List.Sublist.refl _
    | cons p l ih =>
      rw [List.map_cons, List.flatMap_cons]
      refine List.Sublist.append (l₁ := [e p]) ?_ ih
      simp only [e]
      split
      · exact List.Sublist.cons _ (List.Sublist.refl _)
      · exact List.Sublist.cons_cons _ (List.nil_sublist _)
  have hnd := (hsub pairs).nodup hd
  have hc := List.toFinset_card_of_nodup hnd
  rw [List.length_map] at hc
  rw [← hc]
  refine card_le_card fun x hx => ?_
  obtain ⟨p, hpm, rfl⟩ := List.mem_map.mp (List.mem_toFinset.mp hx)
  obtain ⟨hv, ⟨w, hq⟩, hle⟩ := hp p hpm
  have hu : p.2 < g.nv := Graph.nbrs_lt hg hv hq
  have hne : p.2 ≠ p.1 := hnl p.1 hv _ hq
  rw [mem_filter, mem_range]
  by_cases h0 : f p.1 = none
  · have he : e p = p.2 := if_pos h0
    rw [he]
    refine ⟨hu, fun h00 => ?_⟩
    have h2 := hr.maximal p.1 (by simpa using hv) h0 _ hq h00
    have h3 := hw p.1 p.2 hv hu (Ne.symm hne)
    unfold okPair isAllowed at h2
    simp only at h2
    rw [uadd_eq (by omega)] at h2
    simp only [Bool.or_eq_true, decide_eq_true_eq, not_or] at h2
    omega
  · have he : e p = p.1 := if_neg h0
    rw [he]
    exact ⟨hv, h0⟩

/-- So a graph all of whose vertices can be joined in pairs shrinks to at most three quarters of its size. -/
theorem C119_three_quarters (E : Env) (s : Scheme) {g : Graph} (hg : g.WF) (hnl : g.NoLoop) (maxW : Nat) (r : E.rng.S)
    (hw : ∀ v u, v < g.nv → u < g.nv → v ≠ u → g.vw v + g.vw u < M32) {pairs : List (Nat × Nat)}
    (hp : ∀ p ∈ pairs, p.1 < g.nv ∧ g.Adj p.1 p.2 ∧ g.vw p.1 + g.vw p.2 ≤ maxW)
    (hd : (pairs.flatMap fun p => [p.1, p.2]).Nodup) (hall : 2 * pairs.length = g.nv) :
    ∃ a r', aggregate E s maxW g r = ok (a, r') ∧ 4 * a.nc ≤ 3 * g.nv := by
  obtain ⟨a, r', h1, h2⟩ := C119_half_of_any_matching E s hg hnl maxW r hw
  refine ⟨a, r', h1, ?_⟩
  have := h2 pairs hp hd
  omega

/-! ### leaves come first -/

/-- A visit changes nothing about a matched vertex. -/
theorem Visit.keeps {g : Graph} {maxW : Nat} {heavy : Bool} {f f' : Nat → Option Nat} {x v : Nat}
    (h : Visit g maxW heavy f x f') (hv : f v ≠ none) : f' v = f v := by
  have key : ∀ q : Nat × Nat, f x = none → q ∈ eligible g maxW f x → joined f x q.1 v = f v := by
    intro q hx hq
    have hq := (List.mem_filter.mp hq).2
    simp only [Bool.and_eq_true, Option.isNone_iff_eq_none] at hq
    have h1 : v ≠ x := fun h => hv (h ▸ hx)
    have h2 : v ≠ q.1 := fun h => hv (h ▸ hq.1)
    simp [joined, h1, h2]
  cases h with
  | taken => rfl
  | alone => rfl
  | first _ hx he => exact key _ hx (by rw [he]; simp)
  | heaviest _ hx he => exact key _ hx (by rw [he]; simp)

theorem Visits.keeps {g : Graph} {maxW : Nat} {heavy : Bool} {order : List Nat} {f f' : Nat → Option Nat} {v : Nat}
    (h : Visits g maxW heavy order f f') (hv : f v ≠ none) : f' v = f v := by
  induction h with
  | nil => rfl
  | cons h1 _ ih =>
    have := h1.keeps hv
    rw [ih (by rw [this]; exact hv), this]

/-- The vertex a visit joins, and with what. -/
theorem Visit.outcome {g : Graph} {maxW : Nat} {heavy : Bool} {f f' : Nat → Option Nat} {x : Nat}
    (h : Visit g maxW heavy f x f') :
    (f' = f ∧ (f x ≠ none ∨ eligible g maxW f x = [])) ∨
      ∃ q, f x = none ∧ q ∈ eligible g maxW f x ∧ f' = joined f x q.1 := by
  cases h with
  | taken h => exact Or.inl ⟨rfl, Or.inl h⟩
  | alone _ h => exact Or.inl ⟨rfl, Or.inr h⟩
  | first _ hx he => exact Or.inr ⟨_, hx, by rw [he]; simp, rfl⟩
  | heaviest _ hx he => exact Or.inr ⟨_, hx, by rw [he]; simp, rfl⟩

/-- Visiting by increasing degree, a vertex with a leaf it may be joined with is joined with a leaf. -/
theorem Visits.leaf {g : Graph} (hsym : g.SymmAdj) {maxW : Nat} {heavy : Bool} {v l w : Nat}
    (hl : l < g.nv) (hdeg : 2 ≤ (g.nbrs v).length) (hleaf : g.nbrs l = [(v, w)]) (hle : g.vw v + g.vw l ≤ maxW)
    {order : List Nat} {f f' : Nat → Option Nat} (h : Visits g maxW heavy order f f') :
    (∀ x ∈ order, x < g.nv) → order.Pairwise (fun a b => (g.nbrs a).length ≤ (g.nbrs b).length) → l ∈ order →
      f v = none → f l = none → ∃ x, x < g.nv ∧ (g.nbrs x).length = 1 ∧ f' v = some x := by
  induction h with
  | nil => intro _ _ h; cases h
  | @cons x xs f f' f'' h1 h2 ih =>
    intro hlt hs hmem hfv hfl
    rw [List.pairwise_cons] at hs
    have hxn : x < g.nv := hlt x (by simp)
    have hxd : (g.nbrs x).length ≤ 1 := by
      rcases List.mem_cons.mp hmem with rfl | h
      · rw [hleaf]; simp
      · have := hs.1 l h; rw [hleaf] at this; simpa using this
    have hxv : x ≠ v := fun h => by rw [h] at hxd; omega
    rcases h1.outcome with ⟨rfl, hno⟩ | ⟨q, hx, hq, rfl⟩
    · have hlx : l ≠ x := by
        rintro rfl
        rcases hno with h | h
        · exact h hfl
        · have : (v, w) ∈ eligible g maxW f' l := by
            refine List.mem_filter.mpr ⟨by rw [hleaf]; simp, ?_⟩
            simp only [hfv, Option.isNone_none, Bool.true_and, joinable, Bool.or_eq_true, decide_eq_true_eq]
            left; omega
          rw [h] at this; cases this
      rcases List.mem_cons.mp hmem with h | h
      · exact absurd h hlx
      · exact ih (fun y hy => hlt y (by simp [hy])) hs.2 h hfv hfl
    · have hqn : q ∈ g.nbrs x := (List.mem_filter.mp hq).1
      have hlen : (g.nbrs x).length = 1 := by
        have := List.length_pos_of_mem hqn; omega
      by_cases hqv : q.1 = v
      · have hj : joined f x q.1 v = some x := by simp [joined, hqv, Ne.symm hxv]
        exact ⟨x, hxn, hlen, by rw [h2.keeps (by rw [hj]; simp), hj]⟩
      · have hxl : x ≠ l := by
          rintro rfl
          rw [hleaf] at hqn
          exact hqv (by rw [List.mem_singleton.mp hqn])
        have hql : q.1 ≠ l := by
          intro h
          obtain ⟨w', hw'⟩ := hsym x l hxn hl ⟨q.2, by rw [← h]; exact hqn⟩
          rw [hleaf] at hw'
          have := List.mem_singleton.mp hw'
          exact hxv (by injection this)
        rcases List.mem_cons.mp hmem with h | h
        · exact absurd h.symm hxl
        · exact ih (fun y hy => hlt y (by simp [hy])) hs.2 h (by simp [joined, Ne.symm hxv, Ne.symm hqv, hfv])
            (by simp [joined, Ne.symm hxl, Ne.symm hql, hfl])

/-- **C119, leaves first.** Heavy-edge matching visits the vertices by degree, so a vertex with a neighbour of degree one
that is light enough is joined with a vertex of degree one, whatever its other edges weigh. -/
theorem C119_leaves_first (E : Env) {g : Graph} (hg : g.WF) (hsym : g.SymmAdj) (hnl : g.NoLoop) (hV : g.sumVtx < M32)
    (hw : g.unitEdge = false) (maxW : Nat) (r : E.rng.S) :
    ∃ a r', aggregate E .sortedHeavyEdge maxW g r = ok (a, r') ∧
      ∀ v l w, v < g.nv → l < g.nv → 2 ≤ (g.nbrs v).length → g.nbrs l = [(v, w)] → g.vw v + g.vw l ≤ maxW →
        ∃ x, x < g.nv ∧ (g.nbrs x).length = 1 ∧ a.coarse v = a.coarse x ∧
          ∀ u, u < g.nv → a.coarse v = a.coarse u → u = v ∨ u = x := by
  obtain ⟨a, f, h1, h2, h3, -, h4, -⟩ := C71_greedy E .sortedHeavyEdge hg hnl hV maxW r
  refine ⟨a, _, h1, fun v l w hv hl hdeg hleaf hle => ?_⟩
  obtain ⟨ho, hs⟩ := h4 rfl hw
  have hm : ∀ x, x ∈ (visitOrder E .sortedHeavyEdge g r).1 ↔ x < g.nv := fun x => by rw [ho.mem_iff]; simp
  obtain ⟨x, hx, hxd, hf⟩ := h2.leaf hsym hl hdeg hleaf hle (fun x hx => (hm x).mp hx) hs ((hm l).mpr hl) rfl rfl
  have hne : v ≠ x := by rintro rfl; omega
  refine ⟨x, hx, hxd, (h3 v x hv hx hne).mpr hf, fun u hu he => ?_⟩
  by_cases huv : u = v
  · exact Or.inl huv
  · have := (h3 v u hv hu (Ne.symm huv)).mp he
    rw [hf] at this
    exact Or.inr (by injection this with h; exact h.symm)

/-- So an edge between two inner vertices, one of which has a light leaf, is not contracted, however heavy it is. -/
theorem C119_heavy_edge_missed (E : Env) {g : Graph} (hg : g.WF) (hsym : g.SymmAdj) (hnl : g.NoLoop) (hV : g.sumVtx < M32)
    (hw : g.unitEdge = false) (maxW : Nat) (r : E.rng.S) :
    ∃ a r', aggregate E .sortedHeavyEdge maxW g r = ok (a, r') ∧
      ∀ v u l w, v < g.nv → u < g.nv → l < g.nv → v ≠ u → 2 ≤ (g.nbrs v).length → 2 ≤ (g.nbrs u).length →
        g.nbrs l = [(v, w)] → g.vw v + g.vw l ≤ maxW → a.coarse v ≠ a.coarse u := by
  obtain ⟨a, r', h1, h2⟩ := C119_leaves_first E hg hsym hnl hV hw maxW r
  refine ⟨a, r', h1, fun v u l w hv hu hl hne hdv hdu hleaf hle he => ?_⟩
  obtain ⟨x, hx, hxd, -, hall⟩ := h2 v l w hv hl hdv hleaf hle
  rcases hall u hu he with h | h
  · exact hne h.symm
  · rw [h] at hdu; omega

/-- The path 0 - 1 - 2 - 3 with edges of weight 1, `w` and 1. -/
def heavyMiddle (w : Nat) : Graph :=
  { unitEdge := false, unitVtx := true, nv := 4, ne := 6, totVtx := 4, totEdge := 2 * w + 4,
    xadj := [0, 1, 3, 5, 6], adjncy := [1, 0, 2, 1, 3, 2], vwgt := [], adjwgt := [1, 1, w, w, 1, 1] }

theorem heavyMiddle_nbrs (w : Nat) : (heavyMiddle w).nbrs 0 = [(1, 1)] ∧ (heavyMiddle w).nbrs 1 = [(0, 1), (2, w)] ∧
    (heavyMiddle w).nbrs 2 = [(1, w), (3, 1)] ∧ (heavyMiddle w).nbrs 3 = [(2, 1)] := ⟨rfl, rfl, rfl, rfl⟩

theorem heavyMiddle_sumEdge (w : Nat) : (heavyMiddle w).sumEdge = 2 * w + 4 := by
  obtain ⟨h0, h1, h2, h3⟩ := heavyMiddle_nbrs w
  unfold Graph.sumEdge
  rw [show (heavyMiddle w).nv = 4 from rfl]
  simp [sum_range_succ, Graph.wsum, h0, h1, h2, h3]
  omega

theorem heavyMiddle_wf {w : Nat} (hw : 2 * w + 4 < M32) : (heavyMiddle w).WF := by
  refine ⟨show 4 < _ by decide, show 6 < _ by decide, rfl, rfl, rfl, ?_, rfl, ?_, ?_, ?_, fun _ => rfl, ?_, ?_, ?_⟩
  · show ∀ v, v < 4 → nth [0, 1, 3, 5, 6] v ≤ nth [0, 1, 3, 5, 6] (v + 1); decide
  · show ∀ e, e < 6 → nth [1, 0, 2, 1, 3, 2] e < 4; decide
  · intro h; cases h
  · intro _ v hv; cases hv
  · intro h; cases h
  · rfl
  · rw [heavyMiddle_sumEdge, Nat.mod_eq_of_lt hw]; rfl

/-- On this path heavy-edge matching keeps the ends of the middle edge apart for every engine, although that edge may have
nearly all of the weight. -/
theorem C119_middle_edge (E : Env) {w : Nat} (hw : 2 * w + 4 < M32) (r : E.rng.S) :
    ∃ a r', aggregate E .sortedHeavyEdge 4 (heavyMiddle w) r = ok (a, r') ∧ a.coarse 1 ≠ a.coarse 2 := by
  obtain ⟨h0, h1, h2, h3⟩ := heavyMiddle_nbrs w
  have hsmall : ∀ v, v < (heavyMiddle w).nv → v = 0 ∨ v = 1 ∨ v = 2 ∨ v = 3 := fun v (hv : v < 4) => by omega
  have hsym : (heavyMiddle w).SymmAdj := by
    intro v u hv hu
    rcases hsmall v hv with rfl | rfl | rfl | rfl <;> rcases hsmall u hu with rfl | rfl | rfl | rfl <;>
      simp [Graph.Adj, h0, h1, h2, h3]
  have hnl : (heavyMiddle w).NoLoop := by
    intro v hv
    rcases hsmall v hv with rfl | rfl | rfl | rfl <;> simp [h0, h1, h2, h3]
  have hV : (heavyMiddle w).sumVtx < M32 := by show ∑ v ∈ range 4, 1 < _; decide
  obtain ⟨a, r', k1, k2⟩ := C119_heavy_edge_missed E (heavyMiddle_wf hw) hsym hnl hV rfl 4 r
  exact ⟨a, r', k1, k2 1 2 0 1 (show 1 < 4 by decide) (show 2 < 4 by decide) (show 0 < 4 by decide) (by decide)
      (by rw [h1]; simp) (by rw [h2]; simp) rfl (show 1 + 1 ≤ 4 by decide)⟩

/-- The path 1 - 0 - 2 - 3 without weights. -/
def middleFirst : Graph :=
  { unitEdge := true, unitVtx := true, nv := 4, ne := 6, totVtx := 4, totEdge := 6,
    xadj := [0, 2, 3, 5, 6], adjncy := [2, 1, 0, 0, 3, 2], vwgt := [], adjwgt := [] }

/-- The hypotheses of `C119_half_of_any_matching` and `C119_three_quarters` are met, and both bounds are attained: two
pairs could be joined, one is. -/
example : middleFirst.WF ∧ middleFirst.NoLoop ∧ (∀ p ∈ [(0, 1), (2, 3)], p.1 < middleFirst.nv ∧
      middleFirst.Adj p.1 p.2 ∧ middleFirst.vw p.1 + middleFirst.vw p.2 ≤ 4) ∧
    ∃ a r', aggregate Concrete.env .randomMatching 4 middleFirst () = ok (a, r') ∧ a.nc = 3 := by
  refine ⟨by constructor <;> decide +kernel, by unfold Graph.NoLoop; decide +kernel, ?_, _, _, rfl, by decide +kernel⟩
  intro p hp
  simp only [List.mem_cons, List.not_mem_nil, or_false] at hp
  rcases hp with rfl | rfl
  · exact ⟨by decide, ⟨1, by decide +kernel⟩, by decide +kernel⟩
  · exact ⟨by decide, ⟨1, by decide +kernel⟩, by decide +kernel⟩

end Poros
