import Verif.Props.P124_HalfCut
import Verif.Props.P125_Clusters
/-
C128: an upper bound on the cut of two equal parts of a connected graph, from the degrees of its vertices; rings.
-/
namespace Poros
open Finset Res Concrete

variable {pq : PQImpl} {set : SetImpl} {rng : RngImpl}

/-- The weight of all edges that the caller's arrays list at `v`. -/
def Input.degreeWeight (i : Input) (v : Nat) : Nat := ∑ u ∈ range i.numVertices, i.wt v u

/-- Connected vertices have at least as much weight of edges among them as a tree on them, here with both directions of each
edge counted. -/
theorem linked_tree {n w : Nat} {f : Nat → Nat → Nat} {P : Nat → Prop} [DecidablePred P] (h : LinkedIn n f P)
    (hsym : ∀ v u, v < n → u < n → f v u = f u v) (hw : ∀ v u, v < n → u < n → 0 < f v u → w ≤ f v u) :
    2 * (((range n).filter P).card - 1) * w ≤ ∑ v ∈ (range n).filter P, ∑ u ∈ (range n).filter P, f v u := by
  have key : ∀ m, m < ((range n).filter P).card → ∃ T : Finset Nat, T ⊆ (range n).filter P ∧ T.card = m + 1 ∧
      2 * m * w ≤ ∑ v ∈ T, ∑ u ∈ T, f v u := by
    intro m
    induction m with
    | zero =>
      intro hm
      obtain ⟨a, ha⟩ := card_pos.mp hm
      exact ⟨{a}, singleton_subset_iff.mpr ha, card_singleton a, by simp⟩
    | succ m ih =>
      intro hm
      obtain ⟨T, h1, h2, h3⟩ := ih (by omega)
      obtain ⟨a, ha⟩ := card_pos.mp (show 0 < T.card by omega)
      obtain ⟨b, hb, hbT⟩ := exists_mem_notMem_of_card_lt_card (show T.card < ((range n).filter P).card by omega)
      have ha' := mem_filter.mp (h1 ha)
      have hb' := mem_filter.mp hb
      obtain ⟨x, y, hx, hy, hyn, hPy, hf⟩ := leaves (A := (· ∈ T))
        (h a b (mem_range.mp ha'.1) (mem_range.mp hb'.1) ha'.2 hb'.2) ha hbT
      have hxn := mem_range.mp (mem_filter.mp (h1 hx)).1
      refine ⟨insert y T, insert_subset_iff.mpr ⟨mem_filter.mpr ⟨mem_range.mpr hyn, hPy⟩, h1⟩,
        by rw [card_insert_of_notMem hy, h2], ?_⟩
      rw [sum_insert hy, sum_insert hy]
      have e : ∑ v ∈ T, ∑ u ∈ insert y T, f v u = ∑ v ∈ T, f v y + ∑ v ∈ T, ∑ u ∈ T, f v u := by
        rw [← sum_add_distrib]
        exact sum_congr rfl fun v _ => sum_insert hy
      rw [e]
      have k1 : f x y ≤ ∑ v ∈ T, f v y := single_le_sum (f := fun v => f v y) (fun _ _ => Nat.zero_le _) hx
      have k2 : f y x ≤ ∑ u ∈ T, f y u := single_le_sum (f := fun u => f y u) (fun _ _ => Nat.zero_le _) hx
      have k3 := hw x y hxn hyn hf
      rw [← hsym x y hxn hyn] at k2
      have k4 : 2 * (m + 1) * w = 2 * m * w + 2 * w := by ring
      omega
  rcases Nat.eq_zero_or_pos ((range n).filter P).card with h0 | h0
  · rw [h0]; simp
  · obtain ⟨T, h1, h2, h3⟩ := key (((range n).filter P).card - 1) (by omega)
    have : T = (range n).filter P := eq_of_subset_of_card_le h1 (by omega)
    rwa [this] at h3

/-- The cut of two parts is the weight of the edges from the one to the other. -/
theorem cutOf_cross {n : Nat} {f : Nat → Nat → Nat} (hsym : ∀ v u, v < n → u < n → f v u = f u v) {lab : Nat → Nat}
    (h2 : ∀ v, v < n → lab v < 2) :
    cutOf n f lab = ∑ v ∈ (range n).filter (lab · = 0), ∑ u ∈ (range n).filter (¬ lab · = 0), f v u := by
  have e1 := sum_pairs_symm n (fun v u => if lab u ≠ lab v then f v u else 0) fun v u hv hu => by
    simp only [ne_eq, hsym v u hv hu]
    by_cases he : lab u = lab v
    · simp [he]
    · simp [he, Ne.symm he]
  rw [← sum_filter_add_sum_filter_not (range n) (lab · = 0)] at e1
  have e2 : ∑ v ∈ (range n).filter (lab · = 0), ∑ u ∈ range n, (if lab u ≠ lab v then f v u else 0) =
      ∑ v ∈ (range n).filter (lab · = 0), ∑ u ∈ (range n).filter (¬ lab · = 0), f v u := by
    refine sum_congr rfl fun v hv => ?_
    rw [sum_filter]
    refine sum_congr rfl fun u _ => ?_
    rw [(mem_filter.mp hv).2]
  have e3 : ∑ v ∈ (range n).filter (¬ lab · = 0), ∑ u ∈ range n, (if lab u ≠ lab v then f v u else 0) =
      ∑ v ∈ (range n).filter (¬ lab · = 0), ∑ u ∈ (range n).filter (lab · = 0), f v u := by
    refine sum_congr rfl fun v hv => ?_
    rw [sum_filter]
    obtain ⟨hv, hv0⟩ := mem_filter.mp hv
    have := h2 v (mem_range.mp hv)
    refine sum_congr rfl fun u hu => ?_
    have := h2 u (mem_range.mp hu)
    by_cases hu0 : lab u = 0
    · rw [if_pos hu0, if_pos (by omega)]
    · rw [if_neg hu0, if_neg (by omega)]
  have e4 : ∑ v ∈ (range n).filter (¬ lab · = 0), ∑ u ∈ (range n).filter (lab · = 0), f v u =
      ∑ v ∈ (range n).filter (lab · = 0), ∑ u ∈ (range n).filter (¬ lab · = 0), f v u := by
    rw [sum_comm]
    refine sum_congr rfl fun v hv => sum_congr rfl fun u hu => ?_
    exact hsym u v (mem_range.mp (mem_filter.mp hu).1) (mem_range.mp (mem_filter.mp hv).1)
  rw [e2, e3, e4] at e1
  simp only [ne_eq, not_true_eq_false, if_false, sum_const_zero, Nat.add_zero] at e1
  unfold cutOf
  simp only [ne_eq]
  omega

/-- What the vertices of part 0 have in degrees, they have in edges among them and in edges that are cut. -/
theorem degree_split {n : Nat} {f : Nat → Nat → Nat} (hsym : ∀ v u, v < n → u < n → f v u = f u v) {lab : Nat → Nat}
    (h2 : ∀ v, v < n → lab v < 2) :
    ∑ v ∈ (range n).filter (lab · = 0), ∑ u ∈ range n, f v u =
      ∑ v ∈ (range n).filter (lab · = 0), ∑ u ∈ (range n).filter (lab · = 0), f v u + cutOf n f lab := by
  rw [cutOf_cross hsym h2, ← sum_add_distrib]
  exact sum_congr rfl fun v _ => (sum_filter_add_sum_filter_not (range n) (lab · = 0) _).symm

/-- The cut of a bisection whose part 0 is connected. -/
theorem linked_cut {n w : Nat} {f : Nat → Nat → Nat} (hsym : ∀ v u, v < n → u < n → f v u = f u v) {lab : Nat → Nat}
    (h2 : ∀ v, v < n → lab v < 2) (hw : ∀ v u, v < n → u < n → 0 < f v u → w ≤ f v u)
    (hl : LinkedIn n f fun v => lab v = 0) {D : Nat} (hD : ∀ v, v < n → ∑ u ∈ range n, f v u ≤ D) :
    cutOf n f lab + 2 * (((range n).filter (lab · = 0)).card - 1) * w ≤ ((range n).filter (lab · = 0)).card * D := by
  have h1 := linked_tree hl hsym hw
  have h3 := degree_split hsym h2
  have h4 : ∑ v ∈ (range n).filter (lab · = 0), ∑ u ∈ range n, f v u ≤ ((range n).filter (lab · = 0)).card * D := by
    refine le_trans (sum_le_card_nsmul _ _ D fun v hv => hD v (mem_range.mp (mem_filter.mp hv).1)) ?_
    rw [smul_eq_mul]
  omega

/-- The cut of any number of parts, part 0 of which is connected, in terms of the weight of all edges. -/
theorem linked_rest {n w : Nat} {f : Nat → Nat → Nat} (hsym : ∀ v u, v < n → u < n → f v u = f u v) (h0 : ∀ v, v < n → f v v = 0)
    {lab : Nat → Nat} (hw : ∀ v u, v < n → u < n → 0 < f v u → w ≤ f v u)
    (hl : LinkedIn n f fun v => lab v = 0) :
    cutOf n f lab + (((range n).filter (lab · = 0)).card - 1) * w ≤ ∑ v ∈ range n, ∑ u ∈ range v, f v u := by
  have h1 := linked_tree hl hsym hw
  have e : ∑ v ∈ (range n).filter (lab · = 0), ∑ u ∈ (range n).filter (lab · = 0), f v u =
      ∑ v ∈ range n, ∑ u ∈ range n, if lab v = 0 ∧ lab u = 0 then f v u else 0 := by
    rw [sum_filter]
    refine sum_congr rfl fun v _ => ?_
    split
    · rw [sum_filter]
      exact sum_congr rfl fun u _ => by simp [*]
    · exact (sum_eq_zero fun u _ => if_neg (by tauto)).symm
  have e1 := sum_pairs_symm n (fun v u => if lab v = 0 ∧ lab u = 0 then f v u else 0) fun v u hv hu => by
    simp only [hsym v u hv hu, and_comm]
  rw [sum_congr rfl (fun v hv => by rw [h0 v (mem_range.mp hv)]; simp :
    ∀ v ∈ range n, (if lab v = 0 ∧ lab v = 0 then f v v else 0) = 0), sum_const_zero] at e1
  have h5 : cutOf n f lab + (∑ v ∈ range n, ∑ u ∈ range v, if lab v = 0 ∧ lab u = 0 then f v u else 0) ≤
      ∑ v ∈ range n, ∑ u ∈ range v, f v u := by
    unfold cutOf
    rw [← sum_add_distrib]
    refine sum_le_sum fun v _ => ?_
    rw [← sum_add_distrib]
    refine sum_le_sum fun u _ => ?_
    by_cases k : lab u = lab v
    · rw [if_neg (fun h => h k), Nat.zero_add]
      split
      · exact le_refl _
      · exact Nat.zero_le _
    · rw [if_pos k, if_neg (fun h => k (h.2.trans h.1.symm))]
      omega
  have e2 : 2 * (((range n).filter (lab · = 0)).card - 1) * w = 2 * ((((range n).filter (lab · = 0)).card - 1) * w) := by ring
  omega

/-- In a connected graph without loops whose degrees are all 2, every bisection with two non-empty parts cuts two edges or more. -/
theorem ring_floor {n : Nat} {f : Nat → Nat → Nat} (hsym : ∀ v u, v < n → u < n → f v u = f u v) (h0 : ∀ v, v < n → f v v = 0)
    (hconn : ∀ v u, v < n → u < n → Relation.ReflTransGen (fun a b => b < n ∧ 0 < f a b) v u)
    (hD : ∀ v, v < n → ∑ u ∈ range n, f v u = 2) {lab : Nat → Nat} (h2 : ∀ v, v < n → lab v < 2)
    {a b : Nat} (ha : a < n) (hb : b < n) (hab : lab a ≠ lab b) : 2 ≤ cutOf n f lab := by
  have hpos : 1 ≤ cutOf n f lab := by
    obtain ⟨x, y, hx, hy, hf, hxy⟩ := (path_crosses (lab := lab) ha (hconn a b ha hb)).2 hab
    have key : ∀ v u, v < n → u < v → 0 < f v u → lab u ≠ lab v → 1 ≤ cutOf n f lab := by
      intro v u hv hu h hne
      unfold cutOf
      have k1 : (if lab u ≠ lab v then f v u else 0) ≤ ∑ u ∈ range v, if lab u ≠ lab v then f v u else 0 :=
        single_le_sum (f := fun u => if lab u ≠ lab v then f v u else 0) (fun _ _ => Nat.zero_le _) (mem_range.mpr hu)
      have k2 : (∑ u ∈ range v, if lab u ≠ lab v then f v u else 0) ≤
          ∑ v ∈ range n, ∑ u ∈ range v, if lab u ≠ lab v then f v u else 0 :=
        single_le_sum (f := fun v => ∑ u ∈ range v, if lab u ≠ lab v then f v u else 0) (fun _ _ => Nat.zero_le _)
          (mem_range.mpr hv)
      rw [if_pos hne] at k1
      omega
    rcases Nat.lt_trichotomy x y with h | h | h
    · exact key y x hy h (by rw [hsym y x hy hx]; exact hf) hxy
    · exact absurd (by rw [h]) hxy
    · exact key x y hx h hf (Ne.symm hxy)
  have h3 := degree_split hsym h2
  rw [sum_congr rfl fun v hv => hD v (mem_range.mp (mem_filter.mp hv).1), sum_const, smul_eq_mul] at h3
  have e : ∑ v ∈ (range n).filter (lab · = 0), ∑ u ∈ (range n).filter (lab · = 0), f v u =
      ∑ v ∈ range n, ∑ u ∈ range n, if lab v = 0 ∧ lab u = 0 then f v u else 0 := by
    rw [sum_filter]
    refine sum_congr rfl fun v _ => ?_
    split
    · rw [sum_filter]
      exact sum_congr rfl fun u _ => by simp [*]
    · exact (sum_eq_zero fun u _ => if_neg (by tauto)).symm
  have e1 := sum_pairs_symm n (fun v u => if lab v = 0 ∧ lab u = 0 then f v u else 0) fun v u hv hu => by
    simp only [hsym v u hv hu, and_comm]
  rw [sum_congr rfl (fun v hv => by rw [h0 v (mem_range.mp hv)]; simp :
    ∀ v ∈ range n, (if lab v = 0 ∧ lab v = 0 then f v v else 0) = 0), sum_const_zero] at e1
  omega

theorem Input.Valid.wt_self {i : Input} (hv : i.Valid) {v : Nat} (hv' : v < i.numVertices) : i.wt v v = 0 := by
  unfold Input.wt csrWt
  refine sum_eq_zero fun e he => if_neg ?_
  have := Finset.mem_Ico.mp he
  exact hv.noLoop v hv' e this.1 this.2

/-- **C128.** For every valid input whose graph is connected and has at most 20 vertices, all of weight 1, an even number: a
call for two parts returns 1 and, if every edge weighs at least `w` and the edges of every vertex at most `D` together, writes a
cut of at most `c * D - 2 * (c - 1) * w`, where `c` is half of the number of vertices, and of at most the weight of all edges
less `(c - 1) * w`. -/
theorem C128_degree [Concrete.Log2Impl] (pq : PQImpl) (set : SetImpl) (rng : RngImpl) {i : Input} (hv : i.Valid)
    (hconn : i.Linked) (hone : ∀ v, v < i.numVertices → weightAt i.vertexWeights v = 1) (hsmall : i.numVertices ≤ 20)
    (hk : i.numPartitions = 2) {c : Nat} (hc : 0 < c) (hdiv : i.numVertices = 2 * c) {o : Options Concrete.fp} (ho : o.Known)
    (hcuts : 0 < o.numGlobalCuts) {out : Out} (hb : i.numVertices ≤ out.asg.length) {w D : Nat}
    (hw : ∀ v u, v < i.numVertices → u < i.numVertices → 0 < i.wt v u → w ≤ i.wt v u)
    (hD : ∀ v, v < i.numVertices → i.degreeWeight v ≤ D) :
    ∃ out', partGraphRecursive (dblEnv pq set rng) i (some o) out = (out', ok 1) ∧
      (∀ q, q < 2 → i.partSize (nth out'.asg) q = c) ∧
      out'.cut + 2 * (c - 1) * w ≤ c * D ∧ out'.cut + (c - 1) * w ≤ i.edgeTotal := by
  obtain ⟨out', h1, h2, h3⟩ := C123_first_part pq set rng hv hconn hone hsmall (by omega) hc (by rw [hk]; exact hdiv) ho hcuts hb
  rw [hk] at h2
  obtain ⟨k1, k2, -, -⟩ := C38_valid_output (E := dblEnv pq set rng) hv (by omega) (by omega) hcuts h1
  rw [hk] at k1
  have hS : ((range i.numVertices).filter (nth out'.asg · = 0)).card = c := h2 0 (by decide)
  refine ⟨out', h1, h2, ?_, ?_⟩
  · have := linked_cut (f := i.wt) hv.symm k1 hw h3 hD
    rw [hS] at this
    rw [k2]
    exact this
  · have := linked_rest (f := i.wt) hv.symm (fun v hv' => hv.wt_self hv') hw h3
    rw [hS] at this
    rw [k2]
    exact this

/-- **C128, any number of parts.** The number of vertices being a positive multiple of any number of parts, `c` times as many, the
written cut is at most the weight of all edges less `(c - 1) * w`. -/
theorem C128_parts [Concrete.Log2Impl] (pq : PQImpl) (set : SetImpl) (rng : RngImpl) {i : Input} (hv : i.Valid)
    (hconn : i.Linked) (hone : ∀ v, v < i.numVertices → weightAt i.vertexWeights v = 1) (hsmall : i.numVertices ≤ 20)
    (hk : 2 ≤ i.numPartitions) {c : Nat} (hc : 0 < c) (hdiv : i.numVertices = i.numPartitions * c) {o : Options Concrete.fp}
    (ho : o.Known) (hcuts : 0 < o.numGlobalCuts) {out : Out} (hb : i.numVertices ≤ out.asg.length) {w : Nat}
    (hw : ∀ v u, v < i.numVertices → u < i.numVertices → 0 < i.wt v u → w ≤ i.wt v u) :
    ∃ out', partGraphRecursive (dblEnv pq set rng) i (some o) out = (out', ok 1) ∧
      out'.cut + (c - 1) * w ≤ i.edgeTotal := by
  obtain ⟨out', h1, h2, h3⟩ := C123_first_part pq set rng hv hconn hone hsmall hk hc hdiv ho hcuts hb
  have hk' : i.numPartitions < 2 ^ 32 := by
    have := Nat.le_mul_of_pos_right i.numPartitions hc
    omega
  obtain ⟨-, k2, -, -⟩ := C38_valid_output (E := dblEnv pq set rng) hv hk hk' hcuts h1
  have hS : ((range i.numVertices).filter (nth out'.asg · = 0)).card = c := h2 0 (by omega)
  have := linked_rest (f := i.wt) hv.symm (fun v hv' => hv.wt_self hv') hw h3
  rw [hS] at this
  refine ⟨out', h1, ?_⟩
  rw [k2]
  exact this

/-- **C128, rings.** For a ring of at most 20 vertices of weight 1, an even number (a connected graph whose edges at every vertex
weigh 2 together), a call for two parts returns 1 and writes the cut 2, which no division into two non-empty parts betters. -/
theorem C128_ring [Concrete.Log2Impl] (pq : PQImpl) (set : SetImpl) (rng : RngImpl) {i : Input} (hv : i.Valid)
    (hconn : i.Linked) (hone : ∀ v, v < i.numVertices → weightAt i.vertexWeights v = 1) (hsmall : i.numVertices ≤ 20)
    (hk : i.numPartitions = 2) {c : Nat} (hc : 0 < c) (hdiv : i.numVertices = 2 * c) {o : Options Concrete.fp} (ho : o.Known)
    (hcuts : 0 < o.numGlobalCuts) {out : Out} (hb : i.numVertices ≤ out.asg.length)
    (hD : ∀ v, v < i.numVertices → i.degreeWeight v = 2) :
    (∃ out', partGraphRecursive (dblEnv pq set rng) i (some o) out = (out', ok 1) ∧
      (∀ q, q < 2 → i.partSize (nth out'.asg) q = c) ∧ out'.cut = 2) ∧
    ∀ lab : Nat → Nat, (∀ v, v < i.numVertices → lab v < 2) → (∀ q, q < 2 → ∃ v, v < i.numVertices ∧ lab v = q) →
      2 ≤ i.cut lab := by
  have hfloor : ∀ lab : Nat → Nat, (∀ v, v < i.numVertices → lab v < 2) →
      (∀ q, q < 2 → ∃ v, v < i.numVertices ∧ lab v = q) → 2 ≤ i.cut lab := fun lab h2 h => by
    obtain ⟨a, ha, ha'⟩ := h 0 (by decide)
    obtain ⟨b, hb, hb'⟩ := h 1 (by decide)
    exact ring_floor (f := i.wt) hv.symm (fun v hv' => hv.wt_self hv') hconn hD h2 ha hb (by omega)
  refine ⟨?_, hfloor⟩
  obtain ⟨out', h1, h2, h3, -⟩ := C128_degree pq set rng hv hconn hone hsmall hk hc hdiv ho hcuts hb (w := 1) (D := 2)
    (fun _ _ _ _ h => h) fun v hv' => (hD v hv').le
  obtain ⟨k1, k2, -, -⟩ := C38_valid_output (E := dblEnv pq set rng) hv (by omega) (by omega) hcuts h1
  rw [hk] at k1
  refine ⟨out', h1, h2, le_antisymm (by omega) ?_⟩
  rw [k2]
  refine hfloor _ k1 fun q hq => ?_
  have hp : 0 < i.partSize (nth out'.asg) q := by rw [h2 q hq]; exact hc
  obtain ⟨v, hv'⟩ := card_pos.mp hp
  obtain ⟨h4, h5⟩ := mem_filter.mp hv'
  exact ⟨v, mem_range.mp h4, h5⟩

/-- **C128, the bisector.** Breadth-first bisection of a connected graph of any size, of vertices of weight 1, into two equal
parts: the bound holds with half of the number of vertices, rounded down. -/
theorem C128_grown [Concrete.Log2Impl] {g : Graph} (hg : g.Good) (hconn : g.Linked) (hu : ∀ v, v < g.nv → g.vw v = 1)
    {tol : Concrete.fp.F} (htol : Concrete.fp.le (Concrete.fp.lit 0 0) tol = true) {t : Target Concrete.fp}
    (ht : Target.uniform (fp := Concrete.fp) 2 g.nv tol = ok t) {r : rng.S} {p : Partitioning} {r' : rng.S}
    (h : bfsBisect (E := dblEnv pq set rng) t g r = ok (p, r')) {w D : Nat}
    (hw : ∀ v u, v < g.nv → u < g.nv → 0 < g.wt v u → w ≤ g.wt v u)
    (hD : ∀ v, v < g.nv → ∑ u ∈ range g.nv, g.wt v u ≤ D) :
    p.cut = cutWeight g p.lab ∧ p.cut + 2 * (g.nv / 2 - 1) * w ≤ g.nv / 2 * D := by
  obtain ⟨h1, h2⟩ := C123_unit (pq := pq) (set := set) hg hconn hu htol ht h
  have hc := unitCase hg hu htol ht
  have hx := ((C31_bfs (E := dblEnv pq set rng) hg hc.even.two r).1 p r' h).1
  have := linked_cut (f := g.wt) hg.symm hx.complete hw h1 hD
  have h2' : ((range g.nv).filter (p.lab · = 0)).card = g.nv / 2 := h2
  rw [h2'] at this
  rw [hx.cut_eq]
  exact ⟨rfl, this⟩

namespace Ex

/-- A ring of twelve vertices without weights, in two parts. -/
def ring12 : Input := { ringsIn 1 12 with numPartitions := 2 }

theorem ring12_valid : ring12.Valid :=
  valid_of (by constructor <;> decide +kernel) (by decide +kernel) (by decide +kernel) (by decide +kernel)
    (by decide +kernel)

theorem ring12_linked : ring12.Linked := by
  have h : LinkedIn 12 ring12.wt fun _ => True := linked_of_tree (by decide +kernel)
  intro v u hv hu
  exact Relation.ReflTransGen.mono (fun a b hab => ⟨hab.1, hab.2.2⟩) _ _ (h v u hv hu trivial trivial)

end Ex

/-- The hypotheses are met by a ring of twelve vertices. -/
example : Ex.ring12.Valid ∧ Ex.ring12.Linked ∧ (∀ v, v < Ex.ring12.numVertices → weightAt Ex.ring12.vertexWeights v = 1) ∧
    Ex.ring12.numVertices ≤ 20 ∧ Ex.ring12.numPartitions = 2 ∧ Ex.ring12.numVertices = 2 * 6 ∧ (Ex.cuts 1).Known ∧
    0 < (Ex.cuts 1).numGlobalCuts ∧ (∀ v, v < Ex.ring12.numVertices → Ex.ring12.degreeWeight v = 2) ∧
    partGraphRecursive Concrete.env Ex.ring12 (some (Ex.cuts 1)) { cut := 7, asg := List.replicate 12 0 } =
      ({ cut := 2, asg := (List.range 12).map fun v => if v < 1 ∨ 6 < v then 0 else 1 }, ok 1) :=
  ⟨Ex.ring12_valid, Ex.ring12_linked, by decide +kernel, by decide, rfl, rfl, Or.inr rfl, by decide, by decide +kernel,
    by decide +kernel⟩

/-- The hypotheses of `C128_grown` are met by the complete graph of four vertices, where the bound is reached: 4 + 2 = 2 * 3. -/
example : Ex.k4.Good ∧ Ex.k4.Linked ∧ (∀ v, v < Ex.k4.nv → Ex.k4.vw v = 1) ∧
    Target.uniform (fp := Concrete.fp) 2 Ex.k4.nv (Concrete.fp.lit 0 0) = ok Ex.k4Target ∧
    (∀ v u, v < Ex.k4.nv → u < Ex.k4.nv → 0 < Ex.k4.wt v u → 1 ≤ Ex.k4.wt v u) ∧
    (∀ v, v < Ex.k4.nv → ∑ u ∈ range Ex.k4.nv, Ex.k4.wt v u ≤ 3) ∧
    (bfsBisect (E := Concrete.env) Ex.k4Target Ex.k4 ()).value = ok { cut := 4, pw := [2, 2], asg := [0, 1, 1, 0] } :=
  ⟨Ex.k4_good, linked_of_tree (by decide +kernel), Ex.k4_unit, Ex.k4Target_uniform, fun _ _ _ _ h => h, by decide +kernel,
    by decide +kernel⟩

end Poros
