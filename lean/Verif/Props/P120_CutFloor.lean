import Verif.Props.P116_DirectedParts
import Verif.Props.P81_Nonempty
import Verif.Props.P117_Sixteen
import Verif.ExamplesApi
import Mathlib.Logic.Relation
import Mathlib.Data.Finset.Card
/-
C120: what a reported cut says about the parts: zero means that no edge is cut, and a connected graph cannot be divided
for less than one edge for each further part.
-/
namespace Poros
open Finset Res
variable {E : Env}

/-- The weight of the edges that the caller's arrays list at `v` leading to `u`. -/
def Input.wt (i : Input) (v u : Nat) : Nat := csrWt i.edgePrefix i.edgeList i.edgeWeights v u

/-- Every vertex can be reached from every other along edges of positive weight. -/
def Input.Linked (i : Input) : Prop :=
  ∀ v u, v < i.numVertices → u < i.numVertices →
    Relation.ReflTransGen (fun a b => b < i.numVertices ∧ 0 < i.wt a b) v u

/-- The labels in use: how many parts have a vertex. -/
def Input.partsUsed (i : Input) (lab : Nat → Nat) : Nat := ((range i.numVertices).image lab).card

/-- The cut of a labelling, for weights `f`. -/
def cutOf (n : Nat) (f : Nat → Nat → Nat) (lab : Nat → Nat) : Nat :=
  ∑ v ∈ range n, ∑ u ∈ range v, if lab u ≠ lab v then f v u else 0

/-- A path between differently labelled vertices has an edge between differently labelled vertices. -/
theorem path_crosses {n : Nat} {f : Nat → Nat → Nat} {lab : Nat → Nat} {v u : Nat} (hv : v < n)
    (h : Relation.ReflTransGen (fun a b => b < n ∧ 0 < f a b) v u) :
    u < n ∧ (lab v ≠ lab u → ∃ a b, a < n ∧ b < n ∧ 0 < f a b ∧ lab a ≠ lab b) := by
  induction h with
  | refl => exact ⟨hv, fun h => absurd rfl h⟩
  | @tail a b _ hab ih =>
    refine ⟨hab.1, fun hb => ?_⟩
    by_cases ha : lab v = lab a
    · exact ⟨a, b, ih.1, hab.1, hab.2, fun h => hb (by rw [ha, h])⟩
    · exact ih.2 ha

/-- Giving all vertices labelled like `b` the label of `a` saves at least the weight of the edge between them. -/
theorem cutOf_merge {n : Nat} {f : Nat → Nat → Nat} (lab : Nat → Nat) {a b : Nat} (ha : a < n) (hb : b < n)
    (hab : b < a) (hne : lab a ≠ lab b) (x y : Nat) (hx : x = lab a ∧ y = lab b ∨ x = lab b ∧ y = lab a) :
    cutOf n f (fun v => if lab v = y then x else lab v) + f a b ≤ cutOf n f lab := by
  have h1 : f a b = ∑ v ∈ range n, ∑ u ∈ range v, if v = a ∧ u = b then f v u else 0 := by
    rw [sum_eq_single a, sum_eq_single b]
    · simp
    · intro u _ hu; rw [if_neg (by tauto)]
    · intro h; exact absurd (mem_range.mpr hab) h
    · intro v _ hv
      exact sum_eq_zero fun u _ => if_neg (by tauto)
    · intro h; exact absurd (mem_range.mpr ha) h
  rw [h1]
  unfold cutOf
  rw [← sum_add_distrib]
  refine sum_le_sum fun v _ => ?_
  rw [← sum_add_distrib]
  refine sum_le_sum fun u _ => ?_
  by_cases he : lab u = lab v
  · have hvu : ¬(v = a ∧ u = b) := by rintro ⟨rfl, rfl⟩; exact hne he.symm
    simp [he, hvu]
  · rw [if_pos he]
    by_cases hvu : v = a ∧ u = b
    · obtain ⟨rfl, rfl⟩ := hvu
      rcases hx with ⟨rfl, rfl⟩ | ⟨rfl, rfl⟩
      · simp
      · simp
    · rw [if_neg hvu, Nat.add_zero]
      split <;> simp

/-- Each further label costs an edge. -/
theorem cutOf_floor {n w : Nat} {f : Nat → Nat → Nat} (hsym : ∀ v u, v < n → u < n → f v u = f u v)
    (hconn : ∀ v u, v < n → u < n → Relation.ReflTransGen (fun a b => b < n ∧ 0 < f a b) v u)
    (hw : ∀ v u, v < n → u < n → 0 < f v u → w ≤ f v u) :
    ∀ (p : Nat) (lab : Nat → Nat), ((range n).image lab).card = p + 1 → w * p ≤ cutOf n f lab
  | 0, _, _ => by simp
  | p + 1, lab, hp => by
    obtain ⟨x, hx, y, hy, hxy⟩ := one_lt_card.mp (show 1 < ((range n).image lab).card by omega)
    obtain ⟨v, hv, rfl⟩ := mem_image.mp hx
    obtain ⟨u, hu, rfl⟩ := mem_image.mp hy
    rw [mem_range] at hv hu
    obtain ⟨a, b, ha, hb, hf, hab⟩ := (path_crosses (lab := lab) hv (hconn v u hv hu)).2 hxy
    have hle : w ≤ f a b := hw a b ha hb hf
    have himg : ((range n).image fun v => if lab v = lab b then lab a else lab v) = ((range n).image lab).erase (lab b) := by
      ext z
      simp only [mem_image, mem_erase, mem_range]
      constructor
      · rintro ⟨t, ht, rfl⟩
        split
        · exact ⟨hab, a, ha, rfl⟩
        · rename_i h; exact ⟨h, t, ht, rfl⟩
      · rintro ⟨hz, t, ht, rfl⟩
        exact ⟨t, ht, if_neg hz⟩
    have hcard : ((range n).image fun v => if lab v = lab b then lab a else lab v).card = p + 1 := by
      rw [himg, card_erase_of_mem (mem_image.mpr ⟨b, mem_range.mpr hb, rfl⟩), hp]; omega
    have ih := cutOf_floor hsym hconn hw p _ hcard
    rcases Nat.lt_trichotomy a b with h | h | h
    · have hm := cutOf_merge (f := f) lab hb ha h (Ne.symm hab) (lab a) (lab b) (Or.inr ⟨rfl, rfl⟩)
      rw [hsym b a hb ha] at hm
      rw [Nat.mul_succ]; omega
    · exact absurd (by rw [h]) hab
    · have hm := cutOf_merge (f := f) lab ha hb h hab (lab a) (lab b) (Or.inl ⟨rfl, rfl⟩)
      rw [Nat.mul_succ]; omega

/-- **C120.** A successful call on a connected graph, all of whose edges weigh `w` or more, that uses `p` of the labels
reports a cut of at least `p - 1` times `w`. -/
theorem C120_cut_floor {i : Input} (hv : i.Valid) (hconn : i.Linked) (hk : 2 ≤ i.numPartitions)
    (hk' : i.numPartitions < 2 ^ 32) {o : Options E.fp} (hc : 0 < o.numGlobalCuts) {out out' : Out}
    (h : partGraphRecursive E i (some o) out = (out', ok 1)) {w : Nat}
    (hw : ∀ v u, v < i.numVertices → u < i.numVertices → 0 < i.wt v u → w ≤ i.wt v u) :
    w * (i.partsUsed (nth out'.asg) - 1) ≤ out'.cut := by
  rw [(C38_valid_output hv hk hk' hc h).2.1]
  rcases Nat.eq_zero_or_pos (i.partsUsed (nth out'.asg)) with h0 | h0
  · rw [h0]; simp
  · exact cutOf_floor (f := i.wt) hv.symm hconn hw _ _ (by unfold Input.partsUsed at h0 ⊢; omega)

/-- **C120, zero cut.** The reported cut is zero exactly if no edge of positive weight joins different parts. -/
theorem C120_zero_cut {i : Input} (hv : i.Valid) (hk : 2 ≤ i.numPartitions)
    (hk' : i.numPartitions < 2 ^ 32) {o : Options E.fp} (hc : 0 < o.numGlobalCuts) {out out' : Out}
    (h : partGraphRecursive E i (some o) out = (out', ok 1)) :
    out'.cut = 0 ↔ ∀ v u, v < i.numVertices → u < i.numVertices → 0 < i.wt v u → nth out'.asg v = nth out'.asg u := by
  rw [(C38_valid_output hv hk hk' hc h).2.1]
  show cutOf i.numVertices i.wt (nth out'.asg) = 0 ↔ _
  unfold cutOf
  simp only [sum_eq_zero_iff, mem_range]
  constructor
  · intro h0
    have key : ∀ v u, v < i.numVertices → u < v → 0 < i.wt v u → nth out'.asg u = nth out'.asg v := by
      intro v u hvn huv hp
      by_contra hne
      have := h0 v hvn u huv
      rw [if_pos hne] at this
      omega
    intro v u hvn hun hp
    rcases Nat.lt_trichotomy v u with hlt | heq | hgt
    · exact key u v hun hlt (by rw [show i.wt u v = i.wt v u from hv.symm u v hun hvn]; exact hp)
    · rw [heq]
    · exact (key v u hvn hgt hp).symm
  · intro h0 v hvn u huv
    by_cases hp : 0 < i.wt v u
    · rw [if_neg (not_not.mpr (h0 v u hvn (by omega) hp).symm)]
    · split
      · omega
      · rfl

/-- If every part has a vertex then a linked graph is cut at least once less than there are parts. -/
theorem floor_of_all [Concrete.Log2Impl] {pq : PQImpl} {set : SetImpl} {rng : RngImpl} {i : Input} (hv : i.Valid)
    (hconn : i.Linked) (hk : 2 ≤ i.numPartitions) (hk' : i.numPartitions < 2 ^ 32)
    {o : Options Concrete.fp} (hc : 0 < o.numGlobalCuts) {out out' : Out}
    (h : partGraphRecursive (dblEnv pq set rng) i (some o) out = (out', ok 1))
    (hall : ∀ q, q < i.numPartitions → ∃ v, v < i.numVertices ∧ nth out'.asg v = q) :
    i.numPartitions ≤ out'.cut + 1 := by
  have hlt := (C38_valid_output hv hk hk' hc h).1
  have hf := C120_cut_floor hv hconn hk hk' hc h (w := 1) (fun _ _ _ _ h => h)
  have hp : i.partsUsed (nth out'.asg) = i.numPartitions := by
    unfold Input.partsUsed
    rw [show (range i.numVertices).image (nth out'.asg) = range i.numPartitions from ?_, card_range]
    ext q
    simp only [mem_image, mem_range]
    constructor
    · rintro ⟨v, hv, rfl⟩; exact hlt v hv
    · intro hq
      obtain ⟨v, h1, h2⟩ := hall q hq
      exact ⟨v, h1, h2⟩
  rw [hp] at hf
  omega

/-- With C81: a connected graph with weights as there is not divided into two, three or four parts for less than one edge
per further part. -/
theorem C120_all_parts [Concrete.Log2Impl] {pq : PQImpl} {set : SetImpl} {rng : RngImpl} {i : Input} (hv : i.Valid)
    (hconn : i.Linked) (hk : 2 ≤ i.numPartitions) (hk' : i.numPartitions ≤ 4)
    {o : Options Concrete.fp} (hc : 0 < o.numGlobalCuts) {out out' : Out}
    (h : partGraphRecursive (dblEnv pq set rng) i (some o) out = (out', ok 1)) (hW : 1000 ≤ i.totalWeight)
    (hW' : i.totalWeight < 4294967295)
    (hheavy : ∀ v, v < i.numVertices → 20 * weightAt i.vertexWeights v ≤ i.totalWeight) :
    i.numPartitions ≤ out'.cut + 1 := by
  exact floor_of_all hv hconn hk (by omega) hc h (C81_no_empty_part hv hk hk' hc h hW hW' hheavy)

/-- **C120, eight parts.** The same with eight parts, each vertex being at most a sixteenth of the total. -/
theorem C120_eight_parts [Concrete.Log2Impl] {pq : PQImpl} {set : SetImpl} {rng : RngImpl} {i : Input} (hv : i.Valid)
    (hconn : i.Linked) (hk : i.numPartitions = 8)
    {o : Options Concrete.fp} (hc : 0 < o.numGlobalCuts) {out out' : Out}
    (h : partGraphRecursive (dblEnv pq set rng) i (some o) out = (out', ok 1)) (hW : 400 ≤ i.totalWeight)
    (hW' : i.totalWeight < 4294967295)
    (hheavy : ∀ v, v < i.numVertices → 16 * weightAt i.vertexWeights v ≤ i.totalWeight) : 7 ≤ out'.cut := by
  have hall := C117_even_parts hv (Or.inr (Or.inr hk)) hc h (by rw [hk]; omega) hW' fun v hv => by
    have := hheavy v hv
    rw [hk]; omega
  have hf := floor_of_all hv hconn (by omega) (by omega) hc h fun q hq => by
    by_contra hno
    push Not at hno
    have h0 : i.partWeight (nth out'.asg) q = 0 := by
      unfold Input.partWeight
      refine sum_eq_zero fun v hv => ?_
      rw [if_neg (hno v (mem_range.mp hv))]
    have := (hall q hq).1
    rw [h0] at this
    omega
  omega

theorem tri2In_connected : Ex.tri2In.Linked := by
  have st : ∀ a b, b < 6 → 0 < Ex.tri2In.wt a b →
      Relation.ReflTransGen (fun a b => b < Ex.tri2In.numVertices ∧ 0 < Ex.tri2In.wt a b) a b :=
    fun a b hb hw => Relation.ReflTransGen.single ⟨hb, hw⟩
  have e01 := st 0 1 (by decide) (by decide +kernel)
  have e10 := st 1 0 (by decide) (by decide +kernel)
  have e02 := st 0 2 (by decide) (by decide +kernel)
  have e20 := st 2 0 (by decide) (by decide +kernel)
  have e23 := st 2 3 (by decide) (by decide +kernel)
  have e32 := st 3 2 (by decide) (by decide +kernel)
  have e34 := st 3 4 (by decide) (by decide +kernel)
  have e43 := st 4 3 (by decide) (by decide +kernel)
  have e35 := st 3 5 (by decide) (by decide +kernel)
  have e53 := st 5 3 (by decide) (by decide +kernel)
  have go : ∀ v, v < 6 → Relation.ReflTransGen (fun a b => b < Ex.tri2In.numVertices ∧ 0 < Ex.tri2In.wt a b) 0 v ∧
      Relation.ReflTransGen (fun a b => b < Ex.tri2In.numVertices ∧ 0 < Ex.tri2In.wt a b) v 0 := by
    intro v hv
    obtain rfl | rfl | rfl | rfl | rfl | rfl : v = 0 ∨ v = 1 ∨ v = 2 ∨ v = 3 ∨ v = 4 ∨ v = 5 := by omega
    · exact ⟨.refl, .refl⟩
    · exact ⟨e01, e10⟩
    · exact ⟨e02, e20⟩
    · exact ⟨e02.trans e23, e32.trans e20⟩
    · exact ⟨(e02.trans e23).trans e34, e43.trans (e32.trans e20)⟩
    · exact ⟨(e02.trans e23).trans e35, e53.trans (e32.trans e20)⟩
  exact fun v u hv hu => (go v hv).2.trans (go u hu).1

/-- The hypotheses are met, and the bound is attained: two parts, and a cut of 1. -/
example : Ex.tri2In.Valid ∧ Ex.tri2In.Linked ∧
    partGraphRecursive Concrete.env Ex.tri2In (some (Ex.cuts 3)) Ex.before =
      ({ cut := 1, asg := [0, 0, 0, 1, 1, 1, 9, 9] }, ok 1) ∧
    Ex.tri2In.partsUsed (nth [0, 0, 0, 1, 1, 1, 9, 9]) = 2 :=
  ⟨Ex.tri2In_valid, tri2In_connected, Ex.tri2In_call, by decide +kernel⟩

theorem ring20_connected : (ring20 4).Linked := by
  have hs : ∀ v, v < 19 → 0 < (ring20 4).wt v (v + 1) ∧ 0 < (ring20 4).wt (v + 1) v := by decide +kernel
  have go : ∀ v, v < 20 → Relation.ReflTransGen (fun a b => b < (ring20 4).numVertices ∧ 0 < (ring20 4).wt a b) 0 v ∧
      Relation.ReflTransGen (fun a b => b < (ring20 4).numVertices ∧ 0 < (ring20 4).wt a b) v 0 := by
    intro v
    induction v with
    | zero => exact fun _ => ⟨.refl, .refl⟩
    | succ v ih =>
      intro hv
      obtain ⟨h1, h2⟩ := ih (by omega)
      obtain ⟨k1, k2⟩ := hs v (by omega)
      exact ⟨h1.tail ⟨hv, k1⟩, .head ⟨show v < 20 by omega, k2⟩ h2⟩
  exact fun v u hv hu => (go v hv).2.trans (go u hu).1

/-- The hypotheses of `C120_all_parts` are met by a call for four parts of a ring, which is cut at least three times. -/
example : ∃ out', partGraphRecursive Concrete.env (ring20 4) (some (defaultOptions Concrete.fp))
    { cut := 0, asg := List.replicate 20 0 } = (out', ok 1) ∧ 4 ≤ out'.cut + 1 := by
  obtain ⟨out', h⟩ := returned (C80_up_to_eight Concrete.env.pq Concrete.env.set Concrete.env.rng ring20_valid4 (by decide)
    (by decide) rfl (by decide +kernel) (by decide +kernel) (by decide +kernel) (by decide +kernel)
    (o := defaultOptions Concrete.fp) (Or.inr rfl) (out := { cut := 0, asg := List.replicate 20 0 }) (by decide))
  exact ⟨out', h, C120_all_parts ring20_valid4 ring20_connected (by decide) (by decide) (by decide) h (by decide +kernel)
    (by decide +kernel) (by decide +kernel)⟩

/-- The hypotheses of `C120_eight_parts` are met by a call for eight parts of the ring. -/
example : ∃ out', partGraphRecursive Concrete.env (ring20 8) (some (defaultOptions Concrete.fp))
    { cut := 0, asg := List.replicate 20 0 } = (out', ok 1) ∧ 7 ≤ out'.cut := by
  obtain ⟨out', h⟩ := returned (C80_up_to_eight Concrete.env.pq Concrete.env.set Concrete.env.rng ring20_valid (by decide)
    (by decide) rfl (by decide +kernel) (by decide +kernel) (by decide +kernel) (by decide +kernel)
    (o := defaultOptions Concrete.fp) (Or.inr rfl) (out := { cut := 0, asg := List.replicate 20 0 }) (by decide))
  have hconn : (ring20 8).Linked := ring20_connected
  exact ⟨out', h, C120_eight_parts ring20_valid hconn rfl (by decide) h (by decide +kernel) (by decide +kernel)
    (by decide +kernel)⟩

end Poros
