import Verif.Proofs.Api
import Mathlib.Algebra.BigOperators.Ring.Finset
/-
Two runs side by side: the same graph with all edge weights multiplied by a positive number.
-/
namespace Poros
open Res Finset

/-! ### two runs -/

/-- If both runs return values, the values are related. -/
def Lock {α β : Type} (R : α → β → Prop) (r : Res α) (r' : Res β) : Prop := ∀ a b, r = ok a → r' = ok b → R a b

namespace Lock
variable {α β γ δ σ τ : Type}

theorem ok {R : α → β → Prop} {a : α} {b : β} (h : R a b) : Lock R (Res.ok a) (Res.ok b) := by
  intro x y hx hy
  cases hx; cases hy; exact h

theorem eq {r r' : Res α} (h : r' = r) : Lock (fun a b => b = a) r r' := by
  subst h
  intro x y hx hy
  rw [hx] at hy; cases hy; rfl

theorem ub_left {R : α → β → Prop} {r' : Res β} : Lock R (ub : Res α) r' := by intro a b h; cases h

theorem bind {R : α → β → Prop} {S : γ → δ → Prop} {r : Res α} {r' : Res β} {f : α → Res γ} {f' : β → Res δ}
    (h : Lock R r r') (hf : ∀ a b, r = Res.ok a → r' = Res.ok b → R a b → Lock S (f a) (f' b)) :
    Lock S (r >>= f) (r' >>= f') := by
  intro x y hx hy
  obtain ⟨a, ha, hx⟩ := bind_eq_ok hx
  obtain ⟨b, hb, hy⟩ := bind_eq_ok hy
  exact hf a b ha hb (h a b ha hb) x y hx hy

/-- The same computation on both sides. -/
theorem same {S : γ → δ → Prop} {r : Res α} {f : α → Res γ} {f' : α → Res δ}
    (hf : ∀ a, r = Res.ok a → Lock S (f a) (f' a)) : Lock S (r >>= f) (r >>= f') :=
  (Lock.eq rfl).bind fun a b ha _ e => by subst e; exact hf b ha

theorem mono {R S : α → β → Prop} {r : Res α} {r' : Res β} (h : Lock R r r')
    (hs : ∀ a b, r = Res.ok a → r' = Res.ok b → R a b → S a b) : Lock S r r' :=
  fun a b ha hb => hs a b ha hb (h a b ha hb)

theorem foldlM_map {R : σ → τ → Prop} {f : σ → α → Res σ} {f' : τ → β → Res τ} {m : α → β} {l : List α}
    (h : ∀ s t x, x ∈ l → R s t → Lock R (f s x) (f' t (m x))) :
    ∀ {s : σ} {t : τ}, R s t → Lock R (l.foldlM f s) ((l.map m).foldlM f' t) := by
  induction l with
  | nil => intro s t h0; exact Lock.ok h0
  | cons x xs ih =>
    intro s t h0
    rw [List.map_cons, List.foldlM_cons, List.foldlM_cons]
    exact (h s t x (by simp) h0).bind fun a b _ _ hab => ih (fun s t y hy => h s t y (by simp [hy])) hab

theorem foldlM {R : σ → τ → Prop} {f : σ → α → Res σ} {f' : τ → α → Res τ} {l : List α}
    (h : ∀ s t x, x ∈ l → R s t → Lock R (f s x) (f' t x)) {s : σ} {t : τ} (h0 : R s t) :
    Lock R (l.foldlM f s) (l.foldlM f' t) := by
  have := foldlM_map (R := R) (f := f) (f' := f') (m := id) (l := l) h h0
  rwa [List.map_id] at this

/-- Loop rule, invariant over the processed prefix. -/
theorem foldlM_pre {f : σ → α → Res σ} {f' : τ → β → Res τ} {m : α → β} {l : List α} (R : List α → σ → τ → Prop)
    (h : ∀ pre x post s t, l = pre ++ x :: post → R pre s t → Lock (R (pre ++ [x])) (f s x) (f' t (m x)))
    {s : σ} {t : τ} (h0 : R [] s t) : Lock (R l) (l.foldlM f s) ((l.map m).foldlM f' t) := by
  suffices H : ∀ (post pre : List α) (s : σ) (t : τ), l = pre ++ post → R pre s t →
      Lock (R l) (post.foldlM f s) ((post.map m).foldlM f' t) from H l [] s t rfl h0
  intro post
  induction post with
  | nil => intro pre s t hl hp; simp at hl; subst hl; exact Lock.ok hp
  | cons x xs ih =>
    intro pre s t hl hp
    rw [List.map_cons, List.foldlM_cons, List.foldlM_cons]
    exact (h pre x xs s t hl hp).bind fun a b _ _ hab => ih (pre ++ [x]) a b (by simp [hl]) hab

theorem mapM {R : γ → δ → Prop} {f : α → Res γ} {f' : α → Res δ} {l : List α}
    (h : ∀ x, x ∈ l → Lock R (f x) (f' x)) : Lock (List.Forall₂ R) (l.mapM f) (l.mapM f') := by
  induction l with
  | nil => exact Lock.ok .nil
  | cons x xs ih =>
    rw [List.mapM_cons, List.mapM_cons]
    refine (h x (by simp)).bind fun a b _ _ hab => ?_
    refine (ih fun y hy => h y (by simp [hy])).bind fun as bs _ _ hs => ?_
    exact Lock.ok (.cons hab hs)

end Lock

/-! ### the scaled graph -/

/-- `g'` is `g` with all edge weights multiplied by `c`. -/
structure Scaled (c : Nat) (g g' : Graph) : Prop where
  eq : g' = { g with adjwgt := g'.adjwgt, totEdge := g'.totEdge, unitEdge := g'.unitEdge }
  ew : ∀ e, e < g.ne → g'.ew e = c * g.ew e

/-- A scaled (destination, weight) pair. -/
def sc (c : Nat) (q : Nat × Nat) : Nat × Nat := (q.1, c * q.2)

theorem nth_scale (c : Nat) (l : List Nat) (e : Nat) : nth (l.map (c * ·)) e = c * nth l e := by
  by_cases h : e < l.length
  · rw [nth_map h]
  · rw [nth_of_le (by simp; omega), nth_of_le (by omega)]; rfl

namespace Scaled
variable {c : Nat} {g g' : Graph}

theorem nv (h : Scaled c g g') : g'.nv = g.nv := by rw [h.eq]
theorem ne (h : Scaled c g g') : g'.ne = g.ne := by rw [h.eq]
theorem totVtx (h : Scaled c g g') : g'.totVtx = g.totVtx := by rw [h.eq]
theorem unitVtx (h : Scaled c g g') : g'.unitVtx = g.unitVtx := by rw [h.eq]
theorem xadj (h : Scaled c g g') : g'.xadj = g.xadj := by rw [h.eq]
theorem adjncy (h : Scaled c g g') : g'.adjncy = g.adjncy := by rw [h.eq]
theorem vwgt (h : Scaled c g g') : g'.vwgt = g.vwgt := by rw [h.eq]

theorem adjwgt (h : Scaled c g g') (hg : g.WF) (hg' : g'.WF) (hu : g.unitEdge = false) (hu' : g'.unitEdge = false) :
    g'.adjwgt = g.adjwgt.map (c * ·) := by
  have hl := hg.adjwgt_len hu
  have hl' := hg'.adjwgt_len hu'
  refine list_ext_nth (by rw [List.length_map, hl, hl', h.ne]) fun e he => ?_
  rw [nth_scale]
  rw [hl', h.ne] at he
  have := h.ew e he
  unfold Graph.ew at this
  rw [hu, hu'] at this
  exact this

theorem vw (h : Scaled c g g') (v : Nat) : g'.vw v = g.vw v := by
  unfold Graph.vw; rw [h.unitVtx, h.vwgt]

theorem nbrs (h : Scaled c g g') (hg : g.WF) {v : Nat} (hv : v < g.nv) : g'.nbrs v = (g.nbrs v).map (sc c) := by
  unfold Graph.nbrs
  rw [List.map_map, h.xadj, h.adjncy]
  refine List.map_congr_left fun i hi => ?_
  have hle := Graph.xadj_le_ne hg (v := v + 1) (by omega)
  have hi := List.mem_range'.mp hi
  show (_, g'.ew _) = (_, c * g.ew _)
  rw [h.ew _ (by omega)]

theorem wsum (h : Scaled c g g') (hg : g.WF) {v : Nat} (hv : v < g.nv) (p : Nat → Bool) :
    g'.wsum v p = c * g.wsum v p := by
  unfold Graph.wsum
  rw [h.nbrs hg hv, List.map_map, ← List.sum_map_mul_left]
  congr 1
  refine List.map_congr_left fun q _ => ?_
  show (if p q.1 = true then c * q.2 else 0) = c * (if p q.1 = true then q.2 else 0)
  split <;> simp

theorem wt (h : Scaled c g g') (hg : g.WF) {v : Nat} (hv : v < g.nv) (u : Nat) : g'.wt v u = c * g.wt v u :=
  h.wsum hg hv _

theorem external (h : Scaled c g g') (hg : g.WF) (lab : Nat → Nat) {v : Nat} (hv : v < g.nv) :
    externalWeight g' lab v = c * externalWeight g lab v := by
  unfold externalWeight
  rw [h.nv, Finset.mul_sum]
  refine Finset.sum_congr rfl fun u _ => ?_
  split
  · exact h.wt hg hv u
  · rfl

theorem internal (h : Scaled c g g') (hg : g.WF) (lab : Nat → Nat) {v : Nat} (hv : v < g.nv) :
    internalWeight g' lab v = c * internalWeight g lab v := by
  unfold internalWeight
  rw [h.nv, Finset.mul_sum]
  refine Finset.sum_congr rfl fun u _ => ?_
  split
  · exact h.wt hg hv u
  · rfl

theorem cut (h : Scaled c g g') (hg : g.WF) (lab : Nat → Nat) : cutWeight g' lab = c * cutWeight g lab := by
  unfold cutWeight
  rw [h.nv, Finset.mul_sum]
  refine Finset.sum_congr rfl fun v hv => ?_
  rw [Finset.mul_sum]
  refine Finset.sum_congr rfl fun u _ => ?_
  split
  · exact h.wt hg (Finset.mem_range.mp hv) u
  · rfl

theorem sumEdge (h : Scaled c g g') (hg : g.WF) : g'.sumEdge = c * g.sumEdge := by
  unfold Graph.sumEdge
  rw [h.nv, Finset.mul_sum]
  exact Finset.sum_congr rfl fun v hv => h.wsum hg (Finset.mem_range.mp hv) _

theorem partWeight (h : Scaled c g g') (lab : Nat → Nat) (q : Nat) : partWeight g' lab q = partWeight g lab q := by
  unfold Poros.partWeight
  rw [h.nv]
  refine Finset.sum_congr rfl fun v _ => ?_
  rw [h.vw]

/-- The loops over the edges of a vertex see the same destinations and scaled weights. -/
theorem nbrsOf_true (h : Scaled c g g') (hg : g.WF) (hg' : g'.WF) (hu : g.unitEdge = false) (hu' : g'.unitEdge = false)
    (v : Nat) :
    g'.nbrsOf true v = g.nbrsOf true v >>= fun l => ok (l.map (sc c)) := by
  unfold Graph.nbrsOf Graph.edgesOf Graph.dest Graph.ewgt
  rw [h.xadj, h.adjncy, h.adjwgt hg hg' hu hu']
  simp only [if_true, bind_assoc]
  refine bind_congr fun b => bind_congr fun e => ?_
  split
  · simp only [ok_bind]
    generalize List.range' b (e - b) = l
    induction l with
    | nil => rfl
    | cons x xs ih =>
      rw [List.mapM_cons, List.mapM_cons, ih]
      have : rd (g.adjwgt.map (c * ·)) x = rd g.adjwgt x >>= fun w => ok (c * w) := by
        by_cases hx : x < g.adjwgt.length
        · rw [rd_of_lt hx, rd_of_lt (by simpa using hx), nth_map hx]; rfl
        · rw [rd_of_le (l := g.adjwgt) (by omega), rd_of_le (by rw [List.length_map]; omega)]; rfl
      rw [this]
      simp only [bind_assoc, ok_bind]
      refine bind_congr fun u => bind_congr fun w => bind_congr fun l => rfl
  · rfl

theorem nbrsOf_false (h : Scaled c g g') (v : Nat) : g'.nbrsOf false v = g.nbrsOf false v := by
  rw [h.eq]; rfl

theorem vwgtOf (h : Scaled c g g') (has : Bool) (v : Nat) : g'.vwgtOf has v = g.vwgtOf has v := by
  rw [h.eq]; rfl

end Scaled

/-! ### aggregation -/

variable {E : Env}

theorem heavyMate_scale {c : Nat} (hc : 0 < c) {g g' : Graph} (h : Scaled c g g') (has : Bool) (maxW : Nat) (m : Matcher)
    (vw : Nat) (best : Option (Nat × Nat)) (q : Nat × Nat) :
    heavyMate g' has maxW m vw (best.map (sc c)) (sc c q) =
      heavyMate g has maxW m vw best q >>= fun b => ok (b.map (sc c)) := by
  unfold heavyMate
  simp only [h.vwgtOf, bind_assoc]
  refine bind_congr fun uw => bind_congr fun isM => ?_
  split
  · cases best with
    | none => rfl
    | some b =>
      simp only [Option.map_some, sc]
      by_cases hlt : b.2 < q.2
      · have h2 : c * b.2 < c * q.2 := (Nat.mul_lt_mul_left hc).mpr hlt
        simp only [hlt, h2, if_true]; rfl
      · have h2 : ¬ c * b.2 < c * q.2 := fun h => hlt ((Nat.mul_lt_mul_left hc).mp h)
        simp only [hlt, h2, if_false]; rfl
  · rfl

theorem heavyMates_scale {c : Nat} (hc : 0 < c) {g g' : Graph} (h : Scaled c g g') (has : Bool) (maxW : Nat) (m : Matcher)
    (vw : Nat) (l : List (Nat × Nat)) : ∀ (best : Option (Nat × Nat)),
    (l.map (sc c)).foldlM (heavyMate g' has maxW m vw) (best.map (sc c)) =
      l.foldlM (heavyMate g has maxW m vw) best >>= fun b => ok (b.map (sc c)) := by
  induction l with
  | nil => intro best; rfl
  | cons q l ih =>
    intro best
    rw [List.map_cons, List.foldlM_cons, List.foldlM_cons, heavyMate_scale hc h, bind_assoc, bind_assoc]
    refine bind_congr fun b => ?_
    rw [ok_bind, ih]

theorem shemStep_scale {c : Nat} (hc : 0 < c) {g g' : Graph} (h : Scaled c g g') (hg : g.WF) (hg' : g'.WF)
    (hu : g.unitEdge = false) (hu' : g'.unitEdge = false) (has : Bool) (maxW : Nat) :
    shemStep g' has maxW = shemStep g has maxW := by
  funext m v
  unfold shemStep
  refine bind_congr fun isM => ?_
  split
  · rfl
  · rw [h.vwgtOf, h.nbrsOf_true hg hg' hu hu']
    refine bind_congr fun vw => ?_
    rw [bind_assoc]
    refine bind_congr fun ns => ?_
    rw [ok_bind, show (none : Option (Nat × Nat)) = Option.map (sc c) none from rfl, heavyMates_scale hc h, bind_assoc]
    refine bind_congr fun best => ?_
    cases best <;> rfl

theorem firstMate_scale {c : Nat} {g g' : Graph} (h : Scaled c g g') (has : Bool) (maxW : Nat) (order : List Nat)
    (m : Matcher) (vw : Nat) : ∀ qs, firstMate g' has maxW order m vw qs = firstMate g has maxW order m vw qs
  | [] => rfl
  | q :: qs => by
    unfold firstMate
    simp only [firstMate_scale h has maxW order m vw qs, h.vwgtOf]

theorem aggregate_scale {c : Nat} (hc : 0 < c) {g g' : Graph} (h : Scaled c g g') (hg : g.WF) (hg' : g'.WF) (s : Scheme)
    (hf : s = .sortedHeavyEdge → g'.unitEdge = g.unitEdge) (maxW : Nat) (r : E.rng.S) :
    aggregate E s maxW g' r = aggregate E s maxW g r := by
  have hr : rmAggregate E maxW g' r = rmAggregate E maxW g r := by
    unfold rmAggregate randomOrder
    have : ∀ has order, rmStep g' has maxW order = rmStep g has maxW order := by
      intro has order
      funext m v
      unfold rmStep
      simp only [firstMate_scale h, h.vwgtOf, h.nbrsOf_false]
    rw [h.nv, h.unitVtx]
    simp only [this]
  cases s with
  | randomMatching => exact hr
  | sortedHeavyEdge =>
    show shemrmAggregate E maxW g' r = shemrmAggregate E maxW g r
    unfold shemrmAggregate
    rw [hf rfl]
    split
    · exact hr
    · rename_i hu
      have hu : g.unitEdge = false := by simpa using hu
      unfold shemAggregate
      rw [shemStep_scale hc h hg hg' hu (by rw [hf rfl]; exact hu), h.unitVtx, h.nv]
      have : degrees g' = degrees g := by rw [h.eq]; rfl
      unfold ascendingRandom
      rw [this]

end Poros
