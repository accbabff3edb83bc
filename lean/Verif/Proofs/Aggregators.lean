import Verif.Proofs.Matcher
import Verif.Proofs.Graph
namespace Poros
open Finset Res

/-- Joining `v` with the end of `q` is allowed by the weight limit. -/
def okPair (g : Graph) (maxW v u : Nat) : Prop := isAllowed maxW (uadd (g.vw v) (g.vw u)) = true

/-- One visit of a matching aggregator. -/
def Joins (g : Graph) (maxW v : Nat) (f f' : Nat → Option Nat) : Prop :=
  (f' = f ∧ (f v = none → ∀ q ∈ g.nbrs v, f q.1 = none → ¬ okPair g maxW v q.1)) ∨
  (∃ q ∈ g.nbrs v, f v = none ∧ f q.1 = none ∧ okPair g maxW v q.1 ∧ f' = MOp.spec f (.mate v q.1))

/-- What holds of the matching after visiting the vertices `pre`. -/
structure RunInv (g : Graph) (maxW : Nat) (pre : List Nat) (f : Nat → Option Nat) : Prop where
  adj : ∀ v u, v < g.nv → f v = some u → g.Adj v u ∨ g.Adj u v
  allowed : ∀ v u, v < g.nv → f v = some u → okPair g maxW v u
  maximal : ∀ v, v ∈ pre → f v = none → ∀ q ∈ g.nbrs v, f q.1 = none → ¬ okPair g maxW v q.1

theorem okPair_comm {g : Graph} {maxW v u : Nat} (h : okPair g maxW v u) : okPair g maxW u v := by
  unfold okPair at *
  rwa [show uadd (g.vw u) (g.vw v) = uadd (g.vw v) (g.vw u) by unfold uadd; rw [Nat.add_comm]]

theorem RunInv.step {g : Graph} {maxW v : Nat} {pre : List Nat} {f f' : Nat → Option Nat}
    (h : RunInv g maxW pre f) (hj : Joins g maxW v f f') : RunInv g maxW (pre ++ [v]) f' := by
  rcases hj with ⟨rfl, hm⟩ | ⟨q, hq, hv, hu, hok, rfl⟩
  · refine ⟨h.adj, h.allowed, ?_⟩
    intro x hx
    rcases List.mem_append.mp hx with hx | hx
    · exact h.maximal x hx
    · rw [List.mem_singleton] at hx; subst hx; exact hm
  · refine ⟨?_, ?_, ?_⟩
    · intro x y hx hxy
      simp only [MOp.spec] at hxy
      split at hxy
      · cases hxy; subst_vars; exact Or.inl ⟨q.2, hq⟩
      · split at hxy
        · cases hxy; subst_vars; exact Or.inr ⟨q.2, hq⟩
        · exact h.adj x y hx hxy
    · intro x y hx hxy
      simp only [MOp.spec] at hxy
      split at hxy
      · cases hxy; subst_vars; exact hok
      · split at hxy
        · cases hxy; subst_vars; exact okPair_comm hok
        · exact h.allowed x y hx hxy
    · intro x hx hn q' hq' hn'
      have key : ∀ y, MOp.spec f (.mate v q.1) y = none → y ≠ v ∧ f y = none := by
        intro y hy
        simp only [MOp.spec] at hy
        split at hy
        · cases hy
        · split at hy
          · cases hy
          · rename_i h1 h2; exact ⟨h1, hy⟩
      obtain ⟨hxv, hfx⟩ := key x hn
      obtain ⟨-, hfy⟩ := key q'.1 hn'
      rcases List.mem_append.mp hx with hx | hx
      · exact h.maximal x hx hfx q' hq' hfy
      · rw [List.mem_singleton] at hx; exact absurd hx hxv

variable {g : Graph} {f : Nat → Option Nat} {m : Matcher}

theorem firstMate_spec (hg : g.WF) {maxW : Nat} {order : List Nat} (ho : order.length = g.nv)
    (hm : MatchOK g.nv f m) {vw : Nat} (l : List (Nat × Nat)) (hl : ∀ q ∈ l, q.1 < g.nv) :
    ∃ r, firstMate g (!g.unitVtx) maxW order m vw l = ok r ∧
      (∀ u, r = some u → (∃ q ∈ l, q.1 = u) ∧ f u = none ∧ isAllowed maxW (uadd vw (g.vw u)) = true) ∧
      (r = none → ∀ q ∈ l, f q.1 = none → ¬ isAllowed maxW (uadd vw (g.vw q.1)) = true) := by
  induction l with
  | nil => exact ⟨none, rfl, by simp, by simp⟩
  | cons q qs ih =>
    have hq := hl q (by simp)
    have hnv := hg.nv_lt
    unfold firstMate
    rw [Graph.vwgtOf_eq hg hq, ok_bind, hm.isMatched_eq (by omega) hq, ok_bind]
    by_cases hc : f q.1 = none ∧ isAllowed maxW (uadd vw (g.vw q.1)) = true
    · rw [if_pos (by simp [hc.1, hc.2]), rd_of_lt (by omega), ok_bind]
      refine ⟨some q.1, rfl, ?_, by simp⟩
      intro u hu; cases hu
      exact ⟨⟨q, by simp, rfl⟩, hc.1, hc.2⟩
    · rw [if_neg (by
        intro h
        simp only [Bool.and_eq_true, Bool.not_eq_true', Option.isSome_eq_false_iff,
          Option.isNone_iff_eq_none] at h
        exact hc h)]
      obtain ⟨r, h1, h2, h3⟩ := ih fun x hx => hl x (by simp [hx])
      refine ⟨r, h1, ?_, ?_⟩
      · intro u hu
        obtain ⟨⟨x, hx, hxu⟩, h⟩ := h2 u hu
        exact ⟨⟨x, by simp [hx], hxu⟩, h⟩
      · intro hr x hx
        rcases List.mem_cons.mp hx with rfl | hx
        · exact fun a b => hc ⟨a, b⟩
        · exact h3 hr x hx

theorem rmStep_spec (hg : g.WF) (hnl : g.NoLoop) {maxW : Nat} {order : List Nat} (ho : order.length = g.nv)
    (hm : MatchOK g.nv f m) {v : Nat} (hv : v < g.nv) :
    ∃ m' f', rmStep g (!g.unitVtx) maxW order m v = ok m' ∧ MatchOK g.nv f' m' ∧ Joins g maxW v f f' := by
  have hnv := hg.nv_lt
  unfold rmStep
  rw [hm.isMatched_eq (by omega) hv, ok_bind]
  cases hf : f v with
  | some u =>
    simp only [Option.isSome_some, if_true]
    exact ⟨m, f, rfl, hm, Or.inl ⟨rfl, by simp [hf]⟩⟩
  | none =>
    simp only [Option.isSome_none, Bool.false_eq_true, if_false]
    rw [Graph.vwgtOf_eq hg hv, ok_bind, Graph.nbrsOf_false_eq hg hv, ok_bind]
    obtain ⟨r, h1, h2, h3⟩ := firstMate_spec hg ho hm (maxW := maxW) (vw := g.vw v)
      ((g.nbrs v).map fun q => (q.1, 1)) (by
        intro q hq
        obtain ⟨x, hx, rfl⟩ := List.mem_map.mp hq
        exact (Graph.nbrs_lt hg hv hx : x.1 < g.nv))
    rw [h1, ok_bind]
    cases r with
    | none =>
      refine ⟨m, f, rfl, hm, Or.inl ⟨rfl, fun _ q hq hn => ?_⟩⟩
      exact h3 rfl (q.1, 1) (List.mem_map.mpr ⟨q, hq, rfl⟩) hn
    | some u =>
      obtain ⟨⟨x, hx, hxu⟩, hfu, hok⟩ := h2 u rfl
      obtain ⟨q, hq, rfl⟩ := List.mem_map.mp hx
      simp only at hxu
      subst hxu
      obtain ⟨m', e1, e2, -⟩ := hm.mate hv (Graph.nbrs_lt hg hv hq) (Ne.symm (hnl v hv q hq)) hf hfu
      exact ⟨m', _, e1, e2, Or.inr ⟨q, hq, hf, hfu, hok, rfl⟩⟩

/-- Invariant of the edge loop of heavy edge matching after the edges `l`. -/
def Heaviest (g : Graph) (maxW vw : Nat) (f : Nat → Option Nat) (l : List (Nat × Nat))
    (best : Option (Nat × Nat)) : Prop :=
  (∀ b, best = some b → b ∈ l ∧ f b.1 = none ∧ isAllowed maxW (uadd vw (g.vw b.1)) = true ∧
    ∀ q ∈ l, f q.1 = none → isAllowed maxW (uadd vw (g.vw q.1)) = true → q.2 ≤ b.2) ∧
  (best = none → ∀ q ∈ l, f q.1 = none → ¬ isAllowed maxW (uadd vw (g.vw q.1)) = true)

theorem heavyMate_spec (hg : g.WF) {maxW : Nat} (hm : MatchOK g.nv f m) {vw : Nat} (l : List (Nat × Nat))
    (hl : ∀ q ∈ l, q.1 < g.nv) :
    Sat (l.foldlM (heavyMate g (!g.unitVtx) maxW m vw) none) (Heaviest g maxW vw f l) := by
  have hnv := hg.nv_lt
  refine Post_foldlM (P := Heaviest g maxW vw f) ⟨by simp, by simp⟩ ?_
  intro pre q post best he ⟨h1, h2⟩
  have hq := hl q (by simp [he])
  unfold heavyMate
  rw [Graph.vwgtOf_eq hg hq, ok_bind, hm.isMatched_eq (by omega) hq, ok_bind]
  by_cases hc : f q.1 = none ∧ isAllowed maxW (uadd vw (g.vw q.1)) = true
  · rw [if_pos (by simp [hc.1, hc.2])]
    cases best with
    | none =>
      refine ⟨?_, by simp⟩
      intro b hb; cases hb
      refine ⟨by simp, hc.1, hc.2, ?_⟩
      intro x hx hx1 hx2
      rcases List.mem_append.mp hx with hx | hx
      · exact absurd hx2 (h2 rfl x hx hx1)
      · rw [List.mem_singleton] at hx; rw [hx]
    | some b =>
      obtain ⟨b1, b2, b3, b4⟩ := h1 b rfl
      simp only
      by_cases hlt : b.2 < q.2
      · rw [if_pos hlt]
        refine ⟨?_, by simp⟩
        intro c hcc; cases hcc
        refine ⟨by simp, hc.1, hc.2, ?_⟩
        intro x hx hx1 hx2
        rcases List.mem_append.mp hx with hx | hx
        · have := b4 x hx hx1 hx2; omega
        · rw [List.mem_singleton] at hx; rw [hx]
      · rw [if_neg hlt]
        refine ⟨?_, by simp⟩
        intro c hcc; cases hcc
        refine ⟨by simp [b1], b2, b3, ?_⟩
        intro x hx hx1 hx2
        rcases List.mem_append.mp hx with hx | hx
        · exact b4 x hx hx1 hx2
        · rw [List.mem_singleton] at hx; rw [hx]; omega
  · rw [if_neg (by
      intro h
      simp only [Bool.and_eq_true, Bool.not_eq_true', Option.isSome_eq_false_iff,
        Option.isNone_iff_eq_none] at h
      exact hc h)]
    refine ⟨?_, ?_⟩
    · intro b hb
      obtain ⟨b1, b2, b3, b4⟩ := h1 b hb
      refine ⟨by simp [b1], b2, b3, ?_⟩
      intro x hx hx1 hx2
      rcases List.mem_append.mp hx with hx | hx
      · exact b4 x hx hx1 hx2
      · rw [List.mem_singleton] at hx; subst hx; exact absurd ⟨hx1, hx2⟩ hc
    · intro hb x hx hx1 hx2
      rcases List.mem_append.mp hx with hx | hx
      · exact h2 hb x hx hx1 hx2
      · rw [List.mem_singleton] at hx; subst hx; exact hc ⟨hx1, hx2⟩

theorem shemStep_spec (hg : g.WF) (hnl : g.NoLoop) (hw : g.adjwgt.length = g.ne) {maxW : Nat}
    (hm : MatchOK g.nv f m) {v : Nat} (hv : v < g.nv) :
    ∃ m' f', shemStep g (!g.unitVtx) maxW m v = ok m' ∧ MatchOK g.nv f' m' ∧ Joins g maxW v f f' ∧
      (f v = none → f' v ≠ none → ∃ q ∈ g.nbrs v, f' v = some q.1 ∧ f q.1 = none ∧ okPair g maxW v q.1 ∧
        ∀ q' ∈ g.nbrs v, f q'.1 = none → okPair g maxW v q'.1 → q'.2 ≤ q.2) := by
  have hnv := hg.nv_lt
  unfold shemStep
  rw [hm.isMatched_eq (by omega) hv, ok_bind]
  cases hf : f v with
  | some u =>
    simp only [Option.isSome_some, if_true]
    exact ⟨m, f, rfl, hm, Or.inl ⟨rfl, by simp [hf]⟩, by simp⟩
  | none =>
    simp only [Option.isSome_none, Bool.false_eq_true, if_false]
    rw [Graph.vwgtOf_eq hg hv, ok_bind, Graph.nbrsOf_true_eq hg hw hv, ok_bind]
    obtain ⟨r, h1, h2, h3⟩ := sat_iff.mp (heavyMate_spec hg hm (maxW := maxW) (vw := g.vw v)
      (g.nbrs v) (fun q hq => Graph.nbrs_lt hg hv hq))
    rw [h1, ok_bind]
    cases r with
    | none =>
      refine ⟨m, f, rfl, hm, Or.inl ⟨rfl, fun _ q hq hn => ?_⟩, fun _ h => absurd hf h⟩
      exact h3 rfl q hq hn
    | some q =>
      obtain ⟨hq, hfu, hok, hmax⟩ := h2 q rfl
      obtain ⟨m', e1, e2, -⟩ := hm.mate hv (Graph.nbrs_lt hg hv hq) (Ne.symm (hnl v hv q hq)) hf hfu
      refine ⟨m', _, e1, e2, Or.inr ⟨q, hq, hf, hfu, hok, rfl⟩, fun _ _ => ⟨q, hq, ?_, hfu, hok, hmax⟩⟩
      simp [MOp.spec]

/-- Matching loops over any step with the visiting behaviour. -/
theorem matchLoop_spec {maxW : Nat} {step : Matcher → Nat → Res Matcher} {order : List Nat}
    (ho : order.Perm (List.range g.nv))
    (hstep : ∀ m f v, MatchOK g.nv f m → v < g.nv →
      ∃ m' f', step m v = ok m' ∧ MatchOK g.nv f' m' ∧ Joins g maxW v f f') :
    Sat (order.foldlM step (Matcher.new g.nv)) (fun m => ∃ f, MatchOK g.nv f m ∧
      RunInv g maxW (List.range g.nv) f) := by
  refine (Post_foldlM (P := fun pre m => ∃ f, MatchOK g.nv f m ∧ RunInv g maxW pre f) ?_ ?_).mono ?_
  · exact ⟨_, MatchOK.new g.nv, ⟨by simp, by simp, by simp⟩⟩
  · rintro pre v post m he ⟨f, h1, h2⟩
    have hv : v < g.nv := by
      have : v ∈ order := by simp [he]
      simpa using ho.mem_iff.mp this
    obtain ⟨m', f', e1, e2, e3⟩ := hstep m f v h1 hv
    rw [e1]
    exact ⟨f', e2, h2.step e3⟩
  · rintro m ⟨f, h1, h2⟩
    exact ⟨f, h1, h2.adj, h2.allowed, fun v hv => h2.maximal v (ho.mem_iff.mpr hv)⟩

/-- The result of a matching aggregator comes from a matching with the run invariant. -/
def AggFrom (g : Graph) (maxW : Nat) (a : Aggregation) : Prop :=
  ∃ f, IsMatching g.nv f ∧ BuiltFrom g.nv f a ∧ RunInv g maxW (List.range g.nv) f

theorem rmAggregate_spec (E : Env) (hg : g.WF) (hnl : g.NoLoop) (maxW : Nat) (r : E.rng.S) :
    Sat (rmAggregate E maxW g r) (fun o => AggFrom g maxW o.1) := by
  have hnv := hg.nv_lt
  have ho := E.rng.perm_perm r g.nv
  unfold rmAggregate randomOrder
  simp only
  refine (matchLoop_spec (g := g) (maxW := maxW) ho fun m f v h1 h2 =>
    rmStep_spec hg hnl (by rw [ho.length_eq]; simp) h1 h2).bind ?_
  rintro m ⟨f, h1, h2⟩
  refine (build_spec h1 (by omega)).bind fun a ha => ?_
  exact ⟨f, h1.isM, ha, h2⟩

theorem degreeOf_eq (hg : g.WF) {v : Nat} (hv : v < g.nv) : g.degreeOf v = ok (g.nbrs v).length := by
  have h1 := hg.xadj_mono v hv
  have h2 := Graph.xadj_le_ne hg (v := v + 1) (by omega)
  have h3 := hg.ne_lt
  unfold Graph.degreeOf
  rw [rd_of_lt (by rw [hg.xadj_len]; omega), ok_bind, rd_of_lt (by rw [hg.xadj_len]; omega), ok_bind,
    Graph.nbrs_length, usub_eq h1 (by omega)]

theorem degrees_eq (hg : g.WF) : degrees g = ok ((List.range g.nv).map fun v => (g.nbrs v).length) :=
  mapM_ok_eq_map fun v hv => degreeOf_eq hg (by simpa using hv)

theorem shemAggregate_spec (E : Env) (hg : g.WF) (hnl : g.NoLoop) (hw : g.adjwgt.length = g.ne) (maxW : Nat)
    (r : E.rng.S) : Sat (shemAggregate E maxW g r) (fun o => AggFrom g maxW o.1) := by
  have hnv := hg.nv_lt
  unfold shemAggregate ascendingRandom
  rw [degrees_eq hg, ok_bind, ok_bind]
  have ho := E.rng.sortRandom_perm r ((List.range g.nv).map fun v => (g.nbrs v).length)
  rw [List.length_map, List.length_range] at ho
  simp only
  refine (matchLoop_spec (g := g) (maxW := maxW) ho fun m f v h1 h2 => ?_).bind ?_
  · obtain ⟨m', f', e1, e2, e3, -⟩ := shemStep_spec hg hnl hw (maxW := maxW) h1 h2
    exact ⟨m', f', e1, e2, e3⟩
  · rintro m ⟨f, h1, h2⟩
    refine (build_spec h1 (by omega)).bind fun a ha => ?_
    exact ⟨f, h1.isM, ha, h2⟩

theorem aggregate_spec (E : Env) (s : Scheme) (hg : g.WF) (hnl : g.NoLoop) (maxW : Nat) (r : E.rng.S) :
    Sat (aggregate E s maxW g r) (fun o => AggFrom g maxW o.1) := by
  unfold aggregate
  cases s with
  | randomMatching => exact rmAggregate_spec E hg hnl maxW r
  | sortedHeavyEdge =>
    simp only [shemrmAggregate]
    split
    · exact rmAggregate_spec E hg hnl maxW r
    · rename_i h
      exact shemAggregate_spec E hg hnl (hg.adjwgt_len (by simpa using h)) maxW r

end Poros
