import Verif.SpecMatch
import Verif.Proofs.Aggregators
import Verif.Proofs.FM
namespace Poros
open Finset Res

variable {g : Graph} {f : Nat → Option Nat} {m : Matcher}

theorem vw_add_le_sumVtx {v u : Nat} (hv : v < g.nv) (hu : u < g.nv) (h : v ≠ u) : g.vw v + g.vw u ≤ g.sumVtx := by
  unfold Graph.sumVtx
  have h1 := Finset.sum_le_sum_of_subset (f := g.vw) (show ({v, u} : Finset Nat) ⊆ range g.nv by
    intro x hx; simp only [mem_insert, mem_singleton] at hx; rcases hx with rfl | rfl <;> simpa)
  rwa [Finset.sum_pair h] at h1

theorem joinable_eq (hV : g.sumVtx < M32) {maxW v u : Nat} (hv : v < g.nv) (hu : u < g.nv) (h : v ≠ u) :
    isAllowed maxW (uadd (g.vw v) (g.vw u)) = joinable g maxW v u := by
  have := vw_add_le_sumVtx hv hu h
  unfold isAllowed joinable uadd
  rw [Nat.mod_eq_of_lt (by omega), Bool.or_comm]

theorem firstMate_head (hg : g.WF) {maxW : Nat} {order : List Nat} (ho : order.length = g.nv)
    (hm : MatchOK g.nv f m) {vw : Nat} (l : List (Nat × Nat)) (hl : ∀ q ∈ l, q.1 < g.nv) :
    firstMate g (!g.unitVtx) maxW order m vw l =
      ok ((l.filter fun q => (f q.1).isNone && isAllowed maxW (uadd vw (g.vw q.1))).head?.map Prod.fst) := by
  induction l with
  | nil => rfl
  | cons q qs ih =>
    have hq := hl q (by simp)
    have hnv := hg.nv_lt
    unfold firstMate
    rw [Graph.vwgtOf_eq hg hq, ok_bind, hm.isMatched_eq (by omega) hq, ok_bind]
    have e : (!(f q.1).isSome) = (f q.1).isNone := by cases f q.1 <;> rfl
    rw [e, List.filter_cons]
    by_cases hc : ((f q.1).isNone && isAllowed maxW (uadd vw (g.vw q.1))) = true
    · rw [if_pos hc, if_pos hc, rd_of_lt (by omega), ok_bind]; rfl
    · rw [if_neg hc, if_neg hc]
      exact ih fun x hx => hl x (by simp [hx])

/-- The first of the heaviest pairs of a list. -/
def FirstHeaviest (l : List (Nat × Nat)) (best : Option (Nat × Nat)) : Prop :=
  match best with
  | none => l = []
  | some q => ∃ pre post, l = pre ++ q :: post ∧ (∀ x ∈ pre, x.2 < q.2) ∧ ∀ x ∈ post, x.2 ≤ q.2

theorem heavyMate_first (hg : g.WF) {maxW : Nat} (hm : MatchOK g.nv f m) {vw : Nat} (l : List (Nat × Nat))
    (hl : ∀ q ∈ l, q.1 < g.nv) :
    Sat (l.foldlM (heavyMate g (!g.unitVtx) maxW m vw) none)
      (FirstHeaviest (l.filter fun q => (f q.1).isNone && isAllowed maxW (uadd vw (g.vw q.1)))) := by
  have hnv := hg.nv_lt
  refine Post_foldlM (P := fun l => FirstHeaviest (l.filter fun q => (f q.1).isNone &&
    isAllowed maxW (uadd vw (g.vw q.1)))) rfl ?_
  intro pre q post best he h
  have hq := hl q (by simp [he])
  unfold heavyMate
  rw [Graph.vwgtOf_eq hg hq, ok_bind, hm.isMatched_eq (by omega) hq, ok_bind]
  have e : (!(f q.1).isSome) = (f q.1).isNone := by cases f q.1 <;> rfl
  rw [e, List.filter_append]
  generalize pre.filter (fun q => (f q.1).isNone && isAllowed maxW (uadd vw (g.vw q.1))) = L at *
  by_cases hc : ((f q.1).isNone && isAllowed maxW (uadd vw (g.vw q.1))) = true
  · rw [if_pos hc, List.filter_cons, if_pos hc, List.filter_nil]
    cases best with
    | none =>
      have h : L = [] := h
      subst h
      exact ⟨[], [], rfl, by simp, by simp⟩
    | some b =>
      obtain ⟨pr, po, h1, h2, h3⟩ := h
      simp only
      by_cases hlt : b.2 < q.2
      · rw [if_pos hlt]
        refine ⟨L, [], by simp, ?_, by simp⟩
        intro x hx
        rw [h1] at hx
        rcases List.mem_append.mp hx with hx | hx
        · have := h2 x hx; omega
        · rcases List.mem_cons.mp hx with rfl | hx
          · exact hlt
          · have := h3 x hx; omega
      · rw [if_neg hlt]
        refine ⟨pr, po ++ [q], by simp [h1], h2, ?_⟩
        intro x hx
        rcases List.mem_append.mp hx with hx | hx
        · exact h3 x hx
        · rw [List.mem_singleton] at hx; subst hx; omega
  · rw [if_neg hc, List.filter_cons, if_neg hc, List.filter_nil, List.append_nil]
    exact h

theorem eligible_eq (hg : g.WF) (hnl : g.NoLoop) (hV : g.sumVtx < M32) {maxW v : Nat} (hv : v < g.nv) :
    ((g.nbrs v).filter fun q => (f q.1).isNone && isAllowed maxW (uadd (g.vw v) (g.vw q.1))) =
      eligible g maxW f v := by
  refine List.filter_congr fun q hq => ?_
  rw [joinable_eq hV hv (Graph.nbrs_lt hg hv hq) (Ne.symm (hnl v hv q hq))]

theorem mem_eligible {maxW v : Nat} {q : Nat × Nat} (h : q ∈ eligible g maxW f v) :
    q ∈ g.nbrs v ∧ f q.1 = none ∧ joinable g maxW v q.1 = true := by
  unfold eligible at h
  rw [List.mem_filter] at h
  obtain ⟨h1, h2⟩ := h
  rw [Bool.and_eq_true] at h2
  exact ⟨h1, by simpa using h2.1, h2.2⟩

theorem rmStep_visit (hg : g.WF) (hnl : g.NoLoop) (hV : g.sumVtx < M32) {maxW : Nat} {order : List Nat}
    (ho : order.length = g.nv) (hm : MatchOK g.nv f m) {v : Nat} (hv : v < g.nv) :
    ∃ m' f', rmStep g (!g.unitVtx) maxW order m v = ok m' ∧ MatchOK g.nv f' m' ∧ Visit g maxW false f v f' := by
  have hnv := hg.nv_lt
  unfold rmStep
  rw [hm.isMatched_eq (by omega) hv, ok_bind]
  cases hf : f v with
  | some u =>
    simp only [Option.isSome_some, if_true]
    exact ⟨m, f, rfl, hm, .taken (by simp [hf])⟩
  | none =>
    simp only [Option.isSome_none, Bool.false_eq_true, if_false]
    rw [Graph.vwgtOf_eq hg hv, ok_bind, Graph.nbrsOf_false_eq hg hv, ok_bind,
      firstMate_head hg ho hm _ (by
        intro q hq
        obtain ⟨x, hx, rfl⟩ := List.mem_map.mp hq
        exact (Graph.nbrs_lt hg hv hx : x.1 < g.nv)), ok_bind]
    rw [List.filter_map]
    have e := eligible_eq (f := f) hg hnl hV (maxW := maxW) hv
    simp only [Function.comp_def]
    rw [e]
    cases he : eligible g maxW f v with
    | nil => exact ⟨m, f, rfl, hm, .alone hf he⟩
    | cons q qs =>
      obtain ⟨hq, hfu, -⟩ := mem_eligible (show q ∈ eligible g maxW f v by rw [he]; simp)
      obtain ⟨m', e1, e2, -⟩ := hm.mate hv (Graph.nbrs_lt hg hv hq) (Ne.symm (hnl v hv q hq)) hf hfu
      exact ⟨m', _, e1, e2, .first rfl hf he⟩

theorem shemStep_visit (hg : g.WF) (hnl : g.NoLoop) (hV : g.sumVtx < M32) (hw : g.adjwgt.length = g.ne) {maxW : Nat}
    (hm : MatchOK g.nv f m) {v : Nat} (hv : v < g.nv) :
    ∃ m' f', shemStep g (!g.unitVtx) maxW m v = ok m' ∧ MatchOK g.nv f' m' ∧ Visit g maxW true f v f' := by
  have hnv := hg.nv_lt
  unfold shemStep
  rw [hm.isMatched_eq (by omega) hv, ok_bind]
  cases hf : f v with
  | some u =>
    simp only [Option.isSome_some, if_true]
    exact ⟨m, f, rfl, hm, .taken (by simp [hf])⟩
  | none =>
    simp only [Option.isSome_none, Bool.false_eq_true, if_false]
    rw [Graph.vwgtOf_eq hg hv, ok_bind, Graph.nbrsOf_true_eq hg hw hv, ok_bind]
    obtain ⟨r, h1, h2⟩ := sat_iff.mp (heavyMate_first hg hm (maxW := maxW) (vw := g.vw v)
      (g.nbrs v) (fun q hq => Graph.nbrs_lt hg hv hq))
    rw [eligible_eq hg hnl hV hv] at h2
    rw [h1, ok_bind]
    cases r with
    | none => exact ⟨m, f, rfl, hm, .alone hf h2⟩
    | some q =>
      obtain ⟨pre, post, h3, h4, h5⟩ := h2
      obtain ⟨hq, hfu, -⟩ := mem_eligible (show q ∈ eligible g maxW f v by rw [h3]; simp)
      obtain ⟨m', e1, e2, -⟩ := hm.mate hv (Graph.nbrs_lt hg hv hq) (Ne.symm (hnl v hv q hq)) hf hfu
      exact ⟨m', _, e1, e2, .heaviest rfl hf h3 h4 h5⟩

theorem Visits.snoc {maxW : Nat} {heavy : Bool} {vs : List Nat} {v : Nat} {f f' f'' : Nat → Option Nat}
    (h : Visits g maxW heavy vs f f') (h' : Visit g maxW heavy f' v f'') : Visits g maxW heavy (vs ++ [v]) f f'' := by
  induction h with
  | nil => exact .cons h' .nil
  | cons a _ ih => exact .cons a (ih h')

theorem visitLoop_spec {maxW : Nat} {heavy : Bool} {step : Matcher → Nat → Res Matcher} {order : List Nat}
    (ho : order.Perm (List.range g.nv))
    (hstep : ∀ m f v, MatchOK g.nv f m → v < g.nv →
      ∃ m' f', step m v = ok m' ∧ MatchOK g.nv f' m' ∧ Visit g maxW heavy f v f') :
    Sat (order.foldlM step (Matcher.new g.nv)) (fun m => ∃ f, MatchOK g.nv f m ∧
      Visits g maxW heavy order (fun _ => none) f) := by
  refine Post_foldlM (P := fun pre m => ∃ f, MatchOK g.nv f m ∧ Visits g maxW heavy pre (fun _ => none) f) ?_ ?_
  · exact ⟨_, MatchOK.new g.nv, .nil⟩
  · rintro pre v post m he ⟨f, h1, h2⟩
    have hv : v < g.nv := by
      have : v ∈ order := by simp [he]
      simpa using ho.mem_iff.mp this
    obtain ⟨m', f', e1, e2, e3⟩ := hstep m f v h1 hv
    rw [e1]
    exact ⟨f', e2, h2.snoc e3⟩

/-- What an aggregation scheme does to a graph, in terms of the greedy specification. -/
def GreedyAgg (E : Env) (s : Scheme) (maxW : Nat) (g : Graph) (r : E.rng.S) (o : Aggregation × E.rng.S) : Prop :=
  ∃ f, o.2 = (visitOrder E s g r).2 ∧ Visits g maxW (joinsHeavy s g) (visitOrder E s g r).1 (fun _ => none) f ∧
    IsMatching g.nv f ∧ BuiltFrom g.nv f o.1

theorem rmAggregate_greedy (E : Env) (hg : g.WF) (hnl : g.NoLoop) (hV : g.sumVtx < M32) (maxW : Nat) (r : E.rng.S) :
    Sat (rmAggregate E maxW g r) (fun o => ∃ f, o.2 = (E.rng.perm r g.nv).2 ∧
      Visits g maxW false (E.rng.perm r g.nv).1 (fun _ => none) f ∧ IsMatching g.nv f ∧ BuiltFrom g.nv f o.1) := by
  have hnv := hg.nv_lt
  have ho := E.rng.perm_perm r g.nv
  unfold rmAggregate randomOrder
  simp only
  refine (visitLoop_spec (g := g) (maxW := maxW) (heavy := false) ho fun m f v h1 h2 =>
    rmStep_visit hg hnl hV (by rw [ho.length_eq]; simp) h1 h2).bind ?_
  rintro m ⟨f, h1, h2⟩
  refine (build_spec h1 (by omega)).bind fun a ha => ?_
  exact ⟨f, rfl, h2, h1.isM, ha⟩

theorem shemAggregate_greedy (E : Env) (hg : g.WF) (hnl : g.NoLoop) (hV : g.sumVtx < M32)
    (hw : g.adjwgt.length = g.ne) (maxW : Nat) (r : E.rng.S) :
    Sat (shemAggregate E maxW g r) (fun o => ∃ f,
      o.2 = (E.rng.sortRandom r ((List.range g.nv).map fun v => (g.nbrs v).length)).2 ∧
      Visits g maxW true (E.rng.sortRandom r ((List.range g.nv).map fun v => (g.nbrs v).length)).1 (fun _ => none) f ∧
      IsMatching g.nv f ∧ BuiltFrom g.nv f o.1) := by
  have hnv := hg.nv_lt
  unfold shemAggregate ascendingRandom
  rw [degrees_eq hg, ok_bind, ok_bind]
  have ho := E.rng.sortRandom_perm r ((List.range g.nv).map fun v => (g.nbrs v).length)
  rw [List.length_map, List.length_range] at ho
  simp only
  refine (visitLoop_spec (g := g) (maxW := maxW) (heavy := true) ho fun m f v h1 h2 =>
    shemStep_visit hg hnl hV hw h1 h2).bind ?_
  rintro m ⟨f, h1, h2⟩
  refine (build_spec h1 (by omega)).bind fun a ha => ?_
  exact ⟨f, rfl, h2, h1.isM, ha⟩

theorem aggregate_greedy (E : Env) (s : Scheme) (hg : g.WF) (hnl : g.NoLoop) (hV : g.sumVtx < M32) (maxW : Nat)
    (r : E.rng.S) : Sat (aggregate E s maxW g r) (GreedyAgg E s maxW g r) := by
  unfold aggregate GreedyAgg visitOrder
  cases s with
  | randomMatching =>
    simp only [joinsHeavy, reduceCtorEq, decide_false, Bool.false_and, Bool.false_eq_true, if_false]
    exact rmAggregate_greedy E hg hnl hV maxW r
  | sortedHeavyEdge =>
    simp only [shemrmAggregate]
    split
    · rename_i h
      simp only [joinsHeavy, h, Bool.not_true, Bool.and_false, Bool.false_eq_true, if_false]
      exact rmAggregate_greedy E hg hnl hV maxW r
    · rename_i h
      have h' : g.unitEdge = false := by simpa using h
      simp only [joinsHeavy, h', decide_true, Bool.not_false, Bool.and_true, if_true]
      exact shemAggregate_greedy E hg hnl hV (hg.adjwgt_len h') maxW r

theorem byDegree_of {order : List Nat}
    (ho : order.Perm (List.range ((List.range g.nv).map fun v => (g.nbrs v).length).length))
    (hs : order.Pairwise (fun a b => nth ((List.range g.nv).map fun v => (g.nbrs v).length) a ≤
        nth ((List.range g.nv).map fun v => (g.nbrs v).length) b)) : ByDegree g order := by
  rw [List.length_map, List.length_range] at ho
  refine ⟨ho, hs.imp_of_mem ?_⟩
  intro a b ha hb h
  have ha' : a < g.nv := by simpa using ho.mem_iff.mp ha
  have hb' : b < g.nv := by simpa using ho.mem_iff.mp hb
  rwa [nth_map (by simpa using ha'), nth_range ha', nth_map (by simpa using hb'), nth_range hb'] at h

end Poros
