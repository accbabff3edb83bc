import Verif.Proofs.Aggregators
import Verif.Examples
import Mathlib.Data.List.Perm.Basic
import Mathlib.Data.List.Nodup
/-
C12–C18, C51, C53: aggregations and matchings.
-/
namespace Poros
open Finset Res

theorem AggOK.groups_eq {n : Nat} {a : Aggregation} (h : AggOK n a) :
    a.groups = ok ((List.range a.nc).map fun c => fiber (nth a.cmap) n c) :=
  mapM_ok_eq_map fun c hc => h.group c (by simpa using hc)

theorem fibers_perm {n nc : Nat} {cmap : Nat → Nat} (h : ∀ v, v < n → cmap v < nc) :
    ((List.range nc).map fun c => fiber cmap n c).flatten.Perm (List.range n) := by
  rw [List.perm_ext_iff_of_nodup]
  · intro v
    simp only [List.mem_flatten, List.mem_map, List.mem_range]
    constructor
    · rintro ⟨l, ⟨c, hc, rfl⟩, hv⟩
      exact (mem_fiber.mp hv).1
    · intro hv
      exact ⟨_, ⟨cmap v, h v hv, rfl⟩, mem_fiber.mpr ⟨hv, rfl⟩⟩
  · rw [List.nodup_flatten]
    refine ⟨?_, ?_⟩
    · intro l hl
      obtain ⟨c, -, rfl⟩ := List.mem_map.mp hl
      exact fiber_nodup _ _ _
    · rw [List.pairwise_map]
      refine List.Pairwise.imp_of_mem ?_ List.pairwise_lt_range
      intro c d _ _ hcd v hv hw
      have h1 := (mem_fiber.mp hv).2
      have h2 := (mem_fiber.mp hw).2
      omega
  · exact List.nodup_range

/-- **C12.** For every coarse map into `nc` groups, the constructed aggregation enumerates `nc` groups which
together list each fine vertex exactly once, and group `c` lists precisely the vertices whose coarse vertex
number is `c`. -/
theorem C12_groups (cmap : List Nat) (nc : Nat) (hn : cmap.length < M32)
    (hc : ∀ v, v < cmap.length → nth cmap v < nc) :
    ∃ a gs, Aggregation.make (cmap.map some) nc = ok a ∧ a.groups = ok gs ∧ gs.length = nc ∧
      gs.flatten.Perm (List.range cmap.length) ∧
      (∀ v, v < cmap.length → a.coarse v = ok (nth cmap v)) ∧
      (∀ c v, c < nc → (v ∈ nth gs c ↔ v < cmap.length ∧ a.coarse v = ok c)) := by
  have hf : Mem.freeze (cmap.map some) = ok cmap := by
    have := freeze_spec (m := cmap.map some) (n := cmap.length) (nth cmap) (by simp)
      (fun i hi => nth_map hi)
    rw [this]
    congr 1
    refine list_ext_nth (by simp) fun i hi => ?_
    have hi' : i < cmap.length := by simpa using hi
    rw [nth_map (by simpa using hi'), nth_range hi']
  obtain ⟨a, h1, h2, h3, h4⟩ := sat_iff.mp (Aggregation.make_spec (n := cmap.length) (nc := nc) hf rfl hn hc)
  refine ⟨a, _, h1, h2.groups_eq, by simp [h3], ?_, ?_, ?_⟩
  · rw [h4, h3]; exact fibers_perm hc
  · intro v hv
    unfold Aggregation.coarse
    rw [h4, rd_of_lt hv]
  · intro c v hcn
    rw [nth_map (by simpa [h3] using hcn), nth_range (by omega), h4, mem_fiber]
    unfold Aggregation.coarse
    rw [h4]
    constructor
    · rintro ⟨p, q⟩; exact ⟨p, by rw [rd_of_lt p, q]⟩
    · rintro ⟨p, q⟩
      rw [rd_of_lt p] at q
      exact ⟨p, by injection q⟩

example : ∃ a, Aggregation.make ([2, 0, 2, 0, 1].map some) 4 = ok a ∧
    a.groups = ok [[1, 3], [4], [0, 2], []] := by
  obtain ⟨a, gs, h1, h2, -⟩ := C12_groups [2, 0, 2, 0, 1] 4 (by decide) (by decide)
  exact ⟨_, rfl, by decide +kernel⟩

/-! ### histories of matches -/

/-- `v` and `u` were matched in the history. -/
def matchedIn (ops : List MOp) (v u : Nat) : Prop := MOp.mate v u ∈ ops ∨ MOp.mate u v ∈ ops

theorem history_spec {n : Nat} (ops : List MOp) {f : Nat → Option Nat} (hl : LegalMatches n f ops) (v u : Nat) :
    ops.foldl MOp.spec f v = some u ↔ f v = some u ∨ matchedIn ops v u := by
  induction ops generalizing f with
  | nil => simp [matchedIn]
  | cons op ops ih =>
    obtain ⟨h1, h2⟩ := hl
    rw [List.foldl_cons, ih h2]
    unfold matchedIn
    cases op with
    | next => simp [MOp.spec]
    | mate a b =>
      obtain ⟨-, -, hab, hfa, hfb⟩ := h1
      simp only [MOp.spec, List.mem_cons, MOp.mate.injEq]
      by_cases hva : v = a
      · subst hva
        simp only [if_true, hfa, reduceCtorEq, false_or]
        have : (some b = some u) ↔ u = b := by rw [Option.some.injEq]; exact eq_comm
        rw [this]
        have : ¬ (u = v ∧ v = b) := fun h => hab h.2
        tauto
      · by_cases hvb : v = b
        · subst hvb
          simp only [if_neg hva, if_true, hfb, reduceCtorEq, false_or]
          have : (some a = some u) ↔ u = a := by rw [Option.some.injEq]; exact eq_comm
          rw [this]
          tauto
        · simp only [if_neg hva, if_neg hvb]
          tauto

/-- **C13.** After any history of legal matches (two different unmatched vertices each time) and queries, the
builder yields an aggregation in which two vertices share a group exactly if they are equal or were matched
with each other; every vertex is in a group, every group number below `nc` is used, and groups have one or two
vertices. -/
theorem C13_matching_builder (n : Nat) (hn : n < NULL32) (ops : List MOp)
    (hl : LegalMatches n (fun _ => none) ops) :
    ∃ m a gs, ops.foldlM MOp.run (Matcher.new n) = ok m ∧ m.build = ok a ∧ a.groups = ok gs ∧
      gs.length = a.nc ∧ gs.flatten.Perm (List.range n) ∧
      (∀ c, c < a.nc → (nth gs c).length = 1 ∨ (nth gs c).length = 2) ∧
      (∀ c v u, c < a.nc → v ∈ nth gs c → (u ∈ nth gs c ↔ u < n ∧ (u = v ∨ matchedIn ops v u))) := by
  obtain ⟨m, h1, h2⟩ := (MatchHist.new n).history ops (by omega) hl
  obtain ⟨a, h3, h4⟩ := sat_iff.mp (build_spec h2.ok (by omega))
  refine ⟨m, a, _, h1, h3, h4.ok.groups_eq, by simp, fibers_perm h4.ok.lt, ?_, ?_⟩
  · intro c hc
    rw [nth_map (by simpa using hc), nth_range hc]
    have := h4.fiber_le c
    obtain ⟨v, hv, hvc⟩ := h4.surj c hc
    have := List.length_pos_of_mem (mem_fiber.mpr ⟨hv, hvc⟩ : v ∈ fiber (nth a.cmap) n c)
    omega
  · intro c v u hc
    rw [nth_map (by simpa using hc), nth_range hc, mem_fiber, mem_fiber]
    rintro ⟨hv, hvc⟩
    constructor
    · rintro ⟨hu, huc⟩
      refine ⟨hu, ?_⟩
      rcases (h4.same v u hv hu).mp (by unfold Aggregation.same; omega) with h | h
      · exact Or.inl h.symm
      · rw [history_spec ops hl] at h
        exact Or.inr (by simpa using h)
    · rintro ⟨hu, h⟩
      refine ⟨hu, ?_⟩
      have := (h4.same v u hv hu).mpr (by
        rcases h with h | h
        · exact Or.inl h.symm
        · exact Or.inr ((history_spec ops hl v u).mpr (Or.inr h)))
      unfold Aggregation.same at this
      omega

theorem legal_example : LegalMatches 5 (fun _ => none) [.mate 3 0, .next, .mate 1 4, .next] := by
  simp [LegalMatches, MOp.Legal, MOp.spec]

example : ∃ m a, [MOp.mate 3 0, .next, .mate 1 4, .next].foldlM MOp.run (Matcher.new 5) = ok m ∧
    m.build = ok a ∧ a.groups = ok [[0, 3], [1, 4], [2]] := by
  obtain ⟨m, a, gs, h1, h2, -⟩ := C13_matching_builder 5 (by decide) _ legal_example
  exact ⟨_, _, rfl, rfl, by decide +kernel⟩

/-- **C51.** After any legal history, `getNextUnmatched` returns the smallest vertex that was not matched in the
history, or the number of vertices if every vertex was matched. -/
theorem C51_next_unmatched (n : Nat) (hn : n < NULL32) (ops : List MOp)
    (hl : LegalMatches n (fun _ => none) ops) :
    ∃ m r m', ops.foldlM MOp.run (Matcher.new n) = ok m ∧ m.getNextUnmatched = ok (r, m') ∧ r ≤ n ∧
      (∀ v, v < r → ∃ u, matchedIn ops v u) ∧ (r < n → ∀ u, ¬ matchedIn ops r u) := by
  obtain ⟨m, h1, h2⟩ := (MatchHist.new n).history ops (by omega) hl
  obtain ⟨r, m', e1, -, -, e2, e3, e4⟩ := getNextUnmatched_spec h2.ok (by omega) h2.next_le h2.low
  refine ⟨m, r, m', h1, e1, e2, ?_, ?_⟩
  · intro v hv
    obtain ⟨u, hu⟩ := Option.ne_none_iff_exists'.mp (e3 v hv)
    exact ⟨u, by simpa using (history_spec ops hl v u).mp hu⟩
  · intro hr u hu
    have := (history_spec ops hl r u).mpr (Or.inr hu)
    rw [e4 hr] at this
    cases this

/-- **C51.** After any legal history, `isMatched` tells whether a vertex was matched in the history. -/
theorem C51_is_matched (n : Nat) (hn : n < NULL32) (ops : List MOp) (hl : LegalMatches n (fun _ => none) ops) :
    ∃ m, ops.foldlM MOp.run (Matcher.new n) = ok m ∧
      ∀ v, v < n → ∃ b, m.isMatched v = ok b ∧ (b = true ↔ ∃ u, matchedIn ops v u) := by
  obtain ⟨m, h1, h2⟩ := (MatchHist.new n).history ops (by omega) hl
  refine ⟨m, h1, fun v hv => ⟨_, h2.ok.isMatched_eq (by omega) hv, ?_⟩⟩
  rw [Option.isSome_iff_exists]
  exact exists_congr fun u => by simpa using history_spec ops hl v u

example : ∃ m, [MOp.mate 3 0, .next, .mate 1 4, .next].foldlM MOp.run (Matcher.new 5) = ok m ∧
    m.isMatched 4 = ok true ∧ m.isMatched 2 = ok false := ⟨_, rfl, by decide +kernel, by decide +kernel⟩

example : ∃ m m', [MOp.mate 3 0, .next, .mate 1 4, .next].foldlM MOp.run (Matcher.new 5) = ok m ∧
    m.getNextUnmatched = ok (2, m') := by
  obtain ⟨m, r, m', h1, h2, -⟩ := C51_next_unmatched 5 (by decide) _ legal_example
  exact ⟨_, _, rfl, rfl⟩

/-! ### aggregators -/

/-- `v` shares its group with no other vertex. -/
def Aggregation.alone (a : Aggregation) (n v : Nat) : Prop := ∀ u, u < n → a.same v u → u = v

/-- **C14.** Both aggregators put two different vertices in one group only if an edge joins them. -/
theorem C14_adjacent (E : Env) (s : Scheme) {g : Graph} (hg : g.WF) (hnl : g.NoLoop) (maxW : Nat) (r : E.rng.S) :
    ∃ a r', aggregate E s maxW g r = ok (a, r') ∧ AggOK g.nv a ∧
      ∀ v u, v < g.nv → u < g.nv → v ≠ u → a.same v u → g.Adj v u ∨ g.Adj u v := by
  obtain ⟨⟨a, r'⟩, h1, f, hf, hb, hr⟩ := sat_iff.mp (aggregate_spec E s hg hnl maxW r)
  refine ⟨a, r', h1, hb.ok, fun v u hv hu hne hs => ?_⟩
  rcases (hb.same v u hv hu).mp hs with h | h
  · exact absurd h hne
  · exact hr.adj v u hv h

/-- **C15.** If the vertex weights are small enough that no pair adds up to the reserved value 2^32 - 1 or more,
two different vertices in one group have a combined weight of at most the maximum. -/
theorem C15_max_weight (E : Env) (s : Scheme) {g : Graph} (hg : g.WF) (hnl : g.NoLoop) (maxW : Nat) (r : E.rng.S)
    (hw : ∀ v u, v < g.nv → u < g.nv → v ≠ u → g.vw v + g.vw u < NULL32) :
    ∃ a r', aggregate E s maxW g r = ok (a, r') ∧
      ∀ v u, v < g.nv → u < g.nv → v ≠ u → a.same v u → g.vw v + g.vw u ≤ maxW := by
  obtain ⟨⟨a, r'⟩, h1, f, hf, hb, hr⟩ := sat_iff.mp (aggregate_spec E s hg hnl maxW r)
  refine ⟨a, r', h1, fun v u hv hu hne hs => ?_⟩
  rcases (hb.same v u hv hu).mp hs with h | h
  · exact absurd h hne
  · have h2 := hr.allowed v u hv h
    have h3 := hw v u hv hu hne
    unfold okPair isAllowed at h2
    rw [uadd_eq (by omega)] at h2
    simp only [Bool.or_eq_true, decide_eq_true_eq] at h2
    omega

/-- Two vertices whose weights add up to 2^32 - 1. -/
def heavyPair : Graph :=
  { unitEdge := true, unitVtx := false, nv := 2, ne := 2, totVtx := 4294967295, totEdge := 2,
    xadj := [0, 1, 2], adjncy := [1, 0], vwgt := [2147483648, 2147483647], adjwgt := [] }

theorem heavyPair_wf : heavyPair.WF := by constructor <;> decide +kernel

/-- The weight hypothesis of C15 is necessary: a combined weight of exactly 2^32 - 1 is taken for the "no weight"
marker and always allowed, whatever the maximum. -/
theorem C15_needs_small_weights : heavyPair.WF ∧ heavyPair.NoLoop ∧
    ∃ a r', aggregate Concrete.env .randomMatching 10 heavyPair () = ok (a, r') ∧ a.same 0 1 ∧
      heavyPair.vw 0 + heavyPair.vw 1 = 4294967295 := by
  refine ⟨heavyPair_wf, by unfold Graph.NoLoop; decide +kernel, ?_⟩
  exact ⟨_, _, rfl, by unfold Aggregation.same; decide +kernel, by decide +kernel⟩

/-- **C16.** No edge joins two vertices that were left alone although their combined weight is allowed. -/
theorem C16_maximal (E : Env) (s : Scheme) {g : Graph} (hg : g.WF) (hnl : g.NoLoop) (maxW : Nat) (r : E.rng.S)
    (hw : ∀ v u, v < g.nv → u < g.nv → v ≠ u → g.vw v + g.vw u < M32) :
    ∃ a r', aggregate E s maxW g r = ok (a, r') ∧
      ∀ v u, v < g.nv → g.Adj v u → a.alone g.nv v → a.alone g.nv u → maxW < g.vw v + g.vw u := by
  obtain ⟨⟨a, r'⟩, h1, f, hf, hb, hr⟩ := sat_iff.mp (aggregate_spec E s hg hnl maxW r)
  refine ⟨a, r', h1, ?_⟩
  rintro v u hv ⟨w, hq⟩ hav hau
  have hu : u < g.nv := Graph.nbrs_lt hg hv hq
  have hne : u ≠ v := hnl v hv _ hq
  have free : ∀ x, x < g.nv → a.alone g.nv x → f x = none := by
    intro x hx hal
    by_contra hfx
    obtain ⟨y, hy⟩ := Option.ne_none_iff_exists'.mp hfx
    have hyn := hf.lt x y hx hy
    exact hf.ne x y hx hy (hal y hyn ((hb.same x y hx hyn).mpr (Or.inr hy)))
  have h2 := hr.maximal v (by simpa using hv) (free v hv hav) _ hq (free u hu hau)
  have h3 := hw v u hv hu (Ne.symm hne)
  unfold okPair isAllowed at h2
  simp only at h2
  rw [uadd_eq (by omega)] at h2
  simp only [Bool.or_eq_true, decide_eq_true_eq, not_or] at h2
  omega

theorem shem_reach {g : Graph} (hg : g.WF) (hnl : g.NoLoop) (hw : g.adjwgt.length = g.ne) (maxW : Nat)
    (pre : List Nat) (hp : ∀ v ∈ pre, v < g.nv) :
    Sat (pre.foldlM (shemStep g (!g.unitVtx) maxW) (Matcher.new g.nv)) (fun m => ∃ f, MatchOK g.nv f m) := by
  refine Post_foldlM_inv (P := fun m => ∃ f, MatchOK g.nv f m) ⟨_, MatchOK.new g.nv⟩ ?_
  rintro v m hv ⟨f, h⟩
  obtain ⟨m', f', e1, e2, -⟩ := shemStep_spec hg hnl hw (maxW := maxW) h (hp v hv)
  rw [e1]
  exact ⟨f', e2⟩

/-- **C17.** Heavy edge matching visits the vertices in the order of `ascendingRandom`. At whatever point of the
run a visit of `v` matches the so far unmatched `v`, it is matched with the end `u` of an edge of `v` that was
unmatched and allowed, and that edge is of maximum weight among the edges of `v` to neighbours which are
unmatched and allowed at that moment. -/
theorem C17_heaviest (E : Env) {g : Graph} (hg : g.WF) (hnl : g.NoLoop) (hw : g.adjwgt.length = g.ne)
    (maxW : Nat) (r : E.rng.S) :
    ∃ order r', ascendingRandom E g r = ok (order, r') ∧ ∀ pre v post, order = pre ++ v :: post →
      ∃ m m', pre.foldlM (shemStep g (!g.unitVtx) maxW) (Matcher.new g.nv) = ok m ∧
        shemStep g (!g.unitVtx) maxW m v = ok m' ∧
        (m.isMatched v = ok false → m'.isMatched v = ok true →
          ∃ u w, (u, w) ∈ g.nbrs v ∧ nth m'.mtch v = u ∧ nth m'.mtch u = v ∧ m.isMatched u = ok false ∧
            isAllowed maxW (uadd (g.vw v) (g.vw u)) = true ∧
            ∀ u' w', (u', w') ∈ g.nbrs v → m.isMatched u' = ok false →
              isAllowed maxW (uadd (g.vw v) (g.vw u')) = true → w' ≤ w) := by
  have hnv := hg.nv_lt
  have ho := E.rng.sortRandom_perm r ((List.range g.nv).map fun v => (g.nbrs v).length)
  rw [List.length_map, List.length_range] at ho
  refine ⟨_, _, by unfold ascendingRandom; rw [degrees_eq hg, ok_bind], ?_⟩
  intro pre v post he
  have hmem : ∀ x, x ∈ pre ++ v :: post → x < g.nv := by
    intro x hx; rw [← he] at hx; simpa using ho.mem_iff.mp hx
  have hv := hmem v (by simp)
  obtain ⟨m, h1, f, hm⟩ := sat_iff.mp (shem_reach hg hnl hw maxW pre fun x hx => hmem x (by simp [hx]))
  obtain ⟨m', f', e1, e2, e3, e4⟩ := shemStep_spec hg hnl hw (maxW := maxW) hm hv
  refine ⟨m, m', h1, e1, ?_⟩
  intro hun hma
  rw [hm.isMatched_eq (by omega) hv] at hun
  rw [e2.isMatched_eq (by omega) hv] at hma
  have a1 : f v = none := by
    have : (f v).isSome = false := by injection hun
    simpa using this
  have a2 : f' v ≠ none := by
    have : (f' v).isSome = true := by injection hma
    intro hh; rw [hh] at this; cases this
  obtain ⟨q, hq, q1, q2, q3, q4⟩ := e4 a1 a2
  have hqn := Graph.nbrs_lt hg hv hq
  refine ⟨q.1, q.2, hq, by rw [e2.vals v hv, q1]; rfl, ?_, ?_, q3, ?_⟩
  · rw [e2.vals _ hqn, e2.isM.symm v _ hv q1]; rfl
  · rw [hm.isMatched_eq (by omega) hqn, q2]; rfl
  · intro u' w' hu' hun' hok'
    refine q4 (u', w') hu' ?_ hok'
    rw [hm.isMatched_eq (by omega) (Graph.nbrs_lt hg hv hu')] at hun'
    have : (f u').isSome = false := by injection hun'
    simpa using this

/-- **C18.** The number of coarse vertices is at most the number of fine vertices and at least half of it. -/
theorem C18_coarse_size (E : Env) (s : Scheme) {g : Graph} (hg : g.WF) (hnl : g.NoLoop) (maxW : Nat)
    (r : E.rng.S) :
    ∃ a r', aggregate E s maxW g r = ok (a, r') ∧ a.nc ≤ g.nv ∧ g.nv ≤ 2 * a.nc := by
  obtain ⟨⟨a, r'⟩, h1, f, hf, hb, hr⟩ := sat_iff.mp (aggregate_spec E s hg hnl maxW r)
  exact ⟨a, r', h1, hb.size.1, hb.size.2⟩

/-- The aggregators on a weighted graph: heavy edges first; vertex 3 (weight 3) can only be joined if the limit
allows it. -/
example : ∃ a r', aggregate Concrete.env .sortedHeavyEdge 3 Ex.tri2 () = ok (a, r') ∧
    a.groups = ok [[0, 1], [2], [3], [4, 5]] ∧
    Ex.tri2.WF ∧ Ex.tri2.NoLoop ∧ Ex.tri2.adjwgt.length = Ex.tri2.ne ∧
    (∀ v, v < Ex.tri2.nv → ∀ u, u < Ex.tri2.nv → v ≠ u → Ex.tri2.vw v + Ex.tri2.vw u < NULL32) := by
  refine ⟨_, _, rfl, by decide +kernel, Ex.tri2_wf, Ex.tri2_noLoop, rfl, by decide +kernel⟩

/-! ### self loops -/

/-- One vertex with an edge to itself. -/
def loopGraph : Graph :=
  { unitEdge := true, unitVtx := true, nv := 1, ne := 1, totVtx := 1, totEdge := 1,
    xadj := [0, 1], adjncy := [0], vwgt := [], adjwgt := [] }

/-- **C53** (refutation of "self loops are harmless"). On the valid graph consisting of one vertex with a self
loop both aggregation schemes match the vertex with itself and then read an uninitialised entry of the coarse
map, for every random engine and every maximum weight of at least 2. -/
theorem C53_self_loop_ub (E : Env) (s : Scheme) (maxW : Nat) (h2 : 2 ≤ maxW) (r : E.rng.S) :
    loopGraph.WF ∧ loopGraph.Symm ∧ aggregate E s maxW loopGraph r = ub := by
  refine ⟨by constructor <;> decide +kernel, Graph.symm_of (by decide +kernel), ?_⟩
  have ho : (E.rng.perm r 1).1 = [0] := by
    have := E.rng.perm_perm r 1
    rw [show List.range 1 = [0] from rfl, List.perm_singleton] at this
    exact this
  have hal : isAllowed maxW (uadd 1 1) = true := by
    have : uadd 1 1 = 2 := rfl
    rw [this]; simp [isAllowed, h2]
  have key : rmAggregate E maxW loopGraph r = ub := by
    unfold rmAggregate randomOrder
    simp only [show loopGraph.nv = 1 from rfl, ho]
    rw [List.foldlM_cons]
    have : rmStep loopGraph (!loopGraph.unitVtx) maxW [0] (Matcher.new 1) 0 = ok ⟨0, [0]⟩ := by
      unfold rmStep
      have e1 : (Matcher.new 1).isMatched 0 = ok false := rfl
      have e2 : loopGraph.vwgtOf (!loopGraph.unitVtx) 0 = ok 1 := rfl
      have e3 : loopGraph.nbrsOf false 0 = ok [(0, 1)] := rfl
      rw [e1, ok_bind]
      simp only [Bool.false_eq_true, if_false]
      rw [e2, ok_bind, e3, ok_bind]
      unfold firstMate
      rw [e2, ok_bind, e1, ok_bind, hal]
      rfl
    rw [this, ok_bind]
    rfl
  cases s with
  | randomMatching => exact key
  | sortedHeavyEdge =>
    unfold aggregate shemrmAggregate
    simp only [show loopGraph.unitEdge = true from rfl, if_true]
    exact key

end Poros
