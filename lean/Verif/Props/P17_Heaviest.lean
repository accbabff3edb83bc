import Verif.Props.P71_Greedy
/-
C17 in terms of the outcome: no vertex passes over a heavier edge to a vertex that was still free.
-/
namespace Poros
open Finset Res

variable {g : Graph} {maxW : Nat} {heavy : Bool}

theorem elig {f : Nat → Option Nat} {v : Nat} {q : Nat × Nat} :
    q ∈ eligible g maxW f v ↔ q ∈ g.nbrs v ∧ f q.1 = none ∧ joinable g maxW v q.1 = true := by
  unfold eligible
  simp [Option.isNone_iff_eq_none]

/-- What a visit does: nothing, or it joins the visited vertex with an eligible neighbour. -/
theorem Visit.cases' {f f' : Nat → Option Nat} {v : Nat} (h : Visit g maxW heavy f v f') :
    f' = f ∨ ∃ q ∈ eligible g maxW f v, f v = none ∧ f' = joined f v q.1 := by
  cases h with
  | taken => exact Or.inl rfl
  | alone => exact Or.inl rfl
  | first _ h1 h2 => exact Or.inr ⟨_, by rw [h2]; simp, h1, rfl⟩
  | heaviest _ h1 h2 => exact Or.inr ⟨_, by rw [h2]; simp, h1, rfl⟩

theorem Visit.keep {f f' : Nat → Option Nat} {v : Nat} (h : Visit g maxW heavy f v f') {x y : Nat} (hx : f x = some y) :
    f' x = some y := by
  rcases h.cases' with rfl | ⟨q, hq, hv, rfl⟩
  · exact hx
  · obtain ⟨-, h2, -⟩ := elig.mp hq
    unfold joined
    rw [if_neg (fun e => by rw [e, hv] at hx; cases hx), if_neg (fun e => by rw [e, h2] at hx; cases hx), hx]

theorem Visits.keep {l : List Nat} {f f' : Nat → Option Nat} (h : Visits g maxW heavy l f f') {x y : Nat}
    (hx : f x = some y) : f' x = some y := by
  induction h with
  | nil => exact hx
  | cons h _ ih => exact ih (h.keep hx)

/-- A vertex that becomes matched is matched by visiting it or its partner. -/
theorem Visits.made {l : List Nat} {f f' : Nat → Option Nat} (h : Visits g maxW heavy l f f') {x y : Nat}
    (h0 : f x = none) (h1 : f' x = some y) :
    ∃ z z' w, ((z = x ∧ z' = y) ∨ (z = y ∧ z' = x)) ∧ z ∈ l ∧ (z', w) ∈ g.nbrs z ∧ joinable g maxW z z' = true := by
  induction h with
  | nil => rw [h0] at h1; cases h1
  | @cons v vs f f' f'' h hs ih =>
    by_cases hx : f' x = none
    · obtain ⟨z, z', w, k1, k2, k3⟩ := ih hx h1
      exact ⟨z, z', w, k1, by simp [k2], k3⟩
    · rcases h.cases' with rfl | ⟨q, hq, hv, rfl⟩
      · exact absurd h0 hx
      · obtain ⟨q1, q2, q3⟩ := elig.mp hq
        refine ⟨v, q.1, q.2, ?_, by simp, q1, q3⟩
        have key : joined f v q.1 x = some y := by
          cases hj : joined f v q.1 x with
          | none => exact absurd hj hx
          | some y' => rw [← hs.keep hj]; exact h1
        unfold joined at key
        split at key
        · next e => exact Or.inl ⟨e.symm, Option.some.inj key⟩
        · split at key
          · next e => exact Or.inr ⟨Option.some.inj key, e.symm⟩
          · rw [h0] at key; cases key

theorem Visits.split {pre : List Nat} {v : Nat} {post : List Nat} {f f' : Nat → Option Nat}
    (h : Visits g maxW heavy (pre ++ v :: post) f f') :
    ∃ f1 f2, Visits g maxW heavy pre f f1 ∧ Visit g maxW heavy f1 v f2 ∧ Visits g maxW heavy post f2 f' := by
  induction pre generalizing f with
  | nil =>
    cases h with
    | cons h hs => exact ⟨_, _, .nil, h, hs⟩
  | cons x xs ih =>
    rw [List.cons_append] at h
    cases h with
    | cons h hs =>
      obtain ⟨f1, f2, k1, k2, k3⟩ := ih hs
      exact ⟨f1, f2, .cons h k1, k2, k3⟩

/-- Matching is mutual. -/
theorem Visits.mutual' (hnl : g.NoLoop) {l : List Nat} {f f' : Nat → Option Nat} (h : Visits g maxW heavy l f f')
    (hl : ∀ v ∈ l, v < g.nv) (h0 : ∀ x y, f x = some y → f y = some x) : ∀ x y, f' x = some y → f' y = some x := by
  induction h with
  | nil => exact h0
  | @cons v vs f f' f'' h hs ih =>
    refine ih (fun u hu => hl u (by simp [hu])) ?_
    rcases h.cases' with rfl | ⟨q, hq, hv, rfl⟩
    · exact h0
    · obtain ⟨q1, q2, -⟩ := elig.mp hq
      have hne : q.1 ≠ v := fun e => hnl v (hl v (by simp)) q q1 e
      intro x y hxy
      unfold joined at hxy ⊢
      by_cases hx : x = v
      · subst hx
        rw [if_pos rfl] at hxy
        cases hxy
        rw [if_neg hne, if_pos rfl]
      · rw [if_neg hx] at hxy
        by_cases hxq : x = q.1
        · rw [if_pos hxq] at hxy
          cases hxy
          rw [if_pos rfl, hxq]
        · rw [if_neg hxq] at hxy
          have := h0 x y hxy
          rw [if_neg (fun e => by rw [e, hv] at this; cases this), if_neg (fun e => by rw [e, q2] at this; cases this),
            this]

theorem joinable_comm (v u : Nat) : joinable g maxW v u = joinable g maxW u v := by
  unfold joinable
  rw [Nat.add_comm]

/-- **C17, in terms of the outcome.** Heavy-edge matching of a symmetric loop-free graph with edge weights visits the
vertices in some order by increasing degree, such that: if `v` is grouped with a vertex `u` that comes after it, then `u` is a
neighbour of `v`, and every neighbour `u'` by a heavier edge that the weight limit would have allowed was no longer free: it
is grouped with some `x`, and it or `x` comes before `v`. -/
theorem C17_outcome (E : Env) {g : Graph} (hg : g.WF) (hnl : g.NoLoop) (hsym : g.SymmAdj) (hue : g.unitEdge = false)
    (hV : g.sumVtx < M32) (maxW : Nat) (r : E.rng.S) :
    ∃ a r' order, aggregate E .sortedHeavyEdge maxW g r = ok (a, r') ∧ ByDegree g order ∧
      ∀ pre v post u, order = pre ++ v :: post → u ∈ post → a.coarse v = a.coarse u →
        ∃ w, (u, w) ∈ g.nbrs v ∧ ∀ u' w', (u', w') ∈ g.nbrs v → w < w' → g.vw v + g.vw u' ≤ maxW →
          ∃ x, x < g.nv ∧ x ≠ u' ∧ a.coarse u' = a.coarse x ∧ (u' ∈ pre ∨ x ∈ pre) := by
  obtain ⟨a, f, h1, h2, h3, -, h5, -⟩ := C71_greedy E .sortedHeavyEdge hg hnl hV maxW r
  have hby := h5 rfl hue
  have hh : joinsHeavy .sortedHeavyEdge g = true := by simp [joinsHeavy, hue]
  rw [hh] at h2
  refine ⟨a, _, _, h1, hby, ?_⟩
  clear h5 h1
  generalize (visitOrder E .sortedHeavyEdge g r).1 = order at h2 hby
  intro pre v post u ho hu hvu
  have hnd : order.Nodup := hby.once.nodup_iff.mpr List.nodup_range
  have hlt : ∀ x ∈ order, x < g.nv := fun x hx => List.mem_range.mp (hby.once.mem_iff.mp hx)
  subst ho
  have hv : v < g.nv := hlt v (by simp)
  have hun : u < g.nv := hlt u (by simp [hu])
  obtain ⟨-, hn2, hn3⟩ := List.nodup_append.mp hnd
  have hvp : v ∉ post := (List.nodup_cons.mp hn2).1
  have hvu' : v ≠ u := fun e => hvp (e ▸ hu)
  have hvpre : v ∉ pre := fun h => hn3 v h v (by simp) rfl
  have hupre : u ∉ pre := fun h => hn3 u h u (by simp [hu]) rfl
  have hfv : f v = some u := (h3 v u hv hun hvu').mp hvu
  have hmut := h2.mutual' hnl hlt (fun x y h => by cases h)
  have hfu : f u = some v := hmut v u hfv
  obtain ⟨f1, f2, k1, k2, k3⟩ := h2.split
  have keep1 : ∀ {x y}, f1 x = some y → f x = some y := fun h => k3.keep (k2.keep h)
  have hnone : ∀ x y, f1 x = some y → x ∈ pre ∨ y ∈ pre := fun x y h => by
    obtain ⟨z, z', w, hz, hzl, -⟩ := k1.made rfl h
    rcases hz with ⟨rfl, rfl⟩ | ⟨rfl, rfl⟩
    · exact Or.inl hzl
    · exact Or.inr hzl
  have f1v : f1 v = none := by
    cases hc : f1 v with
    | none => rfl
    | some y =>
      have := keep1 hc
      rw [hfv] at this
      cases this
      exact absurd (hnone v u hc) (by tauto)
  have f1u : f1 u = none := by
    cases hc : f1 u with
    | none => rfl
    | some y =>
      have := keep1 hc
      rw [hfu] at this
      cases this
      exact absurd (hnone u v hc) (by tauto)
  cases k2 with
  | taken h => exact absurd f1v h
  | alone _ he =>
    exfalso
    obtain ⟨z, z', w, hz, hzl, hzn, hzj⟩ := k3.made f1v hfv
    rcases hz with ⟨rfl, rfl⟩ | ⟨rfl, rfl⟩
    · exact hvp hzl
    · obtain ⟨w', hw'⟩ := hsym _ _ hun hv ⟨w, hzn⟩
      have : (z, w') ∈ eligible g maxW f1 z' := elig.mpr ⟨hw', f1u, by rw [joinable_comm]; exact hzj⟩
      rw [he] at this
      cases this
  | first hc => cases hc
  | @heaviest xs q ys _ _ he b1 b2 =>
    have hq : f v = some q.1 := k3.keep (by unfold joined; rw [if_pos rfl])
    rw [hfv] at hq
    have hq : u = q.1 := Option.some.inj hq
    have hqm : q ∈ eligible g maxW f1 v := by rw [he]; simp
    refine ⟨q.2, by rw [hq]; exact (elig.mp hqm).1, fun u' w' hu' hw hj => ?_⟩
    have hu'n : u' < g.nv := Graph.nbrs_lt hg hv hu'
    cases hc : f1 u' with
    | none =>
      exfalso
      have hm : (u', w') ∈ eligible g maxW f1 v := elig.mpr ⟨hu', hc, by unfold joinable; simp [hj]⟩
      rw [he] at hm
      rcases List.mem_append.mp hm with h | h
      · have := b1 _ h; simp only at this; omega
      · rcases List.mem_cons.mp h with h | h
        · rw [← h] at hw; simp only at hw; omega
        · have := b2 _ h; simp only at this; omega
    | some x =>
      have hfx := keep1 hc
      have hxo : x < g.nv ∧ x ≠ u' := by
        obtain ⟨z, z', w, hz, hzl, hzn, -⟩ := k1.made rfl hc
        have hzlt := hlt z (by simp [hzl])
        have hzl' := Graph.nbrs_lt hg hzlt hzn
        have hzne := hnl z hzlt _ hzn
        rcases hz with ⟨rfl, rfl⟩ | ⟨rfl, rfl⟩
        · exact ⟨hzl', hzne⟩
        · exact ⟨hzlt, Ne.symm hzne⟩
      exact ⟨x, hxo.1, hxo.2, (h3 u' x hu'n hxo.1 (Ne.symm hxo.2)).mpr hfx, hnone u' x hc⟩

/-- The hypotheses are met by two triangles joined by an edge, where heavy-edge matching joins two pairs. -/
example : Ex.tri2.WF ∧ Ex.tri2.NoLoop ∧ Ex.tri2.SymmAdj ∧ Ex.tri2.unitEdge = false ∧ Ex.tri2.sumVtx < M32 ∧
    (∃ a r', aggregate Concrete.env .sortedHeavyEdge 3 Ex.tri2 () = ok (a, r') ∧
      a.groups = ok [[0, 1], [2], [3], [4, 5]]) := by
  refine ⟨Ex.tri2_wf, Ex.tri2_noLoop, ?_, by decide +kernel, by decide +kernel, _, _, rfl, by decide +kernel⟩
  have : ∀ v, v < 6 → ∀ u, u < 6 → (∃ q ∈ Ex.tri2.nbrs v, q.1 = u) → (∃ q ∈ Ex.tri2.nbrs u, q.1 = v) := by decide +kernel
  intro v u hv hu ⟨w, hw⟩
  obtain ⟨q, hq, e⟩ := this v hv u hu ⟨_, hw, rfl⟩
  exact ⟨q.2, by rw [← e]; exact hq⟩

end Poros
