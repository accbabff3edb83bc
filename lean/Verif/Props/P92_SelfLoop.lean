import Verif.Props.P89_NullSafe
import Verif.Props.P91_GridSize
/-
C92: self loops and coarsening, for every graph with a vertex that can only be joined with itself.
-/
namespace Poros
open Finset Res

variable {E : Env} {g : Graph}

/-- Vertex `v` has an edge to itself, may be joined with itself, and can be joined with no other vertex it shares an edge
with (in either direction). -/
structure OnlySelf (g : Graph) (maxW v : Nat) : Prop where
  lt : v < g.nv
  loop : ∃ q ∈ g.nbrs v, q.1 = v
  self : joinable g maxW v v = true
  out : ∀ q ∈ g.nbrs v, q.1 ≠ v → joinable g maxW v q.1 = false
  into : ∀ u, u < g.nv → u ≠ v → ∀ q ∈ g.nbrs u, q.1 = v → joinable g maxW u v = false

/-- The matching while visiting: `v` is unmatched or matched with itself, and nothing else is matched with it. -/
structure LoneInv (n v : Nat) (m : Matcher) : Prop where
  len : m.mtch.length = n
  own : nth m.mtch v = NULL32 ∨ nth m.mtch v = v
  other : ∀ w, w < n → w ≠ v → nth m.mtch w ≠ v

theorem LoneInv.mate {n v a b : Nat} {m : Matcher} (h : LoneInv n v m) (ha : a ≠ v) (hb : b ≠ v) :
    Wp True False False (m.mate a b) fun m' => LoneInv n v m' ∧ nth m'.mtch v = nth m.mtch v := by
  unfold Matcher.mate
  refine Wp_wr.bind fun x hx => ?_
  refine Wp_wr.bind fun y hy => ?_
  obtain ⟨h1, rfl⟩ := hx
  obtain ⟨h2, rfl⟩ := hy
  have e : nth ((m.mtch.set a b).set b a) v = nth m.mtch v := by
    rw [nth_set h2, if_neg (Ne.symm hb), nth_set h1, if_neg (Ne.symm ha)]
  refine ⟨⟨by simpa using h.len, ?_, fun w hw hne => ?_⟩, e⟩
  · show nth ((m.mtch.set a b).set b a) v = _ ∨ nth ((m.mtch.set a b).set b a) v = _
    rw [e]; exact h.own
  · show nth ((m.mtch.set a b).set b a) w ≠ v
    rw [nth_set h2]
    split
    · exact ha
    · rw [nth_set h1]
      split
      · exact hb
      · exact h.other w hw hne

theorem LoneInv.self {n v : Nat} {m : Matcher} (h : LoneInv n v m) :
    Wp True False False (m.mate v v) fun m' => LoneInv n v m' ∧ nth m'.mtch v = v := by
  unfold Matcher.mate
  refine Wp_wr.bind fun x hx => ?_
  refine Wp_wr.bind fun y hy => ?_
  obtain ⟨h1, rfl⟩ := hx
  obtain ⟨h2, rfl⟩ := hy
  have e : nth ((m.mtch.set v v).set v v) v = v := by rw [nth_set h2, if_pos rfl]
  refine ⟨⟨by simpa using h.len, Or.inr e, fun w hw hne => ?_⟩, e⟩
  show nth ((m.mtch.set v v).set v v) w ≠ v
  rw [nth_set h2, if_neg hne, nth_set h1, if_neg hne]
  exact h.other w hw hne

theorem isMatched_eq {n w : Nat} {m : Matcher} (hl : m.mtch.length = n) (hw : w < n) :
    m.isMatched w = ok (decide (nth m.mtch w ≠ NULL32)) := by
  unfold Matcher.isMatched
  rw [rd_of_lt (by omega), ok_bind]

/-- The code's test whether `v` and `u` may be joined. -/
abbrev allowed (g : Graph) (maxW v u : Nat) : Bool := isAllowed maxW (uadd (g.vw v) (g.vw u))

/-- What the choice of a mate returns, for both rules: an unmatched neighbour it may be joined with, if there is one. -/
def Picks (g : Graph) (maxW : Nat) (m : Matcher) (w : Nat) (r : Option Nat) : Prop :=
  (∀ u, r = some u → (∃ q ∈ g.nbrs w, q.1 = u) ∧ allowed g maxW w u = true) ∧
  (r = none → ∀ q ∈ g.nbrs w, nth m.mtch q.1 = NULL32 → allowed g maxW w q.1 = false)

/-- The vertex can only be joined with itself, in terms of the code's test. -/
structure Lone (g : Graph) (maxW v : Nat) : Prop where
  lt : v < g.nv
  loop : ∃ q ∈ g.nbrs v, q.1 = v
  self : allowed g maxW v v = true
  out : ∀ q ∈ g.nbrs v, q.1 ≠ v → allowed g maxW v q.1 = false
  into : ∀ u, u < g.nv → u ≠ v → ∀ q ∈ g.nbrs u, q.1 = v → allowed g maxW u v = false

/-- One visit with a rule that picks such a neighbour. -/
theorem LoneInv.visit {maxW v w : Nat} {m : Matcher} (hv : Lone g maxW v) (h : LoneInv g.nv v m)
    (hw : w < g.nv) {r : Option Nat} (hr : Picks g maxW m w r) (hun : nth m.mtch w = NULL32) :
    Wp True False False (match r with
      | some u => m.mate w u
      | none => ok m) fun m' => LoneInv g.nv v m' ∧ (w = v ∨ nth m.mtch v = v → nth m'.mtch v = v) := by
  cases r with
  | none =>
    refine ⟨h, fun hc => ?_⟩
    rcases hc with rfl | hc
    · obtain ⟨q, hq, rfl⟩ := hv.loop
      have := hr.2 rfl q hq hun
      rw [hv.self] at this
      exact absurd this (by simp)
    · exact hc
  | some u =>
    obtain ⟨⟨q, hq, rfl⟩, hj⟩ := hr.1 u rfl
    by_cases hwv : w = v
    · subst hwv
      have : q.1 = w := by
        by_contra hne
        rw [hv.out q hq hne] at hj
        exact absurd hj (by simp)
      simp only [this]
      exact h.self.mono fun m' hm' => ⟨hm'.1, fun _ => hm'.2⟩
    · have hu : q.1 ≠ v := by
        intro e
        rw [e, hv.into w hw hwv q hq e] at hj
        exact absurd hj (by simp)
      refine (h.mate hwv hu).mono fun m' hm' => ⟨hm'.1, fun hc => ?_⟩
      rcases hc with hc | hc
      · exact absurd hc hwv
      · rw [hm'.2]; exact hc

/-- A visit, for a rule `pick` of choosing a mate. -/
theorem LoneInv.step {maxW v w : Nat} {m : Matcher} (hv : Lone g maxW v) (h : LoneInv g.nv v m) (hw : w < g.nv)
    {pick : Res (Option Nat)} (hp : Wp True False False pick (Picks g maxW m w)) :
    Wp True False False (do
      let isM ← m.isMatched w
      if isM then ok m else do
      let r ← pick
      match r with
      | some u => m.mate w u
      | none => ok m) fun m' => LoneInv g.nv v m' ∧ (w = v ∨ nth m.mtch v = v → nth m'.mtch v = v) := by
  rw [isMatched_eq h.len hw, ok_bind]
  by_cases hm : nth m.mtch w = NULL32
  · rw [if_neg (by simp [hm])]
    exact hp.bind fun r hr => h.visit hv hw hr hm
  · rw [if_pos (by simp [hm])]
    refine ⟨h, fun hc => ?_⟩
    rcases hc with rfl | hc
    · exact h.own.resolve_left hm
    · exact hc

theorem firstMate_picks {maxW w : Nat} {order : List Nat} {m : Matcher} (hwf : g.WF) (hl : m.mtch.length = g.nv) (l : List (Nat × Nat))
    (hlt : ∀ q ∈ l, q.1 < g.nv) : Wp True False False (firstMate g (!g.unitVtx) maxW order m (g.vw w) l) fun r =>
      (∀ u, r = some u → (∃ q ∈ l, q.1 = u) ∧ allowed g maxW w u = true) ∧
      (r = none → ∀ q ∈ l, nth m.mtch q.1 = NULL32 → allowed g maxW w q.1 = false) := by
  induction l with
  | nil => exact ⟨by simp, by simp⟩
  | cons q qs ih =>
    have hq := hlt q (by simp)
    unfold firstMate
    rw [Graph.vwgtOf_eq hwf hq, ok_bind, isMatched_eq hl hq, ok_bind]
    split
    · rename_i hc
      refine Wp_rd.bind fun _ _ => ⟨?_, by simp⟩
      rintro u hu
      cases hu
      rw [Bool.and_eq_true] at hc
      exact ⟨⟨q, by simp, rfl⟩, hc.2⟩
    · rename_i hc
      refine (ih fun q' hq' => hlt q' (by simp [hq'])).mono fun r hr => ⟨fun u hu => ?_, fun hn q' hq' hnull => ?_⟩
      · obtain ⟨⟨q', h1, h2⟩, h3⟩ := hr.1 u hu
        exact ⟨⟨q', by simp [h1], h2⟩, h3⟩
      · rcases List.mem_cons.mp hq' with rfl | hq'
        · by_contra ha
          rw [Bool.not_eq_false] at ha
          exact hc (by simp [hnull]; exact ha)
        · exact hr.2 hn q' hq' hnull

theorem rmStep_lone {maxW v w : Nat} {order : List Nat} {m : Matcher} (hwf : g.WF) (hv : Lone g maxW v) (h : LoneInv g.nv v m)
    (hw : w < g.nv) : Wp True False False (rmStep g (!g.unitVtx) maxW order m w) fun m' =>
      LoneInv g.nv v m' ∧ (w = v ∨ nth m.mtch v = v → nth m'.mtch v = v) := by
  have hp : Wp True False False (firstMate g (!g.unitVtx) maxW order m (g.vw w) ((g.nbrs w).map fun q => (q.1, 1)))
      (Picks g maxW m w) := by
    refine (firstMate_picks hwf h.len _ (fun q hq => ?_)).mono fun r hr => ⟨fun u hu => ?_, fun hn q hq hnull => ?_⟩
    · obtain ⟨x, hx, rfl⟩ := List.mem_map.mp hq
      exact (Graph.nbrs_lt hwf hw hx : x.1 < g.nv)
    · obtain ⟨⟨q, h1, h2⟩, h3⟩ := hr.1 u hu
      obtain ⟨x, hx, rfl⟩ := List.mem_map.mp h1
      exact ⟨⟨x, hx, h2⟩, h3⟩
    · exact hr.2 hn (q.1, 1) (List.mem_map.mpr ⟨q, hq, rfl⟩) hnull
  have := h.step hv hw hp
  unfold rmStep
  rw [Graph.vwgtOf_eq hwf hw, Graph.nbrsOf_false_eq hwf hw]
  simp only [ok_bind]
  exact this

theorem Wp_foldlM {α σ : Type} {bu be bd : Prop} {f : σ → α → Res σ} {l : List α} {s : σ} (P : List α → σ → Prop)
    (h0 : P [] s)
    (hstep : ∀ pre x post s, l = pre ++ x :: post → P pre s → Wp bu be bd (f s x) (P (pre ++ [x]))) :
    Wp bu be bd (l.foldlM f s) (P l) := by
  suffices H : ∀ (post pre : List α) (s : σ), l = pre ++ post → P pre s →
      Wp bu be bd (post.foldlM f s) (P l) from H l [] s rfl h0
  intro post
  induction post with
  | nil => intro pre s hl hp; simp at hl; subst hl; simpa using hp
  | cons x xs ih =>
    intro pre s hl hp
    rw [List.foldlM_cons]
    exact (hstep pre x xs s hl hp).bind fun a ha => ih (pre ++ [x]) a (by simp [hl]) ha

theorem heavyMate_picks {maxW w : Nat} {m : Matcher} (hwf : g.WF) (hl : m.mtch.length = g.nv) (l : List (Nat × Nat))
    (hlt : ∀ q ∈ l, q.1 < g.nv) : Wp True False False (l.foldlM (heavyMate g (!g.unitVtx) maxW m (g.vw w)) none) fun r =>
      (∀ b, r = some b → (∃ q ∈ l, q.1 = b.1) ∧ allowed g maxW w b.1 = true) ∧
      (r = none → ∀ q ∈ l, nth m.mtch q.1 = NULL32 → allowed g maxW w q.1 = false) := by
  refine Wp_foldlM (P := fun (l : List (Nat × Nat)) (r : Option (Nat × Nat)) => (∀ b, r = some b → (∃ q ∈ l, q.1 = b.1) ∧ allowed g maxW w b.1 = true) ∧
      (r = none → ∀ q ∈ l, nth m.mtch q.1 = NULL32 → allowed g maxW w q.1 = false)) ⟨by simp, by simp⟩ ?_
  intro pre q post best he h
  have hq := hlt q (by simp [he])
  have keep : ∀ b, best = some b → (∃ q' ∈ pre ++ [q], q'.1 = b.1) ∧ allowed g maxW w b.1 = true := by
    intro b hb
    obtain ⟨⟨q', h1, h2⟩, h3⟩ := h.1 b hb
    exact ⟨⟨q', by simp [h1], h2⟩, h3⟩
  unfold heavyMate
  rw [Graph.vwgtOf_eq hwf hq, ok_bind, isMatched_eq hl hq, ok_bind]
  split
  · rename_i hc
    rw [Bool.and_eq_true] at hc
    have new : ∀ b, some q = some b → (∃ q' ∈ pre ++ [q], q'.1 = b.1) ∧ allowed g maxW w b.1 = true := by
      intro b hb
      cases hb
      exact ⟨⟨q, by simp, rfl⟩, hc.2⟩
    cases best with
    | none => exact ⟨new, by simp⟩
    | some b =>
      simp only
      split
      · exact ⟨new, by simp⟩
      · exact ⟨keep, by simp⟩
  · rename_i hc
    refine ⟨keep, fun hn q' hq' hnull => ?_⟩
    rcases List.mem_append.mp hq' with hq' | hq'
    · exact h.2 hn q' hq' hnull
    · rw [List.mem_singleton] at hq'
      subst hq'
      by_contra ha
      rw [Bool.not_eq_false] at ha
      exact hc (by simp [hnull]; exact ha)

theorem shemStep_lone {maxW v w : Nat} {m : Matcher} (hwf : g.WF) (hlen : g.adjwgt.length = g.ne) (hv : Lone g maxW v)
    (h : LoneInv g.nv v m) (hw : w < g.nv) : Wp True False False (shemStep g (!g.unitVtx) maxW m w) fun m' =>
      LoneInv g.nv v m' ∧ (w = v ∨ nth m.mtch v = v → nth m'.mtch v = v) := by
  have hp : Wp True False False (do
      let b ← (g.nbrs w).foldlM (heavyMate g (!g.unitVtx) maxW m (g.vw w)) none
      ok (b.map Prod.fst)) (Picks g maxW m w) := by
    refine (heavyMate_picks hwf h.len _ (fun q hq => Graph.nbrs_lt hwf hw hq)).bind fun b hb => ⟨fun u hu => ?_, fun hn => ?_⟩
    · obtain ⟨x, hx, rfl⟩ := Option.map_eq_some_iff.mp hu
      exact hb.1 x hx
    · exact hb.2 (Option.map_eq_none_iff.mp hn)
  have := h.step hv hw hp
  unfold shemStep
  rw [Graph.vwgtOf_eq hwf hw, Graph.nbrsOf_true_eq hwf hlen hw]
  simp only [ok_bind]
  refine Eq.mp (congrArg (fun x => Wp True False False x _) ?_) this
  congr 1
  funext b
  split
  · rfl
  · generalize (g.nbrs w).foldlM (heavyMate g (!g.unitVtx) maxW m (g.vw w)) none = R
    cases R with
    | ok a => cases a <;> rfl
    | ub => rfl
    | exn => rfl
    | diverge => rfl

/-- The loop over the vertices, for either rule. -/
theorem LoneInv.loop {maxW v : Nat} (hv : Lone g maxW v) {order : List Nat} (ho : order.Perm (List.range g.nv))
    {step : Matcher → Nat → Res Matcher}
    (hs : ∀ m w, LoneInv g.nv v m → w < g.nv → Wp True False False (step m w) fun m' =>
      LoneInv g.nv v m' ∧ (w = v ∨ nth m.mtch v = v → nth m'.mtch v = v)) (hn : g.nv < M32) :
    Wp True False False (order.foldlM step (Matcher.new g.nv)) fun m => LoneInv g.nv v m ∧ nth m.mtch v = v := by
  have hmem : v ∈ order := ho.mem_iff.mpr (by simpa using hv.lt)
  have h0 : LoneInv g.nv v (Matcher.new g.nv) := by
    refine ⟨by simp [Matcher.new], Or.inl ?_, fun w hw _ => ?_⟩
    · exact nth_replicate hv.lt
    · show nth (List.replicate g.nv NULL32) w ≠ v
      rw [nth_replicate hw]
      have := hv.lt
      omega
  refine (Wp_foldlM (P := fun pre m => LoneInv g.nv v m ∧ (v ∈ pre → nth m.mtch v = v)) ⟨h0, by simp⟩ ?_).mono
    fun m hm => ⟨hm.1, hm.2 hmem⟩
  intro pre w post m he h
  have hw : w < g.nv := by simpa using ho.mem_iff.mp (show w ∈ order by simp [he])
  refine (hs m w h.1 hw).mono fun m' hm' => ⟨hm'.1, fun hc => hm'.2 ?_⟩
  rcases List.mem_append.mp hc with hc | hc
  · exact Or.inr (h.2 hc)
  · exact Or.inl (by simpa using hc : v = w).symm

theorem freeze_none {m : Mem} {v : Nat} (hv : v < m.length) (h : nth m v = none) : m.freeze = ub := by
  have h1 := freeze_ub_or m
  have h2 : ∀ l, m.freeze ≠ ok l := by
    intro l hl
    rw [nth_eq_getElem hv] at h
    obtain ⟨a, b, e⟩ := List.append_of_mem (h ▸ List.getElem_mem hv : none ∈ m)
    unfold Mem.freeze at hl
    rw [e, List.mapM_append, List.mapM_cons] at hl
    obtain ⟨x, -, hl⟩ := bind_eq_ok hl
    exact absurd hl (by intro h; cases h)
  cases hR : m.freeze with
  | ok l => exact absurd hR (h2 l)
  | ub => rfl
  | exn => rw [hR] at h1; exact h1.elim
  | diverge => rw [hR] at h1; exact h1.elim

/-- The coarse map of a matching in which `v` is matched with itself has no entry for `v`. -/
theorem LoneInv.build {n v : Nat} {m : Matcher} (h : LoneInv n v m) (hv : v < n) (hm : nth m.mtch v = v) (hn : n < M32) :
    m.build = ub := by
  unfold Matcher.build
  have := Wp_foldlM_range (bu := True) (be := False) (bd := False) (n := m.mtch.length) (f := Matcher.buildStep m)
    (s := (Mem.alloc m.mtch.length, 0)) (P := fun _ s => s.1.length = n ∧ nth s.1 v = none)
    ⟨by simp [Mem.alloc, h.len], by unfold Mem.alloc; rw [nth_replicate (by rw [h.len]; exact hv)]⟩ ?_
  · generalize List.foldlM (Matcher.buildStep m) (Mem.alloc m.mtch.length, 0) (List.range m.mtch.length) = R at this
    cases R with
    | ok s =>
      obtain ⟨h1, h2⟩ := this
      rw [ok_bind]
      unfold Aggregation.make
      rw [freeze_none (by omega) h2]
      rfl
    | ub => rfl
    | exn => exact this.elim
    | diverge => exact this.elim
  · rintro w s hw ⟨h1, h2⟩
    rw [h.len] at hw
    unfold Matcher.buildStep Mem.wr
    rw [rd_of_lt (by rw [h.len]; exact hw), ok_bind]
    split
    · rename_i hu
      refine Wp_wr.bind fun c hc => ?_
      obtain ⟨hc, rfl⟩ := hc
      refine ⟨by simpa using h1, ?_⟩
      have : v ≠ w := by rintro rfl; omega
      rw [nth_set hc, if_neg this]
      exact h2
    · split
      · rename_i hlt
        refine Wp_wr.bind fun c hc => ?_
        obtain ⟨hc, rfl⟩ := hc
        refine Wp_wr.bind fun c hc' => ?_
        obtain ⟨hc', rfl⟩ := hc'
        refine ⟨by simpa using h1, ?_⟩
        have h3 : v ≠ w := by rintro rfl; omega
        have h4 : v ≠ nth m.mtch w := fun e => h.other w hw (Ne.symm h3) e.symm
        rw [nth_set hc', if_neg h4, nth_set hc, if_neg h3]
        exact h2
      · exact ⟨h1, h2⟩

theorem aggregate_lone (E : Env) (s : Scheme) {maxW v : Nat} (hwf : g.WF) (hv : Lone g maxW v) (r : E.rng.S) :
    aggregate E s maxW g r = ub := by
  have hn := hwf.nv_lt
  have rm : rmAggregate E maxW g r = ub := by
    unfold rmAggregate randomOrder
    have ho := E.rng.perm_perm r g.nv
    have := LoneInv.loop hv ho (step := rmStep g (!g.unitVtx) maxW (E.rng.perm r g.nv).1)
      (fun m w h hw => rmStep_lone hwf hv h hw) (by omega)
    simp only
    generalize List.foldlM (rmStep g (!g.unitVtx) maxW (E.rng.perm r g.nv).1) (Matcher.new g.nv) (E.rng.perm r g.nv).1 = R at *
    cases R with
    | ok m => rw [ok_bind, LoneInv.build this.1 hv.lt this.2 (by omega)]; rfl
    | ub => rfl
    | exn => exact this.elim
    | diverge => exact this.elim
  have shem : g.unitEdge = false → shemAggregate E maxW g r = ub := by
    intro hu
    unfold shemAggregate ascendingRandom
    rw [degrees_eq hwf, ok_bind, ok_bind]
    have ho := E.rng.sortRandom_perm r ((List.range g.nv).map fun v => (g.nbrs v).length)
    rw [List.length_map, List.length_range] at ho
    have := LoneInv.loop hv ho (step := shemStep g (!g.unitVtx) maxW)
      (fun m w h hw => shemStep_lone hwf (hwf.adjwgt_len hu) hv h hw) (by omega)
    simp only
    generalize List.foldlM (shemStep g (!g.unitVtx) maxW) (Matcher.new g.nv) _ = R at *
    cases R with
    | ok m => rw [ok_bind, LoneInv.build this.1 hv.lt this.2 (by omega)]; rfl
    | ub => rfl
    | exn => exact this.elim
    | diverge => exact this.elim
  unfold aggregate
  cases s with
  | randomMatching => exact rm
  | sortedHeavyEdge =>
    simp only [shemrmAggregate]
    split
    · exact rm
    · rename_i h; exact shem (by simpa using h)

theorem OnlySelf.lone {maxW v : Nat} (hwf : g.WF) (hV : g.sumVtx < M32) (hmax : maxW < M32) (h : OnlySelf g maxW v) :
    Lone g maxW v := by
  refine ⟨h.lt, h.loop, ?_, fun q hq hne => ?_, fun u hu hne q hq e => ?_⟩
  · have := h.self
    unfold joinable at this
    unfold allowed isAllowed uadd
    simp only [Bool.or_eq_true, decide_eq_true_eq] at *
    omega
  · have hq' := Graph.nbrs_lt hwf h.lt hq
    exact (joinable_eq hV h.lt hq' (Ne.symm hne)).trans (h.out q hq hne)
  · exact (joinable_eq hV hu h.lt hne).trans (h.into u hu hne q hq e)

/-- **C92** A vertex with an edge to itself that the weight limit allows to be joined with itself, but with no neighbour:
both aggregation schemes, under every random choice, run into undefined behaviour. -/
theorem C92_aggregate (E : Env) (s : Scheme) {maxW v : Nat} (hwf : g.WF) (hV : g.sumVtx < M32) (hmax : maxW < M32)
    (h : OnlySelf g maxW v) (r : E.rng.S) : aggregate E s maxW g r = ub :=
  aggregate_lone E s hwf (h.lone hwf hV hmax) r

/-! ### Calls -/

/-- The caller's vertex `v` has an edge to itself, its doubled weight is within the limit `3 W / 40` for coarse vertices
(`W` the total weight), and together with any other vertex at the end of one of its edges, or with one of whose edges it
is the end, it exceeds that limit. In particular: `v` is light and has edges to itself only. -/
structure Input.LoneLoop (i : Input) (v : Nat) : Prop where
  lt : v < i.numVertices
  loop : ∃ e, nth i.edgePrefix v ≤ e ∧ e < nth i.edgePrefix (v + 1) ∧ nth i.edgeList e = v
  light : 2 * weightAt i.vertexWeights v ≤ 3 * i.totalWeight / 40
  out : ∀ e, nth i.edgePrefix v ≤ e → e < nth i.edgePrefix (v + 1) → nth i.edgeList e ≠ v →
    3 * i.totalWeight / 40 < weightAt i.vertexWeights v + weightAt i.vertexWeights (nth i.edgeList e)
  into : ∀ u, u < i.numVertices → u ≠ v → ∀ e, nth i.edgePrefix u ≤ e → e < nth i.edgePrefix (u + 1) →
    nth i.edgeList e = v → 3 * i.totalWeight / 40 < weightAt i.vertexWeights u + weightAt i.vertexWeights v

theorem Represents.mem_nbrs {i : Input} (hc : CSR i.numVertices i.numEdges i.edgePrefix i.edgeList i.vertexWeights i.edgeWeights)
    (hr : Represents i.numVertices i.numEdges i.edgePrefix i.edgeList i.vertexWeights i.edgeWeights g) {v u : Nat}
    (hv : v < i.numVertices) : (∃ q ∈ g.nbrs v, q.1 = u) ↔
      ∃ e, nth i.edgePrefix v ≤ e ∧ e < nth i.edgePrefix (v + 1) ∧ nth i.edgeList e = u := by
  have h1 : nth i.edgePrefix v ≤ nth i.edgePrefix (v + 1) := hc.mono v hv
  have h2 : nth i.edgePrefix (v + 1) ≤ i.numEdges := by
    have := hc.xadj_le (u := v + 1) (v := i.numVertices) (by omega) (le_refl _)
    rwa [hc.last] at this
  unfold Graph.nbrs
  constructor
  · rintro ⟨q, hq, rfl⟩
    obtain ⟨e, he, rfl⟩ := List.mem_map.mp hq
    rw [List.mem_range'_1, hr.xadj_at (by omega), hr.xadj_at (by omega)] at he
    exact ⟨e, he.1, by omega, (hr.adj_at (by omega)).symm⟩
  · rintro ⟨e, h3, h4, rfl⟩
    refine ⟨_, List.mem_map.mpr ⟨e, ?_, rfl⟩, hr.adj_at (by omega)⟩
    rw [List.mem_range'_1, hr.xadj_at (by omega), hr.xadj_at (by omega)]
    omega

/-- **C92** A call on any graph (in a well-formed CSR array, not necessarily symmetric) with more than 20 vertices and
such a vertex is undefined behaviour, for any number of parts from 2, scheme, seed and positive number of cuts. -/
theorem C92_call [Concrete.Log2Impl] (pq : PQImpl) (set : SetImpl) (rng : RngImpl) {i : Input}
    (hc : CSR i.numVertices i.numEdges i.edgePrefix i.edgeList i.vertexWeights i.edgeWeights)
    (htot : i.totalWeight < 2 ^ 32 - 1) (hn : 20 < i.numVertices) {v : Nat} (hl : i.LoneLoop v)
    (hk : 2 ≤ i.numPartitions) (hk' : i.numPartitions < 2 ^ 32) {o : Options Concrete.fp} (ho : o.Known)
    (hcuts : 0 < o.numGlobalCuts) (out : Out) :
    (partGraphRecursive (dblEnv pq set rng) i (some o) out).2 = ub := by
  have htot' : i.totalWeight < 4294967295 := by simpa using htot
  obtain ⟨g, hg, hr⟩ := ofPtrs_spec hc.nv_lt hc.xadj_len hc.adj_len hc.vw_len hc.aw_len
  have hwf := hc.wf hr
  have hs : g.sumVtx = i.totalWeight := by
    unfold Graph.sumVtx Input.totalWeight
    rw [hr.nv_eq]
    exact sum_congr rfl fun v hv => hr.vw_at (mem_range.mp hv)
  have hT : g.totVtx = i.totalWeight := by rw [hwf.tot_vtx, hs, Nat.mod_eq_of_lt (by omega)]
  obtain ⟨s, hs'⟩ := makeScheme_known ho
  obtain ⟨t, ht, hfit⟩ := Concrete.uniformOK.uniform i.numPartitions i.totalWeight hk (by simpa using hk') (by omega)
  have hp : prepare (dblEnv pq set rng) i o = ok ⟨g, s, t⟩ := by
    unfold prepare
    rw [rd_of_lt (by have := hc.xadj_len; omega), ok_bind]
    rw [show nth i.edgePrefix i.numVertices = i.numEdges from rfl, hg, ok_bind, hT, hs', ok_bind]
    rw [show Target.ofFractions i.numPartitions i.totalWeight ((dblEnv pq set rng).fp.lit 3 2)
      (paramFractions (dblEnv pq set rng).fp i.numPartitions) = ok t from ht, ok_bind]
  obtain ⟨-, h3, -, h4, h5, -⟩ := ofFractions_shape ht
  have hlone : OnlySelf g (3 * g.totVtx / 40) v := by
    have hw : ∀ u, u < i.numVertices → g.vw u = weightAt i.vertexWeights u := fun u hu => hr.vw_at hu
    have hdest : ∀ u, u < i.numVertices → ∀ q ∈ g.nbrs u, q.1 < i.numVertices := by
      intro u hu q hq
      have := Graph.nbrs_lt hwf (by rw [hr.nv_eq]; exact hu) hq
      rwa [hr.nv_eq] at this
    rw [hT]
    refine ⟨by rw [hr.nv_eq]; exact hl.lt, (hr.mem_nbrs hc hl.lt).mpr hl.loop, ?_, fun q hq hne => ?_, fun u hu hne q hq e => ?_⟩
    · unfold joinable
      rw [hw v hl.lt]
      have := hl.light
      simp only [Bool.or_eq_true, decide_eq_true_eq]
      omega
    · obtain ⟨e, h1, h2, he⟩ := (hr.mem_nbrs hc hl.lt).mp ⟨q, hq, rfl⟩
      have h6 := hl.out e h1 h2 (by rw [he]; exact hne)
      have h7 := vw_add_le_sumVtx (g := g) (by rw [hr.nv_eq]; exact hl.lt) (Graph.nbrs_lt hwf (by rw [hr.nv_eq]; exact hl.lt) hq)
        (Ne.symm hne)
      rw [hw v hl.lt, hw _ (hdest v hl.lt q hq)] at h7
      unfold joinable
      rw [hw v hl.lt, hw _ (hdest v hl.lt q hq)]
      rw [he] at h6
      simp only [Bool.or_eq_false_iff, decide_eq_false_iff_not]
      omega
    · rw [hr.nv_eq] at hu
      obtain ⟨d, h1, h2, he⟩ := (hr.mem_nbrs hc hu).mp ⟨q, hq, e⟩
      have h6 := hl.into u hu hne d h1 h2 he
      have h7 := vw_add_le_sumVtx (g := g) (by rw [hr.nv_eq]; exact hu) (by rw [hr.nv_eq]; exact hl.lt) hne
      rw [hw v hl.lt, hw u hu] at h7
      unfold joinable
      rw [hw v hl.lt, hw u hu]
      simp only [Bool.or_eq_false_iff, decide_eq_false_iff_not]
      omega
  have hne : g.ne ≠ 0 := by
    obtain ⟨e, h1, h2, -⟩ := hl.loop
    have := hc.xadj_le (u := v + 1) (v := i.numVertices) (by have := hl.lt; omega) (le_refl _)
    rw [hc.last] at this
    rw [hr.ne_eq]
    omega
  refine call_ub (E := dblEnv pq set rng) hp hcuts (fun r => partitioner_ub (by rw [h3]; exact hk)
    (by rw [h3]; simpa using hk') (by rw [h3]; exact h4) (by rw [h3]; exact h5) hfit fun bt _ => ?_) out
  have hM := Concrete.multilevelOK (tot := g.totVtx) (by omega)
  unfold Multilevel.execute edgeRatioMake
  rw [if_neg (by
    show ¬ ((Concrete.fp.le (Concrete.fp.lit 95 2) (Concrete.fp.lit 0 0) ||
      Concrete.fp.le (Concrete.fp.lit 1 0) (Concrete.fp.lit 95 2)) = true)
    rw [hM.ratio_pos, hM.ratio_lt]; decide), ok_bind]
  have hcast : FP.cast (dblEnv pq set rng).fp ((dblEnv pq set rng).fp.div ((dblEnv pq set rng).fp.mul
      ((dblEnv pq set rng).fp.lit 15 1) ((dblEnv pq set rng).fp.ofNat g.totVtx))
      ((dblEnv pq set rng).fp.ofNat 20)) = ok (3 * g.totVtx / 40) := by
    unfold FP.cast
    rw [show (dblEnv pq set rng).fp.toU32 _ = _ from Concrete.coarseLimit (by omega)]
  rw [hcast, ok_bind]
  unfold Multilevel.recurse
  rw [mlStop_eq _ 0 none (Or.inl rfl), ok_bind]
  have hst : mlStops (dblEnv pq set rng).fp ((dblEnv pq set rng).fp.lit 95 2) none g = false := by
    unfold mlStops
    have := hr.nv_eq
    simp [hne]
    omega
  rw [hst]
  have hub : (makeMultilevel (dblEnv pq set rng) s).agg (3 * g.totVtx / 40) g r = ub :=
    C92_aggregate (dblEnv pq set rng) s hwf (by omega) (by omega) hlone r
  simp only [Bool.false_eq_true, if_false]
  rw [hub]
  rfl

/-- 60 vertices of weight 1; an edge between 0 and 1, and an edge from 2 to itself. -/
def selfLoopIn : Input :=
  { numVertices := 60, edgePrefix := [0, 1, 2] ++ List.replicate 58 3, edgeList := [1, 0, 2], vertexWeights := none,
    edgeWeights := none, numPartitions := 2 }

/-- A call the theorem applies to, and a graph the first theorem applies to. -/
example : CSR selfLoopIn.numVertices selfLoopIn.numEdges selfLoopIn.edgePrefix selfLoopIn.edgeList
      selfLoopIn.vertexWeights selfLoopIn.edgeWeights ∧
    selfLoopIn.totalWeight < 2 ^ 32 - 1 ∧ 20 < selfLoopIn.numVertices ∧ selfLoopIn.LoneLoop 2 ∧
    (Ex.cuts 1).Known ∧ 0 < (Ex.cuts 1).numGlobalCuts ∧
    (partGraphRecursive Concrete.env selfLoopIn (some (Ex.cuts 1)) Ex.before).2 = ub ∧
    loopGraph.WF ∧ loopGraph.sumVtx < M32 ∧ OnlySelf loopGraph 2 0 :=
  ⟨by constructor <;> decide +kernel, by decide +kernel, by decide +kernel,
    ⟨by decide +kernel, ⟨2, by decide +kernel⟩, by decide +kernel,
      fun e h1 h2 h => absurd (show e = 2 by
        have : nth selfLoopIn.edgePrefix 2 = 2 := by decide +kernel
        have : nth selfLoopIn.edgePrefix (2 + 1) = 3 := by decide +kernel
        omega) (by rintro rfl; exact h (by decide +kernel)),
      fun u hu hne e h1 h2 h => absurd h ((by decide +kernel : ∀ u < 60, u ≠ 2 → ∀ e < nth selfLoopIn.edgePrefix (u + 1),
        nth selfLoopIn.edgePrefix u ≤ e → nth selfLoopIn.edgeList e ≠ 2) u hu hne e h2 h1)⟩,
    Or.inr rfl, by decide, by decide +kernel, by constructor <;> decide +kernel, by decide +kernel,
    ⟨by decide +kernel, by decide +kernel, by decide +kernel, by decide +kernel, by decide +kernel⟩⟩

end Poros
