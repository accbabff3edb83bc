import Verif.Proofs.TwoStep
import Verif.Proofs.Contraction
import Verif.Props.P19_Partitioning
/-
Subgraph extraction.
-/
namespace Poros
open Finset Res

attribute [-simp] List.length_flatten List.map_flatten

/-! ### Arrays of objects -/

theorem onNth_eq {β} [Inhabited β] {bs : List β} {p : Nat} {f : β → Res β} {b : β} (hp : p < bs.length)
    (h : f (nth bs p) = ok b) : onNth bs p f = ok (bs.set p b) := by
  unfold onNth
  rw [rd_of_lt hp, ok_bind, h, ok_bind, wr_of_lt hp]

theorem foldlM_onNth {β ι} [Inhabited β] (step : β → ι → Res β) (ops : List (Nat × ι)) (bs bs' : List β)
    (hlen : bs'.length = bs.length) (hp : ∀ o ∈ ops, o.1 < bs.length)
    (h : ∀ p, p < bs.length →
      ((ops.filter fun o => decide (o.1 = p)).map Prod.snd).foldlM step (nth bs p) = ok (nth bs' p)) :
    ops.foldlM (fun bs o => onNth bs o.1 fun b => step b o.2) bs = ok bs' := by
  induction ops generalizing bs with
  | nil =>
    have : bs = bs' := list_ext_nth hlen.symm fun i hi => by
      have := h i hi
      simpa using this
    rw [this]; rfl
  | cons o ops ih =>
    have ho := hp o (by simp)
    have h1 := h o.1 ho
    simp only [decide_true, List.filter_cons_of_pos, List.map_cons, List.foldlM_cons] at h1
    cases hs : step (nth bs o.1) o.2 with
    | ub => rw [hs] at h1; cases h1
    | exn => rw [hs] at h1; cases h1
    | diverge => rw [hs] at h1; cases h1
    | ok b =>
      rw [hs, ok_bind] at h1
      rw [List.foldlM_cons, onNth_eq ho hs, ok_bind]
      refine ih (bs.set o.1 b) (by simpa using hlen) (fun x hx => by simpa using hp x (by simp [hx])) ?_
      intro p hpl
      have hpl : p < bs.length := by simpa using hpl
      rw [nth_set ho]
      by_cases hpo : p = o.1
      · subst hpo; rw [if_pos rfl]; exact h1
      · rw [if_neg hpo]
        have := h p hpl
        rwa [List.filter_cons_of_neg (by simpa using Ne.symm hpo)] at this

theorem foldlM_onNth_ex {β ι} [Inhabited β] (step : β → ι → Res β) (ops : List (Nat × ι)) (bs : List β)
    (hp : ∀ o ∈ ops, o.1 < bs.length) (P : Nat → β → Prop)
    (h : ∀ p, p < bs.length → ∃ b',
      ((ops.filter fun o => decide (o.1 = p)).map Prod.snd).foldlM step (nth bs p) = ok b' ∧ P p b') :
    ∃ bs', ops.foldlM (fun bs o => onNth bs o.1 fun b => step b o.2) bs = ok bs' ∧ bs'.length = bs.length ∧
      ∀ p, p < bs.length → P p (nth bs' p) := by
  have hex : ∀ p, ∃ b', p < bs.length →
      ((ops.filter fun o => decide (o.1 = p)).map Prod.snd).foldlM step (nth bs p) = ok b' ∧ P p b' := by
    intro p
    by_cases hpl : p < bs.length
    · obtain ⟨b', hb⟩ := h p hpl; exact ⟨b', fun _ => hb⟩
    · exact ⟨default, fun h' => absurd h' hpl⟩
  choose F hF using hex
  have hn : ∀ p, p < bs.length → nth ((List.range bs.length).map F) p = F p := by
    intro p hpl; rw [nth_map (by simpa using hpl), nth_range hpl]
  refine ⟨(List.range bs.length).map F, foldlM_onNth step ops bs _ (by simp) hp ?_, by simp, ?_⟩
  · intro p hpl; rw [hn p hpl]; exact (hF p hpl).1
  · intro p hpl; rw [hn p hpl]; exact (hF p hpl).2

/-- Nested loops over constant data are one loop over the flattened list of steps. -/
theorem foldlM_flatMap {α ι σ} {l : List α} (ops : α → List ι) {body : σ → α → Res σ} {step : σ → ι → Res σ}
    (h : ∀ x ∈ l, ∀ s, body s x = (ops x).foldlM step s) (s : σ) :
    l.foldlM body s = (l.flatMap ops).foldlM step s := by
  induction l generalizing s with
  | nil => rfl
  | cons x xs ih =>
    rw [List.foldlM_cons, List.flatMap_cons, List.foldlM_append, h x (by simp)]
    congr 1
    funext s'
    exact ih (fun y hy => h y (by simp [hy])) s'

/-- A loop whose body skips some elements is a loop over the others. -/
theorem foldlM_filter {α σ} {l : List α} {c : α → Bool} {body step : σ → α → Res σ}
    (h : ∀ x ∈ l, ∀ s, body s x = if c x then step s x else ok s) (s : σ) :
    l.foldlM body s = (l.filter c).foldlM step s := by
  induction l generalizing s with
  | nil => rfl
  | cons x xs ih =>
    rw [List.foldlM_cons, h x (by simp)]
    have ih := fun s => ih (fun y hy => h y (by simp [hy])) s
    cases hc : c x with
    | true => simp only [if_true, List.filter_cons, hc, List.foldlM_cons]; congr 1; funext s'; exact ih s'
    | false => simp only [List.filter_cons, hc, Bool.false_eq_true, if_false, ok_bind]; exact ih s

theorem filter_tagged {ι} (lab : Nat → Nat) (F : Nat → List ι) (p n : Nat) :
    (((List.range n).flatMap fun v => (F v).map fun x => (lab v, x)).filter fun o => decide (o.1 = p)).map Prod.snd =
      (fiber lab n p).flatMap F := by
  unfold fiber
  induction (List.range n) with
  | nil => rfl
  | cons v l ih =>
    rw [List.flatMap_cons, List.filter_append, List.map_append, ih, List.filter_map, List.map_map]
    by_cases h : lab v = p
    · simp [h, Function.comp_def]
    · simp [h, Function.comp_def]

/-! ### Positions inside a part -/

/-- Index of `v` in its own part. -/
def subOf (lab : Nat → Nat) (v : Nat) : Nat := (fiber lab v (lab v)).length

theorem subOf_lt {lab : Nat → Nat} {n v : Nat} (hv : v < n) : subOf lab v < (fiber lab n (lab v)).length := by
  have := fiber_prefix (cmap := lab) (c := lab v) (i := v + 1) (n := n) (by omega)
  rw [fiber_succ] at this
  simp at this
  unfold subOf; omega

theorem fiber_append {lab : Nat → Nat} {i n c : Nat} (h : i ≤ n) : ∃ t, fiber lab n c = fiber lab i c ++ t := by
  induction n, h using Nat.le_induction with
  | base => exact ⟨[], by simp⟩
  | succ n _ ih =>
    obtain ⟨t, ht⟩ := ih
    rw [fiber_succ, ht]
    exact ⟨_, List.append_assoc _ _ _⟩

theorem nth_fiber_subOf {lab : Nat → Nat} {n v : Nat} (hv : v < n) : nth (fiber lab n (lab v)) (subOf lab v) = v := by
  obtain ⟨t, ht⟩ := fiber_append (lab := lab) (c := lab v) (i := v + 1) (n := n) (by omega)
  rw [ht, fiber_succ, if_pos rfl, List.append_assoc]
  exact nth_append_cons _ _ _ _ rfl

theorem subOf_nth_fiber {lab : Nat → Nat} {n p j : Nat} (hj : j < (fiber lab n p).length) :
    subOf lab (nth (fiber lab n p) j) = j := by
  have hm := mem_fiber.mp (nth_mem hj)
  have h1 := nth_fiber_subOf (lab := lab) hm.1
  have h2 := subOf_lt (lab := lab) hm.1
  rw [hm.2] at h1 h2
  have hnd := fiber_nodup lab n p
  rw [nth_eq_getElem h2] at h1
  conv_rhs at h1 => rw [nth_eq_getElem hj]
  exact (List.Nodup.getElem_inj_iff hnd).mp h1

/-! ### What the builders receive -/

/-- The restricted adjacency list of `v` with renamed ends. -/
def subNbrs (g : Graph) (lab : Nat → Nat) (v : Nat) : List (Nat × Nat) :=
  ((g.nbrs v).filter fun q => decide (lab q.1 = lab v)).map fun q => (subOf lab q.1, q.2)

/-- The insertions made for `v`. -/
def insOf (g : Graph) (lab : Nat → Nat) (v : Nat) : List Ins :=
  (subNbrs g lab v).map fun q => { v := subOf lab v, dest := q.1, w := q.2 }

theorem insertedAt_insOf {g : Graph} {lab : Nat → Nat} {v j : Nat} :
    insertedAt (insOf g lab v) j = if subOf lab v = j then subNbrs g lab v else [] := by
  unfold insertedAt insOf
  rw [List.filter_map, List.map_map]
  by_cases h : subOf lab v = j <;> simp [h, Function.comp_def]

theorem insertedAt_fiber {g : Graph} {lab : Nat → Nat} {p n j : Nat} :
    insertedAt ((fiber lab n p).flatMap (insOf g lab)) j =
      if j < (fiber lab n p).length then subNbrs g lab (nth (fiber lab n p) j) else [] := by
  induction n with
  | zero => simp [fiber, insertedAt]
  | succ n ih =>
    rw [fiber_succ]
    by_cases h : lab n = p
    · subst h
      simp only [if_true, List.flatMap_append, List.flatMap_cons, List.flatMap_nil, List.append_nil,
        insertedAt_append', ih, insertedAt_insOf, List.length_append, List.length_singleton]
      have hs : subOf lab n = (fiber lab n (lab n)).length := rfl
      rw [hs]
      rcases Nat.lt_trichotomy j (fiber lab n (lab n)).length with hlt | heq | hgt
      · rw [if_pos hlt, if_neg (by omega), if_pos (by omega), nth_append_left hlt, List.append_nil]
      · rw [if_neg (by omega), if_pos heq.symm, if_pos (by omega), nth_append_right (by omega), heq]
        simp [nth]
      · rw [if_neg (by omega), if_neg (by omega), if_neg (by omega)]; rfl
    · simp only [if_neg h, List.append_nil, ih]

theorem deg_incs (L : List Ins) (f : Nat → Nat) (j : Nat) :
    (L.map fun i => VOp.incDegree i.v).foldl VOp.deg f j = f j + (insertedAt L j).length := by
  induction L generalizing f with
  | nil => simp [insertedAt]
  | cons i L ih =>
    rw [List.map_cons, List.foldl_cons, ih]
    have : insertedAt (i :: L) j = insertedAt [i] j ++ insertedAt L j := insertedAt_append' [i] L j
    rw [this, List.length_append]
    have h2 : (insertedAt [i] j).length = if i.v = j then 1 else 0 := by
      unfold insertedAt
      by_cases h : i.v = j <;> simp [h]
    rw [h2]
    unfold VOp.deg
    by_cases h : j = i.v
    · subst h; simp; omega
    · simp [h, Ne.symm h]

theorem wgt_incs (L : List Ins) (f : Nat → Option Nat) :
    (L.map fun i => VOp.incDegree i.v).foldl VOp.wgt f = f := by
  induction L with
  | nil => rfl
  | cons i L ih => rw [List.map_cons, List.foldl_cons]; exact ih

theorem hist_incs {n : Nat} {unitV : Bool} {L : List Ins} {f : Nat → Nat} (hv : ∀ i ∈ L, i.v < n)
    (hs : ∀ j, f j + (insertedAt L j).length < M32) :
    VHistory n unitV f (L.map fun i => VOp.incDegree i.v) := by
  induction L generalizing f with
  | nil => trivial
  | cons i L ih =>
    have hcons : ∀ j, (insertedAt (i :: L) j).length = (if i.v = j then 1 else 0) + (insertedAt L j).length := by
      intro j
      have : insertedAt (i :: L) j = insertedAt [i] j ++ insertedAt L j := insertedAt_append' [i] L j
      rw [this, List.length_append]
      congr 1
      unfold insertedAt
      by_cases h : i.v = j <;> simp [h]
    refine ⟨⟨hv i (by simp), ?_⟩, ih (fun x hx => hv x (by simp [hx])) ?_⟩
    · have := hs i.v
      rw [hcons, if_pos rfl] at this; omega
    · intro j
      have := hs j
      rw [hcons] at this
      unfold VOp.deg
      by_cases h : j = i.v
      · subst h; simp only [if_true] at this ⊢; omega
      · rw [if_neg (Ne.symm h)] at this
        simp only [if_neg h]; omega

/-- The weights set for the vertices of part `p`. -/
def wgtOps (g : Graph) (lab : Nat → Nat) (n p : Nat) : List VOp :=
  (fiber lab n p).map fun v => VOp.setWeight (subOf lab v) (g.vw v)

theorem wgt_fiber {g : Graph} {lab : Nat → Nat} {n p : Nat} {j : Nat} (hj : j < (fiber lab n p).length) :
    (wgtOps g lab n p).foldl VOp.wgt (fun _ => none) j = some (g.vw (nth (fiber lab n p) j)) := by
  unfold wgtOps
  induction n with
  | zero => simp [fiber] at hj
  | succ n ih =>
    rw [fiber_succ] at hj ⊢
    by_cases h : lab n = p
    · subst h
      simp only [if_true, List.length_append, List.length_singleton] at hj
      rw [if_pos rfl, List.map_append, List.foldl_append]
      simp only [List.map_cons, List.map_nil, List.foldl_cons, List.foldl_nil]
      have hs : subOf lab n = (fiber lab n (lab n)).length := rfl
      show (if j = subOf lab n then some (g.vw n) else _) = _
      rw [hs]
      by_cases hjl : j = (fiber lab n (lab n)).length
      · rw [if_pos hjl, nth_append_right (by omega), hjl]; simp [nth]
      · rw [if_neg hjl, ih (by omega), nth_append_left (by omega)]
    · simp only [if_neg h, List.append_nil] at hj ⊢
      exact ih hj

theorem deg_wgtOps {g : Graph} {lab : Nat → Nat} {n p : Nat} (f : Nat → Nat) :
    (wgtOps g lab n p).foldl VOp.deg f = f := by
  unfold wgtOps
  induction fiber lab n p with
  | nil => rfl
  | cons v l ih => rw [List.map_cons, List.foldl_cons]; exact ih

theorem hist_wgtOps {g : Graph} {lab : Nat → Nat} {n p m : Nat} {f : Nat → Nat}
    (hm : ∀ v ∈ fiber lab n p, subOf lab v < m) : VHistory m false f (wgtOps g lab n p) := by
  unfold wgtOps
  revert hm
  induction fiber lab n p with
  | nil => intro _; trivial
  | cons v l ih =>
    intro hm
    exact ⟨⟨hm v (by simp), rfl⟩, ih fun u hu => hm u (by simp [hu])⟩

/-! ### The maps -/

theorem superLabel_eq {n : Nat} {labels : Option (List Nat)} (h : LabelsOK n labels) {v : Nat} (hv : v < n) :
    superLabel labels v = ok (superOf labels v) := by
  cases labels with
  | none => rfl
  | some l => exact rd_of_lt (by simp [LabelsOK] at h; omega)

theorem fillMaps_spec {g : Graph} {part : Partitioning} {k : Nat} {labels : Option (List Nat)}
    (hg : g.WF) (ha : part.asg.length = g.nv) (hl : ∀ v, v < g.nv → part.lab v < k)
    (hlab : LabelsOK g.nv labels) {counts : List Nat} (hc : counts.length = k)
    (hcn : ∀ p, p < k → nth counts p = (fiber part.lab g.nv p).length) :
    ∃ m, fillMaps g part labels (List.replicate counts.length 0, counts.map Mem.alloc, Mem.alloc g.nv) = ok m ∧
      m.2.1.length = k ∧
      (∀ p, p < k → (nth m.2.1 p).freeze = ok ((fiber part.lab g.nv p).map (superOf labels))) ∧
      (∀ v, v < g.nv → m.2.2.rd v = ok (subOf part.lab v)) := by
  have hn := hg.nv_lt
  unfold fillMaps
  have := sat_iff.mp (Post_foldlM_range (n := g.nv) (B := False)
    (f := fun (s : List Nat × List Mem × Mem) v => do
      let whr ← rd part.asg v
      let subV ← rd s.1 whr
      let counts ← wr s.1 whr (uadd subV 1)
      let x ← superLabel labels v
      let supers ← onNth s.2.1 whr fun m => m.wr subV x
      let sub ← s.2.2.wr v subV
      .ok (counts, supers, sub))
    (s := (List.replicate counts.length 0, counts.map Mem.alloc, Mem.alloc g.nv))
    (P := fun i s => s.1.length = k ∧ (∀ p, p < k → nth s.1 p = (fiber part.lab i p).length) ∧
      s.2.1.length = k ∧ (∀ p, p < k → (nth s.2.1 p).length = (fiber part.lab g.nv p).length ∧
        ∀ j, j < (fiber part.lab i p).length → nth (nth s.2.1 p) j = some (superOf labels (nth (fiber part.lab i p) j))) ∧
      s.2.2.length = g.nv ∧ ∀ v, v < i → nth s.2.2 v = some (subOf part.lab v)) ?_ ?_)
  · obtain ⟨m, hm, h1, h2, h3, h4, h5, h6⟩ := this
    refine ⟨m, hm, h3, ?_, fun v hv => Mem.rd_of_some (h6 v hv)⟩
    intro p hp
    obtain ⟨h7, h8⟩ := h4 p hp
    rw [freeze_spec (fun j => superOf labels (nth (fiber part.lab g.nv p) j)) h7 h8]
    congr 1
    refine list_ext_nth (by simp) fun i hi => ?_
    have hi : i < (fiber part.lab g.nv p).length := by simpa using hi
    rw [nth_map (by simpa using hi), nth_range hi, nth_map hi]
  · refine ⟨by simp [hc], ?_, by simp [hc], ?_, by simp [Mem.alloc], by omega⟩
    · intro p hp
      simp only
      rw [nth_replicate (by omega)]; simp [fiber]
    · intro p hp
      simp only
      rw [nth_map (by omega), hcn p hp]
      refine ⟨by simp [Mem.alloc], fun j hj => ?_⟩
      simp [fiber] at hj
  · intro i s hi ⟨h1, h2, h3, h4, h5, h6⟩
    have hli := hl i hi
    have hsub : subOf part.lab i < (fiber part.lab g.nv (part.lab i)).length := subOf_lt hi
    have hs : subOf part.lab i = (fiber part.lab i (part.lab i)).length := rfl
    have hfn : (fiber part.lab g.nv (part.lab i)).length ≤ g.nv := by
      have := List.length_filter_le (fun v => decide (part.lab v = part.lab i)) (List.range g.nv)
      simpa [fiber] using this
    rw [rd_of_lt (by omega), ok_bind]
    show Post False (rd s.1 (part.lab i) >>= _) _
    rw [rd_of_lt (by omega), ok_bind, h2 _ hli, ← hs, uadd_eq (by omega)]
    show Post False (wr s.1 (part.lab i) _ >>= _) _
    rw [wr_of_lt (by omega), ok_bind, superLabel_eq hlab hi, ok_bind]
    show Post False (onNth s.2.1 (part.lab i) _ >>= _) _
    rw [onNth_eq (b := (nth s.2.1 (part.lab i)).set (subOf part.lab i) (some (superOf labels i))) (by omega)
      (Mem.wr_of_lt (by rw [(h4 _ hli).1]; exact hsub)), ok_bind, Mem.wr_of_lt (by omega), ok_bind]
    refine ⟨by simpa using h1, ?_, by simpa using h3, ?_, by simpa using h5, ?_⟩
    · intro p hp
      simp only
      rw [nth_set (by omega), fiber_succ]
      by_cases hpi : part.lab i = p
      · subst hpi; simp [hs]
      · rw [if_neg (Ne.symm hpi), h2 p hp]; simp [hpi]
    · intro p hp
      simp only
      rw [nth_set (by omega)]
      by_cases hpi : part.lab i = p
      · subst hpi
        rw [if_pos rfl]
        obtain ⟨h7, h8⟩ := h4 _ hli
        refine ⟨by simpa using h7, fun j hj => ?_⟩
        rw [nth_set (by rw [h7]; exact hsub)]
        rw [fiber_succ] at hj ⊢
        simp only [if_true, List.length_append, List.length_singleton] at hj ⊢
        by_cases hjs : j = subOf part.lab i
        · rw [if_pos hjs, nth_append_right (by omega)]
          rw [hjs, hs]; simp [nth]
        · rw [if_neg hjs, h8 j (by omega), nth_append_left (by omega)]
      · rw [if_neg (Ne.symm hpi), fiber_succ]
        simp only [hpi, if_false, List.append_nil]
        exact h4 p hp
    · intro v hv
      simp only
      rw [nth_set (by omega)]
      by_cases hvi : v = i
      · rw [if_pos hvi, hvi]
      · rw [if_neg hvi]; exact h6 v (by omega)

theorem numWithLabel_eq_fiber (n : Nat) (lab : Nat → Nat) (p : Nat) :
    numWithLabel n lab p = (fiber lab n p).length := by
  unfold numWithLabel
  rw [card_filter, ← sum_over_fiber lab n p (fun _ => 1)]
  simp

/-! ### The loops over builders -/

section loops
variable {g : Graph} {part : Partitioning} {k : Nat} {sub : Mem}

theorem fillVertexWeights_flat (hg : g.WF) (hu : g.unitVtx = false) (ha : part.asg.length = g.nv)
    (hsub : ∀ v, v < g.nv → sub.rd v = ok (subOf part.lab v)) (bs : List TwoStep) :
    fillVertexWeights g part sub bs =
      ((List.range g.nv).flatMap fun v => ([VOp.setWeight (subOf part.lab v) (g.vw v)]).map fun x =>
        (part.lab v, x)).foldlM (fun bs o => onNth bs o.1 fun b => o.2.run b) bs := by
  unfold fillVertexWeights
  refine foldlM_flatMap _ ?_ bs
  intro v hv s
  have hv := List.mem_range.mp hv
  have hw : g.vwgtOf true v = ok (g.vw v) := by
    have := Graph.vwgtOf_eq hg hv; rwa [hu] at this
  rw [hsub v hv, ok_bind, rd_of_lt (by omega), ok_bind, hw, ok_bind]
  simp only [List.map_cons, List.map_nil, List.foldlM_cons, List.foldlM_nil]
  show onNth s (part.lab v) _ = (onNth s (part.lab v) _ >>= pure)
  rw [bind_pure]; rfl

theorem countSubEdges_flat (hg : g.WF) (ha : part.asg.length = g.nv)
    (hsub : ∀ v, v < g.nv → sub.rd v = ok (subOf part.lab v)) (bs : List TwoStep) :
    countSubEdges g part sub bs =
      ((List.range g.nv).flatMap fun v => ((insOf g part.lab v).map fun i => VOp.incDegree i.v).map fun x =>
        (part.lab v, x)).foldlM (fun bs o => onNth bs o.1 fun b => o.2.run b) bs := by
  unfold countSubEdges
  refine foldlM_flatMap _ ?_ bs
  intro v hv s
  have hv := List.mem_range.mp hv
  rw [hsub v hv, ok_bind, rd_of_lt (by omega), ok_bind, Graph.nbrsOf_false_eq hg hv, ok_bind]
  rw [foldlM_filter (c := fun q => decide (part.lab q.1 = part.lab v))
    (step := fun bs q => onNth bs (part.lab v) (TwoStep.incVertexNumEdges (subOf part.lab v)))]
  · unfold insOf subNbrs
    rw [List.filter_map, List.foldlM_map, List.map_map, List.map_map, List.map_map, List.foldlM_map]
    rfl
  · intro q hq s'
    obtain ⟨q', hq', rfl⟩ := List.mem_map.mp hq
    have hlt := Graph.nbrs_lt hg hv hq'
    simp only
    rw [rd_of_lt (by omega), ok_bind]
    show (if part.lab v = part.lab q'.1 then _ else _) = _
    by_cases h : part.lab v = part.lab q'.1
    · rw [if_pos h, if_pos (by simp [h])]; rfl
    · rw [if_neg h, if_neg (by simp [Ne.symm h])]

theorem fillSubEdges_flat (hg : g.WF) (ha : part.asg.length = g.nv)
    (hsub : ∀ v, v < g.nv → sub.rd v = ok (subOf part.lab v)) (bs : List TwoStep) :
    fillSubEdges g (!g.unitEdge) part sub bs =
      ((List.range g.nv).flatMap fun v => (insOf g part.lab v).map fun x => (part.lab v, x)).foldlM
        (fun bs o => onNth bs o.1 fun b => b.addEdgeToVertex o.2.v o.2.dest o.2.w) bs := by
  unfold fillSubEdges
  refine foldlM_flatMap _ ?_ bs
  intro v hv s
  have hv := List.mem_range.mp hv
  rw [hsub v hv, ok_bind, rd_of_lt (by omega), ok_bind, Graph.nbrsOf_eq hg hv, ok_bind]
  rw [foldlM_filter (c := fun q => decide (part.lab q.1 = part.lab v))
    (step := fun bs q => onNth bs (part.lab v) (TwoStep.addEdgeToVertex (subOf part.lab v) (subOf part.lab q.1) q.2))]
  · unfold insOf subNbrs
    rw [List.map_map, List.map_map, List.foldlM_map]
    rfl
  · intro q hq s'
    have hlt := Graph.nbrs_lt hg hv hq
    rw [rd_of_lt (by omega), ok_bind]
    show (if part.lab v = part.lab q.1 then _ else _) = _
    by_cases h : part.lab v = part.lab q.1
    · rw [if_pos h, if_pos (by simp [h]), hsub _ hlt, ok_bind]; rfl
    · rw [if_neg h, if_neg (by simp [Ne.symm h])]

end loops

end Poros
