import Verif.SpecDebug
import Verif.Model.Debug
import Verif.Proofs.DebugFM
import Verif.Proofs.Extract
import Verif.Proofs.Api
import Verif.Props.P69_Valid
/-
The assertions of subgraph extraction.
-/
namespace Poros
open Finset Res

/-! ### subgraphs -/

theorem Close.mono {α : Type} {H H' : Prop} (hH : H' → H) {d r : Res α} (h : Close H d r) : Close H' d r :=
  h.imp id fun h => ⟨fun x => h.1 (hH x), h.2⟩

theorem Close.after {α : Type} {H : Prop} {d : Res α} {f : α → Res α} (h : ∀ x, d = ok x → Close H (f x) (ok x)) :
    Close H (d >>= f) d := by
  cases hd : d with
  | ok x => exact h x hd
  | ub => exact Close.refl _
  | exn => exact Close.refl _
  | diverge => exact Close.refl _

theorem Close.mapM {α β : Type} {H : Prop} {f f' : α → Res β} {l : List α} (h : ∀ x ∈ l, Close H (f x) (f' x)) :
    Close H (l.mapM f) (l.mapM f') := by
  induction l with
  | nil => exact Close.refl _
  | cons x xs ih =>
    rw [List.mapM_cons, List.mapM_cons]
    refine (h x (by simp)).bind fun _ _ => (ih fun y hy => h y (by simp [hy])).bind fun _ _ => Close.refl _

theorem onNth_close {β : Type} [Inhabited β] {H : Prop} {bs : List β} {p : Nat} {f f' : β → Res β} (h : ∀ b, Close H (f b) (f' b)) :
    Close H (onNth bs p f) (onNth bs p f') :=
  Close.bind_ok fun _ _ => (h _).bind fun _ _ => Close.refl _

theorem wr_ok_lt {α : Type} {l l' : List α} {i : Nat} {x : α} (h : wr l i x = ok l') :
    i < l.length ∧ l' = l.set i x := by
  unfold wr at h
  split at h
  · rename_i hi
    exact ⟨hi, (Res.ok.inj h).symm⟩
  · cases h

theorem mapM_ok_len {α β : Type} {f : α → Res β} {l : List α} {out : List β} (h : l.mapM f = ok out) :
    out.length = l.length :=
  ((Post_mapM (B := True) (f := f) (l := l) (fun _ _ => True) (fun _ _ => may_iff.mpr fun _ _ => trivial)).elim_ok h).1

theorem mapM_ok_at {β : Type} [Inhabited β] {f : Nat → Res β} {n : Nat} {out : List β}
    (h : (List.range n).mapM f = ok out) {i : Nat} (hi : i < n) : f i = ok (nth out i) := by
  obtain ⟨h1, h2⟩ := (Post_mapM (B := True) (f := f) (l := List.range n) (fun x y => f x = ok y)
    (fun x _ => may_iff.mpr fun y hy => hy)).elim_ok h
  rw [List.length_range] at h1
  have := h2 i (by simpa using hi) (by omega)
  rw [List.getElem_range] at this
  rw [this]
  unfold nth
  simp [List.getD, List.getElem?_eq_getElem (show i < out.length by omega)]

/-! ### counting edges -/

section
variable {g : Graph} {part : Partitioning} {sub : Mem}

theorem countSubEdgesD_flat (hg : g.WF) (ha : part.asg.length = g.nv)
    (hsub : ∀ v, v < g.nv → sub.rd v = ok (subOf part.lab v)) (bs : List TwoStep) :
    countSubEdgesD g part sub bs =
      ((List.range g.nv).flatMap fun v => (insOf g part.lab v).map fun x =>
        (part.lab v, x)).foldlM (fun bs o => onNth bs o.1 fun b => b.incVertexNumEdgesD o.2.v) bs := by
  unfold countSubEdgesD
  refine foldlM_flatMap _ ?_ bs
  intro v hv s
  have hv := List.mem_range.mp hv
  rw [hsub v hv, ok_bind, rd_of_lt (by omega), ok_bind, Graph.nbrsOf_false_eq hg hv, ok_bind]
  rw [foldlM_filter (c := fun q => decide (part.lab q.1 = part.lab v))
    (step := fun bs q => onNth bs (part.lab v) (TwoStep.incVertexNumEdgesD (subOf part.lab v)))]
  · unfold insOf subNbrs
    rw [List.filter_map, List.foldlM_map, List.map_map, List.map_map, List.foldlM_map]
    rfl
  · intro q hq s'
    obtain ⟨q', hq', rfl⟩ := List.mem_map.mp hq
    have hlt := Graph.nbrs_lt hg hv hq'
    simp only
    rw [rd_of_lt (by omega), ok_bind]
    show (if part.lab v = part.lab q'.1 then _ else _) = _
    by_cases h : part.lab v = part.lab q'.1
    · rw [if_pos h, if_pos (by simp [h])]; rfl
    · rw [if_neg h, if_neg (by simp [Ne.symm h])]

end

theorem insertedAt_cons (i : Ins) (L : List Ins) (j : Nat) :
    (insertedAt (i :: L) j).length = (if i.v = j then 1 else 0) + (insertedAt L j).length := by
  have : insertedAt (i :: L) j = insertedAt [i] j ++ insertedAt L j := insertedAt_append' [i] L j
  rw [this, List.length_append]
  congr 1
  unfold insertedAt
  by_cases h : i.v = j <;> simp [h]

theorem VInv.incsD {n : Nat} {unitV unitE : Bool} {L : List Ins} {f : Nat → Nat} {wf : Nat → Option Nat} {b : TwoStep}
    (h : VInv n unitV unitE f wf b) (hn : n < NULL32) (hv : ∀ i ∈ L, i.v < n)
    (hs : ∀ j, (insertedAt L j).length = 0 ∨ f j + (insertedAt L j).length < n) :
    ∃ b', L.foldlM (fun b i => b.incVertexNumEdgesD i.v) b = ok b' ∧
      (L.map fun i => VOp.incDegree i.v).foldlM VOp.run b = ok b' := by
  induction L generalizing f b with
  | nil => exact ⟨b, rfl, rfl⟩
  | cons i L ih =>
    have hi := hv i (by simp)
    have h0 := hs i.v
    rw [insertedAt_cons, if_pos rfl] at h0
    have hop : (VOp.incDegree i.v).Legal n unitV f := ⟨hi, by omega⟩
    obtain ⟨b1, h1, h2⟩ := h.run hop
    obtain ⟨b', h3, h4⟩ := ih h2 (fun j hj => hv j (by simp [hj])) fun j => by
      have := hs j
      rw [insertedAt_cons] at this
      unfold VOp.deg
      by_cases hj : j = i.v
      · subst hj; simp only [if_true] at this ⊢; omega
      · rw [if_neg (Ne.symm hj)] at this; simp only [if_neg hj]; omega
    refine ⟨b', ?_, ?_⟩
    · rw [List.foldlM_cons]
      unfold TwoStep.incVertexNumEdgesD
      have h1' : b.incVertexNumEdges i.v = ok b1 := h1
      rw [h1', ok_bind, rd_of_lt (by rw [h2.preLen]; omega), ok_bind, h2.pre _ hi, h2.nvEq, check_bind, ok_bind]
      · exact h3
      · unfold VOp.deg
        simp only [if_true]
        omega
    · rw [List.map_cons, List.foldlM_cons, h1, ok_bind]
      exact h4

theorem subDeg_eq {g : Graph} {lab : Nat → Nat} {p j : Nat} (hj : j < subN g lab p) :
    subDeg g lab p j = innerDegree g lab (nth (vertsOf g lab p) j) := by
  unfold subDeg subIns
  rw [insertedAt_fiber, if_pos (show j < (fiber lab g.nv p).length from hj)]
  unfold subNbrs innerDegree
  rw [List.length_map]
  rfl

variable {g : Graph} {part : Partitioning} {k : Nat} {labels : Option (List Nat)} {counts : List Nat}
  {m : List Nat × List Mem × Mem} {bs1 bs2 bs3 bs4 : List TwoStep} {subs : List Subgraph}

/-- The degree condition in terms of the builders. -/
theorem deg_iff (hl : ∀ v, v < g.nv → part.lab v < k) :
    (∀ v, v < g.nv → innerDegree g part.lab v = 0 ∨ innerDegree g part.lab v < (vertsOf g part.lab (part.lab v)).length) ↔
    ∀ p, p < k → ∀ j, j < subN g part.lab p → subDeg g part.lab p j = 0 ∨ subDeg g part.lab p j < subN g part.lab p := by
  constructor
  · intro h p _ j hj
    obtain ⟨h1, h2⟩ := mem_fiber.mp (nth_mem (l := fiber part.lab g.nv p) hj)
    rw [subDeg_eq hj]
    have := h _ h1
    rw [h2] at this
    exact this
  · intro h v hv
    have := h _ (hl v hv) _ (subOf_lt (lab := part.lab) hv)
    rw [subDeg_eq (subOf_lt hv)] at this
    have e : nth (vertsOf g part.lab (part.lab v)) (subOf part.lab v) = v := nth_fiber_subOf hv
    rw [e] at this
    exact this

theorem Stages.countD (h : Stages g part k labels counts m bs1 bs2 bs3 bs4 subs) (hg : g.WF) (ha : part.asg.length = g.nv)
    (hl : ∀ v, v < g.nv → part.lab v < k)
    (hH : ∀ p, p < k → ∀ j, j < subN g part.lab p → subDeg g part.lab p j = 0 ∨ subDeg g part.lab p j < subN g part.lab p) :
    countSubEdgesD g part m.2.2 bs1 = ok bs2 := by
  have htag : ∀ o ∈ (List.range g.nv).flatMap (fun v => (insOf g part.lab v).map fun x => (part.lab v, x)),
      o.1 < bs1.length := by
    intro o ho
    obtain ⟨v, hv, ho⟩ := List.mem_flatMap.mp ho
    obtain ⟨x, _, rfl⟩ := List.mem_map.mp ho
    rw [h.l1]; exact hl v (List.mem_range.mp hv)
  have hp : ∀ p, p < k → ∃ b', (subIns g part.lab p).foldlM (fun b i => b.incVertexNumEdgesD i.v) (nth bs1 p) = ok b' ∧
      ((subIns g part.lab p).map fun i => VOp.incDegree i.v).foldlM VOp.run (nth bs1 p) = ok b' := by
    intro p hp
    have hfl : subN g part.lab p ≤ g.nv := fiber_le part.lab g.nv p
    refine (h.i1 p hp).incsD (lt_of_le_of_lt hfl hg.nv_lt) (fun i hi => insOf_lt hi) fun j => ?_
    by_cases hj : j < subN g part.lab p
    · rw [Nat.zero_add]
      exact hH p hp j hj
    · left
      show (insertedAt ((fiber part.lab g.nv p).flatMap (insOf g part.lab)) j).length = 0
      rw [insertedAt_fiber, if_neg (show ¬ j < (fiber part.lab g.nv p).length from hj)]
      rfl
  rw [countSubEdgesD_flat hg ha h.sub]
  obtain ⟨bs', h1, h2, h3⟩ := foldlM_onNth_ex (fun (b : TwoStep) (i : Ins) => b.incVertexNumEdgesD i.v) _ bs1 htag
    (fun p b => ((subIns g part.lab p).map fun i => VOp.incDegree i.v).foldlM VOp.run (nth bs1 p) = ok b) (by
      intro p hpl
      rw [filter_tagged]
      exact hp p (by rw [← h.l1]; exact hpl))
  have he2 := h.e2
  rw [countSubEdges_flat hg ha h.sub] at he2
  obtain ⟨bs'', h1', h2', h3'⟩ := foldlM_onNth_ex (fun b o => VOp.run b o)
    ((List.range g.nv).flatMap fun v => ((insOf g part.lab v).map fun i => VOp.incDegree i.v).map fun x =>
      (part.lab v, x)) bs1 (by
      intro o ho
      obtain ⟨v, hv, ho⟩ := List.mem_flatMap.mp ho
      obtain ⟨x, _, rfl⟩ := List.mem_map.mp ho
      rw [h.l1]; exact hl v (List.mem_range.mp hv))
    (fun p b => ((subIns g part.lab p).map fun i => VOp.incDegree i.v).foldlM VOp.run (nth bs1 p) = ok b) (by
      intro p hpl
      rw [filter_tagged (lab := part.lab) (F := fun v => (insOf g part.lab v).map fun i => VOp.incDegree i.v)]
      have e : (fiber part.lab g.nv p).flatMap (fun v => (insOf g part.lab v).map fun i => VOp.incDegree i.v) =
          (subIns g part.lab p).map fun i => VOp.incDegree i.v := by
        unfold subIns
        rw [List.map_flatMap]
      rw [e]
      obtain ⟨b', -, hb'⟩ := hp p (by rw [← h.l1]; exact hpl)
      exact ⟨b', hb', hb'⟩)
  rw [he2] at h1'
  obtain rfl := Res.ok.inj h1'
  have hbs : bs' = bs2 := list_ext_nth (by omega) fun p hp => by
    have a := h3 p (by omega)
    have b := h3' p (by omega)
    rw [a] at b
    exact Res.ok.inj b
  rw [← hbs]
  exact h1

/-- What the assertion of `incVertexNumEdges` maintains. -/
theorem countSubEdgesD_deg {sub : Mem} (hbs : ∀ p, p < bs1.length → ∀ j, j < (nth bs1 p).nv → nth (nth bs1 p).pre j = 0 ∨
      nth (nth bs1 p).pre j < (nth bs1 p).nv) (h : countSubEdgesD g part sub bs1 = ok bs2) :
    ∀ p, p < bs2.length → ∀ j, j < (nth bs2 p).nv → nth (nth bs2 p).pre j = 0 ∨ nth (nth bs2 p).pre j < (nth bs2 p).nv := by
  let P : List TwoStep → Prop := fun bs => ∀ p, p < bs.length → ∀ j, j < (nth bs p).nv → nth (nth bs p).pre j = 0 ∨
      nth (nth bs p).pre j < (nth bs p).nv
  have hstep : ∀ (bs : List TwoStep) p v, P bs → Post True (onNth bs p (TwoStep.incVertexNumEdgesD v)) P := by
    intro bs p v hP
    refine may_iff.mpr fun bs' hb => ?_
    unfold onNth at hb
    obtain ⟨b, h1, hb⟩ := bind_eq_ok hb
    obtain ⟨b', h2, hb⟩ := bind_eq_ok hb
    obtain ⟨h3, rfl⟩ := wr_ok_lt hb
    have hbe : b = nth bs p := by
      rw [rd_of_lt h3] at h1; exact (Res.ok.inj h1).symm
    unfold TwoStep.incVertexNumEdgesD at h2
    obtain ⟨b1, h4, h2⟩ := bind_eq_ok h2
    obtain ⟨d, h5, h2⟩ := bind_eq_ok h2
    have hd : d < b1.nv := by
      by_contra hn
      rw [check_false hn] at h2
      cases h2
    rw [check_bind hd] at h2
    obtain rfl := Res.ok.inj h2
    unfold TwoStep.incVertexNumEdges at h4
    obtain ⟨o, h6, h4⟩ := bind_eq_ok h4
    obtain ⟨pre, h7, h4⟩ := bind_eq_ok h4
    obtain ⟨h8, rfl⟩ := wr_ok_lt h7
    obtain rfl := Res.ok.inj h4
    intro q hq j
    rw [List.length_set] at hq
    rw [nth_set h3]
    split
    · intro hj
      simp only at h5 hd hj ⊢
      rw [rd_of_lt (by simpa using h8), nth_set h8, if_pos rfl] at h5
      rw [nth_set h8]
      split
      · right
        rw [← Res.ok.inj h5] at hd
        exact hd
      · rw [hbe] at hj ⊢
        exact hP p h3 j hj
    · exact hP q hq j
  suffices H : Post True (countSubEdgesD g part sub bs1) P from may_iff.mp H bs2 h
  unfold countSubEdgesD
  refine Post_foldlM_inv P hbs fun v bs _ hP => ?_
  refine Post.bind (Q := fun _ => True) (may_iff.mpr fun _ _ => trivial) fun subV _ => ?_
  refine Post.bind (Q := fun _ => True) (may_iff.mpr fun _ _ => trivial) fun _ _ => ?_
  refine Post.bind (Q := fun _ => True) (may_iff.mpr fun _ _ => trivial) fun ns _ => ?_
  refine Post_foldlM_inv P hP fun q bs _ hP => ?_
  refine Post.bind (Q := fun _ => True) (may_iff.mpr fun _ _ => trivial) fun _ _ => ?_
  split
  · exact hstep _ _ _ hP
  · exact hP

/-! ### the extracted graphs -/

theorem IsInduced.revAt {s : Graph} {lab : Nat → Nat} {p : Nat} (hi : IsInduced g lab p s) {i j w : Nat} (hin : i < s.nv)
    (hj : j < s.nv) : s.RevAt i j w ↔ g.RevAt (nth (vertsOf g lab p) i) (nth (vertsOf g lab p) j) w := by
  have hv : ∀ i, i < s.nv → nth (vertsOf g lab p) i < g.nv ∧ lab (nth (vertsOf g lab p) i) = p :=
    fun i hi' => mem_fiber.mp (nth_mem (l := vertsOf g lab p) (i := i) (by rw [← hi.nv]; exact hi'))
  have hinj : ∀ q, q < s.nv → (nth (vertsOf g lab p) q == nth (vertsOf g lab p) i) = (q == i) := by
    intro q hq
    rw [Bool.eq_iff_iff]
    simp only [beq_iff_eq]
    rw [nth_eq_getElem (show q < (vertsOf g lab p).length by rw [← hi.nv]; exact hq),
      nth_eq_getElem (show i < (vertsOf g lab p).length by rw [← hi.nv]; exact hin)]
    exact List.Nodup.getElem_inj_iff (fiber_nodup lab g.nv p)
  unfold Graph.RevAt
  rw [← find?_filter_of_imp (l := g.nbrs (nth (vertsOf g lab p) j)) (q := fun q => decide (lab q.1 = p)) (by
    intro q _ hq
    have : q.1 = nth (vertsOf g lab p) i := by simpa using hq
    simp [this, (hv i hin).2]), ← hi.nbrs j hj, List.find?_map]
  have e : ∀ l : List (Nat × Nat), (∀ q ∈ l, q.1 < s.nv) →
      l.find? ((fun q : Nat × Nat => q.1 == nth (vertsOf g lab p) i) ∘
        fun q => (nth (vertsOf g lab p) q.1, q.2)) = l.find? (fun q => q.1 == i) := by
    intro l hl
    induction l with
    | nil => rfl
    | cons q l ih =>
      rw [List.find?_cons, List.find?_cons, ih fun q hq => hl q (by simp [hq])]
      simp only [Function.comp_apply, hinj q.1 (hl q (by simp))]
  rw [e _ fun q hq => hi.dest j hj q hq]
  cases hx : (s.nbrs j).find? (fun q => q.1 == i) with
  | none => simp
  | some q =>
    have h1 : q.1 = i := by simpa using List.find?_some hx
    simp only [Option.map_some, Option.some.injEq, Prod.ext_iff, h1, true_and]

theorem IsInduced.isValid_iff {s : Graph} {lab : Nat → Nat} {p : Nat} (hi : IsInduced g lab p s) (hg : g.WF) :
    s.isValid = ok true ↔ ∀ v, v < g.nv → lab v = p → ∀ u w, (u, w) ∈ g.nbrs v → lab u = p → g.RevAt v u w := by
  have hw := hi.valid
  obtain ⟨b, b1, b2⟩ := hw.shaped.isValid
  have hb : s.isValid = ok true ↔ b = true := by
    rw [b1]; exact ⟨Res.ok.inj, fun h => by rw [h]⟩
  rw [hb, b2]
  have hv : ∀ i, i < s.nv → nth (vertsOf g lab p) i < g.nv ∧ lab (nth (vertsOf g lab p) i) = p :=
    fun i hi' => mem_fiber.mp (nth_mem (l := vertsOf g lab p) (i := i) (by rw [← hi.nv]; exact hi'))
  have hback : ∀ v, v < g.nv → lab v = p → subOf lab v < s.nv ∧ nth (vertsOf g lab p) (subOf lab v) = v := by
    rintro v hvn rfl
    rw [hi.nv]
    exact ⟨subOf_lt hvn, nth_fiber_subOf hvn⟩
  constructor
  · rintro ⟨-, -, -, h⟩ v hvn hvp u w hm hup
    obtain ⟨h1, h2⟩ := hback v hvn hvp
    have hun := Graph.nbrs_lt hg hvn hm
    obtain ⟨h3, h4⟩ := hback u hun hup
    have hm' : (u, w) ∈ (g.nbrs (nth (vertsOf g lab p) (subOf lab v))).filter fun q => decide (lab q.1 = p) :=
      List.mem_filter.mpr ⟨by rw [h2]; exact hm, by simp [hup]⟩
    rw [← hi.nbrs _ h1] at hm'
    obtain ⟨q, hq, he⟩ := List.mem_map.mp hm'
    simp only [Prod.mk.injEq] at he
    have hqn := hi.dest _ h1 q hq
    have hqu : q.1 = subOf lab u := by
      have := he.1.trans h4.symm
      rw [nth_eq_getElem (show q.1 < (vertsOf g lab p).length by rw [← hi.nv]; exact hqn),
        nth_eq_getElem (show subOf lab u < (vertsOf g lab p).length by rw [← hi.nv]; exact h3)] at this
      exact (List.Nodup.getElem_inj_iff (fiber_nodup lab g.nv p)).mp this
    have := (hi.revAt h1 h3).mp (h _ h1 (subOf lab u) w (by rw [← hqu, ← he.2]; exact hq))
    rwa [h2, h4] at this
  · intro h
    refine ⟨hw.tot_vtx, hw.dest_lt, hw.tot_edge, fun i hin j w hm => ?_⟩
    have hj : j < s.nv := hi.dest i hin _ hm
    rw [hi.revAt hin hj]
    refine h _ (hv i hin).1 (hv i hin).2 _ _ ?_ (hv j hj).2
    have : (nth (vertsOf g lab p) j, w) ∈
        (s.nbrs i).map (fun q => (nth (vertsOf g lab p) q.1, q.2)) := List.mem_map.mpr ⟨_, hm, rfl⟩
    rw [hi.nbrs i hin] at this
    exact (List.mem_filter.mp this).1

/-! ### extraction -/

theorem maybeFillWeightsD_close {H : Prop} (sub : Mem) (counts : List Nat) :
    Close H (maybeFillWeightsD g part sub (counts.map (TwoStep.configured g)))
      (maybeFillWeights g part sub (counts.map (TwoStep.configured g))) := by
  unfold maybeFillWeightsD maybeFillWeights
  split
  · rename_i hu
    have hu : g.unitVtx = false := by simpa using hu
    refine Close.foldlM (P := fun bs => ∀ b ∈ bs, b.unitV = false) ?_ fun bs v _ hP => ⟨?_, fun bs' hbs' => ?_⟩
    · intro b hb
      obtain ⟨c, _, rfl⟩ := List.mem_map.mp hb
      exact hu
    · refine Close.bind_ok fun _ _ => Close.bind_ok fun pid _ => Close.bind_ok fun _ _ => ?_
      unfold onNth
      refine Close.bind_ok fun b hb => Close.bind (Close.check (fun _ => ?_) (Close.refl _)) fun _ _ => Close.refl _
      unfold rd at hb
      split at hb
      · rename_i x hx
        obtain rfl := Res.ok.inj hb
        exact hP _ (List.mem_of_getElem? hx)
      · cases hb
    · obtain ⟨_, _, hbs'⟩ := bind_eq_ok hbs'
      obtain ⟨pid, _, hbs'⟩ := bind_eq_ok hbs'
      obtain ⟨w, _, hbs'⟩ := bind_eq_ok hbs'
      unfold onNth at hbs'
      obtain ⟨b, h1, hbs'⟩ := bind_eq_ok hbs'
      obtain ⟨b', h2, hbs'⟩ := bind_eq_ok hbs'
      obtain ⟨h3, rfl⟩ := wr_ok_lt hbs'
      rw [rd_of_lt h3] at h1
      obtain rfl := Res.ok.inj h1
      unfold TwoStep.setVertexWeight at h2
      obtain ⟨vw, _, h2⟩ := bind_eq_ok h2
      obtain rfl := Res.ok.inj h2
      intro b hb
      rcases List.mem_or_eq_of_mem_set hb with hb | rfl
      · exact hP b hb
      · exact hP (nth bs pid) (nth_mem h3)
  · exact Close.refl _

theorem countSubEdgesD_stops (sub : Mem) (bs : List TwoStep) :
    Close False (countSubEdgesD g part sub bs) (countSubEdges g part sub bs) := by
  unfold countSubEdgesD countSubEdges
  refine Close.foldlM (P := fun _ => True) trivial fun bs v _ _ => ⟨?_, fun _ _ => trivial⟩
  refine Close.bind_ok fun subV _ => Close.bind_ok fun _ _ => Close.bind_ok fun ns _ => ?_
  refine Close.foldlM (P := fun _ => True) trivial fun bs v _ _ => ⟨?_, fun _ _ => trivial⟩
  refine Close.bind_ok fun _ _ => ?_
  split
  · refine onNth_close fun b => Close.after fun b' hb' => ?_
    have : ∃ d, rd b'.pre subV = ok d := by
      unfold TwoStep.incVertexNumEdges at hb'
      obtain ⟨o, ho, hb'⟩ := bind_eq_ok hb'
      obtain ⟨pre, hp, hb'⟩ := bind_eq_ok hb'
      have := Res.ok.inj hb'
      subst this
      obtain ⟨h1, rfl⟩ := wr_ok_lt hp
      exact ⟨_, rd_of_lt (by simpa using h1)⟩
    obtain ⟨d, hd⟩ := this
    rw [hd, ok_bind]
    exact Close.check (fun h => h.elim) (Close.refl _)
  · exact Close.refl _

theorem Stages.fillD {H : Prop} (hS : Stages g part k labels counts m bs1 bs2 bs3 bs4 subs) (hg : g.WF)
    (ha : part.asg.length = g.nv) (hl : ∀ v, v < g.nv → part.lab v < k) :
    Close H (fillSubEdgesD g (!g.unitEdge) part m.2.2 bs3) (fillSubEdges g (!g.unitEdge) part m.2.2 bs3) := by
  unfold fillSubEdgesD fillSubEdges
  let P : List TwoStep → Prop := fun bs => bs.length = k ∧ ∀ p, p < k → (nth bs p).nv = subN g part.lab p
  have hstep : ∀ (bs bs' : List TwoStep) p v u w, P bs → onNth bs p (TwoStep.addEdgeToVertex v u w) = ok bs' → P bs' := by
    intro bs bs' p v u w hP h
    unfold onNth at h
    obtain ⟨b, h1, h⟩ := bind_eq_ok h
    obtain ⟨b', h2, h⟩ := bind_eq_ok h
    obtain ⟨h3, rfl⟩ := wr_ok_lt h
    rw [rd_of_lt h3] at h1
    obtain rfl := Res.ok.inj h1
    have hnv : b'.nv = (nth bs p).nv := by
      unfold TwoStep.addEdgeToVertex at h2
      obtain ⟨_, _, h2⟩ := bind_eq_ok h2
      obtain ⟨_, _, h2⟩ := bind_eq_ok h2
      obtain ⟨_, _, h2⟩ := bind_eq_ok h2
      split at h2
      · rw [← Res.ok.inj h2]
      · obtain ⟨_, _, h2⟩ := bind_eq_ok h2
        rw [← Res.ok.inj h2]
    refine ⟨by simpa using hP.1, fun q hq => ?_⟩
    rw [nth_set h3]
    split
    · rename_i hqp
      rw [hnv, ← hqp]; exact hP.2 q hq
    · exact hP.2 q hq
  refine Close.foldlM (P := P) ⟨hS.l3, fun p hp => (hS.i3 p hp).nvEq⟩ fun bs v hv hP => ?_
  have hv := List.mem_range.mp hv
  rw [hS.sub v hv, ok_bind, ok_bind, rd_of_lt (by omega), ok_bind, ok_bind, Graph.nbrsOf_eq hg hv, ok_bind, ok_bind]
  have inner : ∀ (bs : List TwoStep) q, q ∈ g.nbrs v → P bs →
      Close H ((do
        let uPid ← rd part.asg q.1
        if nth part.asg v = uPid then do
          let subU ← m.2.2.rd q.1
          onNth bs (nth part.asg v) (TwoStep.addEdgeToVertexD (subOf part.lab v) subU q.2)
        else ok bs) : Res (List TwoStep)) (do
        let uPid ← rd part.asg q.1
        if nth part.asg v = uPid then do
          let subU ← m.2.2.rd q.1
          onNth bs (nth part.asg v) (TwoStep.addEdgeToVertex (subOf part.lab v) subU q.2)
        else ok bs) ∧ ∀ bs', (do
        let uPid ← rd part.asg q.1
        if nth part.asg v = uPid then do
          let subU ← m.2.2.rd q.1
          onNth bs (nth part.asg v) (TwoStep.addEdgeToVertex (subOf part.lab v) subU q.2)
        else ok bs) = ok bs' → P bs' := by
    intro bs q hq hP
    have hun := Graph.nbrs_lt hg hv hq
    rw [rd_of_lt (by omega), ok_bind, ok_bind, hS.sub _ hun, ok_bind, ok_bind]
    split
    · rename_i heq
      refine ⟨?_, fun bs' h => hstep _ _ _ _ _ _ hP h⟩
      have hvk := hl v hv
      have hnv : (nth bs (nth part.asg v)).nv = subN g part.lab (part.lab v) := hP.2 _ hvk
      unfold onNth
      rw [rd_of_lt (show nth part.asg v < bs.length by rw [hP.1]; exact hvk), ok_bind, ok_bind]
      refine Close.bind (Close.check (fun _ => ?_) (Close.check (fun _ => ?_) (Close.refl _))) fun _ _ => Close.refl _
      · rw [hnv]; exact subOf_lt hv
      · rw [hnv, show part.lab v = part.lab q.1 from heq]; exact subOf_lt hun
    · exact ⟨Close.refl _, fun bs' h => by rw [← Res.ok.inj h]; exact hP⟩
  refine ⟨Close.foldlM (P := P) hP fun bs q hq hP => inner bs q hq hP, fun bs' h => ?_⟩
  suffices H : Post True ((g.nbrs v).foldlM _ bs) P from may_iff.mp H bs' h
  exact Post_foldlM_inv P hP fun q bs hq hP => may_iff.mpr fun bs' h => (inner bs q hq hP).2 bs' h

theorem extractPartitionsD_close {H : Prop}
    (hg : g.WF) (ha : part.asg.length = g.nv) (hk : part.pw.length = k)
    (hl : ∀ v, v < g.nv → part.lab v < k) (hlab : LabelsOK g.nv labels) (hH : H → ExtractOK g part.lab) :
    Close H (extractPartitionsD g part labels) (extractPartitions g part labels) := by
  obtain ⟨counts, m, bs1, bs2, bs3, bs4, subs, hS⟩ := extract_stages hg ha hk hl hlab
  unfold extractPartitionsD extractPartitions
  rw [hS.cnt, ok_bind, ok_bind, hS.maps, ok_bind, ok_bind]
  simp only
  refine Close.bind ?_ fun bs hbs => ?_
  · exact maybeFillWeightsD_close _ _
  rw [hS.e1] at hbs
  obtain rfl := Res.ok.inj hbs
  refine Close.bind ?_ fun bs hbs => ?_
  · by_cases h : H
    · left
      rw [hS.e2]
      exact hS.countD hg ha hl ((deg_iff hl).mp (hH h).deg)
    exact Close.mono (fun h' => absurd h' h) (countSubEdgesD_stops _ _)
  rw [hS.e2] at hbs
  obtain rfl := Res.ok.inj hbs
  rw [hS.e3, ok_bind, ok_bind]
  refine Close.bind ?_ fun bs hbs => ?_
  · exact hS.fillD hg ha hl
  rw [hS.e4] at hbs
  obtain rfl := Res.ok.inj hbs
  refine Close.mapM fun pid hpid => ?_
  have hf : assemble m bs4 pid = ok (nth subs pid) := mapM_ok_at hS.fin (List.mem_range.mp hpid)
  unfold assemble at hf
  have hlt : pid < k := by rw [← hS.countsLen]; exact List.mem_range.mp hpid
  refine Close.bind_ok fun b hb => Close.bind_ok fun sm hsm => Close.bind (Close.after fun sg hsg => ?_) fun _ _ => Close.refl _
  rw [hb, ok_bind, hsm, ok_bind, hsg, ok_bind] at hf
  obtain ⟨sm', -, hf⟩ := bind_eq_ok hf
  have hgr : (nth subs pid).graph = sg := by rw [← Res.ok.inj hf]
  have hsub := hS.subsOK pid hlt
  obtain ⟨x, hx, -⟩ := hsub.wf.shaped.isValid
  rw [hgr] at hx
  rw [hx, ok_bind]
  refine Close.check (fun h => ?_) (Close.refl _)
  have := (hsub.induced.isValid_iff hg).mpr fun v hv hvp u w hm hup => (hH h).rev v hv u w hm (hup.trans hvp.symm)
  rw [hgr, hx] at this
  exact Res.ok.inj this

theorem extractPartitionsD_stops
    (hg : g.WF) (ha : part.asg.length = g.nv) (hk : part.pw.length = k)
    (hl : ∀ v, v < g.nv → part.lab v < k) (hlab : LabelsOK g.nv labels) :
    Close False (extractPartitionsD g part labels) (extractPartitions g part labels) :=
  extractPartitionsD_close hg ha hk hl hlab fun h => h.elim

theorem extractPartitionsD_only
    (hg : g.WF) (ha : part.asg.length = g.nv) (hk : part.pw.length = k)
    (hl : ∀ v, v < g.nv → part.lab v < k) (hlab : LabelsOK g.nv labels) {out : List Subgraph}
    (h : extractPartitionsD g part labels = ok out) : ExtractOK g part.lab := by
  obtain ⟨counts, m, bs1, bs2, bs3, bs4, subs, hS⟩ := extract_stages hg ha hk hl hlab
  have hsame : extractPartitions g part labels = ok out := by
    rcases extractPartitionsD_stops hg ha hk hl hlab with h' | ⟨-, h'⟩
    · rw [← h']; exact h
    · rw [h'] at h; cases h
  rw [hS.extract] at hsame
  obtain rfl := Res.ok.inj hsame
  unfold extractPartitionsD at h
  rw [hS.cnt, ok_bind, hS.maps, ok_bind] at h
  simp only at h
  rw [(maybeFillWeightsD_close (H := True) m.2.2 counts).eq trivial, hS.e1, ok_bind] at h
  obtain ⟨bs, h2, h⟩ := bind_eq_ok h
  have hbs : bs = bs2 := by
    rcases countSubEdgesD_stops (g := g) (part := part) m.2.2 bs1 with h' | ⟨-, h'⟩
    · rw [h', hS.e2] at h2; exact (Res.ok.inj h2).symm
    · rw [h'] at h2; cases h2
  subst hbs
  rw [hS.e3, ok_bind, (hS.fillD (H := True) hg ha hl).eq trivial, hS.e4, ok_bind] at h
  refine ⟨(deg_iff hl).mpr fun p hp j hj => ?_, fun v hv u w hm hlab' => ?_⟩
  · have := countSubEdgesD_deg (fun q hq i hi => Or.inl ?_) h2 p (by rw [hS.l2]; exact hp) j
      (by rw [(hS.i2 p hp).nvEq]; exact hj)
    · rw [(hS.i2 p hp).pre j hj, (hS.i2 p hp).nvEq] at this
      exact this
    · have hq : q < k := by rw [← hS.l1]; exact hq
      rw [(hS.i1 q hq).nvEq] at hi
      exact (hS.i1 q hq).pre i hi
  · have hp := hl v hv
    have hfD := mapM_ok_at h (i := part.lab v) (by rw [hS.countsLen]; exact hp)
    obtain ⟨b, hb, hfD⟩ := bind_eq_ok hfD
    obtain ⟨sm, hsm, hfD⟩ := bind_eq_ok hfD
    obtain ⟨sg, hsg, hfD⟩ := bind_eq_ok hfD
    obtain ⟨sm', -, hfD⟩ := bind_eq_ok hfD
    have hgr : (nth subs (part.lab v)).graph = sg := by rw [← Res.ok.inj hfD]
    unfold TwoStep.finishD at hsg
    obtain ⟨sg', -, hsg⟩ := bind_eq_ok hsg
    obtain ⟨x, hx, hsg⟩ := bind_eq_ok hsg
    have hxt : x = true := by
      by_contra hn
      rw [check_false hn] at hsg
      cases hsg
    rw [check_bind hxt] at hsg
    obtain rfl := Res.ok.inj hsg
    rw [← hgr, hxt] at hx
    exact ((hS.subsOK _ hp).induced.isValid_iff hg).mp hx v hv rfl u w hm hlab'

end Poros
