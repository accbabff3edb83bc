import Verif.SpecSub
import Verif.Proofs.Blocks
/-
The two-step builder.
-/
namespace Poros
open Finset Res

attribute [-simp] List.length_flatten List.map_flatten

/-- First slot of vertex `v` for degrees `f`. -/
def startOf (f : Nat → Nat) (v : Nat) : Nat := ∑ u ∈ range v, f u

theorem startOf_succ (f : Nat → Nat) (v : Nat) : startOf f (v + 1) = startOf f v + f v := sum_range_succ _ _

theorem startOf_mono {f : Nat → Nat} {u v : Nat} (h : u ≤ v) : startOf f u ≤ startOf f v :=
  sum_le_sum_of_subset (range_subset_range.mpr h)

theorem startOf_cover {f : Nat → Nat} {n p : Nat} (h : p < startOf f n) :
    ∃ v, v < n ∧ startOf f v ≤ p ∧ p < startOf f (v + 1) := by
  induction n with
  | zero => simp [startOf] at h
  | succ n ih =>
    by_cases hp : p < startOf f n
    · obtain ⟨c, h1, h2, h3⟩ := ih hp
      exact ⟨c, by omega, h2, h3⟩
    · exact ⟨n, by omega, by omega, h⟩

theorem sum_ones (n : Nat) : ∑ _i ∈ range n, 1 = n := by
  induction n with
  | zero => rfl
  | succ n ih => rw [sum_range_succ, ih]

theorem insertedAt_nil (v : Nat) : insertedAt [] v = [] := rfl

theorem insertedAt_append (L : List Ins) (i : Ins) (v : Nat) :
    insertedAt (L ++ [i]) v = insertedAt L v ++ if i.v = v then [(i.dest, i.w)] else [] := by
  unfold insertedAt
  rw [List.filter_append, List.map_append]
  congr 1
  by_cases h : i.v = v <;> simp [h]

theorem insertedAt_append' (L M : List Ins) (v : Nat) :
    insertedAt (L ++ M) v = insertedAt L v ++ insertedAt M v := by
  simp [insertedAt]

/-- Builder state in the vertex phase. -/
structure VInv (n : Nat) (unitV unitE : Bool) (f : Nat → Nat) (wf : Nat → Option Nat) (b : TwoStep) : Prop where
  nvEq : b.nv = n
  uV : b.unitV = unitV
  uE : b.unitE = unitE
  preLen : b.pre.length = n + 1
  pre : ∀ v, v < n → nth b.pre v = f v
  ewNil : b.ewgt = []
  vwNil : unitV = true → b.vwgt = []
  vwLen : unitV = false → b.vwgt.length = n
  vw : unitV = false → ∀ v, v < n → nth b.vwgt v = wf v

theorem VInv.begin {n : Nat} (hn : n < NULL32) (unitV unitE : Bool) :
    VInv n unitV unitE (fun _ => 0) (fun _ => none)
      (((TwoStep.new.setNumVertices n).setUnitEdgeWeight unitE).setUnitVertexWeight unitV).beginVertexPhase := by
  have hu : uadd n 1 = n + 1 := uadd_eq (by omega)
  refine { nvEq := rfl, uV := rfl, uE := rfl, preLen := ?_, pre := ?_, ewNil := rfl, vwNil := ?_, vwLen := ?_,
           vw := ?_ }
  · show (List.replicate (uadd n 1) 0).length = n + 1
    simp [hu]
  · intro v hv
    show nth (List.replicate (uadd n 1) 0) v = 0
    rw [nth_replicate (by omega)]
  · intro h; subst h; rfl
  · intro h; subst h
    show (Mem.alloc n).length = n
    simp [Mem.alloc]
  · intro h v hv; subst h
    show nth (Mem.alloc n) v = none
    unfold Mem.alloc; rw [nth_replicate hv]

theorem VInv.run {n : Nat} {unitV unitE : Bool} {f : Nat → Nat} {wf : Nat → Option Nat} {b : TwoStep}
    (h : VInv n unitV unitE f wf b) {op : VOp} (hop : op.Legal n unitV f) :
    ∃ b', op.run b = ok b' ∧ VInv n unitV unitE (op.deg f) (op.wgt wf) b' := by
  cases op with
  | setDegree v d =>
    obtain ⟨hv, hd⟩ := hop
    refine ⟨{ b with pre := b.pre.set v d }, ?_, ?_⟩
    · show (wr b.pre v d >>= _) = _
      rw [wr_of_lt (by rw [h.preLen]; omega)]; rfl
    · refine { nvEq := h.nvEq, uV := h.uV, uE := h.uE, preLen := by simpa using h.preLen, pre := ?_,
               ewNil := h.ewNil, vwNil := h.vwNil, vwLen := h.vwLen, vw := h.vw }
      intro u hu
      show nth (b.pre.set v d) u = if u = v then d else f u
      rw [nth_set (by rw [h.preLen]; omega), h.pre u hu]
  | incDegree v =>
    obtain ⟨hv, hd⟩ := hop
    refine ⟨{ b with pre := b.pre.set v (f v + 1) }, ?_, ?_⟩
    · show (rd b.pre v >>= _) = _
      rw [rd_of_lt (by rw [h.preLen]; omega), ok_bind, h.pre v hv, uadd_eq hd,
        wr_of_lt (by rw [h.preLen]; omega)]; rfl
    · refine { nvEq := h.nvEq, uV := h.uV, uE := h.uE, preLen := by simpa using h.preLen, pre := ?_,
               ewNil := h.ewNil, vwNil := h.vwNil, vwLen := h.vwLen, vw := h.vw }
      intro u hu
      show nth (b.pre.set v (f v + 1)) u = if u = v then f u + 1 else f u
      rw [nth_set (by rw [h.preLen]; omega), h.pre u hu]
      split
      · subst_vars; rfl
      · rfl
  | setWeight v w =>
    obtain ⟨hv, hu⟩ := hop
    have hl := h.vwLen hu
    refine ⟨{ b with vwgt := b.vwgt.set v (some w) }, ?_, ?_⟩
    · show (b.vwgt.wr v w >>= _) = _
      rw [Mem.wr_of_lt (by omega)]; rfl
    · refine { nvEq := h.nvEq, uV := h.uV, uE := h.uE, preLen := h.preLen, pre := h.pre,
               ewNil := h.ewNil, vwNil := (fun h' => by rw [hu] at h'; cases h'),
               vwLen := fun _ => by simpa using hl, vw := ?_ }
      intro _ u hun
      show nth (b.vwgt.set v (some w)) u = if u = v then some w else wf u
      rw [nth_set (by omega), h.vw hu u hun]

theorem VInv.runs {n : Nat} {unitV unitE : Bool} {H : List VOp} {f : Nat → Nat} {wf : Nat → Option Nat}
    {b : TwoStep} (h : VInv n unitV unitE f wf b) (hH : VHistory n unitV f H) :
    ∃ b', H.foldlM VOp.run b = ok b' ∧ VInv n unitV unitE (H.foldl VOp.deg f) (H.foldl VOp.wgt wf) b' := by
  induction H generalizing f wf b with
  | nil => exact ⟨b, rfl, h⟩
  | cons op H ih =>
    obtain ⟨b1, h1, h2⟩ := h.run hH.1
    obtain ⟨b2, h3, h4⟩ := ih h2 hH.2
    exact ⟨b2, by rw [List.foldlM_cons, h1, ok_bind, h3], h4⟩

theorem shiftRight_spec {v : Nat} {pre : List Nat} (h : v < pre.length) :
    ∃ pre', TwoStep.shiftRight v pre = ok pre' ∧ pre'.length = pre.length ∧ nth pre' 0 = nth pre 0 ∧
      (∀ u, u < v → nth pre' (u + 1) = nth pre u) ∧ ∀ u, v < u → nth pre' u = nth pre u := by
  induction v generalizing pre with
  | zero => exact ⟨pre, rfl, rfl, rfl, by omega, fun _ _ => rfl⟩
  | succ v ih =>
    unfold TwoStep.shiftRight
    rw [rd_of_lt (by omega), ok_bind, wr_of_lt h, ok_bind]
    obtain ⟨pre', h1, h2, h3, h4, h5⟩ := ih (pre := pre.set (v + 1) (nth pre v)) (by simp; omega)
    refine ⟨pre', h1, by simpa using h2, ?_, ?_, ?_⟩
    · rw [h3, nth_set_ne (by omega)]
    · intro u hu
      by_cases huv : u < v
      · rw [h4 u huv, nth_set_ne (by omega)]
      · obtain rfl : u = v := by omega
        rw [h5 _ (by omega), nth_set_self h]
    · intro u hu
      rw [h5 u (by omega), nth_set_ne (by omega)]

/-- Builder state in the edge phase after the insertions `L`. -/
structure EInv (n : Nat) (unitV unitE : Bool) (f : Nat → Nat) (wf : Nat → Option Nat) (L : List Ins)
    (b : TwoStep) : Prop where
  nvEq : b.nv = n
  uV : b.unitV = unitV
  uE : b.unitE = unitE
  preLen : b.pre.length = n + 1
  pre0 : nth b.pre 0 = 0
  pre : ∀ v, v < n → nth b.pre (v + 1) = startOf f v + (insertedAt L v).length
  elLen : b.elist.length = startOf f n
  el : ∀ v, v < n → ∀ j, j < (insertedAt L v).length →
    nth b.elist (startOf f v + j) = some (nth (insertedAt L v) j).1
  ewNil : unitE = true → b.ewgt = []
  ewLen : unitE = false → b.ewgt.length = startOf f n
  ew : unitE = false → ∀ v, v < n → ∀ j, j < (insertedAt L v).length →
    nth b.ewgt (startOf f v + j) = some (nth (insertedAt L v) j).2
  vwNil : unitV = true → b.vwgt = []
  vwLen : unitV = false → b.vwgt.length = n
  vw : unitV = false → ∀ v, v < n → nth b.vwgt v = wf v

variable {n : Nat} {unitV unitE : Bool} {f : Nat → Nat} {wf : Nat → Option Nat} {L : List Ins} {b : TwoStep}

theorem VInv.beginEdge (h : VInv n unitV unitE f wf b) (hs : startOf f n < M32) :
    ∃ b', b.beginEdgePhase = ok b' ∧ EInv n unitV unitE f wf [] b' := by
  have hpl : (prefixSumExclusive b.pre).length = n + 1 := by
    unfold prefixSumExclusive; simp [h.preLen]
  have hp : ∀ v, v ≤ n → nth (prefixSumExclusive b.pre) v = startOf f v := by
    intro v hv
    rw [prefixSum_nth (by rw [h.preLen]; omega)]
    have e : (∑ j ∈ range v, nth b.pre j) = startOf f v :=
      sum_congr rfl fun j hj => h.pre j (by have := mem_range.mp hj; omega)
    rw [e]
    have := startOf_mono (f := f) hv
    exact Nat.mod_eq_of_lt (by omega)
  obtain ⟨pre', h1, h2, h3, h4, h5⟩ := shiftRight_spec (v := n) (pre := prefixSumExclusive b.pre) (by omega)
  refine ⟨TwoStep.mk b.nv (startOf f n) b.unitV b.unitE pre' (Mem.alloc (startOf f n)) b.vwgt
      (if b.unitE then b.ewgt else Mem.alloc (startOf f n)), ?_, ?_⟩
  · unfold TwoStep.beginEdgePhase
    simp only [h.nvEq]
    rw [rd_of_lt (by omega), ok_bind, h1, ok_bind, hp n le_rfl]
  · refine { nvEq := h.nvEq, uV := h.uV, uE := h.uE, preLen := by show pre'.length = _; omega, pre0 := ?_,
             pre := ?_, elLen := by simp [Mem.alloc], el := ?_, ewNil := ?_, ewLen := ?_, ew := ?_,
             vwNil := h.vwNil, vwLen := h.vwLen, vw := h.vw }
    · show nth pre' 0 = 0
      rw [h3, hp 0 (by omega)]; simp [startOf]
    · intro v hv
      show nth pre' (v + 1) = _
      rw [h4 v hv, hp v (by omega), insertedAt_nil]; rfl
    · intro v hv j hj; simp [insertedAt_nil] at hj
    · intro hu
      show (if b.unitE then b.ewgt else _) = _
      rw [h.uE, hu, if_pos rfl, h.ewNil]
    · intro hu
      show (if b.unitE then b.ewgt else _).length = _
      rw [h.uE, hu]; simp [Mem.alloc]
    · intro _ v hv j hj; simp [insertedAt_nil] at hj

theorem slot_ne {u v i j : Nat} (huv : u ≠ v) (hi : i < f u) (hj : j < f v) : startOf f u + i ≠ startOf f v + j := by
  rcases Nat.lt_or_gt_of_ne huv with hlt | hgt
  · have := startOf_mono (f := f) (show u + 1 ≤ v by omega)
    rw [startOf_succ] at this; omega
  · have := startOf_mono (f := f) (show v + 1 ≤ u by omega)
    rw [startOf_succ] at this; omega

theorem EInv.addEdge (h : EInv n unitV unitE f wf L b) (hs : startOf f n < M32)
    (hle : ∀ v, v < n → (insertedAt L v).length ≤ f v) {i : Ins} (hv : i.v < n)
    (hc : (insertedAt L i.v).length < f i.v) :
    ∃ b', b.addEdgeToVertex i.v i.dest i.w = ok b' ∧ EInv n unitV unitE f wf (L ++ [i]) b' := by
  have hidx : startOf f i.v + (insertedAt L i.v).length < startOf f n := by
    have := startOf_mono (f := f) (show i.v + 1 ≤ n by omega)
    rw [startOf_succ] at this; omega
  have cell : ∀ (m : Mem) (g : Nat × Nat → Nat), m.length = startOf f n →
      (∀ v, v < n → ∀ j, j < (insertedAt L v).length →
        nth m (startOf f v + j) = some (g (nth (insertedAt L v) j))) →
      ∀ v, v < n → ∀ j, j < (insertedAt (L ++ [i]) v).length →
        nth (m.set (startOf f i.v + (insertedAt L i.v).length) (some (g (i.dest, i.w)))) (startOf f v + j) =
          some (g (nth (insertedAt (L ++ [i]) v) j)) := by
    intro m g hm hml v hvn j hj
    rw [nth_set (by omega)]
    rw [insertedAt_append] at hj ⊢
    by_cases hiv : i.v = v
    · subst hiv
      simp only [if_true, List.length_append, List.length_singleton] at hj ⊢
      by_cases hj' : j = (insertedAt L i.v).length
      · subst hj'
        rw [if_pos rfl, nth_append_right (le_refl _)]; simp [nth]
      · rw [if_neg (by omega), hml _ hvn j (by omega), nth_append_left (by omega)]
    · simp only [if_neg hiv, List.append_nil] at hj ⊢
      rw [if_neg (slot_ne (Ne.symm hiv) (by have := hle v hvn; omega) hc), hml v hvn j hj]
  have hpre : ∀ v, v < n → nth (b.pre.set (i.v + 1) (startOf f i.v + (insertedAt L i.v).length + 1)) (v + 1) =
      startOf f v + (insertedAt (L ++ [i]) v).length := by
    intro v hvn
    rw [nth_set (by rw [h.preLen]; omega), insertedAt_append]
    by_cases hiv : i.v = v
    · subst hiv; rw [if_pos rfl]; simp; omega
    · rw [if_neg (by omega), h.pre v hvn]; simp [hiv]
  have hpre0 : nth (b.pre.set (i.v + 1) (startOf f i.v + (insertedAt L i.v).length + 1)) 0 = 0 := by
    rw [nth_set_ne (by omega)]; exact h.pre0
  have hhead : ∀ (k : Res TwoStep), b.addEdgeToVertex i.v i.dest i.w = k ↔
      (if b.unitE then (ok { b with
          pre := b.pre.set (i.v + 1) (startOf f i.v + (insertedAt L i.v).length + 1),
          elist := b.elist.set (startOf f i.v + (insertedAt L i.v).length) (some i.dest) } : Res TwoStep)
       else do
        let ew ← b.ewgt.wr (startOf f i.v + (insertedAt L i.v).length) i.w
        .ok { b with
          pre := b.pre.set (i.v + 1) (startOf f i.v + (insertedAt L i.v).length + 1),
          elist := b.elist.set (startOf f i.v + (insertedAt L i.v).length) (some i.dest),
          ewgt := ew }) = k := by
    intro k
    unfold TwoStep.addEdgeToVertex
    rw [rd_of_lt (by rw [h.preLen]; omega), ok_bind, h.pre _ hv, uadd_eq (by omega),
      wr_of_lt (by rw [h.preLen]; omega), ok_bind, Mem.wr_of_lt (by rw [h.elLen]; exact hidx), ok_bind]
  cases hu : unitE with
  | true =>
    refine ⟨_, (hhead _).mpr (by rw [h.uE, hu, if_pos rfl]), ?_⟩
    exact { nvEq := h.nvEq, uV := h.uV, uE := rfl, preLen := by simpa using h.preLen,
            pre0 := hpre0, pre := hpre,
            elLen := by simpa using h.elLen, el := cell b.elist (fun q => q.1) h.elLen h.el,
            ewNil := fun _ => h.ewNil hu, ewLen := (fun h' => nomatch h'), ew := (fun h' => nomatch h'),
            vwNil := h.vwNil, vwLen := h.vwLen, vw := h.vw }
  | false =>
    have hwl := h.ewLen hu
    refine ⟨_, (hhead _).mpr (by
      rw [h.uE, hu, if_neg (by simp), Mem.wr_of_lt (by omega), ok_bind]), ?_⟩
    exact { nvEq := h.nvEq, uV := h.uV, uE := rfl, preLen := by simpa using h.preLen,
            pre0 := hpre0, pre := hpre,
            elLen := by simpa using h.elLen, el := cell b.elist (fun q => q.1) h.elLen h.el,
            ewNil := (fun h' => nomatch h'), ewLen := fun _ => by simpa using hwl,
            ew := fun _ => cell b.ewgt (fun q => q.2) hwl (h.ew hu),
            vwNil := h.vwNil, vwLen := h.vwLen, vw := h.vw }

theorem insertedAt_prefix_le {A B : List Ins} {v : Nat} :
    (insertedAt A v).length ≤ (insertedAt (A ++ B) v).length := by
  rw [insertedAt_append']; simp

theorem EInv.addEdges (h : EInv n unitV unitE f wf [] b) (hs : startOf f n < M32)
    (hv : ∀ i ∈ L, i.v < n) (hle : ∀ v, v < n → (insertedAt L v).length ≤ f v) :
    ∃ b', L.foldlM (fun b i => b.addEdgeToVertex i.v i.dest i.w) b = ok b' ∧
      EInv n unitV unitE f wf L b' := by
  refine sat_iff.mp (Post_foldlM (P := fun L b => EInv n unitV unitE f wf L b) h ?_)
  intro pre x post s he hp
  subst he
  have hx := hv x (by simp)
  have hpl : ∀ v, v < n → (insertedAt pre v).length ≤ f v := fun v hvn =>
    insertedAt_prefix_le.trans (hle v hvn)
  have hc : (insertedAt pre x.v).length < f x.v := by
    have := hle x.v hx
    rw [show pre ++ x :: post = (pre ++ [x]) ++ post by simp, insertedAt_append', insertedAt_append] at this
    simp at this; omega
  obtain ⟨b', h1, h2⟩ := hp.addEdge hs hpl hx hc
  rw [h1]; exact h2

/-- The adjacency list a finished builder stores for `v`: weights are dropped if told to be one. -/
def storedAt (unitE : Bool) (L : List Ins) (v : Nat) : List (Nat × Nat) :=
  (insertedAt L v).map fun q => (q.1, if unitE then 1 else q.2)

theorem storedAt_length : (storedAt unitE L v).length = (insertedAt L v).length := by simp [storedAt]

theorem take_storedAt (hd : ∀ v, v < n → (insertedAt L v).length = f v) {i : Nat} (hi : i ≤ n) :
    (((List.range n).map (storedAt unitE L)).take i).flatten.length = startOf f i := by
  induction i with
  | zero => simp [startOf]
  | succ i ih =>
    rw [take_succ_flatten (by simp; omega), List.length_append, ih (by omega), startOf_succ,
      nth_map (by simp; omega), nth_range (by omega), storedAt_length, hd i (by omega)]

theorem EInv.finish (h : EInv n unitV unitE f wf L b) (hn : n < NULL32)
    (hd : ∀ v, v < n → (insertedAt L v).length = f v)
    (hw : unitV = false → ∀ v, v < n → wf v ≠ none) :
    ∃ g, b.finish = ok g ∧ Stores g ((List.range n).map (storedAt unitE L)) ∧
      (∀ v, v < n → g.vw v = if unitV then 1 else (wf v).getD 0) ∧
      (g.unitVtx = true ↔ ∀ v, v < n → g.vw v = 1) ∧
      g.totVtx = (∑ v ∈ range n, g.vw v) % M32 ∧
      g.totEdge = wAll ((List.range n).map (storedAt unitE L)).flatten % M32 ∧
      (unitV = true → g.vwgt = []) ∧ (unitV = false → g.vwgt.length = n) ∧
      (g.unitVtx = true → ∀ v, v < g.vwgt.length → nth g.vwgt v = 1) ∧
      (unitE = true → g.adjwgt = [] ∧ g.unitEdge = true) ∧ (unitE = false → g.adjwgt.length = g.ne) ∧
      (g.unitEdge = true → ∀ e, e < g.adjwgt.length → nth g.adjwgt e = 1) := by
  set blocks := (List.range n).map (storedAt unitE L) with hbl
  have hblen : blocks.length = n := by simp [hbl]
  have hS : blocks.flatten.length = startOf f n := by
    have := take_storedAt (unitE := unitE) hd (le_refl n)
    rw [← hbl] at this
    rwa [List.take_of_length_le (by omega)] at this
  have cellv : ∀ (m : Mem) (gf : Nat × Nat → Nat),
      (∀ v, v < n → ∀ j, j < (insertedAt L v).length → nth m (startOf f v + j) = some (gf (nth (storedAt unitE L v) j))) →
      ∀ e, e < startOf f n → nth m e = some (gf (nth blocks.flatten e)) := by
    intro m gf hm e he
    obtain ⟨v, hv, h1, h2⟩ := startOf_cover he
    rw [startOf_succ] at h2
    have hj : e - startOf f v < (insertedAt L v).length := by rw [hd v hv]; omega
    have := hm v hv _ hj
    rw [show startOf f v + (e - startOf f v) = e by omega] at this
    rw [this]
    have hnb : nth blocks v = storedAt unitE L v := by
      rw [hbl, nth_map (by simpa using hv), nth_range hv]
    have := nth_flatten (l := blocks) (v := v) (i := e - startOf f v) (by omega)
      (by rw [hnb, storedAt_length]; exact hj)
    rw [take_storedAt (unitE := unitE) hd (by omega), hnb,
      show startOf f v + (e - startOf f v) = e by omega] at this
    rw [this]
  have hfst : ∀ v, v < n → ∀ j, j < (insertedAt L v).length →
      (nth (storedAt unitE L v) j).1 = (nth (insertedAt L v) j).1 := by
    intro v _ j hj; unfold storedAt; rw [nth_map hj]
  have hel := freeze_spec (n := startOf f n) (fun e => (nth blocks.flatten e).1) h.elLen
    (cellv b.elist (fun q => q.1) fun v hv j hj => by rw [h.el v hv j hj, hfst v hv j hj])
  have hkeys : (List.range (startOf f n)).map (fun e => (nth blocks.flatten e).1) = keysOf blocks.flatten := by
    refine list_ext_nth (by simp [hS]) fun i hi => ?_
    have hi : i < startOf f n := by simpa using hi
    rw [nth_map (by simpa using hi), nth_range hi]
    unfold keysOf; rw [nth_map (by omega)]
  rw [hkeys] at hel
  -- vertex weights
  have hV : ∃ vw : List Nat, b.vwgt.freeze = ok vw ∧ (unitV = true → vw = []) ∧
      (unitV = false → vw.length = n ∧ ∀ v, v < n → nth vw v = (wf v).getD 0) := by
    cases hu : unitV with
    | true => exact ⟨[], by rw [h.vwNil hu]; rfl, fun _ => rfl, (fun h' => nomatch h')⟩
    | false =>
      refine ⟨(List.range n).map (fun v => (wf v).getD 0), freeze_spec _ (h.vwLen hu) ?_,
        (fun h' => nomatch h'), fun _ => ⟨by simp, fun v hv => by
          rw [nth_map (by simpa using hv), nth_range hv]⟩⟩
      intro v hv
      rw [h.vw hu v hv]
      cases hwv : wf v with
      | none => exact absurd hwv (hw hu v hv)
      | some x => rfl
  have hE : ∃ ew : List Nat, b.ewgt.freeze = ok ew ∧ (unitE = true → ew = []) ∧
      (unitE = false → ew.length = startOf f n ∧ ∀ e, e < startOf f n → nth ew e = (nth blocks.flatten e).2) := by
    cases hu : unitE with
    | true => exact ⟨[], by rw [h.ewNil hu]; rfl, fun _ => rfl, (fun h' => nomatch h')⟩
    | false =>
      refine ⟨(List.range (startOf f n)).map (fun e => (nth blocks.flatten e).2), freeze_spec _ (h.ewLen hu) ?_,
        (fun h' => nomatch h'), fun _ => ⟨by simp, fun v hv => by
          rw [nth_map (by simpa using hv), nth_range hv]⟩⟩
      refine cellv b.ewgt (fun q => q.2) fun v hv j hj => ?_
      rw [h.ew hu v hv j hj]
      unfold storedAt; rw [nth_map hj, hu]; rfl
  obtain ⟨vw, hv1, hv2, hv3⟩ := hV
  obtain ⟨ew, he1, he2, he3⟩ := hE
  have hnvs : usub b.pre.length 1 = n := by
    rw [h.preLen, usub_eq (by omega) (by omega)]; omega
  have hkl : (keysOf blocks.flatten).length = startOf f n := by simp [hS]
  -- sums
  have hsv : ∃ t u, sumWeights n vw = ok (t, u) ∧
      t = (∑ v ∈ range n, if unitV then 1 else (wf v).getD 0) % M32 ∧
      (u = true ↔ ∀ v, v < n → (if unitV then 1 else (wf v).getD 0) = 1) := by
    cases hu : unitV with
    | true =>
      rw [hv2 hu, sumWeights_nil]
      exact ⟨_, _, rfl, by simp only [if_true, sum_ones], by simp⟩
    | false =>
      obtain ⟨h1, h2⟩ := hv3 hu
      rw [sumWeights_eq h1]
      refine ⟨_, _, rfl, ?_, ?_⟩
      · exact congrArg (· % M32) (sum_congr rfl fun v hv => by rw [h2 v (mem_range.mp hv)]; simp)
      · rw [decide_eq_true_iff]
        exact forall_congr' fun v => forall_congr' fun hv => by rw [h2 v hv]; simp
  have hse : ∃ t u, sumWeights (startOf f n) ew = ok (t, u) ∧ t = wAll blocks.flatten % M32 ∧
      (unitE = true → u = true) ∧
      (u = true → ∀ e, e < startOf f n → (nth blocks.flatten e).2 = 1) := by
    have hwa : wAll blocks.flatten = ∑ e ∈ range (startOf f n), (nth blocks.flatten e).2 := by
      unfold wAll
      rw [sum_eq_sum_nth, List.length_map, hS]
      exact sum_congr rfl fun e he => by rw [nth_map (by have := mem_range.mp he; omega)]
    cases hu : unitE with
    | true =>
      have hone : ∀ e, e < startOf f n → (nth blocks.flatten e).2 = 1 := by
        intro e he
        obtain ⟨b, hb, hq⟩ := List.mem_flatten.mp (nth_mem (show e < blocks.flatten.length by omega))
        rw [hbl] at hb
        obtain ⟨v, _, rfl⟩ := List.mem_map.mp hb
        unfold storedAt at hq
        obtain ⟨q, _, hq⟩ := List.mem_map.mp hq
        rw [← hq, hu]; rfl
      rw [he2 hu, sumWeights_nil]
      refine ⟨_, _, rfl, ?_, fun _ => rfl, fun _ => hone⟩
      rw [hwa, sum_congr rfl fun e he => hone e (mem_range.mp he)]
      rw [sum_ones]
    | false =>
      obtain ⟨h1, h2⟩ := he3 hu
      rw [sumWeights_eq h1]
      refine ⟨_, _, rfl, ?_, (fun h' => nomatch h'), ?_⟩
      · rw [hwa, sum_congr rfl fun e he => h2 e (mem_range.mp he)]
      · intro hdec e he
        rw [decide_eq_true_iff] at hdec
        rw [← h2 e he]; exact hdec e he
  obtain ⟨tv, uv, hs1, hs2, hs3⟩ := hsv
  obtain ⟨te, ue, ht1, ht2, ht3, ht4⟩ := hse
  have hfin : b.finish =
      ok (Graph.mk ue uv n (startOf f n) tv te b.pre (keysOf blocks.flatten) vw ew) := by
    unfold TwoStep.finish
    rw [hel, ok_bind, hv1, ok_bind, he1, ok_bind]
    unfold Graph.make
    rw [hnvs, hkl]
    show (sumWeights n vw >>= _) = _
    rw [hs1, ok_bind, ht1, ok_bind]
  have hvw : ∀ v, v < n → (if uv = true then 1 else nth vw v) = if unitV then 1 else (wf v).getD 0 := by
    intro v hv
    by_cases huv : uv = true
    · rw [if_pos huv]; exact (hs3.mp huv v hv).symm
    · rw [if_neg huv]
      cases hu : unitV with
      | true => exact absurd (hs3.mpr fun v _ => by simp [hu]) huv
      | false => rw [(hv3 hu).2 v hv]; simp
  refine ⟨_, hfin, ?_, ?_, ?_, ?_, ?_, ?_, ?_, ?_, ?_, ?_, ?_⟩
  · refine { nv := hblen.symm, ne := hS.symm, xadj_len := h.preLen, xadj := ?_, adj := rfl, ew := ?_ }
    · intro i hi
      rw [hblen] at hi
      show nth b.pre i = _
      rw [take_storedAt (unitE := unitE) hd hi]
      cases i with
      | zero => rw [h.pre0]; simp [startOf]
      | succ i => rw [h.pre i (by omega), hd i (by omega), startOf_succ]
    · intro e he
      rw [hS] at he
      show (if ue = true then 1 else nth ew e) = _
      by_cases huu : ue = true
      · rw [if_pos huu, ht4 huu e he]
      · rw [if_neg huu]
        cases hu : unitE with
        | true => exact absurd (ht3 hu) huu
        | false => exact (he3 hu).2 e he
  · exact hvw
  · show uv = true ↔ _
    rw [hs3]
    exact forall_congr' fun v => forall_congr' fun hv => by rw [← hvw v hv]; rfl
  · show tv = _
    rw [hs2]
    exact congrArg (· % M32) (sum_congr rfl fun v hv => (hvw v (mem_range.mp hv)).symm)
  · exact ht2
  · exact hv2
  · exact fun hu => (hv3 hu).1
  · intro (huv : uv = true) v (hv : v < vw.length)
    show nth vw v = 1
    cases hu : unitV with
    | true => rw [hv2 hu] at hv; simp at hv
    | false =>
      obtain ⟨h1, h2⟩ := hv3 hu
      rw [h2 v (by omega)]
      have := hs3.mp huv v (by omega)
      rwa [hu] at this
  · exact fun hu => ⟨he2 hu, ht3 hu⟩
  · exact fun hu => (he3 hu).1
  · intro (huu : ue = true) e (he : e < ew.length)
    show nth ew e = 1
    cases hu : unitE with
    | true => rw [he2 hu] at he; simp at he
    | false =>
      obtain ⟨h1, h2⟩ := he3 hu
      rw [h2 e (by omega)]
      exact ht4 huu e (by omega)

end Poros
