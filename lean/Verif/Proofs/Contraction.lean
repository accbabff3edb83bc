import Verif.Proofs.Blocks
import Verif.Proofs.Partitioning
/-
Contraction by an aggregation.
-/
namespace Poros
open Finset Res

attribute [-simp] List.length_flatten List.map_flatten

/-- The current list holds the sums of the pairs `ps`. -/
structure CurOf (c : Nat) (ps cur : List (Nat × Nat)) : Prop where
  w : ∀ d, wOf cur d = wOf ps d
  all : wAll cur = wAll ps
  keysIn : ∀ d, d ∈ keysOf cur → d = c ∨ d ∈ keysOf ps
  keysOut : ∀ d, d ∈ keysOf ps → d ∈ keysOf cur

theorem CurOf.init (c : Nat) : CurOf c [] [(c, 0)] :=
  ⟨by intro d; simp, by simp, by intro d hd; left; simpa using hd, by simp⟩

theorem CurOf.bump {c d w : Nat} {ps cur cur' : List (Nat × Nat)} (h : CurOf c ps cur) (hb : Bump cur d w cur') :
    CurOf c (ps ++ [(d, w)]) cur' := by
  rcases hb with ⟨hk, rfl⟩ | ⟨l1, o, l2, rfl, rfl⟩
  · refine ⟨fun x => by simp [h.w x], by simp [h.all], ?_, ?_⟩
    · intro x hx
      simp only [keysOf, List.map_append, List.mem_append] at hx ⊢
      rcases hx with hx | hx
      · rcases h.keysIn x hx with hc | hc
        · exact Or.inl hc
        · exact Or.inr (Or.inl hc)
      · exact Or.inr (Or.inr hx)
    · intro x hx
      simp only [keysOf, List.map_append, List.mem_append] at hx ⊢
      rcases hx with hx | hx
      · exact Or.inl (h.keysOut x hx)
      · exact Or.inr hx
  · have hks : keysOf (l1 ++ (d, o + w) :: l2) = keysOf (l1 ++ (d, o) :: l2) := by simp [keysOf]
    refine ⟨?_, ?_, ?_, ?_⟩
    · intro x
      have := h.w x
      simp only [wOf_append, wOf_cons, wOf_nil] at this ⊢
      split
      · simp_all; omega
      · simp_all
    · have := h.all
      simp only [wAll_append, wAll_cons, wAll_nil] at this ⊢
      omega
    · intro x hx
      rw [hks] at hx
      rcases h.keysIn x hx with hc | hc
      · exact Or.inl hc
      · exact Or.inr (by simp only [keysOf, List.map_append, List.mem_append]; exact Or.inl hc)
    · intro x hx
      rw [hks]
      simp only [keysOf, List.map_append, List.mem_append, List.map_cons, List.map_nil, List.mem_singleton] at hx
      rcases hx with hx | hx
      · exact h.keysOut x hx
      · subst hx; simp [keysOf]

/-- The (coarse vertex, weight) pairs of the edges of `v`. -/
def pairsAt (g : Graph) (cmap : Nat → Nat) (v : Nat) : List (Nat × Nat) :=
  (g.nbrs v).map fun q => (cmap q.1, q.2)

/-- All pairs of a list of vertices. -/
def pairsOf (g : Graph) (cmap : Nat → Nat) (l : List Nat) : List (Nat × Nat) := l.flatMap (pairsAt g cmap)

theorem pairsOf_append (g : Graph) (cmap : Nat → Nat) (l m : List Nat) :
    pairsOf g cmap (l ++ m) = pairsOf g cmap l ++ pairsOf g cmap m := by simp [pairsOf]

theorem wOf_pairsAt {g : Graph} (hg : g.WF) (cmap : Nat → Nat) {v : Nat} (hv : v < g.nv) (d : Nat) :
    wOf (pairsAt g cmap v) d = ∑ u ∈ range g.nv, if cmap u = d then g.wt v u else 0 := by
  have := Graph.wsum_eq_sum hg hv (fun u => decide (cmap u = d))
  simp only [decide_eq_true_eq] at this
  rw [← this]
  unfold wOf pairsAt Graph.wsum
  rw [List.map_map]
  simp only [decide_eq_true_eq]
  rfl

theorem wAll_pairsAt (g : Graph) (cmap : Nat → Nat) (v : Nat) :
    wAll (pairsAt g cmap v) = g.wsum v (fun _ => true) := by
  unfold wAll pairsAt Graph.wsum
  rw [List.map_map]
  simp only [if_true]
  rfl

theorem wOf_pairsOf (g : Graph) (cmap : Nat → Nat) (l : List Nat) (d : Nat) :
    wOf (pairsOf g cmap l) d = (l.map fun v => wOf (pairsAt g cmap v) d).sum := by
  induction l with
  | nil => rfl
  | cons v l ih =>
    have : pairsOf g cmap (v :: l) = pairsAt g cmap v ++ pairsOf g cmap l := by simp [pairsOf]
    rw [this, wOf_append, ih]; simp

theorem wAll_pairsOf (g : Graph) (cmap : Nat → Nat) (l : List Nat) :
    wAll (pairsOf g cmap l) = (l.map fun v => g.wsum v (fun _ => true)).sum := by
  induction l with
  | nil => rfl
  | cons v l ih =>
    have : pairsOf g cmap (v :: l) = pairsAt g cmap v ++ pairsOf g cmap l := by simp [pairsOf]
    rw [this, wAll_append, ih, wAll_pairsAt]; simp

theorem length_pairsOf (g : Graph) (cmap : Nat → Nat) (l : List Nat) :
    (pairsOf g cmap l).length = (l.map fun v => (g.nbrs v).length).sum := by
  induction l with
  | nil => rfl
  | cons v l ih =>
    have : pairsOf g cmap (v :: l) = pairsAt g cmap v ++ pairsOf g cmap l := by simp [pairsOf]
    rw [this, List.length_append, ih]; simp [pairsAt]

theorem sum_groups (n nc : Nat) (cmap : Nat → Nat) (hc : ∀ v, v < n → cmap v < nc) (f : Nat → Nat) :
    ∑ c ∈ range nc, ((fiber cmap n c).map f).sum = ∑ v ∈ range n, f v := by
  simp only [sum_over_fiber]
  rw [sum_comm]
  refine sum_congr rfl fun v hv => ?_
  rw [sum_ite_eq, if_pos (mem_range.mpr (hc v (mem_range.mp hv)))]

theorem betweenWeight_eq {g : Graph} (hg : g.WF) (cmap : Nat → Nat) (c d : Nat) :
    wOf (pairsOf g cmap (fiber cmap g.nv c)) d = betweenWeight g cmap c d := by
  rw [wOf_pairsOf, sum_over_fiber]
  unfold betweenWeight
  refine sum_congr rfl fun v hv => ?_
  rw [wOf_pairsAt hg cmap (mem_range.mp hv)]

theorem sum_nbrs_length {g : Graph} (hg : g.WF) : ∑ v ∈ range g.nv, (g.nbrs v).length = g.ne := by
  have h : ∀ n, n ≤ g.nv → ∑ v ∈ range n, (g.nbrs v).length = nth g.xadj n := by
    intro n
    induction n with
    | zero => intro _; simp [hg.xadj_zero]
    | succ n ih =>
      intro hn
      have := hg.xadj_mono n (by omega)
      rw [sum_range_succ, ih (by omega), Graph.nbrs_length]
      omega
  rw [h g.nv le_rfl, hg.xadj_last]

variable {g : Graph} {a : Aggregation}

/-- State while the current group is processed: `ps` are the pairs done. -/
structure Going (g : Graph) (nc : Nat) (blocks : List (List (Nat × Nat))) (vws : List Nat) (K : Nat)
    (ps : List (Nat × Nat)) (b : OneStep) : Prop where
  ex : ∃ cur, BInv nc (g.ne + 1) blocks cur vws b ∧ CurOf blocks.length ps cur
  ne : b.ne ≤ 1 + K + ps.length

theorem edges_loop (hg : g.WF) (hS : g.sumEdge < M32) (ha : AggOK g.nv a)
    {blocks : List (List (Nat × Nat))} {vws : List Nat} {K : Nat} {ps : List (Nat × Nat)} {b : OneStep}
    (h : Going g a.nc blocks vws K ps b) {v : Nat} (hv : v < g.nv)
    (hK : K + (ps ++ pairsAt g (nth a.cmap) v).length ≤ g.ne)
    (hW : wAll blocks.flatten + wAll (ps ++ pairsAt g (nth a.cmap) v) ≤ g.sumEdge) :
    Sat ((g.nbrs v).foldlM (fun (b : OneStep) q => do
      let c ← a.coarse q.1
      b.addEdge c q.2) b) (Going g a.nc blocks vws K (ps ++ pairsAt g (nth a.cmap) v)) := by
  have hne := hg.ne_lt
  refine (Post_foldlM (P := fun pre b => Going g a.nc blocks vws K (ps ++ pre.map fun q => (nth a.cmap q.1, q.2)) b)
    (by simpa using h) ?_).mono fun s hs => hs
  rintro pre q post b he ⟨⟨cur, h1, h2⟩, h3⟩
  have hq : q.1 < g.nv := Graph.nbrs_lt hg hv (by rw [he]; simp)
  unfold Aggregation.coarse
  rw [rd_of_lt (by rw [ha.len]; exact hq), ok_bind]
  have hp : pairsAt g (nth a.cmap) v = (pre.map fun q => (nth a.cmap q.1, q.2)) ++ (nth a.cmap q.1, q.2) ::
      post.map fun q => (nth a.cmap q.1, q.2) := by unfold pairsAt; rw [he]; simp
  rw [hp] at hK hW
  simp only [List.length_append, List.length_cons, List.length_map] at hK h3
  simp only [wAll_append, wAll_cons] at hW
  have hall := h2.all
  simp only [wAll_append] at hall
  obtain ⟨b', cur', e1, e2, e3, e4⟩ := h1.addEdge (by omega) (d := nth a.cmap q.1) (w := q.2)
    (Nat.le_of_lt (ha.lt q.1 hq)) (by omega) (by simp only [wAll_append]; omega)
  rw [e1]
  have h5 := h2.bump e3
  rw [show ps ++ List.map (fun q => (nth a.cmap q.1, q.2)) pre ++ [(nth a.cmap q.1, q.2)] =
    ps ++ List.map (fun q => (nth a.cmap q.1, q.2)) (pre ++ [q]) by simp] at h5
  exact ⟨⟨cur', e2, h5⟩, by simp; omega⟩

theorem group_loop (hg : g.WF) (hS : g.sumEdge < M32) (hV : g.sumVtx < M32) (ha : AggOK g.nv a)
    {blocks : List (List (Nat × Nat))} {vws : List Nat} {K : Nat} {b : OneStep}
    (h : Going g a.nc blocks vws K [] b) {c : Nat}
    (hK : K + (pairsOf g (nth a.cmap) (fiber (nth a.cmap) g.nv c)).length ≤ g.ne)
    (hW : wAll blocks.flatten + wAll (pairsOf g (nth a.cmap) (fiber (nth a.cmap) g.nv c)) ≤ g.sumEdge) :
    Sat (contractGroup g (!g.unitVtx) (!g.unitEdge) a (fiber (nth a.cmap) g.nv c) b)
      (fun s => Going g a.nc blocks vws K (pairsOf g (nth a.cmap) (fiber (nth a.cmap) g.nv c)) s.1 ∧
        s.2 = groupWeight g (nth a.cmap) c) := by
  unfold contractGroup
  have hgw : groupWeight g (nth a.cmap) c = ((fiber (nth a.cmap) g.nv c).map g.vw).sum := by
    rw [sum_over_fiber]; rfl
  have hle : ((fiber (nth a.cmap) g.nv c).map g.vw).sum ≤ g.sumVtx := by
    rw [sum_over_fiber]
    refine sum_le_sum fun v _ => ?_
    split <;> simp
  rw [hgw]
  refine Post_foldlM (P := fun pre (s : OneStep × Nat) => Going g a.nc blocks vws K (pairsOf g (nth a.cmap) pre) s.1 ∧
    s.2 = (pre.map g.vw).sum) ⟨h, rfl⟩ ?_
  rintro pre v post ⟨b, x⟩ he ⟨h1, h2⟩
  simp only at h1 h2
  have hv : v < g.nv := (mem_fiber.mp (show v ∈ fiber (nth a.cmap) g.nv c by rw [he]; simp)).1
  have hp : pairsOf g (nth a.cmap) (fiber (nth a.cmap) g.nv c) =
      pairsOf g (nth a.cmap) pre ++ pairsAt g (nth a.cmap) v ++ pairsOf g (nth a.cmap) post := by
    rw [he]; simp [pairsOf]
  rw [hp] at hK hW
  rw [he] at hle
  simp only [List.length_append, wAll_append, List.map_append, List.map_cons, List.sum_append,
    List.sum_cons] at hK hW hle
  rw [Graph.vwgtOf_eq hg hv, ok_bind, Graph.nbrsOf_eq hg hv, ok_bind]
  refine (edges_loop hg hS ha h1 hv (by simp only [List.length_append]; omega)
    (by simp only [wAll_append]; omega)).bind fun b' hb' => ?_
  refine ⟨?_, ?_⟩
  · simp only
    rw [show pairsOf g (nth a.cmap) (pre ++ [v]) = pairsOf g (nth a.cmap) pre ++ pairsAt g (nth a.cmap) v by
      simp [pairsOf]]
    exact hb'
  · simp only
    rw [h2, uadd_eq (by omega)]; simp

/-- A finished adjacency list: the sums of the pairs `ps`, without the vertex itself. -/
structure BlockOf (c : Nat) (ps blk : List (Nat × Nat)) : Prop where
  nodup : (keysOf blk).Nodup
  noSelf : c ∉ keysOf blk
  w : ∀ d, d ≠ c → wOf blk d = wOf ps d
  all : wAll blk ≤ wAll ps
  keys : ∀ d, d ∈ keysOf blk ↔ d ≠ c ∧ d ∈ keysOf ps

theorem CurOf.block {c sw : Nat} {ps rest : List (Nat × Nat)} (h : CurOf c ps ((c, sw) :: rest))
    (hn : (keysOf ((c, sw) :: rest)).Nodup) : BlockOf c ps (rot rest) := by
  have hp := rot_perm rest
  have hk : ∀ d, d ∈ keysOf (rot rest) ↔ d ∈ keysOf rest := fun d => (hp.map _).mem_iff
  simp only [keysOf, List.map_cons, List.nodup_cons] at hn
  refine ⟨((hp.map _).nodup_iff).mpr hn.2, ?_, ?_, ?_, ?_⟩
  · rw [hk]; exact hn.1
  · intro d hd
    rw [wOf_perm hp, ← h.w d, wOf_cons, if_neg (Ne.symm hd)]; omega
  · rw [wAll_perm hp, ← h.all, wAll_cons]; omega
  · intro d
    rw [hk]
    constructor
    · intro hd
      have hdc : d ≠ c := by rintro rfl; exact hn.1 hd
      refine ⟨hdc, ?_⟩
      rcases h.keysIn d (List.mem_cons_of_mem _ hd) with hc | hc
      · exact absurd hc hdc
      · exact hc
    · rintro ⟨hdc, hd⟩
      have := h.keysOut d hd
      simp only [keysOf, List.map_cons, List.mem_cons] at this
      rcases this with hc | hc
      · exact absurd hc hdc
      · exact hc

/-- Everything a contracted graph has to do with the fine graph. -/
structure Contracted (g : Graph) (a : Aggregation) (cg : Graph) : Prop where
  wf : cg.WF
  nv : cg.nv = a.nc
  unitV : cg.unitVtx = false
  unitE : cg.unitEdge = false
  vw : ∀ c, c < a.nc → cg.vw c = groupWeight g (nth a.cmap) c
  wt : ∀ c d, c < a.nc → d < a.nc → c ≠ d → cg.wt c d = betweenWeight g (nth a.cmap) c d
  simple : ∀ c, c < a.nc → (keysOf (cg.nbrs c)).Nodup
  noLoop : cg.NoLoop
  adj : ∀ c d, c < a.nc → (cg.Adj c d ↔ c ≠ d ∧ ∃ v u, v < g.nv ∧ g.Adj v u ∧
    nth a.cmap v = c ∧ nth a.cmap u = d)
  ne_le : cg.ne ≤ g.ne
  sumEdge_le : cg.sumEdge ≤ g.sumEdge

theorem mem_keys_pairsOf {cmap : Nat → Nat} {c d : Nat} :
    d ∈ keysOf (pairsOf g cmap (fiber cmap g.nv c)) ↔
      ∃ v u, v < g.nv ∧ g.Adj v u ∧ cmap v = c ∧ cmap u = d := by
  unfold keysOf pairsOf pairsAt Graph.Adj
  simp only [List.mem_map, List.mem_flatMap, mem_fiber]
  constructor
  · rintro ⟨p, ⟨v, ⟨hv, hc⟩, q, hq, rfl⟩, rfl⟩
    exact ⟨v, q.1, hv, ⟨q.2, hq⟩, hc, rfl⟩
  · rintro ⟨v, u, hv, ⟨w, hq⟩, hc, hd⟩
    exact ⟨(cmap u, w), ⟨v, ⟨hv, hc⟩, (u, w), hq, rfl⟩, hd⟩

theorem contract_spec (hg : g.WF) (hS : g.sumEdge < M32) (hV : g.sumVtx < M32) (ha : AggOK g.nv a)
    (hnc : a.nc < NULL32) : Sat (contract g a) (Contracted g a) := by
  have hne := hg.ne_lt
  let ps := fun c => pairsOf g (nth a.cmap) (fiber (nth a.cmap) g.nv c)
  have hKtot : ∑ c ∈ range a.nc, (ps c).length = g.ne := by
    simp only [ps, length_pairsOf]
    rw [sum_groups _ _ _ ha.lt, sum_nbrs_length hg]
  have hWtot : ∑ c ∈ range a.nc, wAll (ps c) = g.sumEdge := by
    simp only [ps, wAll_pairsOf]
    rw [sum_groups _ _ _ ha.lt]; rfl
  have hVtot : ∑ c ∈ range a.nc, groupWeight g (nth a.cmap) c = g.sumVtx := by
    have := sum_groups g.nv a.nc (nth a.cmap) ha.lt g.vw
    simp only [sum_over_fiber] at this
    exact this
  have hpart : ∀ (f : Nat → Nat) c, c < a.nc → ∑ i ∈ range c, f i + f c ≤ ∑ i ∈ range a.nc, f i := by
    intro f c hc
    rw [← sum_range_succ]
    exact sum_le_sum_of_subset (range_subset_range.mpr hc)
  unfold contract contractGraph
  obtain ⟨b0, e1, e2, e3⟩ := oneStep_new a.nc g.ne
  rw [e1, ok_bind]
  refine (Post_foldlM_range (P := fun c b => ∃ blocks, blocks.length = c ∧
    BInv a.nc (g.ne + 1) blocks [(c, 0)] ((List.range c).map (groupWeight g (nth a.cmap))) b ∧
    b.ne ≤ 1 + ∑ i ∈ range c, (ps i).length ∧ wAll blocks.flatten ≤ ∑ i ∈ range c, wAll (ps i) ∧
    ∀ i, i < c → BlockOf i (ps i) (nth blocks i)) ?_ ?_).bind ?_
  · exact ⟨[], rfl, by simpa using e2, by simp [e3], by simp, by simp⟩
  · rintro c b hc ⟨blocks, h1, h2, h3, h4, h5⟩
    have k1 := hpart (fun i => (ps i).length) c hc
    have k2 := hpart (fun i => wAll (ps i)) c hc
    have k3 := hpart (groupWeight g (nth a.cmap)) c hc
    rw [hKtot] at k1; rw [hWtot] at k2; rw [hVtot] at k3
    rw [ha.group c hc, ok_bind]
    have hgo : Going g a.nc blocks ((List.range c).map (groupWeight g (nth a.cmap)))
        (∑ i ∈ range c, (ps i).length) [] b := ⟨⟨_, h2, by rw [h1]; exact CurOf.init c⟩, by simpa using h3⟩
    refine (group_loop hg hS hV ha hgo (c := c) k1 (by change _ + wAll (ps c) ≤ _; omega)).bind ?_
    rintro ⟨b', x⟩ ⟨⟨⟨cur, i1, i2⟩, i3⟩, i4⟩
    simp only at i1 i2 i3 i4
    subst i4
    obtain ⟨sw, rest, hcur⟩ := i1.head
    subst hcur
    have hsumr : ((List.range c).map (groupWeight g (nth a.cmap))).sum = ∑ i ∈ range c, groupWeight g (nth a.cmap) i := by
      exact sum_map_range' _ _
    have hallc : wAll ((blocks.length, sw) :: rest) = wAll (ps c) := i2.all
    obtain ⟨b'', f1, f2, f3⟩ := i1.finishVertex (by omega) (by omega) hnc
      (w := groupWeight g (nth a.cmap) c) (by rw [hsumr]; omega) (by rw [wAll_append]; omega)
    simp only
    rw [f1]
    have hblk := i2.block i1.nodup
    rw [h1] at hblk f2
    refine ⟨blocks ++ [rot rest], by simp [h1], ?_, ?_, ?_, ?_⟩
    · rw [List.range_succ, List.map_append]; exact f2
    · rw [f3, sum_range_succ]
      have : (pairsOf g (nth a.cmap) (fiber (nth a.cmap) g.nv c)).length = (ps c).length := rfl
      omega
    · rw [sum_range_succ, List.flatten_append, wAll_append]
      have := hblk.all
      simp only [List.flatten_cons, List.flatten_nil, List.append_nil]
      change wAll (rot rest) ≤ wAll (ps c) at this
      omega
    · intro i hi
      by_cases hic : i < c
      · rw [nth_append_left (by omega)]; exact h5 i hic
      · have : i = c := by omega
        rw [nth_append_cons _ _ _ _ (by omega), this]
        exact hblk
  · rintro b ⟨blocks, h1, h2, h3, h4, h5⟩
    rw [hKtot] at h3; rw [hWtot] at h4
    have hneq := h2.neEq
    simp only [List.length_cons, List.length_nil] at hneq
    unfold OneStep.finish
    simp only
    have hne2 : usub b.ne 1 = blocks.flatten.length := by rw [usub_eq (by omega) (by omega)]; omega
    have hflt : blocks.flatten.length ≤ g.ne := by omega
    -- freezing
    have hpre := freeze_spec (m := b.pre) (fun i => (blocks.take i).flatten.length) h2.preLen
      (fun i hi => h2.pre i (by omega))
    have hvw := freeze_spec (m := b.vwgt) (groupWeight g (nth a.cmap)) h2.vwLen (fun i hi => by
      rw [h2.vw i (by omega), nth_map (by simpa using hi), nth_range hi])
    obtain ⟨j, hj⟩ := h2.el
    obtain ⟨j', hj'⟩ := h2.ew
    have fz : ∀ (m : Mem) (F x : List (Nat × Nat)) (s : Nat × Nat → Nat) (j : Mem),
        m = ((F ++ x).map fun q => some (s q)) ++ j → Mem.freeze (m.take F.length) = ok (F.map s) := by
      intro m F x s j hm
      have hmt : m.take F.length = F.map fun q => some (s q) := by
        rw [hm, List.map_append, List.append_assoc, List.take_append_of_le_length (by simp)]
        exact List.take_of_length_le (by simp)
      rw [hmt]
      have := freeze_spec (m := F.map fun q => some (s q)) (n := F.length) (fun i => s (nth F i)) (by simp)
        (fun i hi => nth_map hi)
      rw [this]
      refine congrArg ok (list_ext_nth (by simp) fun i hi => ?_)
      have hi' : i < F.length := by simpa using hi
      rw [nth_map (by simpa using hi'), nth_range hi', nth_map hi']
    rw [hne2, hpre, ok_bind, fz _ _ _ (fun q => q.1) _ hj, ok_bind, hvw, ok_bind, fz _ _ _ (fun q => q.2) _ hj',
      ok_bind]
    set cg := Graph.makeRaw ((List.range (a.nc + 1)).map fun i => (blocks.take i).flatten.length)
      (blocks.flatten.map fun q => q.1) ((List.range a.nc).map (groupWeight g (nth a.cmap)))
      (blocks.flatten.map fun q => q.2) b.totV b.totE false false with hcg
    have hnv : cg.nv = a.nc := by
      simp only [hcg, Graph.makeRaw, List.length_map, List.length_range]
      rw [usub_eq (by omega) (by omega)]; omega
    have hst : Stores cg blocks := by
      refine ⟨by rw [hnv, h1], by simp [hcg, Graph.makeRaw], ?_, ?_, rfl, ?_⟩
      · rw [hnv]; simp [hcg, Graph.makeRaw]
      · intro i hi
        simp only [hcg, Graph.makeRaw]
        rw [nth_map (by simp; omega), nth_range (by omega)]
      · intro e he
        simp only [hcg, Graph.makeRaw, Graph.ew, Bool.false_eq_true, if_false]
        rw [nth_map he]
    have hvwc : ∀ c, c < a.nc → cg.vw c = groupWeight g (nth a.cmap) c := by
      intro c hc
      simp only [hcg, Graph.makeRaw, Graph.vw, Bool.false_eq_true, if_false]
      rw [nth_map (by simpa using hc), nth_range hc]
    have hsv : cg.sumVtx = g.sumVtx := by
      unfold Graph.sumVtx
      rw [hnv, sum_congr rfl fun c hc => hvwc c (mem_range.mp hc)]
      exact hVtot
    have hkey : ∀ c, c < a.nc → ∀ q ∈ nth blocks c, q.1 < a.nc := by
      intro c hc q hq
      have hk := ((h5 c hc).keys q.1).mp (List.mem_map.mpr ⟨q, hq, rfl⟩)
      obtain ⟨v, u, hv, ⟨w, hvu⟩, -, hu⟩ := mem_keys_pairsOf.mp hk.2
      rw [← hu]
      exact ha.lt u (Graph.nbrs_lt hg hv hvu)
    have htotE := h2.totE
    simp only [wAll_append, wAll_cons, wAll_nil] at htotE
    have htotV := h2.totV
    rw [sum_map_range', hVtot] at htotV
    have hwf : cg.WF := by
      refine hst.wf (by omega) (by omega) ?_ (fun _ => by rw [hnv]; simp [hcg, Graph.makeRaw])
        (fun h => by simp [hcg, Graph.makeRaw] at h) (fun _ => by simp [hcg, Graph.makeRaw])
        (fun h => by simp [hcg, Graph.makeRaw] at h) ?_ ?_
      · intro blk hb q hq
        obtain ⟨c, hc, rfl⟩ := List.getElem_of_mem hb
        rw [h1]
        refine hkey c (by omega) q ?_
        rw [nth_eq_getElem hc]; exact hq
      · rw [hsv]
        change b.totV = _
        rw [htotV, Nat.mod_eq_of_lt hV]
      · change b.totE = _
        rw [htotE, Nat.mod_eq_of_lt (by omega)]; omega
    refine ⟨hwf, hnv, rfl, rfl, hvwc, ?_, ?_, ?_, ?_, ?_, ?_⟩
    · intro c d hc hd hcd
      rw [hst.wt (by omega), (h5 c hc).w d (Ne.symm hcd)]
      exact betweenWeight_eq hg _ _ _
    · intro c hc
      rw [hst.nbrs (by omega)]
      exact (h5 c hc).nodup
    · intro c hc q hq
      rw [hnv] at hc
      rw [hst.nbrs (by omega)] at hq
      rintro rfl
      exact (h5 _ hc).noSelf (List.mem_map.mpr ⟨q, hq, rfl⟩)
    · intro c d hc
      unfold Graph.Adj
      rw [hst.nbrs (by omega)]
      have hk := (h5 c hc).keys d
      rw [mem_keys_pairsOf] at hk
      constructor
      · rintro ⟨w, hw⟩
        obtain ⟨x, y⟩ := hk.mp (List.mem_map.mpr ⟨_, hw, rfl⟩)
        exact ⟨Ne.symm x, y⟩
      · rintro ⟨x, y⟩
        obtain ⟨q, hq, hqd⟩ := List.mem_map.mp (hk.mpr ⟨Ne.symm x, y⟩)
        exact ⟨q.2, by rw [← hqd]; exact hq⟩
    · rw [hst.ne]; exact hflt
    · rw [hst.sumEdge]; exact h4

/-! ### consequences -/

variable {cg : Graph}

theorem Contracted.sumVtx (h : Contracted g a cg) (ha : AggOK g.nv a) : cg.sumVtx = g.sumVtx := by
  unfold Graph.sumVtx
  rw [h.nv, sum_congr rfl fun c hc => h.vw c (mem_range.mp hc)]
  have := sum_groups g.nv a.nc (nth a.cmap) ha.lt g.vw
  simp only [sum_over_fiber] at this
  exact this

theorem Contracted.small (h : Contracted g a cg) (ha : AggOK g.nv a) (hs : g.Small) : cg.Small :=
  ⟨by rw [h.sumVtx ha]; exact hs.vtx, lt_of_le_of_lt h.sumEdge_le hs.edge⟩

theorem between_symm (hs : g.Symm) (cmap : Nat → Nat) (c d : Nat) :
    betweenWeight g cmap c d = betweenWeight g cmap d c := by
  unfold betweenWeight
  have e : ∀ c d, (∑ v ∈ range g.nv, if cmap v = c then (∑ u ∈ range g.nv, if cmap u = d then g.wt v u else 0) else 0) =
      ∑ v ∈ range g.nv, ∑ u ∈ range g.nv, if cmap v = c ∧ cmap u = d then g.wt v u else 0 := by
    intro c d
    refine sum_congr rfl fun v _ => ?_
    by_cases hc : cmap v = c
    · simp [hc]
    · simp [hc]
  rw [e, e, sum_comm]
  refine sum_congr rfl fun u hu => sum_congr rfl fun v hv => ?_
  rw [hs v u (mem_range.mp hv) (mem_range.mp hu)]
  simp only [and_comm]

theorem Contracted.symm (h : Contracted g a cg) (hs : g.Symm) : cg.Symm := by
  intro c d hc hd
  rw [h.nv] at hc hd
  by_cases hcd : c = d
  · rw [hcd]
  · rw [h.wt c d hc hd hcd, h.wt d c hd hc (Ne.symm hcd), between_symm hs]

theorem Contracted.symmAdj (h : Contracted g a cg) (hg : g.WF) (hs : g.SymmAdj) : cg.SymmAdj := by
  intro c d hc hd had
  rw [h.nv] at hc hd
  obtain ⟨hne, v, u, hv, ⟨w, hvu⟩, e1, e2⟩ := (h.adj c d hc).mp had
  have hu := Graph.nbrs_lt hg hv hvu
  exact (h.adj d c hd).mpr ⟨Ne.symm hne, u, v, hu, hs v u hv hu ⟨w, hvu⟩, e2, e1⟩

theorem sum_coarse (n nc : Nat) (cmap : Nat → Nat) (hc : ∀ v, v < n → cmap v < nc) (F : Nat → Nat → Nat) :
    ∑ c ∈ range nc, ∑ v ∈ range n, (if cmap v = c then F c v else 0) = ∑ v ∈ range n, F (cmap v) v := by
  rw [sum_comm]
  refine sum_congr rfl fun v hv => ?_
  rw [sum_ite_eq, if_pos (mem_range.mpr (hc v (mem_range.mp hv)))]

/-- Sum over coarse pairs, with a coefficient, of the weight between groups. -/
theorem sum_between {nc : Nat} {cmap : Nat → Nat} (hlt : ∀ v, v < g.nv → cmap v < nc) (P : Nat → Nat → Prop) [∀ c d, Decidable (P c d)] :
    ∑ c ∈ range nc, ∑ d ∈ range nc, (if P c d then betweenWeight g cmap c d else 0) =
    ∑ v ∈ range g.nv, ∑ u ∈ range g.nv, if P (cmap v) (cmap u) then g.wt v u else 0 := by
  have step : ∀ c d, (if P c d then betweenWeight g cmap c d else 0) =
      ∑ v ∈ range g.nv, if cmap v = c then
        (∑ u ∈ range g.nv, if cmap u = d then (if P c d then g.wt v u else 0) else 0) else 0 := by
    intro c d
    unfold betweenWeight
    by_cases hP : P c d
    · simp [hP]
    · simp [hP]
  calc _ = ∑ c ∈ range nc, ∑ v ∈ range g.nv, (if cmap v = c then
        ∑ d ∈ range nc, ∑ u ∈ range g.nv, (if cmap u = d then (if P c d then g.wt v u else 0) else 0) else 0) := by
        refine sum_congr rfl fun c _ => ?_
        rw [sum_congr rfl fun d _ => step c d, sum_comm]
        refine sum_congr rfl fun v _ => ?_
        by_cases hc : cmap v = c
        · simp [hc]
        · simp [hc]
    _ = ∑ v ∈ range g.nv, ∑ d ∈ range nc, ∑ u ∈ range g.nv,
          (if cmap u = d then (if P (cmap v) d then g.wt v u else 0) else 0) :=
        sum_coarse g.nv nc cmap hlt (fun c v => ∑ d ∈ range nc, ∑ u ∈ range g.nv,
          (if cmap u = d then (if P c d then g.wt v u else 0) else 0))
    _ = _ := by
        refine sum_congr rfl fun v _ => ?_
        exact sum_coarse g.nv nc cmap hlt (fun d u => if P (cmap v) d then g.wt v u else 0)

theorem Contracted.cut (h : Contracted g a cg) (ha : AggOK g.nv a) (hs : g.Symm) (lab : Nat → Nat) :
    cutWeight cg lab = cutWeight g (fun v => lab (nth a.cmap v)) := by
  have h1 := sum_external (h.symm hs) lab
  have h2 := sum_external hs (fun v => lab (nth a.cmap v))
  have : ∑ v ∈ range cg.nv, externalWeight cg lab v =
      ∑ v ∈ range g.nv, externalWeight g (fun v => lab (nth a.cmap v)) v := by
    unfold externalWeight
    rw [← sum_between ha.lt (fun c d => lab d ≠ lab c), h.nv]
    refine sum_congr rfl fun c hc => sum_congr rfl fun d hd => ?_
    by_cases hl : lab d = lab c
    · simp [hl]
    · have : c ≠ d := by rintro rfl; exact hl rfl
      rw [if_pos hl, if_pos hl, h.wt c d (mem_range.mp hc) (mem_range.mp hd) this]
  omega

theorem Contracted.partWeight (h : Contracted g a cg) (ha : AggOK g.nv a) (lab : Nat → Nat) (p : Nat) :
    partWeight cg lab p = partWeight g (fun v => lab (nth a.cmap v)) p := by
  unfold Poros.partWeight
  have := sum_coarse g.nv a.nc (nth a.cmap) ha.lt (fun c v => if lab c = p then g.vw v else 0)
  rw [← this, h.nv]
  refine sum_congr rfl fun c hc => ?_
  rw [h.vw c (mem_range.mp hc)]
  unfold groupWeight
  by_cases hl : lab c = p
  · simp [hl]
  · simp [hl]

end Poros
