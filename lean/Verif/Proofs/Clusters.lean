import Verif.Props.P123_Connected
import Verif.Props.P17_Heaviest
/-
Graphs that consist of connected clusters of equal weight without edges between them: growing takes whole clusters,
coarsening stays inside them, refinement leaves them alone.
-/
namespace Poros
open Finset Res

/-- The vertices of `g` fall into the clusters `Q`: `comp v` is the cluster of `v`, each cluster has weight `c` and is connected
by edges of weight at least `θ`, each vertex is tied to the other clusters by less than `θ`, and no vertex has weight zero. -/
structure Clustered (g : Graph) (comp : Nat → Nat) (Q : Finset Nat) (c θ : Nat) : Prop where
  mem : ∀ v, v < g.nv → comp v ∈ Q
  weight : ∀ q ∈ Q, partWeight g comp q = c
  pos : ∀ v, v < g.nv → 0 < g.vw v
  apart : ∀ v, v < g.nv → (∑ w ∈ range g.nv, if comp w = comp v then 0 else g.wt w v) < θ
  linked : ∀ q ∈ Q, LinkedIn g.nv (fun a b => if θ ≤ g.wt a b then g.wt a b else 0) fun v => comp v = q

/-- No edge leads from one cluster to another. -/
def Closed (g : Graph) (comp : Nat → Nat) : Prop := ∀ v u, v < g.nv → g.Adj v u → comp u = comp v

theorem adj_of_wt {g : Graph} {v u : Nat} (h : 0 < g.wt v u) : g.Adj v u := by
  by_contra hn
  have : g.wt v u = 0 := by
    unfold Graph.wt Graph.wsum
    refine List.sum_eq_zero fun x hx => ?_
    obtain ⟨q, hq, rfl⟩ := List.mem_map.mp hx
    rw [if_neg]
    intro e
    have e : q.1 = u := by simpa using e
    exact hn ⟨q.2, by rw [← e]; exact hq⟩
  omega

theorem adj_lt {g : Graph} (hg : g.WF) {v u : Nat} (hv : v < g.nv) (h : g.Adj v u) : u < g.nv := by
  obtain ⟨w, hw⟩ := h
  unfold Graph.nbrs at hw
  obtain ⟨e, he, heq⟩ := List.mem_map.mp hw
  have h1 := List.mem_range'_1.mp he
  have h2 := Graph.xadj_le_ne hg (v := v + 1) (by omega)
  have h3 := hg.xadj_mono v hv
  have := hg.dest_lt e (by omega)
  have e1 : nth g.adjncy e = u := congrArg Prod.fst heq
  omega

/-- The weight of the vertices of cluster `q` on the left side. -/
def leftPiece (g : Graph) (comp lab : Nat → Nat) (q : Nat) : Nat :=
  ∑ v ∈ range g.nv, if comp v = q then (if lab v = 0 then g.vw v else 0) else 0

namespace Clustered
variable {g : Graph} {comp : Nat → Nat} {Q : Finset Nat} {c θ : Nat}

theorem sum_pieces (h : Clustered g comp Q c θ) (lab : Nat → Nat) :
    partWeight g lab 0 = ∑ q ∈ Q, leftPiece g comp lab q := by
  unfold partWeight leftPiece
  rw [sum_comm]
  refine sum_congr rfl fun v hv => ?_
  rw [sum_ite_eq, if_pos (h.mem v (mem_range.mp hv))]

theorem sumVtx (h : Clustered g comp Q c θ) : g.sumVtx = Q.card * c := by
  have h1 := h.sum_pieces (fun _ => 0)
  have e : partWeight g (fun _ => 0) 0 = g.sumVtx := by
    unfold partWeight Graph.sumVtx
    exact sum_congr rfl fun v _ => if_pos rfl
  rw [← e, h1, sum_const_nat (m := c)]
  intro q hq
  rw [← h.weight q hq]
  unfold leftPiece partWeight
  exact sum_congr rfl fun v _ => by simp

theorem piece_le (h : Clustered g comp Q c θ) (lab : Nat → Nat) {q : Nat} (hq : q ∈ Q) : leftPiece g comp lab q ≤ c := by
  rw [← h.weight q hq]
  unfold leftPiece partWeight
  refine sum_le_sum fun v _ => ?_
  split
  · split <;> omega
  · exact le_refl _

theorem piece_add (h : Clustered g comp Q c θ) {lab : Nat → Nat} {v : Nat} (hv : v < g.nv) (hl : lab v ≠ 0) :
    leftPiece g comp lab (comp v) + g.vw v ≤ c := by
  rw [← h.weight _ (h.mem v hv)]
  unfold leftPiece partWeight
  rw [← add_sum_erase _ _ (mem_range.mpr hv), ← add_sum_erase (range g.nv) (fun u => if comp u = comp v then g.vw u else 0)
    (mem_range.mpr hv)]
  simp only [if_true, if_neg hl]
  have : ∑ u ∈ (range g.nv).erase v, (if comp u = comp v then (if lab u = 0 then g.vw u else 0) else 0) ≤
      ∑ u ∈ (range g.nv).erase v, (if comp u = comp v then g.vw u else 0) :=
    sum_le_sum fun u _ => by
      split
      · split <;> omega
      · exact le_refl _
  omega

theorem piece_pos (h : Clustered g comp Q c θ) {lab : Nat → Nat} {v : Nat} (hv : v < g.nv) (hl : lab v = 0) :
    0 < leftPiece g comp lab (comp v) := by
  unfold leftPiece
  have := single_le_sum (f := fun u => if comp u = comp v then (if lab u = 0 then g.vw u else 0) else 0)
    (fun _ _ => Nat.zero_le _) (mem_range.mpr hv)
  simp only [if_true, if_pos hl] at this
  have := h.pos v hv
  omega

/-- A piece that is neither nothing nor everything. -/
theorem piece_part (h : Clustered g comp Q c θ) {lab : Nat → Nat} {q : Nat} (hq : q ∈ Q) (h0 : leftPiece g comp lab q ≠ 0)
    (hc : leftPiece g comp lab q ≠ c) :
    (∃ x, x < g.nv ∧ comp x = q ∧ lab x = 0) ∧ ∃ y, y < g.nv ∧ comp y = q ∧ lab y ≠ 0 := by
  constructor
  · by_contra hn
    push Not at hn
    refine h0 (sum_eq_zero fun v hv => ?_)
    by_cases e : comp v = q
    · rw [if_pos e, if_neg (hn v (mem_range.mp hv) e)]
    · rw [if_neg e]
  · by_contra hn
    push Not at hn
    refine hc ?_
    rw [← h.weight q hq]
    refine sum_congr rfl fun v hv => ?_
    by_cases e : comp v = q
    · rw [if_pos e, if_pos e, if_pos (hn v (mem_range.mp hv) e)]
    · rw [if_neg e, if_neg e]

theorem pieces_mul (S : Finset Nat) (f : Nat → Nat) (h : ∀ q ∈ S, f q = 0 ∨ f q = c) : ∃ j, ∑ q ∈ S, f q = j * c := by
  classical
  induction S using Finset.induction_on with
  | empty => exact ⟨0, by simp⟩
  | insert a S ha ih =>
    obtain ⟨j, hj⟩ := ih fun q hq => h q (mem_insert_of_mem hq)
    rw [sum_insert ha, hj]
    rcases h a (mem_insert_self _ _) with e | e
    · exact ⟨j, by rw [e, Nat.zero_add]⟩
    · exact ⟨j + 1, by rw [e, Nat.succ_mul, Nat.add_comm]⟩

end Clustered

/-- The next vertex growing looks at, as long as the left side is below `n` clusters: it belongs to the cluster taken in part, if
there is one, and it fits. -/
theorem Clustered.next {g : Graph} {comp : Nat → Nat} {Q : Finset Nat} {c θ : Nat} (h : Clustered g comp Q c θ) {n : Nat}
    {seed : Nat} {lab : Nat → Nat} {seen : List Nat}
    (i1 : ∀ v, v < g.nv → lab v = if v ∈ seen then 0 else 1) (i2 : seen ≠ [] → seed ∈ seen) {q0 : Nat} (hq0 : q0 ∈ Q)
    (i3 : ∀ q ∈ Q, q ≠ q0 → leftPiece g comp lab q = 0 ∨ leftPiece g comp lab q = c)
    (hlt : partWeight g lab 0 < n * c) {v : Nat} (hnext : NextGrown g seed lab seen v) :
    (∀ q ∈ Q, q ≠ comp v → leftPiece g comp lab q = 0 ∨ leftPiece g comp lab q = c) ∧ partWeight g lab 0 + g.vw v ≤ n * c := by
  obtain ⟨hv, hns, hbest⟩ := hnext
  have hseen : ∀ x, x < g.nv → (lab x = 0 ↔ x ∈ seen) := fun x hx => by
    rw [i1 x hx]
    by_cases e : x ∈ seen <;> simp [e]
  have hA : ∀ q ∈ Q, q ≠ comp v → leftPiece g comp lab q = 0 ∨ leftPiece g comp lab q = c := by
    intro q hq hne
    by_cases e : q = q0
    · subst e
      by_contra hn
      push Not at hn
      obtain ⟨⟨x, hx, hxq, hx0⟩, y, hy, hyq, hy0⟩ := h.piece_part hq hn.1 hn.2
      obtain ⟨a, b, ha, hb, hbn, hbq, hab⟩ := leaves (A := fun z => z < g.nv ∧ lab z = 0) (h.linked q hq x y hx hy hxq hyq)
        ⟨hx, hx0⟩ (fun k => hy0 k.2)
      have hb0 : lab b ≠ 0 := fun k => hb ⟨hbn, k⟩
      have hxs := (hseen x hx).mp hx0
      have hs := i2 (List.ne_nil_of_mem hxs)
      have hab : θ ≤ g.wt a b := by
        by_contra k
        beta_reduce at hab
        rw [if_neg k] at hab
        omega
      have htie : θ ≤ tie g seed lab b := by
        unfold tie
        have := single_le_sum (f := fun w => if lab w = 0 then g.wt w b else 0) (fun _ _ => Nat.zero_le _)
          (mem_range.mpr ha.1)
        simp only [ha.2, if_true] at this
        omega
      have hvt := hbest b hbn (fun k => hb0 ((hseen b hbn).mpr k))
      have hvs : v ≠ seed := fun e => hns (e ▸ hs)
      unfold tie at hvt htie
      rw [if_neg hvs] at hvt
      have hv0 : lab v ≠ 0 := fun k => hns ((hseen v hv).mp k)
      have hout : ∀ w, w < g.nv → lab w = 0 → comp w ≠ comp v := by
        intro w hw hlw hcv
        rcases i3 (comp v) (h.mem v hv) (Ne.symm hne) with k | k
        · have := h.piece_pos hw hlw
          rw [hcv] at this
          omega
        · have := h.piece_add hv hv0
          have := h.pos v hv
          omega
      have hlow : (∑ w ∈ range g.nv, if lab w = 0 then g.wt w v else 0) ≤
          ∑ w ∈ range g.nv, if comp w = comp v then 0 else g.wt w v := sum_le_sum fun w hw => by
        by_cases k : lab w = 0
        · rw [if_pos k, if_neg (hout w (mem_range.mp hw) k)]
        · rw [if_neg k]
          exact Nat.zero_le _
      have := h.apart v hv
      omega
    · exact i3 q hq e
  refine ⟨hA, ?_⟩
  have hv0 : lab v ≠ 0 := fun k => hns ((hseen v hv).mp k)
  obtain ⟨j, hj⟩ := Clustered.pieces_mul (c := c) (Q.erase (comp v)) (leftPiece g comp lab)
    fun q hq => hA q (mem_of_mem_erase hq) (ne_of_mem_erase hq)
  have hsum := h.sum_pieces lab
  rw [← add_sum_erase _ _ (h.mem v hv), hj] at hsum
  have hadd := h.piece_add hv hv0
  have hjn : j < n := by
    by_contra k
    have := Nat.mul_le_mul_right c (Nat.le_of_not_lt k)
    omega
  have := Nat.mul_le_mul_right c (show j + 1 ≤ n from hjn)
  rw [Nat.succ_mul] at this
  omega

/-- Growing in a clustered graph: nothing is skipped, and at most one cluster is taken in part. -/
theorem Grown.clusters {fp : FP} {g : Graph} {comp : Nat → Nat} {Q : Finset Nat} {c θ : Nat} (h : Clustered g comp Q c θ)
    {t : Target fp} {n : Nat} (htw : nth t.tw 0 = n * c) (hmx : n * c ≤ nth t.mx 0) {seed : Nat} (hseed : seed < g.nv)
    {lab : Nat → Nat} {seen : List Nat} (hgr : Grown g t seed lab seen) :
    (∀ v, v < g.nv → lab v = if v ∈ seen then 0 else 1) ∧ (seen ≠ [] → seed ∈ seen) ∧
      (∃ q0 ∈ Q, ∀ q ∈ Q, q ≠ q0 → leftPiece g comp lab q = 0 ∨ leftPiece g comp lab q = c) ∧ partWeight g lab 0 ≤ n * c := by
  induction hgr with
  | @start lab hl =>
    refine ⟨fun v hv => by simp [hl v hv], by simp, ⟨comp seed, h.mem _ hseed, fun q hq _ => Or.inl ?_⟩, ?_⟩
    · refine sum_eq_zero fun v hv => ?_
      simp [hl v (mem_range.mp hv)]
    · unfold partWeight
      rw [sum_eq_zero fun v hv => by simp [hl v (mem_range.mp hv)]]
      exact Nat.zero_le _
  | @take lab seen v hgr hlt hnext hfit ih =>
    obtain ⟨i1, i2, ⟨q0, hq0, i3⟩, i4⟩ := ih
    rw [htw] at hlt
    obtain ⟨hA, hB⟩ := h.next i1 i2 hq0 i3 hlt hnext
    obtain ⟨hv, hns, hbest⟩ := hnext
    refine ⟨fun u hu => ?_, fun _ => ?_, ⟨comp v, h.mem v hv, fun q hq hne => ?_⟩, ?_⟩
    · unfold put
      by_cases huv : u = v
      · simp [huv]
      · simp only [List.mem_cons, huv, false_or]
        exact i1 u hu
    · by_cases hnil : seen = []
      · subst hnil
        have h1 := hbest seed hseed (by simp)
        have hz : ∀ u, ∑ w ∈ range g.nv, (if lab w = 0 then g.wt w u else 0) = 0 := fun u => by
          refine sum_eq_zero fun w hw => ?_
          rw [i1 w (mem_range.mp hw)]
          simp
        unfold tie at h1
        rw [hz, hz, if_pos rfl] at h1
        by_cases e : v = seed
        · simp [e]
        · rw [if_neg e] at h1; omega
      · exact List.mem_cons_of_mem _ (i2 hnil)
    · have e : leftPiece g comp (put lab v 0) q = leftPiece g comp lab q := by
        refine sum_congr rfl fun u _ => ?_
        unfold put
        by_cases huv : u = v
        · rw [huv, if_neg (Ne.symm hne), if_neg (Ne.symm hne)]
        · rw [if_neg huv]
      rw [e]
      exact hA q hq hne
    · have hv0 : lab v ≠ 0 := by rw [i1 v hv, if_neg hns]; decide
      have e : partWeight g (put lab v 0) 0 = partWeight g lab 0 + g.vw v := by
        unfold partWeight
        rw [← add_sum_erase _ _ (mem_range.mpr hv), ← add_sum_erase (range g.nv) (fun u => if lab u = 0 then g.vw u else 0)
          (mem_range.mpr hv)]
        have : ∑ u ∈ (range g.nv).erase v, (if put lab v 0 u = 0 then g.vw u else 0) =
            ∑ u ∈ (range g.nv).erase v, (if lab u = 0 then g.vw u else 0) :=
          sum_congr rfl fun u hu => by unfold put; rw [if_neg (ne_of_mem_erase hu)]
        rw [this]
        have hp : put lab v 0 v = 0 := by unfold put; rw [if_pos rfl]
        simp only [hp, if_true, if_neg hv0]
        omega
      rw [e]
      exact hB
  | @skip lab seen v hgr hlt hnext hno ih =>
    exfalso
    obtain ⟨i1, i2, ⟨q0, hq0, i3⟩, i4⟩ := ih
    rw [htw] at hlt
    obtain ⟨-, hB⟩ := h.next i1 i2 hq0 i3 hlt hnext
    omega

/-- Every cluster lies on one side, and exactly `n` of them on the left. -/
structure WholeClusters (g : Graph) (comp : Nat → Nat) (c n : Nat) (lab : Nat → Nat) : Prop where
  two : ∀ v, v < g.nv → lab v < 2
  whole : ∀ v u, v < g.nv → u < g.nv → comp v = comp u → lab v = lab u
  left : partWeight g lab 0 = n * c

/-- The result of growing in a clustered graph for a target of `n` clusters. -/
theorem GrownTo.clusters {fp : FP} {g : Graph} {comp : Nat → Nat} {Q : Finset Nat} {c θ : Nat} (h : Clustered g comp Q c θ)
    (hc : 0 < c) {t : Target fp} {n : Nat} (hn : n ≤ Q.card) (htw : nth t.tw 0 = n * c) (hmx : n * c ≤ nth t.mx 0)
    (hmx1 : (Q.card - n) * c ≤ nth t.mx 1) {seed : Nat} {out : Nat → Nat} (hgr : GrownTo g t seed out) :
    WholeClusters g comp c n out := by
  obtain ⟨hseed, lab, seen, hg, hout, hx⟩ := hgr
  obtain ⟨i1, i2, ⟨q0, hq0, i3⟩, i4⟩ := hg.clusters h htw hmx hseed
  have h2 : ∀ v, v < g.nv → lab v < 2 := fun v hv => by rw [i1 v hv]; split <;> decide
  have htot := h.sumVtx
  have hle := Nat.mul_le_mul_right c hn
  have hleft : partWeight g lab 0 = n * c := by
    rcases hout with k | k
    · rw [htw] at k; omega
    · have e : partWeight g lab 0 = g.sumVtx := by
        unfold partWeight Graph.sumVtx
        refine sum_congr rfl fun v hv => if_pos ?_
        have hv := mem_range.mp hv
        rw [i1 v hv, if_pos (k v hv)]
      omega
  have hpieces : ∀ q ∈ Q, leftPiece g comp lab q = 0 ∨ leftPiece g comp lab q = c := by
    intro q hq
    by_cases e : q = q0
    · subst e
      obtain ⟨j, hj⟩ := Clustered.pieces_mul (c := c) (Q.erase q) (leftPiece g comp lab)
        fun q hq => i3 q (mem_of_mem_erase hq) (ne_of_mem_erase hq)
      have hsum := h.sum_pieces lab
      rw [← add_sum_erase _ _ hq, hj, hleft] at hsum
      have hpl := h.piece_le lab hq
      rcases Nat.lt_trichotomy j n with k | k | k
      · have := Nat.mul_le_mul_right c (show j + 1 ≤ n from k)
        rw [Nat.succ_mul] at this
        omega
      · subst k; omega
      · have := Nat.mul_le_mul_right c (show n + 1 ≤ j from k)
        rw [Nat.succ_mul] at this
        omega
    · exact i3 q hq e
  have hright : partWeight g lab 1 ≤ nth t.mx 1 := by
    have := partWeight_two h2
    rw [Nat.sub_mul] at hmx1
    omega
  rcases hx with ⟨ho, -⟩ | ⟨-, rfl⟩
  · exact absurd ho.1 (by omega)
  · refine ⟨h2, fun v u hv hu huv => ?_, hleft⟩
    by_contra hne
    have key : ∀ x y, x < g.nv → y < g.nv → comp x = comp y → out x = 0 → out y ≠ 0 → False := by
      intro x y hx hy hxy hx0 hy0
      have k1 := h.piece_pos hx hx0
      have k2 := h.piece_add hy hy0
      rw [← hxy] at k2
      have k3 := h.pos y hy
      rcases hpieces (comp x) (h.mem x hx) with k | k <;> omega
    have a := h2 v hv
    have b := h2 u hu
    by_cases e : out v = 0
    · exact key v u hv hu huv e (by omega)
    · exact key u v hu hv huv.symm (by omega) e

/-- Whole clusters cut nothing. -/
theorem WholeClusters.cut {g : Graph} {comp : Nat → Nat} {c n : Nat} (h : Closed g comp)
    {lab : Nat → Nat} (hl : WholeClusters g comp c n lab) : cutWeight g lab = 0 := by
  unfold cutWeight
  refine sum_eq_zero fun v hv => sum_eq_zero fun u hu => ?_
  have hv := mem_range.mp hv
  have hu := mem_range.mp hu
  split
  · next hne =>
    by_contra hw
    exact hne (hl.whole u v (by omega) hv (h v u hv (adj_of_wt (Nat.pos_of_ne_zero hw))))
  · rfl

/-- Refinement leaves labels alone whose cut is zero and whose imbalance is at most that of any labels outside the limits. -/
theorem PassTo.idle {fp : FP} {g : Graph} {t : Target fp} {maxBad : Nat} {a lab best : Nat → Nat} {moved : List Nat} {bad : Nat}
    (h : PassTo g t maxBad a lab best moved bad) (h2 : ∀ v, v < g.nv → a v < 2) (h0 : cutWeight g a = 0)
    (hlow : ∀ lab', (∀ v, v < g.nv → lab' v < 2) → ¬ Balanced g t lab' →
      fp.lt (maxImbalance g t lab') (maxImbalance g t a) = false) : best = a ∧ ∀ v, v < g.nv → lab v < 2 := by
  induction h with
  | start => exact ⟨rfl, h2⟩
  | reject _ _ _ _ _ ih => exact ⟨ih.1, flip_lt ih.2 _⟩
  | accept _ _ _ _ hi ih =>
    exfalso
    rw [ih.1] at hi
    rcases hi with ⟨hb, k⟩ | ⟨k, -⟩
    · rw [hlow _ (flip_lt ih.2 _) hb] at k; cases k
    · omega

theorem Refined.idle {fp : FP} {g : Graph} {t : Target fp} {maxBad n : Nat} {a b : Nat → Nat} (h : Refined g t maxBad n a b)
    (h2 : ∀ v, v < g.nv → a v < 2) (h0 : cutWeight g a = 0)
    (hlow : ∀ lab', (∀ v, v < g.nv → lab' v < 2) → ¬ Balanced g t lab' →
      fp.lt (maxImbalance g t lab') (maxImbalance g t a) = false) : b = a := by
  induction h with
  | zero => rfl
  | last hp =>
    obtain ⟨_, _, _, hp, -⟩ := hp
    exact (hp.idle h2 h0 hlow).1
  | more hp _ ih =>
    obtain ⟨_, _, _, hp, -⟩ := hp
    have e := (hp.idle h2 h0 hlow).1
    subst e
    exact ih h2 h0 hlow

/-- Coarsening stays inside the clusters. -/
theorem Coarsened.clusters {E : Env} {s : Scheme} {maxW : Nat} {g : Graph} (hg : g.WF) {r : E.rng.S} {cmap : Nat → Nat}
    {cg : Graph} (hco : Coarsened E s maxW g r cmap cg) {comp : Nat → Nat} {Q : Finset Nat} {c θ : Nat}
    (h : Clustered g comp Q c θ) (hdc : Closed g comp) :
    ∃ comp', Clustered cg comp' Q c θ ∧ Closed cg comp' ∧ ∀ v, v < g.nv → comp v = comp' (cmap v) := by
  classical
  obtain ⟨hcon, f, hvis, hf⟩ := hco
  have hord : ∀ v ∈ (visitOrder E s g r).1, v < g.nv := fun v hv => by
    have := (visitOrder_perm E s g r).mem_iff.mp hv
    simpa using this
  have hsame : ∀ v u, v < g.nv → u < g.nv → cmap v = cmap u → comp v = comp u := by
    intro v u hv hu e
    rcases (hf v u hv hu).mp e with rfl | k
    · rfl
    · obtain ⟨z, z', w, hz, hzm, hzn, -⟩ := hvis.made rfl k
      have := hdc z z' (hord z hzm) ⟨w, hzn⟩
      rcases hz with ⟨rfl, rfl⟩ | ⟨rfl, rfl⟩
      · exact this.symm
      · exact this
  choose! rep hrep using hcon.onto
  have hcomp : ∀ v, v < g.nv → comp v = comp (rep (cmap v)) := fun v hv =>
    hsame v _ hv (hrep _ (hcon.lt v hv)).1 (hrep _ (hcon.lt v hv)).2.symm
  have hclosed : Closed cg fun d => comp (rep d) := fun d e hd hde => by
    obtain ⟨-, v, u, hv, hvu, rfl, rfl⟩ := (hcon.adj d e hd).mp hde
    have hu : u < g.nv := adj_lt hg hv hvu
    show comp (rep (cmap u)) = comp (rep (cmap v))
    rw [← hcomp u hu, ← hcomp v hv]
    exact hdc v u hv hvu
  refine ⟨fun d => comp (rep d), ⟨fun d hd => h.mem _ (hrep d hd).1, fun q hq => ?_, fun d hd => ?_, fun d hd => ?_,
    fun q hq => ?_⟩, hclosed, hcomp⟩
  · rw [← hcon.partWeight hcomp q]
    exact h.weight q hq
  · rw [hcon.vw d hd]
    unfold groupWeight
    have := single_le_sum (f := fun v => if cmap v = d then g.vw v else 0) (fun _ _ => Nat.zero_le _)
      (mem_range.mpr (hrep d hd).1)
    simp only [(hrep d hd).2, if_true] at this
    have := h.pos _ (hrep d hd).1
    omega
  · refine lt_of_le_of_lt (le_of_eq (sum_eq_zero fun e he => ?_)) (Nat.zero_lt_of_lt (h.apart _ (hrep d hd).1))
    split
    · rfl
    · next k =>
      by_contra hw
      exact k (hclosed e d (mem_range.mp he) (adj_of_wt (Nat.pos_of_ne_zero hw))).symm
  · intro d e hd he hdq heq
    have hpath := h.linked q hq (rep d) (rep e) (hrep d hd).1 (hrep e he).1 hdq heq
    have key : ∀ y, Relation.ReflTransGen (fun a b => b < g.nv ∧ comp b = q ∧ 0 < if θ ≤ g.wt a b then g.wt a b else 0) (rep d) y →
        y < g.nv ∧ Relation.ReflTransGen (fun a b => b < cg.nv ∧ comp (rep b) = q ∧ 0 < if θ ≤ cg.wt a b then cg.wt a b else 0) (cmap (rep d)) (cmap y) := by
      intro y hy
      induction hy with
      | refl => exact ⟨(hrep d hd).1, .refl⟩
      | @tail a b _ hab ih =>
        obtain ⟨ha, ih⟩ := ih
        refine ⟨hab.1, ?_⟩
        by_cases e : cmap a = cmap b
        · rw [← e]; exact ih
        · refine ih.tail ⟨hcon.lt b hab.1, ?_, ?_⟩
          · rw [← hcomp b hab.1]; exact hab.2.1
          · have hle : g.wt a b ≤ cg.wt (cmap a) (cmap b) := by
              rw [hcon.wt _ _ (hcon.lt a ha) (hcon.lt b hab.1) e]
              unfold betweenWeight
              have k1 := single_le_sum (f := fun v => if cmap v = cmap a then
                (∑ u ∈ range g.nv, if cmap u = cmap b then g.wt v u else 0) else 0) (fun _ _ => Nat.zero_le _) (mem_range.mpr ha)
              have k2 := single_le_sum (f := fun u => if cmap u = cmap b then g.wt a u else 0) (fun _ _ => Nat.zero_le _)
                (mem_range.mpr hab.1)
              simp only [if_true] at k1 k2
              omega
            have k3 := hab.2.2
            split at k3
            · rw [if_pos (by omega)]; omega
            · omega
    have := (key _ hpath).2
    rw [(hrep d hd).2, (hrep e he).2] at this
    exact this

end Poros
