import Verif.SpecAgg
import Verif.Proofs.Graph
import Mathlib.Algebra.BigOperators.Group.Finset.Piecewise
namespace Poros
open Finset Res

/-! ### Frozen memory -/

theorem freeze_spec {m : Mem} {n : Nat} (f : Nat → Nat) (hl : m.length = n)
    (h : ∀ p, p < n → nth m p = some (f p)) : m.freeze = ok ((List.range n).map f) := by
  have : m = (List.range n).map (fun p => some (f p)) := by
    refine list_ext_nth (by simp [hl]) fun p hp => ?_
    rw [nth_map (by simpa [hl] using hp), nth_range (by omega), h p (by omega)]
  unfold Mem.freeze
  rw [this, mapM_ok_eq_map (g := fun c => c.getD 0)]
  · simp
  · intro x hx
    simp only [List.mem_map] at hx
    obtain ⟨p, -, rfl⟩ := hx
    rfl

theorem Mem.rd_of_some {m : Mem} {i x : Nat} (h : nth m i = some x) : m.rd i = ok x := by
  unfold nth at h
  unfold Mem.rd
  rw [List.getD_eq_getElem?_getD] at h
  cases hm : m[i]? with
  | none => rw [hm] at h; cases h
  | some y => rw [hm] at h; simp at h; subst h; rfl

theorem Mem.wr_of_lt {m : Mem} {i x : Nat} (h : i < m.length) : m.wr i x = ok (m.set i (some x)) :=
  Poros.wr_of_lt h

theorem Mem.lt_of_some {m : Mem} {i x : Nat} (h : nth m i = some x) : i < m.length := by
  by_contra hn
  rw [nth_of_le (by omega)] at h
  cases h

/-! ### Fibers -/

theorem fiber_succ (cmap : Nat → Nat) (i c : Nat) :
    fiber cmap (i + 1) c = fiber cmap i c ++ if cmap i = c then [i] else [] := by
  unfold fiber
  rw [List.range_succ, List.filter_append]
  congr 1
  by_cases h : cmap i = c <;> simp [h]

theorem mem_fiber {cmap : Nat → Nat} {i c v : Nat} : v ∈ fiber cmap i c ↔ v < i ∧ cmap v = c := by
  simp [fiber]

theorem fiber_nodup (cmap : Nat → Nat) (i c : Nat) : (fiber cmap i c).Nodup :=
  List.Nodup.filter _ List.nodup_range

theorem fiber_prefix {cmap : Nat → Nat} {i n c : Nat} (h : i ≤ n) :
    (fiber cmap i c).length ≤ (fiber cmap n c).length := by
  induction n with
  | zero => obtain rfl : i = 0 := by omega
            exact le_refl _
  | succ n ih =>
    rcases Nat.lt_or_ge i (n + 1) with hlt | hge
    · refine le_trans (ih (by omega)) ?_
      rw [fiber_succ]; simp
    · obtain rfl : i = n + 1 := by omega
      exact le_refl _

theorem sum_fiber (cmap : Nat → Nat) (nc : Nat) (i : Nat) (h : ∀ v, v < i → cmap v < nc) :
    ∑ c ∈ range nc, (fiber cmap i c).length = i := by
  induction i with
  | zero => simp [fiber]
  | succ i ih =>
    simp only [fiber_succ, List.length_append]
    rw [sum_add_distrib, ih fun v hv => h v (by omega)]
    have : ∀ c, (if cmap i = c then [i] else ([] : List Nat)).length = if cmap i = c then 1 else 0 := by
      intro c; split <;> rfl
    simp only [this]
    rw [sum_ite_eq]
    simp [h i (by omega)]

theorem sum_over_fiber (cmap : Nat → Nat) (n c : Nat) (f : Nat → Nat) :
    ((fiber cmap n c).map f).sum = ∑ v ∈ range n, if cmap v = c then f v else 0 := by
  induction n with
  | zero => simp [fiber]
  | succ n ih =>
    rw [fiber_succ, List.map_append, List.sum_append, ih, sum_range_succ]
    congr 1
    split <;> simp

/-! ### Counting sort -/

theorem countGroups_spec {cmap : List Nat} {n nc : Nat} (hl : cmap.length = n) (hn : n < M32)
    (hc : ∀ v, v < n → nth cmap v < nc) :
    Sat (countGroups cmap nc) (fun cnt => cnt.length = nc + 1 ∧ nth cnt 0 = 0 ∧
      ∀ c, c < nc → nth cnt (c + 1) = (fiber (nth cmap) n c).length) := by
  unfold countGroups
  rw [hl]
  refine Post_foldlM_range (P := fun i cnt => cnt.length = nc + 1 ∧ nth cnt 0 = 0 ∧
      ∀ c, c < nc → nth cnt (c + 1) = (fiber (nth cmap) i c).length) ?_ ?_
  · refine ⟨by simp, nth_replicate (by omega), fun c hc => ?_⟩
    rw [nth_replicate (by omega)]; simp [fiber]
  · intro i pre hi ⟨h1, h2, h3⟩
    have hci := hc i hi
    rw [rd_of_lt (by omega), ok_bind, rd_of_lt (by omega), ok_bind, wr_of_lt (by omega)]
    refine ⟨by simpa using h1, ?_, fun c hcn => ?_⟩
    · rw [nth_set_ne (by omega)]; exact h2
    · rw [nth_set (by omega), fiber_succ]
      by_cases hcc : nth cmap i = c
      · subst hcc
        have := fiber_prefix (cmap := nth cmap) (c := nth cmap i) (Nat.le_of_lt hi)
        have h4 : (fiber (nth cmap) i (nth cmap i)).length ≤ i := by
          have := List.length_filter_le (fun v => decide (nth cmap v = nth cmap i)) (List.range i)
          simpa [fiber] using this
        rw [if_pos rfl, h3 _ hcn, uadd_eq (by omega)]
        simp
      · rw [if_neg (by omega), h3 c hcn]
        simp [hcc]

/-- Position of the first vertex of group `c`. -/
def gstart (cmap : Nat → Nat) (n c : Nat) : Nat := ∑ d ∈ range c, (fiber cmap n d).length

theorem gstart_succ (cmap : Nat → Nat) (n c : Nat) :
    gstart cmap n (c + 1) = gstart cmap n c + (fiber cmap n c).length := sum_range_succ _ _

theorem gstart_mono {cmap : Nat → Nat} {n c d : Nat} (h : c ≤ d) : gstart cmap n c ≤ gstart cmap n d :=
  sum_le_sum_of_subset (range_subset_range.mpr h)

theorem gstart_le {cmap : Nat → Nat} {n nc c : Nat} (hc : ∀ v, v < n → cmap v < nc) (h : c ≤ nc) :
    gstart cmap n c ≤ n := by
  have := gstart_mono (cmap := cmap) (n := n) h
  unfold gstart at this
  rw [sum_fiber cmap nc n hc] at this
  exact this

theorem gstart_cover {cmap : Nat → Nat} {n nc : Nat} {p : Nat} (h : p < gstart cmap n nc) :
    ∃ c, c < nc ∧ gstart cmap n c ≤ p ∧ p < gstart cmap n (c + 1) := by
  induction nc with
  | zero => simp [gstart] at h
  | succ nc ih =>
    by_cases hp : p < gstart cmap n nc
    · obtain ⟨c, h1, h2, h3⟩ := ih hp
      exact ⟨c, by omega, h2, h3⟩
    · exact ⟨nc, by omega, by omega, h⟩

theorem sum_take_eq (l : List Nat) {i : Nat} (h : i ≤ l.length) :
    (l.take i).sum = ∑ j ∈ range i, nth l j := by
  rw [sum_eq_sum_nth]
  have : (l.take i).length = i := by simp [h]
  rw [this]
  refine sum_congr rfl fun j hj => ?_
  have := mem_range.mp hj
  simp [nth, this]

theorem prefixSum_nth {l : List Nat} {i : Nat} (h : i < l.length) :
    nth (prefixSumExclusive l) i = (∑ j ∈ range i, nth l j) % M32 := by
  unfold prefixSumExclusive
  rw [nth_map (by simpa using h), nth_range h, sum_take_eq _ (by omega)]

theorem fillGroups_spec {cmap pre : List Nat} {n nc : Nat} (hl : cmap.length = n) (hn : n < M32)
    (hc : ∀ v, v < n → nth cmap v < nc) (hp : pre.length = nc + 1) (hp0 : nth pre 0 = 0)
    (hps : ∀ c, c < nc → nth pre (c + 1) = gstart (nth cmap) n c) :
    Sat (fillGroups cmap pre) (fun r => r.1.length = nc + 1 ∧
      (∀ c, c ≤ nc → nth r.1 c = gstart (nth cmap) n c) ∧ r.2.length = n ∧
      ∀ c, c < nc → ∀ j, j < (fiber (nth cmap) n c).length →
        nth r.2 (gstart (nth cmap) n c + j) = some (nth (fiber (nth cmap) n c) j)) := by
  unfold fillGroups
  rw [hl]
  refine (Post_foldlM_range (P := fun i (r : List Nat × Mem) => r.1.length = nc + 1 ∧ nth r.1 0 = 0 ∧
      (∀ c, c < nc → nth r.1 (c + 1) = gstart (nth cmap) n c + (fiber (nth cmap) i c).length) ∧
      r.2.length = n ∧
      ∀ c, c < nc → ∀ j, j < (fiber (nth cmap) i c).length →
        nth r.2 (gstart (nth cmap) n c + j) = some (nth (fiber (nth cmap) i c) j)) ?_ ?_).mono ?_
  · refine ⟨hp, hp0, ?_, by simp [Mem.alloc], ?_⟩
    · intro c hcn; rw [hps c hcn]; simp [fiber]
    · intro c hcn j hj; simp [fiber] at hj
  · intro i s hi ⟨h1, h0, h2, h3, h4⟩
    have hci := hc i hi
    have hlen : (fiber (nth cmap) i (nth cmap i)).length + 1 ≤ (fiber (nth cmap) n (nth cmap i)).length := by
      have := fiber_prefix (cmap := nth cmap) (c := nth cmap i) (i := i + 1) (n := n) (by omega)
      rw [fiber_succ] at this
      simpa using this
    have hpos : gstart (nth cmap) n (nth cmap i) + (fiber (nth cmap) i (nth cmap i)).length < n := by
      have := gstart_le (cmap := nth cmap) (c := nth cmap i + 1) hc (by omega)
      rw [gstart_succ] at this
      omega
    simp only [rd_of_lt (show i < cmap.length by omega), ok_bind,
      rd_of_lt (show nth cmap i + 1 < s.1.length by omega), h2 _ hci]
    rw [Mem.wr_of_lt (by omega), ok_bind, wr_of_lt (by omega), ok_bind]
    refine ⟨by simpa using h1, ?_, ?_, by simpa using h3, ?_⟩
    · rw [nth_set_ne (by omega)]; exact h0
    · intro c hcn
      rw [nth_set (by omega), fiber_succ]
      by_cases hcc : nth cmap i = c
      · subst hcc
        rw [if_pos rfl, uadd_eq (by omega)]
        simp; omega
      · rw [if_neg (by omega), h2 c hcn]; simp [hcc]
    · intro c hcn j hj
      rw [nth_set (by omega)]
      rw [fiber_succ] at hj ⊢
      by_cases hcc : nth cmap i = c
      · subst hcc
        simp only [if_true, List.length_append, List.length_singleton] at hj ⊢
        by_cases hj' : j = (fiber (nth cmap) i (nth cmap i)).length
        · subst hj'
          rw [if_pos rfl, nth_append_right (le_refl _)]
          simp [nth]
        · rw [if_neg (by omega), h4 _ hcn j (by omega), nth_append_left (by omega)]
      · simp only [if_neg hcc, List.append_nil] at hj ⊢
        rw [if_neg, h4 c hcn j hj]
        -- positions of different groups are disjoint
        have hb1 := fiber_prefix (cmap := nth cmap) (c := c) (i := i) (n := n) (by omega)
        rcases Nat.lt_or_gt_of_ne hcc with hlt | hgt
        · have := gstart_mono (cmap := nth cmap) (n := n) (show nth cmap i + 1 ≤ c by omega)
          rw [gstart_succ] at this
          omega
        · have := gstart_mono (cmap := nth cmap) (n := n) (show c + 1 ≤ nth cmap i by omega)
          rw [gstart_succ] at this
          omega
  · rintro ⟨pre', fm⟩ ⟨h1, h0, h2, h3, h4⟩
    refine ⟨h1, ?_, h3, h4⟩
    intro c hcn
    cases c with
    | zero => rw [h0]; simp [gstart]
    | succ c => rw [h2 c (by omega), gstart_succ]

theorem Aggregation.make_spec {cmap : Mem} {cm : List Nat} {n nc : Nat} (hf : cmap.freeze = ok cm)
    (hl : cm.length = n) (hn : n < M32) (hc : ∀ v, v < n → nth cm v < nc) :
    Sat (Aggregation.make cmap nc) (fun a => AggOK n a ∧ a.nc = nc ∧ a.cmap = cm) := by
  unfold Aggregation.make
  rw [hf, ok_bind]
  refine (countGroups_spec hl hn hc).bind fun cnt ⟨k1, k2, k3⟩ => ?_
  have hpl : (prefixSumExclusive cnt).length = nc + 1 := by simp [prefixSumExclusive, k1]
  have hps : ∀ c, c < nc → nth (prefixSumExclusive cnt) (c + 1) = gstart (nth cm) n c := by
    intro c hcn
    rw [prefixSum_nth (by omega), sum_range_succ', k2]
    have : ∑ j ∈ range c, nth cnt (j + 1) = gstart (nth cm) n c :=
      sum_congr rfl fun j hj => k3 j (by have := mem_range.mp hj; omega)
    rw [this, Nat.add_zero, Nat.mod_eq_of_lt]
    exact lt_of_le_of_lt (gstart_le hc (by omega)) hn
  have hp0 : nth (prefixSumExclusive cnt) 0 = 0 := by
    rw [prefixSum_nth (by omega)]; simp
  refine (fillGroups_spec hl hn hc hpl hp0 hps).bind fun r ⟨r1, r2, r3, r4⟩ => ?_
  -- every cell of the fine map is written
  have htot : gstart (nth cm) n nc = n := sum_fiber (nth cm) nc n hc
  have hall : ∀ p, p < n → nth r.2 p = some ((nth r.2 p).getD 0) := by
    intro p hp
    obtain ⟨c, h1, h2, h3⟩ := gstart_cover (cmap := nth cm) (n := n) (nc := nc) (p := p) (by omega)
    rw [gstart_succ] at h3
    have := r4 c h1 (p - gstart (nth cm) n c) (by omega)
    rw [show gstart (nth cm) n c + (p - gstart (nth cm) n c) = p by omega] at this
    rw [this]; rfl
  rw [freeze_spec (fun p => (nth r.2 p).getD 0) r3 hall, ok_bind]
  refine ⟨⟨hl, hl, hc, ?_⟩, rfl, rfl⟩
  intro c hcn
  simp only at hcn ⊢
  unfold Aggregation.group
  simp only
  have hle := gstart_le (cmap := nth cm) (n := n) (c := c + 1) hc (by omega)
  rw [rd_of_lt (by omega), ok_bind, rd_of_lt (by omega), ok_bind, r2 c (by omega), r2 (c + 1) (by omega)]
  have hgs := gstart_succ (nth cm) n c
  rw [usub_eq (by omega) (by omega), hgs, Nat.add_sub_cancel_left]
  rw [mapM_ok_eq_map (g := fun i => (nth r.2 i).getD 0)]
  · congr 1
    refine list_ext_nth (by simp) fun j hj => ?_
    have hj' : j < (fiber (nth cm) n c).length := by simpa using hj
    rw [nth_map (by simpa using hj')]
    have : nth (List.range' (gstart (nth cm) n c) (fiber (nth cm) n c).length) j =
        gstart (nth cm) n c + j := by
      rw [nth_eq_getElem (by simpa using hj')]; simp
    rw [this, r4 c hcn j hj']
    rfl
  · intro p hp
    rw [List.mem_range'_1] at hp
    rw [rd_of_lt (by simp; omega), nth_map (by simp; omega), nth_range (by omega)]

end Poros
