import Verif.Proofs.Clusters
import Verif.Proofs.UnitSmall
/-
Runs on graphs that consist of connected clusters of equal weight.
-/
namespace Poros
open Finset Res Concrete

variable {pq : PQImpl} {set : SetImpl} {rng : RngImpl}

/-- Of all splits, none outside the limits has a smaller imbalance than the one with the target weights. -/
theorem exact_lowest [Concrete.Log2Impl] {n m a b : Nat} (hn : n = (n + m) / 2) (hn0 : 0 < n) (ha : 0 < a) (hab : a ≤ b)
    (hb : m * b < 4294967296) (hk : (n + m) * a < 4294967296) {bt : Target Concrete.fp}
    (hbt : IsHalvesTarget (List.replicate (n + m) a) (List.replicate (n + m) b) bt) {g : Graph} (hwf : g.WF)
    (hs : g.sumVtx = (n + m) * a) {lab : Nat → Nat} (h2 : ∀ v, v < g.nv → lab v < 2) (hl : partWeight g lab 0 = n * a)
    {lab' : Nat → Nat} (hnb : ¬ Balanced g bt lab') :
    Concrete.fp.lt (maxImbalance g bt lab') (maxImbalance g bt lab) = false := by
  obtain ⟨-, ⟨x0, -⟩, ⟨x1, -⟩, -⟩ := halves_equal hn hn0 ha hab hb hk hbt
  obtain ⟨q0, q1, hf, ⟨a1, a2⟩, b1, b2⟩ := halves_frac hn hn0 ha hk hbt
  have hW : 0 < (n + m) * a := Nat.mul_pos (by omega) ha
  have hm0 : 0 < m := by omega
  have hkq : (0 : ℚ) < ((n + m : Nat) : ℚ) := by exact_mod_cast (show 0 < n + m by omega)
  have haq : (0 : ℚ) < a := by exact_mod_cast ha
  have big : ∀ (x : Nat) (q : ℚ), n + m ≤ 3 * x → x * (1 - 1 / 2251799813685248) ≤ q * (n + m : Nat) → 13 / 50 ≤ q := by
    intro x q hx h
    have hx' : ((n + m : Nat) : ℚ) ≤ 3 * x := by exact_mod_cast hx
    by_contra hc
    push Not at hc
    have : q * ((n + m : Nat) : ℚ) < 13 / 50 * ((n + m : Nat) : ℚ) := mul_lt_mul_of_pos_right hc hkq
    have h3 : (x : ℚ) * (1 - 1 / 2251799813685248) ≥ x * (99 / 100) := mul_le_mul_of_nonneg_left (by norm_num) (Nat.cast_nonneg x)
    linarith
  have g0 := big n q0 (by omega) a2
  have g1 := big m q1 (by omega) b2
  have htot : g.totVtx = (n + m) * a := by rw [hwf.totVtx_eq (by omega), hs]
  obtain ⟨z, z1, z2, -, -⟩ := maxImbalance_err hf g0 g1 hW hk htot hs lab
  obtain ⟨y, y1, -, y3, y4⟩ := maxImbalance_err hf g0 g1 hW hk htot hs lab'
  have hr : partWeight g lab 1 = m * a := by
    have := partWeight_two h2
    rw [hs, Nat.add_mul] at this
    omega
  rw [show maxImbalance g bt lab = _ from z1, show maxImbalance g bt lab' = _ from y1]
  have lo : ∀ (x : Nat) (q : ℚ), 0 < q → x * (1 - 1 / 2251799813685248) ≤ q * (n + m : Nat) →
      rel ((n + m) * a) (x * a) q - 1 ≤ 1 / 1125899906842624 := by
    intro x q hq h
    unfold rel
    have e : (((n + m) * a : Nat) : ℚ) * q = (q * (n + m : Nat)) * a := by push_cast; ring
    have hp : 0 < (((n + m) * a : Nat) : ℚ) * q := by rw [e]; positivity
    rw [sub_le_iff_le_add, div_le_iff₀ hp, e]
    push_cast at h ⊢
    have hxn : (0 : ℚ) ≤ x := Nat.cast_nonneg x
    have h1 : (x : ℚ) ≤ (1 / 1125899906842624 + 1) * (q * (n + m)) := by
      have := mul_le_mul_of_nonneg_left h (show (0 : ℚ) ≤ 1 / 1125899906842624 + 1 by norm_num)
      have h3 : (1 / 1125899906842624 + 1) * ((x : ℚ) * (1 - 1 / 2251799813685248)) =
        x * ((1 / 1125899906842624 + 1) * (1 - 1 / 2251799813685248)) := by ring
      have h4 : (x : ℚ) * 1 ≤ x * ((1 / 1125899906842624 + 1) * (1 - 1 / 2251799813685248)) :=
        mul_le_mul_of_nonneg_left (by norm_num) hxn
      linarith
    have := mul_le_mul_of_nonneg_right h1 haq.le
    linarith
  have hi : ∀ (x w : Nat) (q : ℚ), 0 < q → x * a < 4294967296 → q * (n + m : Nat) ≤ x * (1 + 1 / 2251799813685248) →
      x * a < w → 1 / 8589934592 ≤ rel ((n + m) * a) w q - 1 := by
    intro x w q hq hlt h hw
    unfold rel
    have e : (((n + m) * a : Nat) : ℚ) * q = (q * (n + m : Nat)) * a := by push_cast; ring
    have hp : 0 < (((n + m) * a : Nat) : ℚ) * q := by rw [e]; positivity
    rw [le_sub_iff_add_le, le_div_iff₀ hp, e]
    have hw' : ((x * a : Nat) : ℚ) + 1 ≤ w := by exact_mod_cast hw
    have hlt' : ((x * a : Nat) : ℚ) < 4294967296 := by exact_mod_cast hlt
    have h1 := mul_le_mul_of_nonneg_right h haq.le
    have h2 : (1 / 8589934592 + 1) * (q * ((n + m : Nat) : ℚ) * a) ≤
        (1 / 8589934592 + 1) * (x * (1 + 1 / 2251799813685248) * a) := mul_le_mul_of_nonneg_left h1 (by norm_num)
    have h3 : (1 / 8589934592 + 1) * ((x : ℚ) * (1 + 1 / 2251799813685248) * a) =
        ((x * a : Nat) : ℚ) * ((1 / 8589934592 + 1) * (1 + 1 / 2251799813685248)) := by push_cast; ring
    have h4 : ((x * a : Nat) : ℚ) * ((1 / 8589934592 + 1) * (1 + 1 / 2251799813685248) - 1) ≤
        4294967296 * ((1 / 8589934592 + 1) * (1 + 1 / 2251799813685248) - 1) :=
      mul_le_mul_of_nonneg_right hlt'.le (by norm_num)
    have h5 : (4294967296 : ℚ) * ((1 / 8589934592 + 1) * (1 + 1 / 2251799813685248) - 1) ≤ 1 := by norm_num
    linarith
  have p0 : 0 < q0 := lt_of_lt_of_le (by norm_num) g0
  have p1 : 0 < q1 := lt_of_lt_of_le (by norm_num) g1
  have hz : z ≤ 1 / 1125899906842624 + eps := by
    rw [hl, hr] at z2
    refine le_trans z2 (add_le_add_left (max_le (by norm_num) (max_le (lo n q0 p0 a2) (lo m q1 p1 b2))) _)
  have hsz : n * a + m * a = (n + m) * a := (Nat.add_mul _ _ _).symm
  have hy : 1 / 8589934592 ≤ y + eps := by
    unfold Balanced at hnb
    push Not at hnb
    obtain ⟨q, hq, hlt⟩ := hnb
    obtain rfl | rfl : q = 0 ∨ q = 1 := by omega
    · exact le_trans (hi n _ q0 p0 (by omega) a1 (by omega)) y3
    · exact le_trans (hi m _ q1 p1 (by omega) b1 (by omega)) y4
  have : ¬ y < z := by
    have : 1 / 1125899906842624 + eps + eps < 1 / 8589934592 := by unfold eps; norm_num
    linarith
  exact decide_eq_false this

/-- Multilevel bisection of a clustered graph for parts of `j` clusters each. -/
theorem MLRun.clusters [Concrete.Log2Impl] {s : Scheme} {bt : Target Concrete.fp} {maxW n m j c b θ : Nat} (hn : n = (n + m) / 2)
    (hn0 : 0 < n) (hc : 0 < c) (hj : 0 < j) (hcb : j * c ≤ b) (hb : m * b < 4294967296) (hk : (n + m) * (j * c) < 4294967296)
    (hbt : IsHalvesTarget (List.replicate (n + m) (j * c)) (List.replicate (n + m) b) bt)
    {E : Env} {t : Target E.fp} (hE : E = dblEnv pq set rng) (ht : HEq t bt)
    {parent : Option Graph} {g : Graph} {r : E.rng.S} {lab : Nat → Nat} {r' : E.rng.S} {hier : List Graph}
    (h : MLRun E s t maxW (Sown E t) parent g r lab r' hier) :
    ∀ {comp : Nat → Nat} {Q : Finset Nat}, g.WF → Clustered g comp Q c θ → (g.nv ≤ 20 ∨ Closed g comp) → Q.card = (n + m) * j →
      WholeClusters g comp c (n * j) lab := by
  have ha : 0 < j * c := Nat.mul_pos hj hc
  obtain ⟨e1, ⟨e2, -⟩, ⟨e3, -⟩, -⟩ := halves_equal hn hn0 ha hcb hb hk hbt
  rw [← Nat.mul_assoc] at e1 e2 e3
  induction h with
  | @coarsest parent g r lab r' hst hi =>
    intro comp Q hwf hcl _ hQ
    subst hE
    cases ht
    obtain ⟨seed, hgr⟩ := hi.grown
    have hQ' : Q.card = n * j + m * j := by rw [hQ, Nat.add_mul]
    exact hgr.clusters hcl hc (by omega) e1 e2 (by rw [hQ', Nat.add_sub_cancel_left]; exact e3)
  | @level parent g r cmap cg clab r' hier lab0 lab hst hco hsub hdown href ih =>
    intro comp Q hwf hcl hcd hQ
    have hcd : Closed g comp := hcd.resolve_left fun k => hst (Or.inl k)
    obtain ⟨comp', hcl', hcd', hcm⟩ := hco.clusters hwf hcl hcd
    have hw := ih hco.1.valid hcl' (Or.inr hcd') hQ
    have hw0 : WholeClusters g comp c (n * j) lab0 := by
      refine ⟨fun v hv => by rw [hdown v hv]; exact hw.two _ (hco.1.lt v hv), fun v u hv hu e => ?_, ?_⟩
      · rw [hdown v hv, hdown u hu]
        exact hw.whole _ _ (hco.1.lt v hv) (hco.1.lt u hu) (by rw [← hcm v hv, ← hcm u hu]; exact e)
      · rw [hco.1.partWeight hdown 0]; exact hw.left
    subst hE
    cases ht
    have hs := hcl.sumVtx
    rw [hQ, Nat.mul_assoc] at hs
    have := href.idle hw0.two (hw0.cut hcd) fun lab' _ hnb =>
      exact_lowest hn hn0 ha hcb hb hk hbt hwf hs hw0.two (by rw [hw0.left, Nat.mul_assoc]) hnb
    rw [this]
    exact hw0

/-- Multilevel bisection for the first half of `m` parts of `j` clusters each. -/
theorem MLBisected.clusters [Concrete.Log2Impl] {s : Scheme} {bt : Target Concrete.fp} {m j c b θ : Nat} (hm : 2 ≤ m)
    (hc : 0 < c) (hj : 0 < j) (hcb : j * c ≤ b) (hb : (m - m / 2) * b < 4294967296) (hk : m * (j * c) < 4294967296)
    (hbt : IsHalvesTarget (List.replicate m (j * c)) (List.replicate m b) bt)
    {g : Graph} {r : rng.S} {lab : Nat → Nat} {r' : rng.S}
    (h : MLBisected (dblEnv pq set rng) s bt g r lab r') {comp : Nat → Nat} {Q : Finset Nat} (hwf : g.WF)
    (hcl : Clustered g comp Q c θ) (hcd : g.nv ≤ 20 ∨ Closed g comp) (hQ : Q.card = m * j) (h2 : ∀ v, v < g.nv → lab v < 2) :
    WholeClusters g comp c (m / 2 * j) lab ∧ partWeight g lab 1 = (m - m / 2) * j * c := by
  obtain ⟨hier, h⟩ := h
  have e : m / 2 + (m - m / 2) = m := by omega
  have hw := MLRun.clusters (pq := pq) (set := set) (rng := rng) (n := m / 2) (m := m - m / 2) (by omega) (by omega) hc hj hcb hb
    (by rw [e]; exact hk) (by rw [e]; exact hbt) rfl HEq.rfl h hwf hcl hcd (by rw [e]; exact hQ)
  refine ⟨hw, ?_⟩
  have h1 := partWeight_two h2
  rw [hcl.sumVtx, hQ, hw.left] at h1
  have : m / 2 * j * c + (m - m / 2) * j * c = m * j * c := by rw [← Nat.add_mul, ← Nat.add_mul, e]
  omega

/-- The subgraph of one side. -/
theorem IsInduced.clusters {g s : Graph} {lab : Nat → Nat} {p : Nat} (h : IsInduced g lab p s) (hwf : g.WF) {comp : Nat → Nat}
    {Q : Finset Nat} {c k θ : Nat} (hcl : Clustered g comp Q c θ) (hcd : g.nv ≤ 20 ∨ Closed g comp)
    (hc : 0 < c) (hw : ∀ v u, v < g.nv → u < g.nv → comp v = comp u → lab v = lab u) (hp : partWeight g lab p = k * c) :
    ∃ Q', Clustered s (fun i => comp (nth (vertsOf g lab p) i)) Q' c θ ∧
      (s.nv ≤ 20 ∨ Closed s fun i => comp (nth (vertsOf g lab p) i)) ∧ Q'.card = k := by
  classical
  have hQ' : ∀ q, q ∈ Q.filter (fun q => ∃ v, v < g.nv ∧ comp v = q ∧ lab v = p) ↔
      q ∈ Q ∧ ∃ v, v < g.nv ∧ comp v = q ∧ lab v = p := fun q => mem_filter
  have hcl' : Clustered s (fun i => comp (nth (vertsOf g lab p) i))
      (Q.filter fun q => ∃ v, v < g.nv ∧ comp v = q ∧ lab v = p) c θ := by
    refine ⟨fun i hi => ?_, fun q hq => ?_, fun i hi => ?_, fun i hi => ?_, fun q hq => ?_⟩
    · obtain ⟨h1, h2⟩ := h.vert hi
      exact (hQ' _).mpr ⟨hcl.mem _ h1, _, h1, rfl, h2⟩
    · obtain ⟨hq1, v, hv, rfl, hvp⟩ := (hQ' q).mp hq
      rw [← hcl.weight _ hq1]
      have e : partWeight g comp (comp v) =
          ∑ u ∈ range g.nv, if lab u = p then (if comp u = comp v then g.vw u else 0) else 0 := by
        unfold partWeight
        refine sum_congr rfl fun u hu => ?_
        by_cases k : comp u = comp v
        · rw [if_pos k, if_pos (by rw [hw u v (mem_range.mp hu) hv k]; exact hvp)]
        · rw [if_neg k, ite_self]
      rw [e, h.sum]
      unfold partWeight
      exact sum_congr rfl fun i hi => by rw [h.vw i (mem_range.mp hi)]
    · rw [h.vw i hi]; exact hcl.pos _ (h.vert hi).1
    · obtain ⟨h1, h2⟩ := h.vert hi
      refine lt_of_le_of_lt ?_ (hcl.apart _ h1)
      rw [sum_congr rfl fun k hk => by rw [h.wt hwf (mem_range.mp hk) hi],
        ← h.sum fun w => if comp w = comp (nth (vertsOf g lab p) i) then 0 else g.wt w (nth (vertsOf g lab p) i)]
      exact sum_le_sum fun w _ => by
        split
        · exact le_refl _
        · exact Nat.zero_le _
    · obtain ⟨hq1, v, hv, rfl, hvp⟩ := (hQ' q).mp hq
      intro i j hi hj hiq hjq
      obtain ⟨hvi, hpi⟩ := h.vert hi
      obtain ⟨hvj, hpj⟩ := h.vert hj
      have hpath := hcl.linked _ hq1 _ _ hvi hvj hiq hjq
      have key : ∀ u, Relation.ReflTransGen (fun a b => b < g.nv ∧ comp b = comp v ∧ 0 < if θ ≤ g.wt a b then g.wt a b else 0) (nth (vertsOf g lab p) i) u →
          u < g.nv ∧ lab u = p ∧ ∀ k, k < s.nv → nth (vertsOf g lab p) k = u →
            Relation.ReflTransGen (fun a b => b < s.nv ∧ comp (nth (vertsOf g lab p) b) = comp v ∧
              0 < if θ ≤ s.wt a b then s.wt a b else 0) i k := by
        intro u hu
        induction hu with
        | refl =>
          refine ⟨hvi, hpi, fun k hk e => ?_⟩
          rw [h.nv] at hk hi
          rw [vertsOf_inj hk hi e]
        | @tail a b _ hab ih =>
          obtain ⟨ha, hpa, ih⟩ := ih
          obtain ⟨ia, hia, hea⟩ := h.index ha hpa
          have hpb : lab b = p := by rw [hw b v hab.1 hv hab.2.1]; exact hvp
          refine ⟨hab.1, hpb, fun k hk e => (ih ia hia hea).tail ⟨hk, by rw [e]; exact hab.2.1, ?_⟩⟩
          rw [h.wt hwf hia hk, hea, e]
          exact hab.2.2
      exact (key _ hpath).2.2 j hj rfl
  refine ⟨_, hcl', ?_, ?_⟩
  · rcases hcd with k | k
    · exact Or.inl (le_trans (by rw [h.nv]; exact (List.length_filter_le _ _).trans (by simp)) k)
    · refine Or.inr fun i j hi hij => ?_
      obtain ⟨w, hm⟩ := hij
      have h1 : (nth (vertsOf g lab p) j, w) ∈ (s.nbrs i).map (fun q => (nth (vertsOf g lab p) q.1, q.2)) :=
        List.mem_map.mpr ⟨_, hm, rfl⟩
      rw [h.nbrs i hi] at h1
      exact k _ _ (h.vert hi).1 ⟨w, (List.mem_filter.mp h1).1⟩
  have h1 := hcl'.sumVtx
  rw [h.sumVtx, hp] at h1
  exact (Nat.eq_of_mul_eq_mul_right hc h1).symm

/-- Recursive bisection of a clustered graph into parts of `j` clusters each: no cluster is split, and every part has `j`. -/
theorem RBRun.clusters [Concrete.Log2Impl] {s : Scheme} {j c b θ : Nat} (hc : 0 < c) (hj : 0 < j) (hcb : j * c ≤ b)
    {tw mx : List Nat} {g : Graph}
    {r : rng.S} {lab : Nat → Nat} {r' : rng.S} (h : RBRun (MLBisected (dblEnv pq set rng) s) tw mx g r lab r') :
    ∀ m, tw = List.replicate m (j * c) → mx = List.replicate m b → g.Good → (m - m / 2) * b < 4294967296 →
      m * (j * c) < 4294967296 → ∀ (comp : Nat → Nat) (Q : Finset Nat), Clustered g comp Q c θ →
      (g.nv ≤ 20 ∨ Closed g comp) → Q.card = m * j →
      (∀ v u, v < g.nv → u < g.nv → comp v = comp u → lab v = lab u) ∧ ∀ q, q < m → partWeight g lab q = j * c := by
  induction h with
  | leaf hk _ h =>
    intro m e1 e2 hg hb hk' comp Q hcl hcd hQ
    have hm : m = 1 := by rw [e1] at hk; simpa using hk
    refine ⟨fun v u hv hu _ => by rw [h v hv, h u hu], fun q hq => ?_⟩
    rw [show q = 0 by omega]
    unfold partWeight
    rw [sum_congr rfl fun v hv => if_pos (h v (mem_range.mp hv)), ← Graph.sumVtx, hcl.sumVtx, hQ, hm, one_mul]
  | @node tw mx g lab bt side sL sR labL labR r r1 r2 r3 hk hm hbt hR hp hL hRt runL runR labelsL labelsR ihL ihR =>
    intro m e1 e2 hg hb hk' comp Q hcl hcd hQ
    subst e1 e2
    have hlt := runL.lt
    simp only [List.length_replicate, List.take_replicate, List.drop_replicate] at hk ihL ihR labelsR hlt
    rw [Nat.min_eq_left (Nat.div_le_self m 2)] at ihL hlt
    obtain ⟨hw, hw1⟩ := MLBisected.clusters hk hc hj hcb hb hk' hbt hR hg.wf hcl hcd hQ hp
    obtain ⟨QL, cL, dL, nL⟩ := hL.clusters hg.wf hcl hcd hc hw.whole hw.left
    obtain ⟨QR, cR, dR, nR⟩ := hRt.clusters hg.wf hcl hcd hc hw.whole hw1
    have hle : ∀ x y, x ≤ y → x * b ≤ y * b := fun x y h => Nat.mul_le_mul_right _ h
    have hle' : ∀ x y, x ≤ y → x * (j * c) ≤ y * (j * c) := fun x y h => Nat.mul_le_mul_right _ h
    obtain ⟨iL, wL⟩ := ihL _ rfl rfl (hL.good hg hL.valid) (lt_of_le_of_lt (hle _ _ (by omega)) hb)
      (lt_of_le_of_lt (hle' _ _ (by omega)) hk') _ _ cL dL nL
    obtain ⟨iR, wR⟩ := ihR _ rfl rfl (hRt.good hg hRt.valid) (lt_of_le_of_lt (hle _ _ (by omega)) hb)
      (lt_of_le_of_lt (hle' _ _ (by omega)) hk') _ _ cR dR nR
    have hLlt : ∀ i, i < sL.nv → labL i < m / 2 := fun i hi => by simpa using hlt i hi
    refine ⟨fun v u hv hu e => ?_, fun q hq => ?_⟩
    · have hs := hw.whole v u hv hu e
      have hv2 := hp v hv
      rcases Nat.lt_or_ge (side v) 1 with a | a
      · obtain ⟨i, hi, rfl⟩ := hL.index hv (by omega)
        obtain ⟨k, hk, rfl⟩ := hL.index hu (by omega)
        rw [labelsL i hi, labelsL k hk]
        exact iL i k hi hk e
      · obtain ⟨i, hi, rfl⟩ := hRt.index hv (by omega)
        obtain ⟨k, hk, rfl⟩ := hRt.index hu (by omega)
        rw [labelsR i hi, labelsR k hk, iR i k hi hk e]
    · rw [partWeight_sides hp hL hRt hLlt labelsL labelsR]
      split
      · exact wL q (by omega)
      · exact wR _ (by omega)

/-- Multilevel bisection of a clustered graph succeeds. -/
theorem multilevel_clusters [Concrete.Log2Impl] (s : Scheme) {bt : Target Concrete.fp} {m j c b θ : Nat} (hm : 2 ≤ m)
    (hc : 0 < c) (hj : 0 < j) (hcb : j * c ≤ b) (hb : (m - m / 2) * b < 4294967296) (hk : m * (j * c) < 4294967296)
    (hbt : IsHalvesTarget (List.replicate m (j * c)) (List.replicate m b) bt) (ht : bt.Two)
    {g : Graph} (hg : g.Good) {comp : Nat → Nat} {Q : Finset Nat} (hcl : Clustered g comp Q c θ) (hQ : Q.card = m * j) (r : rng.S) :
    ∃ o, (makeMultilevel (dblEnv pq set rng) s).execute bt g r = ok o ∧ IsExact g 2 o.1 := by
  have e : m / 2 + (m - m / 2) = m := by omega
  have ha : 0 < j * c := Nat.mul_pos hj hc
  obtain ⟨e1, ⟨e2, -⟩, ⟨e3, -⟩, -⟩ := halves_equal (n := m / 2) (m := m - m / 2) (by omega) (by omega) ha hcb hb
    (by rw [e]; exact hk) (by rw [e]; exact hbt)
  have hsum : g.sumVtx = m * (j * c) := by rw [hcl.sumVtx, hQ, Nat.mul_assoc]
  have h0 : 0 < g.nv := by
    rcases Nat.eq_zero_or_pos g.nv with h | h
    · unfold Graph.sumVtx at hsum
      rw [h, range_zero, sum_empty] at hsum
      have := Nat.mul_pos (show 0 < m by omega) ha
      omega
    · exact h
  by_cases hstop : g.nv ≤ 20 ∨ g.ne = 0
  · by_cases hu : g.unitVtx = true
    · have hone : ∀ v, v < g.nv → g.vw v = 1 := fun v hv => by unfold Graph.vw; rw [if_pos hu]
      have hsz : m / 2 * (j * c) + (m - m / 2) * (j * c) = m * (j * c) := by rw [← Nat.add_mul, e]
      rw [unit_sum hone] at hsum
      exact sat_iff.mp ((multilevel_unit (E := dblEnv pq set rng) Concrete.callOK.multilevel s hg hstop ht hone
        ⟨by omega, by omega⟩ h0 r).mono fun o ho => ho.1)
    · obtain ⟨o, ho⟩ := (C72_multilevel_run (pq := pq) (set := set) (rng := rng) s ht hg r).2 h0 fun k => absurd k hu
      exact ⟨o, ho, (C35_multilevel (E := dblEnv pq set rng) s ht hg r).1 o.1 o.2 ho⟩
  · push Not at hstop
    exact sat_iff.mp (multilevel_coarsened (E := dblEnv pq set rng) Concrete.callOK.multilevel Concrete.callOK.badMoves s hg
      hstop.1 hstop.2 ht r)

/-- A run on a clustered graph succeeds. -/
theorem partitioner_clusters [Concrete.Log2Impl] (s : Scheme) {t : Target Concrete.fp} {j c b k θ : Nat} (hk : 2 ≤ k) (htk : t.k = k)
    (etw : t.tw = List.replicate k (j * c)) (emx : t.mx = List.replicate k b) (hc : 0 < c) (hj : 0 < j) (hcb : j * c ≤ b)
    (hb : (k - k / 2) * b < 4294967296) (hkc : k * (j * c) < 4294967296) (hf : WeightsFit NULL32 t.tw t.mx) {g : Graph}
    (hg : g.Good) {comp : Nat → Nat} {Q : Finset Nat} (hcl : Clustered g comp Q c θ)
    (hcd : g.nv ≤ 20 ∨ Closed g comp) (hQ : Q.card = k * j) (r : rng.S) :
    ∃ p r', partitioner (dblEnv pq set rng) s t g r = ok (p, r') ∧ p.asg.length = g.nv := by
  have ha : 0 < j * c := Nat.mul_pos hj hc
  have hk' : k < 4294967296 := lt_of_le_of_lt (Nat.le_mul_of_pos_right _ ha) hkc
  have := rbExecute_inv (E := dblEnv pq set rng) (bu := False) (be := False) (bd := False)
    (bis := (makeMultilevel (dblEnv pq set rng) s).execute)
    (R := fun bt g r lab r' => MLBisected (dblEnv pq set rng) s bt g r lab r' ∧ ∀ v, v < g.nv → lab v < 2)
    (S := g.sumVtx) (M := NULL32) (by decide)
    (fun tw mx g => ∃ m comp Q, 2 ≤ m ∧ m ≤ k ∧ tw = List.replicate m (j * c) ∧ mx = List.replicate m b ∧
      Clustered g comp Q c θ ∧ (g.nv ≤ 20 ∨ Closed g comp) ∧ Q.card = m * j)
    (fun tw mx bt g r lab r' labels sub hg hi hbt hR => by
      obtain ⟨m, comp, Q, hm, hmk, rfl, rfl, hcl, hcd, hQ⟩ := hi
      have hle : (m - m / 2) * b ≤ (k - k / 2) * b := Nat.mul_le_mul_right _ (by omega)
      have hle' : m * (j * c) ≤ k * (j * c) := Nat.mul_le_mul_right _ hmk
      obtain ⟨hw, hw1⟩ := MLBisected.clusters hm hc hj hcb (by omega) (by omega) hbt hR.1 hg.wf hcl hcd hQ hR.2
      simp only [List.length_replicate, List.take_replicate, List.drop_replicate]
      rw [Nat.min_eq_left (Nat.div_le_self m 2)]
      refine ⟨fun h hs => ?_, fun h hs => ?_⟩
      · obtain ⟨Q', c1, c3, c2⟩ := hs.induced.clusters hg.wf hcl hcd hc hw.whole hw.left
        exact ⟨_, _, Q', h, by omega, rfl, rfl, c1, c3, c2⟩
      · obtain ⟨Q', c1, c3, c2⟩ := hs.induced.clusters hg.wf hcl hcd hc hw.whole hw1
        exact ⟨_, _, Q', h, by omega, rfl, rfl, c1, c3, c2⟩)
    (fun tw mx bt g r hi hbt hg _ hb2 _ _ => by
      obtain ⟨m, comp, Q, hm, hmk, rfl, rfl, hcl, hcd, hQ⟩ := hi
      have hle : (m - m / 2) * b ≤ (k - k / 2) * b := Nat.mul_le_mul_right _ (by omega)
      have hle' : m * (j * c) ≤ k * (j * c) := Nat.mul_le_mul_right _ hmk
      obtain ⟨o, ho, hex⟩ := multilevel_clusters (pq := pq) (set := set) (rng := rng) s hm hc hj hcb (by omega) (by omega) hbt hb2
        hg hcl hQ r
      rw [ho]
      exact ⟨hex, (C72_multilevel_run s hb2 hg r).1 o.1 o.2 ho, hex.complete⟩)
    (t := t) (by omega) (by rw [htk]; exact hk') (by rw [etw, htk]; simp) (by rw [emx, htk]; simp)
    (Or.inl ⟨Concrete.recursiveOK, hf⟩) (g := g) ⟨k, comp, Q, hk, le_refl _, etw, emx, hcl, hcd, hQ⟩ hg (le_refl _) r
  obtain ⟨x, hx, hex, -⟩ := sat_iff.mp (Wp.post.mp this)
  exact ⟨x.1, x.2, hx, hex.asg_len⟩

end Poros
