import Verif.Proofs.Sixteen
import Verif.Proofs.EvenParts
import Verif.Props.P116_DirectedParts
/-
C117: calls for up to sixteen parts are safe, and none of two, four or eight parts is empty.
-/
namespace Poros
open Finset Res Concrete

variable {pq : PQImpl} {set : SetImpl} {rng : RngImpl}

/-- The limits of a call for up to sixteen parts, whose share of the weight is at least 50. -/
theorem shares16 [Concrete.Log2Impl] {k W : Nat} (hk : 2 ≤ k) (hk' : k ≤ 16) (hW : 50 * k ≤ W) (hW' : W < 4294967295)
    {t : Target Concrete.fp} (h : Target.uniform (fp := Concrete.fp) k W (Concrete.fp.lit 3 2) = ok t) :
    ∃ a b, t.tw = List.replicate k a ∧ t.mx = List.replicate k b ∧ a ≤ b ∧ 0 < a ∧ k * b < 8589934592 ∧ k * a < 4294967296 ∧
      ((k - k / 2) * b < 4294967296) ∧
      1959 / 2000 * ((W : ℚ) / k) ≤ a ∧ (b : ℚ) ≤ 2061 / 2000 * ((W : ℚ) / k) := by
  obtain ⟨a, b, h1, h2, hab, h3, h4, h5, -⟩ := equalShares hk (by omega) (by omega) h
  have hkq : (2 : ℚ) ≤ k := by exact_mod_cast hk
  have hkq' : (k : ℚ) ≤ 16 := by exact_mod_cast hk'
  have hk0 : (0 : ℚ) < k := by linarith
  have hWq : 50 * (k : ℚ) ≤ W := by exact_mod_cast hW
  have hWq' : (W : ℚ) < 4294967295 := by exact_mod_cast hW'
  have ha : 1959 / 2000 * ((W : ℚ) / k) ≤ a := by
    rw [← mul_div_assoc, div_le_iff₀ hk0]
    linarith
  have hb : (b : ℚ) ≤ 2061 / 2000 * ((W : ℚ) / k) := by
    rw [← mul_div_assoc, le_div_iff₀ hk0]
    linarith
  have ha0 : 0 < a := by
    have : (0 : ℚ) < a := lt_of_lt_of_le (mul_pos (by norm_num) (div_pos (by linarith) hk0)) ha
    exact_mod_cast this
  refine ⟨a, b, h1, h2, hab, ha0, ?_, ?_, ?_, ha, hb⟩
  · have : ((k * b : Nat) : ℚ) < ((8589934592 : Nat) : ℚ) := by push_cast; linarith
    exact_mod_cast this
  · have : ((k * a : Nat) : ℚ) < ((4294967296 : Nat) : ℚ) := by push_cast; linarith
    exact_mod_cast this
  · have h6 : 3 * (k - k / 2) ≤ 2 * k := by omega
    have h7 : 3 * ((k - k / 2) * b) ≤ 2 * (k * b) := by
      rw [← Nat.mul_assoc, ← Nat.mul_assoc]; exact Nat.mul_le_mul_right _ h6
    have h8 : 3 * (((k - k / 2) * b : Nat) : ℚ) ≤ 2 * ((k : ℚ) * b) := by exact_mod_cast h7
    have : (((k - k / 2) * b : Nat) : ℚ) < ((4294967296 : Nat) : ℚ) := by push_cast at h8 ⊢; linarith
    exact_mod_cast this

/-- What recursive bisection keeps while it divides a graph into at most sixteen equal parts of share `U`. -/
def SafeNode16 (k W M a b : Nat) (U : ℚ) (tw mx : List Nat) (g : Graph) : Prop :=
  g.vwgt.length = g.nv ∧ (∀ v, v < g.nv → g.vw v ≠ 1 ∧ g.vw v ≤ M) ∧ 0 < g.nv ∧ g.sumVtx ≤ W ∧
  ∃ n, n ≤ k ∧ tw = List.replicate n a ∧ mx = List.replicate n b ∧
    (n = 2 ∨ (3 ≤ n ∧ leastShare n * U ≤ g.sumVtx ∧ (g.sumVtx : ℚ) ≤ mostShare n * U))

theorem leastShare_pos {n : Nat} (h : 2 ≤ n) : 0 < leastShare n := by
  unfold leastShare
  split <;> try norm_num
  exact_mod_cast (show 0 < n by omega)

theorem SafeNode16.step [Concrete.Log2Impl] {k W M a b : Nat} {U : ℚ} (hk : k ≤ 16) (hW' : W < 4294967295) (hU : 0 < U)
    (ha0 : 0 < a) (hab : a ≤ b) (hka : k * a < 4294967296) (hkb : (k - k / 2) * b < 4294967296)
    (hM : 2 * (M : ℚ) ≤ U) (haU : 1959 / 2000 * U ≤ a) (hbU : (b : ℚ) ≤ 2061 / 2000 * U)
    {s : Scheme} {tw mx : List Nat} {bt : Target Concrete.fp} {g : Graph}
    {lab : Nat → Nat} {labels : Option (List Nat)} {sub : Subgraph} (hwf : g.WF) (hnl : g.NoLoop)
    (hi : SafeNode16 k W M a b U tw mx g) (hbt : IsHalvesTarget tw mx bt) (h : LooseBis (dblEnv pq set rng) s bt g lab) :
    (2 ≤ (tw.take (tw.length / 2)).length → SubOK g lab labels 0 sub →
        SafeNode16 k W M a b U (tw.take (tw.length / 2)) (mx.take (tw.length / 2)) sub.graph) ∧
      (2 ≤ (tw.drop (tw.length / 2)).length → SubOK g lab labels 1 sub →
        SafeNode16 k W M a b U (tw.drop (tw.length / 2)) (mx.drop (tw.length / 2)) sub.graph) := by
  obtain ⟨-, hw, h0, hle, n, hnk, rfl, rfl, hn⟩ := hi
  simp only [List.length_replicate, List.take_replicate, List.drop_replicate]
  rcases hn with rfl | ⟨h3, hlo, hhi⟩
  · exact ⟨fun h => by omega, fun h => by omega⟩
  rw [Nat.min_eq_left (Nat.div_le_self n 2)]
  obtain ⟨x, y, hx, hy⟩ : ∃ x y, x = n / 2 ∧ y = n - n / 2 := ⟨_, _, rfl, rfl⟩
  have hxy : n = x + y := by omega
  rw [← hy, ← hx]
  have hyk : y ≤ k - k / 2 := by omega
  rw [hxy] at hbt hlo hhi
  obtain ⟨-, l0, l1⟩ := h.sixteen hwf hnl (n := x) (m := y) (by omega) (by omega) (by omega) ha0 hab
    (lt_of_le_of_lt (Nat.mul_le_mul_right _ hyk) hkb) (lt_of_le_of_lt (Nat.mul_le_mul_right _ (by omega)) hka) hbt (by omega) rfl
    (fun v hv => (hw v hv).2) hU hM haU hbU hlo hhi
  have side : ∀ (q c : Nat), c ≤ k → 2 ≤ c → SubOK g lab labels q sub →
      (leastShare c * U ≤ partWeight g lab q ∧ (partWeight g lab q : ℚ) ≤ mostShare c * U) →
      SafeNode16 k W M a b U (List.replicate c a) (List.replicate c b) sub.graph := by
    intro q c hck hc hsub hb
    have hpos : 0 < partWeight g lab q := by
      have : (0 : ℚ) < partWeight g lab q := lt_of_lt_of_le (mul_pos (leastShare_pos hc) hU) hb.1
      exact_mod_cast this
    obtain ⟨s1, s2, s3, s4⟩ := hsub.safe h0 hw hpos
    refine ⟨s1, s2, s3, by rw [s4]; exact le_trans (partWeight_le _ _) hle, c, hck, rfl, rfl, ?_⟩
    rw [s4]
    rcases (show c = 2 ∨ 3 ≤ c by omega) with h2 | h3
    · exact Or.inl h2
    · exact Or.inr ⟨h3, hb⟩
  exact ⟨fun hc hsub => side 0 x (by omega) hc hsub (l0 hc), fun hc hsub => side 1 y (by omega) hc hsub (l1 hc)⟩

theorem between_shares {k : Nat} (hk : 3 ≤ k) (hk' : k ≤ 16) : leastShare k ≤ k ∧ (k : ℚ) ≤ mostShare k := by
  interval_cases k <;> norm_num [leastShare, mostShare]

theorem half_share {W k : Nat} (hk : 0 < k) : 2 * ((W / (2 * k) : Nat) : ℚ) ≤ (W : ℚ) / k := by
  have hk0 : (0 : ℚ) < k := by exact_mod_cast hk
  rw [le_div_iff₀ hk0]
  have : W / (2 * k) * (2 * k) ≤ W := Nat.div_mul_le_self _ _
  have : ((W / (2 * k) : Nat) : ℚ) * (2 * k) ≤ W := by exact_mod_cast this
  linarith

/-- C117 for graphs whose edges may have one direction only. -/
theorem C117_sixteen_directed [Concrete.Log2Impl] (pq : PQImpl) (set : SetImpl) (rng : RngImpl) {i : Input} (hi : i.Arcs)
    (hk : 2 ≤ i.numPartitions) (hk' : i.numPartitions ≤ 16) (hw : i.vertexWeights.isSome)
    (hW : 50 * i.numPartitions ≤ i.totalWeight) (hW' : i.totalWeight < 4294967295)
    (hone : ∀ v, v < i.numVertices → weightAt i.vertexWeights v ≠ 1)
    (hheavy : ∀ v, v < i.numVertices → 2 * (i.numPartitions * weightAt i.vertexWeights v) ≤ i.totalWeight)
    {o : Options Concrete.fp} (ho : o.Known) {out : Out} (hb : i.numVertices ≤ out.asg.length) :
    (partGraphRecursive (dblEnv pq set rng) i (some o) out).2 = ok 1 := by
  obtain ⟨g, hfree, hr, hp⟩ := hi.prepared (E := dblEnv pq set rng) o
  obtain ⟨s, hs⟩ := makeScheme_known ho
  obtain ⟨t, ht, hfit⟩ := Concrete.uniformOK.uniform i.numPartitions i.totalWeight hk (by omega) hi.weight
  rw [hs, ok_bind, show Target.uniform i.numPartitions i.totalWeight ((dblEnv pq set rng).fp.lit 3 2) = ok t from ht,
    ok_bind] at hp
  obtain ⟨-, h3, -, h4, h5, -⟩ := ofFractions_shape ht
  obtain ⟨a, b, ht1, ht2, hab, ha0, -, hka, hkb, haU, hbU⟩ := shares16 hk hk' hW hW' ht
  have hnv := hr.nv_eq
  have hsum : g.sumVtx = i.totalWeight := (Input.describes_of hi.csr hr).sumVtx
  have hlen : g.vwgt.length = g.nv := by
    rw [hr.vwgt_eq]
    obtain ⟨l, hl⟩ := Option.isSome_iff_exists.mp hw
    have := hi.csr.vw_len
    rw [hl] at this ⊢
    simp only [shorter, not_lt] at this
    simp only [emptyIfNull, List.length_take]
    omega
  have hvw : ∀ v, v < g.nv → g.vw v = weightAt i.vertexWeights v := fun v hv => hr.vw_at (by omega)
  have hn0 : 0 < g.nv := by
    by_contra h
    have hz : i.numVertices = 0 := by omega
    have : i.totalWeight = 0 := by unfold Input.totalWeight; rw [hz]; simp
    omega
  have hk0 : (0 : ℚ) < i.numPartitions := by exact_mod_cast (show 0 < i.numPartitions by omega)
  have hU : (0 : ℚ) < (i.totalWeight : ℚ) / i.numPartitions :=
    div_pos (by exact_mod_cast (show 0 < i.totalWeight by omega)) hk0
  have hkU : (i.numPartitions : ℚ) * ((i.totalWeight : ℚ) / i.numPartitions) = i.totalWeight := by field_simp
  refine call_total hp (fun r => ?_) (by show g.nv ≤ _; omega)
  have := rbExecute_gen (E := dblEnv pq set rng) (bu := False) (be := False) (bd := False) free_closed
    (bis := (makeMultilevel (dblEnv pq set rng) s).execute)
    (R := fun bt g _ lab _ => LooseBis (dblEnv pq set rng) s bt g lab) (S := g.sumVtx) (M := NULL32) (by decide)
    (SafeNode16 i.numPartitions i.totalWeight (i.totalWeight / (2 * i.numPartitions)) a b
      ((i.totalWeight : ℚ) / i.numPartitions))
    (fun tw mx bt g r lab r' labels sub hg hi hbt hr =>
      SafeNode16.step hk' hW' hU ha0 hab hka hkb (half_share (by omega)) haU hbU hg.wf hg.noLoop hi hbt hr)
    (fun tw mx bt g r hi hbt hg _ hb2 _ _ =>
      Wp.of_sat (execute_loose (B := False) s hg (fun h => h ⟨hi.2.2.1, fun _ _ => hi.1⟩) hb2 r))
    (t := t) (by rw [h3]; exact hk) (by rw [h3]; omega) (by rw [h3]; exact h4) (by rw [h3]; exact h5)
    (Or.inl ⟨Concrete.recursiveOK, hfit⟩)
    (g := g) ⟨hlen, fun v hv => ?_, hn0, le_of_eq hsum, i.numPartitions, le_refl _, ht1, ht2, ?_⟩ hfree (le_refl _) r
  · obtain ⟨x, hx, hex, -⟩ := sat_iff.mp (Wp.post.mp this)
    exact ⟨x.1, x.2, hx, hex⟩
  · rw [hvw v hv]
    refine ⟨hone v (by omega), (Nat.le_div_iff_mul_le (by omega)).mpr ?_⟩
    have := hheavy v (by omega)
    rw [Nat.mul_comm, Nat.mul_assoc]; exact this
  · rcases (show i.numPartitions = 2 ∨ 3 ≤ i.numPartitions by omega) with h2 | h3
    · exact Or.inl h2
    · obtain ⟨b1, b2⟩ := between_shares h3 hk'
      refine Or.inr ⟨h3, ?_, ?_⟩
      · rw [hsum]
        have := mul_le_mul_of_nonneg_right b1 hU.le
        rwa [hkU] at this
      · rw [hsum]
        have := mul_le_mul_of_nonneg_right b2 hU.le
        rwa [hkU] at this

/-- **C117.** Calls for two to sixteen parts are safe on graphs with explicit vertex weights, none of them 1 and none more
than half of the weight of an equal part, if an equal part weighs at least 50: whatever the graph, scheme, seed, number of
cuts, random engine, priority queue and set, the call returns 1. -/
theorem C117_up_to_sixteen [Concrete.Log2Impl] (pq : PQImpl) (set : SetImpl) (rng : RngImpl) {i : Input} (hv : i.Valid)
    (hk : 2 ≤ i.numPartitions) (hk' : i.numPartitions ≤ 16) (hw : i.vertexWeights.isSome)
    (hW : 50 * i.numPartitions ≤ i.totalWeight) (hW' : i.totalWeight < 4294967295)
    (hone : ∀ v, v < i.numVertices → weightAt i.vertexWeights v ≠ 1)
    (hheavy : ∀ v, v < i.numVertices → 2 * (i.numPartitions * weightAt i.vertexWeights v) ≤ i.totalWeight)
    {o : Options Concrete.fp} (ho : o.Known) {out : Out} (hb : i.numVertices ≤ out.asg.length) :
    (partGraphRecursive (dblEnv pq set rng) i (some o) out).2 = ok 1 := by
  obtain ⟨P, hp, hfit⟩ := prepare_total (E := dblEnv pq set rng) Concrete.uniformOK hv (by omega) (by omega) ho
  have hP := prepare_ok hv hp
  have hnv := hP.rep.nv_eq
  refine call_total hp (fun r => ?_) (by omega)
  obtain ⟨a, b, ht1, ht2, hab, ha0, -, hka, hkb, haU, hbU⟩ := shares16 hk hk' hW hW' hP.target
  have hlen : P.graph.vwgt.length = P.graph.nv := by
    rw [hP.rep.vwgt_eq]
    obtain ⟨l, hl⟩ := Option.isSome_iff_exists.mp hw
    have := hv.csr.vw_len
    rw [hl] at this ⊢
    simp only [shorter, not_lt] at this
    simp only [emptyIfNull, List.length_take]
    omega
  have hvw : ∀ v, v < P.graph.nv → P.graph.vw v = weightAt i.vertexWeights v := fun v hv => hP.rep.vw_at (by omega)
  have hn0 : 0 < P.graph.nv := by
    by_contra h
    have hz : i.numVertices = 0 := by omega
    have : i.totalWeight = 0 := by unfold Input.totalWeight; rw [hz]; simp
    omega
  have hsum := hP.sum
  have hk0 : (0 : ℚ) < i.numPartitions := by exact_mod_cast (show 0 < i.numPartitions by omega)
  have hU : (0 : ℚ) < (i.totalWeight : ℚ) / i.numPartitions :=
    div_pos (by exact_mod_cast (show 0 < i.totalWeight by omega)) hk0
  have hkU : (i.numPartitions : ℚ) * ((i.totalWeight : ℚ) / i.numPartitions) = i.totalWeight := by field_simp
  have := rbExecute_inv (E := dblEnv pq set rng) (bu := False) (be := False) (bd := False)
    (bis := (makeMultilevel (dblEnv pq set rng) P.scheme).execute)
    (R := MLBisected (dblEnv pq set rng) P.scheme) (S := P.graph.sumVtx) (M := NULL32) (by decide)
    (SafeNode16 i.numPartitions i.totalWeight (i.totalWeight / (2 * i.numPartitions)) a b
      ((i.totalWeight : ℚ) / i.numPartitions))
    (fun tw mx bt g r lab r' labels sub hg hi hbt hr =>
      SafeNode16.step hk' hW' hU ha0 hab hka hkb (half_share (by omega)) haU hbU hg.wf hg.noLoop hi hbt hr.loose)
    (fun tw mx bt g r hi hbt hg _ hb2 _ _ => by
      have hc := C72_multilevel_run (pq := pq) (set := set) (rng := rng) P.scheme hb2 hg r
      have hc' := C35_multilevel (E := dblEnv pq set rng) P.scheme hb2 hg r
      obtain ⟨x, hx⟩ := hc.2 hi.2.2.1 (fun _ => hi.1)
      exact Wp.of_sat (sat_iff.mpr ⟨x, hx, hc'.1 x.1 x.2 hx, hc.1 x.1 x.2 hx⟩))
    (t := P.target) (by rw [hP.k]; exact hk) (by rw [hP.k]; omega) hP.tw hP.mx (Or.inl ⟨Concrete.recursiveOK, hfit⟩)
    (g := P.graph) ⟨hlen, fun v hv => ?_, hn0, le_of_eq hsum, i.numPartitions, le_refl _, ht1, ht2, ?_⟩ hP.good (le_refl _) r
  · obtain ⟨x, hx, hex, -⟩ := sat_iff.mp (Wp.post.mp this)
    exact ⟨x.1, x.2, hx, hex.asg_len⟩
  · rw [hvw v hv]
    refine ⟨hone v (by omega), (Nat.le_div_iff_mul_le (by omega)).mpr ?_⟩
    have := hheavy v (by omega)
    rw [Nat.mul_comm, Nat.mul_assoc]; exact this
  · rcases (show i.numPartitions = 2 ∨ 3 ≤ i.numPartitions by omega) with h2 | h3
    · exact Or.inl h2
    · obtain ⟨b1, b2⟩ := between_shares h3 hk'
      have c1 := mul_le_mul_of_nonneg_right b1 hU.le
      have c2 := mul_le_mul_of_nonneg_right b2 hU.le
      rw [hkU] at c1 c2
      exact Or.inr ⟨h3, by rw [hsum]; exact c1, by rw [hsum]; exact c2⟩

/-- The parts of a successful call for two, four or eight parts. -/
theorem LooseCall.even [Concrete.Log2Impl] {i : Input} {out' : Out} {g : Graph} {s : Scheme} {tw mx : List Nat}
    {lab : Nat → Nat} {r r' : rng.S} (hcall : LooseCall pq set rng i out' g s tw mx lab r r') {d : Nat} (hd : 1 ≤ d)
    (hd' : d ≤ 3) (hk : i.numPartitions = 2 ^ d) (hW : 50 * i.numPartitions ≤ i.totalWeight)
    (hW' : i.totalWeight < 4294967295)
    (hheavy : ∀ v, v < i.numVertices → 2 * (i.numPartitions * weightAt i.vertexWeights v) ≤ i.totalWeight) :
    ∀ q, q < i.numPartitions →
      i.totalWeight ≤ 5 * (i.numPartitions * i.partWeight (nth out'.asg) q) ∧
      5 * (i.numPartitions * i.partWeight (nth out'.asg) q) ≤ 14 * i.totalWeight := by
  have hk2 : 2 ≤ i.numPartitions := by
    rw [hk]; exact le_trans (show 2 ≤ 2 ^ 1 by decide) (Nat.pow_le_pow_right (by decide) hd)
  have hk8 : i.numPartitions ≤ 8 := by
    rw [hk]; exact le_trans (Nat.pow_le_pow_right (by decide) hd') (by decide)
  have hsum := hcall.graph.sumVtx
  obtain ⟨f, a0, b0, hu, -⟩ := uniform_bounds (k := i.numPartitions) (tot := i.totalWeight) hk2 (by omega) (by omega)
  obtain ⟨a, b, e1, e2, hab, ha0, hkb, hka, -, haU, hbU⟩ := shares16 hk2 (by omega) hW hW' hu
  have hes := evenShares hu
  have htw : tw = List.replicate i.numPartitions a := by
    refine List.ext_getElem (by rw [hcall.shares.len.1]; simp) fun q h1 h2 => ?_
    have hq : q < i.numPartitions := by simpa using h2
    have := toU32_inj (hcall.shares.target q hq) (hes.target q hq)
    rw [e1, nth_replicate hq, nth_eq_getElem h1] at this
    rw [this]; simp
  have hmx : mx = List.replicate i.numPartitions b := by
    refine List.ext_getElem (by rw [hcall.shares.len.2]; simp) fun q h1 h2 => ?_
    have hq : q < i.numPartitions := by simpa using h2
    have := toU32_inj (hcall.shares.limit q hq) (hes.limit q hq)
    rw [e2, nth_replicate hq, nth_eq_getElem h1] at this
    rw [this]; simp
  subst htw hmx
  have hk0 : (0 : ℚ) < i.numPartitions := by exact_mod_cast (show 0 < i.numPartitions by omega)
  have hU : (0 : ℚ) < (i.totalWeight : ℚ) / i.numPartitions :=
    div_pos (by exact_mod_cast (show 0 < i.totalWeight by omega)) hk0
  have hkU : (i.numPartitions : ℚ) * ((i.totalWeight : ℚ) / i.numPartitions) = i.totalWeight := by field_simp
  have hrun := hcall.run
  have between : evenLeast d ≤ i.numPartitions ∧ (i.numPartitions : ℚ) ≤ evenMost d := by
    rw [hk]; interval_cases d <;> norm_num [evenLeast, evenMost]
  have c1 := mul_le_mul_of_nonneg_right between.1 hU.le
  have c2 := mul_le_mul_of_nonneg_right between.2 hU.le
  rw [hkU, ← hsum] at c1 c2
  have key := LooseRun.even (pq := pq) (set := set) (rng := rng) (s := s) (M := i.totalWeight / (2 * i.numPartitions)) ha0 hab
    hU (half_share (by omega)) haU hbU d hd' (by rw [← hk]; exact hka) (by rw [← hk]; exact hkb) (by rw [← hk]; exact hrun)
    hcall.wf hcall.noLoop (fun v hv => by
      rw [hcall.graph.nv] at hv
      rw [hcall.graph.vw v hv]
      refine (Nat.le_div_iff_mul_le (by omega)).mpr ?_
      have := hheavy v hv
      rw [Nat.mul_comm, Nat.mul_assoc]; exact this) (by omega) (by rw [hsum] at c1 ⊢; exact c1) (by rw [hsum] at c2 ⊢; exact c2)
  intro q hq
  rw [show i.partWeight (nth out'.asg) q = partWeight g lab q from hcall.graph.partWeight (fun v hv => hcall.labels v hv) q]
  obtain ⟨l, u⟩ := key q (by rw [← hk]; exact hq)
  rw [← mul_div_assoc, div_le_iff₀ hk0] at l
  rw [← mul_div_assoc, le_div_iff₀ hk0] at u
  constructor
  · have : (i.totalWeight : ℚ) ≤ ((5 * (i.numPartitions * partWeight g lab q) : Nat) : ℚ) := by push_cast; linarith
    exact_mod_cast this
  · have : ((5 * (i.numPartitions * partWeight g lab q) : Nat) : ℚ) ≤ ((14 * i.totalWeight : Nat) : ℚ) := by push_cast; linarith
    exact_mod_cast this

/-- **C117, weights of two, four or eight parts.** However a successful call for two, four or eight parts went, if an equal
part weighs at least 50 and no vertex more than half of that, every part weighs at least a fifth of an equal part and at most
2.8 times as much. -/
theorem C117_even_parts [Concrete.Log2Impl] {i : Input} (hv : i.Valid)
    (hk : i.numPartitions = 2 ∨ i.numPartitions = 4 ∨ i.numPartitions = 8)
    {o : Options Concrete.fp} (hc : 0 < o.numGlobalCuts) {out out' : Out}
    (h : partGraphRecursive (dblEnv pq set rng) i (some o) out = (out', ok 1))
    (hW : 50 * i.numPartitions ≤ i.totalWeight) (hW' : i.totalWeight < 4294967295)
    (hheavy : ∀ v, v < i.numVertices → 2 * (i.numPartitions * weightAt i.vertexWeights v) ≤ i.totalWeight) :
    ∀ q, q < i.numPartitions →
      i.totalWeight ≤ 5 * (i.numPartitions * i.partWeight (nth out'.asg) q) ∧
      5 * (i.numPartitions * i.partWeight (nth out'.asg) q) ≤ 14 * i.totalWeight := by
  obtain ⟨g, s, tw, mx, labs, j, hcall⟩ := C75_call (pq := pq) (set := set) (rng := rng) hv (by omega) (by omega) hc h
  obtain ⟨r, r', hl⟩ := hcall.loose
  rcases hk with hk | hk | hk
  · exact hl.even (d := 1) (by decide) (by decide) hk hW hW' hheavy
  · exact hl.even (d := 2) (by decide) (by decide) hk hW hW' hheavy
  · exact hl.even (d := 3) (by decide) (by decide) hk hW hW' hheavy

/-- The same for directed graphs. -/
theorem C117_even_parts_directed [Concrete.Log2Impl] {i : Input} (hi : i.Arcs)
    (hk : i.numPartitions = 2 ∨ i.numPartitions = 4 ∨ i.numPartitions = 8)
    {o : Options Concrete.fp} (hc : 0 < o.numGlobalCuts) {out out' : Out}
    (h : partGraphRecursive (dblEnv pq set rng) i (some o) out = (out', ok 1))
    (hW : 50 * i.numPartitions ≤ i.totalWeight) (hW' : i.totalWeight < 4294967295)
    (hheavy : ∀ v, v < i.numVertices → 2 * (i.numPartitions * weightAt i.vertexWeights v) ≤ i.totalWeight) :
    ∀ q, q < i.numPartitions →
      i.totalWeight ≤ 5 * (i.numPartitions * i.partWeight (nth out'.asg) q) ∧
      5 * (i.numPartitions * i.partWeight (nth out'.asg) q) ≤ 14 * i.totalWeight := by
  obtain ⟨g, s, tw, mx, lab, r, r', hl⟩ := looseCall hi (by omega) (by omega) hc h
  rcases hk with hk | hk | hk
  · exact hl.even (d := 1) (by decide) (by decide) hk hW hW' hheavy
  · exact hl.even (d := 2) (by decide) (by decide) hk hW hW' hheavy
  · exact hl.even (d := 3) (by decide) (by decide) hk hW hW' hheavy

theorem ring60_sixteen : (ring60 16).Valid ∧ (ring60 8).Valid :=
  ⟨Ex.valid_of (by constructor <;> decide +kernel) (by decide +kernel) (by decide +kernel) (by decide +kernel)
    (by decide +kernel), Ex.valid_of (by constructor <;> decide +kernel) (by decide +kernel) (by decide +kernel)
    (by decide +kernel) (by decide +kernel)⟩

theorem wheel60_sixteen : (wheel60 16).Arcs ∧ (wheel60 8).Arcs :=
  ⟨⟨by constructor <;> decide +kernel, by decide +kernel, by decide +kernel, by decide +kernel⟩,
    ⟨by constructor <;> decide +kernel, by decide +kernel, by decide +kernel, by decide +kernel⟩⟩

/-- The hypotheses are met by a ring and a directed ring of sixty vertices of weight 50: both can be divided into sixteen
parts. -/
example : (partGraphRecursive Concrete.env (ring60 16) (some (defaultOptions Concrete.fp)) ⟨0, List.replicate 60 0⟩).2 = ok 1 ∧
    (partGraphRecursive Concrete.env (wheel60 16) (some (defaultOptions Concrete.fp)) ⟨0, List.replicate 60 0⟩).2 = ok 1 :=
  ⟨C117_up_to_sixteen Concrete.pq Concrete.set Concrete.rng ring60_sixteen.1 (by decide) (by decide) rfl (by decide +kernel)
      (by decide +kernel) (by decide +kernel) (by decide +kernel) (o := defaultOptions Concrete.fp) (Or.inr rfl) (by decide),
    C117_sixteen_directed Concrete.pq Concrete.set Concrete.rng wheel60_sixteen.1 (by decide) (by decide) rfl (by decide +kernel)
      (by decide +kernel) (by decide +kernel) (by decide +kernel) (o := defaultOptions Concrete.fp) (Or.inr rfl) (by decide)⟩

/-- Each of eight parts of the ring of sixty vertices, of total weight 3000, weighs between 75 and 1050; and of the directed
ring. -/
example : (∃ out', partGraphRecursive Concrete.env (ring60 8) (some (defaultOptions Concrete.fp)) ⟨0, List.replicate 60 0⟩ =
      (out', ok 1) ∧ ∀ q, q < 8 → 75 ≤ (ring60 8).partWeight (nth out'.asg) q ∧ (ring60 8).partWeight (nth out'.asg) q ≤ 1050) ∧
    (∃ out', partGraphRecursive Concrete.env (wheel60 8) (some (defaultOptions Concrete.fp)) ⟨0, List.replicate 60 0⟩ =
      (out', ok 1) ∧ ∀ q, q < 8 → 75 ≤ (wheel60 8).partWeight (nth out'.asg) q ∧ (wheel60 8).partWeight (nth out'.asg) q ≤ 1050) := by
  have hr : (ring60 8).totalWeight = 3000 := by decide +kernel
  have hw : (wheel60 8).totalWeight = 3000 := by decide +kernel
  obtain ⟨o1, h1⟩ := returned (C117_up_to_sixteen Concrete.pq Concrete.set Concrete.rng ring60_sixteen.2 (by decide)
    (by decide) rfl (by rw [hr]; decide) (by rw [hr]; decide) (by decide +kernel) (by rw [hr]; decide +kernel)
    (o := defaultOptions Concrete.fp) (Or.inr rfl) (out := ⟨0, List.replicate 60 0⟩) (by decide))
  obtain ⟨o2, h2⟩ := returned (C117_sixteen_directed Concrete.pq Concrete.set Concrete.rng wheel60_sixteen.2 (by decide)
    (by decide) rfl (by rw [hw]; decide) (by rw [hw]; decide) (by decide +kernel) (by rw [hw]; decide +kernel)
    (o := defaultOptions Concrete.fp) (Or.inr rfl) (out := ⟨0, List.replicate 60 0⟩) (by decide))
  refine ⟨⟨o1, h1, fun q hq => ?_⟩, o2, h2, fun q hq => ?_⟩
  · have := C117_even_parts ring60_sixteen.2 (Or.inr (Or.inr rfl)) (by decide) h1 (by rw [hr]; decide) (by rw [hr]; decide)
      (by rw [hr]; decide +kernel) q hq
    rw [hr, show (ring60 8).numPartitions = 8 from rfl] at this
    omega
  · have := C117_even_parts_directed wheel60_sixteen.2 (Or.inr (Or.inr rfl)) (by decide) h2 (by rw [hw]; decide)
      (by rw [hw]; decide) (by rw [hw]; decide +kernel) q hq
    rw [hw, show (wheel60 8).numPartitions = 8 from rfl] at this
    omega

end Poros
