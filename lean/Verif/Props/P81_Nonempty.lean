import Verif.Props.P80_Eight
import Verif.Props.P79_Small
/-
C81: with two, three or four parts no part is empty.
-/
namespace Poros
open Finset Res Concrete

variable {pq : PQImpl} {set : SetImpl} {rng : RngImpl}

/-- A bisection into two single parts. -/
theorem LooseBis.last [Concrete.Log2Impl] {s : Scheme} {bt : Target Concrete.fp} {g : Graph} {lab : Nat → Nat}
    (h : LooseBis (dblEnv pq set rng) s bt g lab) (hwf : g.WF) (hnl : g.NoLoop) {k a b : Nat} {W M : Nat} (hW : 1000 ≤ W)
    (hW' : W < 4294967295) (he : EqualParts k W a b)
    (hk : (k = 2 ∧ g.sumVtx = W) ∨ (k = 3 ∧ 173 * W ≤ 300 * g.sumVtx ∧ 300 * g.sumVtx ≤ 254 * W) ∨
      (k = 4 ∧ 154 * W ≤ 400 * g.sumVtx ∧ 400 * g.sumVtx ≤ 246 * W))
    (hbt : IsHalvesTarget (List.replicate 2 a) (List.replicate 2 b) bt)
    (hM : ∀ v, v < g.nv → g.vw v ≤ M) (hM' : 20 * M ≤ W) :
    0 < partWeight g lab 0 ∧ 0 < partWeight g lab 1 := by
  generalize hX : g.sumVtx = X at *
  have hWq : (1000 : ℚ) ≤ W := by exact_mod_cast hW
  have hWq' : (W : ℚ) < 4294967295 := by exact_mod_cast hW'
  have h1 := he.target_le
  have h2 := he.target_ge
  have h3 := he.limit_le
  have hX0 : 0 < X := by omega
  have hXq : (0 : ℚ) < X := by exact_mod_cast hX0
  obtain ⟨mh, hmh, hmhq⟩ : ∃ mh, max (3 * X / 40) M ≤ mh ∧
      (40 * (mh : ℚ) ≤ 3 * X ∨ 20 * (mh : ℚ) ≤ W) := by
    refine ⟨_, le_refl _, ?_⟩
    rcases le_total (3 * X / 40) M with h | h
    · rw [max_eq_right h]; right; exact_mod_cast hM'
    · rw [max_eq_left h]; left; exact_mod_cast (show 40 * (3 * X / 40) ≤ 3 * X by omega)
  have ha0 : 0 < a := by
    by_contra h
    have : a = 0 := by omega
    rw [this] at h2
    rcases hk with ⟨rfl, -⟩ | ⟨rfl, -⟩ | ⟨rfl, -⟩ <;> push_cast at h2 <;> linarith
  have lt : ∀ {x : Nat}, (x : ℚ) < X → x < X := fun h => by exact_mod_cast h
  have hmb : 1 * b < 4294967296 := by
    have : ((1 * b : Nat) : ℚ) < ((4294967296 : Nat) : ℚ) := by
      rcases hk with ⟨rfl, -⟩ | ⟨rfl, -⟩ | ⟨rfl, -⟩ <;> push_cast at h3 ⊢ <;> linarith
    exact_mod_cast this
  have hka : (1 + 1) * a < 4294967296 := by
    have : (((1 + 1) * a : Nat) : ℚ) < ((4294967296 : Nat) : ℚ) := by
      rcases hk with ⟨rfl, -⟩ | ⟨rfl, -⟩ | ⟨rfl, -⟩ <;> push_cast at h1 ⊢ <;> linarith
    exact_mod_cast this
  have hkq : (k = 2 ∧ (X : ℚ) = W) ∨ (k = 3 ∧ 173 * (W : ℚ) ≤ 300 * X ∧ 300 * (X : ℚ) ≤ 254 * W) ∨
      (k = 4 ∧ 154 * (W : ℚ) ≤ 400 * X ∧ 400 * (X : ℚ) ≤ 246 * W) := by exact_mod_cast hk
  have key := h.equal hwf hnl (n := 1) (m := 1) (by decide) (by decide) ha0 he.le hmb hka hbt hX0 (by omega) hX hM hmh (c := 39 / 20)
      (by norm_num) (le_refl _) (le_refl _) (by norm_num) (by norm_num)
      (by rcases hkq with ⟨rfl, n1⟩ | ⟨rfl, n1, n2⟩ | ⟨rfl, n1, n2⟩ <;> rcases hmhq with m1 | m1 <;>
            norm_num at h1 h2 h3 ⊢ <;> linarith)
      (by rcases hkq with ⟨rfl, n1⟩ | ⟨rfl, n1, n2⟩ | ⟨rfl, n1, n2⟩ <;> norm_num at h1 h2 h3 ⊢ <;> linarith)
      (by rcases hkq with ⟨rfl, n1⟩ | ⟨rfl, n1, n2⟩ | ⟨rfl, n1, n2⟩ <;> rcases hmhq with m1 | m1 <;>
            norm_num at h1 h2 h3 ⊢ <;> linarith)
  have hs : partWeight g lab 0 + partWeight g lab 1 = X := by rw [← hX]; exact partWeight_two key.1
  have l0 : partWeight g lab 0 < X := lt (by have := key.2.1; norm_num [eps] at this; linarith)
  have l1 : partWeight g lab 1 < X := lt (by have := key.2.2; norm_num [eps] at this; linarith)
  omega

/-- A run for a single part. -/
theorem RBRun.one {fp : FP} {S : Type} {R : Target fp → Graph → S → (Nat → Nat) → S → Prop} {tw mx : List Nat}
    {g : Graph} {r : S} {lab : Nat → Nat} {r' : S} (h : RBRun R tw mx g r lab r') (hk : tw.length = 1) :
    ∀ v, v < g.nv → lab v = 0 := by
  cases h with
  | leaf _ _ h => exact h
  | node h1 => omega

theorem partWeight_zero {g : Graph} {lab : Nat → Nat} (h : ∀ v, v < g.nv → lab v = 0) : partWeight g lab 0 = g.sumVtx := by
  unfold partWeight Graph.sumVtx
  exact sum_congr rfl fun v hv => if_pos (h v (mem_range.mp hv))

/-- A run for two parts below the top or at it. -/
theorem LooseRun.last [Concrete.Log2Impl] {s : Scheme} {g : Graph} {r : rng.S} {lab : Nat → Nat} {r' : rng.S} {k a b : Nat}
    (h : LooseRun pq set rng s (List.replicate 2 a) (List.replicate 2 b) g r lab r') (hwf : g.WF) (hnl : g.NoLoop)
    {W M : Nat} (hW : 1000 ≤ W) (hW' : W < 4294967295) (he : EqualParts k W a b)
    (hk : (k = 2 ∧ g.sumVtx = W) ∨ (k = 3 ∧ 173 * W ≤ 300 * g.sumVtx ∧ 300 * g.sumVtx ≤ 254 * W) ∨
      (k = 4 ∧ 154 * W ≤ 400 * g.sumVtx ∧ 400 * g.sumVtx ≤ 246 * W))
    (hM : ∀ v, v < g.nv → g.vw v ≤ M) (hM' : 20 * M ≤ W) : ∀ q, q < 2 → 0 < partWeight g lab q := by
  obtain ⟨bt, side, r1, hbt, hR, -, hl⟩ := RBRun.two h (by simp)
  obtain ⟨l0, l1⟩ := hR.last hwf hnl hW hW' he hk hbt hM hM'
  intro q hq
  rw [partWeight_congr hl]
  rcases (show q = 0 ∨ q = 1 by omega) with rfl | rfl
  · exact l0
  · exact l1

theorem IsInduced.vw_le {g s : Graph} {lab : Nat → Nat} {p : Nat} (h : IsInduced g lab p s) {M : Nat}
    (hM : ∀ v, v < g.nv → g.vw v ≤ M) : ∀ v, v < s.nv → s.vw v ≤ M := fun v hv => by
  rw [h.vw v hv]
  refine hM _ (mem_vertsOf.mp (nth_mem ?_)).1
  rw [← h.nv]; exact hv

/-- A run for two, three or four equal parts leaves no part empty. -/
theorem LooseRun.nonempty [Concrete.Log2Impl] {s : Scheme} {g : Graph} {r : rng.S} {lab : Nat → Nat} {r' : rng.S} {k a b : Nat}
    (h : LooseRun pq set rng s (List.replicate k a) (List.replicate k b) g r lab r') (hwf : g.WF) (hnl : g.NoLoop)
    (hk : 2 ≤ k) (hk' : k ≤ 4) {M : Nat} (hW : 1000 ≤ g.sumVtx) (hW' : g.sumVtx < 4294967295)
    (he : EqualParts k g.sumVtx a b) (hM : ∀ v, v < g.nv → g.vw v ≤ M) (hM' : 20 * M ≤ g.sumVtx) :
    ∀ q, q < k → 0 < partWeight g lab q := by
  rcases (show k = 2 ∨ k = 3 ∨ k = 4 by omega) with rfl | rfl | rfl
  · exact h.last hwf hnl hW hW' he (Or.inl ⟨rfl, rfl⟩) hM hM'
  · cases h with
    | leaf h1 => simp at h1
    | @node _ _ _ _ bt side sL sR labL labR _ r1 r2 _ _ _ hbt hR hp hL hRt runL runR labelsL labelsR =>
      obtain ⟨-, t0, t1⟩ := hR.top hwf hnl (n := 1) (m := 2) (by omega) hW hW' he hbt rfl hM hM'
      have hsum := partWeight_two hp
      norm_num at t0 t1
      have labelsR : ∀ i, i < sR.nv → lab (nth (vertsOf g side 1) i) = 1 + labR i := by simpa using labelsR
      have one := runL.one (by simp)
      have two : ∀ q, q < 2 → 0 < partWeight sR labR q := by
        refine LooseRun.last (k := 3) (by simpa [LooseRun] using runR) hRt.valid (hRt.noLoop hnl) hW hW' he (Or.inr (Or.inl ⟨rfl, ?_⟩)) (hRt.vw_le hM) hM'
        rw [hRt.sumVtx]
        omega
      intro q hq
      rw [partWeight_sides hp hL hRt (m := 1) (fun i hi => by rw [one i hi]; decide) labelsL labelsR]
      split
      · rw [show q = 0 by omega, partWeight_zero one, hL.sumVtx]
        omega
      · exact two _ (by omega)
  · cases h with
    | leaf h1 => simp at h1
    | @node _ _ _ _ bt side sL sR labL labR _ r1 r2 _ _ _ hbt hR hp hL hRt runL runR labelsL labelsR =>
      obtain ⟨-, t0, t1⟩ := hR.top hwf hnl (n := 2) (m := 2) (by omega) hW hW' he hbt rfl hM hM'
      have hsum := partWeight_two hp
      norm_num at t0 t1
      have labelsR : ∀ i, i < sR.nv → lab (nth (vertsOf g side 1) i) = 2 + labR i := by simpa using labelsR
      have one : ∀ q, q < 2 → 0 < partWeight sL labL q := by
        refine LooseRun.last (k := 4) (by simpa [LooseRun] using runL) hL.valid (hL.noLoop hnl) hW hW' he (Or.inr (Or.inr ⟨rfl, ?_⟩)) (hL.vw_le hM) hM'
        rw [hL.sumVtx]
        omega
      have two : ∀ q, q < 2 → 0 < partWeight sR labR q := by
        refine LooseRun.last (k := 4) (by simpa [LooseRun] using runR) hRt.valid (hRt.noLoop hnl) hW hW' he (Or.inr (Or.inr ⟨rfl, ?_⟩)) (hRt.vw_le hM) hM'
        rw [hRt.sumVtx]
        omega
      have hlt := runL.lt
      intro q hq
      rw [partWeight_sides hp hL hRt (m := 2) (fun i hi => by simpa using hlt i hi) labelsL labelsR]
      split
      · exact one q (by omega)
      · exact two _ (by omega)

/-- C81 for whatever is known of the labels. -/
theorem LooseCall.nonempty [Concrete.Log2Impl] {i : Input} {out' : Out} {g : Graph} {s : Scheme} {tw mx : List Nat}
    {lab : Nat → Nat} {r r' : rng.S} (hcall : LooseCall pq set rng i out' g s tw mx lab r r') (hk : 2 ≤ i.numPartitions)
    (hk' : i.numPartitions ≤ 4) (hW : 1000 ≤ i.totalWeight) (hW' : i.totalWeight < 4294967295)
    (hheavy : ∀ v, v < i.numVertices → 20 * weightAt i.vertexWeights v ≤ i.totalWeight) :
    ∀ q, q < i.numPartitions → ∃ v, v < i.numVertices ∧ nth out'.asg v = q := by
  have hsum := hcall.graph.sumVtx
  obtain ⟨f, a, b, hu, -⟩ := uniform_bounds (k := i.numPartitions) (tot := i.totalWeight) hk (by omega) (by omega)
  obtain ⟨a', b', e1, e2, he⟩ := equalParts hk (by omega) hW' hu
  have hes := evenShares hu
  have htw : tw = List.replicate i.numPartitions a' := by
    refine List.ext_getElem (by rw [hcall.shares.len.1]; simp) fun q h1 h2 => ?_
    have hq : q < i.numPartitions := by simpa using h2
    have := toU32_inj (hcall.shares.target q hq) (hes.target q hq)
    rw [e1, nth_replicate hq, nth_eq_getElem h1] at this
    rw [this]; simp
  have hmx : mx = List.replicate i.numPartitions b' := by
    refine List.ext_getElem (by rw [hcall.shares.len.2]; simp) fun q h1 h2 => ?_
    have hq : q < i.numPartitions := by simpa using h2
    have := toU32_inj (hcall.shares.limit q hq) (hes.limit q hq)
    rw [e2, nth_replicate hq, nth_eq_getElem h1] at this
    rw [this]; simp
  subst htw hmx
  have key := hcall.run.nonempty hcall.wf hcall.noLoop hk hk' (M := i.totalWeight / 20) (by omega) (by omega) (by rw [hsum]; exact he)
    (fun v hv => by
      rw [hcall.graph.nv] at hv
      rw [hcall.graph.vw v hv]
      have := hheavy v hv
      omega) (by omega)
  intro q hq
  by_contra hno
  push Not at hno
  have := key q hq
  unfold partWeight at this
  rw [sum_eq_zero fun v hv => if_neg ?_] at this
  · omega
  · have hv := mem_range.mp hv
    rw [hcall.graph.nv] at hv
    rw [← hcall.labels v hv]
    exact hno v hv

/-- **C81.** However a successful call for two, three or four parts went, if the total weight is at least 1000 and no
vertex has more than a twentieth of it, no part is empty. -/
theorem C81_no_empty_part [Concrete.Log2Impl] {i : Input} (hv : i.Valid) (hk : 2 ≤ i.numPartitions) (hk' : i.numPartitions ≤ 4)
    {o : Options Concrete.fp} (hc : 0 < o.numGlobalCuts) {out out' : Out}
    (h : partGraphRecursive (dblEnv pq set rng) i (some o) out = (out', ok 1)) (hW : 1000 ≤ i.totalWeight)
    (hW' : i.totalWeight < 4294967295)
    (hheavy : ∀ v, v < i.numVertices → 20 * weightAt i.vertexWeights v ≤ i.totalWeight) :
    ∀ q, q < i.numPartitions → ∃ v, v < i.numVertices ∧ nth out'.asg v = q := by
  obtain ⟨g, s, tw, mx, labs, j, hcall⟩ := C75_call (pq := pq) (set := set) (rng := rng) hv hk (by omega) hc h
  obtain ⟨r, r', hl⟩ := hcall.loose
  exact hl.nonempty hk hk' hW hW' hheavy

theorem ring20_valid4 : (ring20 4).Valid :=
  Ex.valid_of (by constructor <;> decide +kernel) (by decide +kernel) (by decide +kernel) (by decide +kernel)
    (by decide +kernel)

/-- The hypotheses are met by calls for a ring of twenty vertices, which succeed by C80; and without the hypothesis on
the weights a part can be empty: a single vertex and three parts. -/
example : (∃ out', partGraphRecursive Concrete.env (ring20 4) (some (defaultOptions Concrete.fp))
      { cut := 0, asg := List.replicate 20 0 } = (out', ok 1)) ∧
    (ring20 4).Valid ∧ 2 ≤ (ring20 4).numPartitions ∧ (ring20 4).numPartitions ≤ 4 ∧
    0 < (defaultOptions Concrete.fp).numGlobalCuts ∧ 1000 ≤ (ring20 4).totalWeight ∧ (ring20 4).totalWeight < 4294967295 ∧
    (∀ v, v < (ring20 4).numVertices → 20 * weightAt (ring20 4).vertexWeights v ≤ (ring20 4).totalWeight) ∧
    partGraphRecursive Concrete.env (oneIn 3) (some (Ex.cuts 1)) Ex.before =
      ({ cut := 0, asg := [2, 9, 9, 9, 9, 9, 9, 9] }, ok 1) := by
  have h := C80_up_to_eight Concrete.env.pq Concrete.env.set Concrete.env.rng ring20_valid4 (by decide) (by decide) rfl
    (by decide +kernel) (by decide +kernel) (by decide +kernel) (by decide +kernel) (o := defaultOptions Concrete.fp)
    (Or.inr rfl) (out := { cut := 0, asg := List.replicate 20 0 }) (by decide)
  exact ⟨⟨_, Prod.ext rfl h⟩, ring20_valid4, by decide, by decide, by decide, by decide +kernel, by decide +kernel,
    by decide +kernel, by decide +kernel⟩

end Poros
