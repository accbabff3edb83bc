import Verif.Props.P89_NullSafe
/-
C94: calls whose total vertex weight is less than the number of parts.
-/
namespace Poros
open Finset Res Concrete

/-- All vertices of the graph are on the right side. -/
def AllRight (g : Graph) (lab : Nat → Nat) : Prop := ∀ v, v < g.nv → lab v = 1

/-- A bisection target of nothing: no weight is wanted or allowed on either side. -/
structure Nothing [Concrete.Log2Impl] (t : Target Concrete.fp) : Prop where
  tw0 : nth t.tw 0 = 0
  mx0 : nth t.mx 0 = 0
  mx1 : nth t.mx 1 = 0
  frac : t.frac = [F64.nan, F64.nan]

theorem AllRight.weight {g : Graph} {lab : Nat → Nat} (h : AllRight g lab) : partWeight g lab 0 = 0 := by
  unfold partWeight
  exact sum_eq_zero fun v hv => if_neg (by rw [h v (mem_range.mp hv)]; decide)

theorem ofNat_zero [Concrete.Log2Impl] : Concrete.fp.ofNat 0 = F64.fin 0 := by
  have := ofNat_exact (n := 0) (by norm_num)
  simpa using this

theorem div_zero_inf [Concrete.Log2Impl] {n : Nat} (h0 : 0 < n) (h : n < 2 ^ 53) :
    Concrete.fp.div (Concrete.fp.ofNat n) (Concrete.fp.ofNat 0) = F64.inf false := by
  rw [ofNat_zero, ofNat_exact h]
  show F64.div (F64.fin (n : ℚ)) (F64.fin 0) = F64.inf false
  have : (n : ℚ) ≠ 0 := by exact_mod_cast (show n ≠ 0 by omega)
  simp only [F64.div, if_true, this, if_false]
  congr 1
  simp

/-- Growing towards nothing leaves all vertices on the right. -/
theorem GrownTo.nothing [Concrete.Log2Impl] {g : Graph} {t : Target Concrete.fp} (ht : Nothing t)
    (hw : g.sumVtx < 4294967296) {seed : Nat} {out : Nat → Nat} (h : GrownTo g t seed out) : AllRight g out := by
  obtain ⟨-, lab, seen, hg, -, ho⟩ := h
  have hr : AllRight g lab := by
    cases hg with
    | start h => exact h
    | take _ h => rw [ht.tw0] at h; omega
    | skip _ h => rw [ht.tw0] at h; omega
  rcases ho with ⟨hm, -⟩ | ⟨-, rfl⟩
  · exfalso
    obtain ⟨h1, -, h2⟩ := hm
    rw [ht.mx0, ht.mx1, hr.weight, div_zero_inf (by decide) (by norm_num),
      div_zero_inf (by rw [ht.mx1] at h1; exact h1)] at h2
    · exact absurd h2 (show ¬ F64.lt (F64.inf false) (F64.inf false) = true by decide)
    · have := partWeight_le (g := g) lab 1
      omega
  · exact hr

theorem imbalance_nothing [Concrete.Log2Impl] {g : Graph} {t : Target Concrete.fp} (ht : Nothing t) (lab : Nat → Nat) :
    maxImbalance g t lab = F64.fin 0 := by
  have e : ∀ q, imbalanceOf (fp := Concrete.fp) g lab q F64.nan = F64.nan := by
    intro q
    unfold imbalanceOf
    generalize Concrete.fp.div (Concrete.fp.ofNat _) (Concrete.fp.ofNat _) = x
    show F64.add (F64.div x F64.nan) _ = F64.nan
    cases x <;> rfl
  unfold maxImbalance
  rw [ht.frac]
  show fmaxF _ (fmaxF _ _ _) _ = _
  rw [e, e, lit_zero]
  rfl

theorem AllRight.cut {g : Graph} {lab : Nat → Nat} (h : AllRight g lab) : cutWeight g lab = 0 := by
  unfold cutWeight
  refine sum_eq_zero fun v hv => sum_eq_zero fun u hu => if_neg ?_
  rw [mem_range] at hv hu
  rw [h v hv, h u (by omega)]
  simp

theorem Refined.nothing [Concrete.Log2Impl] {g : Graph} {t : Target Concrete.fp} (ht : Nothing t) {mb n : Nat}
    {a b : Nat → Nat} (h : Refined g t mb n a b) (ha : AllRight g a) : AllRight g b := by
  refine (h.keeps (Q := AllRight g) ?_ (fun v hv => by rw [ha v hv]; decide) ha).2
  intro x y _ hi hx
  exfalso
  rcases hi with ⟨-, hi⟩ | ⟨hi, -⟩
  · rw [imbalance_nothing ht, imbalance_nothing ht] at hi
    have : F64.lt (F64.fin 0) (F64.fin 0) = true := hi
    exact absurd this (by decide)
  · rw [hx.cut] at hi
    omega

theorem MLRun.allRight {E : Env} {s : Scheme} {t : Target E.fp} {maxW : Nat}
    {init : Graph → E.rng.S → (Nat → Nat) → E.rng.S → Prop}
    (hinit : ∀ g r lab r', g.sumVtx < 4294967296 → init g r lab r' → AllRight g lab)
    (href : ∀ g mb n a b, Refined g t mb n a b → AllRight g a → AllRight g b) {parent : Option Graph} {g : Graph}
    {r : E.rng.S} {lab : Nat → Nat} {r' : E.rng.S} {hier : List Graph}
    (h : MLRun E s t maxW init parent g r lab r' hier) : g.sumVtx < 4294967296 → AllRight g lab := by
  induction h with
  | coarsest _ hi => exact fun hw => hinit _ _ _ _ hw hi
  | @level parent g r cmap cg clab r' hier lab0 lab hc hco _ hdown hr ih =>
    intro hw
    have := ih (by rw [hco.1.sumVtx]; exact hw)
    refine href _ _ _ _ _ hr fun v hv => ?_
    rw [hdown v hv]
    exact this _ (hco.1.lt v hv)

theorem MLBisected.nothing [Concrete.Log2Impl] {pq : PQImpl} {set : SetImpl} {rng : RngImpl} {s : Scheme}
    {t : Target Concrete.fp} (ht : Nothing t) {g : Graph} {r : rng.S} {lab : Nat → Nat} {r' : rng.S}
    (hw : g.sumVtx < 4294967296) (h : MLBisected (dblEnv pq set rng) s t g r lab r') : AllRight g lab :=
  h.elim fun _ h => h.allRight (fun _ _ _ _ hw hi => hi.grown.elim fun _ hs => hs.nothing ht hw)
    (fun _ _ _ _ _ h => h.nothing ht) hw

/-- The bisection target on the way to parts without weight. -/
theorem IsHalvesTarget.nothing [Concrete.Log2Impl] {k : Nat} (hk : 2 ≤ k) (hk' : k < 4294967296)
    {bt : Target Concrete.fp} (h : IsHalvesTarget (List.replicate k 0) (List.replicate k 0) bt) : Nothing bt := by
  have hm : ∀ n, halfMax Concrete.fp k (List.replicate n (0, 0)) = some 0 := by
    obtain ⟨m, hm, -, h2, -⟩ := recursiveOK.step k 0 0 0 hk hk' (by decide)
    obtain rfl : m = 0 := by omega
    intro n
    unfold halfMax
    induction n with
    | zero => rfl
    | succ n ih =>
      rw [List.replicate_succ, List.foldlM_cons]
      simp only [show usub 0 0 = 0 from rfl]
      rw [hm]
      exact ih
  have hz : (List.replicate k 0).zip (List.replicate k 0) = List.replicate k (0, 0) := by
    rw [List.zip_replicate]; simp
  have e0 : nth bt.tw 0 = 0 := by rw [h.left]; simp
  have e1 : nth bt.tw 1 = 0 := by rw [h.right]; simp
  have m0 := h.maxLeft
  have m1 := h.maxRight
  rw [hz, List.length_replicate, List.take_replicate, hm] at m0
  rw [hz, List.length_replicate, List.drop_replicate, hm] at m1
  refine ⟨e0, (Option.some.inj m0).symm, (Option.some.inj m1).symm, ?_⟩
  rw [h.frac]
  obtain ⟨x, y, e⟩ := List.length_eq_two.mp h.two.tw
  rw [e] at e0 e1 ⊢
  rw [show x = 0 from e0, show y = 0 from e1]
  have hn : Concrete.fp.mul (Concrete.fp.ofNat 0) (Concrete.fp.div (Concrete.fp.lit 1 0) (Concrete.fp.ofNat 0)) = F64.nan := by
    rw [ofNat_zero, lit_one]
    show F64.mul (F64.fin 0) (F64.div (F64.fin 1) (F64.fin 0)) = F64.nan
    decide +kernel
  show [_, _] = [_, _]
  exact congrArg₂ (fun a b => [a, b]) hn hn

/-- A run for parts without weight: at most three parts, and all vertices in the last one. -/
theorem RBRun.nothing [Concrete.Log2Impl] {pq : PQImpl} {set : SetImpl} {rng : RngImpl} {s : Scheme} {tw mx : List Nat}
    {g : Graph} {r : rng.S} {lab : Nat → Nat} {r' : rng.S} (h : RBRun (MLBisected (dblEnv pq set rng) s) tw mx g r lab r') :
    ∀ {k : Nat}, tw = List.replicate k 0 → mx = List.replicate k 0 → k < 4294967296 → g.sumVtx < 4294967296 →
      k ≤ 3 ∧ ∀ v, v < g.nv → lab v = k - 1 := by
  induction h with
  | leaf hk _ h =>
    rintro k rfl - - -
    rw [List.length_replicate] at hk
    subst hk
    exact ⟨by decide, h⟩
  | @node tw mx g lab bt side sL sR labL labR r r1 r2 r3 hk hm hbt hr hp hL hRt runL runR labelsL labelsR ihL ihR =>
    rintro k rfl rfl hk' hw
    rw [List.length_replicate] at hk labelsR
    have hs := hr.nothing (hbt.nothing hk hk') hw
    have hL0 : sL.nv = 0 := by
      by_contra hne
      have := (hL.vert (i := 0) (by omega))
      rw [hs _ this.1] at this
      exact absurd this.2 (by decide)
    have h4 : k / 2 < 2 := by
      by_contra hge
      have hlen : (List.take ((List.replicate k 0).length / 2) (List.replicate k 0)).length = k / 2 := by
        simp; omega
      generalize List.take ((List.replicate k 0).length / 2) (List.replicate k 0) = tl at runL hlen
      cases runL with
      | leaf h1 => omega
      | node _ _ _ h2 =>
        have := h2.nonempty
        omega
    have hsR : sR.sumVtx < 4294967296 := by
      rw [hRt.sumVtx]
      have := partWeight_le (g := g) side 1
      omega
    obtain ⟨-, hr2⟩ := ihR (k := k - k / 2) (by simp) (by simp) (by omega) hsR
    refine ⟨by omega, fun v hv => ?_⟩
    obtain ⟨i, hi, rfl⟩ := hRt.index hv (hs v hv)
    rw [labelsR i hi, hr2 i hi]
    omega

/-- The shares of a call with little weight. -/
theorem shares_nothing [Concrete.Log2Impl] {k W : Nat} (hk : 2 ≤ k) (hk' : k < 4294967296) (hW : 100 * W ≤ 97 * k)
    (hW' : W < 4294967296) {tw mx : List Nat} (h : EvenShares Concrete.fp k W tw mx) :
    tw = List.replicate k 0 ∧ mx = List.replicate k 0 := by
  obtain ⟨f, a, b, hu, hab, -, -, h3, -⟩ := uniform_bounds (k := k) (tot := W) hk hk' hW'
  have hkq : (0 : ℚ) < k := by exact_mod_cast (show 0 < k by omega)
  have hle : 1 / (k : ℚ) * W ≤ 97 / 100 := by
    have : (100 : ℚ) * W ≤ 97 * k := by exact_mod_cast hW
    rw [one_div, inv_mul_le_iff₀ hkq]
    linarith
  have hb : b = 0 := by
    have : (b : ℚ) < 1 := by linarith
    have : b < 1 := by exact_mod_cast this
    omega
  subst hb
  obtain rfl : a = 0 := by omega
  have he := evenShares hu
  constructor
  · refine list_ext_nth (by rw [h.len.1]; simp) fun q hq => ?_
    rw [h.len.1] at hq
    exact toU32_inj (h.target q hq) (he.target q hq)
  · refine list_ext_nth (by rw [h.len.2]; simp) fun q hq => ?_
    rw [h.len.2] at hq
    exact toU32_inj (h.limit q hq) (he.limit q hq)

/-- **C94.** For every valid input whose total vertex weight is at most 97 per cent of the number of parts: a call that
returns 1 was for at most three parts, and puts all vertices into the last part. -/
theorem C94_success [Concrete.Log2Impl] {pq : PQImpl} {set : SetImpl} {rng : RngImpl} {i : Input} (hv : i.Valid)
    (hk : 2 ≤ i.numPartitions) (hk' : i.numPartitions < 2 ^ 32) (hW : 100 * i.totalWeight ≤ 97 * i.numPartitions)
    {o : Options Concrete.fp} (hc : 0 < o.numGlobalCuts) {out out' : Out}
    (h : partGraphRecursive (dblEnv pq set rng) i (some o) out = (out', ok 1)) :
    i.numPartitions ≤ 3 ∧ out'.cut = 0 ∧ ∀ v, v < i.numVertices → nth out'.asg v = i.numPartitions - 1 := by
  obtain ⟨g, s, tw, mx, labs, j, hcall⟩ := C75_call (pq := pq) (set := set) (rng := rng) hv hk hk' hc h
  obtain ⟨r', hrep⟩ := hcall.runs
  obtain ⟨r0, r1, hrun⟩ := hrep.all _ (nth_mem hcall.index)
  have hsum : g.sumVtx = i.totalWeight := hcall.graph.sumVtx
  have hfit := hv.vtxFits
  obtain ⟨etw, emx⟩ := shares_nothing hk (by simpa using hk') hW (by omega) hcall.shares
  obtain ⟨h3, hlab⟩ := hrun.nothing etw emx (by simpa using hk') (by omega)
  rw [hcall.graph.nv] at hlab
  refine ⟨h3, ?_, fun v hv => by rw [hcall.labels v hv]; exact hlab v hv⟩
  rw [hcall.cut]
  unfold Input.cut csrCut
  refine sum_eq_zero fun v hv => sum_eq_zero fun e he => if_neg ?_
  rw [mem_range] at hv
  rw [mem_range] at he
  rw [hlab v hv, hlab e (by omega)]
  simp

/-- **C94.** For every valid input and four or more parts, if the total vertex weight is at most 97 per cent of the number of
parts (for unit weights: there are more parts than vertices), the call has undefined behaviour. -/
theorem C94_scarce_undefined [Concrete.Log2Impl] {pq : PQImpl} {set : SetImpl} {rng : RngImpl} {i : Input} (hv : i.Valid)
    (hk : 4 ≤ i.numPartitions) (hk' : i.numPartitions < 2 ^ 32) (hW : 100 * i.totalWeight ≤ 97 * i.numPartitions)
    {o : Options Concrete.fp} (ho : o.Known) (hc : 0 < o.numGlobalCuts) (out : Out) :
    (partGraphRecursive (dblEnv pq set rng) i (some o) out).2 = ub := by
  rcases C61_no_exception (E := dblEnv pq set rng) Concrete.callOK hv (by omega) hk' ho out with h | h
  · exfalso
    have := C94_success (pq := pq) (set := set) (rng := rng) hv (by omega) hk' hW hc (out := out) (Prod.ext rfl h)
    omega
  · exact h

/-- A path of three vertices without weight. -/
def zeroIn (k : Nat) : Input :=
  { numVertices := 3, edgePrefix := [0, 1, 3, 4], edgeList := [1, 0, 2, 1], vertexWeights := some [0, 0, 0],
    edgeWeights := none, numPartitions := k }

theorem zeroIn_valid : (zeroIn 3).Valid ∧ (zeroIn 4).Valid :=
  ⟨Ex.valid_of (by constructor <;> decide +kernel) (by decide +kernel) (by decide +kernel) (by decide +kernel)
    (by decide +kernel), Ex.valid_of (by constructor <;> decide +kernel) (by decide +kernel) (by decide +kernel)
    (by decide +kernel) (by decide +kernel)⟩

/-- The hypotheses are met: a path without weight is split "into three parts" by labelling all vertices 2, and cannot be
split into four; 22 vertices of weight 1 cannot be split into 23 parts (but the weight of six suffices for six parts). -/
example : (zeroIn 3).Valid ∧ 100 * (zeroIn 3).totalWeight ≤ 97 * (zeroIn 3).numPartitions ∧
    partGraphRecursive Concrete.env (zeroIn 3) (some (Ex.cuts 1)) Ex.before =
      ({ cut := 0, asg := [2, 2, 2, 9, 9, 9, 9, 9] }, ok 1) ∧
    (zeroIn 4).Valid ∧ 4 ≤ (zeroIn 4).numPartitions ∧ 100 * (zeroIn 4).totalWeight ≤ 97 * (zeroIn 4).numPartitions ∧
    (Ex.cuts 1).Known ∧ 0 < (Ex.cuts 1).numGlobalCuts ∧
    (looseIn 22 23).Valid ∧ 100 * (looseIn 22 23).totalWeight ≤ 97 * (looseIn 22 23).numPartitions ∧
    partGraphRecursive Concrete.env (looseIn 6 6) (some (Ex.cuts 1)) Ex.before =
      ({ cut := 0, asg := [0, 3, 4, 5, 1, 2, 9, 9] }, ok 1) :=
  ⟨zeroIn_valid.1, by decide +kernel, by decide +kernel, zeroIn_valid.2, by decide, by decide +kernel, Or.inr rfl,
    by decide, Ex.valid_of (by constructor <;> decide +kernel) (by decide +kernel) (by decide +kernel) (by decide +kernel)
    (by decide +kernel), by decide +kernel, by decide +kernel⟩

end Poros
