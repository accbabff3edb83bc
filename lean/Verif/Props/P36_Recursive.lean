import Verif.Proofs.RBMore
import Verif.Props.P30_Multilevel
/-
C36, C37, C58, C59: recursive bisection.
-/
namespace Poros
open Finset Res

variable {E : Env}

/-- `p` is a result of the bisector on `g` with target `t`. -/
def Yields (bis : Bisector E) (t : Target E.fp) (g : Graph) (p : Partitioning) : Prop :=
  ∃ r r', bis t g r = ok (p, r')

/-! ### C36 -/

/-- **C36.** Recursive bisection into `k ≥ 2` parts with a bisector that yields exact bisections of valid graphs: if
it finishes, every vertex has a label below `k`, the reported part weights and cut are the true ones, and the labels
come from a tree of bisections made by the bisector. -/
theorem C36_recursive {bis : Bisector E}
    (hbis : ∀ bt g r p r', g.Good → bt.Two → nth bt.mx 0 < 2 ^ 32 → nth bt.mx 1 < 2 ^ 32 →
      bis bt g r = ok (p, r') → IsExact g 2 p)
    {t : Target E.fp} (hk : 2 ≤ t.k) (hk' : t.k < 2 ^ 32) (htw : t.tw.length = t.k) (hmx : t.mx.length = t.k)
    {g : Graph} (hg : g.Good) {r : E.rng.S} {p : Partitioning} {r' : E.rng.S} (h : rbExecute bis t g r = ok (p, r')) :
    IsExact g t.k p ∧ RBTree (Yields bis) t.tw t.mx g p.lab := by
  refine (rbExecute_spec (bu := True) (be := True) (bd := True) (S := g.sumVtx) (M := NULL32) (by omega)
    (fun bt g r hg _ hb h0 h1 => ?_) hk (by simpa using hk') htw hmx (Or.inr ⟨trivial, rfl⟩) hg (le_refl _) r).elim_ok h
  refine Wp.post.mpr (may_iff.mpr fun o ho => ?_)
  exact ⟨hbis bt g r o.1 o.2 hg hb (by norm_num; omega) (by norm_num; omega) ho, r, o.2, ho⟩

/-- **C36, termination.** If the bisector never diverges on valid graphs (and its results are exact), neither does
recursive bisection: it performs exactly as many levels as there are parts to separate. -/
theorem C36_ends {bis : Bisector E} (hbis : ∀ bt g r, g.Good → bt.Two → Ends (bis bt g r) (fun o => IsExact g 2 o.1))
    {t : Target E.fp} (hk : 2 ≤ t.k) (hk' : t.k < 2 ^ 32) (htw : t.tw.length = t.k) (hmx : t.mx.length = t.k)
    {g : Graph} (hg : g.Good) (r : E.rng.S) : rbExecute bis t g r ≠ diverge := by
  refine EndsE.ne (Wp.ends.mp (rbExecute_spec (bu := True) (be := True) (bd := False) (R := fun _ _ _ => True)
    (S := g.sumVtx) (M := NULL32) (by omega) (fun bt g r hg _ hb _ _ => ?_) hk (by simpa using hk') htw hmx
    (Or.inr ⟨trivial, rfl⟩) hg (le_refl _) r))
  exact Wp.ends.mpr ((hbis bt g r hg hb).mono fun o ho => ⟨ho, trivial⟩)

/-- **C36, safety.** If the bisector finishes on every valid graph up to the given total weight, for every two-way
target with maximum weights up to `M`, then recursive bisection finishes: no undefined behaviour, no exception. -/
theorem C36_total {bis : Bisector E} (hfp : E.fp.RecursiveOK) {M : Nat} (hM : M < 2 ^ 32) {t : Target E.fp}
    (hk : 2 ≤ t.k) (hk' : t.k < 2 ^ 32) (htw : t.tw.length = t.k) (hmx : t.mx.length = t.k)
    (hfit : WeightsFit M t.tw t.mx) {g : Graph} (hg : g.Good)
    (hbis : ∀ bt g' r, g'.Good → g'.sumVtx ≤ g.sumVtx → bt.Two → nth bt.mx 0 ≤ M → nth bt.mx 1 ≤ M →
      ∃ p r', bis bt g' r = ok (p, r') ∧ IsExact g' 2 p) (r : E.rng.S) :
    ∃ p r', rbExecute bis t g r = ok (p, r') := by
  obtain ⟨o, ho, -⟩ := sat_iff.mp (Wp.post.mp (rbExecute_spec (bu := False) (be := False) (bd := False)
    (R := fun _ _ _ => True) (S := g.sumVtx) (M := M) (by simpa using hM)
    (fun bt g' r hg' hs hb h0 h1 => by
      obtain ⟨p, r', h, hp⟩ := hbis bt g' r hg' hs hb h0 h1
      exact Wp.of_sat (sat_iff.mpr ⟨_, h, hp, trivial⟩)) hk (by simpa using hk') htw hmx (Or.inl ⟨hfp, hfit⟩) hg (le_refl _) r))
  exact ⟨o.1, o.2, ho⟩

/-- **C36 for the library's partitioner.** With the multilevel bisector, for both aggregation schemes: results are
exact with labels below `k`, and the computation never diverges. -/
theorem C36_multilevel (s : Scheme) {t : Target E.fp} (hk : 2 ≤ t.k) (hk' : t.k < 2 ^ 32)
    (htw : t.tw.length = t.k) (hmx : t.mx.length = t.k) {g : Graph} (hg : g.Good) (r : E.rng.S) :
    (∀ p r', rbExecute (makeMultilevel E s).execute t g r = ok (p, r') →
      IsExact g t.k p ∧ RBTree (Yields (makeMultilevel E s).execute) t.tw t.mx g p.lab) ∧
    (E.fp.SelfRatio → rbExecute (makeMultilevel E s).execute t g r ≠ diverge) :=
  ⟨fun _ _ h => C36_recursive (fun _ _ r _ _ hg hb _ _ => (C35_multilevel s hb hg r).1 _ _) hk hk' htw hmx hg h,
    fun hsr => C36_ends (fun _ _ r hg hb =>
      Multilevel.execute_ends (makeMultilevel_ending s hb) hsr (fun _ => trivial) hg r) hk hk' htw hmx hg r⟩

/-- **C36, a bisector that is always safe.** With random bisection, and weights that fit signed 32-bit integers,
recursive bisection into any number of parts finishes. -/
theorem C36_random (hfp : E.fp.RecursiveOK) {t : Target E.fp} (hk : 2 ≤ t.k) (hk' : t.k < 2 ^ 32)
    (htw : t.tw.length = t.k) (hmx : t.mx.length = t.k) (hfit : WeightsFit 2147483647 t.tw t.mx) {g : Graph}
    (hg : g.Good) (hs : g.sumVtx < 2 ^ 31) (r : E.rng.S) :
    ∃ p r', rbExecute randomBisect t g r = ok (p, r') ∧ IsExact g t.k p := by
  obtain ⟨p, r', h⟩ := C36_total (bis := randomBisect) hfp (M := 2147483647) (by norm_num) hk hk' htw hmx hfit hg
    (fun bt g' r hg' hs' hb h0 _ => by
      have hc := C32_random hg' hb (by omega) r
      obtain ⟨o, ho⟩ := hc.2 (by norm_num at hs; omega) (by omega)
      exact ⟨o.1, o.2, ho, (hc.1 o.1 o.2 ho).1⟩) r
  exact ⟨p, r', h, (C36_recursive (fun bt g r p r' hg hb h0 _ h =>
    ((C32_random hg hb (by simpa using h0) r).1 p r' h).1) hk hk' htw hmx hg h).1⟩

/-- A target for three parts of `tri2`. -/
def thirds : Target Concrete.env.fp := { k := 3, frac := [], tw := [3, 3, 3], mx := [4, 4, 4] }

/-- The hypotheses are met: `tri2` in three parts, by multilevel and by random bisection. -/
example : Concrete.env.fp.RecursiveOK ∧ Concrete.env.fp.SelfRatio ∧ 2 ≤ thirds.k ∧ thirds.k < 2 ^ 32 ∧
    thirds.tw.length = thirds.k ∧ thirds.mx.length = thirds.k ∧ WeightsFit 2147483647 thirds.tw thirds.mx ∧
    Ex.tri2.Good ∧ Ex.tri2.sumVtx < 2 ^ 31 ∧
    (rbExecute (E := Concrete.env) (makeMultilevel Concrete.env .sortedHeavyEdge).execute thirds Ex.tri2 ()).value =
      ok { cut := 10, pw := [3, 4, 2], asg := [0, 0, 1, 1, 2, 2] } ∧
    (rbExecute (E := Concrete.env) randomBisect thirds Ex.tri2 ()).value =
      ok { cut := 10, pw := [3, 4, 2], asg := [0, 0, 1, 1, 2, 2] } :=
  ⟨Concrete.recursiveOK, Concrete.selfRatio, by decide, by decide, rfl, rfl,
    by constructor <;> decide +kernel, Ex.tri2_good, by decide +kernel, by decide +kernel, by decide +kernel⟩

/-! ### C37 -/

/-- In a tree of bisections with `k ≥ 2` parts, the vertices that the first bisection put on the left have
exactly the labels below `⌊k/2⌋`. So vertices separated by it have different labels; and the labels of each side are
again those of a tree of bisections, of the induced subgraph, so the same holds for every later bisection. -/
theorem RBTree.refines {fp : FP} {R : Target fp → Graph → Partitioning → Prop} {tw mx : List Nat} {g : Graph}
    {lab : Nat → Nat} (h : RBTree R tw mx g lab) (hk : 2 ≤ tw.length) :
    ∃ bt p, IsHalvesTarget tw mx bt ∧ R bt g p ∧ IsExact g 2 p ∧
      (∀ v, v < g.nv → (p.lab v = 0 ↔ lab v < tw.length / 2)) ∧
      (∀ u v, u < g.nv → v < g.nv → p.lab u ≠ p.lab v → lab u ≠ lab v) ∧
      ∃ sL sR, IsInduced g p.lab 0 sL ∧ IsInduced g p.lab 1 sR ∧
        RBTree R (tw.take (tw.length / 2)) (mx.take (tw.length / 2)) sL
          (fun i => lab (nth (vertsOf g p.lab 0) i)) ∧
        RBTree R (tw.drop (tw.length / 2)) (mx.drop (tw.length / 2)) sR
          (fun i => lab (nth (vertsOf g p.lab 1) i) - tw.length / 2) := by
  cases h with
  | leaf h1 => omega
  | @node _ _ _ _ bt p sL sR labL labR hk2 hm hbt hR hp hL hRt treeL treeR labelsL labelsR =>
    have side : ∀ v, v < g.nv → (p.lab v = 0 ↔ lab v < tw.length / 2) := by
      intro v hv
      have h2 := hp.complete v hv
      rcases (show p.lab v = 0 ∨ p.lab v = 1 by omega) with h0 | h1
      · obtain ⟨i, hi, rfl⟩ := hL.index hv h0
        have := treeL.lt i hi
        rw [labelsL i hi]
        simp at this
        omega
      · obtain ⟨i, hi, rfl⟩ := hRt.index hv h1
        rw [labelsR i hi]
        omega
    refine ⟨bt, p, hbt, hR, hp, side, ?_, sL, sR, hL, hRt, treeL.congr labelsL, treeR.congr fun i hi => ?_⟩
    · intro u v hu hv hne he
      have a := side u hu
      have b := side v hv
      rw [he] at a
      have := hp.complete u hu
      have := hp.complete v hv
      omega
    · rw [labelsR i hi]
      omega

/-- With two parts the labels are those of the single bisection, which got the target and (given
the laws of doubles) the maximum weights of the two parts unchanged. -/
theorem RBTree.two_parts {fp : FP} {R : Target fp → Graph → Partitioning → Prop} {tw mx : List Nat} {g : Graph}
    {lab : Nat → Nat} (h : RBTree R tw mx g lab) (hk : tw.length = 2) :
    ∃ bt p, R bt g p ∧ bt.Two ∧ (∀ v, v < g.nv → p.lab v = lab v) ∧
      (∀ q, q < 2 → nth bt.tw q = nth tw q % 2 ^ 32) ∧
      (fp.RecursiveOK → WeightsFit NULL32 tw mx → ∀ q, q < 2 → nth bt.mx q = nth mx q) := by
  have hlt := h.lt
  have hm := h.lengths.2
  obtain ⟨bt, p, hbt, hR, hp, side, -⟩ := h.refines (by omega)
  refine ⟨bt, p, hR, hbt.two, ?_, ?_, ?_⟩
  · intro v hv
    have h1 := side v hv
    have h2 := hp.complete v hv
    have h3 := hlt v hv
    omega
  · match tw, hk with
    | [a, b], _ =>
      intro q hq
      interval_cases q
      · simpa [nth] using hbt.left
      · simpa [nth] using hbt.right
  · intro hfp hw q hq
    obtain ⟨-, -, h3⟩ := hbt.bounds hfp (by omega) (by omega) hm hw (by omega)
    interval_cases q
    · exact (h3 hk).1
    · exact (h3 hk).2

/-- The hypotheses are met by the tree of the run above. -/
example : ∃ p, RBTree (Yields (E := Concrete.env) (makeMultilevel Concrete.env .sortedHeavyEdge).execute) thirds.tw thirds.mx
    Ex.tri2 p ∧ 2 ≤ thirds.tw.length ∧ p 0 = 0 ∧ p 4 = 2 := by
  have h : (rbExecute (E := Concrete.env) (makeMultilevel Concrete.env .sortedHeavyEdge).execute thirds Ex.tri2 ()).value =
      ok { cut := 10, pw := [3, 4, 2], asg := [0, 0, 1, 1, 2, 2] } := by decide +kernel
  cases hr : rbExecute (E := Concrete.env) (makeMultilevel Concrete.env .sortedHeavyEdge).execute thirds Ex.tri2 () with
  | ok o =>
    rw [hr] at h
    simp only [Res.value, ok_bind, Res.ok.injEq] at h
    have := ((C36_multilevel (E := Concrete.env) .sortedHeavyEdge (t := thirds) (by decide) (by decide) rfl rfl Ex.tri2_good ()).1
      o.1 o.2 hr).2
    rw [h] at this
    exact ⟨_, this, by decide, by decide, by decide⟩
  | ub => rw [hr] at h; cases h
  | exn => rw [hr] at h; cases h
  | diverge => rw [hr] at h; cases h

/-! ### C58 -/

/-- The limits that a bisection on the way to `k` parts gets lie between the sum of the target
weights and the sum of the maximum weights of the parts of that half. -/
theorem IsHalvesTarget.limits {fp : FP} (hfp : fp.RecursiveOK) {tw mx : List Nat} {bt : Target fp}
    (h : IsHalvesTarget tw mx bt) (hk : 2 ≤ tw.length) (hk' : tw.length < 2 ^ 32) (hm : mx.length = tw.length)
    (hf : WeightsFit NULL32 tw mx) :
    (tw.take (tw.length / 2)).sum ≤ nth bt.mx 0 ∧ nth bt.mx 0 ≤ (mx.take (tw.length / 2)).sum ∧
    (tw.drop (tw.length / 2)).sum ≤ nth bt.mx 1 ∧ nth bt.mx 1 ≤ (mx.drop (tw.length / 2)).sum := by
  obtain ⟨⟨a, b⟩, ⟨c, d⟩, -⟩ := h.bounds hfp hk (by simpa using hk') hm hf (by omega)
  exact ⟨a, b, c, d⟩

/-- If every bisection in the tree stays within the limits it got, then every one of the `k` parts stays
within its maximum weight. -/
theorem RBTree.within {fp : FP} (hfp : fp.RecursiveOK) {R : Target fp → Graph → Partitioning → Prop}
    {tw mx : List Nat} {g : Graph} {lab : Nat → Nat}
    (h : RBTree (fun bt g p => R bt g p ∧ Balanced g bt p.lab) tw mx g lab) (hk : 2 ≤ tw.length)
    (hk' : tw.length < 2 ^ 32) (hf : WeightsFit NULL32 tw mx) :
    ∀ q, q < tw.length → partWeight g lab q ≤ nth mx q :=
  RBTree.balanced hfp (M := NULL32) (by omega) (fun _ _ _ h => h.2) h (by simpa using hk') hf (Or.inr hk)

/-- **C58, for a run.** If the bisector's results are always within the limits, so are the parts of the result. -/
theorem C58_run {bis : Bisector E} (hfp : E.fp.RecursiveOK)
    (hbis : ∀ bt g r p r', g.Good → bt.Two → bis bt g r = ok (p, r') → IsExact g 2 p ∧ Balanced g bt p.lab)
    {t : Target E.fp} (hk : 2 ≤ t.k) (hk' : t.k < 2 ^ 32) (htw : t.tw.length = t.k) (hmx : t.mx.length = t.k)
    (hf : WeightsFit NULL32 t.tw t.mx) {g : Graph} (hg : g.Good) {r : E.rng.S} {p : Partitioning} {r' : E.rng.S}
    (h : rbExecute bis t g r = ok (p, r')) : ∀ q, q < t.k → partWeight g p.lab q ≤ nth t.mx q := by
  have htree : RBTree (fun bt g p => Yields bis bt g p ∧ Balanced g bt p.lab) t.tw t.mx g p.lab := by
    refine ((rbExecute_spec (bu := True) (be := True) (bd := True) (S := g.sumVtx) (M := NULL32) (by omega)
      (fun bt g r hg _ hb _ _ => ?_) hk (by simpa using hk') htw hmx (Or.inr ⟨trivial, rfl⟩) hg
      (le_refl _) r).elim_ok h).2
    refine Wp.post.mpr (may_iff.mpr fun o ho => ?_)
    obtain ⟨h1, h2⟩ := hbis bt g r o.1 o.2 hg hb ho
    exact ⟨h1, ⟨r, o.2, ho⟩, h2⟩
  have := htree.within hfp (by omega) (by omega) hf
  rwa [htw] at this

/-- A balanced tree exists: an edgeless graph split into single vertices. -/
example : ∃ lab, RBTree (fp := Concrete.env.fp) (fun bt g p => True ∧ Balanced g bt p.lab) [1, 1] [1, 1]
    (isolated [1, 1]) lab ∧ WeightsFit NULL32 [1, 1] [1, 1] ∧ lab 1 = 1 := by
  refine ⟨fun v => v, ?_, by constructor <;> decide +kernel, rfl⟩
  refine RBTree.node (bt := ⟨2, shares Concrete.env.fp [1, 1], [1, 1], [1, 1]⟩)
    (p := { cut := 0, pw := [1, 1], asg := [0, 1] }) (sL := isolated [1]) (sR := isolated [1]) (labL := fun _ => 0)
    (labR := fun _ => 0) (by decide) rfl ⟨⟨rfl, rfl, rfl, rfl⟩, by decide, by decide, ?_, ?_, rfl⟩ ⟨trivial, by decide +kernel⟩
    (by constructor <;> decide +kernel)
    ⟨by decide +kernel, by decide +kernel, by decide +kernel, by decide +kernel, by constructor <;> decide +kernel⟩
    ⟨by decide +kernel, by decide +kernel, by decide +kernel, by decide +kernel, by constructor <;> decide +kernel⟩
    (RBTree.leaf rfl rfl fun _ _ => rfl) (RBTree.leaf rfl rfl fun _ _ => rfl) (by decide +kernel) (by decide +kernel)
  · obtain ⟨m, h1, -, h2, h3⟩ := halfMax_ok Concrete.recursiveOK (k := 2) (by decide) (by decide) [(1, 1)]
      (by decide) (by decide)
    rw [h3 rfl] at h1
    exact h1
  · obtain ⟨m, h1, -, h2, h3⟩ := halfMax_ok Concrete.recursiveOK (k := 2) (by decide) (by decide) [(1, 1)]
      (by decide) (by decide)
    rw [h3 rfl] at h1
    exact h1

/-! ### C59 -/

/-- The cut of a recursive bisection is the cut of its first bisection plus the cuts of the recursive
bisections of the two sides; so in total it is the sum of the cuts of all bisections made. -/
theorem RBTree.cut_node {fp : FP} {R : Target fp → Graph → Partitioning → Prop} {tw mx : List Nat} {g : Graph} (hg : g.WF)
    (hs : g.Symm) {lab : Nat → Nat} (h : RBTree R tw mx g lab) (hk : 2 ≤ tw.length) :
    ∃ bt p sL sR labL labR, R bt g p ∧ IsExact g 2 p ∧ IsInduced g p.lab 0 sL ∧ IsInduced g p.lab 1 sR ∧
      RBTree R (tw.take (tw.length / 2)) (mx.take (tw.length / 2)) sL labL ∧
      RBTree R (tw.drop (tw.length / 2)) (mx.drop (tw.length / 2)) sR labR ∧
      (∀ i, i < sL.nv → lab (nth (vertsOf g p.lab 0) i) = labL i) ∧
      (∀ i, i < sR.nv → lab (nth (vertsOf g p.lab 1) i) = tw.length / 2 + labR i) ∧
      cutWeight g lab = p.cut + cutWeight sL labL + cutWeight sR labR := by
  cases h with
  | leaf h1 => omega
  | @node _ _ _ _ bt p sL sR labL labR hk2 hm hbt hR hp hL hRt treeL treeR labelsL labelsR =>
    refine ⟨bt, p, sL, sR, labL, labR, hR, hp, hL, hRt, treeL, treeR, labelsL, labelsR, ?_⟩
    rw [hp.cut_eq]
    refine cut_sides hg hs (m := tw.length / 2) hp.complete hL hRt (fun i hi => ?_) labelsL labelsR
    have := treeL.lt i hi
    simp at this
    omega

/-- A single part has no cut. -/
theorem RBTree.cut_leaf {fp : FP} {R : Target fp → Graph → Partitioning → Prop} {tw mx : List Nat} {g : Graph}
    {lab : Nat → Nat} (h : RBTree R tw mx g lab) (hk : tw.length = 1) : cutWeight g lab = 0 := by
  have hlt := h.lt
  unfold cutWeight
  refine sum_eq_zero fun v hv => sum_eq_zero fun u hu => ?_
  have hv := mem_range.mp hv
  have hu := mem_range.mp hu
  have h1 := hlt v hv
  have h2 := hlt u (by omega)
  rw [if_neg (by omega)]

/-! ### The bisections made during a run -/

/-- What `RBTree.made` says about the bisections of a tree. -/
structure MadeFacts {fp : FP} (lab : Nat → Nat) (m : Made fp) : Prop where
  two : 2 ≤ m.tw.length
  len : m.mx.length = m.tw.length
  target : IsHalvesTarget m.tw m.mx m.bt
  exact : IsExact m.g 2 m.p
  left : ∀ i, i < m.g.nv → m.p.lab i = 0 → m.first ≤ lab (nth m.verts i) ∧ lab (nth m.verts i) < m.first + m.tw.length / 2
  right : ∀ i, i < m.g.nv → m.p.lab i = 1 →
    m.first + m.tw.length / 2 ≤ lab (nth m.verts i) ∧ lab (nth m.verts i) < m.first + m.tw.length

/-- The bisections of a tree, in order. -/
theorem RBTree.made {fp : FP} {R : Target fp → Graph → Partitioning → Prop} {tw mx : List Nat} {g : Graph}
    {lab : Nat → Nat} (h : RBTree R tw mx g lab) (hg : g.WF) (hs : g.Symm) {L : Nat → Nat} :
    ∀ {first : Nat} {verts : List Nat}, (∀ i, i < g.nv → L (nth verts i) = first + lab i) →
    ∃ made, RBMade R L first verts tw mx g made ∧ made.length + 1 = tw.length ∧
      cutWeight g lab = (made.map fun m => m.p.cut).sum ∧ ∀ m ∈ made, MadeFacts L m := by
  induction h with
  | @leaf tw mx g lab hk hm h =>
    intro first verts hl
    refine ⟨[], RBMade.leaf hk hm fun i hi => by rw [hl i hi, h i hi]; rfl, by simp [hk], ?_, by simp⟩
    exact (RBTree.leaf (R := R) hk hm h).cut_leaf hk
  | @node tw mx g lab bt p sL sR labL labR hk hm hbt hR hp hL hRt treeL treeR labelsL labelsR ihL ihR =>
    intro first verts hl
    have vL : ∀ i, i < sL.nv → nth ((vertsOf g p.lab 0).map (nth verts)) i = nth verts (nth (vertsOf g p.lab 0) i) :=
      fun i hi => nth_map (by rw [← hL.nv]; exact hi)
    have vR : ∀ i, i < sR.nv → nth ((vertsOf g p.lab 1).map (nth verts)) i = nth verts (nth (vertsOf g p.lab 1) i) :=
      fun i hi => nth_map (by rw [← hRt.nv]; exact hi)
    obtain ⟨madeL, l1, l2, l3, l4⟩ := ihL hL.valid (hL.symm hg hs) (first := first)
      (verts := (vertsOf g p.lab 0).map (nth verts)) fun i hi => by
        rw [vL i hi, hl _ (hL.vert hi).1, labelsL i hi]
    obtain ⟨madeR, r1, r2, r3, r4⟩ := ihR hRt.valid (hRt.symm hg hs) (first := first + tw.length / 2)
      (verts := (vertsOf g p.lab 1).map (nth verts)) fun i hi => by
        rw [vR i hi, hl _ (hRt.vert hi).1, labelsR i hi, Nat.add_assoc]
    have ltL : ∀ i, i < sL.nv → labL i < tw.length / 2 := fun i hi => by
      have := treeL.lt i hi
      rw [List.length_take] at this
      omega
    refine ⟨_, RBMade.node hk hm hbt hR hp hL hRt l1 r1, ?_, ?_, ?_⟩
    · rw [List.length_take] at l2
      rw [List.length_drop] at r2
      rw [List.length_cons, List.length_append]
      omega
    · rw [List.map_cons, List.map_append, List.sum_cons, List.sum_append, ← l3, ← r3,
        cut_sides hg hs (m := tw.length / 2) hp.complete hL hRt ltL labelsL labelsR, hp.cut_eq]
      omega
    · intro m hm'
      rcases List.mem_cons.mp hm' with rfl | hm'
      · refine ⟨hk, hm, hbt, hp, fun i hi h0 => ?_, fun i hi h1 => ?_⟩
        · simp only at hi h0 ⊢
          obtain ⟨j, hj, rfl⟩ := hL.index hi h0
          rw [hl _ hi, labelsL j hj]
          have := ltL j hj
          omega
        · simp only at hi h1 ⊢
          obtain ⟨j, hj, rfl⟩ := hRt.index hi h1
          rw [hl _ hi, labelsR j hj]
          have := treeR.lt j hj
          rw [List.length_drop] at this
          omega
      · rcases List.mem_append.mp hm' with h | h
        · exact l4 m h
        · exact r4 m h

/-- All bisections get weights that fit. -/
theorem RBMade.fit {fp : FP} {R : Target fp → Graph → Partitioning → Prop} {L : Nat → Nat} {first : Nat}
    {verts tw mx : List Nat} {g : Graph} {made : List (Made fp)} (h : RBMade R L first verts tw mx g made) {M : Nat}
    (hf : WeightsFit M tw mx) : ∀ m ∈ made, WeightsFit M m.tw m.mx ∧ m.tw.length ≤ tw.length := by
  induction h with
  | leaf => intro m hm; cases hm
  | @node first verts tw mx g bt p sL sR madeL madeR hk hm hbt hR hp hL hRt left right ihL ihR =>
    intro m hm'
    rcases List.mem_cons.mp hm' with rfl | hm'
    · exact ⟨hf, le_refl _⟩
    · rcases List.mem_append.mp hm' with h | h
      · have := ihL (hf.take hm) m h
        rw [List.length_take] at this
        exact ⟨this.1, by omega⟩
      · have := ihR (hf.drop hm) m h
        rw [List.length_drop] at this
        exact ⟨this.1, by omega⟩

/-- Back to a tree, with what is known of the bisections made. -/
theorem RBMade.tree {fp : FP} {R : Target fp → Graph → Partitioning → Prop} {L : Nat → Nat} {first : Nat}
    {verts tw mx : List Nat} {g : Graph} {made : List (Made fp)} (h : RBMade R L first verts tw mx g made)
    (hb : ∀ m ∈ made, Balanced m.g m.bt m.p.lab) :
    RBTree (fun bt g p => R bt g p ∧ Balanced g bt p.lab) tw mx g (fun i => L (nth verts i) - first) ∧
      ∀ i, i < g.nv → first ≤ L (nth verts i) := by
  induction h with
  | leaf hk hm h => exact ⟨RBTree.leaf hk hm fun v hv => by rw [h v hv]; omega, fun i hi => (h i hi).ge⟩
  | @node first verts tw mx g bt p sL sR madeL madeR hk hm hbt hR hp hL hRt left right ihL ihR =>
    have vL : ∀ i, i < sL.nv → nth ((vertsOf g p.lab 0).map (nth verts)) i = nth verts (nth (vertsOf g p.lab 0) i) :=
      fun i hi => nth_map (by rw [← hL.nv]; exact hi)
    have vR : ∀ i, i < sR.nv → nth ((vertsOf g p.lab 1).map (nth verts)) i = nth verts (nth (vertsOf g p.lab 1) i) :=
      fun i hi => nth_map (by rw [← hRt.nv]; exact hi)
    obtain ⟨l1, l2⟩ := ihL fun m h => hb m (List.mem_cons_of_mem _ (List.mem_append_left _ h))
    obtain ⟨r1, r2⟩ := ihR fun m h => hb m (List.mem_cons_of_mem _ (List.mem_append_right _ h))
    refine ⟨RBTree.node hk hm hbt ⟨hR, hb _ (List.mem_cons_self ..)⟩ hp hL hRt l1 r1 (fun i hi => by rw [vL i hi])
      (fun i hi => ?_), fun i hi => ?_⟩
    · have := r2 i hi
      rw [vR i hi] at this ⊢
      omega
    · have := hp.complete i hi
      rcases (show p.lab i = 0 ∨ p.lab i = 1 by omega) with h | h
      · obtain ⟨j, hj, rfl⟩ := hL.index hi h
        have := l2 j hj
        rwa [vL j hj] at this
      · obtain ⟨j, hj, rfl⟩ := hRt.index hi h
        have := r2 j hj
        rw [vR j hj] at this
        omega

/-- The bisections made by a run of recursive bisection. -/
theorem rb_made {bis : Bisector E}
    (hbis : ∀ bt g r p r', g.Good → bt.Two → nth bt.mx 0 < 2 ^ 32 → nth bt.mx 1 < 2 ^ 32 →
      bis bt g r = ok (p, r') → IsExact g 2 p)
    {t : Target E.fp} (hk : 2 ≤ t.k) (hk' : t.k < 2 ^ 32) (htw : t.tw.length = t.k) (hmx : t.mx.length = t.k)
    {g : Graph} (hg : g.Good) {r : E.rng.S} {p : Partitioning} {r' : E.rng.S} (h : rbExecute bis t g r = ok (p, r')) :
    ∃ made, RBMade (Yields bis) p.lab 0 (List.range g.nv) t.tw t.mx g made ∧ made.length + 1 = t.k ∧
      p.cut = (made.map fun m => m.p.cut).sum ∧ ∀ m ∈ made, MadeFacts p.lab m := by
  obtain ⟨h1, h2⟩ := C36_recursive hbis hk hk' htw hmx hg h
  obtain ⟨made, m1, m2, m3, m4⟩ := h2.made hg.wf hg.symm (L := p.lab) (first := 0) (verts := List.range g.nv)
    fun i hi => by rw [nth_range hi, Nat.zero_add]
  exact ⟨made, m1, by rw [m2, htw], by rw [h1.cut_eq, m3], m4⟩

/-- **C37.** Whatever recursive bisection into `k ≥ 2` parts returns comes from a tree of `k - 1` bisections made by the
bisector, and for each of them, which splits the parts from `first` on, the vertices it put on the left end up in
exactly its first `⌊k/2⌋` parts and the vertices it put on the right in the others. So vertices that any of the
bisections separated never share a label. -/
theorem C37_refines {bis : Bisector E}
    (hbis : ∀ bt g r p r', g.Good → bt.Two → nth bt.mx 0 < 2 ^ 32 → nth bt.mx 1 < 2 ^ 32 →
      bis bt g r = ok (p, r') → IsExact g 2 p)
    {t : Target E.fp} (hk : 2 ≤ t.k) (hk' : t.k < 2 ^ 32) (htw : t.tw.length = t.k) (hmx : t.mx.length = t.k)
    {g : Graph} (hg : g.Good) {r : E.rng.S} {p : Partitioning} {r' : E.rng.S} (h : rbExecute bis t g r = ok (p, r')) :
    ∃ made, RBMade (Yields bis) p.lab 0 (List.range g.nv) t.tw t.mx g made ∧ made.length = t.k - 1 ∧ ∀ m ∈ made,
      (∀ i, i < m.g.nv → m.first ≤ p.lab (nth m.verts i) ∧ p.lab (nth m.verts i) < m.first + m.tw.length ∧
        (m.p.lab i = 0 ↔ p.lab (nth m.verts i) < m.first + m.tw.length / 2)) ∧
      (∀ i j, i < m.g.nv → j < m.g.nv → m.p.lab i ≠ m.p.lab j → p.lab (nth m.verts i) ≠ p.lab (nth m.verts j)) := by
  obtain ⟨made, m1, m2, -, m4⟩ := rb_made hbis hk hk' htw hmx hg h
  refine ⟨made, m1, by omega, fun m hm => ?_⟩
  have hf := m4 m hm
  have sides : ∀ i, i < m.g.nv → m.p.lab i = 0 ∨ m.p.lab i = 1 := fun i hi => by
    have := hf.exact.complete i hi
    omega
  have htwo := hf.two
  constructor
  · intro i hi
    rcases sides i hi with h0 | h0
    · have := hf.left i hi h0
      omega
    · have := hf.right i hi h0
      omega
  · intro i j hi hj hne
    rcases sides i hi with h0 | h0 <;> rcases sides j hj with h1 | h1
    · omega
    · have := hf.left i hi h0
      have := hf.right j hj h1
      omega
    · have := hf.right i hi h0
      have := hf.left j hj h1
      omega
    · omega

/-- **C37, two parts.** With two parts the labels are those of a single result of the bisector, which got the target and
(given the laws of doubles) the maximum weights of the two parts unchanged. -/
theorem C37_two {bis : Bisector E}
    (hbis : ∀ bt g r p r', g.Good → bt.Two → nth bt.mx 0 < 2 ^ 32 → nth bt.mx 1 < 2 ^ 32 →
      bis bt g r = ok (p, r') → IsExact g 2 p)
    {t : Target E.fp} (hk : t.k = 2) (htw : t.tw.length = t.k) (hmx : t.mx.length = t.k)
    {g : Graph} (hg : g.Good) {r : E.rng.S} {p : Partitioning} {r' : E.rng.S} (h : rbExecute bis t g r = ok (p, r')) :
    ∃ bt q r1 r2, bis bt g r1 = ok (q, r2) ∧ bt.Two ∧ (∀ v, v < g.nv → p.lab v = q.lab v) ∧
      (∀ s, s < 2 → nth bt.tw s = nth t.tw s % 2 ^ 32) ∧
      (E.fp.RecursiveOK → WeightsFit NULL32 t.tw t.mx → ∀ s, s < 2 → nth bt.mx s = nth t.mx s) := by
  obtain ⟨-, h2⟩ := C36_recursive hbis (by omega) (by rw [hk]; norm_num) htw hmx hg h
  obtain ⟨bt, q, ⟨r1, r2, h3⟩, h4, h5, h6, h7⟩ := h2.two_parts (by rw [htw, hk])
  exact ⟨bt, q, r1, r2, h3, h4, fun v hv => (h5 v hv).symm, h6, h7⟩

/-- **C58, limits.** Each bisection made on the way to `k` parts gets limits that lie between the sum of the target
weights and the sum of the maximum weights of the parts of each half. -/
theorem C58_limits {bis : Bisector E} (hfp : E.fp.RecursiveOK)
    (hbis : ∀ bt g r p r', g.Good → bt.Two → nth bt.mx 0 < 2 ^ 32 → nth bt.mx 1 < 2 ^ 32 →
      bis bt g r = ok (p, r') → IsExact g 2 p)
    {t : Target E.fp} (hk : 2 ≤ t.k) (hk' : t.k < 2 ^ 32) (htw : t.tw.length = t.k) (hmx : t.mx.length = t.k)
    (hf : WeightsFit NULL32 t.tw t.mx) {g : Graph} (hg : g.Good) {r : E.rng.S} {p : Partitioning} {r' : E.rng.S}
    (h : rbExecute bis t g r = ok (p, r')) :
    ∃ made, RBMade (Yields bis) p.lab 0 (List.range g.nv) t.tw t.mx g made ∧ made.length = t.k - 1 ∧ ∀ m ∈ made,
      (m.tw.take (m.tw.length / 2)).sum ≤ nth m.bt.mx 0 ∧ nth m.bt.mx 0 ≤ (m.mx.take (m.tw.length / 2)).sum ∧
      (m.tw.drop (m.tw.length / 2)).sum ≤ nth m.bt.mx 1 ∧ nth m.bt.mx 1 ≤ (m.mx.drop (m.tw.length / 2)).sum := by
  obtain ⟨made, m1, m2, -, m4⟩ := rb_made hbis hk hk' htw hmx hg h
  refine ⟨made, m1, by omega, fun m hm => ?_⟩
  obtain ⟨f1, f2⟩ := m1.fit hf m hm
  have := m4 m hm
  exact this.target.limits hfp this.two (by omega) this.len f1

/-- **C58.** If every bisection made during a run stays within the limits it got, then every one of the `k` parts stays
within its maximum weight. -/
theorem C58_balanced {bis : Bisector E} (hfp : E.fp.RecursiveOK)
    (hbis : ∀ bt g r p r', g.Good → bt.Two → nth bt.mx 0 < 2 ^ 32 → nth bt.mx 1 < 2 ^ 32 →
      bis bt g r = ok (p, r') → IsExact g 2 p)
    {t : Target E.fp} (hk : 2 ≤ t.k) (hk' : t.k < 2 ^ 32) (htw : t.tw.length = t.k) (hmx : t.mx.length = t.k)
    (hf : WeightsFit NULL32 t.tw t.mx) {g : Graph} (hg : g.Good) {r : E.rng.S} {p : Partitioning} {r' : E.rng.S}
    (h : rbExecute bis t g r = ok (p, r')) :
    ∃ made, RBMade (Yields bis) p.lab 0 (List.range g.nv) t.tw t.mx g made ∧ made.length = t.k - 1 ∧
      ((∀ m ∈ made, Balanced m.g m.bt m.p.lab) → ∀ q, q < t.k → partWeight g p.lab q ≤ nth t.mx q) := by
  obtain ⟨made, m1, m2, -, m4⟩ := rb_made hbis hk hk' htw hmx hg h
  refine ⟨made, m1, by omega, fun hb => ?_⟩
  have h1 := (m1.tree hb).1.within hfp (by omega) (by omega) hf
  intro q hq
  refine le_trans (le_of_eq ?_) (h1 q (by omega))
  unfold partWeight
  refine sum_congr rfl fun v hv => ?_
  simp only [nth_range (mem_range.mp hv), Nat.sub_zero]

/-- **C59.** The cut that recursive bisection into `k` parts returns is the sum of the cuts of the `k - 1` bisections it
made, each reported by the bisector for the subgraph it split. -/
theorem C59_cut {bis : Bisector E}
    (hbis : ∀ bt g r p r', g.Good → bt.Two → nth bt.mx 0 < 2 ^ 32 → nth bt.mx 1 < 2 ^ 32 →
      bis bt g r = ok (p, r') → IsExact g 2 p)
    {t : Target E.fp} (hk : 2 ≤ t.k) (hk' : t.k < 2 ^ 32) (htw : t.tw.length = t.k) (hmx : t.mx.length = t.k)
    {g : Graph} (hg : g.Good) {r : E.rng.S} {p : Partitioning} {r' : E.rng.S} (h : rbExecute bis t g r = ok (p, r')) :
    ∃ made, RBMade (Yields bis) p.lab 0 (List.range g.nv) t.tw t.mx g made ∧ made.length = t.k - 1 ∧
      p.cut = (made.map fun m => m.p.cut).sum := by
  obtain ⟨made, m1, m2, m3, -⟩ := rb_made hbis hk hk' htw hmx hg h
  exact ⟨made, m1, by omega, m3⟩

/-- The hypotheses are met: the run of the multilevel bisector on `tri2` above made two bisections, and the cut 10 it
returned is the sum of theirs. -/
example : ∃ p r', rbExecute (E := Concrete.env) (makeMultilevel Concrete.env .sortedHeavyEdge).execute thirds Ex.tri2 () = ok (p, r') ∧
    p.asg = [0, 0, 1, 1, 2, 2] ∧ ∃ made, RBMade (Yields (E := Concrete.env) (makeMultilevel Concrete.env .sortedHeavyEdge).execute)
      p.lab 0 (List.range 6) thirds.tw thirds.mx Ex.tri2 made ∧ made.length = 2 ∧ 10 = (made.map fun m => m.p.cut).sum := by
  have h : (rbExecute (E := Concrete.env) (makeMultilevel Concrete.env .sortedHeavyEdge).execute thirds Ex.tri2 ()).value =
      ok { cut := 10, pw := [3, 4, 2], asg := [0, 0, 1, 1, 2, 2] } := by decide +kernel
  cases hr : rbExecute (E := Concrete.env) (makeMultilevel Concrete.env .sortedHeavyEdge).execute thirds Ex.tri2 () with
  | ok o =>
    rw [hr] at h
    simp only [Res.value, ok_bind, Res.ok.injEq] at h
    obtain ⟨made, h1, h2, h3⟩ := C59_cut (E := Concrete.env) (bis := (makeMultilevel Concrete.env .sortedHeavyEdge).execute)
      (fun bt g r p r' hg hb _ _ => (C35_multilevel .sortedHeavyEdge hb hg r).1 p r') (t := thirds) (by decide) (by decide)
      rfl rfl Ex.tri2_good (p := o.1) (r' := o.2) hr
    refine ⟨o.1, o.2, rfl, by rw [h], made, h1, h2, ?_⟩
    rw [← h3, h]
  | ub => rw [hr] at h; cases h
  | exn => rw [hr] at h; cases h
  | diverge => rw [hr] at h; cases h

end Poros
