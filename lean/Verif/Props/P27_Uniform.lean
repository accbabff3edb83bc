import Verif.Proofs.EqualHalves
import Verif.ExamplesApi
import Verif.Props.P72_Hierarchy
/-
C27, C33 and C56 for the uniform target of two parts, in binary64: the hypothesis that limits and fractions agree holds,
for every total weight and tolerance. For other targets it may fail through rounding.
-/
namespace Poros
open Finset Res Concrete

variable {pq : PQImpl} {set : SetImpl} {rng : RngImpl}

theorem Graph.Good.tot_lt {g : Graph} (hg : g.Good) : g.totVtx < 4294967296 := by
  rw [hg.tot]; exact hg.small.vtx

/-- **C27, uniform target.** For the uniform target of two parts, with any tolerance, refining a bisection within the limits
gives a bisection within the limits whose cut is not larger, and refining any other one gives one within the limits or one
whose imbalance is not larger. -/
theorem C27_uniform [Concrete.Log2Impl] {g : Graph} (hg : g.Good) {tol : Concrete.fp.F} {t : Target Concrete.fp}
    (ht : Target.uniform (fp := Concrete.fp) 2 g.totVtx tol = ok t) (maxIters maxMoves : Nat) {p : Partitioning}
    {c : Conn set} (hp : IsExact g 2 p) (hc : ConnExact g p.lab c) {r : Partitioning × Conn set}
    (hr : fmRefine (E := dblEnv pq set rng) g t maxIters maxMoves p c = ok r) :
    (Balanced g t p.lab → Balanced g t r.1.lab ∧ r.1.cut ≤ p.cut) ∧
    (Balanced g t r.1.lab ∨ r.1.lab = p.lab ∨
      Concrete.fp.le (maxImbalance g t r.1.lab) (maxImbalance g t p.lab) = true) := by
  have hn := hg.tot_lt
  obtain ⟨M, hs⟩ := SameTwo.uniform (by omega) ht
  exact C27_fm_never_worse (E := dblEnv pq set rng) hg hs.two (hs.consistent hn) maxIters maxMoves hp hc hr

/-- **C33, uniform target.** For the uniform target of two parts, repeated bisection by a bisector with exact results
returns, if any of its candidates is within the limits, one that is within the limits and has the smallest cut of those. -/
theorem C33_uniform [Concrete.Log2Impl] {g : Graph} (hg : g.Good) {tol : Concrete.fp.F} {t : Target Concrete.fp}
    (ht : Target.uniform (fp := Concrete.fp) 2 g.totVtx tol = ok t) {bis : Bisector (dblEnv pq set rng)}
    (hbis : ∀ r p r', bis t g r = ok (p, r') → IsExact g 2 p) {n : Nat} (hn : 0 < n) {r : rng.S} {p : Partitioning}
    {r' : rng.S} (h : multiBisect n bis t g r = ok (p, r')) {ps : List Partitioning} {r2 : rng.S}
    (hc : candidates bis t g n r = ok (ps, r2)) {l : Nat} (hl : l < n) (hb : Balanced g t (nth ps l).lab) :
    Balanced g t p.lab ∧ p.cut ≤ (nth ps l).cut := by
  have hlt := hg.tot_lt
  obtain ⟨M, hs⟩ := SameTwo.uniform (by omega) ht
  exact C33_best (E := dblEnv pq set rng) hs.two (hs.separates hg.tot hlt) hbis hn h hc hl hb

theorem IsContraction.cut {g : Graph} {cmap : Nat → Nat} {cg : Graph} (h : IsContraction g cmap cg) (hs : g.Symm)
    {lab0 clab : Nat → Nat} (hl : ∀ v, v < g.nv → lab0 v = clab (cmap v)) : cutWeight g lab0 = cutWeight cg clab := by
  rw [cutWeight_congr hl]
  have hcs : cg.Symm := by
    intro c d hc hd
    by_cases hcd : c = d
    · rw [hcd]
    · rw [h.wt c d hc hd hcd, h.wt d c hd hc (Ne.symm hcd), between_symm hs]
  have h1 := sum_external hcs clab
  have h2 := sum_external hs (fun v => clab (cmap v))
  have : ∑ v ∈ range cg.nv, externalWeight cg clab v =
      ∑ v ∈ range g.nv, externalWeight g (fun v => clab (cmap v)) v := by
    unfold externalWeight
    rw [← sum_between h.lt (fun c d => clab d ≠ clab c)]
    refine sum_congr rfl fun c hc => sum_congr rfl fun d hd => ?_
    by_cases hl : clab d = clab c
    · simp [hl]
    · have : c ≠ d := by rintro rfl; exact hl rfl
      rw [if_pos hl, if_pos hl, h.wt c d (mem_range.mp hc) (mem_range.mp hd) this]
  omega

theorem IsContraction.symm {g : Graph} {cmap : Nat → Nat} {cg : Graph} (h : IsContraction g cmap cg) (hs : g.Symm) :
    cg.Symm := by
  intro c d hc hd
  by_cases hcd : c = d
  · rw [hcd]
  · rw [h.wt c d hc hd hcd, h.wt d c hd hc (Ne.symm hcd), between_symm hs]

/-- What the initial bisection achieves is kept on the way up. -/
theorem MLRun.keepsFirst {E : Env} {s : Scheme} {t : Target E.fp} {maxW : Nat}
    {init : Graph → E.rng.S → (Nat → Nat) → E.rng.S → Prop} {parent : Option Graph} {g : Graph} {r : E.rng.S}
    {lab : Nat → Nat} {r' : E.rng.S} {hier : List Graph} (h : MLRun E s t maxW init parent g r lab r' hier)
    {W : Nat} (hW : W < 4294967296) (hcons : Consistent t W)
    (hinit : ∀ (g : Graph) r lab r', g.WF → init g r lab r' → ∀ v, v < g.nv → lab v < 2) :
    g.WF → g.Symm → g.sumVtx = W →
    ∃ cg r0 lab0 r1,
      MLRun E s t maxW (fun g' x l x' => init g' x l x' ∧ g' = cg ∧ x = r0 ∧ l = lab0 ∧ x' = r1) parent g r lab r' hier ∧
      (∀ v, v < g.nv → lab v < 2) ∧
      (Balanced cg t lab0 → Balanced g t lab ∧ cutWeight g lab ≤ cutWeight cg lab0) := by
  induction h with
  | @coarsest parent g r lab r' hc hi =>
    intro hwf _ _
    exact ⟨g, r, lab, r', .coarsest hc ⟨hi, rfl, rfl, rfl, rfl⟩, hinit _ _ _ _ hwf hi, fun hb => ⟨hb, le_refl _⟩⟩
  | @level parent g r cmap cg clab r' hier lab0 lab hc hco _ hdown href ih =>
    intro hwf hsy hs
    obtain ⟨cg0, r0, l0, r1, h1, h2, h3⟩ := ih hco.1.valid (hco.1.symm hsy) (by rw [hco.1.sumVtx, hs])
    have htot : g.totVtx = g.sumVtx := hwf.totVtx_eq (by omega)
    have hcons' : Consistent t g.totVtx := by rw [htot, hs]; exact hcons
    have h02 : ∀ v, v < g.nv → lab0 v < 2 := fun v hv => by rw [hdown v hv]; exact h2 _ (hco.1.lt v hv)
    obtain ⟨k1, k2, k3⟩ := href.keeps
      (Q := fun x => (∀ v, v < g.nv → x v < 2) ∧
        (Balanced cg0 t l0 → Balanced g t x ∧ cutWeight g x ≤ cutWeight cg0 l0))
      (fun x y hy himp hx => ⟨hy, fun hb => by
        obtain ⟨b1, b2⟩ := hx.2 hb
        obtain ⟨c1, c2⟩ := (hcons'.step htot hx.1 hy himp).1 b1
        exact ⟨c1, by omega⟩⟩) h02
      ⟨h02, fun hb => by
        obtain ⟨b1, b2⟩ := h3 hb
        refine ⟨fun q hq => ?_, ?_⟩
        · rw [hco.1.partWeight hdown q]; exact b1 q hq
        · rw [hco.1.cut hsy hdown]; exact b2⟩
    exact ⟨cg0, r0, l0, r1, .level hc hco h1 hdown href, k1, k3⟩

/-- **C56.** If limits and fractions of the target agree, multilevel bisection keeps what the initial bisection of its
coarsest graph achieves: if that is within the limits then so is the result, and its cut is not larger. -/
theorem C56_run [Concrete.Log2Impl] (s : Scheme) {g : Graph} (hg : g.Good) {t : Target Concrete.fp} (ht : t.Two)
    (hcons : Consistent t g.totVtx) {r : rng.S} {p : Partitioning} {r' : rng.S}
    (h : (makeMultilevel (dblEnv pq set rng) s).execute t g r = ok (p, r')) :
    ∃ (cg : Graph) (r0 : rng.S) (lab0 : Nat → Nat) (r1 : rng.S),
      MLBisectedFrom (dblEnv pq set rng) s t g r p.lab r' cg r0 lab0 r1 ∧
      (Balanced cg t lab0 → Balanced g t p.lab ∧ p.cut ≤ cutWeight cg lab0) := by
  obtain ⟨hier, hrun⟩ := (C72_multilevel_run (pq := pq) (set := set) s ht hg r).1 p r' h
  have hlt := hg.tot_lt
  obtain ⟨cg, r0, lab0, r1, h1, -, h3⟩ := MLRun.keepsFirst (E := dblEnv pq set rng) hrun (W := g.totVtx) hlt hcons
    (fun g' x l x' hwf hs => by
      obtain ⟨seed, hgr⟩ := hs.grown
      exact (hgr.weights_any (M := g'.sumVtx) fun v hv =>
        Finset.single_le_sum (f := g'.vw) (fun _ _ => Nat.zero_le _) (mem_range.mpr hv)).1)
    hg.wf hg.symm hg.tot.symm
  rw [((C35_multilevel (E := dblEnv pq set rng) s ht hg r).1 p r' h).cut_eq]
  exact ⟨cg, r0, lab0, r1, ⟨hier, h1⟩, h3⟩

/-- **C56, uniform target.** For the uniform target of two parts and for the target that recursive bisection makes of it,
multilevel bisection keeps what the initial bisection of the coarsest graph achieves. -/
theorem C56_uniform [Concrete.Log2Impl] (s : Scheme) {g : Graph} (hg : g.Good) {tol : Concrete.fp.F}
    {t bt : Target Concrete.fp} (ht : Target.uniform (fp := Concrete.fp) 2 g.totVtx tol = ok t)
    (hbt : bt = t ∨ (2 ≤ g.totVtx ∧ IsHalvesTarget t.tw t.mx bt)) {r : rng.S} {p : Partitioning} {r' : rng.S}
    (h : (makeMultilevel (dblEnv pq set rng) s).execute bt g r = ok (p, r')) :
    ∃ (cg : Graph) (r0 : rng.S) (lab0 : Nat → Nat) (r1 : rng.S),
      MLBisectedFrom (dblEnv pq set rng) s bt g r p.lab r' cg r0 lab0 r1 ∧
      (Balanced cg bt lab0 → Balanced g bt p.lab ∧ p.cut ≤ cutWeight cg lab0) := by
  have hn := hg.tot_lt
  have key : ∃ q M, SameTwo bt q M := by
    rcases hbt with rfl | ⟨h2, hh⟩
    · obtain ⟨M, hs⟩ := SameTwo.uniform (by omega) ht
      exact ⟨_, M, hs⟩
    · obtain ⟨M, he⟩ := evenTwo (by omega) ht
      rw [he.tw, he.mx] at hh
      exact SameTwo.halves (by omega) (by omega) hh
  obtain ⟨q, M, hs⟩ := key
  exact C56_run s hg hs.two (hs.consistent hn) h

/-! ### Other targets -/

/-- A target is known once its weights are. -/
theorem ofFractions_numbers {fp : FP} {k tot : Nat} {tol : fp.F} {fr : List fp.F} {tw mx : List Nat}
    (e : numbersOf' (Target.ofFractions k tot tol fr) = ok (k, tw, mx)) :
    Target.ofFractions k tot tol fr = ok { k := k, frac := fr.take k, tw := tw, mx := mx } := by
  revert e
  unfold numbersOf'
  cases hq : Target.ofFractions k tot tol fr with
  | ok t =>
    intro e
    obtain ⟨-, -, hf, -⟩ := ofFractions_shape hq
    have e := Res.ok.inj e
    obtain ⟨k', frac, tw', mx'⟩ := t
    simp only [Prod.mk.injEq] at e hf
    rw [e.1, e.2.1, e.2.2, hf]
  | ub => intro e; cases e
  | exn => intro e; cases e
  | diverge => intro e; cases e

namespace Ex

/-- Four vertices in a path, of weights 3, 6, 11 and 10; the edges weigh 1, 5 and 9. -/
def chain4 : Graph :=
  { unitEdge := false, unitVtx := false, nv := 4, ne := 6, totVtx := 30, totEdge := 30,
    xadj := [0, 1, 3, 5, 6], adjncy := [1, 0, 2, 1, 3, 2], vwgt := [3, 6, 11, 10], adjwgt := [1, 1, 5, 5, 9, 9] }

theorem chain4_good : chain4.Good :=
  ⟨by constructor <;> decide +kernel, Graph.symm_of (by decide +kernel), by unfold Graph.NoLoop; decide +kernel,
    by constructor <;> decide +kernel⟩

/-- A quarter and three quarters of 30 with tolerance 0.2. -/
def quarter : Res (Target Concrete.fp) :=
  Target.ofFractions (fp := Concrete.fp) 2 30 (Concrete.fp.lit 2 1) [Concrete.fp.lit 25 2, Concrete.fp.lit 75 2]

/-- The first two vertices against the others. -/
def split9 : Partitioning := { cut := 5, pw := [9, 21], asg := [0, 0, 1, 1] }

end Ex

/-- **C27, other targets.** For other targets made by the library the limits and the imbalance may disagree by rounding,
and refinement may then leave the limits: three quarters of 30 with tolerance 0.2 is 27, but the computed limit is 26; the
bisection into 9 and 21 is within the limits, its computed imbalance is that of 3 and 27, and refinement goes there. -/
theorem C27_rounding : Ex.chain4.Good ∧ IsExact Ex.chain4 2 Ex.split9 ∧
    ∃ t : Target Concrete.fp, Ex.quarter = ok t ∧ t.mx = [9, 26] ∧ Balanced Ex.chain4 t Ex.split9.lab ∧
      ∃ r : Partitioning, (do
        let c ← Conn.fromPartitioning Concrete.env.set Ex.chain4 Ex.split9
        let r ← fmRefine (E := Concrete.env) Ex.chain4 t 8 150 Ex.split9 c
        (.ok r.1 : Res Partitioning)) = ok r ∧ r.pw = [3, 27] ∧ ¬ Balanced Ex.chain4 t r.lab := by
  refine ⟨Ex.chain4_good, by constructor <;> decide +kernel, ?_⟩
  refine ⟨{ k := 2, frac := [Concrete.fp.lit 25 2, Concrete.fp.lit 75 2], tw := [7, 22], mx := [9, 26] }, ?_, rfl,
    by decide +kernel, { cut := 1, pw := [3, 27], asg := [0, 1, 1, 1] }, by decide +kernel, rfl, by decide +kernel⟩
  exact ofFractions_numbers (by decide +kernel)

theorem half_lit : (List.replicate 2 (Concrete.fp.div (Concrete.fp.lit 1 0) (Concrete.fp.ofNat 2))).take 2 =
    [Concrete.fp.lit 5 1, Concrete.fp.lit 5 1] := by
  rw [half_fin, show Concrete.fp.lit 5 1 = F64.fin (1 / 2) from
    (show rnd (5 / 10) = F64.fin (1 / 2) by decide +kernel)]
  rfl

/-- The hypotheses of the three theorems about the uniform target are met: refinement of a balanced bisection of `tri2`,
repeated bisection of `tri2` and multilevel bisection of a path of 22 vertices. -/
example : (∃ t : Target Concrete.fp, Target.uniform (fp := Concrete.fp) 2 Ex.tri2.totVtx (Concrete.fp.lit 2 1) = ok t ∧
      IsExact Ex.tri2 2 okPart ∧ Balanced Ex.tri2 t okPart.lab ∧ (do
        let c ← Conn.fromPartitioning Concrete.env.set Ex.tri2 okPart
        let r ← fmRefine (E := Concrete.env) Ex.tri2 t 8 150 okPart c
        (.ok r.1.cut : Res Nat)) = ok 1 ∧
      (candidates (E := Concrete.env) bfsBisect t Ex.tri2 8 ()).value =
        ok (List.replicate 8 { cut := 1, pw := [4, 5], asg := [0, 0, 0, 1, 1, 1] })) ∧
    Target.uniform (fp := Concrete.fp) 2 path22.totVtx (Concrete.fp.lit 3 2) = ok halves22 ∧
    ((makeMultilevel Concrete.env .sortedHeavyEdge).execute halves22 path22 ()).value =
      ok { cut := 1, pw := [22, 22], asg := List.replicate 11 0 ++ List.replicate 11 1 } := by
  refine ⟨⟨{ k := 2, frac := [Concrete.fp.lit 5 1, Concrete.fp.lit 5 1], tw := [4, 4], mx := [5, 5] }, ?_,
    by constructor <;> decide +kernel, by decide +kernel, by decide +kernel, by decide +kernel⟩, ?_, by decide +kernel⟩
  · refine (ofFractions_numbers (tw := [4, 4]) (mx := [5, 5]) (by decide +kernel)).trans ?_
    exact congrArg (fun f : List F64 => ok (α := Target Concrete.fp) { k := 2, frac := f, tw := [4, 4], mx := [5, 5] })
      half_lit
  · refine (ofFractions_numbers (tw := [22, 22]) (mx := [22, 22]) (by decide +kernel)).trans ?_
    exact congrArg (fun f : List F64 => ok (α := Target Concrete.fp) { k := 2, frac := f, tw := [22, 22], mx := [22, 22] })
      half_lit

end Poros
