import Verif.Proofs.RB
import Verif.Proofs.BFS
import Verif.Proofs.F64Laws
/-
Recursive bisection: the whole run, the cut, binary64.
-/
namespace Poros
open Finset Res

variable {E : Env}

section
variable {fp : FP} {R : Target fp → Graph → Partitioning → Prop} {tw mx : List Nat} {g : Graph} {lab : Nat → Nat}

theorem RBTree.congr (h : RBTree R tw mx g lab) {lab' : Nat → Nat} (he : ∀ v, v < g.nv → lab' v = lab v) :
    RBTree R tw mx g lab' := by
  cases h with
  | leaf hk hm h => exact RBTree.leaf hk hm fun v hv => by rw [he v hv, h v hv]
  | node hk hm hbt hR hp hL hRt treeL treeR labelsL labelsR =>
    exact RBTree.node hk hm hbt hR hp hL hRt treeL treeR
      (fun i hi => by rw [he _ (hL.vert hi).1, labelsL i hi]) (fun i hi => by rw [he _ (hRt.vert hi).1, labelsR i hi])

/-- The cut of a two-level partition is the cut of the bisection plus the cuts inside the sides. -/
theorem cut_sides {g sL sR : Graph} (hg : g.WF) (hs : g.Symm) {p : Nat → Nat} {lab labL labR : Nat → Nat} {m : Nat}
    (h2 : ∀ v, v < g.nv → p v < 2) (hL : IsInduced g p 0 sL) (hR : IsInduced g p 1 sR)
    (hltL : ∀ i, i < sL.nv → labL i < m)
    (labelsL : ∀ i, i < sL.nv → lab (nth (vertsOf g p 0) i) = labL i)
    (labelsR : ∀ i, i < sR.nv → lab (nth (vertsOf g p 1) i) = m + labR i) :
    cutWeight g lab = cutWeight g p + cutWeight sL labL + cutWeight sR labR := by
  have key : ∀ F : Nat → Nat → Nat, ∑ v ∈ range g.nv, ∑ u ∈ range g.nv, F v u =
      ((∑ i ∈ range sL.nv, ∑ j ∈ range sL.nv, F (nth (vertsOf g p 0) i) (nth (vertsOf g p 0) j)) +
        ∑ i ∈ range sL.nv, ∑ j ∈ range sR.nv, F (nth (vertsOf g p 0) i) (nth (vertsOf g p 1) j)) +
      ((∑ i ∈ range sR.nv, ∑ j ∈ range sL.nv, F (nth (vertsOf g p 1) i) (nth (vertsOf g p 0) j)) +
        ∑ i ∈ range sR.nv, ∑ j ∈ range sR.nv, F (nth (vertsOf g p 1) i) (nth (vertsOf g p 1) j)) := by
    intro F
    rw [sum_sides h2 hL hR (fun v => ∑ u ∈ range g.nv, F v u)]
    simp only [sum_sides h2 hL hR (fun u => F _ u), sum_add_distrib]
  have e1 := sum_external hs lab
  have e2 := sum_external hs p
  have e3 := sum_external (hL.symm hg hs) labL
  have e4 := sum_external (hR.symm hg hs) labR
  unfold externalWeight at e1 e2 e3 e4
  rw [key] at e1 e2
  have a0 : ∀ i, i < sL.nv → p (nth (vertsOf g p 0) i) = 0 := fun i hi => (hL.vert hi).2
  have a1 : ∀ i, i < sR.nv → p (nth (vertsOf g p 1) i) = 1 := fun i hi => (hR.vert hi).2
  -- inside the left side
  have l1 : (∑ i ∈ range sL.nv, ∑ j ∈ range sL.nv,
      if lab (nth (vertsOf g p 0) j) ≠ lab (nth (vertsOf g p 0) i) then
        g.wt (nth (vertsOf g p 0) i) (nth (vertsOf g p 0) j) else 0) =
      ∑ v ∈ range sL.nv, ∑ u ∈ range sL.nv, if labL u ≠ labL v then sL.wt v u else 0 := by
    refine sum_congr rfl fun i hi => sum_congr rfl fun j hj => ?_
    rw [labelsL i (mem_range.mp hi), labelsL j (mem_range.mp hj), hL.wt hg (mem_range.mp hi) (mem_range.mp hj)]
  have l2 : (∑ i ∈ range sL.nv, ∑ j ∈ range sL.nv,
      if p (nth (vertsOf g p 0) j) ≠ p (nth (vertsOf g p 0) i) then
        g.wt (nth (vertsOf g p 0) i) (nth (vertsOf g p 0) j) else 0) = 0 := by
    refine sum_eq_zero fun i hi => sum_eq_zero fun j hj => ?_
    rw [a0 i (mem_range.mp hi), a0 j (mem_range.mp hj)]; simp
  -- inside the right side
  have r1 : (∑ i ∈ range sR.nv, ∑ j ∈ range sR.nv,
      if lab (nth (vertsOf g p 1) j) ≠ lab (nth (vertsOf g p 1) i) then
        g.wt (nth (vertsOf g p 1) i) (nth (vertsOf g p 1) j) else 0) =
      ∑ v ∈ range sR.nv, ∑ u ∈ range sR.nv, if labR u ≠ labR v then sR.wt v u else 0 := by
    refine sum_congr rfl fun i hi => sum_congr rfl fun j hj => ?_
    rw [labelsR i (mem_range.mp hi), labelsR j (mem_range.mp hj), hR.wt hg (mem_range.mp hi) (mem_range.mp hj)]
    simp
  have r2 : (∑ i ∈ range sR.nv, ∑ j ∈ range sR.nv,
      if p (nth (vertsOf g p 1) j) ≠ p (nth (vertsOf g p 1) i) then
        g.wt (nth (vertsOf g p 1) i) (nth (vertsOf g p 1) j) else 0) = 0 := by
    refine sum_eq_zero fun i hi => sum_eq_zero fun j hj => ?_
    rw [a1 i (mem_range.mp hi), a1 j (mem_range.mp hj)]; simp
  -- across
  have c1 : (∑ i ∈ range sL.nv, ∑ j ∈ range sR.nv,
      if lab (nth (vertsOf g p 1) j) ≠ lab (nth (vertsOf g p 0) i) then
        g.wt (nth (vertsOf g p 0) i) (nth (vertsOf g p 1) j) else 0) =
      ∑ i ∈ range sL.nv, ∑ j ∈ range sR.nv,
      if p (nth (vertsOf g p 1) j) ≠ p (nth (vertsOf g p 0) i) then
        g.wt (nth (vertsOf g p 0) i) (nth (vertsOf g p 1) j) else 0 := by
    refine sum_congr rfl fun i hi => sum_congr rfl fun j hj => ?_
    have := hltL i (mem_range.mp hi)
    rw [a0 i (mem_range.mp hi), a1 j (mem_range.mp hj), labelsL i (mem_range.mp hi), labelsR j (mem_range.mp hj),
      if_pos (by omega), if_pos (by omega)]
  have c2 : (∑ i ∈ range sR.nv, ∑ j ∈ range sL.nv,
      if lab (nth (vertsOf g p 0) j) ≠ lab (nth (vertsOf g p 1) i) then
        g.wt (nth (vertsOf g p 1) i) (nth (vertsOf g p 0) j) else 0) =
      ∑ i ∈ range sR.nv, ∑ j ∈ range sL.nv,
      if p (nth (vertsOf g p 0) j) ≠ p (nth (vertsOf g p 1) i) then
        g.wt (nth (vertsOf g p 1) i) (nth (vertsOf g p 0) j) else 0 := by
    refine sum_congr rfl fun i hi => sum_congr rfl fun j hj => ?_
    have := hltL j (mem_range.mp hj)
    rw [a1 i (mem_range.mp hi), a0 j (mem_range.mp hj), labelsR i (mem_range.mp hi), labelsL j (mem_range.mp hj),
      if_pos (by omega), if_pos (by omega)]
  rw [l1, c1, c2, r1, e3, e4] at e1
  rw [l2, r2] at e2
  omega

end

section
variable {bu be bd : Prop}

theorem RBRun.congr {S : Type} {R : Target E.fp → Graph → S → (Nat → Nat) → S → Prop} {tw mx : List Nat} {g : Graph}
    {r r' : S} {lab : Nat → Nat} (h : RBRun R tw mx g r lab r') {lab' : Nat → Nat}
    (he : ∀ v, v < g.nv → lab' v = lab v) : RBRun R tw mx g r lab' r' := by
  cases h with
  | leaf hk hm h => exact RBRun.leaf hk hm fun v hv => by rw [he v hv, h v hv]
  | node hk hm hbt hR hp hL hRt treeL treeR labelsL labelsR =>
    exact RBRun.node hk hm hbt hR hp hL hRt treeL treeR
      (fun i hi => by rw [he _ (hL.vert hi).1, labelsL i hi]) (fun i hi => by rw [he _ (hRt.vert hi).1, labelsR i hi])

theorem RBRun.lt {S : Type} {R : Target E.fp → Graph → S → (Nat → Nat) → S → Prop} {tw mx : List Nat} {g : Graph}
    {r r' : S} {lab : Nat → Nat} (h : RBRun R tw mx g r lab r') : ∀ v, v < g.nv → lab v < tw.length := by
  induction h with
  | leaf hk hm h => intro v hv; rw [h v hv]; omega
  | @node tw mx g lab bt p sL sR labL labR _ _ _ _ hk hm hbt hR hp hL hRt treeL treeR labelsL labelsR ihL ihR =>
    intro v hv
    have h2 := hp v hv
    rcases (show p v = 0 ∨ p v = 1 by omega) with h0 | h1
    · obtain ⟨i, hi, rfl⟩ := hL.index hv h0
      rw [labelsL i hi]
      have := ihL i hi
      simp at this
      omega
    · obtain ⟨i, hi, rfl⟩ := hRt.index hv h1
      rw [labelsR i hi]
      have := ihR i hi
      simp at this
      omega

theorem RBRun.mono {S : Type} {R R' : Target E.fp → Graph → S → (Nat → Nat) → S → Prop}
    (hR : ∀ bt g r side r', R bt g r side r' → R' bt g r side r') {tw mx : List Nat} {g : Graph}
    {r r' : S} {lab : Nat → Nat} (h : RBRun R tw mx g r lab r') : RBRun R' tw mx g r lab r' := by
  induction h with
  | leaf hk hm h => exact .leaf hk hm h
  | node hk hm hbt h1 hp hL hRt _ _ lL lR iL iR => exact .node hk hm hbt (hR _ _ _ _ _ h1) hp hL hRt iL iR lL lR

/-- The whole run, with an invariant of the graphs that are bisected. -/
theorem rbExecute_inv {bis : Bisector E} {R : Target E.fp → Graph → E.rng.S → (Nat → Nat) → E.rng.S → Prop} {S M : Nat} (hM : M < M32)
    (I : List Nat → List Nat → Graph → Prop)
    (hI : ∀ tw mx bt g r lab r' labels sub, g.Good → I tw mx g → IsHalvesTarget tw mx bt → R bt g r lab r' →
      (2 ≤ (tw.take (tw.length / 2)).length → SubOK g lab labels 0 sub →
        I (tw.take (tw.length / 2)) (mx.take (tw.length / 2)) sub.graph) ∧
      (2 ≤ (tw.drop (tw.length / 2)).length → SubOK g lab labels 1 sub →
        I (tw.drop (tw.length / 2)) (mx.drop (tw.length / 2)) sub.graph))
    (hbis : ∀ tw mx bt g r, I tw mx g → IsHalvesTarget tw mx bt → g.Good → g.sumVtx ≤ S → bt.Two → nth bt.mx 0 ≤ M → nth bt.mx 1 ≤ M →
      Wp bu be bd (bis bt g r) (fun o => IsExact g 2 o.1 ∧ R bt g r o.1.lab o.2))
    {t : Target E.fp} (hk : 2 ≤ t.k) (hk' : t.k < M32) (htw : t.tw.length = t.k) (hmx : t.mx.length = t.k)
    (hfp : (E.fp.RecursiveOK ∧ WeightsFit M t.tw t.mx) ∨ (bu ∧ M = NULL32)) {g : Graph} (hi : I t.tw t.mx g) (hg : g.Good)
    (hS : g.sumVtx ≤ S) (r : E.rng.S) :
    Wp bu be bd (rbExecute bis t g r) (fun o => IsExact g t.k o.1 ∧ RBRun R t.tw t.mx g r o.1.lab o.2) := by
  unfold rbExecute
  refine (rbRecurse_inv hM I hI hbis t.k t ⟨none, g⟩ 0 (Mem.alloc g.nv, r) hk (le_refl _) (by omega) htw hmx hfp hi hg hS
    ⟨fun l h => (nomatch h), fun v hv => by simpa [superOf, Mem.alloc] using hv,
      fun u v _ _ h => h⟩).bind fun o ho => ?_
  obtain ⟨lab, htree, w⟩ := ho
  have hlen : o.1.length = g.nv := by rw [w.len]; simp [Mem.alloc]
  have hv : ∀ v, v < g.nv → nth o.1 v = some (lab v) := by
    intro v hv
    have := w.vals v (List.mem_range.mpr hv)
    simpa [superOf] using this
  rw [freeze_spec lab hlen hv, ok_bind]
  have hn : ∀ v, v < g.nv → nth ((List.range g.nv).map lab) v = lab v := fun v hv => by
    rw [nth_map (by simpa using hv), nth_range hv]
  have hlt := htree.lt
  rw [htw] at hlt
  refine (Wp.of_sat (ofLabels_exact hg.wf hg.symm hg.small (k := t.k) (labels := (List.range g.nv).map lab)
    (by simp) (fun v hv => by rw [hn v hv]; exact hlt v hv))).bind fun p hp => ?_
  refine (Wp.of_sat (hp.2.weighed.recalcCut hg.wf hg.symm hg.small)).bind fun p' hp' => ?_
  refine ⟨hp'.1, htree.congr fun v hv => ?_⟩
  unfold Partitioning.lab
  rw [hp'.2, hp.1, hn v hv]

/-- The same for any class of graphs; then nothing is said of the weights and the cut. -/
theorem rbExecute_gen {G : Graph → Prop} (hG : PartClosed G) {bis : Bisector E} {R : Target E.fp → Graph → E.rng.S → (Nat → Nat) → E.rng.S → Prop} {S M : Nat} (hM : M < M32)
    (I : List Nat → List Nat → Graph → Prop)
    (hI : ∀ tw mx bt g r lab r' labels sub, G g → I tw mx g → IsHalvesTarget tw mx bt → R bt g r lab r' →
      (2 ≤ (tw.take (tw.length / 2)).length → SubOK g lab labels 0 sub →
        I (tw.take (tw.length / 2)) (mx.take (tw.length / 2)) sub.graph) ∧
      (2 ≤ (tw.drop (tw.length / 2)).length → SubOK g lab labels 1 sub →
        I (tw.drop (tw.length / 2)) (mx.drop (tw.length / 2)) sub.graph))
    (hbis : ∀ tw mx bt g r, I tw mx g → IsHalvesTarget tw mx bt → G g → g.sumVtx ≤ S → bt.Two → nth bt.mx 0 ≤ M → nth bt.mx 1 ≤ M →
      Wp bu be bd (bis bt g r) (fun o => Sides g o.1 ∧ R bt g r o.1.lab o.2))
    {t : Target E.fp} (hk : 2 ≤ t.k) (hk' : t.k < M32) (htw : t.tw.length = t.k) (hmx : t.mx.length = t.k)
    (hfp : (E.fp.RecursiveOK ∧ WeightsFit M t.tw t.mx) ∨ (bu ∧ M = NULL32)) {g : Graph} (hi : I t.tw t.mx g) (hg : G g)
    (hS : g.sumVtx ≤ S) (r : E.rng.S) :
    Wp bu be bd (rbExecute bis t g r) (fun o => o.1.asg.length = g.nv ∧ RBRun R t.tw t.mx g r o.1.lab o.2) := by
  unfold rbExecute
  refine (rbRecurse_gen hG hM I hI hbis t.k t ⟨none, g⟩ 0 (Mem.alloc g.nv, r) hk (le_refl _) (by omega) htw hmx hfp hi hg hS
    ⟨fun l h => (nomatch h), fun v hv => by simpa [superOf, Mem.alloc] using hv,
      fun u v _ _ h => h⟩).bind fun o ho => ?_
  obtain ⟨lab, htree, w⟩ := ho
  have hlen : o.1.length = g.nv := by rw [w.len]; simp [Mem.alloc]
  have hv : ∀ v, v < g.nv → nth o.1 v = some (lab v) := by
    intro v hv
    have := w.vals v (List.mem_range.mpr hv)
    simpa [superOf] using this
  rw [freeze_spec lab hlen hv, ok_bind]
  have hn : ∀ v, v < g.nv → nth ((List.range g.nv).map lab) v = lab v := fun v hv => by
    rw [nth_map (by simpa using hv), nth_range hv]
  have hlt := htree.lt
  rw [htw] at hlt
  refine (Wp.of_sat (ofLabels_spec (hG.wf _ hg) (k := t.k) (labels := (List.range g.nv).map lab)
    (by simp) (fun v hv => by rw [hn v hv]; exact hlt v hv))).bind fun p hp => ?_
  have hpl : p.asg.length = g.nv := by rw [hp.1]; simp
  unfold Partitioning.recalcCut
  rw [sumCut_eq (hG.wf _ hg) hpl, ok_bind, ok_bind]
  refine ⟨hpl, htree.congr fun v hv => ?_⟩
  show nth p.asg v = _
  rw [hp.1]
  exact hn v hv

/-- The whole run. -/
theorem rbExecute_run {bis : Bisector E} {R : Target E.fp → Graph → E.rng.S → (Nat → Nat) → E.rng.S → Prop} {S M : Nat} (hM : M < M32)
    (hbis : ∀ bt g r, g.Good → g.sumVtx ≤ S → bt.Two → nth bt.mx 0 ≤ M → nth bt.mx 1 ≤ M →
      Wp bu be bd (bis bt g r) (fun o => IsExact g 2 o.1 ∧ R bt g r o.1.lab o.2))
    {t : Target E.fp} (hk : 2 ≤ t.k) (hk' : t.k < M32) (htw : t.tw.length = t.k) (hmx : t.mx.length = t.k)
    (hfp : (E.fp.RecursiveOK ∧ WeightsFit M t.tw t.mx) ∨ (bu ∧ M = NULL32)) {g : Graph} (hg : g.Good)
    (hS : g.sumVtx ≤ S) (r : E.rng.S) :
    Wp bu be bd (rbExecute bis t g r) (fun o => IsExact g t.k o.1 ∧ RBRun R t.tw t.mx g r o.1.lab o.2) :=
  rbExecute_inv hM (fun _ _ _ => True) (fun _ _ _ _ _ _ _ _ _ _ _ _ _ => ⟨fun _ _ => trivial, fun _ _ => trivial⟩)
    (fun _ _ bt g r _ _ => hbis bt g r) hk hk' htw hmx hfp trivial hg hS r

/-- The whole run, without random states. -/
theorem rbExecute_spec {bis : Bisector E} {R : Target E.fp → Graph → Partitioning → Prop} {S M : Nat} (hM : M < M32)
    (hbis : ∀ bt g r, g.Good → g.sumVtx ≤ S → bt.Two → nth bt.mx 0 ≤ M → nth bt.mx 1 ≤ M →
      Wp bu be bd (bis bt g r) (fun o => IsExact g 2 o.1 ∧ R bt g o.1))
    {t : Target E.fp} (hk : 2 ≤ t.k) (hk' : t.k < M32) (htw : t.tw.length = t.k) (hmx : t.mx.length = t.k)
    (hfp : (E.fp.RecursiveOK ∧ WeightsFit M t.tw t.mx) ∨ (bu ∧ M = NULL32)) {g : Graph} (hg : g.Good)
    (hS : g.sumVtx ≤ S) (r : E.rng.S) :
    Wp bu be bd (rbExecute bis t g r) (fun o => IsExact g t.k o.1 ∧ RBTree R t.tw t.mx g o.1.lab) := by
  refine (rbExecute_run (R := fun bt g _ side _ => ∃ p : Partitioning, p.lab = side ∧ IsExact g 2 p ∧ R bt g p) hM
    (fun bt g r a1 a2 a3 a4 a5 => (hbis bt g r a1 a2 a3 a4 a5).mono fun o ho => ⟨ho.1, o.1, rfl, ho.1, ho.2⟩)
    hk hk' htw hmx hfp hg hS r).mono ?_
  rintro o ⟨ho, hr⟩
  exact ⟨ho, hr.tree⟩

end

/-! ### binary64 -/

namespace Concrete

theorem fin_step [Concrete.Log2Impl] {f : ℚ} (h0 : 0 ≤ f) (h1 : f ≤ 1) {acc w ex : Nat} (hs : acc + w + ex < M32) :
    ∃ n, fp.toU32 (fp.add (fp.ofNat acc) (fp.add (fp.ofNat w) (fp.mul (fp.ofNat ex) (F64.fin f)))) = some n ∧
      acc + w ≤ n ∧ n ≤ acc + w + ex ∧ (f = 1 → n = acc + w + ex) := by
  have big : ∀ {n : Nat}, n < M32 → ((n : ℚ) * pow2 0 < pow2 1024 ∧ (n : ℚ) < pow2 (53 + 0)) := by
    intro n hn
    have hq : (n : ℚ) < 9007199254740992 := by
      have : (n : ℚ) < 4294967296 := by exact_mod_cast hn
      exact lt_trans this (by norm_num)
    rw [pow2_zero, mul_one, pow2_53]
    exact ⟨lt_trans hq pow2_big, hq⟩
  have rb : ∀ {q : ℚ} {m n : Nat}, (m : ℚ) ≤ q → q ≤ n → n < M32 → ∃ r, rnd q = .fin r ∧ (m : ℚ) ≤ r ∧ r ≤ n := by
    intro q m n h1 h2 h3
    have hb := big h3
    have := rnd_between (q := q) (j := 0) (m := m) (n := n) (by rw [pow2_zero, mul_one]; exact h1)
      (by rw [pow2_zero, mul_one]; exact h2) (lt_of_le_of_lt h2 hb.2) (by omega) hb.1
    simpa [pow2_zero] using this
  have hex : (0 : ℚ) ≤ (ex : ℚ) := Nat.cast_nonneg ex
  have hlow : (((if f = 1 then ex else 0 : Nat)) : ℚ) ≤ (ex : ℚ) * f := by
    split
    · rename_i h; rw [h, mul_one]
    · simpa using mul_nonneg hex h0
  obtain ⟨a, ha, a1, a2⟩ := rb hlow (mul_le_of_le_one_right hex h1) (by omega)
  obtain ⟨b, hb, b1, b2⟩ := rb (q := (w : ℚ) + a) (m := w + (if f = 1 then ex else 0)) (n := w + ex)
    (by push_cast at a1 ⊢; linarith) (by push_cast; linarith) (by omega)
  obtain ⟨c, hc, c1, c2⟩ := rb (q := (acc : ℚ) + b) (m := acc + (w + (if f = 1 then ex else 0))) (n := acc + (w + ex))
    (by push_cast at b1 ⊢; linarith) (by push_cast at b2 ⊢; linarith) (by omega)
  rw [ofNat_exact (n := ex) (lt_pow_of_lt32 (by omega)), mul_fin, ha, ofNat_exact (n := w) (lt_pow_of_lt32 (by omega)),
    add_fin, hb, ofNat_exact (n := acc) (lt_pow_of_lt32 (by omega)), add_fin, hc]
  have hc0 : (0 : ℚ) ≤ c := le_trans (Nat.cast_nonneg _) c1
  have hcM : c < 4294967296 := by
    refine lt_of_le_of_lt c2 ?_
    exact_mod_cast (show acc + (w + ex) < 4294967296 by omega)
  obtain ⟨n, hn, n1, n2⟩ := toU32_fin hc0 hcM
  have l1 : acc + (w + (if f = 1 then ex else 0)) < n + 1 := by
    have : ((acc + (w + (if f = 1 then ex else 0)) : Nat) : ℚ) < ((n + 1 : Nat) : ℚ) := by
      push_cast at c1 ⊢; linarith
    exact_mod_cast this
  have l2 : n ≤ acc + (w + ex) := by
    have : (n : ℚ) ≤ ((acc + (w + ex) : Nat) : ℚ) := le_trans n1 c2
    exact_mod_cast this
  refine ⟨n, hn, by omega, by omega, fun hf => ?_⟩
  rw [if_pos hf] at l1
  omega

theorem log2_fin [Concrete.Log2Impl] {k : Nat} (hk : 2 ≤ k) (hk' : k < M32) :
    ∃ q : ℚ, fp.log2 (F64.fin (k : ℚ)) = F64.fin q ∧ 1 ≤ q ∧ (k = 2 → q = 1) := by
  by_cases h2 : k = 2
  · refine ⟨1, ?_, le_refl _, fun _ => rfl⟩
    have := Log2Impl.exact 1 (by decide)
    rw [h2]
    rw [show ((2 ^ 1 : Nat)) = 2 from rfl, Nat.cast_one] at this
    exact this
  · have h0 : k ≠ 0 := by omega
    have h1 := Nat.log2_self_le h0
    obtain ⟨q, e, l, -⟩ := Log2Impl.between (Nat.log2 k) k h1 Nat.lt_log2_self
      ((Nat.log2_lt h0).mpr (by simpa using hk'))
    have : 1 ≤ Nat.log2 k := (Nat.le_log2 h0).mpr (by omega)
    have : (1 : ℚ) ≤ (Nat.log2 k : ℚ) := by exact_mod_cast this
    exact ⟨q, e, by linarith, fun h => absurd h h2⟩

theorem share_fin [Concrete.Log2Impl] {k : Nat} (hk : 2 ≤ k) (hk' : k < M32) :
    ∃ f : ℚ, shareOf fp k = F64.fin f ∧ 0 ≤ f ∧ f ≤ 1 ∧ (k = 2 → f = 1) := by
  obtain ⟨l, hl, hgeq, hl2⟩ := log2_fin hk hk'
  have h1 : fp.lit 1 0 = F64.fin 1 := by
    show rnd (((1 : Nat) : ℚ) / ((10 ^ 0 : Nat) : ℚ)) = F64.fin 1
    decide +kernel
  unfold shareOf
  rw [ofNat_exact (lt_pow_of_lt32 hk'), hl, h1, div_fin _ (by linarith)]
  by_cases hk2 : k = 2
  · rw [hl2 hk2]
    refine ⟨1, ?_, by norm_num, by norm_num, fun _ => rfl⟩
    rw [show (1 : ℚ) / 1 = 1 by norm_num]
    exact rnd_one
  · obtain ⟨r, h2, h3, h4⟩ := rnd_le_nat (q := 1 / l) (n := 1)
      (div_nonneg (by norm_num) (by linarith))
      (by rw [Nat.cast_one]; exact (div_le_one (by linarith)).mpr hgeq) (by omega)
    exact ⟨r, h2, h3, by simpa using h4, fun h => absurd h hk2⟩

theorem recursiveOK [Concrete.Log2Impl] : fp.RecursiveOK where
  step k acc w ex hk hk' hs := by
    obtain ⟨f, h1, h2, h3, h4⟩ := share_fin hk hk'
    rw [h1]
    obtain ⟨n, a, b, c, d⟩ := fin_step h2 h3 hs
    exact ⟨n, a, b, c, fun h => d (h4 h)⟩

end Concrete
end Poros
