import Verif.Proofs.RunTrace
import Verif.Proofs.MLTrace
import Verif.Proofs.F64Uniform
import Verif.Props.P72_Hierarchy
/-
How unbalanced a multilevel bisection can be: growing, choosing, handing down and refining.
-/
namespace Poros
open Finset

/-! ### growing -/

theorem put_eq_relabel : put = relabel := rfl

theorem Grown.spec {fp : FP} {g : Graph} {t : Target fp} {seed : Nat} {lab : Nat → Nat} {seen : List Nat}
    (h : Grown g t seed lab seen) :
    (∀ v, v < g.nv → lab v < 2) ∧ partWeight g lab 0 ≤ nth t.mx 0 ∧ (∀ v, v < g.nv → v ∉ seen → lab v = 1) ∧
    ∀ v, v ∈ seen → v < g.nv → lab v = 1 → nth t.mx 0 < partWeight g lab 0 + g.vw v := by
  induction h with
  | start h =>
    refine ⟨fun v hv => by rw [h v hv]; decide, ?_, fun v hv _ => h v hv, fun v hv => by simp at hv⟩
    rw [partWeight_all h (by decide)]; omega
  | @take lab seen v _ _ hn hfit ih =>
    obtain ⟨i1, i2, i3, i4⟩ := ih
    have hv := hn.1
    have hl : lab v = 1 := i3 v hv hn.2.1
    have e : partWeight g (put lab v 0) 0 = partWeight g lab 0 + g.vw v := by
      have := partWeight_relabel (q := 0) lab hv 0
      rw [hl, if_neg (by decide), if_pos rfl] at this
      exact this
    refine ⟨fun u hu => ?_, by omega, fun u hu hs => ?_, fun u hs hu hl1 => ?_⟩
    · unfold put; split
      · decide
      · exact i1 u hu
    · have : u ≠ v := fun h => hs (by simp [h])
      unfold put; rw [if_neg this]
      exact i3 u hu fun h => hs (by simp [h])
    · have hne : u ≠ v := by
        rintro rfl
        simp [put] at hl1
      have hlu : lab u = 1 := by simpa [put, hne] using hl1
      rcases List.mem_cons.mp hs with h | h
      · exact absurd h hne
      · have := i4 u h hu hlu
        omega
  | @skip lab seen v _ _ hn hfit ih =>
    obtain ⟨i1, i2, i3, i4⟩ := ih
    refine ⟨i1, i2, fun u hu hs => i3 u hu fun h => hs (by simp [h]), fun u hs hu hl => ?_⟩
    rcases List.mem_cons.mp hs with rfl | h
    · exact hfit
    · exact i4 u h hu hl

/-- No further vertex is put on the left side after growing has reached the target weight. -/
def NoExtra {fp : FP} (W : Nat) (t : Target fp) : Prop :=
  ∀ a b, a + b = W → nth t.tw 0 ≤ a → nth t.mx 1 < b →
    fp.lt (fp.div (fp.ofNat (1 + a)) (fp.ofNat (nth t.mx 0))) (fp.div (fp.ofNat b) (fp.ofNat (nth t.mx 1))) = false

theorem NoExtra.of_feasible {fp : FP} {W : Nat} {t : Target fp} (h : W ≤ nth t.tw 0 + nth t.mx 1) : NoExtra W t :=
  fun a b h1 h2 h3 => by omega

/-- The weights of a grown bisection: the left side is within its maximum, and the right side is what the target leaves,
or less than the whole minus the left maximum plus the heaviest vertex. -/
theorem GrownTo.weights {fp : FP} {g : Graph} {t : Target fp} {seed : Nat} {out : Nat → Nat}
    (h : GrownTo g t seed out) (hno : NoExtra g.sumVtx t) {M : Nat} (hM : ∀ v, v < g.nv → g.vw v ≤ M) :
    (∀ v, v < g.nv → out v < 2) ∧ partWeight g out 0 ≤ nth t.mx 0 ∧
    (partWeight g out 1 = 0 ∨ partWeight g out 1 + nth t.tw 0 ≤ g.sumVtx ∨
      partWeight g out 1 + nth t.mx 0 < g.sumVtx + M) := by
  obtain ⟨-, lab, seen, h1, h2, h3⟩ := h
  obtain ⟨i1, i2, i3, i4⟩ := h1.spec
  have hs := partWeight_two i1
  have hout : out = lab := by
    rcases h3 with ⟨⟨a, ⟨u, hu, hun⟩, c⟩, -⟩ | ⟨-, rfl⟩
    · exfalso
      rcases h2 with h | h
      · have := hno _ _ hs h a
        rw [c] at this; cases this
      · exact hun (h u hu)
    · rfl
  subst hout
  refine ⟨i1, i2, ?_⟩
  rcases h2 with h | h
  · right; left; omega
  · by_cases hr : ∃ v, v < g.nv ∧ out v = 1
    · obtain ⟨v, hv, hl⟩ := hr
      have := i4 v (h v hv) hv hl
      have := hM v hv
      right; right; omega
    · left
      unfold partWeight
      refine sum_eq_zero fun v hv => if_neg fun hl => hr ⟨v, mem_range.mp hv, hl⟩

/-! ### choosing -/

theorem BestOf.mem {fp : FP} {g : Graph} {t : Target fp} {cs : List (Nat → Nat)} {b : Nat → Nat}
    (h : BestOf g t cs b) : b ∈ cs := by
  induction h with
  | first => simp
  | take => simp
  | keep _ _ ih => simp [ih]

theorem Repeated.all {S : Type} {R : S → (Nat → Nat) → S → Prop} {r r' : S} {cs : List (Nat → Nat)}
    (h : Repeated R r cs r') : ∀ c ∈ cs, ∃ a b, R a c b := by
  induction h with
  | none => intro c hc; simp at hc
  | more _ hr ih =>
    intro c hc
    rcases List.mem_append.mp hc with h | h
    · exact ih c h
    · rw [List.mem_singleton] at h; subst h; exact ⟨_, _, hr⟩

theorem Sown.grown {E : Env} {t : Target E.fp} {g : Graph} {r : E.rng.S} {lab : Nat → Nat} {r' : E.rng.S}
    (h : Sown E t g r lab r') : ∃ seed, GrownTo g t seed lab := by
  obtain ⟨cs, h1, -, h3⟩ := h
  obtain ⟨a, b, h4⟩ := h1.all lab h3.mem
  exact ⟨_, h4.2⟩

/-! ### handing down -/

theorem IsContraction.partWeight {g : Graph} {cmap : Nat → Nat} {cg : Graph} (h : IsContraction g cmap cg)
    {lab0 clab : Nat → Nat} (hl : ∀ v, v < g.nv → lab0 v = clab (cmap v)) (q : Nat) :
    partWeight g lab0 q = partWeight cg clab q := by
  unfold Poros.partWeight
  have h1 : ∑ v ∈ range g.nv, (if lab0 v = q then g.vw v else 0) =
      ∑ c ∈ range cg.nv, ∑ v ∈ range g.nv, if cmap v = c then (if lab0 v = q then g.vw v else 0) else 0 := by
    have := sum_groups g.nv cg.nv cmap h.lt fun v => if lab0 v = q then g.vw v else 0
    simp only [sum_over_fiber] at this
    exact this.symm
  rw [h1]
  refine sum_congr rfl fun c hc => ?_
  rw [h.vw c (mem_range.mp hc)]
  unfold groupWeight
  by_cases hq : clab c = q
  · rw [if_pos hq]
    refine sum_congr rfl fun v hv => ?_
    by_cases hv2 : cmap v = c
    · rw [if_pos hv2, if_pos hv2, if_pos (by rw [hl v (mem_range.mp hv), hv2, hq])]
    · rw [if_neg hv2, if_neg hv2]
  · rw [if_neg hq]
    refine sum_eq_zero fun v hv => ?_
    by_cases hv2 : cmap v = c
    · rw [if_pos hv2, if_neg (by rw [hl v (mem_range.mp hv), hv2]; exact hq)]
    · rw [if_neg hv2]

theorem Graph.WF.totVtx_eq {g : Graph} (hg : g.WF) (h : g.sumVtx < 4294967296) : g.totVtx = g.sumVtx := by
  rw [hg.tot_vtx, Nat.mod_eq_of_lt h]

theorem maxImbalance_eq_of_weights {fp : FP} {g g' : Graph} {t : Target fp} {lab lab' : Nat → Nat}
    (h0 : partWeight g lab 0 = partWeight g' lab' 0) (h1 : partWeight g lab 1 = partWeight g' lab' 1)
    (ht : g.totVtx = g'.totVtx) : maxImbalance g t lab = maxImbalance g' t lab' := by
  unfold maxImbalance imbalanceOf
  rw [h0, h1, ht]

/-! ### refining -/

/-- Refinement keeps a property that improvements keep. -/
theorem PassTo.keeps {fp : FP} {g : Graph} {t : Target fp} {mb : Nat} {a lab best : Nat → Nat} {moved : List Nat}
    {bad : Nat} (h : PassTo g t mb a lab best moved bad) (ha : ∀ v, v < g.nv → a v < 2) {Q : (Nat → Nat) → Prop}
    (hQ : ∀ x y, (∀ v, v < g.nv → y v < 2) → Improves g t x y → Q x → Q y) (hq : Q a) :
    (∀ v, v < g.nv → lab v < 2) ∧ (∀ v, v < g.nv → best v < 2) ∧ Q best := by
  induction h with
  | start => exact ⟨ha, ha, hq⟩
  | accept _ _ _ _ himp ih =>
    have := flip_lt ih.1
    exact ⟨this _, this _, hQ _ _ (this _) himp ih.2.2⟩
  | reject _ _ _ _ _ ih => exact ⟨flip_lt ih.1 _, ih.2⟩

theorem Refined.keeps {fp : FP} {g : Graph} {t : Target fp} {mb n : Nat} {a b : Nat → Nat}
    (h : Refined g t mb n a b) {Q : (Nat → Nat) → Prop}
    (hQ : ∀ x y, (∀ v, v < g.nv → y v < 2) → Improves g t x y → Q x → Q y) :
    (∀ v, v < g.nv → a v < 2) → Q a → (∀ v, v < g.nv → b v < 2) ∧ Q b := by
  induction h with
  | zero => exact fun h1 h2 => ⟨h1, h2⟩
  | last hp =>
    obtain ⟨_, _, _, h, -⟩ := hp
    exact fun h1 h2 => (h.keeps h1 hQ h2).2
  | more hp _ ih =>
    obtain ⟨_, _, _, h, -⟩ := hp
    exact fun h1 h2 => ih (h.keeps h1 hQ h2).2.1 (h.keeps h1 hQ h2).2.2

/-- `Q` survives steps to bisections that are within the limits or not more unbalanced. -/
def Keepable {fp : FP} (g : Graph) (t : Target fp) (Q : (Nat → Nat) → Prop) : Prop :=
  ∀ x y, (∀ v, v < g.nv → y v < 2) → (fp.lt (maxImbalance g t y) (maxImbalance g t x) = true ∨ Balanced g t y ∨
    fp.le (maxImbalance g t y) (maxImbalance g t x) = true) → Q x → Q y

/-- What is known of the labels of a multilevel bisection of any graph, undirected or not: the coarsest graph is grown,
the labels are handed down, and refinement keeps whatever steps to balanced or not more unbalanced bisections keep. -/
inductive Loose (E : Env) (s : Scheme) (t : Target E.fp) (maxW : Nat) : Graph → (Nat → Nat) → Prop
  | grown {g seed lab} : GrownTo g t seed lab → Loose E s t maxW g lab
  | level {g r cmap cg clab lab0 lab} : Coarsened E s maxW g r cmap cg → Loose E s t maxW cg clab →
      (∀ v, v < g.nv → lab0 v = clab (cmap v)) → (∀ Q, Keepable g t Q → Q lab0 → Q lab) →
      (∀ v, v < g.nv → lab v < 2) → Loose E s t maxW g lab

def LooseBis (E : Env) (s : Scheme) (t : Target E.fp) (g : Graph) (lab : Nat → Nat) : Prop :=
  Loose E s t (3 * g.sumVtx / 40) g lab

theorem GrownTo.lt {fp : FP} {g : Graph} {t : Target fp} {seed : Nat} {out : Nat → Nat} (h : GrownTo g t seed out) :
    ∀ v, v < g.nv → out v < 2 := by
  obtain ⟨-, lab, seen, h1, -, h3⟩ := h
  rcases h3 with ⟨-, w, -, -, rfl⟩ | ⟨-, rfl⟩
  · intro v hv
    unfold put; split
    · decide
    · exact h1.spec.1 v hv
  · exact h1.spec.1

theorem MLRun.loose {E : Env} {s : Scheme} {t : Target E.fp} {maxW : Nat} {parent : Option Graph} {g : Graph} {r : E.rng.S}
    {lab : Nat → Nat} {r' : E.rng.S} {hier : List Graph} (h : MLRun E s t maxW (Sown E t) parent g r lab r' hier) :
    (∀ v, v < g.nv → lab v < 2) ∧ Loose E s t maxW g lab := by
  induction h with
  | coarsest _ hi =>
    obtain ⟨seed, h⟩ := hi.grown
    exact ⟨h.lt, .grown h⟩
  | @level parent g r cmap cg clab r' hier lab0 lab hc hco _ hdown href ih =>
    have h0 : ∀ v, v < g.nv → lab0 v < 2 := fun v hv => by rw [hdown v hv]; exact ih.1 _ (hco.1.lt v hv)
    have := (href.keeps (Q := fun _ => True) (fun _ _ _ _ _ => trivial) h0 trivial).1
    refine ⟨this, .level hco ih.2 hdown (fun Q hQ hq => (href.keeps (Q := Q) (fun x y hy himp hx => ?_) h0 hq).2) this⟩
    rcases himp with ⟨-, h⟩ | ⟨-, h⟩
    · exact hQ x y hy (Or.inl h) hx
    · exact hQ x y hy (Or.inr h) hx

theorem MLBisected.loose {E : Env} {s : Scheme} {t : Target E.fp} {g : Graph} {r : E.rng.S} {lab : Nat → Nat} {r' : E.rng.S}
    (h : MLBisected E s t g r lab r') : LooseBis E s t g lab := by
  obtain ⟨hier, h⟩ := h
  exact h.loose.2

/-- The whole run: a bound on the imbalance that holds of every bisection with balanced sides and of the initial
bisection holds of the result. `B` bounds (in any sense) the imbalance computed from the two side weights. -/
theorem Loose.keeps {E : Env} {s : Scheme} {t : Target E.fp} {maxW : Nat} {g : Graph} {lab : Nat → Nat}
    (h : Loose E s t maxW g lab)
    {W M : Nat} (hW : W < 4294967295) {B : E.fp.F → Prop}
    (hlt : ∀ x y, E.fp.lt x y = true → B y → B x) (hle : ∀ x y, E.fp.le x y = true → B y → B x)
    (hbal : ∀ (g : Graph) (lab : Nat → Nat), g.totVtx = W → g.sumVtx = W → (∀ v, v < g.nv → lab v < 2) →
      Balanced g t lab → B (maxImbalance g t lab))
    (hinit : ∀ (g : Graph) seed lab, g.WF → g.sumVtx = W → (∀ v, v < g.nv → g.vw v ≤ max maxW M) → GrownTo g t seed lab →
      B (maxImbalance g t lab)) :
    g.WF → g.NoLoop → g.sumVtx = W → (∀ v, v < g.nv → g.vw v ≤ max maxW M) →
    (∀ v, v < g.nv → lab v < 2) ∧ B (maxImbalance g t lab) := by
  induction h with
  | grown hi => exact fun h1 _ h3 h4 => ⟨hi.lt, hinit _ _ _ h1 h3 h4 hi⟩
  | @level g r cmap cg clab lab0 lab hco _ hdown href hl ih =>
    intro hwf hnl hs hw
    have hcs : cg.sumVtx = W := by rw [hco.1.sumVtx, hs]
    have hcw : ∀ v, v < cg.nv → cg.vw v ≤ max maxW M := by
      intro c hcn
      rcases hco.weights hnl hw hcn with h | h
      · omega
      · have := Finset.single_le_sum (f := cg.vw) (fun _ _ => Nat.zero_le _) (mem_range.mpr hcn)
        unfold Graph.sumVtx at hcs
        omega
    obtain ⟨i1, i2⟩ := ih hco.1.valid hco.1.noLoop hcs hcw
    have e : maxImbalance g t lab0 = maxImbalance cg t clab :=
      maxImbalance_eq_of_weights (hco.1.partWeight hdown 0) (hco.1.partWeight hdown 1) (by
        rw [hwf.totVtx_eq (by omega), hco.1.valid.totVtx_eq (by omega), hs, hcs])
    refine ⟨hl, href (fun x => B (maxImbalance g t x)) ?_ (by rw [e]; exact i2)⟩
    intro x y hy himp hx
    rcases himp with h | h | h
    · exact hlt _ _ h hx
    · exact hbal g y (by rw [hwf.totVtx_eq (by omega), hs]) hs hy h
    · exact hle _ _ h hx

end Poros
