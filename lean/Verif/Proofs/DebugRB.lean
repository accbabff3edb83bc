import Verif.Proofs.DebugBis
import Verif.Proofs.DebugExtract
import Verif.Proofs.RBMore
import Verif.Props.P69_Valid
/-
The assertions of recursive bisection.
-/
namespace Poros
open Finset Res

variable {E : Env}

/-! ### recursive bisection -/

theorem halvesStepD_close {H : Prop} {fp : FP} {t : Target fp} (htw : t.tw.length = t.k) (hmx : t.mx.length = t.k)
    (hH : H → ∀ q, q < t.k → nth t.tw q ≤ nth t.mx q) (s : Halves) {pid : Nat} (hp : pid < t.k) :
    Close H (halvesStepD t s pid) (halvesStep t s pid) := by
  unfold halvesStepD
  rw [rd_of_lt (by omega), ok_bind, rd_of_lt (by omega), ok_bind]
  exact Close.check (fun h => hH h pid hp) (Close.refl _)

theorem makeHalvesD_close {H : Prop} {fp : FP} {t : Target fp} (htw : t.tw.length = t.k) (hmx : t.mx.length = t.k)
    (hH : H → ∀ q, q < t.k → nth t.tw q ≤ nth t.mx q) : Close H (makeHalvesD t) (makeHalves t) := by
  unfold makeHalvesD makeHalves
  refine Close.bind (Close.foldlM (P := fun _ => True) trivial fun s q hq _ => ⟨?_, fun _ _ => trivial⟩) fun _ _ => Close.refl _
  exact halvesStepD_close htw hmx hH s (List.mem_range.mp hq)

theorem checkNum_eq {k : Nat} (hk : k < M32) : checkNum [0, k / 2, k] = ok () := by
  unfold checkNum
  rw [show rd [0, k / 2, k] 2 = ok k from rfl, ok_bind, show rd [0, k / 2, k] 1 = ok (k / 2) from rfl, ok_bind,
    show rd [0, k / 2, k] 0 = ok 0 from rfl, ok_bind, usub_eq (by omega) (by omega), usub_eq (by omega) (by omega)]
  exact check_true (by omega)

/-- A property of target weights, maximum weights and graph under which the assertions of recursive bisection hold: those
of the bisector do, and, if there are more parts, those of extraction, and the sides have the property. -/
structure RBInv (d b : Bisector E) (I : List Nat → List Nat → Graph → Prop) : Prop where
  le : ∀ tw mx g, I tw mx g → ∀ q, q < tw.length → nth tw q ≤ nth mx q
  pos : ∀ tw mx g (bt : Target E.fp), I tw mx g → g.Good → IsHalvesTarget tw mx bt → PosFrac bt 2
  same : ∀ tw mx g (bt : Target E.fp) r, I tw mx g → g.Good → IsHalvesTarget tw mx bt → d bt g r = b bt g r
  sub : ∀ tw mx g (bt : Target E.fp) r o, I tw mx g → g.Good → IsHalvesTarget tw mx bt → b bt g r = ok o →
    IsExact g 2 o.1 → 2 < tw.length → ExtractOK g o.1.lab ∧
      (∀ s, 2 ≤ tw.length / 2 → IsInduced g o.1.lab 0 s → I (tw.take (tw.length / 2)) (mx.take (tw.length / 2)) s) ∧
      (∀ s, IsInduced g o.1.lab 1 s → I (tw.drop (tw.length / 2)) (mx.drop (tw.length / 2)) s)

/-- The assertions hold in recursive bisection of `g` for the target `t`. -/
def RBAssert (d b : Bisector E) (t : Target E.fp) (g : Graph) : Prop := ∃ I, RBInv d b I ∧ I t.tw t.mx g

theorem rbRecurseD_close {d b : Bisector E} (hd : ∀ bt g r, g.Good → bt.Two → Close False (d bt g r) (b bt g r))
    (hb : ∀ bt g r o, g.Good → bt.Two → b bt g r = ok o → IsExact g 2 o.1) :
    ∀ (fuel : Nat) {H : Prop} (t : Target E.fp) (mg : Mapped) (offset : Nat) (s : Mem × E.rng.S), 2 ≤ t.k → t.k < M32 →
      t.tw.length = t.k → t.mx.length = t.k → mg.graph.Good → LabelsOK mg.graph.nv mg.superMap →
      (H → RBAssert d b t mg.graph) →
      Close H (rbRecurseD d fuel t mg offset s) (rbRecurse b fuel t mg offset s) := by
  intro fuel
  induction fuel with
  | zero => intro H t mg offset s _ _ _ _ _ _ _; exact Close.refl _
  | succ fuel ih =>
    intro H t mg offset s hk hk' htw hmx hg hlab hA
    unfold rbRecurseD rbRecurse
    refine (makeHalvesD_close htw hmx fun h q hq => by
      obtain ⟨I, hI, hi⟩ := hA h
      exact hI.le _ _ _ hi q (by omega)).bind fun h hh => ?_
    obtain ⟨hnum, fr, hof, hbt⟩ := (makeHalves_spec (bu := True) (be := True) (bd := True) hk hk' htw hmx
      (M := NULL32) (by omega) (Or.inr trivial)).elim_ok hh
    rw [hof, ok_bind, ok_bind]
    refine Close.bind ?_ fun o ho => ?_
    · by_cases hH : H
      · obtain ⟨I, hI, hi⟩ := hA hH
        exact Or.inl (hI.same _ _ _ _ _ hi hg hbt)
      · exact (hd _ _ _ hg hbt.two).imp id fun h => ⟨hH, h.2⟩
    have hx := hb _ _ _ _ hg hbt.two ho
    have hcl := calcMaxImbalanceD_close (H := H) (g := mg.graph) (p := o.1) (t := (⟨2, fr, h.tw, h.mx⟩ : Target E.fp))
      (by rw [hx.pw_len, hbt.two.frac]) (fun h => by
        obtain ⟨I, hI, hi⟩ := hA h
        rw [hx.pw_len]; exact hI.pos _ _ _ _ hi hg hbt)
    rw [calcMaxImbalance_eq hbt.two hx] at hcl
    rcases hcl with hcl | ⟨hn, hcl⟩
    · rw [hcl, ok_bind, hnum, checkNum_eq hk', ok_bind]
      refine Close.bind_ok fun labels _ => ?_
      split
      · rename_i hk2
        have hS : ∀ h : H, ∃ I, RBInv d b I ∧ ExtractOK mg.graph o.1.lab ∧
            (∀ s, 2 ≤ t.k / 2 → IsInduced mg.graph o.1.lab 0 s → I (t.tw.take (t.k / 2)) (t.mx.take (t.k / 2)) s) ∧
            (∀ s, IsInduced mg.graph o.1.lab 1 s → I (t.tw.drop (t.k / 2)) (t.mx.drop (t.k / 2)) s) := by
          intro h
          obtain ⟨I, hI, hi⟩ := hA h
          have := hI.sub _ _ _ _ _ _ hi hg hbt ho hx (by omega)
          rw [htw] at this
          exact ⟨I, hI, this⟩
        obtain ⟨subs, he, hsl, hsub⟩ := extract_spec hg.wf hx.asg_len hx.pw_len hx.complete hlab
        refine Close.bind (extractPartitionsD_close hg.wf hx.asg_len hx.pw_len hx.complete hlab fun h => by
          obtain ⟨I, hI, hE, -⟩ := hS h
          exact hE) fun parts hparts => ?_
        rw [he] at hparts
        obtain rfl := Res.ok.inj hparts
        rw [check_bind hsl]
        refine Close.foldlM (P := fun _ => True) trivial fun s q hq _ => ⟨?_, fun _ _ => trivial⟩
        have hq2 : q < 2 := by rw [← hsl]; exact List.mem_range.mp hq
        unfold rbSide
        refine Close.bind_ok fun lo hlo => Close.bind_ok fun hi hhi => ?_
        split
        · rename_i hgt
          have hlohi : lo + usub hi lo ≤ t.k := by
            have hq01 : q = 0 ∨ q = 1 := by omega
            rcases hq01 with rfl | rfl
            · obtain rfl := Res.ok.inj (hlo : ok 0 = ok lo)
              obtain rfl := Res.ok.inj (hhi : ok (t.k / 2) = ok hi)
              rw [usub_eq (by omega) (by omega)]; omega
            · obtain rfl := Res.ok.inj (hlo : ok (t.k / 2) = ok lo)
              obtain rfl := Res.ok.inj (hhi : ok t.k = ok hi)
              rw [usub_eq (by omega) (by omega)]; omega
          obtain ⟨fr', hht⟩ := halfTarget_ok (t := t) (off := lo) (n := usub hi lo) (by omega) (by omega)
          rw [hht, ok_bind, ok_bind, rd_of_lt (by omega), ok_bind, ok_bind]
          have hs := hsub q hq2
          refine ih (H := H) _ _ _ _ (by simp only; omega) (by simp only; omega) ?_ ?_ ?_ ?_ (fun h => ?_)
          · simp only [List.length_take, List.length_drop]; omega
          · simp only [List.length_take, List.length_drop]; omega
          · exact hs.induced.good hg hs.wf
          · show _ ≤ _
            simp only
            rw [hs.superMap, List.length_map, hs.induced.nv]
          · obtain ⟨I, hI, -, h0, h1⟩ := hS h
            refine ⟨I, hI, ?_⟩
            have hq01 : q = 0 ∨ q = 1 := by omega
            rcases hq01 with rfl | rfl
            · obtain rfl := Res.ok.inj (hlo : ok 0 = ok lo)
              obtain rfl := Res.ok.inj (hhi : ok (t.k / 2) = ok hi)
              have e : usub (t.k / 2) 0 = t.k / 2 := usub_eq (by omega) (by omega)
              rw [e] at hgt ⊢
              exact h0 _ hgt hs.induced
            · obtain rfl := Res.ok.inj (hlo : ok (t.k / 2) = ok lo)
              obtain rfl := Res.ok.inj (hhi : ok t.k = ok hi)
              have e : usub t.k (t.k / 2) = t.k - t.k / 2 := usub_eq (by omega) (by omega)
              simp only [e]
              rw [List.take_of_length_le (by rw [List.length_drop]; omega), List.take_of_length_le (by rw [List.length_drop]; omega)]
              exact h1 _ hs.induced
        · exact Close.refl _
      · exact Close.refl _
    · rw [hcl]
      exact Or.inr ⟨hn, rfl⟩

end Poros
