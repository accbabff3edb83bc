import Verif.Props.P36_Recursive
import Verif.Proofs.NullWeights
/-
Recursive bisection into four parts of a small graph with unit weights: the subgraphs have no weight array.
-/
namespace Poros
open Finset Res

variable {E : Env}

theorem Wp.ub_or {r : Res α} {Q : α → Prop} (h : Wp True False False r Q) : r = ub ∨ ∃ a, r = ok a ∧ Q a := by
  cases r with
  | ok a => exact Or.inr ⟨a, rfl, h⟩
  | ub => exact Or.inl rfl
  | exn => exact h.elim
  | diverge => exact h.elim

/-- Bisecting a small graph without weight array, whose weight exceeds the limits, is undefined behaviour. -/
theorem rbRecurse_null (hml : ∀ tot, tot < M32 → E.fp.MultilevelOK tot) (s : Scheme) {t : Target E.fp} {h : Halves}
    (hh : makeHalves t = ok h) {m : Nat} (htw : h.tw = [m, m]) (hmx : h.mx = [m, m]) {mg : Mapped}
    (hg : mg.graph.Good) (hw : mg.graph.vwgt = []) (hn : 2 * m < mg.graph.nv) (h20 : mg.graph.nv ≤ 20)
    (fuel offset : Nat) (st : Mem × E.rng.S) :
    rbRecurse (makeMultilevel E s).execute (fuel + 1) t mg offset st = ub := by
  unfold rbRecurse
  obtain ⟨fr, hfr, hof, -⟩ := ofWeights_ok (fp := E.fp) (n := 2) (tw := h.tw) (mx := h.mx) (by rw [htw]; simp)
  rw [hh, ok_bind, hof, ok_bind]
  have hu : mg.graph.unitVtx = true := by
    cases hu : mg.graph.unitVtx with
    | true => rfl
    | false =>
      have := hg.wf.vwgt_len hu
      rw [hw] at this
      simp at this
      omega
  rw [multilevel_null hml s hg ⟨rfl, hfr, by simp only; rw [htw]; rfl, by simp only; rw [hmx]; rfl⟩ hu hw (by omega) h20
    (by simp only; rw [htw, hmx]) (by simp only; rw [htw, hmx]; show m + m < _; omega) st.2]
  rfl

/-- The library's bisector ends in undefined behaviour or with an exact bisection: no exception, no divergence. -/
theorem multilevel_ub_or_ok (hml : ∀ tot, tot < M32 → E.fp.MultilevelOK tot) (s : Scheme) {t : Target E.fp} (ht : t.Two)
    {g : Graph} (hg : g.Good) (r : E.rng.S) :
    Wp True False False ((makeMultilevel E s).execute t g r) (fun o => IsExact g 2 o.1) := by
  have hok := hml g.totVtx (by rw [hg.wf.tot_vtx]; exact Nat.mod_lt _ (by omega))
  refine Wp.endsE.mpr (Multilevel.execute_ends (makeMultilevel_ending s ht) hok.self (fun h => ?_) hg r)
  rw [hok.ratio_pos, hok.ratio_lt] at h
  cases h

theorem four_ub (hml : ∀ tot, tot < M32 → E.fp.MultilevelOK tot) (hbad : ∀ n, n < NULL32 → E.fp.BadMovesOK n)
    (s : Scheme) {t : Target E.fp} (hk : t.k = 4) {m : Nat} (htw : t.tw = [m, m, m, m]) (hmx : t.mx = [m, m, m, m])
    (h4 : makeHalves t = ok { tw := [2 * m, 2 * m], mx := [2 * m, 2 * m], num := [0, 2, 4] })
    (h2 : ∀ fr, makeHalves (fp := E.fp) ⟨2, fr, [m, m], [m, m]⟩ = ok { tw := [m, m], mx := [m, m], num := [0, 1, 2] })
    {g : Graph} (hg : g.Good) (hu : g.unitVtx = true) (hw : g.vwgt.length = g.nv) (hn : 4 * m < g.nv) (h20 : g.nv ≤ 20)
    (r : E.rng.S) : rbExecute (makeMultilevel E s).execute t g r = ub := by
  unfold rbExecute
  suffices H : rbRecurse (makeMultilevel E s).execute t.k t ⟨none, g⟩ 0 (Mem.alloc g.nv, r) = ub by
    rw [H]; rfl
  rw [hk]
  unfold rbRecurse
  obtain ⟨fr, hfr, hof, -⟩ := ofWeights_ok (fp := E.fp) (n := 2) (tw := [2 * m, 2 * m]) (mx := [2 * m, 2 * m]) (by simp)
  rw [h4, ok_bind, hof, ok_bind]
  have hbt : (⟨2, fr, [2 * m, 2 * m], [2 * m, 2 * m]⟩ : Target E.fp).Two := ⟨rfl, hfr, rfl, rfl⟩
  have htot : g.totVtx < M32 := by rw [hg.wf.tot_vtx]; exact Nat.mod_lt _ (by omega)
  have hc := C35_multilevel s hbt hg r
  obtain ⟨o, ho⟩ := hc.2 (by omega) (fun _ => hw) (hml _ htot) hbad
  have hp := hc.1 o.1 o.2 ho
  rw [ho, ok_bind]
  have hmap : MappedOK ⟨none, g⟩ (Mem.alloc g.nv).length :=
    ⟨fun l h => (nomatch h), fun v hv => by simpa [superOf, Mem.alloc] using hv, fun u v _ _ h => h⟩
  obtain ⟨l0, hl0, w0⟩ := Mapped.mapPartitioning_spec (mg := ⟨none, g⟩) hmap hp.asg_len 0
  rw [hl0, ok_bind, if_pos (by rw [hk]; omega)]
  obtain ⟨subs, hx, hsl, hsub⟩ := extract_spec (labels := none) hg.wf hp.asg_len hp.pw_len hp.complete trivial
  rw [hx, ok_bind, hsl, show List.range 2 = [0, 1] from rfl, List.foldlM_cons]
  have sub0 := hsub 0 (by omega)
  have sub1 := hsub 1 (by omega)
  have hv1 : ∀ v, v < g.nv → g.vw v = 1 := by
    intro v hv
    unfold Graph.vw
    rw [hu]; rfl
  have cnt : ∀ q, q < 2 → (nth subs q).graph.nv = partWeight g o.1.lab q := by
    intro q hq
    rw [← (hsub q hq).induced.sumVtx]
    unfold Graph.sumVtx
    have e : ∀ i ∈ range (nth subs q).graph.nv, (nth subs q).graph.vw i = 1 := fun i hi => by
      rw [(hsub q hq).induced.vw i (mem_range.mp hi)]
      exact hv1 _ ((hsub q hq).induced.vert (mem_range.mp hi)).1
    rw [sum_congr rfl e]
    simp
  have hsum : (nth subs 0).graph.nv + (nth subs 1).graph.nv = g.nv := by
    rw [cnt 0 (by omega), cnt 1 (by omega), partWeight_two hp.complete]
    unfold Graph.sumVtx
    rw [sum_congr rfl fun v hv => hv1 v (mem_range.mp hv)]
    simp
  obtain ⟨fr0, ht0⟩ := halfTarget_ok (t := t) (off := 0) (n := 2) (by rw [htw]; simp) (by rw [hmx]; simp)
  obtain ⟨fr1, ht1⟩ := halfTarget_ok (t := t) (off := 2) (n := 2) (by rw [htw]; simp) (by rw [hmx]; simp)
  rw [htw, hmx] at ht0 ht1
  have side0 : ∀ F st, rbSide (E := E) (S := E.rng.S) F t [0, 2, 4] subs 0 st 0 =
      F ⟨2, fr0, [m, m], [m, m]⟩ ⟨some (nth subs 0).superMap, (nth subs 0).graph⟩ 0 st := by
    intro F st
    unfold rbSide
    rw [show rd [0, 2, 4] 0 = ok 0 from rfl, ok_bind, show rd [0, 2, 4] (0 + 1) = ok 2 from rfl, ok_bind,
      show usub 2 0 = 2 from rfl, if_pos (by omega), ht0, ok_bind, rd_of_lt (by omega), ok_bind]
    rfl
  have side1 : ∀ F st, rbSide (E := E) (S := E.rng.S) F t [0, 2, 4] subs 0 st 1 =
      F ⟨2, fr1, [m, m], [m, m]⟩ ⟨some (nth subs 1).superMap, (nth subs 1).graph⟩ 2 st := by
    intro F st
    unfold rbSide
    rw [show rd [0, 2, 4] 1 = ok 2 from rfl, ok_bind, show rd [0, 2, 4] (1 + 1) = ok 4 from rfl, ok_bind,
      show usub 4 2 = 2 from rfl, if_pos (by omega), ht1, ok_bind, rd_of_lt (by omega), ok_bind]
    rfl
  generalize hR : rbRecurse (makeMultilevel E s).execute 3 = F
  rw [side0]
  by_cases hl : 2 * m < (nth subs 0).graph.nv
  · rw [← hR, rbRecurse_null hml s (h2 fr0) rfl rfl (mg := ⟨_, _⟩) (sub0.induced.good hg sub0.wf) (sub0.noWeights hu) hl
      (show (nth subs 0).graph.nv ≤ 20 by omega)]
    rfl
  · obtain ⟨map0, -⟩ := sub0.mappedOK (mg := ⟨none, g⟩) hmap
    have hw0 := rbRecurse_spec (bu := True) (be := False) (bd := False) (bis := (makeMultilevel E s).execute)
      (R := fun _ _ _ => True) (S := (nth subs 0).graph.sumVtx) (M := NULL32) (by omega)
      (fun bt g r hg _ hb _ _ => (multilevel_ub_or_ok hml s hb hg r).mono fun o h => ⟨h, trivial⟩) 3
      ⟨2, fr0, [m, m], [m, m]⟩ ⟨some (nth subs 0).superMap, (nth subs 0).graph⟩ 0 (l0, o.2) (by simp) (by simp)
      (by simp) rfl rfl (Or.inr ⟨trivial, rfl⟩) (sub0.induced.good hg sub0.wf) (le_refl _)
      (by simp only; rw [w0.len]; exact map0)
    rw [hR] at hw0
    rcases hw0.ub_or with h | ⟨a, ha, -⟩
    · rw [h]; rfl
    · rw [ha, ok_bind, List.foldlM_cons, side1, ← hR, rbRecurse_null hml s (h2 fr1) rfl rfl (mg := ⟨_, _⟩)
        (sub1.induced.good hg sub1.wf) (sub1.noWeights hu) (show 2 * m < (nth subs 1).graph.nv by omega)
        (show (nth subs 1).graph.nv ≤ 20 by omega)]
      rfl

end Poros
