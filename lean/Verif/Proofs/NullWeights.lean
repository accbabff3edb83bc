import Verif.Proofs.BFS
import Verif.Proofs.Multilevel
/-
Breadth-first bisection of unit-weight graphs without a weight array.
-/
namespace Poros
open Finset Res

variable {E : Env}

/-- Growing with unit weights reaches exactly the target weight, and every vertex still on the right is queued. -/
structure UnitInv (g : Graph) (t0 : Nat) (s : VQueue E.pq × Partitioning) : Prop where
  queued : ∀ u, u < g.nv → s.2.lab u = 1 → (E.pq.key s.1.q u).isSome
  low : partWeight g s.2.lab 0 ≤ t0

theorem bfsPriorityMove_unit {g : Graph} (hg : g.Good) {t : Target E.fp} (ht : t.Two) {seed : Nat}
    (hu : ∀ v, v < g.nv → g.vw v = 1) (htm : nth t.tw 0 ≤ nth t.mx 0) :
    ∀ fuel (s : VQueue E.pq × Partitioning), BfsInv g (nth t.mx 0) seed s → UnitInv g (nth t.tw 0) s →
    s.1.size < fuel →
    Sat (bfsPriorityMove g (!g.unitVtx) (!g.unitEdge) t fuel s) (fun s' => BfsInv g (nth t.mx 0) seed s' ∧
      UnitInv g (nth t.tw 0) s') := by
  intro fuel
  induction fuel with
  | zero => intro s _ _ h; omega
  | succ fuel ih =>
    intro s h hU hf
    unfold bfsPriorityMove
    split
    · rename_i hs
      rw [h.part.rd_pw (by omega), ok_bind, rd_of_lt (by rw [ht.tw]; omega), ok_bind]
      split
      · rename_i hlt
        refine (bfsStep_full hg.plain ht h hs).bind fun s' hs' => ?_
        obtain ⟨h1, h2, v, hv, hl, hk, hm, -⟩ := hs'
        have hrel := hm (by rw [hu v hv]; omega)
        refine ih s' h1 ⟨?_, ?_⟩ (by omega)
        · intro u hun hul
          rw [hrel] at hul
          unfold relabel at hul
          split at hul
          · omega
          · rename_i hne
            rw [hk]
            simp [hne, hU.queued u hun hul]
        · rw [hrel]
          have := partWeight_relabel (q := 0) s.2.lab hv 0
          rw [if_neg (by omega), if_pos rfl, hu v hv] at this
          omega
      · exact ⟨h, hU⟩
    · exact ⟨h, hU⟩

theorem bfsGrow_unit {g : Graph} (hg : g.Good) {t : Target E.fp} (ht : t.Two)
    (hu : ∀ v, v < g.nv → g.vw v = 1) (htm : nth t.tw 0 ≤ nth t.mx 0) {seed : Nat} (hseed : seed < g.nv) :
    Sat (bfsGrow t g seed) (fun s => BfsInv g (nth t.mx 0) seed s ∧ UnitInv g (nth t.tw 0) s) := by
  obtain ⟨q0, p0, h1, h2, h3, h4⟩ := bfsGrow_start hg.plain (t := t) ht hseed
  rw [h1]
  refine bfsPriorityMove_unit hg ht hu htm _ _ h2 ⟨fun u hun _ => ?_, ?_⟩ h3
  · show (E.pq.key q0.q u).isSome
    rw [(h4 u).1]; split <;> simp_all
  · show partWeight g p0.lab 0 ≤ _
    rw [partWeight_all (q := 1) (fun v hv => (h4 v).2 hv) (by omega)]
    omega

theorem partWeight_two {g : Graph} {lab : Nat → Nat} (h : ∀ v, v < g.nv → lab v < 2) :
    partWeight g lab 0 + partWeight g lab 1 = g.sumVtx := by
  unfold partWeight Graph.sumVtx
  rw [← sum_add_distrib]
  refine sum_congr rfl fun v hv => ?_
  have := h v (mem_range.mp hv)
  rcases (show lab v = 0 ∨ lab v = 1 by omega) with h | h <;> simp [h]

theorem bfsFrom_null {g : Graph} (hg : g.Good) {t : Target E.fp} (ht : t.Two) (hf : g.unitVtx = true)
    (hw : g.vwgt = []) (htm : nth t.tw 0 ≤ nth t.mx 0) (hover : nth t.tw 0 + nth t.mx 1 < g.nv) {seed : Nat}
    (hseed : seed < g.nv) : bfsFrom t g seed = ub := by
  have hu : ∀ v, v < g.nv → g.vw v = 1 := by
    intro v hv
    unfold Graph.vw
    rw [hf]; rfl
  have hsum : g.sumVtx = g.nv := by
    unfold Graph.sumVtx
    rw [sum_congr rfl fun v hv => hu v (mem_range.mp hv)]
    simp
  obtain ⟨s, hs, h1, h2⟩ := sat_iff.mp (bfsGrow_unit hg ht hu htm hseed)
  have h3 := partWeight_two h1.part.complete
  have h4 := h2.low
  unfold bfsFrom
  rw [hs, ok_bind]
  obtain ⟨q, p⟩ := s
  simp only
  have hr : q.remaining ≠ [] := by
    intro he
    have : ∃ v, v < g.nv ∧ p.lab v = 1 := by
      by_contra hn
      have h0 : partWeight g p.lab 1 = 0 := by
        unfold partWeight
        refine sum_eq_zero fun v hv => ?_
        rw [if_neg fun h => hn ⟨v, mem_range.mp hv, h⟩]
      simp only at h3 h4
      omega
    obtain ⟨v, hv, hl⟩ := this
    have := (E.pq.mem_elems q.q v).mpr (h2.queued v hv hl)
    unfold VQueue.remaining at he
    rw [he] at this
    cases this
  have hb : bfsBalance t g q.remaining p = ub := by
    unfold bfsBalance
    rw [h1.part.rd_pw (by omega), ok_bind, rd_of_lt (by rw [ht.mx]; omega), ok_bind,
      if_pos (by simp only at h3 h4 ⊢; omega), if_pos hf]
    unfold bfsWeightBalance
    cases hq : q.remaining with
    | nil => exact absurd hq hr
    | cons v vs =>
      rw [List.foldlM_cons]
      unfold Graph.vwgtOf
      rw [if_pos rfl, hw]
      rfl
  rw [hb]
  rfl

/-- The initial bisection, and with it multilevel bisection of a small graph, reads the absent array. -/
theorem multilevel_null (hml : ∀ tot, tot < M32 → E.fp.MultilevelOK tot) (s : Scheme) {g : Graph} (hg : g.Good)
    {t : Target E.fp} (ht : t.Two) (hf : g.unitVtx = true) (hw : g.vwgt = []) (h0 : 0 < g.nv) (h20 : g.nv ≤ 20)
    (htm : nth t.tw 0 ≤ nth t.mx 0) (hover : nth t.tw 0 + nth t.mx 1 < g.nv) (r : E.rng.S) :
    (makeMultilevel E s).execute t g r = ub := by
  have hok := hml g.totVtx (by rw [hg.wf.tot_vtx]; exact Nat.mod_lt _ (by omega))
  obtain ⟨n, hn⟩ := Option.isSome_iff_exists.mp hok.cast
  unfold Multilevel.execute edgeRatioMake
  rw [hok.ratio_pos, hok.ratio_lt, if_neg (by decide), ok_bind]
  unfold FP.cast
  rw [hn, ok_bind]
  unfold Multilevel.recurse
  rw [mlStop_eq _ _ _ (Or.inl rfl), ok_bind, if_pos (by simp [mlStops, h20])]
  have hi : (makeMultilevel E s).init t g r = ub := by
    unfold makeMultilevel makeBisector multiBisect
    simp only
    rw [show List.range 8 = 0 :: (List.range 7).map (· + 1) from rfl, List.foldlM_cons]
    unfold multiStep bfsBisect
    simp only
    obtain ⟨x, hx, hle⟩ : ∃ x, E.rng.randInRange r 0 (usub g.nv 1) = ok x ∧ x.1 < g.nv := by
      have hsz : usub g.nv 1 = g.nv - 1 := by unfold usub; omega
      unfold RngImpl.randInRange
      rw [hsz, if_pos (by omega)]
      have := E.rng.rand_range r 0 (g.nv - 1) (by omega)
      exact ⟨E.rng.rand r 0 (g.nv - 1), rfl, by omega⟩
    rw [hx, ok_bind]
    rw [bfsFrom_null hg ht hf hw htm hover hle]
    rfl
  rw [hi]
  rfl

end Poros
