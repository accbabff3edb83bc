import Verif.Proofs.NullWeights
import Verif.Props.P30_Multilevel
/-
Breadth-first bisection of unit-weight graphs that never reaches the balancing fallback, and multilevel bisection
of graphs without a weight array.
-/
namespace Poros
open Finset Res

variable {E : Env}

theorem unit_sum {g : Graph} (hu : ∀ v, v < g.nv → g.vw v = 1) : g.sumVtx = g.nv := by
  unfold Graph.sumVtx
  rw [sum_congr rfl fun v hv => hu v (mem_range.mp hv)]
  simp

/-- The target and limits fit a graph of `n` vertices of weight one. -/
structure Fits (t : Target E.fp) (n : Nat) : Prop where
  left : nth t.tw 0 ≤ nth t.mx 0
  right : n ≤ nth t.tw 0 + nth t.mx 1

theorem bfsFrom_unit {g : Graph} (hg : g.Good) {t : Target E.fp} (ht : t.Two) (hu : ∀ v, v < g.nv → g.vw v = 1)
    (hf : Fits t g.nv) {seed : Nat} (hseed : seed < g.nv) :
    Sat (bfsFrom t g seed) (fun p => IsExact g 2 p ∧ partWeight g p.lab 0 ≤ nth t.tw 0 ∧
      partWeight g p.lab 1 ≤ nth t.mx 1) := by
  obtain ⟨s, hs, h1, h2⟩ := sat_iff.mp (bfsGrow_unit hg ht hu hf.left hseed)
  obtain ⟨s', hs', -, h3⟩ := sat_iff.mp (bfsGrow_spec hg.plain ht hseed)
  rw [hs] at hs'
  cases hs'
  have hsum := partWeight_two h1.part.complete
  rw [unit_sum hu] at hsum
  have hr := hf.right
  have h4 : partWeight g s.2.lab 1 ≤ nth t.mx 1 := by
    rcases h3 with h | h
    · have : partWeight g s.2.lab 1 = 0 := by
        unfold partWeight
        refine sum_eq_zero fun v hv => ?_
        rw [if_neg]
        intro hl
        have := (E.pq.mem_elems s.1.q v).mpr (h2.queued v (mem_range.mp hv) hl)
        have hp := List.length_pos_of_mem this
        unfold VQueue.size at h
        omega
      omega
    · omega
  unfold bfsFrom
  rw [hs, ok_bind]
  obtain ⟨q, p⟩ := s
  simp only at h1 h2 h4 ⊢
  have hb : bfsBalance t g q.remaining p = ok p := by
    unfold bfsBalance
    rw [h1.part.rd_pw (by omega), ok_bind, rd_of_lt (by rw [ht.mx]; omega), ok_bind, if_neg (by simpa using h4)]
  rw [hb, ok_bind]
  refine (h1.part.recalcCut hg.wf hg.symm hg.small).mono fun p' hp' => ?_
  have hlab : p'.lab = p.lab := by unfold Partitioning.lab; rw [hp'.2]
  rw [hlab]
  exact ⟨hp'.1, h2.low, h4⟩

theorem bfsBisect_unit {g : Graph} (hg : g.Good) {t : Target E.fp} (ht : t.Two) (hu : ∀ v, v < g.nv → g.vw v = 1)
    (hf : Fits t g.nv) (h0 : 0 < g.nv) (r : E.rng.S) :
    Sat (bfsBisect t g r) (fun o => IsExact g 2 o.1 ∧ partWeight g o.1.lab 0 ≤ nth t.tw 0 ∧
      partWeight g o.1.lab 1 ≤ nth t.mx 1) := by
  have hnv := hg.wf.nv_lt
  unfold bfsBisect RngImpl.randInRange
  rw [if_pos (Nat.zero_le _), ok_bind]
  have hr := E.rng.rand_range r 0 (usub g.nv 1) (Nat.zero_le _)
  rw [usub_eq (by omega) (by omega)] at hr
  rw [usub_eq (by omega) (by omega)]
  exact (bfsFrom_unit hg ht hu hf (seed := (E.rng.rand r 0 (g.nv - 1)).1) (by omega)).bind fun p hp => hp

/-- A small or edgeless graph is not coarsened: multilevel bisection is initial bisection. -/
theorem execute_coarsest' (hml : ∀ tot, tot < M32 → E.fp.MultilevelOK tot) (s : Scheme) {g : Graph} (hg : g.WF)
    (hstop : g.nv ≤ 20 ∨ g.ne = 0) (t : Target E.fp) (r : E.rng.S) :
    (makeMultilevel E s).execute t g r = (do
      let o ← makeBisector E .bfs 8 t g r
      let _ ← Conn.fromPartitioning E.set g o.1
      ok o) := by
  have hok := hml g.totVtx (by rw [hg.tot_vtx]; exact Nat.mod_lt _ (by omega))
  obtain ⟨n, hn⟩ := Option.isSome_iff_exists.mp hok.cast
  unfold Multilevel.execute edgeRatioMake
  rw [hok.ratio_pos, hok.ratio_lt, if_neg (by decide), ok_bind]
  unfold FP.cast
  rw [hn, ok_bind]
  unfold Multilevel.recurse
  rw [mlStop_eq _ _ _ (Or.inl rfl), ok_bind, if_pos (by rcases hstop with h | h <;> simp [mlStops, h])]
  show ((makeBisector E .bfs 8 t g r >>= _) >>= _) = _
  cases makeBisector E .bfs 8 t g r with
  | ok o =>
    simp only [ok_bind]
    cases Conn.fromPartitioning E.set g o.1 <;> rfl
  | ub => rfl
  | exn => rfl
  | diverge => rfl

theorem execute_coarsest (hml : ∀ tot, tot < M32 → E.fp.MultilevelOK tot) (s : Scheme) {g : Graph} (hg : g.Good)
    (hstop : g.nv ≤ 20 ∨ g.ne = 0) (t : Target E.fp) (r : E.rng.S) :
    (makeMultilevel E s).execute t g r = (do
      let o ← makeBisector E .bfs 8 t g r
      let _ ← Conn.fromPartitioning E.set g o.1
      ok o) := execute_coarsest' hml s hg.wf hstop t r

theorem multilevel_unit (hml : ∀ tot, tot < M32 → E.fp.MultilevelOK tot) (s : Scheme) {g : Graph} (hg : g.Good)
    (hstop : g.nv ≤ 20 ∨ g.ne = 0) {t : Target E.fp} (ht : t.Two) (hu : ∀ v, v < g.nv → g.vw v = 1)
    (hf : Fits t g.nv) (h0 : 0 < g.nv) (r : E.rng.S) :
    Sat ((makeMultilevel E s).execute t g r) (fun o => IsExact g 2 o.1 ∧ partWeight g o.1.lab 0 ≤ nth t.tw 0 ∧
      partWeight g o.1.lab 1 ≤ nth t.mx 1) := by
  rw [execute_coarsest hml s hg hstop]
  have := multiBisect_spec (E := E) (B := False) ht (R := fun p => IsExact g 2 p ∧ partWeight g p.lab 0 ≤ nth t.tw 0 ∧
      partWeight g p.lab 1 ≤ nth t.mx 1) (fun r => (bfsBisect_unit hg ht hu hf h0 r).mono fun o ho => ⟨ho.1, ho⟩)
      (by omega : 0 < 8) r
  refine (show Sat (makeBisector E .bfs 8 t g r) _ from this).bind fun o ho => ?_
  exact (fromPartitioning_spec E.set hg.wf hg.small ho.1.1.asg_len).bind fun _ _ => ho.1

/-- The same graph with limits that do not fit: the absent array is read. -/
theorem multilevel_null' (hml : ∀ tot, tot < M32 → E.fp.MultilevelOK tot) (s : Scheme) {g : Graph} (hg : g.Good)
    (hstop : g.nv ≤ 20 ∨ g.ne = 0) {t : Target E.fp} (ht : t.Two) (hf : g.unitVtx = true) (hw : g.vwgt = [])
    (h0 : 0 < g.nv) (htm : nth t.tw 0 ≤ nth t.mx 0) (hover : nth t.tw 0 + nth t.mx 1 < g.nv) (r : E.rng.S) :
    (makeMultilevel E s).execute t g r = ub := by
  rw [execute_coarsest hml s hg hstop]
  have hi : makeBisector E .bfs 8 t g r = ub := by
    unfold makeBisector multiBisect
    simp only
    rw [show List.range 8 = 0 :: (List.range 7).map (· + 1) from rfl, List.foldlM_cons]
    unfold multiStep bfsBisect
    simp only
    obtain ⟨x, hx, hle⟩ : ∃ x, E.rng.randInRange r 0 (usub g.nv 1) = ok x ∧ x.1 < g.nv := by
      have hsz : usub g.nv 1 = g.nv - 1 := usub_eq (by omega) (by have := hg.wf.nv_lt; omega)
      unfold RngImpl.randInRange
      rw [hsz, if_pos (by omega)]
      have := E.rng.rand_range r 0 (g.nv - 1) (by omega)
      exact ⟨E.rng.rand r 0 (g.nv - 1), rfl, by omega⟩
    rw [hx, ok_bind]
    rw [bfsFrom_null hg ht hf hw htm hover hle]
    rfl
  rw [hi]
  rfl

/-- A graph that is coarsened needs no weight array: the coarser graphs have one. -/
theorem multilevel_coarsened (hml : ∀ tot, tot < M32 → E.fp.MultilevelOK tot)
    (hbad : ∀ n, n < NULL32 → E.fp.BadMovesOK n) (s : Scheme) {g : Graph} (hg : g.Good) (h20 : 20 < g.nv)
    (hne : g.ne ≠ 0) {t : Target E.fp} (ht : t.Two) (r : E.rng.S) :
    Sat ((makeMultilevel E s).execute t g r) (fun o => IsExact g 2 o.1) := by
  have hok := hml g.totVtx (by rw [hg.wf.tot_vtx]; exact Nat.mod_lt _ (by omega))
  obtain ⟨maxW, hn⟩ := Option.isSome_iff_exists.mp hok.cast
  have hm := makeMultilevel_contract (E := E) (B := False) s ht g.totVtx (fun h => h hbad)
  unfold Multilevel.execute edgeRatioMake
  rw [hok.ratio_pos, hok.ratio_lt, if_neg (by decide), ok_bind]
  unfold FP.cast
  rw [hn, ok_bind]
  suffices h : Sat ((makeMultilevel E s).recurse maxW
      (compositeStop [vertexNumberStop 20, edgeRatioStop E.fp (E.fp.lit 95 2)]) t (g.ne + 2) 0 none g r)
      (fun o => IsExact g 2 o.1.1) from h.bind fun o ho => ho
  unfold Multilevel.recurse
  rw [mlStop_eq _ _ _ (Or.inl rfl), ok_bind, if_neg (by simp [mlStops, hne]; omega)]
  refine (hm.agg g maxW r hg.wf hg.noLoop).bind fun o ho => ?_
  obtain ⟨ha, hnc⟩ := ho
  have hsm := hg.small
  have hse := hsm.edge
  refine (CoarseGraph.make_spec hg.wf (by omega) hsm.vtx ha
    (lt_of_le_of_lt hnc hg.wf.nv_lt)).bind fun cg hc => ?_
  have hcg := hc.con.good ha hg
  have hK : (False ∨ (0 < cg.coarse.nv ∧ HasWeights cg.coarse)) ∧ cg.coarse.totVtx = g.totVtx := by
    refine ⟨Or.inr ⟨?_, ?_⟩, hc.con.totVtx ha hg.wf⟩
    · rw [hc.con.nv]; have := ha.lt 0 (by omega); omega
    · intro hu; rw [hc.con.unitV] at hu; cases hu
  refine (Multilevel.recurse_spec hm maxW (fun h => h hok.self) (g.ne + 1) 1 (some g) cg.coarse o.2 hcg hK
    (Or.inr rfl) (fun p hp => by cases hp; exact hc.con.ne_le) (Or.inl (by simp))).bind fun i hi => ?_
  refine (project_spec hg.wf hg.symm hsm ha hc (by omega) hi.1 hi.2.1).bind fun f hf => ?_
  refine (fmRefine_spec (B := False) hg ht 8 150 hf.exact hf.conn (fun h => h (hbad _ hg.wf.nv_lt))).bind
    fun o ho => ?_
  exact ho.1

end Poros
