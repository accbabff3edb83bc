import Verif.Proofs.DebugApi
import Verif.Proofs.NullWeights
import Verif.Proofs.NullSafe
import Verif.Proofs.DebugLone
import Verif.Props.P95_DebugFM
/-
Calls that stop at an assertion.
-/
namespace Poros
open Finset Res

variable {E : Env}

/-! ### unit weights that do not fit -/

theorem bfsFromD_unit_stops {g : Graph} (hg : g.Good) {t : Target E.fp} (ht : t.Two) (hf : g.unitVtx = true)
    (htm : nth t.tw 0 ≤ nth t.mx 0) (hover : nth t.tw 0 + nth t.mx 1 < g.nv) {seed : Nat}
    (hseed : seed < g.nv) : bfsFromD t g seed = exn := by
  have hu : ∀ v, v < g.nv → g.vw v = 1 := by
    intro v hv
    unfold Graph.vw
    rw [hf]; rfl
  have hsum : g.sumVtx = g.nv := unit_sum hu
  obtain ⟨s, hs, h1, h2⟩ := sat_iff.mp (bfsGrow_unit hg ht hu htm hseed)
  have h3 := partWeight_two h1.part.complete
  have h4 := h2.low
  unfold bfsFromD
  rw [check_bind ht.k, bfsGrowD_eq hg ht, hs, ok_bind]
  obtain ⟨q, p⟩ := s
  simp only
  have hr : q.remaining ≠ [] := by
    intro he
    have : ∃ v, v < g.nv ∧ p.lab v = 1 := by
      by_contra hn
      have h0 : partWeight g p.lab 1 = 0 := by
        unfold partWeight
        refine sum_eq_zero fun v hv => ?_
        rw [if_neg fun h => hn ⟨v, mem_range.mp hv, h⟩]
      simp only at h3 h4
      omega
    obtain ⟨v, hv, hl⟩ := this
    have := (E.pq.mem_elems q.q v).mpr (h2.queued v hv hl)
    unfold VQueue.remaining at he
    rw [he] at this
    cases this
  have hb : bfsBalanceD t g q.remaining p = exn := by
    unfold bfsBalanceD
    rw [h1.part.rd_pw (by omega), ok_bind, rd_of_lt (by rw [ht.mx]; omega), ok_bind,
      if_pos (by simp only at h3 h4 ⊢; omega), if_pos hf]
    unfold bfsWeightBalanceD
    cases hq : q.remaining with
    | nil => exact absurd hq hr
    | cons v vs =>
      rw [List.foldlM_cons]
      unfold Graph.vwgtTrueD
      rw [check_false (by rw [hf]; simp)]
      rfl
  rw [hb]
  rfl

theorem multiBisectD_unit_stops {g : Graph} (hg : g.Good) {t : Target E.fp} (ht : t.Two) (hf : g.unitVtx = true)
    (h0 : 0 < g.nv) (htm : nth t.tw 0 ≤ nth t.mx 0) (hover : nth t.tw 0 + nth t.mx 1 < g.nv) (r : E.rng.S) :
    multiBisectD 8 bfsBisectD t g r = exn := by
  unfold multiBisectD Partitioning.freshD
  rw [check_bind (by omega), ok_bind, show List.range 8 = 0 :: (List.range 7).map (· + 1) from rfl, List.foldlM_cons]
  unfold multiStepD bfsBisectD
  simp only
  obtain ⟨x, hx, hle⟩ : ∃ x, E.rng.randInRange r 0 (usub g.nv 1) = ok x ∧ x.1 < g.nv := by
    have hsz : usub g.nv 1 = g.nv - 1 := usub_eq (by omega) (by have := hg.wf.nv_lt; omega)
    unfold RngImpl.randInRange
    rw [hsz, if_pos (by omega)]
    have := E.rng.rand_range r 0 (g.nv - 1) (by omega)
    exact ⟨E.rng.rand r 0 (g.nv - 1), rfl, by omega⟩
  rw [hx, ok_bind, bfsFromD_unit_stops hg ht hf htm hover hle]
  rfl

theorem executeD_unit_stops (hml : ∀ tot, tot < M32 → E.fp.MultilevelOK tot) (s : Scheme) {g : Graph} (hg : g.Good)
    (hstop : g.nv ≤ 20 ∨ g.ne = 0) {t : Target E.fp} (ht : t.Two) (hf : g.unitVtx = true)
    (h0 : 0 < g.nv) (htm : nth t.tw 0 ≤ nth t.mx 0) (hover : nth t.tw 0 + nth t.mx 1 < g.nv) (r : E.rng.S) :
    (makeMultilevelD E s).executeD t g r = exn := by
  have hok := hml g.totVtx (by rw [hg.wf.tot_vtx]; exact Nat.mod_lt _ (by omega))
  obtain ⟨n, hn⟩ := Option.isSome_iff_exists.mp hok.cast
  unfold Multilevel.executeD edgeRatioMake
  rw [hok.ratio_pos, hok.ratio_lt, if_neg (by decide), ok_bind]
  unfold FP.cast
  rw [hn, ok_bind]
  unfold Multilevel.recurseD
  rw [mlStop_eq _ _ _ (Or.inl rfl), ok_bind, if_pos (by rcases hstop with h | h <;> simp [mlStops, h])]
  show ((multiBisectD 8 bfsBisectD t g r >>= _) >>= _) = _
  rw [multiBisectD_unit_stops hg ht hf h0 htm hover]
  rfl

/-! ### the call stops with its first run -/

theorem rbExecuteD_exn {d : Bisector E} {t : Target E.fp} (hk : 2 ≤ t.k) (hk' : t.k < M32) (htw : t.tw.length = t.k)
    (hmx : t.mx.length = t.k) (hfp : E.fp.RecursiveOK) (hf : WeightsFit NULL32 t.tw t.mx) {g : Graph} {r : E.rng.S}
    (h : ∀ bt : Target E.fp, IsHalvesTarget t.tw t.mx bt → d bt g r = exn) : rbExecuteD d t g r = exn := by
  have := makeHalves_spec (fp := E.fp) (bu := False) (be := False) (bd := False) hk hk' htw hmx (M := NULL32)
    (by decide) (Or.inl ⟨hfp, hf⟩)
  obtain ⟨hh, h1, hnum, fr, h2, h3⟩ := sat_iff.mp (Wp.post.mp this)
  unfold rbExecuteD
  obtain ⟨n, hn⟩ : ∃ n, t.k = n + 1 := ⟨t.k - 1, by omega⟩
  rw [hn]
  unfold rbRecurseD
  rcases makeHalvesD_close (H := False) htw hmx (fun h => h.elim) with hD | ⟨-, hD⟩
  · rw [hD, h1, ok_bind, h2, ok_bind, h _ h3]
    rfl
  · rw [hD]
    rfl

theorem callD_exn {i : Input} {o : Options E.fp} {P : Prepared E} (hp : prepare E i o = ok P)
    (hc : 0 < o.numGlobalCuts) (hu : ∀ r, partitionerD E P.scheme P.target P.graph r = exn) (out : Out) :
    partGraphRecursiveD E i (some o) out = (out, exn) := by
  obtain ⟨n, hn⟩ : ∃ n, o.numGlobalCuts.toNat = n + 1 := ⟨o.numGlobalCuts.toNat - 1, by omega⟩
  unfold partGraphRecursiveD
  simp only
  rw [hp]
  simp only [andThen, hn, cutsLoop, hu]

/-! ### fractions that are not positive -/

theorem multiBisectD_fraction {g : Graph} {t : Target E.fp} (ht : t.Two) (hg : g.Good) {q : Nat} (hq : q < 2)
    (hf : E.fp.lt (E.fp.lit 0 0) (nth t.frac q) = false) {r : E.rng.S} {o : Partitioning × E.rng.S}
    (h : multiBisectD 8 bfsBisectD t g r = ok o) : False := by
  unfold multiBisectD Partitioning.freshD at h
  rw [check_bind (by omega), ok_bind, show List.range 8 = 0 :: (List.range 7).map (· + 1) from rfl, List.foldlM_cons] at h
  obtain ⟨s, hs, -⟩ := bind_eq_ok h
  obtain ⟨s', hs, -⟩ := bind_eq_ok hs
  unfold multiStepD at hs
  obtain ⟨p, hp, hs⟩ := bind_eq_ok hs
  obtain ⟨b, hb, -⟩ := bind_eq_ok hs
  have hp' : bfsBisect t g r = ok p := by
    rcases bfsBisectD_close (H := False) hg ht (fun h => h.elim) r with h | ⟨-, h⟩
    · rw [← h]; exact hp
    · have : bfsBisectD t g r = ok p := hp
      rw [h] at this; cases this
  obtain ⟨_, _, _, _, hx⟩ := (bfsBisect_spec (B := True) hg ht (fun _ => trivial) r).elim_ok hp'
  rw [calcMaxImbalanceD_bad ht hx.exact hq hf] at hb
  cases hb

theorem recurseD_fraction {t : Target E.fp} (ht : t.Two) {q : Nat} (hq : q < 2)
    (hf : E.fp.lt (E.fp.lit 0 0) (nth t.frac q) = false) (s : Scheme) (maxW : Nat) (stop : Criterion) :
    ∀ fuel level parent (g : Graph) r o, g.Good → (makeMultilevelD E s).recurseD maxW stop t fuel level parent g r = ok o →
      False := by
  intro fuel
  induction fuel with
  | zero => intro _ _ _ _ _ _ h; cases h
  | succ fuel ih =>
    intro level parent g r o hg h
    unfold Multilevel.recurseD at h
    obtain ⟨b, -, h⟩ := bind_eq_ok h
    split at h
    · obtain ⟨p, hp, -⟩ := bind_eq_ok h
      exact multiBisectD_fraction ht hg hq hf hp
    · obtain ⟨a, ha, h⟩ := bind_eq_ok h
      obtain ⟨cg, hcg, h⟩ := bind_eq_ok h
      obtain ⟨i, hi, -⟩ := bind_eq_ok h
      have ha : aggregateD E s maxW g r = ok a := ha
      rw [aggregateD_eq] at ha
      obtain ⟨f, hf1, hf2, hf3⟩ := (aggregate_spec E s hg.wf hg.noLoop maxW r).elim_ok ha
      have hok := hf2.ok
      have hnc : a.1.nc < NULL32 := lt_of_le_of_lt hf2.size.1 hg.wf.nv_lt
      have hsm := hg.small
      have hse := hsm.edge
      have hcg' : CoarseGraph.make g a.1 = ok cg := by
        rcases makeD_close (H := False) hg (fun h => h.elim) hok hnc with h | ⟨-, h⟩
        · rw [← h]; exact hcg
        · rw [h] at hcg; cases hcg
      have hc := (CoarseGraph.make_spec hg.wf (by omega) hsm.vtx hok hnc).elim_ok hcg'
      exact ih _ _ _ _ _ (hc.con.good hok hg) hi

theorem executeD_fraction {t : Target E.fp} (ht : t.Two) {q : Nat} (hq : q < 2)
    (hf : E.fp.lt (E.fp.lit 0 0) (nth t.frac q) = false) (s : Scheme) {g : Graph} (hg : g.Good) {r : E.rng.S}
    {o : Partitioning × E.rng.S} (h : (makeMultilevelD E s).executeD t g r = ok o) : False := by
  unfold Multilevel.executeD at h
  obtain ⟨_, -, h⟩ := bind_eq_ok h
  obtain ⟨_, -, h⟩ := bind_eq_ok h
  obtain ⟨i, hi, -⟩ := bind_eq_ok h
  exact recurseD_fraction ht hq hf s _ _ _ _ _ _ _ _ hg hi

/-! ### a vertex without edges of positive weight -/

theorem executeD_lone {t : Target E.fp} (ht : t.Two) (s : Scheme) {g : Graph} (hg : g.Good) (h20 : 20 < g.nv)
    (h25 : g.nv ≤ 25) (hne : g.ne ≠ 0) {w : Nat} (hw : Weightless g w) {r : E.rng.S}
    {o : Partitioning × E.rng.S} (h : (makeMultilevelD E s).executeD t g r = ok o) : False := by
  unfold Multilevel.executeD at h
  obtain ⟨ratio, hratio, h⟩ := bind_eq_ok h
  have : ratio = edgeRatioStop E.fp (E.fp.lit 95 2) := by
    unfold edgeRatioMake at hratio
    split at hratio
    · cases hratio
    · exact (Res.ok.inj hratio).symm
  subst this
  obtain ⟨maxW, hmax, h⟩ := bind_eq_ok h
  obtain ⟨i, hi, -⟩ := bind_eq_ok h
  unfold Multilevel.recurseD at hi
  rw [mlStop_eq _ _ _ (Or.inl rfl), ok_bind, if_neg (by simp [mlStops, hne]; omega)] at hi
  obtain ⟨a, ha, hi⟩ := bind_eq_ok hi
  obtain ⟨cg, hcg, hi⟩ := bind_eq_ok hi
  obtain ⟨info, hinfo, hi⟩ := bind_eq_ok hi
  obtain ⟨fine, hfine, hi⟩ := bind_eq_ok hi
  obtain ⟨out, hout, -⟩ := bind_eq_ok hi
  have ha : aggregateD E s maxW g r = ok a := ha
  rw [aggregateD_eq] at ha
  obtain ⟨f, hf1, hf2, hf3⟩ := (aggregate_spec E s hg.wf hg.noLoop maxW r).elim_ok ha
  have hok := hf2.ok
  have hnc : a.1.nc < NULL32 := lt_of_le_of_lt hf2.size.1 hg.wf.nv_lt
  have hsm := hg.small
  have hse := hsm.edge
  have hcg' : CoarseGraph.make g a.1 = ok cg := by
    rcases makeD_close (H := False) hg (fun h => h.elim) hok hnc with h | ⟨-, h⟩
    · rw [← h]; exact hcg
    · rw [h] at hcg; cases hcg
  have hc := (CoarseGraph.make_spec hg.wf (by omega) hsm.vtx hok hnc).elim_ok hcg'
  have hcgood := hc.con.good hok hg
  have hrec := recurseD_close (H := False) s ht (fun h => h.elim) maxW (g.ne + 1) 1 (some g) cg.coarse a.2 hcgood
    (fun h => h.elim) (Or.inr rfl) (Or.inr hc.con.unitV)
  have hinfo' : (makeMultilevel E s).recurse maxW (compositeStop [vertexNumberStop 20, edgeRatioStop E.fp (E.fp.lit 95 2)])
      t (g.ne + 1) 1 (some g) cg.coarse a.2 = ok info := by
    rcases hrec with h | ⟨-, h⟩
    · rw [← h]; exact hinfo
    · have hinfo : (makeMultilevelD E s).recurseD maxW (compositeStop [vertexNumberStop 20, edgeRatioStop E.fp (E.fp.lit 95 2)])
          t (g.ne + 1) 1 (some g) cg.coarse a.2 = ok info := hinfo
      rw [h] at hinfo; cases hinfo
  obtain ⟨i1, i2, -⟩ := (Multilevel.recurse_spec (B := True)
    (makeMultilevel_contract s ht cg.coarse.totVtx (fun _ => trivial)) maxW (fun _ => trivial) (g.ne + 1) 1
    (some g) cg.coarse a.2 hcgood ⟨Or.inl trivial, rfl⟩ (Or.inr rfl) (fun p hp => by cases hp; exact hc.con.ne_le)
    (Or.inr trivial)).elim_ok hinfo'
  rw [projectD_eq (by rw [i1.pw_len]; omega)] at hfine
  have hp := (project_spec hg.wf hg.symm hsm hok hc (by omega) i1 i2).elim_ok hfine
  have hout : fmRefineD g t 8 150 fine.1 fine.2 = ok out := hout
  have hb : ∃ b, maxBadMoves E.fp 150 g.nv = ok b ∧ 25 ≤ b := by
    unfold fmRefineD at hout
    obtain ⟨b, hb, -⟩ := bind_eq_ok hout
    refine ⟨b, hb, ?_⟩
    unfold maxBadMoves at hb
    obtain ⟨x, -, hb⟩ := bind_eq_ok hb
    have := Res.ok.inj hb
    omega
  obtain ⟨b, hb, hb25⟩ := hb
  rw [fmRefineD_lone hg hw ht (by omega) hb (by omega) hp.exact hp.conn] at hout
  cases hout

/-- If the bisector of the debug build never returns, neither does its partitioner. -/
theorem partitionerD_never {s : Scheme} {t : Target E.fp} (hk : 2 ≤ t.k) (hk' : t.k < M32) (htw : t.tw.length = t.k)
    (hmx : t.mx.length = t.k) {g : Graph}
    (h : ∀ (bt : Target E.fp) r o, IsHalvesTarget t.tw t.mx bt → (makeMultilevelD E s).executeD bt g r = ok o → False)
    {r : E.rng.S} {o : Partitioning × E.rng.S} (ho : partitionerD E s t g r = ok o) : False := by
  unfold partitionerD rbExecuteD at ho
  obtain ⟨n, hn⟩ : ∃ n, t.k = n + 1 := ⟨t.k - 1, by omega⟩
  rw [hn] at ho
  unfold rbRecurseD at ho
  obtain ⟨x, hx, -⟩ := bind_eq_ok ho
  obtain ⟨hh, hh1, hx⟩ := bind_eq_ok hx
  obtain ⟨bt, hbt, hx⟩ := bind_eq_ok hx
  obtain ⟨y, hy, -⟩ := bind_eq_ok hx
  have hh1' := makeHalvesD_sim _ _ hh1
  obtain ⟨hnum, fr, hof, hH⟩ := (makeHalves_spec (bu := True) (be := True) (bd := True) hk hk' htw hmx
      (M := NULL32) (by omega) (Or.inr trivial)).elim_ok hh1'
  rw [hof] at hbt
  cases hbt
  exact h _ _ _ hH hy

/-- If the release build returns from a call whose partitioner never returns in the debug build, the latter stops at an
assertion. -/
theorem callD_never {i : Input} {o : Options E.fp} {P : Prepared E} (hp : prepare E i o = ok P) (hP : PreparedOK i o P)
    (hk : 2 ≤ i.numPartitions) (hk' : i.numPartitions < 2 ^ 32) (hc : 0 < o.numGlobalCuts)
    (hn : ∀ r x, partitionerD E P.scheme P.target P.graph r = ok x → False)
    (hrel : ∀ r, ∃ x, partitioner E P.scheme P.target P.graph r = ok x) (out : Out) :
    partGraphRecursiveD E i (some o) out = (out, exn) := by
  refine callD_exn hp hc (fun r => ?_) out
  obtain ⟨x, hx⟩ := hrel r
  rcases partitionerD_close (H := False) P.scheme (by rw [hP.k]; exact hk) (by rw [hP.k]; simpa using hk') hP.tw hP.mx
    hP.good (fun h => h.elim) r with h | ⟨-, h⟩
  · rw [hx] at h
    exact (hn _ _ h).elim
  · exact h

end Poros
