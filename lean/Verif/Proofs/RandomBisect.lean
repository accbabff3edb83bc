import Verif.Proofs.BFS
import Verif.SpecBisect
/-
Random bisection, random bisection with refinement, repeated bisection.
-/
namespace Poros
open Finset Res

variable {E : Env}

theorem bfsBisect_spec {B : Prop} {g : Graph} (hg : g.Good) {t : Target E.fp} (ht : t.Two)
    (hB : ¬ (0 < g.nv ∧ (g.unitVtx = true → g.vwgt.length = g.nv)) → B) (r : E.rng.S) :
    Post B (bfsBisect t g r) (fun o => ∃ seed, ∃ s : VQueue E.pq × Partitioning, seed < g.nv ∧
      bfsGrow t g seed = ok s ∧ BfsOut g t s.2.lab o.1) := by
  have hnv := hg.wf.nv_lt
  unfold bfsBisect RngImpl.randInRange
  rw [if_pos (Nat.zero_le _), ok_bind]
  by_cases h0 : 0 < g.nv
  · have hr := E.rng.rand_range r 0 (usub g.nv 1) (Nat.zero_le _)
    rw [usub_eq (by omega) (by omega)] at hr
    rw [usub_eq (by omega) (by omega)]
    refine (bfsFrom_spec hg ht (seed := (E.rng.rand r 0 (g.nv - 1)).1) (by omega) (fun h => hB fun h' => h h'.2)).bind
      fun p hp => ?_
    obtain ⟨s, h1, h2⟩ := hp
    exact ⟨_, s, by omega, h1, h2⟩
  · have hn : g.nv = 0 := by omega
    have hb : bfsFrom t g (E.rng.rand r 0 (usub g.nv 1)).1 = ub := by
      unfold bfsFrom bfsGrow VQueue.add
      rw [if_pos (by show g.nv ≤ _; omega)]
      rfl
    simp only
    rw [hb]
    exact hB fun h => h0 h.1

/-! ### random bisection -/

theorem partWeight_two {g : Graph} {lab : Nat → Nat} (h : ∀ v, v < g.nv → lab v < 2) :
    partWeight g lab 0 + partWeight g lab 1 = g.sumVtx := by
  unfold partWeight Graph.sumVtx
  rw [← Finset.sum_add_distrib]
  refine Finset.sum_congr rfl fun v hv => ?_
  have := h v (Finset.mem_range.mp hv)
  have h2 : lab v = 0 ∨ lab v = 1 := by omega
  rcases h2 with h2 | h2 <;> simp [h2]


/-- The left side is not too heavy. -/
def LeftOK (g : Graph) (t : Target E.fp) (p : Partitioning) : Prop :=
  Weighed g 2 p ∧ partWeight g p.lab 0 ≤ nth t.mx 0

theorem fillLeft_spec {g : Graph} (hg : g.Good) {t : Target E.fp} (ht : t.Two) :
    ∀ (order : List Nat) (p : Partitioning), (∀ v ∈ order, v < g.nv ∧ p.lab v = 1) → order.Nodup → LeftOK g t p →
    Sat (fillLeft g (!g.unitVtx) t order p) (LeftOK g t) := by
  intro order
  have hsv := hg.small.vtx
  induction order with
  | nil => intro p _ _ h; exact h
  | cons v vs ih =>
    intro p ho hnd h
    obtain ⟨hv, hl⟩ := ho v (by simp)
    unfold fillLeft
    rw [h.1.rd_pw (by omega), ok_bind, Graph.vwgtOf_eq hg.wf hv, ok_bind, rd_of_lt (by rw [ht.mx]; omega), ok_bind]
    have hroom := partWeight_room (g := g) p.lab (q := 0) hv (by omega)
    rw [uadd_eq (by omega)]
    split
    · exact h
    · rename_i hle
      rw [h.1.calcMaxImbalance ht, ok_bind]
      refine (h.1.move hg.wf hg.small (by omega) hv (by omega) (by omega)).bind fun p' hp => ?_
      obtain ⟨hp1, hp2, -⟩ := hp
      have hpw := partWeight_relabel (q := 0) p.lab hv 0
      rw [if_neg (by omega), if_pos rfl, ← hp2] at hpw
      rw [hp1.calcMaxImbalance ht, ok_bind]
      split
      · have hl0 : p'.lab v = 0 := by rw [hp2]; simp [relabel]
        refine (hp1.move hg.wf hg.small (by omega) hv (q := 1) (by omega) (by omega)).mono fun p'' hp'' => ?_
        refine ⟨hp''.1, ?_⟩
        have := partWeight_relabel (q := 1) p'.lab hv 0
        rw [if_pos hl0, if_neg (by omega), ← hp''.2.1] at this
        omega
      · refine ih p' (fun u hu => ?_) hnd.of_cons ⟨hp1, by omega⟩
        obtain ⟨h1, h2⟩ := ho u (by simp [hu])
        refine ⟨h1, ?_⟩
        have : u ≠ v := fun e => (List.nodup_cons.mp hnd).1 (e ▸ hu)
        rw [hp2]; unfold relabel; rw [if_neg this]; exact h2

theorem weightPairs_spec {g : Graph} (hg : g.WF) {p : Partitioning} (hp : p.asg.length = g.nv) :
    Sat (weightPairs g (!g.unitVtx) p) (fun s =>
      (∀ e ∈ s.1, e.1 < g.nv ∧ p.lab e.1 = 0 ∧ e.2 = g.vw e.1) ∧
      (∀ e ∈ s.2, e.1 < g.nv ∧ p.lab e.1 ≠ 0 ∧ e.2 = g.vw e.1) ∧
      (∀ v, v < g.nv → p.lab v ≠ 0 → (v, g.vw v) ∈ s.2)) := by
  unfold weightPairs
  refine Post_foldlM_range (fun m (s : List (Nat × Nat) × List (Nat × Nat)) =>
      (∀ e ∈ s.1, e.1 < g.nv ∧ p.lab e.1 = 0 ∧ e.2 = g.vw e.1) ∧
      (∀ e ∈ s.2, e.1 < g.nv ∧ p.lab e.1 ≠ 0 ∧ e.2 = g.vw e.1) ∧
      (∀ v, v < m → p.lab v ≠ 0 → (v, g.vw v) ∈ s.2)) ?_ ?_
  · exact ⟨by simp, by simp, by simp⟩
  · intro v s hv ⟨h1, h2, h3⟩
    rw [Graph.vwgtOf_eq hg hv, ok_bind, rd_of_lt (by omega), ok_bind]
    split
    · rename_i ha
      refine ⟨?_, h2, ?_⟩
      · intro e he
        rcases List.mem_append.mp he with he | he
        · exact h1 e he
        · simp at he; subst he; exact ⟨hv, ha, rfl⟩
      · intro u hu hl
        rcases Nat.lt_succ_iff_lt_or_eq.mp hu with h | h
        · exact h3 u h hl
        · subst h; exact absurd ha hl
    · rename_i ha
      refine ⟨h1, ?_, ?_⟩
      · intro e he
        rcases List.mem_cons.mp he with he | he
        · subst he; exact ⟨hv, ha, rfl⟩
        · exact h2 e he
      · intro u hu hl
        rcases Nat.lt_succ_iff_lt_or_eq.mp hu with h | h
        · exact List.mem_cons_of_mem _ (h3 u h hl)
        · subst h; exact List.mem_cons_self

theorem sortPairs_perm (l : List (Nat × Nat)) : (sortPairs E l).Perm l := by
  unfold sortPairs
  have h := (E.rng.sort_perm (l.map Prod.snd)).map (nth l)
  refine h.trans ?_
  have : (List.range (l.map Prod.snd).length).map (nth l) = l := by
    refine list_ext_nth (by simp) fun i hi => ?_
    have hi' : i < l.length := by simpa using hi
    rw [nth_map (by simpa using hi'), nth_range (by simpa using hi')]
  rw [this]

theorem lowerBound_le (l : List (Nat × Nat)) (z : Int) : lowerBound l z ≤ l.length :=
  (List.takeWhile_sublist _).length_le

theorem takeWhile_stop {α} [Inhabited α] (c : α → Bool) (l : List α) (h : (l.takeWhile c).length < l.length) :
    c (nth l (l.takeWhile c).length) = false := by
  induction l with
  | nil => simp at h
  | cons a l ih =>
    by_cases ha : c a = true
    · rw [List.takeWhile_cons_of_pos ha] at h ⊢
      simp only [List.length_cons, Nat.add_lt_add_iff_right] at h
      have := ih h
      simpa [nth] using this
    · rw [List.takeWhile_cons_of_neg ha]
      simpa [nth] using ha

theorem lowerBound_ge {l : List (Nat × Nat)} {z : Int} (h : lowerBound l z < l.length) :
    ofI32 z ≤ (nth l (lowerBound l z)).2 := by
  have := takeWhile_stop (fun q : Nat × Nat => decide (q.2 < ofI32 z)) l h
  simpa [lowerBound] using this

theorem takeWhile_go {α} [Inhabited α] (c : α → Bool) (l : List α) (i : Nat) (h : i < (l.takeWhile c).length) :
    c (nth l i) = true := by
  induction l generalizing i with
  | nil => simp at h
  | cons a l ih =>
    by_cases ha : c a = true
    · rw [List.takeWhile_cons_of_pos ha] at h
      cases i with
      | zero => simpa [nth] using ha
      | succ i =>
        simp only [List.length_cons, Nat.add_lt_add_iff_right] at h
        have := ih i h
        simpa [nth] using this
    · rw [List.takeWhile_cons_of_neg ha] at h
      simp at h

theorem lowerBound_lt {l : List (Nat × Nat)} {z : Int} {i : Nat} (h : i < lowerBound l z) :
    (nth l i).2 < ofI32 z := by
  have := takeWhile_go (fun q : Nat × Nat => decide (q.2 < ofI32 z)) l i h
  simpa using this

theorem ofI32_sub (a b : Nat) : ofI32 (toI32 a - toI32 b) = ((a % M32) + (M32 - b % M32)) % M32 := by
  unfold ofI32 toI32
  split <;> split <;> omega

theorem swapBalanceRight_spec {B : Prop} {g : Graph} (hg : g.Good) {t : Target E.fp} {p : Partitioning}
    (h : LeftOK g t p) (hR : nth t.mx 1 < partWeight g p.lab 1) (hm0 : nth t.mx 0 < M32)
    (hB : ¬ (g.sumVtx < 2147483648 ∧ nth t.mx 0 < 2147483648) → B) :
    Post B (swapBalanceRight E g (nth t.mx 0) (nth t.mx 1) p) (fun p' => LeftOK g t p' ∧ (p' = p ∨
      (g.sumVtx ≤ nth t.mx 0 + nth t.mx 1 → partWeight g p'.lab 1 ≤ nth t.mx 1))) := by
  have hsv := hg.small.vtx
  have hp1 := partWeight_le (g := g) p.lab 1
  have hp0 := partWeight_le (g := g) p.lab 0
  unfold swapBalanceRight
  refine (Post.of_sat (weightPairs_spec hg.wf h.1.asg_len)).bind fun s hs => ?_
  obtain ⟨s1, s2, s3⟩ := hs
  simp only
  rw [h.1.rd_pw (by omega), ok_bind, h.1.rd_pw (by omega), ok_bind]
  set left := sortPairs E s.1 with hleft
  have hpl : left.Perm s.1 := sortPairs_perm s.1
  have hpr : (sortPairs E s.2).Perm s.2 := sortPairs_perm s.2
  have hne : s.2 ≠ [] := by
    intro he
    have : partWeight g p.lab 1 = 0 := by
      unfold partWeight
      refine Finset.sum_eq_zero fun v hv => ?_
      rw [if_neg]
      intro hl
      have := s3 v (Finset.mem_range.mp hv) (by omega)
      rw [he] at this
      cases this
    omega
  have hlen : 0 < (sortPairs E s.2).length := by
    rw [hpr.length_eq]; exact List.length_pos_iff.mpr hne
  unfold lastPair
  rw [if_neg (by rw [List.length_append]; omega), rd_of_lt (by rw [List.length_append]; omega), ok_bind]
  set last := nth (left ++ sortPairs E s.2) ((left ++ sortPairs E s.2).length - 1) with hlast
  have hlmem : last ∈ s.2 := by
    refine hpr.mem_iff.mp ?_
    rw [hlast, nth_append_right (by rw [List.length_append]; omega)]
    exact nth_mem (by rw [List.length_append]; omega)
  obtain ⟨l1, l2, l3⟩ := s2 last hlmem
  have hl1 : p.lab last.1 = 1 := by have := h.1.complete last.1 l1; omega
  have hvl := Graph.vw_le (g := g) l1
  rw [usub_eq h.2 hm0, usub_eq (by omega) (by omega)]
  unfold isub
  split
  · rw [ok_bind]
    split
    · rw [ok_bind]
      split
      · rename_i hlt
        have hub := lowerBound_le left (toI32 last.2 - toI32 (partWeight g p.lab 1 - nth t.mx 1))
        set lo := lowerBound left (toI32 last.2 - toI32 (nth t.mx 0 - partWeight g p.lab 0)) with hlo
        have hlol : lo < left.length := by omega
        have hge := lowerBound_ge (l := left) hlol
        rw [← hlo, ofI32_sub] at hge
        refine (Post.of_sat (h.1.move hg.wf hg.small (by omega) l1 (q := 0) (by omega) (by omega))).bind
          fun p' hp' => ?_
        obtain ⟨w1, w2, -⟩ := hp'
        rw [rd_of_lt (by rw [List.length_append]; omega), ok_bind, nth_append_left hlol]
        obtain ⟨m1, m2, m3⟩ := s1 (nth left lo) (hpl.mem_iff.mp (nth_mem hlol))
        have hne' : (nth left lo).1 ≠ last.1 := by intro e; rw [e] at m2; omega
        have hl0 : p'.lab (nth left lo).1 = 0 := by
          rw [w2]; unfold relabel; rw [if_neg hne']; exact m2
        refine (Post.of_sat (w1.move hg.wf hg.small (by omega) m1 (q := 1) (by omega) (by omega))).mono
          fun p'' hp'' => ?_
        have e1 := partWeight_relabel (q := 0) p.lab l1 0
        rw [if_neg (by omega), if_pos rfl, ← w2] at e1
        have e2 := partWeight_relabel (q := 1) p'.lab m1 0
        rw [if_pos hl0, if_neg (by omega), ← hp''.2.1] at e2
        have hvl2 := Graph.vw_le (g := g) m1
        have := h.2
        rw [← m3] at e2
        rw [← l3] at e1
        refine ⟨⟨hp''.1, by omega⟩, Or.inr fun hfeas => ?_⟩
        have hlt' := lowerBound_lt hlt
        rw [ofI32_sub] at hlt'
        have f1 := partWeight_relabel (q := 0) p.lab l1 1
        rw [if_pos hl1, if_neg (by omega), ← w2] at f1
        have f2 := partWeight_relabel (q := 1) p'.lab m1 1
        rw [if_neg (by omega), if_pos rfl, ← hp''.2.1] at f2
        have htot := partWeight_two h.1.complete
        rw [← m3] at f2
        rw [← l3] at f1
        omega
      · exact ⟨h, Or.inl rfl⟩
    · rename_i h1 h2
      refine hB fun hb => h2 ?_
      rw [toI32_eq (by omega), toI32_eq (by omega)]
      omega
  · rename_i h1
    refine hB fun hb => h1 ?_
    rw [toI32_eq (by omega), toI32_eq (by omega)]
    omega

theorem randomBisect_spec {B : Prop} {g : Graph} (hg : g.Good) {t : Target E.fp} (ht : t.Two)
    (hm0 : nth t.mx 0 < M32) (hB : ¬ (g.sumVtx < 2147483648 ∧ nth t.mx 0 < 2147483648) → B) (r : E.rng.S) :
    Post B (randomBisect t g r) (fun o => IsExact g 2 o.1 ∧ partWeight g o.1.lab 0 ≤ nth t.mx 0) := by
  unfold randomBisect
  refine (Post.of_sat (Weighed.assignAll hg.wf hg.small (by omega) (q := 1) (by omega))).bind fun p hp => ?_
  simp only [randomOrder]
  have hperm := E.rng.perm_perm r g.nv
  refine (Post.of_sat (fillLeft_spec hg ht _ p (fun v hv => ?_) ?_ ⟨hp.1, ?_⟩)).bind fun p' hp' => ?_
  · have := List.mem_range.mp (hperm.mem_iff.mp hv)
    exact ⟨this, hp.2 v this⟩
  · exact hperm.nodup_iff.mpr List.nodup_range
  · rw [partWeight_all hp.2 (by omega)]; omega
  · have key : Post B (randBalance t g p') (LeftOK g t) := by
      unfold randBalance
      rw [hp'.1.rd_pw (by omega), ok_bind, rd_of_lt (by rw [ht.mx]; omega), ok_bind]
      split
      · rename_i hgt
        rw [rd_of_lt (by rw [ht.mx]; omega), ok_bind]
        exact (swapBalanceRight_spec hg hp' hgt hm0 hB).mono fun _ h => h.1
      · exact hp'
    refine key.bind fun p2 h2 => ?_
    refine (Post.of_sat (h2.1.recalcCut hg.wf hg.symm hg.small)).bind fun p3 h3 => ?_
    refine ⟨h3.1, ?_⟩
    have : p3.lab = p2.lab := by unfold Partitioning.lab; rw [h3.2]
    rw [this]; exact h2.2

theorem randomFMBisect_spec {B : Prop} {g : Graph} (hg : g.Good) {t : Target E.fp} (ht : t.Two)
    (hm0 : nth t.mx 0 < M32) (maxIters : Nat)
    (hB : ¬ (g.sumVtx < 2147483648 ∧ nth t.mx 0 < 2147483648 ∧ E.fp.BadMovesOK g.nv) → B) (r : E.rng.S) :
    Post B (randomFMBisect maxIters t g r) (fun o => IsExact g 2 o.1 ∧ ∃ p r', randomBisect t g r = ok (p, r') ∧
      ImprovesStar g t p.lab o.1.lab) := by
  unfold randomFMBisect
  refine (randomBisect_spec hg ht hm0 (fun h => hB fun h' => h ⟨h'.1, h'.2.1⟩) r).with_eq.bind fun o ho => ?_
  obtain ⟨⟨h1, -⟩, h2⟩ := ho
  refine (Post.of_sat (fromPartitioning_spec E.set hg.wf hg.small h1.asg_len)).bind fun c hc => ?_
  refine (fmRefine_spec hg ht maxIters 1000 h1 hc.1 (fun h => hB fun h' => h h'.2.2)).bind fun o' ho' => ?_
  exact ⟨ho'.1, o.1, o.2, h2, ho'.2.2⟩

/-! ### repeated bisection -/

/-- `p` is the kept one of the candidates `ps`. -/
structure KeptOf (g : Graph) (t : Target E.fp) (ps : List Partitioning) (i : Nat) (p : Partitioning) : Prop where
  lt : i < ps.length
  eq : p = nth ps i
  bal : Balanced g t p.lab → ∃ j, j ≤ i ∧ Balanced g t (nth ps j).lab ∧
    ∀ l, j ≤ l → l < ps.length → Balanced g t (nth ps l).lab → p.cut ≤ (nth ps l).cut
  unbal : ¬ Balanced g t p.lab → ∀ l, i < l → l < ps.length →
    E.fp.lt (maxImbalance g t (nth ps l).lab) (maxImbalance g t p.lab) = false
  first : ∀ l, l < ps.length → Balanced g t (nth ps l).lab → (Balanced g t p.lab ∧ p.cut ≤ (nth ps l).cut) ∨
    ∃ p' ∈ ps, ¬ Balanced g t p'.lab ∧
      E.fp.lt (maxImbalance g t (nth ps l).lab) (maxImbalance g t p'.lab) = false

structure MultiInv (bis : Bisector E) (t : Target E.fp) (g : Graph) (R : Partitioning → Prop) (r0 : E.rng.S) (m : Nat)
    (s : MultiState E) : Prop where
  init : m = 0 → s.found = false
  cand : ∃ ps, candidates bis t g m r0 = ok (ps, s.rng) ∧ ps.length = m ∧ (∀ p ∈ ps, R p) ∧
    (0 < m → s.bestCut = s.best.cut ∧ s.bestBal = maxImbalance g t s.best.lab ∧
      s.found = decide (Balanced g t s.best.lab) ∧ ∃ i, KeptOf g t ps i s.best)

theorem multiStep_spec {B : Prop} {g : Graph} {t : Target E.fp} (ht : t.Two) {bis : Bisector E}
    {R : Partitioning → Prop} (hbis : ∀ r, Post B (bis t g r) (fun o => IsExact g 2 o.1 ∧ R o.1)) {r0 : E.rng.S}
    {m : Nat} {s : MultiState E} (h : MultiInv bis t g R r0 m s) :
    Post B (multiStep bis t g s m) (MultiInv bis t g R r0 (m + 1)) := by
  obtain ⟨hinit, ps, hc, hlen, hR, hk⟩ := h
  unfold multiStep
  refine (hbis s.rng).with_eq.bind fun o ho => ?_
  obtain ⟨⟨hex, hRo⟩, heq⟩ := ho
  simp only
  rw [calcMaxImbalance_eq ht hex, ok_bind, isBalanced_eq ht hex, ok_bind]
  have hcand : candidates bis t g (m + 1) r0 = ok (ps ++ [o.1], o.2) := by
    show (candidates bis t g m r0 >>= _) = _
    rw [hc, ok_bind, heq, ok_bind]
  have hR' : ∀ p ∈ ps ++ [o.1], R p := by
    intro p hp
    rcases List.mem_append.mp hp with h | h
    · exact hR p h
    · simp at h; rw [h]; exact hRo
  have hlen' : (ps ++ [o.1]).length = m + 1 := by simp [hlen]
  have hold : ∀ l, l < m → nth (ps ++ [o.1]) l = nth ps l := fun l hl => nth_append_left (by omega)
  have hnew : nth (ps ++ [o.1]) m = o.1 := by rw [nth_append_right (by omega), hlen]; simp [nth]
  split
  · rename_i hacc
    refine ⟨by omega, ps ++ [o.1], hcand, hlen', hR', fun _ => ⟨rfl, rfl, ?_, m, by omega, hnew.symm, ?_, ?_, ?_⟩⟩
    · by_cases hb : Balanced g t o.1.lab
      · simp [hb]
      · simp only [hb, decide_false, Bool.false_eq_true, if_false]
        simp only [hb, decide_false, Bool.and_false, Bool.false_and, Bool.or_false, Bool.or_eq_true,
          decide_eq_true_eq, Bool.and_eq_true, Bool.not_eq_true'] at hacc
        rcases hacc with h | h
        · exact hinit h
        · exact h.1
    · intro hb
      by_cases hf : s.found = true
      · have hm : 0 < m := by
          by_contra h0
          have := hinit (by omega)
          rw [this] at hf; cases hf
        obtain ⟨k1, k2, k3, i, hki⟩ := hk hm
        rw [hf] at k3
        obtain ⟨j, hj1, hj2, hj3⟩ := hki.bal (by simpa using k3.symm)
        have hi := hki.lt
        refine ⟨j, by omega, by rw [hold j (by omega)]; exact hj2, ?_⟩
        have hlt : o.1.cut < s.bestCut := by
          simp only [hf, Bool.not_true, Bool.false_and, Bool.or_false, Bool.true_and, Bool.or_eq_true,
            decide_eq_true_eq, Bool.and_eq_true] at hacc
          rcases hacc with h | h
          · omega
          · exact h.2
        intro l hl1 hl2 hl3
        by_cases hlm : l = m
        · rw [hlm, hnew]
        · rw [hold l (by omega)] at hl3 ⊢
          have := hj3 l hl1 (by omega) hl3
          show o.1.cut ≤ _
          omega
      · refine ⟨m, le_refl _, by rw [hnew]; exact hb, ?_⟩
        intro l hl1 hl2 _
        have : l = m := by omega
        rw [this, hnew]
    · intro _ l hl1 hl2; omega
    · intro l hl hb
      by_cases hlm : l = m
      · left; rw [hlm, hnew] at hb ⊢; exact ⟨hb, le_refl _⟩
      · rw [hold l (by omega)] at hb ⊢
        obtain ⟨k1, k2, k3, i, hki⟩ := hk (by omega)
        rcases hki.first l (by omega) hb with h | ⟨p', hp', h⟩
        · left
          have hf : s.found = true := by rw [k3]; simpa using h.1
          simp only [hf, Bool.not_true, Bool.false_and, Bool.or_false, Bool.true_and, Bool.or_eq_true,
            decide_eq_true_eq, Bool.and_eq_true] at hacc
          have h2 := h.2
          rcases hacc with h | h
          · omega
          · exact ⟨h.1, by show o.1.cut ≤ _; omega⟩
        · right
          exact ⟨p', by simp [hp'], h⟩
  · rename_i hacc
    have hm : 0 < m := by
      by_contra h0
      have : m = 0 := by omega
      simp [this] at hacc
    obtain ⟨k1, k2, k3, i, hki⟩ := hk hm
    have hi := hki.lt
    refine ⟨by omega, ps ++ [o.1], hcand, hlen', hR', fun _ => ⟨k1, k2, k3, i, by omega, ?_, ?_, ?_, ?_⟩⟩
    · rw [hold i (by omega)]; exact hki.eq
    · intro hb
      obtain ⟨j, hj1, hj2, hj3⟩ := hki.bal hb
      refine ⟨j, hj1, by rw [hold j (by omega)]; exact hj2, ?_⟩
      intro l hl1 hl2 hl3
      by_cases hlm : l = m
      · rw [hlm, hnew] at hl3 ⊢
        have hf : s.found = true := by rw [k3]; simpa using hb
        have h1 : ¬ o.1.cut < s.bestCut := by
          intro hlt
          simp [hf, hl3, hlt] at hacc
        show s.best.cut ≤ _
        omega
      · rw [hold l (by omega)] at hl3 ⊢
        exact hj3 l hl1 (by omega) hl3
    · intro hb l hl1 hl2
      by_cases hlm : l = m
      · rw [hlm, hnew]
        have hf : s.found = false := by rw [k3]; simpa using hb
        show E.fp.lt _ (maxImbalance g t s.best.lab) = _
        rw [← k2]
        by_contra hlt
        simp only [Bool.not_eq_false] at hlt
        simp [hf, hlt] at hacc
      · rw [hold l (by omega)]
        exact hki.unbal hb l hl1 (by omega)
    · intro l hl hb
      by_cases hlm : l = m
      · rw [hlm, hnew] at hb ⊢
        by_cases hbest : Balanced g t s.best.lab
        · left
          have hf : s.found = true := by rw [k3]; simpa using hbest
          have h1 : ¬ o.1.cut < s.bestCut := by
            intro hlt
            simp [hf, hb, hlt] at hacc
          exact ⟨hbest, by show s.best.cut ≤ _; omega⟩
        · right
          have hf : s.found = false := by rw [k3]; simpa using hbest
          refine ⟨s.best, ?_, hbest, ?_⟩
          · rw [hki.eq]; exact List.mem_append_left _ (nth_mem hki.lt)
          · rw [← k2]
            by_contra hlt
            simp only [Bool.not_eq_false] at hlt
            simp [hf, hlt] at hacc
      · rw [hold l (by omega)] at hb ⊢
        rcases hki.first l (by omega) hb with h | ⟨p', hp', h⟩
        · exact Or.inl h
        · exact Or.inr ⟨p', by simp [hp'], h⟩

theorem multiBisect_spec {B : Prop} {g : Graph} {t : Target E.fp} (ht : t.Two) {bis : Bisector E}
    {R : Partitioning → Prop} (hbis : ∀ r, Post B (bis t g r) (fun o => IsExact g 2 o.1 ∧ R o.1)) {n : Nat} (hn : 0 < n)
    (r : E.rng.S) :
    Post B (multiBisect n bis t g r) (fun o => R o.1 ∧ ∃ ps i, candidates bis t g n r = ok (ps, o.2) ∧
      ps.length = n ∧ KeptOf g t ps i o.1) := by
  unfold multiBisect
  refine (Post_foldlM_range (MultiInv bis t g R r) ⟨fun _ => rfl, [], rfl, rfl, by simp, by simp⟩
    (fun m s _ h => multiStep_spec ht hbis h)).bind fun s hs => ?_
  obtain ⟨-, ps, hc, hlen, hR, hk⟩ := hs
  obtain ⟨-, -, -, i, hki⟩ := hk hn
  exact ⟨by rw [hki.eq]; exact hR _ (nth_mem hki.lt), ps, i, hc, hlen, hki⟩

theorem candidates_exact {g : Graph} {t : Target E.fp} {bis : Bisector E}
    (hbis : ∀ r p r', bis t g r = ok (p, r') → IsExact g 2 p) :
    ∀ {n : Nat} {r : E.rng.S} {ps : List Partitioning} {r' : E.rng.S}, candidates bis t g n r = ok (ps, r') →
      ∀ p ∈ ps, IsExact g 2 p := by
  intro n
  induction n with
  | zero => intro r ps r' h p hp; injection h with h; injection h with h; subst h; cases hp
  | succ n ih =>
    intro r ps r' h
    have : May (candidates bis t g (n + 1) r) (fun o => ∀ p ∈ o.1, IsExact g 2 p) := by
      show May (candidates bis t g n r >>= _) _
      refine (may_iff.mpr fun o ho => ih (ps := o.1) (r' := o.2) ho : May (candidates bis t g n r)
        (fun o => ∀ p ∈ o.1, IsExact g 2 p)).bind fun o ho => ?_
      refine (may_iff.mpr fun c hc => hbis _ c.1 c.2 hc : May (bis t g o.2) (fun c => IsExact g 2 c.1)).bind
        fun c hc => ?_
      intro p hp
      rcases List.mem_append.mp hp with h | h
      · exact ho p h
      · simp at h; rw [h]; exact hc
    exact this.elim_ok h

end Poros
