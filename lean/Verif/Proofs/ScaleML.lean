import Verif.Proofs.ScaleFM
/-
Coarsening, projection, initial bisection and the multilevel recursion with scaled edge weights.
-/
namespace Poros
open Res Finset

variable {E : Env} {alike : (Int → Int) → E.pq.Q → E.pq.Q → Prop} {c : Nat}

/-! ### edges -/

/-- The loops over the edges of a vertex. -/
theorem Scaled.nbrsOf_lock {g g' : Graph} (hS : Scaled c g g') (hg : g.WF) (hg' : g'.WF) (v : Nat) :
    Lock (fun l l' => l' = l.map (sc c)) (g.nbrsOf (!g.unitEdge) v) (g'.nbrsOf (!g'.unitEdge) v) := by
  intro l l' hl hl'
  have hv : v < g.nv := by
    by_contra hn
    unfold Graph.nbrsOf Graph.edgesOf at hl
    obtain ⟨r, hr, _⟩ := bind_eq_ok hl
    obtain ⟨b, hb, hr⟩ := bind_eq_ok hr
    obtain ⟨e, he, hr⟩ := bind_eq_ok hr
    rw [rd_of_le (by rw [hg.xadj_len]; omega)] at he
    cases he
  rw [Graph.nbrsOf_eq hg hv] at hl
  rw [Graph.nbrsOf_eq hg' (by rw [hS.nv]; exact hv), hS.nbrs hg hv] at hl'
  rw [← Res.ok.inj hl, ← Res.ok.inj hl']

/-! ### contraction -/

/-- Congruent cells: the scaled one is `c` times the other, up to the wrap around of 32-bit numbers. -/
inductive OC (c : Nat) : Option Nat → Option Nat → Prop
  | none : OC c none none
  | some {x y} : y % M32 = c * x % M32 → OC c (some x) (some y)

theorem Forall2_set {α β : Type} {R : α → β → Prop} {l : List α} {l' : List β} (h : List.Forall₂ R l l') {x : α} {y : β}
    (hxy : R x y) (i : Nat) : List.Forall₂ R (l.set i x) (l'.set i y) := by
  induction h generalizing i with
  | nil => exact .nil
  | cons hab _ ih =>
    cases i with
    | zero => exact .cons hxy ‹_›
    | succ i => exact .cons hab (ih i)

theorem wr_lock {m m' : Mem} (h : List.Forall₂ (OC c) m m') {x y : Nat} (hxy : y % M32 = c * x % M32) (i : Nat) :
    Lock (List.Forall₂ (OC c)) (m.wr i x) (m'.wr i y) := by
  unfold Mem.wr
  by_cases hi : i < m.length
  · rw [wr_of_lt hi, wr_of_lt (by rw [← h.length_eq]; exact hi)]
    exact Lock.ok (Forall2_set h (.some hxy) i)
  · unfold Poros.wr
    rw [if_neg hi]
    exact Lock.ub_left

theorem mrd_lock {m m' : Mem} (h : List.Forall₂ (OC c) m m') (i : Nat) :
    Lock (fun x y => y % M32 = c * x % M32) (m.rd i) (m'.rd i) := by
  unfold Mem.rd
  induction h generalizing i with
  | nil => exact Lock.ub_left
  | cons hab _ ih =>
    cases i with
    | zero =>
      simp only [List.getElem?_cons_zero]
      cases hab with
      | none => exact Lock.ub_left
      | some h => exact Lock.ok h
    | succ i =>
      simp only [List.getElem?_cons_succ]
      exact ih i

theorem freeze_lock {m m' : Mem} (h : List.Forall₂ (OC c) m m') :
    Lock (List.Forall₂ fun x y => y % M32 = c * x % M32) m.freeze m'.freeze := by
  unfold Mem.freeze
  induction h with
  | nil => exact Lock.ok .nil
  | cons hab _ ih =>
    rw [List.mapM_cons, List.mapM_cons]
    cases hab with
    | none => exact Lock.ub_left
    | some h =>
      simp only [ok_bind]
      exact ih.bind fun l l' _ _ hl => Lock.ok (List.Forall₂.cons h hl)

/-- The builder of the run with scaled weights. -/
structure OSRel (c : Nat) (b b' : OneStep) : Prop where
  eq : b' = { b with ewgt := b'.ewgt, totE := b'.totE }
  ew : List.Forall₂ (OC c) b.ewgt b'.ewgt

theorem Forall2_alloc (n : Nat) : List.Forall₂ (OC c) (Mem.alloc n) (Mem.alloc n) := by
  unfold Mem.alloc
  induction n with
  | zero => exact .nil
  | succ n ih => exact .cons .none ih

theorem cong_add {x y x' y' : Nat} (h1 : x' % M32 = c * x % M32) (h2 : y' % M32 = c * y % M32) :
    uadd x' y' % M32 = c * uadd x y % M32 := by
  unfold uadd
  rw [Nat.mod_mod, Nat.mul_mod_mod, Nat.add_mod, h1, h2, ← Nat.add_mod, ← Nat.mul_add]

theorem OSRel.new (nc ne : Nat) : Lock (OSRel c) (OneStep.new nc ne) (OneStep.new nc ne) := by
  unfold OneStep.new
  refine Lock.same fun pre _ => Lock.same fun ht _ => Lock.same fun el _ => ?_
  refine (wr_lock (Forall2_alloc _) (by simp) 0).bind fun ew ew' _ _ h => Lock.ok ⟨rfl, h⟩

theorem OSRel.addEdge {b b' : OneStep} (h : OSRel c b b') (d w : Nat) :
    Lock (OSRel c) (b.addEdge d w) (b'.addEdge d (c * w)) := by
  obtain ⟨nv, ne, pre, el, vw, ew, tv, te, ht⟩ := b
  obtain ⟨nv', ne', pre', el', vw', ew', tv', te', ht'⟩ := b'
  have := h.eq
  simp only [OneStep.mk.injEq, true_and] at this
  obtain ⟨rfl, rfl, rfl, rfl, rfl, rfl, rfl⟩ := this
  have hw := h.ew
  unfold OneStep.addEdge
  simp only at hw ⊢
  refine Lock.same fun idx _ => ?_
  split
  · refine Lock.same fun ht _ => Lock.same fun el _ => ?_
    exact (wr_lock hw rfl _).bind fun a b _ _ hab => Lock.ok ⟨rfl, hab⟩
  · refine (mrd_lock hw idx).bind fun x y _ _ hxy => ?_
    exact (wr_lock hw (cong_add hxy rfl) _).bind fun a b _ _ hab => Lock.ok ⟨rfl, hab⟩

theorem OSRel.finishVertex {b b' : OneStep} (h : OSRel c b b') (w : Nat) :
    Lock (OSRel c) (b.finishVertex w) (b'.finishVertex w) := by
  obtain ⟨nv, ne, pre, el, vw, ew, tv, te, ht⟩ := b
  obtain ⟨nv', ne', pre', el', vw', ew', tv', te', ht'⟩ := b'
  have := h.eq
  simp only [OneStep.mk.injEq, true_and] at this
  obtain ⟨rfl, rfl, rfl, rfl, rfl, rfl, rfl⟩ := this
  have hw := h.ew
  unfold OneStep.finishVertex
  simp only at hw ⊢
  refine Lock.same fun first _ => Lock.same fun ht _ => ?_
  refine (mrd_lock hw first).bind fun x y _ _ _ => ?_
  refine Lock.same fun lu _ => Lock.same fun el _ => ?_
  refine (mrd_lock hw _).bind fun lw lw' _ _ hl => ?_
  refine (wr_lock hw hl _).bind fun e e' _ _ he => ?_
  refine Lock.same fun vw _ => Lock.same fun pre _ => Lock.same fun ht _ => Lock.same fun el _ => ?_
  exact (wr_lock he (by simp) _).bind fun e2 e2' _ _ he2 => Lock.ok ⟨rfl, he2⟩

/-- The same graph but for the edge weights, which are congruent. -/
structure GCong (c : Nat) (g g' : Graph) : Prop where
  eq : g' = { g with adjwgt := g'.adjwgt, totEdge := g'.totEdge }
  wt : List.Forall₂ (fun x y => y % M32 = c * x % M32) g.adjwgt g'.adjwgt

theorem OSRel.finish {b b' : OneStep} (h : OSRel c b b') : Lock (GCong c) b.finish b'.finish := by
  obtain ⟨nv, ne, pre, el, vw, ew, tv, te, ht⟩ := b
  obtain ⟨nv', ne', pre', el', vw', ew', tv', te', ht'⟩ := b'
  have := h.eq
  simp only [OneStep.mk.injEq, true_and] at this
  obtain ⟨rfl, rfl, rfl, rfl, rfl, rfl, rfl⟩ := this
  have hw := h.ew
  unfold OneStep.finish
  simp only at hw ⊢
  refine Lock.same fun pre _ => Lock.same fun el _ => Lock.same fun vw _ => ?_
  have ht : List.Forall₂ (OC c) (ew.take (usub ne' 1)) (ew'.take (usub ne' 1)) := List.forall₂_take _ hw
  exact (freeze_lock ht).bind fun a b _ _ hab => Lock.ok ⟨rfl, hab⟩

theorem contract_lock {g g' : Graph} (hS : Scaled c g g') (hg : g.WF) (hg' : g'.WF) (a : Aggregation) :
    Lock (GCong c) (contract g a) (contract g' a) := by
  unfold contract contractGraph
  rw [hS.ne]
  refine (OSRel.new (c := c) a.nc g.ne).bind fun b b' _ _ hb => ?_
  refine Lock.bind (R := OSRel c) ?_ fun b b' _ _ hb => hb.finish
  refine Lock.foldlM ?_ hb
  intro b b' d _ hb
  refine Lock.same fun group _ => ?_
  refine Lock.bind (R := fun x y => OSRel c x.1 y.1 ∧ y.2 = x.2) ?_ fun x y _ _ h => by
    rw [h.2]; exact h.1.finishVertex _
  unfold contractGroup
  refine Lock.foldlM ?_ ⟨hb, rfl⟩
  rintro ⟨b, w⟩ ⟨b', w'⟩ v _ ⟨hb, hw⟩
  simp only at hb hw ⊢
  subst hw
  rw [hS.vwgtOf, hS.unitVtx]
  refine Lock.same fun vw _ => ?_
  refine (hS.nbrsOf_lock hg hg' v).bind fun l l' _ _ hl => ?_
  subst hl
  refine Lock.bind (R := OSRel c) ?_ fun x y _ _ h => Lock.ok ⟨h, rfl⟩
  refine Lock.foldlM_map ?_ hb
  intro b b' q _ hb
  show Lock (OSRel c) (a.coarse q.1 >>= _) (a.coarse q.1 >>= _)
  exact Lock.same fun d _ => hb.addEdge d q.2

theorem ew_le_sumEdge {g : Graph} (hg : g.WF) (hu : g.unitEdge = false) {e : Nat} (he : e < g.ne) :
    nth g.adjwgt e ≤ g.sumEdge := by
  rw [sumEdge_eq_slots hg.xadj_zero hg.xadj_last hg.xadj_mono]
  have := Finset.single_le_sum (f := fun e => g.ew e) (fun _ _ => Nat.zero_le _) (mem_range.mpr he)
  refine le_trans (le_of_eq ?_) this
  show nth g.adjwgt e = g.ew e
  unfold Graph.ew; rw [hu]; rfl

theorem contract_scaled {g g' : Graph} (hS : Scaled c g g') (hg : g.Good) (hg' : g'.Good) {a : Aggregation}
    (ha : AggOK g.nv a) (hnc : a.nc < NULL32) :
    Lock (fun k k' => Scaled c k k' ∧ k'.unitEdge = k.unitEdge) (contract g a) (contract g' a) := by
  intro k k' hk hk'
  have h := contract_lock hS hg.wf hg'.wf a k k' hk hk'
  have he := hg.small.edge
  have he' := hg'.small.edge
  have u := (contract_spec hg.wf he hg.small.vtx ha hnc).elim_ok hk
  have u' := (contract_spec hg'.wf he' hg'.small.vtx (by rw [hS.nv]; exact ha) hnc).elim_ok hk'
  have hne : k'.ne = k.ne := by rw [h.eq]
  have hw : k'.adjwgt = k.adjwgt.map (c * ·) := by
    have hl := u.wf.adjwgt_len u.unitE
    have hl' := u'.wf.adjwgt_len u'.unitE
    refine list_ext_nth (by rw [List.length_map, hl, hl', hne]) fun i hi => ?_
    rw [nth_scale]
    have hi' : i < k.ne := by rw [hl', hne] at hi; exact hi
    have b1 := ew_le_sumEdge u.wf u.unitE hi'
    have b2 := ew_le_sumEdge u'.wf u'.unitE (by rw [hne]; exact hi')
    have b3 := u.sumEdge_le
    have b4 := u'.sumEdge_le
    have b5 := hS.sumEdge hg.wf
    have hcw : nth k'.adjwgt i % M32 = c * nth k.adjwgt i % M32 := by
      have := h.wt.get (i := i) (by rw [hl]; exact hi') (by rw [hl', hne]; exact hi')
      rw [nth_eq_getElem (by omega), nth_eq_getElem (by omega)]
      exact this
    have b6 : c * nth k.adjwgt i ≤ c * g.sumEdge := Nat.mul_le_mul_left _ (by omega)
    rw [Nat.mod_eq_of_lt (by omega), Nat.mod_eq_of_lt (by omega)] at hcw
    exact hcw
  have hue : k'.unitEdge = k.unitEdge := by rw [u.unitE, u'.unitE]
  refine ⟨⟨?_, fun e _ => ?_⟩, hue⟩
  · rw [hue]; exact h.eq
  · unfold Graph.ew
    rw [u.unitE, u'.unitE, hw, nth_scale]; rfl

/-! ### connectivity and projection -/

theorem ofArray_con {P : SetImpl} {con : List (Nat × Nat)} {k : Conn P} (h : Conn.ofArray P con = ok k) : k.con = con := by
  unfold Conn.ofArray at h
  obtain ⟨b, _, h⟩ := bind_eq_ok h
  cases h; rfl

/-- The border built from an array depends on which entries belong to the border only. -/
theorem ofArray_lock {P : SetImpl} {con con' : List (Nat × Nat)} (hl : con'.length = con.length)
    (h : ∀ v, v < con.length → shouldBeInBorder (nth con' v) = shouldBeInBorder (nth con v)) :
    Lock (fun a b => b.border = a.border) (Conn.ofArray P con) (Conn.ofArray P con') := by
  unfold Conn.ofArray
  rw [hl]
  refine Lock.bind (R := fun a b => b = a) ?_ fun a b _ _ hab => Lock.ok hab
  refine Lock.foldlM ?_ rfl
  intro s s' v hv hs
  subst hs
  have hv : v < con.length := List.mem_range.mp hv
  rw [rd_of_lt hv, rd_of_lt (show v < con'.length by omega)]
  simp only [ok_bind, h v hv]
  exact Lock.eq rfl

theorem border_scaled {P : SetImpl} {g g' : Graph} (hS : Scaled c g g') (hc : 0 < c) (hg : g.WF) {con con' : List (Nat × Nat)}
    {k k' : Conn P} {lab lab' : Nat → Nat} (hk : Conn.ofArray P con = ok k) (hk' : Conn.ofArray P con' = ok k')
    (he : ConnExact g lab k) (he' : ConnExact g' lab' k') (hlab : lab' = lab) : k'.border = k.border := by
  subst hlab
  have h1 := ofArray_con hk
  have h2 := ofArray_con hk'
  have e1 := he.len
  have e2 := he'.len
  rw [h1] at e1
  rw [h2, hS.nv] at e2
  refine ofArray_lock (by omega) ?_ k k' hk hk'
  intro v hv
  have hv : v < g.nv := by omega
  have v1 := he.vals v hv
  have v2 := he'.vals v (by rw [hS.nv]; exact hv)
  rw [h1] at v1
  rw [h2, hS.external hg _ hv, hS.internal hg _ hv] at v2
  rw [v1, v2]
  unfold shouldBeInBorder
  simp only [gt_iff_lt, Nat.mul_pos_iff_of_pos_left hc, Nat.mul_eq_zero]
  have : c ≠ 0 := by omega
  simp [this]

theorem fromPartitioning_lock {P : SetImpl} {g g' : Graph} (hS : Scaled c g g') (hc : 0 < c) (hg : g.Good) (hg' : g'.Good)
    {p p' : Partitioning} (hp : IsExact g 2 p) (hp' : IsExact g' 2 p') (h : PRel p p') :
    Lock (fun a b => b.border = a.border) (Conn.fromPartitioning P g p) (Conn.fromPartitioning P g' p') := by
  intro k k' hk hk'
  have u := (fromPartitioning_spec P hg.wf hg.small hp.weighed.asg_len).elim_ok hk
  have u' := (fromPartitioning_spec P hg'.wf hg'.small hp'.weighed.asg_len).elim_ok hk'
  unfold Conn.fromPartitioning at hk hk'
  obtain ⟨con, _, hk⟩ := bind_eq_ok hk
  obtain ⟨con', _, hk'⟩ := bind_eq_ok hk'
  exact border_scaled hS hc hg.wf hk hk' u.1 u'.1 h.lab

theorem IsExact.prel {g g' : Graph} (hS : Scaled c g g') {k : Nat} {p p' : Partitioning} (hp : IsExact g k p)
    (hp' : IsExact g' k p') (h : ∀ v, v < g.nv → p'.lab v = p.lab v) : PRel p p' := by
  have ha : p'.asg = p.asg := by
    refine list_ext_nth (by rw [hp.asg_len, hp'.asg_len, hS.nv]) fun v hv => h v ?_
    rw [hp'.asg_len, hS.nv] at hv
    exact hv
  have hl : p'.lab = p.lab := by funext v; unfold Partitioning.lab; rw [ha]
  refine ⟨ha, list_ext_nth (by rw [hp.pw_len, hp'.pw_len]) fun q hq => ?_⟩
  rw [hp'.pw_len] at hq
  rw [hp.weights q hq, hp'.weights q hq, hl, hS.partWeight]

theorem IsExact.cut_scaled {g g' : Graph} (hS : Scaled c g g') (hg : g.WF) {k : Nat} {p p' : Partitioning}
    (hp : IsExact g k p) (hp' : IsExact g' k p') (h : PRel p p') : p'.cut = c * p.cut := by
  rw [hp.cut_eq, hp'.cut_eq, h.lab, hS.cut hg]

/-- The coarse levels of the two runs. -/
structure CRel (c : Nat) (cg cg' : CoarseGraph) : Prop where
  coarse : Scaled c cg.coarse cg'.coarse
  flag : cg'.coarse.unitEdge = cg.coarse.unitEdge
  cmap : cg'.cmap = cg.cmap

theorem make_lock {g g' : Graph} (hS : Scaled c g g') (hg : g.Good) (hg' : g'.Good) {a : Aggregation}
    (ha : AggOK g.nv a) (hnc : a.nc < NULL32) : Lock (CRel c) (CoarseGraph.make g a) (CoarseGraph.make g' a) := by
  unfold CoarseGraph.make
  refine (contract_scaled hS hg hg' ha hnc).bind fun k k' _ _ hk => ?_
  rw [hS.nv]
  exact Lock.same fun m _ => Lock.ok ⟨hk.1, hk.2, rfl⟩

theorem project_ofArray {P : SetImpl} {cg : CoarseGraph} {cp : Partitioning} {cc : Conn P} {o : Partitioning × Conn P}
    (h : cg.project cp cc = ok o) : ∃ con, Conn.ofArray P con = ok o.2 := by
  unfold CoarseGraph.project at h
  obtain ⟨fp, _, h⟩ := bind_eq_ok h
  obtain ⟨b, _, h⟩ := bind_eq_ok h
  obtain ⟨conn, hc, h⟩ := bind_eq_ok h
  cases h
  unfold ConnBuilder.finish at hc
  obtain ⟨e, _, hc⟩ := bind_eq_ok hc
  obtain ⟨i, _, hc⟩ := bind_eq_ok hc
  exact ⟨_, hc⟩

theorem project_lock {P : SetImpl} {g g' : Graph} (hS : Scaled c g g') (hc : 0 < c) (hg : g.Good) (hg' : g'.Good)
    {a : Aggregation} (ha : AggOK g.nv a) {cg cg' : CoarseGraph} (hcg : IsCoarse g a cg) (hcg' : IsCoarse g' a cg')
    {cp cp' : Partitioning} (hcp : IsExact cg.coarse 2 cp) (hcp' : IsExact cg'.coarse 2 cp') {cc cc' : Conn P}
    (hcc : ConnExact cg.coarse cp.lab cc) (hcc' : ConnExact cg'.coarse cp'.lab cc') (h : PRel cp cp') :
    Lock (fun a b => PRel a.1 b.1 ∧ b.2.border = a.2.border) (cg.project cp cc) (cg'.project cp' cc') := by
  intro o o' ho ho'
  have u := (project_spec hg.wf hg.symm hg.small ha hcg (by decide) hcp hcc).elim_ok ho
  have u' := (project_spec hg'.wf hg'.symm hg'.small (by rw [hS.nv]; exact ha) hcg' (by decide) hcp' hcc').elim_ok ho'
  have hp : PRel o.1 o'.1 := u.exact.prel hS u'.exact fun v hv => by
    rw [u.lab v hv, u'.lab v (by rw [hS.nv]; exact hv), h.lab]
  obtain ⟨con, hk⟩ := project_ofArray ho
  obtain ⟨con', hk'⟩ := project_ofArray ho'
  exact ⟨hp, border_scaled hS hc hg.wf hk hk' u.conn u'.conn hp.lab⟩

end Poros
