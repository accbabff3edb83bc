import Verif.Model.DebugFM
import Verif.Props.P68_Verify
/-
The debug build of FM refinement against the release build.
-/
namespace Poros
open Res Finset

/-! ### what a debug build returns, the release build returns -/

/-- Every value of `d` is the value of `r`. -/
def Sim {α : Type} (d r : Res α) : Prop := ∀ x, d = ok x → r = ok x

theorem Sim.refl {α : Type} (r : Res α) : Sim r r := fun _ h => h

theorem Sim.bind {α β : Type} {d r : Res α} {f f' : α → Res β} (h : Sim d r) (hf : ∀ x, r = ok x → Sim (f x) (f' x)) :
    Sim (d >>= f) (r >>= f') := by
  intro y hy
  cases hd : d with
  | ok x =>
    rw [hd, ok_bind] at hy
    have := h x hd
    rw [this, ok_bind]
    exact hf x this y hy
  | ub => simp [hd] at hy
  | exn => simp [hd] at hy
  | diverge => simp [hd] at hy

/-- Something evaluated only in the debug build. -/
theorem Sim.skip {α β : Type} {d : Res α} {f : α → Res β} {r : Res β} (hf : ∀ x, Sim (f x) r) : Sim (d >>= f) r := by
  intro y hy
  cases hd : d with
  | ok x => rw [hd, ok_bind] at hy; exact hf x y hy
  | ub => simp [hd] at hy
  | exn => simp [hd] at hy
  | diverge => simp [hd] at hy

theorem Sim.foldlM {α σ : Type} {f f' : σ → α → Res σ} {l : List α} {s : σ}
    (h : ∀ s x, x ∈ l → Sim (f s x) (f' s x)) : Sim (l.foldlM f s) (l.foldlM f' s) := by
  induction l generalizing s with
  | nil => exact Sim.refl _
  | cons x xs ih =>
    rw [List.foldlM_cons, List.foldlM_cons]
    exact (h s x (by simp)).bind fun a _ => ih fun s y hy => h s y (by simp [hy])

theorem Sim.ite {α : Type} {c : Prop} [Decidable c] {a b a' b' : Res α} (h1 : Sim a a') (h2 : Sim b b') :
    Sim (if c then a else b) (if c then a' else b') := by
  split
  · exact h1
  · exact h2

theorem moveD_sim (g : Graph) (v part : Nat) (p : Partitioning) : Sim (p.moveD g v part) (p.move g v part) :=
  Sim.skip fun _ => Sim.skip fun _ => Sim.skip fun _ => Sim.refl _

theorem getImbalanceD_sim {fp : FP} (g : Graph) (p : Partitioning) (t : Target fp) (q : Nat) :
    Sim (getImbalanceD g p t q) (getImbalance g p t q) :=
  Sim.skip fun _ => Sim.skip fun _ => Sim.refl _

theorem calcMaxImbalanceD_sim {fp : FP} (g : Graph) (p : Partitioning) (t : Target fp) :
    Sim (calcMaxImbalanceD g p t) (calcMaxImbalance g p t) :=
  Sim.bind (Sim.foldlM fun _ _ _ => (getImbalanceD_sim g p t _).bind fun _ _ => Sim.refl _) fun _ _ => Sim.refl _

variable {E : Env}

theorem fmEdgeD_sim (queues : Bool) (dst : Nat) (s : FMState E) (q : Nat × Nat) :
    Sim (fmEdgeD queues dst s q) (fmEdge queues dst s q) := by
  unfold fmEdgeD fmEdge
  refine (Sim.refl _).bind fun _ _ => (Sim.refl _).bind fun _ _ => ?_
  exact Sim.bind (Sim.skip fun _ => Sim.refl _) fun _ _ => Sim.refl _

theorem fmMoveD_sim (g : Graph) (queues : Bool) (v dst : Nat) (s : FMState E) :
    Sim (fmMoveD g queues v dst s) (fmMove g queues v dst s) := by
  unfold fmMoveD fmMove
  refine Sim.skip fun _ => Sim.skip fun _ => (Sim.refl _).bind fun _ _ => (Sim.refl _).bind fun _ _ => ?_
  refine (moveD_sim g v dst s.part).bind fun _ _ => (Sim.refl _).bind fun _ _ => ?_
  exact Sim.foldlM fun _ _ _ => fmEdgeD_sim queues dst _ _

theorem fmStepD_sim (g : Graph) (t : Target E.fp) (ps : PassState E) : Sim (fmStepD g t ps) (fmStep g t ps) := by
  unfold fmStepD fmStep
  refine Sim.bind (Sim.skip fun _ => Sim.refl _) fun _ _ => ?_
  refine (Sim.refl _).bind fun _ _ => Sim.skip fun _ => (Sim.refl _).bind fun _ _ => (Sim.refl _).bind fun _ _ =>
    (Sim.refl _).bind fun _ _ => Sim.skip fun _ => Sim.skip fun _ => ?_
  refine (fmMoveD_sim g true _ _ _).bind fun _ _ => (calcMaxImbalanceD_sim g _ t).bind fun _ _ => ?_
  exact Sim.refl _

theorem fmLoopD_sim (g : Graph) (t : Target E.fp) (maxBad fuel : Nat) (ps : PassState E) :
    Sim (fmLoopD g t maxBad fuel ps) (fmLoop g t maxBad fuel ps) := by
  induction fuel generalizing ps with
  | zero => exact Sim.refl _
  | succ fuel ih =>
    unfold fmLoopD fmLoop
    exact Sim.ite ((fmStepD_sim g t ps).bind fun _ _ => ih _) (Sim.refl _)

theorem fmUndoD_sim (g : Graph) (moves : List Nat) (s : FMState E) : Sim (fmUndoD g moves s) (fmUndo g moves s) :=
  Sim.foldlM fun _ _ _ => (Sim.refl _).bind fun _ _ => fmMoveD_sim g false _ _ _

theorem fmPassD_sim (g : Graph) (t : Target E.fp) (maxBad : Nat) (s : FMState E) :
    Sim (fmPassD g t maxBad s) (fmPass g t maxBad s) := by
  unfold fmPassD fmPass
  refine Sim.skip fun _ => (Sim.refl _).bind fun _ _ => (calcMaxImbalanceD_sim g _ t).bind fun _ _ => ?_
  refine (fmLoopD_sim g t maxBad _ _).bind fun _ _ => Sim.skip fun _ => Sim.skip fun _ => ?_
  refine (fmUndoD_sim g _ _).bind fun _ _ => Sim.skip fun _ => Sim.skip fun _ => Sim.skip fun _ => Sim.refl _

theorem fmItersD_sim (g : Graph) (t : Target E.fp) (maxBad n : Nat) (s : FMState E) :
    Sim (fmItersD g t maxBad n s) (fmIters g t maxBad n s) := by
  induction n generalizing s with
  | zero => exact Sim.refl _
  | succ n ih =>
    unfold fmItersD fmIters
    refine (fmPassD_sim g t maxBad s).bind fun x _ => ?_
    exact Sim.ite (Sim.refl _) (ih _)

theorem fmRefineD_sim (g : Graph) (t : Target E.fp) (a b : Nat) (p : Partitioning) (c : Conn E.set) :
    Sim (fmRefineD g t a b p c) (fmRefine g t a b p c) :=
  (Sim.refl _).bind fun _ _ => (fmItersD_sim g t _ _ _).bind fun _ _ => Sim.refl _

/-! ### assertions that hold -/

theorem check_true {c : Prop} [Decidable c] (h : c) : check c = ok () := if_pos h

theorem check_bind {c : Prop} [Decidable c] (h : c) {α : Type} (f : Unit → Res α) : (check c >>= f) = f () := by
  rw [check_true h, ok_bind]

theorem check_false {c : Prop} [Decidable c] (h : ¬ c) : check c = exn := if_neg h

theorem bind_congr_ok {α β : Type} {r : Res α} {f f' : α → Res β} (h : ∀ x, r = ok x → f x = f' x) :
    (r >>= f) = (r >>= f') := by
  cases hr : r with
  | ok x => exact h x hr
  | ub => rfl
  | exn => rfl
  | diverge => rfl

theorem bind_congr2 {α β : Type} {d r : Res α} {f f' : α → Res β} (e : d = r) (h : ∀ x, r = ok x → f x = f' x) :
    (d >>= f) = (r >>= f') := by
  rw [e]; exact bind_congr_ok h

theorem foldlM_congr_inv {α σ : Type} {f f' : σ → α → Res σ} {l : List α} {s : σ} (P : σ → Prop) (h0 : P s)
    (h : ∀ s x, x ∈ l → P s → f s x = f' s x ∧ ∀ s', f' s x = ok s' → P s') : l.foldlM f s = l.foldlM f' s := by
  induction l generalizing s with
  | nil => rfl
  | cons x xs ih =>
    rw [List.foldlM_cons, List.foldlM_cons]
    obtain ⟨e, hp⟩ := h s x (by simp) h0
    exact bind_congr2 e fun s' hs' => ih (hp s' hs') fun s y hy => h s y (by simp [hy])

/-- The debug build does what the release build does, or an assertion fails; the latter only if `H` is false. -/
def Close {α : Type} (H : Prop) (d r : Res α) : Prop := d = r ∨ (¬ H ∧ d = exn)

theorem Close.refl {α : Type} {H : Prop} (r : Res α) : Close H r r := Or.inl rfl

theorem Close.eq {α : Type} {H : Prop} {d r : Res α} (h : Close H d r) (hH : H) : d = r :=
  h.elim id fun h => absurd hH h.1

theorem Close.bind {α β : Type} {H : Prop} {d r : Res α} {f f' : α → Res β} (h : Close H d r)
    (hf : ∀ x, r = ok x → Close H (f x) (f' x)) : Close H (d >>= f) (r >>= f') := by
  rcases h with rfl | ⟨hn, rfl⟩
  · cases hd : d with
    | ok x => exact hf x hd
    | ub => exact Close.refl _
    | exn => exact Close.refl _
    | diverge => exact Close.refl _
  · exact Or.inr ⟨hn, rfl⟩

theorem Close.bind_ok {α β : Type} {H : Prop} {r : Res α} {f f' : α → Res β}
    (hf : ∀ x, r = ok x → Close H (f x) (f' x)) : Close H (r >>= f) (r >>= f') :=
  Close.bind (Close.refl _) hf

theorem Close.check {β : Type} {H c : Prop} [Decidable c] {f : Unit → Res β} {r : Res β} (hc : H → c)
    (hf : Close H (f ()) r) : Close H (Poros.check c >>= f) r := by
  by_cases h : c
  · rw [check_bind h]; exact hf
  · rw [check_false h]; exact Or.inr ⟨fun hH => h (hc hH), rfl⟩

theorem Close.foldlM {α σ : Type} {H : Prop} {f f' : σ → α → Res σ} {l : List α} {s : σ} (P : σ → Prop) (h0 : P s)
    (h : ∀ s x, x ∈ l → P s → Close H (f s x) (f' s x) ∧ ∀ s', f' s x = ok s' → P s') :
    Close H (l.foldlM f s) (l.foldlM f' s) := by
  induction l generalizing s with
  | nil => exact Close.refl _
  | cons x xs ih =>
    rw [List.foldlM_cons, List.foldlM_cons]
    obtain ⟨e, hp⟩ := h s x (by simp) h0
    exact e.bind fun s' hs' => ih (hp s' hs') fun s y hy => h s y (by simp [hy])

/-- Positive fractions (not zero, not NaN) for the parts below `n`. -/
def PosFrac {fp : FP} (t : Target fp) (n : Nat) : Prop := ∀ q, q < n → fp.lt (fp.lit 0 0) (nth t.frac q) = true

theorem moveD_eq {g : Graph} {v part a : Nat} {p : Partitioning} (h : rd p.asg v = ok a) (h1 : a ≠ NULL32)
    (h2 : a ≠ part) : p.moveD g v part = p.move g v part := by
  unfold Partitioning.moveD
  rw [h, ok_bind, check_bind h1, check_bind h2]

theorem calcMaxImbalanceD_close {H : Prop} {fp : FP} {g : Graph} {p : Partitioning} {t : Target fp}
    (hl : t.frac.length = p.pw.length) (hf : H → PosFrac t p.pw.length) :
    Close H (calcMaxImbalanceD g p t) (calcMaxImbalance g p t) := by
  unfold calcMaxImbalanceD calcMaxImbalance findMaxD findMax
  refine (Close.foldlM (P := fun _ => True) trivial fun s q hq _ => ⟨?_, fun _ _ => trivial⟩).bind fun _ _ => Close.refl _
  rw [List.mem_range] at hq
  refine Close.bind ?_ fun _ _ => Close.refl _
  unfold getImbalanceD
  rw [rd_of_lt (by omega), ok_bind]
  exact Close.check (fun h => hf h q hq) (Close.refl _)

theorem fmEdgeD_eq {g : Graph} (queues : Bool) {dst : Nat} (hd : dst < 2) {s : FMState E} (hl : s.part.asg.length = g.nv)
    (h2 : ∀ v, v < g.nv → nth s.part.asg v < 2) {q : Nat × Nat} (hq : q.1 < g.nv) :
    fmEdgeD queues dst s q = fmEdge queues dst s q := by
  unfold fmEdgeD fmEdge
  simp only
  refine bind_congr_ok fun home hh => bind_congr_ok fun dir hdir => ?_
  rw [rd_of_lt (by omega)] at hh
  cases hh
  rw [getDirection_eq hd (h2 _ hq)] at hdir
  cases hdir
  refine bind_congr2 ?_ fun _ _ => rfl
  unfold Conn.updateNeighborD
  rw [check_bind]
  split <;> rfl

/-- An edge update keeps the partitioning. -/
theorem fmEdge_part {queues : Bool} {dst : Nat} {s s' : FMState E} {q : Nat × Nat}
    (h : fmEdge queues dst s q = ok s') : s'.part = s.part := by
  have hset : ∀ (a b : FMState E) k x, FMState.setQ a k x = ok b → b.part = a.part := by
    intro a b k x hh
    unfold FMState.setQ at hh
    split at hh
    · cases hh; rfl
    · split at hh
      · cases hh; rfl
      · cases hh
  have key : Post True (fmEdge queues dst s q) (fun s' => s'.part = s.part) := by
    unfold fmEdge
    have T : ∀ {α : Type} (r : Res α), Post True r (fun _ => True) := by intro α r; cases r <;> trivial
    refine Post.bind (T _) fun _ _ => Post.bind (T _) fun _ _ => Post.bind (T _) fun x _ => ?_
    obtain ⟨st, conn⟩ := x
    simp only
    split
    · refine Post.bind (T _) fun vis _ => ?_
      split
      · rfl
      · cases st <;> simp only
        · refine Post.bind (T _) fun _ _ => Post.bind (T _) fun _ _ => Post.bind (T _) fun _ _ =>
            Post.bind (T _) fun _ _ => may_iff.mpr fun b hb => (hset _ b _ _ hb :)
        · refine Post.bind (T _) fun _ _ => Post.bind (T _) fun _ _ => may_iff.mpr fun b hb => (hset _ b _ _ hb :)
        · refine Post.bind (T _) fun _ _ => Post.bind (T _) fun _ _ => Post.bind (T _) fun _ _ =>
            Post.bind (T _) fun _ _ => may_iff.mpr fun b hb => (hset _ b _ _ hb :)
        · rfl
    · rfl
  exact may_iff.mp key s' h

theorem fmMoveD_eq {g : Graph} (hg : g.Good) (queues : Bool) {s : FMState E} (hs : FMGood g s)
    {v dst : Nat} (hv : v < g.nv) (hto : dst = 1 - s.part.lab v) :
    fmMoveD g queues v dst s = fmMove g queues v dst s := by
  have hlab := hs.part.complete v hv
  have hrd : rd s.part.asg v = ok (s.part.lab v) := rd_of_lt (by rw [hs.part.asg_len]; exact hv)
  unfold fmMoveD fmMove
  rw [hrd, ok_bind, check_bind (by omega)]
  refine bind_congr_ok fun d _ => bind_congr_ok fun x _ => ?_
  refine bind_congr2 (moveD_eq hrd ?_ (by omega)) fun part hpart => ?_
  · intro h; rw [h] at hlab; exact absurd hlab (by decide)
  refine bind_congr_ok fun ns hns => ?_
  rw [Graph.nbrsOf_eq hg.wf hv] at hns
  cases hns
  subst hto
  obtain ⟨p', hp1, -, -, hp3⟩ := sat_iff.mp (move_exact hg hs.part hv)
  rw [hpart] at hp1
  cases hp1
  refine foldlM_congr_inv (P := fun (s' : FMState E) => s'.part = part.addCut d) rfl fun s' q hq hs' => ⟨?_, ?_⟩
  · refine fmEdgeD_eq (g := g) queues (by omega) ?_ ?_ (Graph.nbrs_lt hg.wf hv hq)
    · rw [hs']
      show part.asg.length = _
      rw [hp3, List.length_set]; exact hs.part.asg_len
    · intro u hu
      rw [hs']
      show nth part.asg u < 2
      rw [hp3, nth_set (by rw [hs.part.asg_len]; exact hv)]
      split
      · omega
      · exact hs.part.complete u hu
  · intro s'' h''
    rw [fmEdge_part h'', hs']

/-- `verify` accepts the connectivity of a graph without vertices of weighted degree 0. -/
theorem verify_ok {g : Graph} (hg : g.Good) {s : FMState E} (h : FMGood g s) :
    ∃ b, s.conn.verify g s.part = ok b ∧ ((∀ v, v < g.nv → 0 < g.wsum v fun _ => true) → b = true) := by
  obtain ⟨b, hb1, hb2⟩ := verify_eq hg.wf hg.small h.part.asg_len h.conn.len h.conn.cap
    (fun v hv => (h.conn.border_only v ((E.set.mem_elems _ _).mp hv)).1)
  refine ⟨b, hb1, fun hpos => hb2.mpr ⟨h.conn.vals, fun v => ⟨fun h' => ?_, fun h' => ?_⟩⟩⟩
  · exact h.conn.border_only v ((E.set.mem_elems _ _).mp h')
  · refine (E.set.mem_elems _ _).mpr (h.conn.border_of_ext v h'.1 ?_)
    have := internal_add_external hg.wf s.part.lab h'.1
    have := hpos v h'.1
    omega

theorem wr_length {α : Type} {l l' : List α} {i : Nat} {x : α} (h : wr l i x = ok l') : l'.length = l.length := by
  unfold wr at h
  split at h
  · cases h; simp
  · cases h

theorem Post_any {α : Type} (r : Res α) : Post True r (fun _ => True) := by cases r <;> trivial

theorem Post_eq {α : Type} (r : Res α) : Post True r (fun x => r = ok x) := by cases r <;> trivial

theorem fmMove_pw {g : Graph} {queues : Bool} {v dst : Nat} {s s' : FMState E} (h : fmMove g queues v dst s = ok s') :
    s'.part.pw.length = s.part.pw.length := by
  suffices H : Post True (fmMove g queues v dst s) (fun s' : FMState E => s'.part.pw.length = s.part.pw.length) from
    may_iff.mp H s' h
  unfold fmMove
  refine Post.bind (Post_any _) fun d _ => Post.bind (Post_any _) fun x _ => ?_
  obtain ⟨st, conn⟩ := x
  refine Post.bind (Q := fun p => p.pw.length = s.part.pw.length) ?_ fun p hp => Post.bind (Post_any _) fun ns _ => ?_
  · unfold Partitioning.move
    refine Post.bind (Post_any _) fun _ _ => Post.bind (Post_any _) fun _ _ => Post.bind (Post_any _) fun _ _ =>
      Post.bind (Post_eq _) fun a ha => Post.bind (Post_any _) fun _ _ => Post.bind (Post_eq _) fun b hb =>
      Post.bind (Post_any _) fun _ _ => ?_
    show b.length = _
    rw [wr_length hb, wr_length ha]
  · refine Post_foldlM_inv (P := fun s' : FMState E => s'.part.pw.length = s.part.pw.length) hp fun q s1 _ h1 => ?_
    exact may_iff.mpr fun s2 h2 => by rw [fmEdge_part h2]; exact h1

theorem imbD_close {H : Prop} {g : Graph} {t : Target E.fp} (ht : t.Two) (hf : H → PosFrac t 2) {p : Partitioning}
    (hp : p.pw.length = 2) : Close H (calcMaxImbalanceD g p t) (calcMaxImbalance g p t) :=
  calcMaxImbalanceD_close (by rw [ht.frac, hp]) (by rw [hp]; exact hf)

/-- Conditions for all assertions of FM refinement to hold: positive fractions, no vertex of weighted degree 0. -/
structure FMAssert {fp : FP} (g : Graph) (t : Target fp) : Prop where
  frac : PosFrac t 2
  deg : ∀ v, v < g.nv → 0 < g.wsum v fun _ => true

theorem fmStepD_close {H : Prop} {g : Graph} (hg : g.Good) {t : Target E.fp} (ht : t.Two) (hf : H → FMAssert g t) {lab0 : Nat → Nat}
    {ps : PassState E} (h : PassInv g t lab0 ps) (hne : ps.s.q0.size > 0 ∨ ps.s.q1.size > 0) :
    Close H (fmStepD g t ps) (fmStep g t ps) := by
  unfold fmStepD fmStep
  refine Close.bind (Or.inl (check_bind (by omega) _)) fun side hpick => ?_
  obtain ⟨hside, hsz⟩ := (pickSide_spec ht h.good.part hne).elim_ok hpick
  simp only
  rw [FMState.getQ_eq hside, ok_bind, ok_bind]
  obtain ⟨m, hm, _⟩ := VQueue.top_of_size hsz
  generalize hv : E.pq.top (ps.s.qsel side).q = v at hm
  have hpop : (ps.s.qsel side).pop = ok (v, { ps.s.qsel side with q := E.pq.del (ps.s.qsel side).q v }) := by
    unfold VQueue.pop; rw [hv, hm]
  have hkey := h.queues.keys side hside v
  rw [hm] at hkey
  unfold expectKey at hkey
  split at hkey
  swap
  · simp at hkey
  rename_i hcond
  obtain ⟨hvn, hvis, hlab, hhas⟩ := hcond
  have hb := ext_int_lt hg ps.s.part.lab hvn
  have htop : checkTop (ps.s.qsel side) ps.s.conn = ok () := by
    have x0 : (ps.s.qsel side).max = ok m := by unfold VQueue.max; rw [hv, hm]
    have p0 : (ps.s.qsel side).peek = ok v := by unfold VQueue.peek; rw [hv, hm]
    unfold checkTop
    rw [x0, ok_bind, p0, ok_bind, Conn.delta_eq h.good.conn.toVals hvn hb, ok_bind]
    have hneg : ineg ((internalWeight g ps.s.part.lab v : Int) - externalWeight g ps.s.part.lab v) =
        ok ((externalWeight g ps.s.part.lab v : Int) - internalWeight g ps.s.part.lab v) := by
      unfold ineg
      rw [isub_eq (by omega) (by omega)]
      congr 1; omega
    rw [hneg, ok_bind]
    exact check_true (by simpa using hkey)
  rw [htop, ok_bind, hpop, ok_bind, ok_bind]
  simp only
  rw [FMState.setQ_eq hside, ok_bind, ok_bind]
  refine Close.bind_ok fun visited hvisd => ?_
  have hck : rd (FMState.qset ps.s side { ps.s.qsel side with q := E.pq.del (ps.s.qsel side).q v }).part.asg v =
      ok side := by
    rw [FMState.qset_part, rd_of_lt (by rw [h.good.part.asg_len]; exact hvn)]
    exact congrArg ok hlab
  rw [hck, ok_bind, check_bind rfl]
  rw [FMState.qset_visited, wr_of_lt (by rw [h.queues.vis]; exact hvn)] at hvisd
  cases hvisd
  generalize hs1 : ({ FMState.qset ps.s side { ps.s.qsel side with q := E.pq.del (ps.s.qsel side).q v }
    with visited := ps.s.visited.set v true } : FMState E) = s1
  have e_part : s1.part = ps.s.part := by rw [← hs1]; exact FMState.qset_part _ _ _
  have e_conn : s1.conn = ps.s.conn := by rw [← hs1]; exact FMState.qset_conn _ _ _
  have hgood1 : FMGood g s1 := ⟨by rw [e_part]; exact h.good.part, by rw [e_part, e_conn]; exact h.good.conn⟩
  have hdst : side ^^^ 1 = 1 - s1.part.lab v := by
    rw [e_part, hlab]
    have : side = 0 ∨ side = 1 := by omega
    rcases this with rfl | rfl <;> rfl
  refine Close.bind (Or.inl (fmMoveD_eq hg true hgood1 hvn hdst)) fun s2 hs2 => ?_
  have hpw := fmMove_pw hs2
  rw [e_part, h.good.part.pw_len] at hpw
  exact (imbD_close ht (fun h => (hf h).frac) hpw).bind fun _ _ => Close.refl _

theorem fmLoopD_close {H : Prop} {g : Graph} (hg : g.Good) {t : Target E.fp} (ht : t.Two) (hf : H → FMAssert g t) {lab0 : Nat → Nat}
    (maxBad fuel : Nat) {ps : PassState E} (h : PassInv g t lab0 ps) :
    Close H (fmLoopD g t maxBad fuel ps) (fmLoop g t maxBad fuel ps) := by
  induction fuel generalizing ps with
  | zero => exact Close.refl _
  | succ fuel ih =>
    unfold fmLoopD fmLoop
    split
    · rename_i hc
      refine (fmStepD_close hg ht hf h hc.1).bind fun ps' hps' => ?_
      exact ih ((fmStep_spec hg ht h hc.1).elim_ok hps').1
    · exact Close.refl _

theorem fmUndoD_eq {g : Graph} (hg : g.Good) {s : FMState E} (moves : List Nat) (hs : FMGood g s)
    (hm : ∀ v ∈ moves, v < g.nv) : fmUndoD g moves s = fmUndo g moves s := by
  unfold fmUndoD fmUndo
  refine foldlM_congr_inv (P := fun s' => FMGood g s') hs fun s' v hv hs' => ?_
  have hvn := hm v (List.mem_reverse.mp hv)
  have h2 := hs'.part.complete v hvn
  have hrd : rd s'.part.asg v = ok (s'.part.lab v) := rd_of_lt (by rw [hs'.part.asg_len]; exact hvn)
  have hdst : s'.part.lab v ^^^ 1 = 1 - s'.part.lab v := by
    have : s'.part.lab v = 0 ∨ s'.part.lab v = 1 := by omega
    rcases this with e | e <;> rw [e] <;> rfl
  rw [hrd, ok_bind, ok_bind]
  exact ⟨fmMoveD_eq hg false hs' hvn hdst, fun s'' h'' =>
    ((fmMove_spec hg false hs' hvn hdst (fun h => nomatch h)).elim_ok h'').1⟩

theorem fmPassD_close {H : Prop} {g : Graph} (hg : g.Good) {t : Target E.fp} (ht : t.Two) (hf : H → FMAssert g t)
    (maxBad : Nat) {s : FMState E}
    (hs : FMGood g s) (hfr : FMFresh g s) : 
    Close H (fmPassD g t maxBad s) (fmPass g t maxBad s) := by
  unfold fmPassD fmPass
  rcases imbD_close (g := g) ht (fun h => (hf h).frac) hs.part.pw_len with e | ⟨hn, e⟩
  swap
  · rw [e]; exact Or.inr ⟨hn, rfl⟩
  rw [e, calcMaxImbalance_eq ht hs.part, ok_bind]
  refine Close.bind_ok fun s1 hs1e => ?_
  obtain ⟨hp1, hc1, hv1, hq1⟩ := (fillQueues_spec hg hs hfr).elim_ok hs1e
  have hs1 : FMGood g s1 := ⟨by rw [hp1]; exact hs.part, by rw [hp1, hc1]; exact hs.conn⟩
  refine (imbD_close ht (fun h => (hf h).frac) hs1.part.pw_len).bind fun bal hbal => ?_
  rw [calcMaxImbalance_eq ht hs1.part] at hbal
  cases hbal
  have h0 : PassInv g t s.part.lab
      { s := s1, moves := [], bestCut := s1.part.cut, bestBal := maxImbalance g t s1.part.lab, numMoved := 0 } := by
    refine ⟨hs1, hq1, [], by simp, ?_, rfl, by simp [hp1], ?_, by simp [hp1], ImprovesStar.refl _⟩
    · intro v
      simp only [List.append_nil, List.not_mem_nil, false_iff, not_and]
      intro hv
      rw [hv1, hfr.visited, nth_replicate hv]; simp
    · show s1.part.cut = cutWeight g s.part.lab
      rw [hs1.part.cut_eq, hp1]
  refine (fmLoopD_close hg ht hf maxBad _ h0).bind fun ps hps' => ?_
  obtain ⟨hps, -⟩ := (fmLoop_spec hg ht maxBad (g.nv + 1) h0 (by show g.nv < g.nv + 1 + 0; omega)).elim_ok hps'
  obtain ⟨kept, hnd, hmem, hnum, hl, hbc, hbb, hstar⟩ := hps.best
  have hkm : ∀ v ∈ kept ++ ps.moves, v < g.nv := fun v hv => ((hmem v).mp hv).1
  obtain ⟨b, hb1, hb2⟩ := verify_ok hg hps.good
  rw [hb1, ok_bind]
  refine Close.check (fun h => hb2 (hf h).deg) ?_
  refine Close.bind (Or.inl <| fmUndoD_eq hg ps.moves hps.good fun v hv => hkm v (by simp [hv])) fun s2 hs2 => ?_
  obtain ⟨hg2, hl2, -⟩ := (fmUndo_spec hg ps.moves hps.good (fun v hv => hkm v (by simp [hv]))
    (base := kept.foldl flip s.part.lab) (foldl_flip_lt kept hs.part.complete)
    (by rw [hl, List.foldl_append])).elim_ok hs2
  obtain ⟨b', hb1', hb2'⟩ := verify_ok hg hg2
  rw [hb1', ok_bind]
  refine Close.check (fun h => hb2' (hf h).deg) ?_
  rw [check_bind]
  · exact Close.refl _
  · rw [hg2.part.cut_eq, hl2, hbc]

theorem fmItersD_close {H : Prop} {g : Graph} (hg : g.Good) {t : Target E.fp} (ht : t.Two) (hf : H → FMAssert g t)
    (maxBad n : Nat) {s : FMState E}
    (hs : FMGood g s) (hfr : FMFresh g s) : 
    Close H (fmItersD g t maxBad n s) (fmIters g t maxBad n s) := by
  induction n generalizing s with
  | zero => exact Close.refl _
  | succ n ih =>
    unfold fmItersD fmIters
    refine (fmPassD_close hg ht hf maxBad hs hfr).bind fun x hx => ?_
    obtain ⟨s1, stop⟩ := x
    obtain ⟨hg1, -, -, hfr1⟩ := (fmPass_spec hg ht maxBad hs hfr).elim_ok hx
    simp only
    split
    · exact Close.refl _
    · exact ih ⟨hg1.part, hg1.conn⟩ hfr1

theorem start_fresh (E : Env) (g : Graph) (p : Partitioning) (c : Conn E.set) :
    FMFresh g (startState E g p c) := by
  refine ⟨rfl, ?_, ?_⟩
  · intro side hside
    have : side = 0 ∨ side = 1 := by omega
    rcases this with rfl | rfl <;> rfl
  · intro side hside u
    have : side = 0 ∨ side = 1 := by omega
    rcases this with rfl | rfl <;> exact E.pq.key_empty u

theorem fmRefineD_close {H : Prop} {g : Graph} (hg : g.Good) {t : Target E.fp} (ht : t.Two) (hf : H → FMAssert g t)
    (maxIters maxMoves : Nat) {p : Partitioning} {c : Conn E.set}
    (hp : IsExact g 2 p) (hc : ConnExact g p.lab c) :
    Close H (fmRefineD g t maxIters maxMoves p c) (fmRefine g t maxIters maxMoves p c) :=
  Close.bind_ok fun maxBad _ => (fmItersD_close hg ht hf maxBad maxIters ⟨hp, hc⟩
    (start_fresh E g p c)).bind fun _ _ => Close.refl _

end Poros
