import Verif.Proofs.Scale
import Verif.SpecScale
/-
FM refinement of a graph and of the graph with scaled edge weights makes the same moves.
-/
namespace Poros
open Res

variable {E : Env} {alike : (Int → Int) → E.pq.Q → E.pq.Q → Prop} {c : Nat}

theorem keepsOrder_mul (hc : 0 < c) : KeepsOrder ((c : Int) * ·) := by
  intro a b h
  exact mul_lt_mul_of_pos_left h (by exact_mod_cast hc)

theorem isub_ok {a b x : Int} (h : isub a b = ok x) : x = a - b := by
  unfold isub at h
  split at h
  · cases h; rfl
  · cases h

theorem ineg_ok {a x : Int} (h : ineg a = ok x) : x = -a := by
  unfold ineg at h
  have := isub_ok h
  omega

/-! ### queues -/

/-- The queue `q'` is `q` with scaled keys. -/
def VQA (alike : (Int → Int) → E.pq.Q → E.pq.Q → Prop) (c : Nat) (q q' : VQueue E.pq) : Prop :=
  q'.cap = q.cap ∧ alike ((c : Int) * ·) q.q q'.q

namespace VQA
variable {q q' : VQueue E.pq}

theorem new (ho : OrderBased E.pq alike) (hc : 0 < c) (n : Nat) : VQA alike c (VQueue.new E.pq n) (VQueue.new E.pq n) :=
  ⟨rfl, ho.empty _ (keepsOrder_mul hc)⟩

theorem clear (ho : OrderBased E.pq alike) (hc : 0 < c) (h : VQA alike c q q') : VQA alike c q.clear q'.clear :=
  ⟨h.1, ho.empty _ (keepsOrder_mul hc)⟩

theorem size (ho : OrderBased E.pq alike) (h : VQA alike c q q') : q'.size = q.size := by
  unfold VQueue.size; rw [ho.elems _ _ _ h.2]

theorem remaining (ho : OrderBased E.pq alike) (h : VQA alike c q q') : q'.remaining = q.remaining :=
  ho.elems _ _ _ h.2

theorem key (ho : OrderBased E.pq alike) (h : VQA alike c q q') (v : Nat) :
    E.pq.key q'.q v = (E.pq.key q.q v).map ((c : Int) * ·) := ho.key _ _ _ v h.2

theorem add (ho : OrderBased E.pq alike) (hc : 0 < c) (h : VQA alike c q q') (k : Int) (v : Nat) :
    Lock (VQA alike c) (q.add k v) (q'.add (c * k) v) := by
  unfold VQueue.add
  rw [h.1, h.key ho v]
  split
  · exact Lock.ub_left
  · cases E.pq.key q.q v with
    | some x => exact Lock.ub_left
    | none => exact Lock.ok ⟨rfl, ho.put _ _ _ v k (keepsOrder_mul hc) h.2⟩

theorem remove (ho : OrderBased E.pq alike) (hc : 0 < c) (h : VQA alike c q q') (v : Nat) :
    Lock (VQA alike c) (q.remove v) (q'.remove v) := by
  unfold VQueue.remove
  rw [h.1, h.key ho v]
  split
  · exact Lock.ub_left
  · cases E.pq.key q.q v with
    | none => exact Lock.ub_left
    | some x => exact Lock.ok ⟨rfl, ho.del _ _ _ v (keepsOrder_mul hc) h.2⟩

theorem update (ho : OrderBased E.pq alike) (hc : 0 < c) (h : VQA alike c q q') (k : Int) (v : Nat) :
    Lock (VQA alike c) (q.update k v) (q'.update (c * k) v) := by
  unfold VQueue.update
  rw [h.1, h.key ho v]
  split
  · exact Lock.ub_left
  · cases E.pq.key q.q v with
    | none => exact Lock.ub_left
    | some x => exact Lock.ok ⟨rfl, ho.put _ _ _ v k (keepsOrder_mul hc) h.2⟩

theorem updateByDelta (ho : OrderBased E.pq alike) (hc : 0 < c) (h : VQA alike c q q') (d : Int) (v : Nat) :
    Lock (VQA alike c) (q.updateByDelta d v) (q'.updateByDelta (c * d) v) := by
  unfold VQueue.updateByDelta
  rw [h.1, h.key ho v]
  split
  · exact Lock.ub_left
  · cases E.pq.key q.q v with
    | none => exact Lock.ub_left
    | some x =>
      simp only [Option.map_some]
      refine Lock.bind (R := fun (a b : Int) => b = c * a) ?_ ?_
      · intro a b ha hb
        have ha := isub_ok ha
        have hb := isub_ok hb
        subst ha hb
        rw [mul_sub]; congr 1; rw [mul_neg]
      · rintro a b _ _ rfl
        exact Lock.ok ⟨rfl, ho.put _ _ _ v _ (keepsOrder_mul hc) h.2⟩

theorem contains (ho : OrderBased E.pq alike) (h : VQA alike c q q') (v : Nat) : q'.contains v = q.contains v := by
  unfold VQueue.contains
  rw [h.1, h.key ho v, Option.isSome_map]

theorem max (ho : OrderBased E.pq alike) (hc : 0 < c) (h : VQA alike c q q') :
    Lock (fun (a b : Int) => b = c * a) q.max q'.max := by
  unfold VQueue.max
  cases hk : E.pq.key q.q (E.pq.top q.q) with
  | none => exact Lock.ub_left
  | some k =>
    rw [ho.top _ _ _ (keepsOrder_mul hc) h.2 ⟨_, _, hk⟩, h.key ho, hk]
    exact Lock.ok rfl

theorem peek (ho : OrderBased E.pq alike) (hc : 0 < c) (h : VQA alike c q q') :
    Lock (fun a b => b = a) q.peek q'.peek := by
  unfold VQueue.peek
  cases hk : E.pq.key q.q (E.pq.top q.q) with
  | none => exact Lock.ub_left
  | some k =>
    rw [ho.top _ _ _ (keepsOrder_mul hc) h.2 ⟨_, _, hk⟩, h.key ho, hk]
    exact Lock.ok rfl

theorem pop (ho : OrderBased E.pq alike) (hc : 0 < c) (h : VQA alike c q q') :
    Lock (fun a b => b.1 = a.1 ∧ VQA alike c a.2 b.2) q.pop q'.pop := by
  unfold VQueue.pop
  cases hk : E.pq.key q.q (E.pq.top q.q) with
  | none => exact Lock.ub_left
  | some k =>
    rw [ho.top _ _ _ (keepsOrder_mul hc) h.2 ⟨_, _, hk⟩, h.key ho, hk]
    exact Lock.ok ⟨rfl, h.1, ho.del _ _ _ _ (keepsOrder_mul hc) h.2⟩

end VQA

/-! ### partitionings -/

/-- The same labels and part weights. -/
def PRel (p p' : Partitioning) : Prop := p'.asg = p.asg ∧ p'.pw = p.pw

theorem PRel.lab {p p' : Partitioning} (h : PRel p p') : p'.lab = p.lab := by
  funext v; unfold Partitioning.lab; rw [h.1]

theorem PRel.move {g g' : Graph} (hS : Scaled c g g') {p p' : Partitioning} (h : PRel p p') (v dst : Nat) :
    Lock PRel (p.move g v dst) (p'.move g' v dst) := by
  unfold Partitioning.move
  rw [hS.vwgtOf, hS.unitVtx, h.1, h.2]
  refine Lock.same fun w _ => Lock.same fun x _ => Lock.same fun o1 _ => Lock.same fun pw _ =>
    Lock.same fun o2 _ => Lock.same fun pw2 _ => Lock.same fun asg _ => Lock.ok ⟨rfl, rfl⟩

theorem PRel.isOverWeight {fp : FP} {p p' : Partitioning} (h : PRel p p') (t : Target fp) (q : Nat) :
    isOverWeight p' t q = isOverWeight p t q := by
  unfold Poros.isOverWeight; rw [h.2]

theorem PRel.isBalanced {fp : FP} {p p' : Partitioning} (h : PRel p p') (t : Target fp) :
    isBalanced p' t = isBalanced p t := by
  unfold Poros.isBalanced; rw [h.2]; simp only [h.isOverWeight]

theorem PRel.calcMaxImbalance {fp : FP} {g g' : Graph} (hS : Scaled c g g') {p p' : Partitioning} (h : PRel p p')
    (t : Target fp) : calcMaxImbalance g' p' t = calcMaxImbalance g p t := by
  unfold Poros.calcMaxImbalance findMax getImbalance getFraction; rw [h.2, hS.totVtx]

/-! ### FM states -/

/-- The state of the run with scaled weights. -/
structure FMRel (alike : (Int → Int) → E.pq.Q → E.pq.Q → Prop) (c : Nat) (s s' : FMState E) : Prop where
  part : PRel s.part s'.part
  border : s'.conn.border = s.conn.border
  q0 : VQA alike c s.q0 s'.q0
  q1 : VQA alike c s.q1 s'.q1
  visited : s'.visited = s.visited

theorem FMRel.getQ {s s' : FMState E} (h : FMRel alike c s s') (side : Nat) :
    Lock (VQA alike c) (s.getQ side) (s'.getQ side) := by
  unfold FMState.getQ
  split
  · exact Lock.ok h.q0
  · split
    · exact Lock.ok h.q1
    · exact Lock.ub_left

theorem FMRel.setQ {s s' : FMState E} (h : FMRel alike c s s') (side : Nat) {q q' : VQueue E.pq} (hq : VQA alike c q q') :
    Lock (fun a b => FMRel alike c a b ∧ a.conn = s.conn ∧ b.conn = s'.conn) (s.setQ side q) (s'.setQ side q') := by
  unfold FMState.setQ
  split
  · exact Lock.ok ⟨⟨h.part, h.border, hq, h.q1, h.visited⟩, rfl, rfl⟩
  · split
    · exact Lock.ok ⟨⟨h.part, h.border, h.q0, hq, h.visited⟩, rfl, rfl⟩
    · exact Lock.ub_left

theorem pickSide_lock (ho : OrderBased E.pq alike) (hc : 0 < c) {s s' : FMState E} (h : FMRel alike c s s')
    (t : Target E.fp) : Lock (fun a b => b = a) (pickSide s t) (pickSide s' t) := by
  unfold pickSide
  rw [h.part.isOverWeight, h.part.isOverWeight, h.q0.size ho, h.q1.size ho]
  refine Lock.same fun o0 _ => ?_
  split
  · exact Lock.eq rfl
  refine Lock.same fun o1 _ => ?_
  split
  · exact Lock.eq rfl
  split
  · exact Lock.eq rfl
  split
  · exact Lock.eq rfl
  refine (h.q0.max ho hc).bind fun m0 m0' _ _ e0 => (h.q1.max ho hc).bind fun m1 m1' _ _ e1 => ?_
  subst e0 e1
  have hc' : (0 : Int) < c := by exact_mod_cast hc
  by_cases h1 : m0 > m1
  · have : (c : Int) * m0 > c * m1 := mul_lt_mul_of_pos_left h1 hc'
    rw [if_pos h1, if_pos this]; exact Lock.eq rfl
  · have : ¬ (c : Int) * m0 > c * m1 := fun h => h1 (lt_of_mul_lt_mul_left h hc'.le)
    rw [if_neg h1, if_neg this]
    by_cases h2 : m0 < m1
    · have : (c : Int) * m0 < c * m1 := mul_lt_mul_of_pos_left h2 hc'
      rw [if_pos h2, if_pos this]; exact Lock.eq rfl
    · have : ¬ (c : Int) * m0 < c * m1 := fun h => h2 (lt_of_mul_lt_mul_left h hc'.le)
      rw [if_neg h2, if_neg this]
      refine (h.q0.peek ho hc).bind fun a a' _ _ ea => (h.q1.peek ho hc).bind fun b b' _ _ eb => ?_
      subst ea eb
      exact Lock.ok rfl

/-! ### one edge -/

theorem updateBorder_lock {P : SetImpl} {a b : Conn P} {v : Nat} (hb : b.border = a.border) :
    Lock (fun x y => ((nth x.2.con v).1 = 0 ↔ (nth y.2.con v).1 = 0) → y.1 = x.1 ∧ y.2.border = x.2.border)
      (a.updateBorderStatus v) (b.updateBorderStatus v) := by
  unfold Conn.updateBorderStatus
  rw [hb]
  refine Lock.same fun inB _ => ?_
  by_cases ha : v < a.con.length
  swap
  · rw [rd_of_le (l := a.con) (by omega)]; exact Lock.ub_left
  by_cases hl : v < b.con.length
  swap
  · rw [rd_of_le (l := b.con) (by omega)]; intro x y _ hy; cases hy
  rw [rd_of_lt ha, rd_of_lt hl, ok_bind, ok_bind]
  generalize hx : nth a.con v = x
  generalize hy : nth b.con v = y
  cases inB with
  | true =>
    simp only [if_true]
    by_cases h1 : x.1 = 0
    · rw [if_pos h1]
      by_cases h2 : y.1 = 0
      · rw [if_pos h2]
        exact Lock.same fun bd _ => Lock.ok fun _ => ⟨rfl, rfl⟩
      · rw [if_neg h2]
        refine fun r r' hr hr' hi => ?_
        obtain ⟨bd, _, hr⟩ := bind_eq_ok hr
        cases hr; cases hr'
        exact absurd ((hx ▸ hy ▸ hi : x.1 = 0 ↔ y.1 = 0).mp h1) h2
    · rw [if_neg h1]
      by_cases h2 : y.1 = 0
      · rw [if_pos h2]
        refine fun r r' hr hr' hi => ?_
        obtain ⟨bd, _, hr'⟩ := bind_eq_ok hr'
        cases hr; cases hr'
        exact absurd ((hx ▸ hy ▸ hi : x.1 = 0 ↔ y.1 = 0).mpr h2) h1
      · rw [if_neg h2]
        exact Lock.ok fun _ => ⟨rfl, hb⟩
  | false =>
    simp only [Bool.false_eq_true, if_false]
    by_cases h1 : x.1 > 0
    · rw [if_pos h1]
      by_cases h2 : y.1 > 0
      · rw [if_pos h2]
        exact Lock.same fun bd _ => Lock.ok fun _ => ⟨rfl, rfl⟩
      · rw [if_neg h2]
        refine fun r r' hr hr' hi => ?_
        obtain ⟨bd, _, hr⟩ := bind_eq_ok hr
        cases hr; cases hr'
        have := (hx ▸ hy ▸ hi : x.1 = 0 ↔ y.1 = 0)
        omega
    · rw [if_neg h1]
      by_cases h2 : y.1 > 0
      · rw [if_pos h2]
        refine fun r r' hr hr' hi => ?_
        obtain ⟨bd, _, hr'⟩ := bind_eq_ok hr'
        cases hr; cases hr'
        have := (hx ▸ hy ▸ hi : x.1 = 0 ↔ y.1 = 0)
        omega
      · rw [if_neg h2]
        exact Lock.ok fun _ => ⟨rfl, hb⟩

/-- What `fmEdge` does to everything but the queues. -/
theorem fmEdge_ok {queues : Bool} {dst : Nat} {s s2 : FMState E} {q : Nat × Nat} (h : fmEdge queues dst s q = ok s2) :
    ∃ home dir st, rd s.part.asg q.1 = ok home ∧ getDirection dst home = ok dir ∧
      s.conn.updateNeighbor q.1 q.2 dir = ok (st, s2.conn) ∧ s2.part = s.part ∧ s2.visited = s.visited := by
  unfold fmEdge at h
  simp only at h
  obtain ⟨home, h1, h⟩ := bind_eq_ok h
  obtain ⟨dir, h2, h⟩ := bind_eq_ok h
  obtain ⟨⟨st, conn⟩, h3, h⟩ := bind_eq_ok h
  refine ⟨home, dir, st, h1, h2, ?_⟩
  have hset : ∀ (a b : FMState E) (side : Nat) (pq : VQueue E.pq), a.setQ side pq = ok b →
      b.conn = a.conn ∧ b.part = a.part ∧ b.visited = a.visited := by
    intro a b side pq hb
    unfold FMState.setQ at hb
    split at hb
    · cases hb; exact ⟨rfl, rfl, rfl⟩
    · split at hb
      · cases hb; exact ⟨rfl, rfl, rfl⟩
      · cases hb
  suffices H : s2.conn = conn ∧ s2.part = s.part ∧ s2.visited = s.visited by
    rw [H.1]; exact ⟨h3, H.2⟩
  cases queues with
  | false => simp only [Bool.false_eq_true, if_false] at h; cases h; exact ⟨rfl, rfl, rfl⟩
  | true =>
    simp only [if_true] at h
    obtain ⟨vis, _, h⟩ := bind_eq_ok h
    cases vis with
    | true => simp only [if_true] at h; cases h; exact ⟨rfl, rfl, rfl⟩
    | false =>
      simp only [Bool.false_eq_true, if_false] at h
      cases st with
      | added =>
        simp only at h
        obtain ⟨_, _, h⟩ := bind_eq_ok h
        obtain ⟨_, _, h⟩ := bind_eq_ok h
        obtain ⟨_, _, h⟩ := bind_eq_ok h
        obtain ⟨_, _, h⟩ := bind_eq_ok h
        exact hset _ _ _ _ h
      | removed =>
        simp only at h
        obtain ⟨_, _, h⟩ := bind_eq_ok h
        obtain ⟨_, _, h⟩ := bind_eq_ok h
        exact hset _ _ _ _ h
      | stillIn =>
        simp only at h
        obtain ⟨_, _, h⟩ := bind_eq_ok h
        obtain ⟨_, _, h⟩ := bind_eq_ok h
        obtain ⟨_, _, h⟩ := bind_eq_ok h
        obtain ⟨_, _, h⟩ := bind_eq_ok h
        exact hset _ _ _ _ h
      | stillOut => simp only at h; cases h; exact ⟨rfl, rfl, rfl⟩

theorem updateNeighbor_lock {P : SetImpl} {a b : Conn P} {u w w' : Nat} {dir : Int} (hb : b.border = a.border) :
    Lock (fun x y => ((nth x.2.con u).1 = 0 ↔ (nth y.2.con u).1 = 0) → y.1 = x.1 ∧ y.2.border = x.2.border)
      (a.updateNeighbor u w dir) (b.updateNeighbor u w' dir) := by
  unfold Conn.updateNeighbor
  intro r r' hr hr'
  obtain ⟨_, _, hr⟩ := bind_eq_ok hr
  obtain ⟨_, _, hr⟩ := bind_eq_ok hr
  obtain ⟨_, _, hr'⟩ := bind_eq_ok hr'
  obtain ⟨_, _, hr'⟩ := bind_eq_ok hr'
  exact updateBorder_lock (a := { a with con := _ }) (b := { b with con := _ }) (by exact hb) r r' hr hr'

/-- One edge: if the new values of the neighbour are scaled, so is the whole state. -/
theorem fmEdge_lock (ho : OrderBased E.pq alike) (hc : 0 < c) (queues : Bool) (dst : Nat) {s s' : FMState E} {q : Nat × Nat}
    (h : FMRel alike c s s') {n : Nat} {X I X' I' : Nat → Nat} (hu : q.1 < n)
    (hv : ∀ s2, fmEdge queues dst s q = ok s2 → ConnVals n X I s2.conn)
    (hv' : ∀ s2, fmEdge queues dst s' (sc c q) = ok s2 → ConnVals n X' I' s2.conn)
    (hX : X' q.1 = c * X q.1) (hI : I' q.1 = c * I q.1)
    (hb : X q.1 + I q.1 < 2147483648) (hb' : X' q.1 + I' q.1 < 2147483648) :
    Lock (FMRel alike c) (fmEdge queues dst s q) (fmEdge queues dst s' (sc c q)) := by
  intro r r' hr hr'
  have e1 := hv r hr
  have e2 := hv' r' hr'
  obtain ⟨home, dir, st, h1, h2, h3, hp, hvis⟩ := fmEdge_ok hr
  obtain ⟨home', dir', st', h1', h2', h3', hp', hvis'⟩ := fmEdge_ok hr'
  change rd s'.part.asg q.1 = _ at h1'
  rw [h.part.1, h1] at h1'
  cases h1'
  rw [h2] at h2'
  cases h2'
  have hz : (nth r.conn.con q.1).1 = 0 ↔ (nth r'.conn.con q.1).1 = 0 := by
    rw [e1.vals _ hu, e2.vals _ hu, hX]
    show X q.1 = 0 ↔ c * X q.1 = 0
    rw [Nat.mul_eq_zero]; omega
  obtain ⟨hst, hbd⟩ := updateNeighbor_lock h.border _ _ h3 h3' hz
  simp only at hst hbd
  subst hst
  have hk : ∀ (a : FMState E) (b : FMState E), a.conn = r.conn → b.conn = r'.conn →
      Lock (fun (x y : Int) => y = c * x) (do let d ← a.conn.delta q.1; ineg d) (do let d ← b.conn.delta q.1; ineg d) := by
    intro a b ha hb
    rw [ha, hb, Conn.delta_eq e1 hu (by omega), Conn.delta_eq e2 hu (by omega), ok_bind, ok_bind]
    intro x y hx hy
    have hx := ineg_ok hx
    have hy := ineg_ok hy
    rw [hx, hy, hX, hI]
    push_cast
    ring
  have hrel : FMRel alike c { s with conn := r.conn } { s' with conn := r'.conn } :=
    ⟨h.part, hbd, h.q0, h.q1, h.visited⟩
  unfold fmEdge at hr hr'
  simp only at hr hr'
  change (rd s'.part.asg q.1 >>= _) = _ at hr'
  rw [h.part.1] at hr'
  rw [h1, ok_bind, h2, ok_bind, h3, ok_bind] at hr
  rw [h1, ok_bind, h2, ok_bind] at hr'
  change (s'.conn.updateNeighbor q.1 (c * q.2) dir >>= _) = _ at hr'
  rw [show s'.conn.updateNeighbor q.1 (c * q.2) dir = ok (st', r'.conn) from h3', ok_bind] at hr'
  cases queues with
  | false =>
    simp only [Bool.false_eq_true, if_false] at hr hr'
    rw [← Res.ok.inj hr, ← Res.ok.inj hr']; exact hrel
  | true =>
    simp only [if_true] at hr hr'
    obtain ⟨vis, e, hr⟩ := bind_eq_ok hr
    obtain ⟨vis', e', hr'⟩ := bind_eq_ok hr'
    change rd s'.visited q.1 = _ at e'
    rw [h.visited, e] at e'
    cases e'
    cases vis with
    | true => simp only [if_true] at hr hr'; rw [← Res.ok.inj hr, ← Res.ok.inj hr']; exact hrel
    | false =>
      simp only [Bool.false_eq_true, if_false] at hr hr'
      cases st' with
      | stillOut => simp only at hr hr'; rw [← Res.ok.inj hr, ← Res.ok.inj hr']; exact hrel
      | removed =>
        simp only at hr hr'
        obtain ⟨a, ha, hr⟩ := bind_eq_ok hr
        obtain ⟨b, hb, hr⟩ := bind_eq_ok hr
        obtain ⟨a', ha', hr'⟩ := bind_eq_ok hr'
        obtain ⟨b', hb', hr'⟩ := bind_eq_ok hr'
        have r1 := hrel.getQ home _ _ ha ha'
        have r2 := r1.remove ho hc q.1 _ _ hb hb'
        exact (hrel.setQ home r2 _ _ hr hr').1
      | added =>
        simp only at hr hr'
        obtain ⟨d, hd, hr⟩ := bind_eq_ok hr
        obtain ⟨k, hkk, hr⟩ := bind_eq_ok hr
        obtain ⟨a, ha, hr⟩ := bind_eq_ok hr
        obtain ⟨b, hb, hr⟩ := bind_eq_ok hr
        obtain ⟨d', hd', hr'⟩ := bind_eq_ok hr'
        obtain ⟨k', hkk', hr'⟩ := bind_eq_ok hr'
        obtain ⟨a', ha', hr'⟩ := bind_eq_ok hr'
        obtain ⟨b', hb', hr'⟩ := bind_eq_ok hr'
        have hkey := hk { s with conn := r.conn } { s' with conn := r'.conn } rfl rfl k k'
          (by simp only; rw [hd, ok_bind]; exact hkk) (by simp only; rw [show r'.conn.delta q.1 = _ from hd', ok_bind]; exact hkk')
        rw [hkey] at hb'
        have r1 := hrel.getQ home _ _ ha ha'
        have r2 := r1.add ho hc k q.1 _ _ hb hb'
        exact (hrel.setQ home r2 _ _ hr hr').1
      | stillIn =>
        simp only at hr hr'
        obtain ⟨d, hd, hr⟩ := bind_eq_ok hr
        obtain ⟨k, hkk, hr⟩ := bind_eq_ok hr
        obtain ⟨a, ha, hr⟩ := bind_eq_ok hr
        obtain ⟨b, hb, hr⟩ := bind_eq_ok hr
        obtain ⟨d', hd', hr'⟩ := bind_eq_ok hr'
        obtain ⟨k', hkk', hr'⟩ := bind_eq_ok hr'
        obtain ⟨a', ha', hr'⟩ := bind_eq_ok hr'
        obtain ⟨b', hb', hr'⟩ := bind_eq_ok hr'
        have hkey := hk { s with conn := r.conn } { s' with conn := r'.conn } rfl rfl k k'
          (by simp only; rw [hd, ok_bind]; exact hkk) (by simp only; rw [show r'.conn.delta q.1 = _ from hd', ok_bind]; exact hkk')
        rw [hkey] at hb'
        have r1 := hrel.getQ home _ _ ha ha'
        have r2 := r1.update ho hc k q.1 _ _ hb hb'
        exact (hrel.setQ home r2 _ _ hr hr').1

/-! ### one move -/

theorem fmEdge_vals {queues : Bool} {n dst : Nat} {lab X I X' I' : Nat → Nat} {s s2 : FMState E} {q : Nat × Nat}
    (h : fmEdge queues dst s q = ok s2) (hlab : nth s.part.asg q.1 = lab q.1) (h2 : lab q.1 < 2) (hto : dst < 2)
    (hc : ConnVals n X I s.conn) (hu : q.1 < n)
    (hw : if decide (lab q.1 = dst) then q.2 ≤ X q.1 else q.2 ≤ I q.1)
    (hb : X q.1 + I q.1 < 2147483648)
    (hX : ∀ x, x ≠ q.1 → X' x = X x) (hI : ∀ x, x ≠ q.1 → I' x = I x)
    (hXu : X' q.1 = shiftX (decide (lab q.1 = dst)) (X q.1) q.2)
    (hIu : I' q.1 = shiftI (decide (lab q.1 = dst)) (I q.1) q.2) :
    ConnVals n X' I' s2.conn ∧ s2.part = s.part := by
  obtain ⟨home, dir, st, h1, h3, h4, hp, _⟩ := fmEdge_ok h
  have hh : home = lab q.1 := by
    by_cases hl : q.1 < s.part.asg.length
    · rw [rd_of_lt hl] at h1; cases h1; exact hlab
    · rw [rd_of_le (by omega)] at h1; cases h1
  rw [hh, getDirection_eq hto h2] at h3
  have h3 := Res.ok.inj h3
  rw [← h3] at h4
  have := Conn.updateNeighbor_spec hc hu (decide (lab q.1 = dst)) hw hb hX hI hXu hIu
  rw [h4] at this
  exact ⟨this.1, hp⟩

theorem preW_scale (pre : List (Nat × Nat)) (u : Nat) : preW (pre.map (sc c)) u = c * preW pre u := by
  unfold preW
  rw [List.map_map, ← List.sum_map_mul_left]
  congr 1
  refine List.map_congr_left fun q _ => ?_
  show (if (q.1 == u) = true then c * q.2 else 0) = c * (if (q.1 == u) = true then q.2 else 0)
  split <;> simp

theorem shiftX_scale (b : Bool) (x w : Nat) : shiftX b (c * x) (c * w) = c * shiftX b x w := by
  unfold shiftX; split
  · rw [Nat.mul_sub]
  · rw [Nat.mul_add]

theorem shiftI_scale (b : Bool) (x w : Nat) : shiftI b (c * x) (c * w) = c * shiftI b x w := by
  unfold shiftI; split
  · rw [Nat.mul_add]
  · rw [Nat.mul_sub]

theorem XPre_scale {g g' : Graph} (hS : Scaled c g g') (hg : g.WF) (L : Nat → Nat) {v : Nat} (hv : v < g.nv)
    (pre : List (Nat × Nat)) {u : Nat} (hu : u < g.nv) : XPre g' L v (pre.map (sc c)) u = c * XPre g L v pre u := by
  unfold XPre
  rw [hS.internal hg L hv, hS.external hg L hu, preW_scale, shiftX_scale]
  split <;> rfl

theorem IPre_scale {g g' : Graph} (hS : Scaled c g g') (hg : g.WF) (L : Nat → Nat) {v : Nat} (hv : v < g.nv)
    (pre : List (Nat × Nat)) {u : Nat} (hu : u < g.nv) : IPre g' L v (pre.map (sc c)) u = c * IPre g L v pre u := by
  unfold IPre
  rw [hS.external hg L hv, hS.internal hg L hu, preW_scale, shiftI_scale]
  split <;> rfl

theorem move_lock {P : SetImpl} {a b : Conn P} {v : Nat} (hb : b.border = a.border) :
    Lock (fun x y => ((nth x.2.con v).1 = 0 ↔ (nth y.2.con v).1 = 0) → y.1 = x.1 ∧ y.2.border = x.2.border)
      (a.move v) (b.move v) := by
  unfold Conn.move
  intro r r' hr hr'
  obtain ⟨_, _, hr⟩ := bind_eq_ok hr
  obtain ⟨_, _, hr⟩ := bind_eq_ok hr
  obtain ⟨_, _, hr'⟩ := bind_eq_ok hr'
  obtain ⟨_, _, hr'⟩ := bind_eq_ok hr'
  exact updateBorder_lock (a := { a with con := _ }) (b := { b with con := _ }) (by exact hb) r r' hr hr'

/-- The values after flipping `v` itself. -/
theorem move_vals {g : Graph} {s : FMState E} (hs : FMGood g s) {v : Nat} (hv : v < g.nv)
    {r : BorderStatus × Conn E.set} (h : s.conn.move v = ok r) :
    ConnVals g.nv (XPre g s.part.lab v []) (IPre g s.part.lab v []) r.2 := by
  have := Conn.move_spec hs.conn.toVals hv (X' := XPre g s.part.lab v []) (I' := IPre g s.part.lab v [])
    (by intro u hu; simp only [XPre, if_neg hu]; simp [shiftX, preW])
    (by intro u hu; simp only [IPre, if_neg hu]; simp [shiftI, preW])
    (by simp [XPre]) (by simp [IPre])
  rw [h] at this
  exact this.1

theorem fmMove_lock (ho : OrderBased E.pq alike) (hc : 0 < c) {g g' : Graph} (hS : Scaled c g g') (hg : g.Good)
    (hg' : g'.Good) (queues : Bool) {s s' : FMState E} (hs : FMGood g s) (hs' : FMGood g' s') (h : FMRel alike c s s')
    {v dst : Nat} (hv : v < g.nv) (hto : dst = 1 - s.part.lab v) :
    Lock (FMRel alike c) (fmMove g queues v dst s) (fmMove g' queues v dst s') := by
  have hl := h.part.lab
  have hv' : v < g'.nv := by rw [hS.nv]; exact hv
  unfold fmMove
  refine Lock.bind (R := fun _ _ => True) (fun _ _ _ _ => trivial) fun d d' _ _ _ => ?_
  refine (move_lock h.border).bind fun r r' hr hr' hrr => ?_
  have e1 := move_vals hs hv hr
  have e2 := move_vals hs' hv' hr'
  rw [hl, hS.nv] at e2
  have hbd : r'.2.border = r.2.border := by
    refine (hrr ?_).2
    rw [e1.vals v hv, e2.vals v hv]
    have := XPre_scale hS hg.wf s.part.lab hv [] hv
    rw [List.map_nil] at this
    show XPre g s.part.lab v [] v = 0 ↔ XPre g' s.part.lab v [] v = 0
    rw [this, Nat.mul_eq_zero]; omega
  obtain ⟨st, conn⟩ := r
  obtain ⟨st', conn'⟩ := r'
  simp only at e1 e2 hbd ⊢
  refine (h.part.move hS v dst).bind fun p1 p1' hp1 hp1' hpr => ?_
  subst hto
  have a1 := (move_exact hg hs.part hv).elim_ok hp1
  have a2 := (move_exact hg' hs'.part hv').elim_ok (by rw [hl]; exact hp1')
  have l1 : p1.lab = flip s.part.lab v := lab_set hs.part hv a1.2.2
  have l2 : p1'.lab = flip s.part.lab v := by rw [hpr.lab, l1]
  rw [Graph.nbrsOf_eq hg.wf hv, Graph.nbrsOf_eq hg'.wf hv', ok_bind, ok_bind, hS.nbrs hg.wf hv]
  have hlt := hs.part.complete
  have hlt' : ∀ u, u < g'.nv → s.part.lab u < 2 := by rw [hS.nv]; exact hlt
  have hv2 := hlt v hv
  refine (Lock.foldlM_pre (fun pre (a b : FMState E) => FMRel alike c a b ∧
    (a.part.lab = flip s.part.lab v ∧ ConnVals g.nv (XPre g s.part.lab v pre) (IPre g s.part.lab v pre) a.conn) ∧
    (b.part.lab = flip s.part.lab v ∧ ConnVals g.nv (XPre g' s.part.lab v (pre.map (sc c)))
      (IPre g' s.part.lab v (pre.map (sc c))) b.conn)) ?_ ?_).mono fun _ _ _ _ h => h.1
  · intro pre q post a b hl2 hR
    obtain ⟨hab, ⟨ha1, ha2⟩, hb1, hb2⟩ := hR
    obtain ⟨hu, hne, hw, hbb, x1, x2, x3, x4⟩ := pre_bounds hg hlt hv hl2
    have hl2' : g'.nbrs v = pre.map (sc c) ++ sc c q :: post.map (sc c) := by
      rw [hS.nbrs hg.wf hv, hl2, List.map_append, List.map_cons]
    obtain ⟨hu', hne', hw', hbb', y1, y2, y3, y4⟩ := pre_bounds hg' hlt' hv' hl2'
    have hf := flip_lt hlt v q.1 hu
    have st1 : ∀ s2, fmEdge queues (1 - s.part.lab v) a q = ok s2 →
        ConnVals g.nv (XPre g s.part.lab v (pre ++ [q])) (IPre g s.part.lab v (pre ++ [q])) s2.conn ∧
          s2.part = a.part := fun s2 hs2 =>
      fmEdge_vals hs2 (lab := flip s.part.lab v) (congrFun ha1 q.1) hf (by omega) ha2 hu hw hbb x1 x2 x3 x4
    have st2 : ∀ s2, fmEdge queues (1 - s.part.lab v) b (sc c q) = ok s2 →
        ConnVals g.nv (XPre g' s.part.lab v ((pre ++ [q]).map (sc c))) (IPre g' s.part.lab v ((pre ++ [q]).map (sc c)))
          s2.conn ∧ s2.part = b.part := fun s2 hs2 => by
      rw [List.map_append, List.map_singleton]
      exact fmEdge_vals hs2 (lab := flip s.part.lab v) (congrFun hb1 q.1) hf (by omega) hb2 hu hw' hbb' y1 y2 y3 y4
    have hX := XPre_scale hS hg.wf s.part.lab hv (pre ++ [q]) hu
    have hI := IPre_scale hS hg.wf s.part.lab hv (pre ++ [q]) hu
    have z1 : XPre g s.part.lab v (pre ++ [q]) q.1 + IPre g s.part.lab v (pre ++ [q]) q.1 < 2147483648 := by
      rw [x3, x4]
      unfold shiftX shiftI
      split at hw <;> simp_all; omega
    have z2 : XPre g' s.part.lab v ((pre ++ [q]).map (sc c)) q.1 + IPre g' s.part.lab v ((pre ++ [q]).map (sc c)) q.1
        < 2147483648 := by
      rw [List.map_append, List.map_singleton]
      change XPre g' s.part.lab v _ (sc c q).1 + IPre g' s.part.lab v _ (sc c q).1 < _
      rw [y3, y4]
      unfold shiftX shiftI
      split at hw' <;> simp_all; omega
    refine (fmEdge_lock ho hc queues _ hab hu (fun s2 h2 => (st1 s2 h2).1) (fun s2 h2 => (st2 s2 h2).1) hX hI z1 z2).mono ?_
    intro a2 b2 ha2 hb2 hr
    exact ⟨hr, ⟨by rw [(st1 a2 ha2).2]; exact ha1, (st1 a2 ha2).1⟩, by rw [(st2 b2 hb2).2]; exact hb1, (st2 b2 hb2).1⟩
  · refine ⟨⟨?_, hbd, h.q0, h.q1, h.visited⟩, ⟨l1, e1⟩, l2, e2⟩
    exact hpr

/-! ### passes -/

/-- The state of a pass with scaled weights. -/
structure PassRel (alike : (Int → Int) → E.pq.Q → E.pq.Q → Prop) (c : Nat) (ps ps' : PassState E) : Prop where
  s : FMRel alike c ps.s ps'.s
  moves : ps'.moves = ps.moves
  cut : ps'.bestCut = c * ps.bestCut
  bal : ps'.bestBal = ps.bestBal
  num : ps'.numMoved = ps.numMoved

theorem fmAccept_scale (fp : FP) (hc : 0 < c) (bal : Bool) (x y : fp.F) (a b : Nat) :
    fmAccept fp bal x y (c * a) (c * b) = fmAccept fp bal x y a b := by
  unfold fmAccept
  have : decide (c * a < c * b) = decide (a < b) := decide_eq_decide.mpr (Nat.mul_lt_mul_left hc)
  rw [this]

theorem fmStep_lock (ho : OrderBased E.pq alike) (hc : 0 < c) {g g' : Graph} (hS : Scaled c g g') (hg : g.Good)
    (hg' : g'.Good) {t : Target E.fp} (ht : t.Two) {lab0 : Nat → Nat} {ps ps' : PassState E} (h : PassRel alike c ps ps')
    (hi : PassInv g t lab0 ps) (hi' : PassInv g' t lab0 ps') (hne : ps.s.q0.size > 0 ∨ ps.s.q1.size > 0) :
    Lock (PassRel alike c) (fmStep g t ps) (fmStep g' t ps') := by
  intro r r' hr hr'
  have hne' : ps'.s.q0.size > 0 ∨ ps'.s.q1.size > 0 := by rw [h.s.q0.size ho, h.s.q1.size ho]; exact hne
  have u1 := (fmStep_spec hg ht hi hne).elim_ok hr
  have u2 := (fmStep_spec hg' ht hi' hne').elim_ok hr'
  have hfrom : ∀ side, pickSide ps.s t = ok side → side < 2 := fun side hp =>
    ((pickSide_spec ht hi.good.part hne).elim_ok hp).1
  revert r r' hr hr'
  suffices H : Lock (fun a b => PassInv g t lab0 a → PassInv g' t lab0 b → PassRel alike c a b)
      (fmStep g t ps) (fmStep g' t ps') from fun r r' hr hr' u1 u2 => H r r' hr hr' u1.1 u2.1
  unfold fmStep
  refine (pickSide_lock ho hc h.s t).bind fun side side' hside _ e => ?_
  subst e
  have h2 := hfrom _ hside
  simp only
  refine (h.s.getQ side').bind fun q q' hq hq' hqq => ?_
  refine (hqq.pop ho hc).bind fun vq vq' hvq hvq' hr => ?_
  obtain ⟨v, q2⟩ := vq
  obtain ⟨v', q2'⟩ := vq'
  obtain ⟨e, hq2⟩ := hr
  simp only at e hq2
  subst e
  simp only
  -- the popped vertex
  rw [FMState.getQ_eq h2] at hq
  cases hq
  have hvlab : v' < g.nv ∧ ps.s.part.lab v' = side' := by
    unfold VQueue.pop at hvq
    cases hk : E.pq.key (ps.s.qsel side').q (E.pq.top (ps.s.qsel side').q) with
    | none => rw [hk] at hvq; cases hvq
    | some k =>
      rw [hk] at hvq
      have := congrArg Prod.fst (Res.ok.inj hvq)
      simp only at this
      rw [this] at hk
      rw [hi.queues.keys side' h2 v'] at hk
      unfold expectKey at hk
      split at hk
      · rename_i hh; exact ⟨hh.1, hh.2.2.1⟩
      · cases hk
  refine (h.s.setQ side' hq2).bind fun s1 s1' hs1 hs1' hss => ?_
  obtain ⟨hss, hcn, hcn'⟩ := hss
  rw [hss.visited]
  refine Lock.same fun vis hvis => ?_
  rw [FMState.setQ_eq h2] at hs1 hs1'
  have ep : s1.part = ps.s.part := by cases hs1; exact FMState.qset_part _ _ _
  have ep' : s1'.part = ps'.s.part := by cases hs1'; exact FMState.qset_part _ _ _
  have hx : side' ^^^ 1 = 1 - side' := by
    have : side' = 0 ∨ side' = 1 := by omega
    rcases this with h | h <;> rw [h] <;> rfl
  refine (fmMove_lock ho hc hS hg hg' true (s := { s1 with visited := vis }) (s' := { s1' with visited := vis })
    ⟨by show IsExact g 2 s1.part; rw [ep]; exact hi.good.part,
      by show ConnExact g s1.part.lab s1.conn; rw [ep, hcn]; exact hi.good.conn⟩
    ⟨by show IsExact g' 2 s1'.part; rw [ep']; exact hi'.good.part,
      by show ConnExact g' s1'.part.lab s1'.conn; rw [ep', hcn']; exact hi'.good.conn⟩
    ⟨hss.part, hss.border, hss.q0, hss.q1, rfl⟩ hvlab.1
    (by show side' ^^^ 1 = 1 - s1.part.lab v'; rw [ep, hvlab.2, hx])).bind fun s2 s2' _ _ hr => ?_
  rw [hr.part.calcMaxImbalance hS, hr.part.isBalanced]
  refine Lock.same fun bal _ => Lock.same fun isB _ => ?_
  rw [h.bal, h.cut]
  by_cases hcut : s2'.part.cut = c * s2.part.cut
  · rw [hcut, fmAccept_scale E.fp hc]
    split
    · exact Lock.ok fun _ _ => ⟨hr, rfl, rfl, rfl, by show ps'.numMoved + 1 = _; rw [h.num]⟩
    · exact Lock.ok fun _ _ => ⟨hr, by show ps'.moves ++ _ = _; rw [h.moves], rfl, rfl, by show ps'.numMoved + 1 = _; rw [h.num]⟩
  · -- both stored cuts are exact
    intro a b ha hb i1 i2
    exfalso
    apply hcut
    have c1 : a.s = s2 := by
      split at ha <;> cases ha <;> rfl
    have c2 : b.s = s2' := by
      split at hb <;> cases hb <;> rfl
    have d1 := i1.good.part.cut_eq
    have d2 := i2.good.part.cut_eq
    rw [c1] at d1
    rw [c2] at d2
    rw [d1, d2, hr.part.lab, hS.cut hg.wf]

theorem fmLoop_lock (ho : OrderBased E.pq alike) (hc : 0 < c) {g g' : Graph} (hS : Scaled c g g') (hg : g.Good)
    (hg' : g'.Good) {t : Target E.fp} (ht : t.Two) {lab0 : Nat → Nat} (maxBad : Nat) (fuel : Nat) :
    ∀ {ps ps' : PassState E}, PassRel alike c ps ps' → PassInv g t lab0 ps → PassInv g' t lab0 ps' →
    Lock (PassRel alike c) (fmLoop g t maxBad fuel ps) (fmLoop g' t maxBad fuel ps') := by
  induction fuel with
  | zero => intro ps ps' _ _ _ a b ha; cases ha
  | succ fuel ih =>
    intro ps ps' h hi hi'
    unfold fmLoop
    rw [h.s.q0.size ho, h.s.q1.size ho, h.moves]
    split
    · rename_i hcond
      have hne' : ps'.s.q0.size > 0 ∨ ps'.s.q1.size > 0 := by
        rw [h.s.q0.size ho, h.s.q1.size ho]; exact hcond.1
      exact (fmStep_lock ho hc hS hg hg' ht h hi hi' hcond.1).bind fun a b ha hb hab =>
        ih hab ((fmStep_spec hg ht hi hcond.1).elim_ok ha).1 ((fmStep_spec hg' ht hi' hne').elim_ok hb).1
    · exact Lock.ok h

theorem fmUndo_lock (ho : OrderBased E.pq alike) (hc : 0 < c) {g g' : Graph} (hS : Scaled c g g') (hg : g.Good)
    (hg' : g'.Good) {s s' : FMState E} (moves : List Nat) (hm : ∀ v ∈ moves, v < g.nv) (hs : FMGood g s)
    (hs' : FMGood g' s') (h : FMRel alike c s s') :
    Lock (FMRel alike c) (fmUndo g moves s) (fmUndo g' moves s') := by
  unfold fmUndo
  refine (Lock.foldlM (R := fun a b => FMRel alike c a b ∧ FMGood g a ∧ FMGood g' b) ?_ ⟨h, hs, hs'⟩).mono
    fun _ _ _ _ h => h.1
  rintro a b v hvm ⟨hab, ha, hb⟩
  have hv : v < g.nv := hm v (List.mem_reverse.mp hvm)
  have hv' : v < g'.nv := by rw [hS.nv]; exact hv
  rw [hab.part.1]
  have h2 := ha.part.complete v hv
  rw [rd_of_lt (by rw [ha.part.asg_len]; exact hv), ok_bind, ok_bind]
  have hd : nth a.part.asg v ^^^ 1 = 1 - a.part.lab v := by
    have : a.part.lab v = 0 ∨ a.part.lab v = 1 := by omega
    unfold Partitioning.lab at this ⊢
    rcases this with h | h <;> rw [h] <;> rfl
  have hd' : nth a.part.asg v ^^^ 1 = 1 - b.part.lab v := by rw [hab.part.lab]; exact hd
  refine (fmMove_lock ho hc hS hg hg' false ha hb hab hv hd).mono fun x y hx hy hr => ⟨hr, ?_, ?_⟩
  · exact ((fmMove_spec hg false ha hv hd (by simp)).elim_ok hx).1
  · exact ((fmMove_spec hg' false hb hv' hd' (by simp)).elim_ok hy).1

theorem fillQueues_lock (ho : OrderBased E.pq alike) (hc : 0 < c) {g g' : Graph} (hS : Scaled c g g') (hg : g.Good)
    (hg' : g'.Good) {s s' : FMState E} (hs : FMGood g s) (hs' : FMGood g' s') (h : FMRel alike c s s') :
    Lock (FMRel alike c) (fillQueues s) (fillQueues s') := by
  unfold fillQueues
  rw [h.border]
  refine (Lock.foldlM (R := fun a b => FMRel alike c a b ∧ a.conn = s.conn ∧ b.conn = s'.conn) ?_ ⟨h, rfl, rfl⟩).mono
    fun _ _ _ _ h => h.1
  rintro a b v hvm ⟨hab, ha, hb⟩
  have hv : v < g.nv := (hs.conn.border_only v ((E.set.mem_elems _ v).mp hvm)).1
  rw [hab.part.1]
  refine Lock.same fun side _ => ?_
  have hl := h.part.lab
  have hx := ext_int_lt hg s.part.lab hv
  have hx' := ext_int_lt hg' s'.part.lab (v := v) (by rw [hS.nv]; exact hv)
  rw [ha, hb, Conn.delta_eq hs.conn.toVals hv hx, Conn.delta_eq hs'.conn.toVals (by rw [hS.nv]; exact hv) hx', ok_bind,
    ok_bind]
  refine Lock.bind (R := fun (x y : Int) => y = c * x) ?_ ?_
  · intro x y hx hy
    rw [ineg_ok hx, ineg_ok hy, hl, hS.external hg.wf _ hv, hS.internal hg.wf _ hv]
    push_cast
    ring
  · rintro k k' _ _ rfl
    refine (hab.getQ side).bind fun q q' _ _ hq => ?_
    refine (hq.add ho hc k v).bind fun q2 q2' _ _ hq2 => ?_
    refine (hab.setQ side hq2).mono fun x y _ _ hr => ⟨hr.1, hr.2.1.trans ha, hr.2.2.trans hb⟩

theorem FMRel.clear (ho : OrderBased E.pq alike) (hc : 0 < c) {s s' : FMState E} (h : FMRel alike c s s') :
    FMRel alike c s.clear s'.clear :=
  ⟨h.part, h.border, h.q0.clear ho hc, h.q1.clear ho hc, by
    show List.replicate s'.visited.length false = List.replicate s.visited.length false
    rw [h.visited]⟩

theorem PassInv.start {g : Graph} {t : Target E.fp} {s s1 : FMState E} (hs : FMGood g s) (hf : FMFresh g s)
    (h : s1.part = s.part ∧ s1.conn = s.conn ∧ s1.visited = s.visited ∧ FMQueues g s1) {bal : E.fp.F}
    (hb : bal = maxImbalance g t s1.part.lab) :
    PassInv g t s.part.lab { s := s1, moves := [], bestCut := s1.part.cut, bestBal := bal, numMoved := 0 } := by
  obtain ⟨hp1, hc1, hv1, hq1⟩ := h
  subst hb
  have hs1 : FMGood g s1 := ⟨by rw [hp1]; exact hs.part, by rw [hp1, hc1]; exact hs.conn⟩
  refine ⟨hs1, hq1, [], by simp, ?_, rfl, by simp [hp1], ?_, by simp [hp1], ImprovesStar.refl _⟩
  · intro v
    simp only [List.append_nil, List.not_mem_nil, false_iff, not_and]
    intro hv
    rw [hv1, hf.visited, nth_replicate hv]; simp
  · show s1.part.cut = cutWeight g s.part.lab
    rw [hs1.part.cut_eq, hp1]

theorem fmPass_lock (ho : OrderBased E.pq alike) (hc : 0 < c) {g g' : Graph} (hS : Scaled c g g') (hg : g.Good)
    (hg' : g'.Good) {t : Target E.fp} (ht : t.Two) (maxBad : Nat) {s s' : FMState E} (hs : FMGood g s) (hs' : FMGood g' s')
    (hf : FMFresh g s) (hf' : FMFresh g' s') (h : FMRel alike c s s') :
    Lock (fun a b => FMRel alike c a.1 b.1 ∧ b.2 = a.2) (fmPass g t maxBad s) (fmPass g' t maxBad s') := by
  unfold fmPass
  refine (fillQueues_lock ho hc hS hg hg' hs hs' h).bind fun s1 s1' e e' h1 => ?_
  have u1 := (fillQueues_spec hg hs hf).elim_ok e
  have u1' := (fillQueues_spec hg' hs' hf').elim_ok e'
  have p1 : IsExact g 2 s1.part := by rw [u1.1]; exact hs.part
  have p1' : IsExact g' 2 s1'.part := by rw [u1'.1]; exact hs'.part
  rw [h1.part.calcMaxImbalance hS]
  refine Lock.same fun bal hbal => ?_
  have hbal' := hbal
  rw [← h1.part.calcMaxImbalance hS, calcMaxImbalance_eq ht p1'] at hbal'
  rw [calcMaxImbalance_eq ht p1] at hbal
  have i1 := PassInv.start hs hf u1 (Res.ok.inj hbal).symm (t := t)
  have i1' := PassInv.start hs' hf' u1' (Res.ok.inj hbal').symm (t := t)
  rw [h.part.lab] at i1'
  rw [hS.nv]
  refine (fmLoop_lock ho hc hS hg hg' ht maxBad (g.nv + 1) (ps := ⟨s1, [], s1.part.cut, bal, 0⟩)
    (ps' := ⟨s1', [], s1'.part.cut, bal, 0⟩) ⟨h1, rfl, ?_, rfl, rfl⟩ i1 i1').bind fun ps ps' e2 e2' h2 => ?_
  · show s1'.part.cut = c * s1.part.cut
    rw [p1.cut_eq, p1'.cut_eq, h1.part.lab, hS.cut hg.wf]
  have v1 := ((fmLoop_spec hg ht maxBad (g.nv + 1) i1 (by show g.nv < g.nv + 1 + 0; omega)).elim_ok e2).1
  have v1' := ((fmLoop_spec hg' ht maxBad (g.nv + 1) i1' (by show g'.nv < g.nv + 1 + 0; rw [hS.nv]; omega)).elim_ok e2').1
  rw [h2.moves, h2.num]
  refine (fmUndo_lock ho hc hS hg hg' ps.moves ?_ v1.good v1'.good h2.s).bind fun a b _ _ hab => Lock.ok ⟨hab, rfl⟩
  obtain ⟨kept, _, hmem, _⟩ := v1.best
  intro v hv
  exact ((hmem v).mp (by simp [hv])).1

theorem fmIters_lock (ho : OrderBased E.pq alike) (hc : 0 < c) {g g' : Graph} (hS : Scaled c g g') (hg : g.Good)
    (hg' : g'.Good) {t : Target E.fp} (ht : t.Two) (maxBad n : Nat) :
    ∀ {s s' : FMState E}, FMGood g s → FMGood g' s' → FMFresh g s → FMFresh g' s' → FMRel alike c s s' →
    Lock (FMRel alike c) (fmIters g t maxBad n s) (fmIters g' t maxBad n s') := by
  induction n with
  | zero => intro s s' _ _ _ _ h; exact Lock.ok h
  | succ n ih =>
    intro s s' hs hs' hf hf' h
    unfold fmIters
    refine (fmPass_lock ho hc hS hg hg' ht maxBad hs hs' hf hf' h).bind fun a b ha hb hab => ?_
    obtain ⟨s1, stop⟩ := a
    obtain ⟨s1', stop'⟩ := b
    obtain ⟨hr, hst⟩ := hab
    simp only at hr hst ⊢
    subst hst
    split
    · exact Lock.ok hr
    · have u := (fmPass_spec hg ht maxBad hs hf).elim_ok ha
      have u' := (fmPass_spec hg' ht maxBad hs' hf').elim_ok hb
      exact ih ⟨u.1.part, u.1.conn⟩ ⟨u'.1.part, u'.1.conn⟩ u.2.2.2 u'.2.2.2 (hr.clear ho hc)

theorem fmRefine_lock (ho : OrderBased E.pq alike) (hc : 0 < c) {g g' : Graph} (hS : Scaled c g g') (hg : g.Good)
    (hg' : g'.Good) {t : Target E.fp} (ht : t.Two) (maxIters maxMoves : Nat) {p p' : Partitioning} {k k' : Conn E.set}
    (hp : IsExact g 2 p) (hk : ConnExact g p.lab k) (hp' : IsExact g' 2 p') (hk' : ConnExact g' p'.lab k')
    (h : PRel p p') (hb : k'.border = k.border) :
    Lock (fun a b => PRel a.1 b.1 ∧ b.2.border = a.2.border) (fmRefine g t maxIters maxMoves p k)
      (fmRefine g' t maxIters maxMoves p' k') := by
  have hfr : ∀ (g : Graph) (p : Partitioning) (k : Conn E.set), FMFresh g
      { part := p, conn := k, q0 := VQueue.new E.pq g.nv, q1 := VQueue.new E.pq g.nv,
        visited := List.replicate g.nv false } := by
    intro g p k
    refine ⟨rfl, ?_, ?_⟩
    · intro side hside
      have : side = 0 ∨ side = 1 := by omega
      rcases this with rfl | rfl <;> rfl
    · intro side hside u
      have : side = 0 ∨ side = 1 := by omega
      rcases this with rfl | rfl <;> exact E.pq.key_empty u
  have f' := hfr g' p' k'
  unfold fmRefine
  rw [hS.nv] at f' ⊢
  refine Lock.same fun maxBad _ => ?_
  refine (fmIters_lock ho hc hS hg hg' ht maxBad maxIters ⟨hp, hk⟩ ⟨hp', hk'⟩ (hfr g p k) f'
    ⟨h, hb, VQA.new ho hc _, VQA.new ho hc _, rfl⟩).bind fun a b _ _ hab => Lock.ok ⟨hab.part, hab.border⟩

end Poros
