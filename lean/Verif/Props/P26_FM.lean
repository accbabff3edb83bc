import Verif.Props.P23_Connectivity
/-
C26–C29: FM refinement.
-/
namespace Poros
open Finset Res

/-- **C26.** FM refinement of a bisection with exact weights, cut and connectivity ends, if it ends normally,
with a complete bisection whose reported weights, cut and connectivity are the true ones; and it does end
normally provided the conversion of one per cent of the number of vertices to an integer is defined. -/
theorem C26_fm_exact {E : Env} {g : Graph} (hg : g.Good) {t : Target E.fp} (ht : t.Two)
    (maxIters maxMoves : Nat) {p : Partitioning} {c : Conn E.set} (hp : IsExact g 2 p)
    (hc : ConnExact g p.lab c) :
    (∀ r, fmRefine g t maxIters maxMoves p c = ok r → IsExact g 2 r.1 ∧ ConnExact g r.1.lab r.2) ∧
    ((E.fp.toU32 (E.fp.mul (E.fp.ofNat g.nv) (E.fp.lit 1 2))).isSome →
      ∃ r, fmRefine g t maxIters maxMoves p c = ok r) := by
  constructor
  · intro r hr
    have := fmRefine_spec (B := True) hg ht maxIters maxMoves hp hc (fun _ => trivial)
    have := this.elim_ok hr
    exact ⟨this.1, this.2.1⟩
  · intro hB
    have := fmRefine_spec (B := False) hg ht maxIters maxMoves hp hc (fun h => h hB)
    obtain ⟨r, hr, -⟩ := sat_iff.mp this
    exact ⟨r, hr⟩

/-- A target for two halves of `tri2` (total weight 9, 3 per cent tolerance). -/
def halves : Target Concrete.env.fp :=
  { k := 2, frac := [Concrete.fp.lit 5 1, Concrete.fp.lit 5 1], tw := [4, 4], mx := [5, 5] }

theorem halves_two : halves.Two := ⟨rfl, rfl, rfl, rfl⟩

/-- The hypotheses are met: a bisection with cut 6 is refined to one with cut 1. -/
example : ∃ c r, ConnExact Ex.tri2 Ex.badPart.lab c ∧ halves.Two ∧
    (Concrete.env.fp.toU32 (Concrete.env.fp.mul (Concrete.env.fp.ofNat Ex.tri2.nv)
      (Concrete.env.fp.lit 1 2))).isSome ∧
    Conn.fromPartitioning Concrete.env.set Ex.tri2 Ex.badPart = ok c ∧
    fmRefine (E := Concrete.env) Ex.tri2 halves 8 150 Ex.badPart c = ok r ∧
    IsExact Ex.tri2 2 r.1 ∧ ConnExact Ex.tri2 r.1.lab r.2 := by
  obtain ⟨c, h1, h2, h3⟩ := start_good Concrete.env
  have hb : (Concrete.env.fp.toU32 (Concrete.env.fp.mul (Concrete.env.fp.ofNat Ex.tri2.nv)
      (Concrete.env.fp.lit 1 2))).isSome := by decide +kernel
  obtain ⟨h4, h5⟩ := C26_fm_exact Ex.tri2_good halves_two 8 150 h2 h3
  obtain ⟨r, hr⟩ := h5 hb
  exact ⟨c, r, h3, halves_two, hb, h1, hr, h4 r hr⟩

example : (do
    let c ← Conn.fromPartitioning Concrete.env.set Ex.tri2 Ex.badPart
    let r ← fmRefine (E := Concrete.env) Ex.tri2 halves 8 150 Ex.badPart c
    (.ok r.1 : Res Partitioning)) = ok { cut := 1, pw := [4, 5], asg := [0, 0, 0, 1, 1, 1] } := by
  decide +kernel

/-! ### C27 -/

/-- **C27, chain of improvements.** The refined bisection is reached from the initial one by a chain of
accepted states each of which either is unbalanced but less so than its predecessor, or has a smaller cut
and is balanced or at least not less balanced. -/
theorem C27_fm_improves {E : Env} {g : Graph} (hg : g.Good) {t : Target E.fp} (ht : t.Two)
    (maxIters maxMoves : Nat) {p : Partitioning} {c : Conn E.set} (hp : IsExact g 2 p)
    (hc : ConnExact g p.lab c) {r : Partitioning × Conn E.set}
    (hr : fmRefine g t maxIters maxMoves p c = ok r) : ImprovesStar g t p.lab r.1.lab :=
  ((fmRefine_spec (B := True) hg ht maxIters maxMoves hp hc (fun _ => trivial)).elim_ok hr).2.2

/-- The largest of zero and the two imbalances when the sides weigh `a` and `b` out of `tot`. -/
def imbalanceAt (fp : FP) (tot : Nat) (f0 f1 : fp.F) (a b : Nat) : fp.F :=
  fmaxF fp (fmaxF fp (fp.lit 0 0)
    (fp.sub (fp.div (fp.div (fp.ofNat a) (fp.ofNat tot)) f0) (fp.lit 1 0)))
    (fp.sub (fp.div (fp.div (fp.ofNat b) (fp.ofNat tot)) f1) (fp.lit 1 0))

/-- The two notions of balance of the library agree on the target: a split respects the maximum weights
exactly when its imbalance is at most some tolerance; and double comparison is an order. -/
structure Consistent {fp : FP} (t : Target fp) (tot : Nat) : Prop where
  threshold : ∃ θ f0 f1, t.frac = [f0, f1] ∧ ∀ a, a ≤ tot →
    ((a ≤ nth t.mx 0 ∧ tot - a ≤ nth t.mx 1) ↔ fp.le (imbalanceAt fp tot f0 f1 a (tot - a)) θ = true)
  lt_le : ∀ x y, fp.lt x y = true → fp.le x y = true
  le_trans : ∀ x y z, fp.le x y = true → fp.le y z = true → fp.le x z = true

theorem partWeight_add {g : Graph} {lab : Nat → Nat} (h : ∀ v, v < g.nv → lab v < 2) :
    partWeight g lab 0 + partWeight g lab 1 = g.sumVtx := by
  unfold partWeight Graph.sumVtx
  rw [← sum_add_distrib]
  refine sum_congr rfl fun v hv => ?_
  have := h v (mem_range.mp hv)
  generalize lab v = a at *
  interval_cases a <;> simp

theorem Consistent.step {fp : FP} {t : Target fp} {g : Graph} (htot : g.totVtx = g.sumVtx) (h : Consistent t g.totVtx)
    {a b : Nat → Nat} (ha : ∀ v, v < g.nv → a v < 2) (hb : ∀ v, v < g.nv → b v < 2)
    (hi : Improves g t a b) :
    (Balanced g t a → Balanced g t b ∧ cutWeight g b < cutWeight g a) ∧
    (Balanced g t b ∨ fp.le (maxImbalance g t b) (maxImbalance g t a) = true) := by
  obtain ⟨θ, f0, f1, hf, hth⟩ := h.threshold
  have key : ∀ lab : Nat → Nat, (∀ v, v < g.nv → lab v < 2) →
      (Balanced g t lab ↔ fp.le (maxImbalance g t lab) θ = true) := by
    intro lab hl
    have hw := partWeight_add hl
    have hb0 : Balanced g t lab ↔ partWeight g lab 0 ≤ nth t.mx 0 ∧ g.totVtx - partWeight g lab 0 ≤ nth t.mx 1 := by
      have hsub : g.totVtx - partWeight g lab 0 = partWeight g lab 1 := by omega
      rw [hsub]
      constructor
      · intro hB; exact ⟨hB 0 (by omega), hB 1 (by omega)⟩
      · rintro ⟨h0, h1⟩ q hq
        interval_cases q
        · exact h0
        · exact h1
    rw [hb0, hth _ (by omega)]
    have : maxImbalance g t lab =
        imbalanceAt fp g.totVtx f0 f1 (partWeight g lab 0) (g.totVtx - partWeight g lab 0) := by
      unfold maxImbalance imbalanceAt
      rw [hf]
      have hsub : g.totVtx - partWeight g lab 0 = partWeight g lab 1 := by omega
      rw [hsub]
      rfl
    rw [this]
  rcases hi with ⟨hnb, hlt⟩ | ⟨hcut, hbal⟩
  · have hle := h.lt_le _ _ hlt
    refine ⟨fun hba => ?_, Or.inr hle⟩
    exact absurd ((key b hb).mpr (h.le_trans _ _ _ hle ((key a ha).mp hba))) hnb
  · refine ⟨fun hba => ⟨?_, hcut⟩, hbal⟩
    rcases hbal with hB | hle
    · exact hB
    · exact (key b hb).mpr (h.le_trans _ _ _ hle ((key a ha).mp hba))

/-- **C27, no deterioration.** If the target is consistent, then refining a balanced bisection gives a balanced
bisection whose cut is not larger, and refining an unbalanced one gives a balanced one or one that is not
less balanced. -/
theorem C27_fm_never_worse {E : Env} {g : Graph} (hg : g.Good) {t : Target E.fp} (ht : t.Two)
    (hcons : Consistent t g.totVtx) (maxIters maxMoves : Nat) {p : Partitioning} {c : Conn E.set}
    (hp : IsExact g 2 p) (hc : ConnExact g p.lab c) {r : Partitioning × Conn E.set}
    (hr : fmRefine g t maxIters maxMoves p c = ok r) :
    (Balanced g t p.lab → Balanced g t r.1.lab ∧ r.1.cut ≤ p.cut) ∧
    (Balanced g t r.1.lab ∨ r.1.lab = p.lab ∨
      E.fp.le (maxImbalance g t r.1.lab) (maxImbalance g t p.lab) = true) := by
  have hstar := C27_fm_improves hg ht maxIters maxMoves hp hc hr
  have hr1 := (C26_fm_exact hg ht maxIters maxMoves hp hc).1 r hr
  rw [hr1.1.cut_eq, hp.cut_eq]
  have h2 : ∀ v, v < g.nv → r.1.lab v < 2 := hr1.1.complete
  clear hr hr1
  generalize r.1.lab = b at *
  induction hstar with
  | refl => exact ⟨fun h => ⟨h, le_refl _⟩, Or.inr (Or.inl rfl)⟩
  | @step b c hs hi hc2 ih =>
    have hb2 : ∀ v, v < g.nv → b v < 2 := by
      cases hs with
      | refl => exact hp.complete
      | step _ _ h => exact h
    obtain ⟨ih1, ih2⟩ := ih hb2
    obtain ⟨s1, s2⟩ := hcons.step (by rw [hg.wf.tot_vtx, Nat.mod_eq_of_lt hg.small.vtx]) hb2 hc2 hi
    refine ⟨fun h => ?_, ?_⟩
    · obtain ⟨hB, hle⟩ := ih1 h
      obtain ⟨hB', hlt⟩ := s1 hB
      exact ⟨hB', by omega⟩
    · rcases s2 with hB | hle
      · exact Or.inl hB
      · rcases ih2 with hB | heq | hle'
        · exact Or.inl (s1 hB).1
        · subst heq; exact Or.inr (Or.inr hle)
        · exact Or.inr (Or.inr (hcons.le_trans _ _ _ hle hle'))

theorem F64_lt_le (x y : Concrete.F64) (h : Concrete.F64.lt x y = true) : Concrete.F64.le x y = true := by
  simp [Concrete.F64.le, h]

theorem F64_le_trans (x y z : Concrete.F64) (h1 : Concrete.F64.le x y = true) (h2 : Concrete.F64.le y z = true) :
    Concrete.F64.le x z = true := by
  cases x <;> cases y <;> cases z <;> simp_all [Concrete.F64.le, Concrete.F64.lt]
  · rename_i a b c
    rcases h1 with h1 | h1 <;> rcases h2 with h2 | h2
    · left; linarith
    · subst h2; left; exact h1
    · subst h1; left; exact h2
    · right; exact h1.trans h2
  all_goals (rename_i a b c; cases a <;> cases b <;> simp_all)

/-- The target of the example is consistent (the tolerance that separates the splits is 0.2, as 5 is the
largest allowed weight). -/
theorem halves_consistent : Consistent halves Ex.tri2.totVtx where
  threshold := ⟨Concrete.fp.lit 2 1, _, _, rfl, by decide +kernel⟩
  lt_le := F64_lt_le
  le_trans := F64_le_trans

/-- A balanced bisection with cut 12 that refinement improves. -/
def okPart : Partitioning := { cut := 12, pw := [4, 5], asg := [0, 1, 0, 1, 0, 0] }

example : IsExact Ex.tri2 2 okPart ∧ Balanced Ex.tri2 halves okPart.lab := by
  refine ⟨by constructor <;> decide +kernel, by decide +kernel⟩

/-- Consistency is needed: with a target whose maximum weights do not match its fractions, refinement may
replace a balanced bisection by an unbalanced one with a larger cut. -/
def oddTarget : Target Concrete.env.fp :=
  { k := 2, frac := [Concrete.fp.lit 1 1, Concrete.fp.lit 9 1], tw := [4, 4], mx := [4, 5] }

/-- The balanced bisection with the smallest cut. -/
def bestPart : Partitioning := { cut := 1, pw := [4, 5], asg := [0, 0, 0, 1, 1, 1] }

theorem C27_needs_consistency :
    IsExact Ex.tri2 2 bestPart ∧ Balanced Ex.tri2 oddTarget bestPart.lab ∧
    ∃ r : Partitioning, (do
      let c ← Conn.fromPartitioning Concrete.env.set Ex.tri2 bestPart
      let r ← fmRefine (E := Concrete.env) Ex.tri2 oddTarget 1 150 bestPart c
      (.ok r.1 : Res Partitioning)) = ok r ∧ bestPart.cut < r.cut ∧ ¬ Balanced Ex.tri2 oddTarget r.lab := by
  refine ⟨by constructor <;> decide +kernel, by decide +kernel, ?_⟩
  refine ⟨{ cut := 3, pw := [1, 8], asg := [0, 1, 1, 1, 1, 1] }, by decide +kernel, by decide +kernel,
    by decide +kernel⟩

/-! ### C28 -/

/-- The state at the start of the move loop of a pass that begins in state `s`, src/partition/FMRefiner.cpp:199-210. -/
def passStart {E : Env} (g : Graph) (t : Target E.fp) (s : FMState E) : Res (PassState E) := do
  let s ← fillQueues s
  let bal ← calcMaxImbalance g s.part t
  .ok { s := s, moves := [], bestCut := s.part.cut, bestBal := bal, numMoved := 0 }

/-- The states in which the passes of a refinement of `p` with connectivity `c` begin: the initial one, and the state a
pass that does not end the refinement leaves, after queues and visit tracker have been emptied. -/
inductive PassBegins {E : Env} (g : Graph) (t : Target E.fp) (maxBad : Nat) (p : Partitioning) (c : Conn E.set) :
    FMState E → Prop
  | first : PassBegins g t maxBad p c (startState E g p c)
  | next {s s'} : PassBegins g t maxBad p c s → fmPass g t maxBad s = ok (s', false) → PassBegins g t maxBad p c s'.clear

theorem startState_fresh {E : Env} (g : Graph) (p : Partitioning) (c : Conn E.set) :
    FMFresh g (startState E g p c) := by
  refine ⟨rfl, ?_, ?_⟩
  · intro side hs
    unfold FMState.qsel
    split <;> rfl
  · intro side hs u
    unfold FMState.qsel
    split <;> exact E.pq.key_empty u

theorem passStart_spec {E : Env} {g : Graph} (hg : g.Good) {t : Target E.fp} (ht : t.Two) {s0 : FMState E}
    (hs : FMGood g s0) (hf : FMFresh g s0) :
    Sat (passStart g t s0) (fun ps => PassInv g t s0.part.lab ps ∧ ps.numMoved = 0) := by
  unfold passStart
  refine (fillQueues_spec hg hs hf).bind fun s h => ?_
  obtain ⟨h1, h2, h3, h4⟩ := h
  have hp' : IsExact g 2 s.part := by rw [h1]; exact hs.part
  rw [calcMaxImbalance_eq ht hp', ok_bind]
  refine ⟨⟨⟨hp', ?_⟩, h4, [], by simp, ?_, rfl, by simp [h1], ?_, by simp [h1], ImprovesStar.refl _⟩, rfl⟩
  · rw [h1, h2]; exact hs.conn
  · intro v
    simp only [List.append_nil, List.not_mem_nil, false_iff, not_and]
    intro hv
    rw [h3, hf.visited, nth_replicate hv]
    simp
  · simp [h1, hs.part.cut_eq]

theorem PassBegins.good {E : Env} {g : Graph} (hg : g.Good) {t : Target E.fp} (ht : t.Two) {maxBad : Nat}
    {p : Partitioning} {c : Conn E.set} (hp : IsExact g 2 p) (hc : ConnExact g p.lab c) {s : FMState E}
    (h : PassBegins g t maxBad p c s) : FMGood g s ∧ FMFresh g s := by
  induction h with
  | first => exact ⟨⟨hp, hc⟩, startState_fresh g p c⟩
  | next _ h ih =>
    obtain ⟨h1, -, -, h2⟩ := (fmPass_spec hg ht maxBad ih.1 ih.2).elim_ok h
    exact ⟨⟨h1.part, h1.conn⟩, h2⟩

/-- **C28, moves.** In every pass of a refinement, however many iterations its move loop is allowed beyond the number of
vertices, it stops, and the vertices it moved are pairwise different; in particular it made at most one move per vertex. -/
theorem C28_each_vertex_once {E : Env} {g : Graph} (hg : g.Good) {t : Target E.fp} (ht : t.Two)
    {p : Partitioning} {c : Conn E.set} (hp : IsExact g 2 p) (hc : ConnExact g p.lab c) {maxBad : Nat} {s0 : FMState E}
    (hs0 : PassBegins g t maxBad p c s0) (fuel : Nat) (hf : g.nv < fuel) :
    ∃ ps0 ps, passStart g t s0 = ok ps0 ∧ fmLoop g t maxBad fuel ps0 = ok ps ∧
      ∃ moved : List Nat, moved.Nodup ∧ (∀ v ∈ moved, v < g.nv) ∧ ps.numMoved = moved.length ∧
        ps.numMoved ≤ g.nv ∧ ps.s.part.lab = moved.foldl flip s0.part.lab := by
  obtain ⟨hs, hfr⟩ := hs0.good hg ht hp hc
  obtain ⟨ps0, h0, hi0, hn0⟩ := sat_iff.mp (passStart_spec hg ht hs hfr)
  obtain ⟨ps, h1, hi, -⟩ := sat_iff.mp (fmLoop_spec hg ht maxBad fuel hi0 (by omega))
  obtain ⟨kept, hnd, hmem, hnum, hl, -⟩ := hi.best
  exact ⟨ps0, ps, h0, h1, kept ++ ps.moves, hnd, fun v hv => ((hmem v).mp hv).1, hnum, hi.numMoved_le, hl⟩

/-- **C28, termination.** Refinement never exhausts the move loop bound of `numVertices + 1` iterations the
model gives each pass. -/
theorem C28_fm_terminates {E : Env} {g : Graph} (hg : g.Good) {t : Target E.fp} (ht : t.Two)
    (maxIters maxMoves : Nat) {p : Partitioning} {c : Conn E.set} (hp : IsExact g 2 p)
    (hc : ConnExact g p.lab c) : fmRefine g t maxIters maxMoves p c ≠ .diverge := by
  have := fmRefine_spec (B := ¬ E.fp.BadMovesOK g.nv) hg ht maxIters maxMoves hp hc id
  intro hd
  rw [hd] at this
  unfold fmRefine maxBadMoves FP.cast at hd
  unfold FP.BadMovesOK at this
  cases h : E.fp.toU32 (E.fp.mul (E.fp.ofNat g.nv) (E.fp.lit 1 2)) with
  | none => rw [h] at hd; simp at hd
  | some n => rw [h] at this; simp at this

/-! ### C29 -/

/-- The states the move loops of all passes of a refinement go through. -/
inductive PassReach {E : Env} (g : Graph) (t : Target E.fp) (maxBad : Nat) (p : Partitioning) (c : Conn E.set) :
    PassState E → Prop
  | init {s ps} : PassBegins g t maxBad p c s → passStart g t s = ok ps → PassReach g t maxBad p c ps
  | step {ps ps'} : PassReach g t maxBad p c ps → (ps.s.q0.size > 0 ∨ ps.s.q1.size > 0) →
      fmStep g t ps = ok ps' → PassReach g t maxBad p c ps'

theorem PassReach.inv {E : Env} {g : Graph} (hg : g.Good) {t : Target E.fp} (ht : t.Two) {maxBad : Nat} {p : Partitioning}
    {c : Conn E.set} (hp : IsExact g 2 p) (hc : ConnExact g p.lab c) {ps : PassState E}
    (h : PassReach g t maxBad p c ps) : ∃ lab, PassInv g t lab ps := by
  induction h with
  | init h0 h =>
    obtain ⟨hs, hf⟩ := h0.good hg ht hp hc
    exact ⟨_, ((passStart_spec hg ht hs hf).elim_ok h).1⟩
  | step _ hne h ih =>
    obtain ⟨lab, ih⟩ := ih
    exact ⟨lab, ((fmStep_spec hg ht ih hne).elim_ok h).1⟩

/-- **C29.** In every state of every pass of a refinement, queue `side` contains exactly the unvisited border vertices of that side,
with priority minus the delta reported by the connectivity; and as long as a queue is nonempty the next step
is executed without misusing a queue (adding a present vertex, removing or updating an absent one, popping
an empty queue are all undefined behaviour in the model). -/
theorem C29_queue_discipline {E : Env} {g : Graph} (hg : g.Good) {t : Target E.fp} (ht : t.Two)
    {p : Partitioning} {c : Conn E.set} (hp : IsExact g 2 p) (hc : ConnExact g p.lab c) {maxBad : Nat} {ps : PassState E}
    (h : PassReach g t maxBad p c ps) :
    (∀ side q, ps.s.getQ side = ok q → ∀ v k, E.pq.key q.q v = some k ↔
      (v ∈ ps.s.conn.border.elems ∧ nth ps.s.visited v = false ∧ nth ps.s.part.asg v = side ∧
        ps.s.conn.delta v = ok (-k))) ∧
    ((ps.s.q0.size > 0 ∨ ps.s.q1.size > 0) → ∃ ps', fmStep g t ps = ok ps') := by
  obtain ⟨lab0, hi⟩ := h.inv hg ht hp hc
  constructor
  · intro side q hq v k
    have hs : side < 2 := by
      unfold FMState.getQ at hq
      by_contra hn
      rw [if_neg (by omega), if_neg (by omega)] at hq
      cases hq
    rw [FMState.getQ_eq hs] at hq
    cases hq
    rw [hi.queues.keys side hs v]
    unfold expectKey VSet.elems
    rw [E.set.mem_elems]
    have hdel : v < g.nv → ps.s.conn.delta v = ok ((internalWeight g ps.s.part.lab v : Int) -
        externalWeight g ps.s.part.lab v) := fun hv =>
      Conn.delta_eq hi.good.conn.toVals hv (ext_int_lt hg _ hv)
    constructor
    · intro h
      split at h
      · rename_i hc
        obtain ⟨a, b, d, e⟩ := hc
        refine ⟨e, b, d, ?_⟩
        rw [hdel a]
        cases h
        congr 1
        omega
      · cases h
    · rintro ⟨e, b, d, f⟩
      have hv := (hi.good.conn.border_only v e).1
      rw [if_pos ⟨hv, b, d, e⟩]
      rw [hdel hv] at f
      have f' := Res.ok.inj f
      congr 1
      omega
  · intro hne
    obtain ⟨ps', h, -⟩ := sat_iff.mp (fmStep_spec hg ht hi hne)
    exact ⟨ps', h⟩

/-- A pass on the example does start, and makes at least one step. -/
example : ∃ c ps ps', ConnExact Ex.tri2 Ex.badPart.lab c ∧
    PassReach Ex.tri2 halves 25 Ex.badPart c ps ∧ (ps.s.q0.size > 0 ∨ ps.s.q1.size > 0) ∧
    PassReach Ex.tri2 halves 25 Ex.badPart c ps' ∧ ps'.numMoved = 1 := by
  obtain ⟨c, h1, h2, h3⟩ := start_good Concrete.env
  obtain ⟨ps, hps, hi, hn⟩ := sat_iff.mp (passStart_spec (s0 := startState Concrete.env Ex.tri2 Ex.badPart c)
    Ex.tri2_good halves_two ⟨h2, h3⟩ (startState_fresh _ _ _))
  have hr : PassReach Ex.tri2 halves 25 Ex.badPart c ps := .init .first hps
  have hne : ps.s.q0.size > 0 ∨ ps.s.q1.size > 0 := by
    left
    rw [VQueue.size_pos_iff]
    have hsel : ps.s.qsel 0 = ps.s.q0 := rfl
    have hlab : ps.s.part.lab = Ex.badPart.lab := by
      obtain ⟨kept, -, -, hnum, hl, -⟩ := hi.best
      rw [hn] at hnum
      have := List.length_eq_zero_iff.mp hnum.symm
      rw [this] at hl
      exact hl
    have hvis : nth ps.s.visited 3 = false := by
      obtain ⟨kept, -, hmem, hnum, hl, -⟩ := hi.best
      rw [hn] at hnum
      have := List.length_eq_zero_iff.mp hnum.symm
      rw [this] at hmem
      have := (hmem 3).not.mp (by simp)
      simpa [Ex.tri2] using this
    have hb := hi.good.conn.border_of_ext 3 (by decide) (by rw [hlab]; decide +kernel)
    refine ⟨3, (externalWeight Ex.tri2 ps.s.part.lab 3 : Int) - internalWeight Ex.tri2 ps.s.part.lab 3, ?_⟩
    rw [← hsel, hi.queues.keys 0 (by omega) 3]
    unfold expectKey
    rw [if_pos ⟨by decide, hvis, by rw [hlab]; decide, hb⟩]
  obtain ⟨ps', h, h'⟩ := sat_iff.mp (fmStep_spec Ex.tri2_good halves_two hi hne)
  exact ⟨c, ps, ps', h3, hr, hne, .step hr hne h, by rw [h'.2.1, hn]⟩

/-- The first pass on the example does not end the refinement: a second one begins. -/
example : (do
    let c ← Conn.fromPartitioning Concrete.env.set Ex.tri2 Ex.badPart
    let r ← fmPass (E := Concrete.env) Ex.tri2 halves 25 (startState Concrete.env Ex.tri2 Ex.badPart c)
    (.ok r.2 : Res Bool)) = ok false := by
  decide +kernel

end Poros
