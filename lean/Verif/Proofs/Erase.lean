import Verif.Proofs.Api
/-
Which weight arrays the code looks at: on a graph flagged with unit edge weights no function of the library looks at
the edge weight array; on a graph flagged with unit vertex weights only the balancing fallback of breadth-first
bisection looks at the vertex weight array.
-/
namespace Poros
open Res

variable {E : Env}

/-- `r` is undefined behaviour or the same outcome as `r'`. -/
def Below (r r' : Res α) : Prop := r = ub ∨ r = r'

theorem Below.refl (r : Res α) : Below r r := Or.inr rfl

theorem Below.of_eq {r r' : Res α} (h : r = r') : Below r r' := Or.inr h

theorem Below.bind {r r' : Res α} {f f' : α → Res β} (h : Below r r') (hf : ∀ a, Below (f a) (f' a)) :
    Below (r >>= f) (r' >>= f') := by
  rcases h with rfl | rfl
  · exact Or.inl rfl
  · cases r with
    | ok a => exact hf a
    | ub => exact Or.inl rfl
    | exn => exact Or.inr rfl
    | diverge => exact Or.inr rfl

theorem Below.foldlM {f f' : β → α → Res β} (hf : ∀ b a, Below (f b a) (f' b a)) :
    ∀ (l : List α) (b : β), Below (l.foldlM f b) (l.foldlM f' b)
  | [], b => .refl _
  | a :: l, b => by
    rw [List.foldlM_cons, List.foldlM_cons]
    exact (hf b a).bind fun b' => Below.foldlM hf l b'

/-- `a` and `b` are the same graph flagged with unit edge weights, except for the edge weight array. -/
structure EEq (a b : Graph) : Prop where
  unit : a.unitEdge = true
  eq : b = { a with adjwgt := b.adjwgt }

/-- The same with vertex weights. -/
structure VEq (a b : Graph) : Prop where
  unit : a.unitVtx = true
  eq : b = { a with vwgt := b.vwgt }


/-- Replace both graphs by constructor terms. -/
macro "erase" h:ident a:ident b:ident : tactic => `(tactic| (
  obtain ⟨hu, he⟩ := $h
  obtain ⟨_, _, _, _, _, _, _, _, _, _⟩ := $a
  obtain ⟨_, _, _, _, _, _, _, _, _, _⟩ := $b
  simp only at hu
  subst hu
  cases he))

/-! ### Edge weights -/

namespace EEq
variable {a b : Graph}

theorem nv_eq (h : EEq a b) : b.nv = a.nv := by rw [h.eq]

theorem ne_eq (h : EEq a b) : b.ne = a.ne := by rw [h.eq]

theorem tot_eq (h : EEq a b) : b.totVtx = a.totVtx := by rw [h.eq]

theorem fmStep (h : EEq a b) (t : Target E.fp) (ps : PassState E) : fmStep b t ps = fmStep a t ps := by
  erase h a b; rfl

theorem fmLoop (h : EEq a b) (t : Target E.fp) (maxBad : Nat) :
    ∀ (n : Nat) (ps : PassState E), fmLoop b t maxBad n ps = fmLoop a t maxBad n ps
  | 0, ps => rfl
  | n + 1, ps => by
    unfold Poros.fmLoop
    rw [h.fmStep]
    simp only [h.fmLoop t maxBad n]

theorem fmPass (h : EEq a b) (t : Target E.fp) (maxBad : Nat) (s : FMState E) :
    fmPass b t maxBad s = fmPass a t maxBad s := by
  unfold Poros.fmPass
  simp only [h.fmLoop, h.nv_eq]
  erase h a b; rfl

theorem fmIters (h : EEq a b) (t : Target E.fp) (maxBad : Nat) :
    ∀ (n : Nat) (s : FMState E), fmIters b t maxBad n s = fmIters a t maxBad n s
  | 0, s => rfl
  | n + 1, s => by
    unfold Poros.fmIters
    simp only [h.fmPass, h.fmIters t maxBad n]

theorem fmRefine (h : EEq a b) (t : Target E.fp) (maxIters maxMoves : Nat) (p : Partitioning) (c : Conn E.set) :
    fmRefine b t maxIters maxMoves p c = fmRefine a t maxIters maxMoves p c := by
  unfold Poros.fmRefine
  simp only [h.fmIters, h.nv_eq]

theorem firstMate (h : EEq a b) (has : Bool) (maxW : Nat) (order : List Nat) (m : Matcher) (vw : Nat) :
    ∀ qs, firstMate b has maxW order m vw qs = firstMate a has maxW order m vw qs
  | [] => rfl
  | q :: qs => by
    unfold Poros.firstMate
    simp only [h.firstMate has maxW order m vw qs]
    rw [h.eq]
    rfl

theorem rmStep (h : EEq a b) (has : Bool) (maxW : Nat) (order : List Nat) (m : Matcher) (v : Nat) :
    rmStep b has maxW order m v = rmStep a has maxW order m v := by
  unfold Poros.rmStep
  simp only [h.firstMate]
  rw [h.eq]
  rfl

theorem aggregate (h : EEq a b) (s : Scheme) (maxW : Nat) (r : E.rng.S) :
    aggregate E s maxW b r = aggregate E s maxW a r := by
  have hr : rmAggregate E maxW b r = rmAggregate E maxW a r := by
    unfold rmAggregate
    have : ∀ has order, Poros.rmStep b has maxW order = Poros.rmStep a has maxW order := fun has order =>
      funext fun m => funext fun v => h.rmStep has maxW order m v
    simp only [this]
    rw [h.eq]
    rfl
  cases s with
  | randomMatching => exact hr
  | sortedHeavyEdge =>
    show shemrmAggregate E maxW b r = shemrmAggregate E maxW a r
    unfold shemrmAggregate
    rw [show b.unitEdge = true by rw [h.eq]; exact h.unit, h.unit]
    exact hr

theorem contract (h : EEq a b) (ag : Aggregation) : contract b ag = contract a ag := by
  erase h a b; rfl

theorem fromPartitioning (h : EEq a b) (P : SetImpl) (p : Partitioning) :
    Conn.fromPartitioning P b p = Conn.fromPartitioning P a p := by
  erase h a b; rfl

theorem project (h : EEq a b) {P : SetImpl} (cg : Graph) (cmap : Mem) (cp : Partitioning) (cc : Conn P) :
    (CoarseGraph.mk b cg cmap).project cp cc = (CoarseGraph.mk a cg cmap).project cp cc := by
  erase h a b; rfl

theorem bfsPriorityMove (h : EEq a b) (hasV : Bool) (t : Target E.fp) :
    ∀ (n : Nat) (s : VQueue E.pq × Partitioning),
      bfsPriorityMove b hasV false t n s = bfsPriorityMove a hasV false t n s
  | 0, s => rfl
  | n + 1, s => by
    unfold Poros.bfsPriorityMove
    simp only [h.bfsPriorityMove hasV t n]
    erase h a b; rfl

theorem bfsWeightLoop (h : EEq a b) (t : Target E.fp) :
    ∀ (n : Nat) (q : VQueue E.pq) (p : Partitioning), bfsWeightLoop b t n q p = bfsWeightLoop a t n q p
  | 0, q, p => rfl
  | n + 1, q, p => by
    unfold Poros.bfsWeightLoop
    simp only [h.bfsWeightLoop t n]
    erase h a b; rfl

theorem bfsUnitBalance (h : EEq a b) (t : Target E.fp) :
    ∀ (l : List Nat) (p : Partitioning), bfsUnitBalance b t l p = bfsUnitBalance a t l p
  | [], p => rfl
  | v :: l, p => by
    unfold Poros.bfsUnitBalance
    simp only [h.bfsUnitBalance t l]
    erase h a b; rfl

theorem bfsFrom (h : EEq a b) (t : Target E.fp) (seed : Nat) : bfsFrom t b seed = bfsFrom t a seed := by
  have h1 : bfsGrow t b seed = bfsGrow t a seed := by
    unfold bfsGrow
    rw [show (!b.unitEdge) = false by rw [h.eq]; show (!a.unitEdge) = false; rw [h.unit]; rfl,
      show (!a.unitEdge) = false by rw [h.unit]; rfl]
    simp only [h.bfsPriorityMove]
    rw [h.eq]
    rfl
  have h2 : ∀ l p, bfsBalance t b l p = bfsBalance t a l p := fun l p => by
    unfold bfsBalance bfsWeightBalance
    simp only [h.bfsWeightLoop, h.bfsUnitBalance]
    rw [h.eq]
    rfl
  unfold Poros.bfsFrom
  simp only [h1, h2]
  erase h a b; rfl

theorem bfsBisect (h : EEq a b) (t : Target E.fp) (r : E.rng.S) : bfsBisect t b r = bfsBisect t a r := by
  unfold Poros.bfsBisect
  simp only [h.bfsFrom, h.nv_eq]

theorem multiBisect (h : EEq a b) (n : Nat) (bis : Bisector E) (hb : ∀ t r, bis t b r = bis t a r)
    (t : Target E.fp) (r : E.rng.S) : multiBisect n bis t b r = multiBisect n bis t a r := by
  have : multiStep bis t b = multiStep bis t a := by
    funext s i
    unfold multiStep
    simp only [hb]
    rw [h.eq]
    rfl
  unfold Poros.multiBisect
  rw [this]
  unfold Partitioning.fresh
  simp only [h.nv_eq]

theorem stop (h : EEq a b) (ratio : E.fp.F) (l : Nat) (f : Option Graph) :
    compositeStop [vertexNumberStop 20, edgeRatioStop E.fp ratio] l f (some b) =
      compositeStop [vertexNumberStop 20, edgeRatioStop E.fp ratio] l f (some a) := by
  erase h a b; rfl

theorem stop_parent (h : EEq a b) (ratio : E.fp.F) (l : Nat) (g : Graph) :
    compositeStop [vertexNumberStop 20, edgeRatioStop E.fp ratio] l (some b) (some g) =
      compositeStop [vertexNumberStop 20, edgeRatioStop E.fp ratio] l (some a) (some g) := by
  erase h a b; rfl

end EEq

/-- Only the size of the parent graph matters for the recursion. -/
theorem recurse_parent {ratio : E.fp.F} {m : Multilevel E} {a b : Graph}
    (hs : ∀ l g, compositeStop [vertexNumberStop 20, edgeRatioStop E.fp ratio] l (some b) (some g) =
      compositeStop [vertexNumberStop 20, edgeRatioStop E.fp ratio] l (some a) (some g))
    (maxW : Nat) (t : Target E.fp) (n l : Nat) (g : Graph) (r : E.rng.S) :
    m.recurse maxW (compositeStop [vertexNumberStop 20, edgeRatioStop E.fp ratio]) t n l (some b) g r =
      m.recurse maxW (compositeStop [vertexNumberStop 20, edgeRatioStop E.fp ratio]) t n l (some a) g r := by
  cases n with
  | zero => rfl
  | succ n =>
    unfold Multilevel.recurse
    rw [hs]

namespace EEq
variable {a b : Graph}

theorem recurse (h : EEq a b) {m : Multilevel E} {maxW : Nat} {t : Target E.fp} {ratio : E.fp.F}
    (h1 : ∀ r, m.agg maxW b r = m.agg maxW a r) (h2 : ∀ r, m.init t b r = m.init t a r)
    (h3 : ∀ p c, m.refine t b p c = m.refine t a p c) (n l : Nat) (f : Option Graph) (r : E.rng.S) :
    m.recurse maxW (compositeStop [vertexNumberStop 20, edgeRatioStop E.fp ratio]) t n l f b r =
      m.recurse maxW (compositeStop [vertexNumberStop 20, edgeRatioStop E.fp ratio]) t n l f a r := by
  cases n with
  | zero => rfl
  | succ n =>
    unfold Multilevel.recurse
    have h4 := recurse_parent (m := m) (fun l g => h.stop_parent ratio l g) maxW t
    rw [h.stop]
    simp only [h1, h2, h3, h4, h.fromPartitioning]
    unfold CoarseGraph.make
    simp only [h.contract, h.nv_eq, bind_assoc, ok_bind, h.project]

theorem execute (h : EEq a b) {m : Multilevel E} (h1 : ∀ maxW r, m.agg maxW b r = m.agg maxW a r)
    (h2 : ∀ t r, m.init t b r = m.init t a r) (h3 : ∀ t p c, m.refine t b p c = m.refine t a p c) (t : Target E.fp)
    (r : E.rng.S) : m.execute t b r = m.execute t a r := by
  unfold Multilevel.execute edgeRatioMake
  rw [h.tot_eq, h.ne_eq]
  split
  · rfl
  · simp only [ok_bind]
    simp only [h.recurse (h1 _) (h2 t) (h3 t)]

theorem multilevel (h : EEq a b) (s : Scheme) (t : Target E.fp) (r : E.rng.S) :
    (makeMultilevel E s).execute t b r = (makeMultilevel E s).execute t a r :=
  h.execute (m := makeMultilevel E s) (fun maxW r => h.aggregate s maxW r)
    (fun t r => h.multiBisect 8 _ h.bfsBisect t r) (fun t p c => h.fmRefine t 8 150 p c) t r

theorem extract (h : EEq a b) (p : Partitioning) (labels : Option (List Nat)) :
    extractPartitions b p labels = extractPartitions a p labels := by
  erase h a b; rfl

theorem rbRecurse (h : EEq a b) {bis : Bisector E} (hb : ∀ t r, bis t b r = bis t a r) (n : Nat) (t : Target E.fp)
    (m : Option (List Nat)) (offset : Nat) (s : Mem × E.rng.S) :
    rbRecurse bis n t ⟨m, b⟩ offset s = rbRecurse bis n t ⟨m, a⟩ offset s := by
  cases n with
  | zero => rfl
  | succ n =>
    unfold Poros.rbRecurse
    simp only [hb, h.extract]
    have : ∀ p mem, (Mapped.mk m b).mapPartitioning p mem offset = (Mapped.mk m a).mapPartitioning p mem offset := by
      intro p mem
      rw [h.eq]
      rfl
    simp only [this]

theorem partitioner (h : EEq a b) (s : Scheme) (t : Target E.fp) (r : E.rng.S) :
    partitioner E s t b r = partitioner E s t a r := by
  unfold Poros.partitioner rbExecute
  simp only [h.rbRecurse (h.multilevel s), h.nv_eq]
  erase h a b; rfl

end EEq

/-! ### Vertex weights -/

namespace VEq
variable {a b : Graph}

theorem nv_eq (h : VEq a b) : b.nv = a.nv := by rw [h.eq]

theorem ne_eq (h : VEq a b) : b.ne = a.ne := by rw [h.eq]

theorem tot_eq (h : VEq a b) : b.totVtx = a.totVtx := by rw [h.eq]

theorem unitE_eq (h : VEq a b) : b.unitEdge = a.unitEdge := by rw [h.eq]

theorem not_unit (h : VEq a b) : (!a.unitVtx) = false := by rw [h.unit]; rfl

theorem not_unit' (h : VEq a b) : (!b.unitVtx) = false := by rw [h.eq]; exact h.not_unit

theorem fmStep (h : VEq a b) (t : Target E.fp) (ps : PassState E) : fmStep b t ps = fmStep a t ps := by
  erase h a b; rfl

theorem fmLoop (h : VEq a b) (t : Target E.fp) (maxBad : Nat) :
    ∀ (n : Nat) (ps : PassState E), fmLoop b t maxBad n ps = fmLoop a t maxBad n ps
  | 0, ps => rfl
  | n + 1, ps => by
    unfold Poros.fmLoop
    rw [h.fmStep]
    simp only [h.fmLoop t maxBad n]

theorem fmPass (h : VEq a b) (t : Target E.fp) (maxBad : Nat) (s : FMState E) :
    fmPass b t maxBad s = fmPass a t maxBad s := by
  unfold Poros.fmPass
  simp only [h.fmLoop, h.nv_eq]
  erase h a b; rfl

theorem fmIters (h : VEq a b) (t : Target E.fp) (maxBad : Nat) :
    ∀ (n : Nat) (s : FMState E), fmIters b t maxBad n s = fmIters a t maxBad n s
  | 0, s => rfl
  | n + 1, s => by
    unfold Poros.fmIters
    simp only [h.fmPass, h.fmIters t maxBad n]

theorem fmRefine (h : VEq a b) (t : Target E.fp) (maxIters maxMoves : Nat) (p : Partitioning) (c : Conn E.set) :
    fmRefine b t maxIters maxMoves p c = fmRefine a t maxIters maxMoves p c := by
  unfold Poros.fmRefine
  simp only [h.fmIters, h.nv_eq]

theorem firstMate (h : VEq a b) (maxW : Nat) (order : List Nat) (m : Matcher) (vw : Nat) :
    ∀ qs, firstMate b false maxW order m vw qs = firstMate a false maxW order m vw qs
  | [] => rfl
  | q :: qs => by
    unfold Poros.firstMate
    simp only [h.firstMate maxW order m vw qs]
    rw [h.eq]
    rfl

theorem rmStep (h : VEq a b) (maxW : Nat) (order : List Nat) :
    rmStep b false maxW order = rmStep a false maxW order := by
  funext m v
  unfold Poros.rmStep
  simp only [h.firstMate]
  rw [h.eq]
  rfl

theorem shemStep (h : VEq a b) (maxW : Nat) : shemStep b false maxW = shemStep a false maxW := by
  rw [h.eq]
  rfl

theorem aggregate (h : VEq a b) (s : Scheme) (maxW : Nat) (r : E.rng.S) :
    aggregate E s maxW b r = aggregate E s maxW a r := by
  have hr : rmAggregate E maxW b r = rmAggregate E maxW a r := by
    unfold rmAggregate
    simp only [h.not_unit, h.not_unit', h.rmStep]
    rw [h.eq]
    rfl
  cases s with
  | randomMatching => exact hr
  | sortedHeavyEdge =>
    show shemrmAggregate E maxW b r = shemrmAggregate E maxW a r
    unfold shemrmAggregate
    rw [h.unitE_eq]
    split
    · exact hr
    · unfold shemAggregate
      simp only [h.not_unit, h.not_unit', h.shemStep]
      rw [h.eq]
      rfl

theorem contract (h : VEq a b) (ag : Aggregation) : contract b ag = contract a ag := by
  erase h a b; rfl

theorem fromPartitioning (h : VEq a b) (P : SetImpl) (p : Partitioning) :
    Conn.fromPartitioning P b p = Conn.fromPartitioning P a p := by
  erase h a b; rfl

theorem project (h : VEq a b) {P : SetImpl} (cg : Graph) (cmap : Mem) (cp : Partitioning) (cc : Conn P) :
    (CoarseGraph.mk b cg cmap).project cp cc = (CoarseGraph.mk a cg cmap).project cp cc := by
  erase h a b; rfl

theorem bfsPriorityMove (h : VEq a b) (hasE : Bool) (t : Target E.fp) :
    ∀ (n : Nat) (s : VQueue E.pq × Partitioning),
      bfsPriorityMove b false hasE t n s = bfsPriorityMove a false hasE t n s
  | 0, s => rfl
  | n + 1, s => by
    unfold Poros.bfsPriorityMove
    simp only [h.bfsPriorityMove hasE t n]
    erase h a b; rfl

theorem bfsWeightLoop (ha : a.vwgt = []) (t : Target E.fp) (n : Nat) (q : VQueue E.pq)
    (p : Partitioning) : Below (bfsWeightLoop a t n q p) (bfsWeightLoop b t n q p) := by
  cases n with
  | zero => exact .refl _
  | succ n =>
    unfold Poros.bfsWeightLoop
    split
    · refine (Below.refl _).bind fun x => Or.inl ?_
      show (rd a.vwgt x.1 >>= _) = ub
      rw [ha]
      rfl
    · exact .refl _

theorem bfsWeightBalance (h : VEq a b) (ha : a.vwgt = []) (t : Target E.fp) (l : List Nat) (p : Partitioning) :
    Below (bfsWeightBalance a t l p) (bfsWeightBalance b t l p) := by
  unfold Poros.bfsWeightBalance
  cases l with
  | nil =>
    rw [h.nv_eq]
    exact bfsWeightLoop ha t _ _ p
  | cons v l =>
    refine Or.inl ?_
    rw [List.foldlM_cons]
    show (((rd a.vwgt v >>= _) >>= _) >>= _) = ub
    rw [ha]
    rfl

theorem bfsFrom (h : VEq a b) (ha : a.vwgt = []) (t : Target E.fp) (seed : Nat) :
    Below (bfsFrom t a seed) (bfsFrom t b seed) := by
  have h1 : bfsGrow t b seed = bfsGrow t a seed := by
    unfold bfsGrow
    simp only [h.not_unit, h.not_unit', h.bfsPriorityMove, h.unitE_eq, h.nv_eq]
    rw [h.eq]
    rfl
  have h2 : ∀ p : Partitioning, p.recalcCut b = p.recalcCut a := fun p => by rw [h.eq]; rfl
  unfold Poros.bfsFrom
  simp only [h1, h2]
  refine (Below.refl _).bind fun s => Below.bind ?_ fun p => .refl _
  unfold bfsBalance
  refine (Below.refl _).bind fun w1 => (Below.refl _).bind fun m1 => ?_
  split
  · rw [show b.unitVtx = true by rw [h.eq]; exact h.unit, h.unit]
    exact h.bfsWeightBalance ha t _ _
  · exact .refl _

theorem bfsBisect (h : VEq a b) (ha : a.vwgt = []) (t : Target E.fp) (r : E.rng.S) :
    Below (bfsBisect t a r) (bfsBisect t b r) := by
  unfold Poros.bfsBisect
  rw [h.nv_eq]
  exact (Below.refl _).bind fun x => (h.bfsFrom ha t x.1).bind fun p => .refl _

theorem multiBisect (h : VEq a b) (n : Nat) (bis : Bisector E) (hb : ∀ t r, Below (bis t a r) (bis t b r))
    (t : Target E.fp) (r : E.rng.S) : Below (multiBisect n bis t a r) (multiBisect n bis t b r) := by
  unfold Poros.multiBisect Partitioning.fresh
  rw [h.nv_eq]
  refine Below.bind (Below.foldlM (fun s i => ?_) _ _) fun s => .refl _
  unfold multiStep
  refine (hb t s.rng).bind fun x => ?_
  rw [h.eq]
  exact .refl _

theorem stop (h : VEq a b) (ratio : E.fp.F) (l : Nat) (f : Option Graph) :
    compositeStop [vertexNumberStop 20, edgeRatioStop E.fp ratio] l f (some b) =
      compositeStop [vertexNumberStop 20, edgeRatioStop E.fp ratio] l f (some a) := by
  erase h a b; rfl

theorem stop_parent (h : VEq a b) (ratio : E.fp.F) (l : Nat) (g : Graph) :
    compositeStop [vertexNumberStop 20, edgeRatioStop E.fp ratio] l (some b) (some g) =
      compositeStop [vertexNumberStop 20, edgeRatioStop E.fp ratio] l (some a) (some g) := by
  erase h a b; rfl

theorem recurse (h : VEq a b) {m : Multilevel E} {maxW : Nat} {t : Target E.fp} {ratio : E.fp.F}
    (h1 : ∀ r, m.agg maxW b r = m.agg maxW a r) (h2 : ∀ r, Below (m.init t a r) (m.init t b r))
    (h3 : ∀ p c, m.refine t b p c = m.refine t a p c) (n l : Nat) (f : Option Graph) (r : E.rng.S) :
    Below (m.recurse maxW (compositeStop [vertexNumberStop 20, edgeRatioStop E.fp ratio]) t n l f a r)
      (m.recurse maxW (compositeStop [vertexNumberStop 20, edgeRatioStop E.fp ratio]) t n l f b r) := by
  cases n with
  | zero => exact .refl _
  | succ n =>
    unfold Multilevel.recurse
    have h4 := recurse_parent (m := m) (fun l g => h.stop_parent ratio l g) maxW t
    rw [h.stop]
    refine (Below.refl _).bind fun s => ?_
    split
    · simp only [h.fromPartitioning]
      exact (h2 r).bind fun x => .refl _
    · refine .of_eq ?_
      simp only [h1, h3, h4]
      unfold CoarseGraph.make
      simp only [h.contract, h.nv_eq, bind_assoc, ok_bind, h.project]

theorem execute (h : VEq a b) {m : Multilevel E} (h1 : ∀ maxW r, m.agg maxW b r = m.agg maxW a r)
    (h2 : ∀ t r, Below (m.init t a r) (m.init t b r)) (h3 : ∀ t p c, m.refine t b p c = m.refine t a p c)
    (t : Target E.fp) (r : E.rng.S) : Below (m.execute t a r) (m.execute t b r) := by
  unfold Multilevel.execute edgeRatioMake
  rw [h.tot_eq, h.ne_eq]
  split
  · exact .refl _
  · rw [ok_bind, ok_bind]
    exact (Below.refl _).bind fun maxW =>
      (h.recurse (h1 maxW) (h2 t) (h3 t) _ _ _ _).bind fun x => .refl _

theorem multilevel (h : VEq a b) (ha : a.vwgt = []) (s : Scheme) (t : Target E.fp) (r : E.rng.S) :
    Below ((makeMultilevel E s).execute t a r) ((makeMultilevel E s).execute t b r) :=
  h.execute (m := makeMultilevel E s) (fun maxW r => h.aggregate s maxW r)
    (fun t r => h.multiBisect 8 _ (h.bfsBisect ha) t r) (fun t p c => h.fmRefine t 8 150 p c) t r

theorem extract (h : VEq a b) (p : Partitioning) (labels : Option (List Nat)) :
    extractPartitions b p labels = extractPartitions a p labels := by
  erase h a b; rfl

theorem rbRecurse (h : VEq a b) {bis : Bisector E} (hb : ∀ t r, Below (bis t a r) (bis t b r)) (n : Nat)
    (t : Target E.fp) (m : Option (List Nat)) (offset : Nat) (s : Mem × E.rng.S) :
    Below (rbRecurse bis n t ⟨m, a⟩ offset s) (rbRecurse bis n t ⟨m, b⟩ offset s) := by
  cases n with
  | zero => exact .refl _
  | succ n =>
    unfold Poros.rbRecurse
    refine (Below.refl _).bind fun hs => (Below.refl _).bind fun bt => (hb bt s.2).bind fun o => ?_
    have : ∀ p mem, (Mapped.mk m b).mapPartitioning p mem offset = (Mapped.mk m a).mapPartitioning p mem offset := by
      intro p mem
      rw [h.eq]
      rfl
    simp only [this, h.extract]
    exact .refl _

theorem partitioner (h : VEq a b) (ha : a.vwgt = []) (s : Scheme) (t : Target E.fp) (r : E.rng.S) :
    Below (partitioner E s t a r) (partitioner E s t b r) := by
  unfold Poros.partitioner rbExecute
  rw [h.nv_eq]
  refine (h.rbRecurse (h.multilevel ha s) _ t none 0 _).bind fun o => (Below.refl _).bind fun l => .of_eq ?_
  erase h a b; rfl

end VEq

/-! ### The C interface -/

theorem Graph.sumWeights_ones {n : Nat} {l : List Nat} (h : n ≤ l.length) (h1 : ∀ i, i < n → nth l i = 1) :
    sumWeights n l = sumWeights n [] := by
  unfold sumWeights
  by_cases hn : n > 0
  · rw [if_pos hn, if_pos hn, if_neg (by omega), if_pos (show ([] : List Nat).length = 0 from rfl)]
    have : ∀ m, m ≤ n → (List.range m).foldlM (fun (s : Nat × Bool) i => do
        let x ← rd l i
        (.ok (uadd s.1 x, if x ≠ 1 then false else s.2) : Res (Nat × Bool))) (0, true) = ok (m % 4294967296, true) := by
      intro m
      induction m with
      | zero => intro _; rfl
      | succ m ih =>
        intro hm
        rw [List.range_succ, List.foldlM_append, ih (by omega), ok_bind]
        show (rd l m >>= fun x => ok (uadd (m % 4294967296) x, if x ≠ 1 then false else true)) >>= _ = _
        rw [rd_of_lt (by omega), h1 m (by omega)]
        show ok (uadd (m % 4294967296) 1, true) = _
        unfold uadd
        rw [Nat.mod_add_mod]
    exact this n (le_refl n)
  · rw [if_neg hn, if_neg hn]

theorem cutsLoop_below {S : Type} {run run' : S → Res (Partitioning × S)} (h : ∀ s, Below (run s) (run' s)) :
    ∀ (n i best : Nat) (out : Out) (s : S),
      (cutsLoop run n i best out s).2 = ub ∨ cutsLoop run n i best out s = cutsLoop run' n i best out s
  | 0, i, best, out, s => Or.inr rfl
  | n + 1, i, best, out, s => by
    unfold cutsLoop
    rcases h s with h1 | h1
    · rw [h1]
      exact Or.inl rfl
    · rw [← h1]
      cases run s with
      | ub => exact Or.inl rfl
      | exn => exact Or.inr rfl
      | diverge => exact Or.inr rfl
      | ok r =>
        show (ite _ _ _ : Out × Res Unit).2 = ub ∨ ite _ _ _ = ite _ _ _
        split
        · unfold writeOut
          cases r.1.output out.asg with
          | ub => exact Or.inl rfl
          | exn => exact Or.inr rfl
          | diverge => exact Or.inr rfl
          | ok w => exact cutsLoop_below h n _ _ _ _
        · exact cutsLoop_below h n _ _ _ _

end Poros
