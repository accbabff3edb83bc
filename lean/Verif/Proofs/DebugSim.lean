import Verif.Model.Debug
import Verif.Proofs.DebugFM
/-
What a debug build of the whole call returns, the release build returns.
-/
namespace Poros
open Res

theorem Sim.check {β : Type} {c : Prop} [Decidable c] {f : Unit → Res β} {r : Res β} (hf : c → Sim (f ()) r) :
    Sim (Poros.check c >>= f) r := by
  by_cases h : c
  · rw [check_bind h]; exact hf h
  · rw [check_false h]; intro x hx; cases hx

theorem Sim.mapM {α β : Type} {f f' : α → Res β} {l : List α} (h : ∀ x, x ∈ l → Sim (f x) (f' x)) :
    Sim (l.mapM f) (l.mapM f') := by
  induction l with
  | nil => exact Sim.refl _
  | cons x xs ih =>
    rw [List.mapM_cons, List.mapM_cons]
    exact (h x (by simp)).bind fun _ _ => (ih fun y hy => h y (by simp [hy])).bind fun _ _ => Sim.refl _

/-- A value computed after a check, against the plain value. -/
theorem Sim.pure_bind {α β : Type} {d : Res α} {a : α} {f : α → Res β} {r : Res β} (h : Sim d (ok a))
    (hf : Sim (f a) r) : Sim (d >>= f) r := by
  intro y hy
  cases hd : d with
  | ok x =>
    have := h x hd
    cases this
    rw [hd, ok_bind] at hy
    exact hf y hy
  | ub => simp [hd] at hy
  | exn => simp [hd] at hy
  | diverge => simp [hd] at hy

theorem freshD_sim (k : Nat) (g : Graph) : Sim (Partitioning.freshD k g) (ok (Partitioning.fresh k g)) :=
  Sim.skip fun _ => Sim.refl _

theorem ofLabelsD_sim (k : Nat) (g : Graph) (l : List Nat) :
    Sim (Partitioning.ofLabelsD k g l) (Partitioning.ofLabels k g l) := Sim.skip fun _ => Sim.refl _

theorem assignD_sim (g : Graph) (v part : Nat) (p : Partitioning) : Sim (p.assignD g v part) (p.assign g v part) :=
  Sim.skip fun _ => Sim.skip fun _ => Sim.refl _

theorem mateD_sim (m : Matcher) (a b : Nat) : Sim (m.mateD a b) (m.mate a b) :=
  Sim.skip fun _ => Sim.skip fun _ => Sim.skip fun _ => Sim.skip fun _ => Sim.refl _

theorem rmStepD_sim (g : Graph) (has : Bool) (maxW : Nat) (order : List Nat) (m : Matcher) (v : Nat) :
    Sim (rmStepD g has maxW order m v) (rmStep g has maxW order m v) := by
  unfold rmStepD rmStep
  refine (Sim.refl _).bind fun _ _ => Sim.ite (Sim.refl _) ?_
  refine (Sim.refl _).bind fun _ _ => (Sim.refl _).bind fun _ _ => (Sim.refl _).bind fun b _ => ?_
  cases b with
  | none => exact Sim.refl _
  | some u => exact mateD_sim m v u

theorem shemStepD_sim (g : Graph) (has : Bool) (maxW : Nat) (m : Matcher) (v : Nat) :
    Sim (shemStepD g has maxW m v) (shemStep g has maxW m v) := by
  unfold shemStepD shemStep
  refine (Sim.refl _).bind fun _ _ => Sim.ite (Sim.refl _) ?_
  refine (Sim.refl _).bind fun _ _ =>
    Sim.bind (Sim.skip fun _ => Sim.skip fun _ => Sim.refl _) fun _ _ => (Sim.refl _).bind fun b _ => ?_
  cases b with
  | none => exact Sim.refl _
  | some u => exact mateD_sim m v u.1

theorem rmAggregateD_sim (E : Env) (maxW : Nat) (g : Graph) (r : E.rng.S) :
    Sim (rmAggregateD E maxW g r) (rmAggregate E maxW g r) := by
  unfold rmAggregateD rmAggregate
  exact (Sim.foldlM fun _ _ _ => rmStepD_sim _ _ _ _ _ _).bind fun _ _ => Sim.refl _

theorem shemAggregateD_sim (E : Env) (maxW : Nat) (g : Graph) (r : E.rng.S) :
    Sim (shemAggregateD E maxW g r) (shemAggregate E maxW g r) := by
  unfold shemAggregateD shemAggregate
  exact (Sim.refl _).bind fun _ _ => (Sim.foldlM fun _ _ _ => shemStepD_sim _ _ _ _ _).bind fun _ _ => Sim.refl _

theorem aggregateD_sim (E : Env) (s : Scheme) (maxW : Nat) (g : Graph) (r : E.rng.S) :
    Sim (aggregateD E s maxW g r) (aggregate E s maxW g r) := by
  cases s with
  | randomMatching => exact rmAggregateD_sim E maxW g r
  | sortedHeavyEdge => exact Sim.ite (rmAggregateD_sim E maxW g r) (shemAggregateD_sim E maxW g r)

theorem coarseD_sim (a : Aggregation) (v : Nat) : Sim (a.coarseD v) (a.coarse v) := by
  intro x hx
  unfold Aggregation.coarseD at hx
  unfold Aggregation.coarse
  cases h : rd a.cmap v with
  | ok c =>
    rw [h, ok_bind] at hx
    unfold check at hx
    split at hx
    · rw [ok_bind] at hx; exact hx
    · cases hx
  | ub => simp [h] at hx
  | exn => simp [h] at hx
  | diverge => simp [h] at hx

theorem contractGraphD_sim (g : Graph) (hasV hasE : Bool) (a : Aggregation) :
    Sim (contractGraphD g hasV hasE a) (contractGraph g hasV hasE a) := by
  unfold contractGraphD contractGraph
  refine (Sim.refl _).bind fun _ _ => Sim.bind (Sim.foldlM fun b c _ => ?_) fun b _ => ?_
  · refine (Sim.refl _).bind fun grp _ => Sim.bind (Sim.foldlM fun s v _ => ?_) fun _ _ => Sim.refl _
    refine Sim.skip fun _ => Sim.skip fun _ => (Sim.refl _).bind fun _ _ => (Sim.refl _).bind fun _ _ =>
      Sim.bind (Sim.foldlM fun b q _ => ?_) fun _ _ => Sim.refl _
    exact (coarseD_sim a q.1).bind fun _ _ => Sim.refl _
  · unfold OneStep.finishD
    intro x hx
    cases h : b.finish with
    | ok y =>
      rw [h, ok_bind] at hx
      exact (Sim.skip fun _ => Sim.skip fun _ => Sim.refl _ : Sim _ (ok y)) x hx
    | ub => simp [h] at hx
    | exn => simp [h] at hx
    | diverge => simp [h] at hx

theorem makeD_sim (g : Graph) (a : Aggregation) : Sim (CoarseGraph.makeD g a) (CoarseGraph.make g a) :=
  (contractGraphD_sim g _ _ a).bind fun _ _ => Sim.refl _

theorem projectD_sim {P : SetImpl} (cg : CoarseGraph) (cp : Partitioning) (cc : Conn P) :
    Sim (cg.projectD cp cc) (cg.project cp cc) := by
  unfold CoarseGraph.projectD CoarseGraph.project
  refine Sim.pure_bind (freshD_sim _ _) ?_
  refine Sim.bind (Sim.foldlM fun p v _ => ?_) fun _ _ => Sim.refl _
  exact (Sim.refl _).bind fun _ _ => (Sim.refl _).bind fun _ _ => assignD_sim _ _ _ _

variable {E : Env}

/-- The parts of a multilevel bisector, debug against release. -/
structure MLSim (d m : Multilevel E) : Prop where
  agg : ∀ w g r, Sim (d.agg w g r) (m.agg w g r)
  init : ∀ t g r, Sim (d.init t g r) (m.init t g r)
  refine : ∀ t g p c, Sim (d.refine t g p c) (m.refine t g p c)

theorem recurseD_sim {d m : Multilevel E} (h : MLSim d m) (maxW : Nat) (stop : Criterion) (t : Target E.fp)
    (fuel level : Nat) (parent : Option Graph) (g : Graph) (r : E.rng.S) :
    Sim (d.recurseD maxW stop t fuel level parent g r) (m.recurse maxW stop t fuel level parent g r) := by
  induction fuel generalizing level parent g r with
  | zero => exact Sim.refl _
  | succ fuel ih =>
    unfold Multilevel.recurseD Multilevel.recurse
    refine (Sim.refl _).bind fun s _ => Sim.ite ?_ ?_
    · exact (h.init t g r).bind fun _ _ => Sim.refl _
    · refine (h.agg maxW g r).bind fun a _ => (makeD_sim g a.1).bind fun cg _ => (ih _ _ _ _).bind fun i _ => ?_
      exact (projectD_sim cg _ _).bind fun _ _ => (h.refine _ _ _ _).bind fun _ _ => Sim.refl _

theorem executeD_sim {d m : Multilevel E} (h : MLSim d m) (t : Target E.fp) (g : Graph) (r : E.rng.S) :
    Sim (d.executeD t g r) (m.execute t g r) := by
  unfold Multilevel.executeD Multilevel.execute
  exact (Sim.refl _).bind fun _ _ => (Sim.refl _).bind fun _ _ => (recurseD_sim h _ _ _ _ _ _ _ _).bind fun _ _ =>
    Sim.refl _

theorem bfsStepD_sim (g : Graph) (a b : Bool) (t : Target E.fp) (s : VQueue E.pq × Partitioning) :
    Sim (bfsStepD g a b t s) (bfsStep g a b t s) := by
  unfold bfsStepD bfsStep
  refine (Sim.refl _).bind fun _ _ => (Sim.refl _).bind fun _ _ => (Sim.refl _).bind fun _ _ =>
    (Sim.refl _).bind fun _ _ => Sim.ite ?_ (Sim.refl _)
  exact (moveD_sim g _ 0 _).bind fun _ _ => Sim.refl _

theorem bfsPriorityMoveD_sim (g : Graph) (a b : Bool) (t : Target E.fp) (fuel : Nat) (s : VQueue E.pq × Partitioning) :
    Sim (bfsPriorityMoveD g a b t fuel s) (bfsPriorityMove g a b t fuel s) := by
  induction fuel generalizing s with
  | zero => exact Sim.refl _
  | succ fuel ih =>
    unfold bfsPriorityMoveD bfsPriorityMove
    refine Sim.ite ?_ (Sim.refl _)
    refine (Sim.refl _).bind fun _ _ => (Sim.refl _).bind fun _ _ => Sim.ite ?_ (Sim.refl _)
    exact (bfsStepD_sim g a b t s).bind fun _ _ => ih _

theorem bfsWeightLoopD_sim (g : Graph) (t : Target E.fp) (fuel : Nat) (q : VQueue E.pq) (p : Partitioning) :
    Sim (bfsWeightLoopD g t fuel q p) (bfsWeightLoop g t fuel q p) := by
  induction fuel generalizing q with
  | zero => exact Sim.refl _
  | succ fuel ih =>
    unfold bfsWeightLoopD bfsWeightLoop
    refine Sim.ite ?_ (Sim.refl _)
    refine (Sim.refl _).bind fun _ _ => Sim.bind (Sim.skip fun _ => Sim.refl _) fun _ _ => (Sim.refl _).bind fun _ _ =>
      (Sim.refl _).bind fun _ _ => Sim.ite (moveD_sim g _ 0 p) (ih _)

theorem bfsUnitBalanceD_sim (g : Graph) (t : Target E.fp) (l : List Nat) (p : Partitioning) :
    Sim (bfsUnitBalanceD g t l p) (bfsUnitBalance g t l p) := by
  induction l with
  | nil => exact Sim.refl _
  | cons v vs ih =>
    unfold bfsUnitBalanceD bfsUnitBalance
    exact (Sim.refl _).bind fun _ _ => (Sim.refl _).bind fun _ _ => Sim.ite (moveD_sim g _ 0 p) ih

theorem bfsBalanceD_sim (t : Target E.fp) (g : Graph) (l : List Nat) (p : Partitioning) :
    Sim (bfsBalanceD t g l p) (bfsBalance t g l p) := by
  unfold bfsBalanceD bfsBalance
  refine (Sim.refl _).bind fun _ _ => (Sim.refl _).bind fun _ _ => Sim.ite (Sim.ite ?_ ?_) (Sim.refl _)
  · refine Sim.bind (Sim.foldlM fun _ _ _ => ?_) fun _ _ => bfsWeightLoopD_sim g t _ _ _
    exact Sim.bind (Sim.skip fun _ => Sim.refl _) fun _ _ => Sim.refl _
  · exact bfsUnitBalanceD_sim g t l p

theorem bfsGrowD_sim (t : Target E.fp) (g : Graph) (seed : Nat) : Sim (bfsGrowD t g seed) (bfsGrow t g seed) := by
  unfold bfsGrowD bfsGrow
  refine (Sim.refl _).bind fun _ _ => (Sim.refl _).bind fun _ _ => Sim.pure_bind (freshD_sim _ _) ?_
  exact (Sim.refl _).bind fun _ _ => bfsPriorityMoveD_sim g _ _ t _ _

theorem bfsFromD_sim (t : Target E.fp) (g : Graph) (seed : Nat) : Sim (bfsFromD t g seed) (bfsFrom t g seed) := by
  unfold bfsFromD bfsFrom
  exact Sim.skip fun _ => (bfsGrowD_sim t g seed).bind fun _ _ => (bfsBalanceD_sim t g _ _).bind fun _ _ => Sim.refl _

theorem bfsBisectD_sim (t : Target E.fp) (g : Graph) (r : E.rng.S) : Sim (bfsBisectD t g r) (bfsBisect t g r) := by
  unfold bfsBisectD bfsBisect
  exact (Sim.refl _).bind fun _ _ => (bfsFromD_sim t g _).bind fun _ _ => Sim.refl _

theorem multiBisectD_sim (n : Nat) {d b : Bisector E} (h : ∀ t g r, Sim (d t g r) (b t g r)) (t : Target E.fp)
    (g : Graph) (r : E.rng.S) : Sim (multiBisectD n d t g r) (multiBisect n b t g r) := by
  unfold multiBisectD multiBisect
  refine Sim.pure_bind (freshD_sim _ _) ?_
  refine Sim.bind (Sim.foldlM fun s i _ => ?_) fun _ _ => Sim.refl _
  unfold multiStepD multiStep
  exact (h t g _).bind fun _ _ => (calcMaxImbalanceD_sim g _ t).bind fun _ _ => Sim.refl _

theorem makeMultilevelD_sim (E : Env) (s : Scheme) : MLSim (makeMultilevelD E s) (makeMultilevel E s) where
  agg := aggregateD_sim E s
  init := multiBisectD_sim 8 bfsBisectD_sim
  refine := fun t g p c => fmRefineD_sim g t 8 150 p c

/-! ### subgraphs -/

theorem onNth_sim {β : Type} {bs : List β} {p : Nat} {f f' : β → Res β} (h : ∀ b, Sim (f b) (f' b)) :
    Sim (onNth bs p f) (onNth bs p f') :=
  (Sim.refl _).bind fun _ _ => (h _).bind fun _ _ => Sim.refl _

theorem Sim.after {α : Type} {d : Res α} {f : α → Res α} (h : ∀ x, Sim (f x) (ok x)) : Sim (d >>= f) d := by
  intro y hy
  cases hd : d with
  | ok x => rw [hd, ok_bind] at hy; exact h x y hy
  | ub => simp [hd] at hy
  | exn => simp [hd] at hy
  | diverge => simp [hd] at hy

theorem extractPartitionsD_sim (g : Graph) (part : Partitioning) (labels : Option (List Nat)) :
    Sim (extractPartitionsD g part labels) (extractPartitions g part labels) := by
  unfold extractPartitionsD extractPartitions
  refine (Sim.refl _).bind fun counts _ => (Sim.refl _).bind fun m _ => ?_
  refine Sim.bind ?_ fun bs _ => Sim.bind ?_ fun bs _ => (Sim.refl _).bind fun bs _ => Sim.bind ?_ fun bs _ => ?_
  · unfold maybeFillWeightsD maybeFillWeights
    refine Sim.ite (Sim.foldlM fun bs v _ => ?_) (Sim.refl _)
    exact (Sim.refl _).bind fun _ _ => (Sim.refl _).bind fun _ _ => (Sim.refl _).bind fun _ _ =>
      onNth_sim fun b => Sim.skip fun _ => Sim.refl _
  · refine Sim.foldlM fun bs v _ => ?_
    refine (Sim.refl _).bind fun _ _ => (Sim.refl _).bind fun _ _ => (Sim.refl _).bind fun _ _ =>
      Sim.foldlM fun bs q _ => ?_
    refine (Sim.refl _).bind fun _ _ => Sim.ite (onNth_sim fun b => ?_) (Sim.refl _)
    exact Sim.after fun _ => Sim.skip fun _ => Sim.skip fun _ => Sim.refl _
  · refine Sim.foldlM fun bs v _ => ?_
    refine (Sim.refl _).bind fun _ _ => (Sim.refl _).bind fun _ _ => (Sim.refl _).bind fun _ _ =>
      Sim.foldlM fun bs q _ => ?_
    refine (Sim.refl _).bind fun _ _ => Sim.ite ((Sim.refl _).bind fun _ _ => onNth_sim fun b => ?_) (Sim.refl _)
    exact Sim.skip fun _ => Sim.skip fun _ => Sim.refl _
  · refine Sim.mapM fun pid _ => ?_
    refine (Sim.refl _).bind fun _ _ => (Sim.refl _).bind fun _ _ => Sim.bind ?_ fun _ _ => Sim.refl _
    exact Sim.after fun _ => Sim.skip fun _ => Sim.skip fun _ => Sim.refl _

/-! ### the call -/

theorem makeHalvesD_sim {fp : FP} (t : Target fp) : Sim (makeHalvesD t) (makeHalves t) := by
  unfold makeHalvesD makeHalves
  refine Sim.bind (Sim.foldlM fun s q _ => ?_) fun _ _ => Sim.refl _
  exact Sim.skip fun _ => Sim.skip fun _ => Sim.skip fun _ => Sim.refl _

theorem rbRecurseD_sim {d b : Bisector E} (h : ∀ t g r, Sim (d t g r) (b t g r)) (fuel : Nat) (t : Target E.fp)
    (mg : Mapped) (offset : Nat) (s : Mem × E.rng.S) :
    Sim (rbRecurseD d fuel t mg offset s) (rbRecurse b fuel t mg offset s) := by
  induction fuel generalizing t mg offset s with
  | zero => exact Sim.refl _
  | succ fuel ih =>
    unfold rbRecurseD rbRecurse
    refine (makeHalvesD_sim t).bind fun hv _ => (Sim.refl _).bind fun bt _ => (h _ _ _).bind fun o _ => ?_
    refine Sim.skip fun _ => Sim.skip fun _ => (Sim.refl _).bind fun labels _ => Sim.ite ?_ (Sim.refl _)
    refine (extractPartitionsD_sim _ _ _).bind fun parts _ => Sim.skip fun _ => Sim.foldlM fun s q _ => ?_
    unfold rbSide
    refine (Sim.refl _).bind fun _ _ => (Sim.refl _).bind fun _ _ => Sim.ite ?_ (Sim.refl _)
    exact (Sim.refl _).bind fun _ _ => (Sim.refl _).bind fun _ _ => ih _ _ _ _

theorem partitionerD_sim (E : Env) (s : Scheme) (t : Target E.fp) (g : Graph) (r : E.rng.S) :
    Sim (partitionerD E s t g r) (partitioner E s t g r) := by
  unfold partitionerD partitioner rbExecuteD rbExecute
  refine (rbRecurseD_sim (executeD_sim (makeMultilevelD_sim E s)) _ _ _ _ _).bind fun _ _ =>
    (Sim.refl _).bind fun _ _ => ?_
  exact (ofLabelsD_sim _ _ _).bind fun _ _ => Sim.refl _

theorem cutsLoop_sim {S : Type} {d b : S → Res (Partitioning × S)} (h : ∀ s, Sim (d s) (b s)) (n i best : Nat)
    (out : Out) (s : S) (hd : (cutsLoop d n i best out s).2 = ok ()) : cutsLoop d n i best out s = cutsLoop b n i best out s := by
  induction n generalizing i best out s with
  | zero => rfl
  | succ n ih =>
    unfold cutsLoop at hd ⊢
    cases hr : d s with
    | ok x =>
      rw [h s x hr]
      rw [hr] at hd
      simp only [andThen] at hd ⊢
      split at hd
      · rename_i hc
        rw [if_pos hc, if_pos hc]
        unfold writeOut at hd ⊢
        cases hw : x.1.output out.asg with
        | ok w => rw [hw] at hd; simp only [andThen] at hd ⊢; exact ih _ _ _ _ hd
        | ub => rfl
        | exn => rfl
        | diverge => rfl
      · rename_i hc
        rw [if_neg hc, if_neg hc]
        exact ih _ _ _ _ hd
    | ub => rw [hr] at hd; cases hd
    | exn => rw [hr] at hd; cases hd
    | diverge => rw [hr] at hd; cases hd

theorem callD_sim (E : Env) (i : Input) (o : Option (Options E.fp)) (out : Out) {code : Nat}
    (h : (partGraphRecursiveD E i o out).2 = ok code) : partGraphRecursiveD E i o out = partGraphRecursive E i o out := by
  cases o with
  | none => rfl
  | some o =>
    unfold partGraphRecursiveD partGraphRecursive at *
    simp only at h ⊢
    cases hp : prepare E i o with
    | ok p =>
      rw [hp] at h
      simp only [andThen] at h ⊢
      have hl : (cutsLoop (partitionerD E p.scheme p.target p.graph) o.numGlobalCuts.toNat 0 0 out
          (E.rng.seed o.randomSeed)).2 = ok () := by
        revert h
        cases (cutsLoop (partitionerD E p.scheme p.target p.graph) o.numGlobalCuts.toNat 0 0 out
          (E.rng.seed o.randomSeed)).2 with
        | ok u => intro _; rfl
        | ub => intro h; cases h
        | exn => intro h; cases h
        | diverge => intro h; cases h
      rw [cutsLoop_sim (partitionerD_sim E p.scheme p.target p.graph) _ _ _ _ _ hl]
    | ub => rfl
    | exn => rfl
    | diverge => rfl

end Poros
