import Verif.Model.Api
import Verif.Model.Util
/-
The timers of src/partition/MultilevelBisector.cpp, of the components the factories make for src/Poros.cpp, and of
src/Poros.cpp itself; and the times it prints. The rest of the model leaves them out (that this makes no difference to the
caller's memory and to the returned value is theorem C111). The components are the ones of the rest of the model; none of
them contains a timer.
-/
namespace Poros
open Res

/-- The clock behind `sl::Timer` (external): `ticks i` is what it shows when it is read for the `i`-th time and `secs` is
the conversion of a number of ticks to seconds. Each call has its own. -/
structure Clock (fp : FP) where
  ticks : Nat → Nat
  secs : Nat → fp.F

/-- How often the clock has been read, and the shared `TimeKeeper` (src/Poros.cpp:91). -/
structure Watch (fp : FP) where
  reads : Nat
  keeper : TimeKeeper fp

namespace Watch
variable {fp : FP}

/-- `sl::Timer::start()` on a new timer; the result is the number of the reading. -/
def start (w : Watch fp) : Nat × Watch fp := (w.reads, { w with reads := w.reads + 1 })

/-- What `poll()` returns for a timer started at reading `i` and stopped at reading `j`. -/
def poll (clk : Clock fp) (i j : Nat) : fp.F := clk.secs (clk.ticks j - clk.ticks i)

/-- `tmr.stop(); m_timeKeeper->reportTime(key, tmr.poll())` for a timer started at reading `i`, e.g.
src/partition/MultilevelBisector.cpp:125-126. -/
def stop (clk : Clock fp) (key i : Nat) (w : Watch fp) : Res (Watch fp) := do
  let k ← w.keeper.reportTime key (poll clk i w.reads)
  .ok { reads := w.reads + 1, keeper := k }

/-- A component inside its timed wrapper (`timed`, Model/Util.lean) with a time keeper set: the timer of the wrapper is
started before and stopped after the wrapped operation. The factories wrap the aggregator
(src/aggregation/AggregatorFactory.cpp:63-72), the initial bisector (src/partition/BisectorFactory.cpp:61-72) and the
refiner (src/partition/TwoWayRefinerFactory.cpp:57-67) this way. -/
def during {α : Type} (clk : Clock fp) (cat : Int) (op : Res α) (w : Watch fp) : Res (α × Watch fp) := do
  let o ← timed cat op (some w.keeper) (poll clk w.reads (w.reads + 1))
  .ok (o.1, { reads := w.reads + 2, keeper := o.2.getD w.keeper })

end Watch

variable {E : Env}

/-- `MultilevelBisector::recurse`, src/partition/MultilevelBisector.cpp:97-150, with its timers. -/
def Multilevel.recurseT (m : Multilevel E) (clk : Clock E.fp) (maxW : Nat) (stop : Criterion) (t : Target E.fp) :
    Nat → Nat → Option Graph → Graph → E.rng.S × Watch E.fp →
      Res ((Partitioning × Conn E.set) × (E.rng.S × Watch E.fp))
  | 0, _, _, _, _ => .diverge
  | fuel + 1, level, parent, g, s => do
    let b ← stop level parent (some g)
    if b then do
      let o ← s.2.during clk 4 (m.init t g s.1)
      let c ← Conn.fromPartitioning E.set g o.1.1
      .ok ((o.1.1, c), (o.1.2, o.2))
    else do
      let (coarsen, w) := s.2.start
      let a ← w.during clk 2 (m.agg maxW g s.1)
      let (ctr, w) := a.2.start
      let cg ← CoarseGraph.make g a.1.1
      let w ← w.stop clk 3 ctr
      let w ← w.stop clk 1 coarsen
      let i ← m.recurseT clk maxW stop t fuel (level + 1) (some g) cg.coarse (a.1.2, w)
      let (uncoarsen, w) := i.2.2.start
      let (prj, w) := w.start
      let fine ← cg.project i.1.1 i.1.2
      let w ← w.stop clk 7 prj
      let o ← w.during clk 6 (m.refine t g fine.1 fine.2)
      let w ← o.2.stop clk 5 uncoarsen
      .ok (o.1, (i.2.1, w))

/-- An environment whose random engine carries something along with its state. -/
abbrev withState (E : Env) (T : Type) (w : T) : Env :=
  { E with
    rng :=
      { S := E.rng.S × T
        seed := fun n => (E.rng.seed n, w)
        perm := fun s n => ((E.rng.perm s.1 n).1, ((E.rng.perm s.1 n).2, s.2))
        rand := fun s a b => ((E.rng.rand s.1 a b).1, ((E.rng.rand s.1 a b).2, s.2))
        sortRandom := fun s l => ((E.rng.sortRandom s.1 l).1, ((E.rng.sortRandom s.1 l).2, s.2))
        sort := E.rng.sort
        perm_perm := fun s n => E.rng.perm_perm s.1 n
        rand_range := fun s a b h => E.rng.rand_range s.1 a b h
        sortRandom_perm := fun s l => E.rng.sortRandom_perm s.1 l
        sortRandom_sorted := fun s l => E.rng.sortRandom_sorted s.1 l
        sort_perm := E.rng.sort_perm
        sort_sorted := E.rng.sort_sorted } }

/-- What every call starts with: a new time keeper (src/Poros.cpp:91), no reading yet. -/
def Watch.new (fp : FP) : Watch fp := { reads := 0, keeper := TimeKeeper.new fp }

/-- The environment of a timed call. -/
abbrev timedEnv (E : Env) : Env := withState E (Watch E.fp) (Watch.new E.fp)

/-- `MultilevelBisector::execute`, src/partition/MultilevelBisector.cpp:67-90, with the timers of `recurse`. -/
def Multilevel.executeT (m : Multilevel E) (clk : Clock E.fp) : Bisector (timedEnv E) := fun t g s => do
  let ratio ← edgeRatioMake E.fp (E.fp.lit 95 2)
  let maxW ← E.fp.cast (E.fp.div (E.fp.mul (E.fp.lit 15 1) (E.fp.ofNat g.totVtx)) (E.fp.ofNat 20))
  let o ← m.recurseT clk maxW (compositeStop [vertexNumberStop 20, ratio]) t (g.ne + 2) 0 none g s
  .ok (o.1.1, o.2)

/-- `RecursiveBisectionPartitioner::execute`, which has no timers, with the timed bisector of src/Poros.cpp:104-117. -/
def partitionerT (E : Env) (clk : Clock E.fp) (s : Scheme) : Bisector (timedEnv E) :=
  rbExecute (E := timedEnv E) ((makeMultilevel E s).executeT clk)

/-- The loop of src/Poros.cpp:123-132 as `cutsLoop`, but returning the final state of what the runs share. -/
def cutsLoopT {S : Type} (run : S → Res (Partitioning × S)) : Nat → Nat → Nat → Out → S → Out × Res S
  | 0, _, _, out, s => (out, .ok s)
  | n + 1, i, bestCut, out, s =>
    andThen (run s) out fun r =>
      if i = 0 ∨ r.1.cut < bestCut then writeOut r.1 out fun out' => cutsLoopT run n (i + 1) r.1.cut out' r.2
      else cutsLoopT run n (i + 1) bestCut out r.2

/-- src/Poros.cpp:134-142: stop and report the total time (`TOTAL` is 0, src/util/TimeKeeper.hpp:44), then the lines that
are printed, each a name and a number of seconds (the formatting of the stream is external). -/
def finishTimes {fp : FP} (clk : Clock fp) (outputTimes : Int) (total : Nat) (w : Watch fp) :
    Res (List (String × fp.F)) := do
  let w ← w.stop clk 0 total
  if outputTimes ≠ 0 then w.keeper.times else .ok []

/-- `POROS_PartGraphRecursive`, src/Poros.cpp:72-145, with timers: the caller's memory afterwards, and the returned value
and the lines printed. -/
def partGraphRecursiveT (E : Env) (clk : Clock E.fp) (i : Input) (options : Option (Options E.fp)) (out : Out) :
    Out × Res (Nat × List (String × E.fp.F)) :=
  match options with
  | none => (out, .ok (0, []))
  | some o =>
    let total := (Watch.new E.fp).start
    andThen (prepare E i o) out fun p =>
      let l := cutsLoopT (partitionerT E clk p.scheme p.target p.graph) o.numGlobalCuts.toNat 0 0 out
        (E.rng.seed o.randomSeed, total.2)
      andThen l.2 l.1 fun s => andThen (finishTimes clk o.outputTimes total.1 s.2) l.1 fun lines => (l.1, .ok (1, lines))

end Poros
