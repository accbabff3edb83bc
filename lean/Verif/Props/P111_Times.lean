import Verif.Proofs.PartCount
import Verif.Proofs.F64Imbalance
import Verif.Props.P105_Scale
/-
C111-C113: the timers of a call and the times it prints.
-/
namespace Poros
open Res PartCount

variable {E : Env}

/-! ### The whole call -/

/-- What the call prints, given the seconds of each category. -/
theorem times_eq {fp : FP} {K : TimeKeeper fp} {f : Nat → fp.F} (h : K.secs = (List.range 8).map f) :
    K.times = ok [("Total", f 0), ("Coarsening", f 1), ("Aggregation", f 2), ("Contraction", f 3),
      ("Initial Partitioning", f 4), ("Uncoarsening", f 5), ("Refinement", f 6), ("Projection", f 7)] := by
  show _ = ok ((List.range 8).map fun c => (nth timeNames c, f c))
  unfold TimeKeeper.times
  rw [h, List.length_map, List.length_range]
  refine mapM_ok_eq_map fun i hi => ?_
  rw [List.mem_range] at hi
  rw [rd_of_lt (show i < timeNames.length from hi), ok_bind, rd_of_lt (by simpa using hi), ok_bind,
    nth_map (by simpa using hi), nth_range hi]

/-- The lines printed for some spans. -/
abbrev linesOf (fp : FP) (secs : Nat → fp.F) (l : List Span) : List (String × fp.F) :=
  [("Total", secondsOf fp secs l 0), ("Coarsening", secondsOf fp secs l 1), ("Aggregation", secondsOf fp secs l 2),
    ("Contraction", secondsOf fp secs l 3), ("Initial Partitioning", secondsOf fp secs l 4),
    ("Uncoarsening", secondsOf fp secs l 5), ("Refinement", secondsOf fp secs l 6), ("Projection", secondsOf fp secs l 7)]

theorem prepare_sized {i : Input} {o : Options E.fp} {p : Prepared E} (h : prepare E i o = ok p) :
    p.target.Sized ∧ p.target.k = i.numPartitions := by
  unfold prepare at h
  obtain ⟨_, _, h⟩ := bind_eq_ok h
  obtain ⟨_, _, h⟩ := bind_eq_ok h
  obtain ⟨_, _, h⟩ := bind_eq_ok h
  obtain ⟨t, ht, h⟩ := bind_eq_ok h
  cases h
  obtain ⟨_, h1, _, h2, h3, _⟩ := ofFractions_shape ht
  exact ⟨⟨by simp only; omega, by simp only; omega⟩, h1⟩

theorem finishTimes_eq {fp : FP} {clk : Clock fp} {l : List Span} {w : Watch fp} {total : Nat} (h : Clocked clk l (⟨1, TimeKeeper.new fp⟩) w) (ot : Int) :
    finishTimes clk ot total w = ok (if ot ≠ 0 then
      linesOf fp clk.secs (l ++ [⟨0, clk.ticks total, clk.ticks w.reads⟩]) else []) := by
  obtain ⟨w', e, _, hc⟩ := Watch.stop_eq (clk := clk) h.length (key := 0) (by omega) total
  unfold finishTimes
  rw [e, ok_bind]
  have hs := (h.trans hc).secs
  have : w'.keeper.secs = (List.range 8).map fun j =>
      secondsOf fp clk.secs (l ++ [⟨0, clk.ticks total, clk.ticks w.reads⟩]) j := by
    rw [hs]
    refine List.map_congr_left fun j hj => ?_
    rw [secondsOf_eq]
    congr 1
    exact nth_replicate (List.mem_range.mp hj)
  by_cases ho : ot ≠ 0
  · rw [if_pos ho, if_pos ho, times_eq this]
  · rw [if_neg ho, if_neg ho]

/-- The call with timers and the call without proceed alike. -/
theorem call_alike (clk : Clock E.fp) (i : Input) (options : Option (Options E.fp)) (out : Out) :
    (partGraphRecursiveT E clk i options out).1 = (partGraphRecursive E i options out).1 ∧
    Alike (fun r code => r.1 = code ∧ match options with
        | none => r.2 = []
        | some o => ∃ (m j : Nat) (l : List Span),
          (clk.Steady → BisSeq m (clk.ticks 0) l (clk.ticks j)) ∧
          (2 ≤ i.numPartitions → i.numPartitions < M32 → m = (i.numPartitions - 1) * o.numGlobalCuts.toNat) ∧
          r.2 = if o.outputTimes ≠ 0 then linesOf E.fp clk.secs (l ++ [⟨0, clk.ticks 0, clk.ticks j⟩]) else [])
      (partGraphRecursiveT E clk i options out).2 (partGraphRecursive E i options out).2 := by
  cases options with
  | none => exact ⟨rfl, rfl, rfl⟩
  | some o =>
    unfold partGraphRecursiveT partGraphRecursive
    simp only
    cases hp : prepare E i o with
    | ok p =>
      obtain ⟨hz, hk⟩ := prepare_sized hp
      have h := cutsLoop_alike (C := 2 ≤ p.target.k ∧ p.target.k < M32) (k := p.target.k - 1)
        (run' := partitionerT E clk p.scheme p.target p.graph) (run := partitioner E p.scheme p.target p.graph)
        (fun r w hl => (partitioner_alike clk p.scheme p.target p.graph r w hl).mono fun o' o ho =>
          ⟨ho.1, ho.2.1, by
            obtain ⟨n, h1, h2⟩ := ho.2.2
            exact ⟨n, h1, fun hc => h2 hz hc.1 hc.2⟩⟩)
        o.numGlobalCuts.toNat 0 0 out (E.rng.seed o.randomSeed) (Watch.new E.fp).start.2 (by
          simp [Watch.new, Watch.start, TimeKeeper.new])
      simp only [andThen]
      generalize cutsLoopT (partitionerT E clk p.scheme p.target p.graph) o.numGlobalCuts.toNat 0 0 out
        (E.rng.seed o.randomSeed, (Watch.new E.fp).start.2) = x' at h
      generalize cutsLoop (partitioner E p.scheme p.target p.graph) o.numGlobalCuts.toNat 0 0 out
        (E.rng.seed o.randomSeed) = x at h
      obtain ⟨h1, h2⟩ := h
      obtain ⟨o1, r1⟩ := x'
      obtain ⟨o2, r2⟩ := x
      simp only at h1 h2
      subst h1
      cases r1 with
      | ok s =>
        cases r2 with
        | ok u =>
          obtain ⟨m, ⟨l, hl, hl'⟩, hm⟩ := h2
          simp only
          rw [finishTimes_eq (total := (Watch.new E.fp).start.1) hl o.outputTimes]
          refine ⟨rfl, rfl, m, s.2.reads, l, fun hs => ?_, fun a b => hk ▸ hm ⟨by omega, by omega⟩, rfl⟩
          have := hl' hs
          have h01 : clk.ticks 0 ≤ clk.ticks 1 := hs 0
          have := (BisSeq.nil h01).append this
          simpa using this
        | ub => exact h2.elim
        | exn => exact h2.elim
        | diverge => exact h2.elim
      | ub => cases r2 <;> first | exact h2.elim | exact ⟨rfl, trivial⟩
      | exn => cases r2 <;> first | exact h2.elim | exact ⟨rfl, trivial⟩
      | diverge => cases r2 <;> first | exact h2.elim | exact ⟨rfl, trivial⟩
    | ub => exact ⟨rfl, trivial⟩
    | exn => exact ⟨rfl, trivial⟩
    | diverge => exact ⟨rfl, trivial⟩

/-! ### C111 -/

/-- **C111.** Measuring times never changes what a call does: for every input, all options, any contents of the caller's
memory and any clock (even one that runs backwards), the call with its timers leaves the caller's memory exactly as the
call without timers, returns the same value, and otherwise ends in the same way. -/
theorem C111_invisible (clk : Clock E.fp) (i : Input) (options : Option (Options E.fp)) (out : Out) :
    (partGraphRecursiveT E clk i options out).1 = (partGraphRecursive E i options out).1 ∧
    (∀ code, (∃ lines, (partGraphRecursiveT E clk i options out).2 = ok (code, lines)) ↔
      (partGraphRecursive E i options out).2 = ok code) ∧
    ((partGraphRecursiveT E clk i options out).2 = ub ↔ (partGraphRecursive E i options out).2 = ub) ∧
    ((partGraphRecursiveT E clk i options out).2 = exn ↔ (partGraphRecursive E i options out).2 = exn) ∧
    ((partGraphRecursiveT E clk i options out).2 = diverge ↔ (partGraphRecursive E i options out).2 = diverge) := by
  obtain ⟨h1, h2⟩ := call_alike clk i options out
  refine ⟨h1, ?_⟩
  generalize (partGraphRecursiveT E clk i options out).2 = a at h2
  generalize (partGraphRecursive E i options out).2 = b at h2
  cases a with
  | ok x =>
    cases b with
    | ok y =>
      obtain ⟨h2, _⟩ := h2
      obtain ⟨c, l⟩ := x
      simp only at h2
      subst h2
      simp
    | ub => exact h2.elim
    | exn => exact h2.elim
    | diverge => exact h2.elim
  | ub => cases b <;> first | exact h2.elim | simp
  | exn => cases b <;> first | exact h2.elim | simp
  | diverge => cases b <;> first | exact h2.elim | simp

/-- **C111.** A call that returns prints nothing unless the options ask for times; then it prints the eight names in this
order. -/
theorem C111_lines (clk : Clock E.fp) (i : Input) (options : Option (Options E.fp)) (out : Out) {code : Nat}
    {lines : List (String × E.fp.F)} (h : (partGraphRecursiveT E clk i options out).2 = ok (code, lines)) :
    match options with
    | none => lines = []
    | some o => if o.outputTimes = 0 then lines = [] else
        lines.map Prod.fst = ["Total", "Coarsening", "Aggregation", "Contraction", "Initial Partitioning", "Uncoarsening",
          "Refinement", "Projection"] := by
  obtain ⟨_, h2⟩ := call_alike clk i options out
  rw [h] at h2
  obtain ⟨c, _, _, h3⟩ := h2.ok_left
  cases options with
  | none => exact h3
  | some o =>
    obtain ⟨_, _, _, _, _, h4⟩ := h3
    simp only at h4 ⊢
    by_cases ho : o.outputTimes = 0
    · rw [if_pos ho, h4, if_neg (by simpa using ho)]
    · rw [if_neg ho, h4, if_pos ho]
      rfl

/-! ### C112 -/

theorem ticksOf_append (l l' : List Span) (c : Nat) : ticksOf (l ++ l') c = ticksOf l c + ticksOf l' c := by
  unfold ticksOf
  rw [List.filter_append, List.map_append, List.sum_append]

/-- The lengths of the spans for a category, in order. -/
def spansOf (l : List Span) (c : Nat) : List Nat := (l.filter fun s => s.key = c).map Span.length

theorem spansOf_append (l l' : List Span) (c : Nat) : spansOf (l ++ l') c = spansOf l c ++ spansOf l' c := by
  unfold spansOf
  rw [List.filter_append, List.map_append]

theorem BisTimes.le {a b : Nat} {l : List Span} (h : BisTimes a l b) : a ≤ b := by
  induction h with
  | bottom h1 h2 h3 => omega
  | level h1 h2 h3 h4 h5 h6 hin h7 h8 h9 h10 h11 h12 ih => omega

theorem BisTimes.ticks {a b : Nat} {l : List Span} (h : BisTimes a l b) :
    ticksOf l 2 + ticksOf l 3 ≤ ticksOf l 1 ∧ ticksOf l 6 + ticksOf l 7 ≤ ticksOf l 5 ∧
      ticksOf l 1 + ticksOf l 4 + ticksOf l 5 ≤ b - a ∧ ticksOf l 0 = 0 := by
  induction h with
  | bottom h1 h2 h3 => simp [ticksOf, Span.length]; omega
  | level h1 h2 h3 h4 h5 h6 hin h7 h8 h9 h10 h11 h12 ih =>
    have := hin.le
    simp only [ticksOf_append]
    simp [ticksOf, Span.length] at ih ⊢
    omega

theorem BisSeq.le {n a b : Nat} {l : List Span} (h : BisSeq n a l b) : a ≤ b := by
  induction h with
  | nil h => exact h
  | cons h _ ih => exact Nat.le_trans h.le ih

theorem BisSeq.ticks {n a b : Nat} {l : List Span} (h : BisSeq n a l b) :
    ticksOf l 2 + ticksOf l 3 ≤ ticksOf l 1 ∧ ticksOf l 6 + ticksOf l 7 ≤ ticksOf l 5 ∧
      ticksOf l 1 + ticksOf l 4 + ticksOf l 5 ≤ b - a ∧ ticksOf l 0 = 0 := by
  induction h with
  | nil h => simp [ticksOf]
  | cons h h' ih =>
    have := h.ticks
    have := h.le
    have := h'.le
    simp only [ticksOf_append]
    omega

theorem BisTimes.noTotal {fp : FP} {secs : Nat → fp.F} {a b : Nat} {l : List Span} (h : BisTimes a l b) :
    spanSecs secs l 0 = [] := by
  induction h with
  | bottom h1 h2 h3 => rfl
  | level h1 h2 h3 h4 h5 h6 hin h7 h8 h9 h10 h11 h12 ih =>
    rw [spanSecs_append, spanSecs_append, ih]
    rfl

theorem BisSeq.noTotal {fp : FP} {secs : Nat → fp.F} {n a b : Nat} {l : List Span} (h : BisSeq n a l b) :
    spanSecs secs l 0 = [] := by
  induction h with
  | nil h => rfl
  | cons h _ ih => rw [spanSecs_append, ih, h.noTotal]; rfl

/-- **C112.** What the printed times measure. In a call that returns 1 after being asked for times, with a clock that
never runs backwards, the printed seconds are, category by category, the sums of the lengths of measured stretches: one
for the whole call, and inside it the stretches of `(k-1)·cuts` bisections one after the other, each of them nested as
`BisTimes` says (aggregation and contraction inside coarsening, projection and refinement inside uncoarsening, one initial
partitioning at the bottom). In ticks, therefore, aggregation and contraction together take no longer than coarsening,
projection and refinement together no longer than uncoarsening, and coarsening, initial partitioning and uncoarsening
together no longer than the total. -/
theorem C112_times {clk : Clock E.fp} (hs : clk.Steady) {i : Input} (hk : 2 ≤ i.numPartitions)
    (hk' : i.numPartitions < 2 ^ 32) {o : Options E.fp} (ho : o.outputTimes ≠ 0) {out : Out}
    {lines : List (String × E.fp.F)} (h : (partGraphRecursiveT E clk i (some o) out).2 = ok (1, lines)) :
    ∃ (a b : Nat) (l : List Span), BisSeq ((i.numPartitions - 1) * o.numGlobalCuts.toNat) a l b ∧
      lines = [("Total", secondsOf E.fp clk.secs [⟨0, a, b⟩] 0), ("Coarsening", secondsOf E.fp clk.secs l 1),
        ("Aggregation", secondsOf E.fp clk.secs l 2), ("Contraction", secondsOf E.fp clk.secs l 3),
        ("Initial Partitioning", secondsOf E.fp clk.secs l 4), ("Uncoarsening", secondsOf E.fp clk.secs l 5),
        ("Refinement", secondsOf E.fp clk.secs l 6), ("Projection", secondsOf E.fp clk.secs l 7)] ∧
      ticksOf l 2 + ticksOf l 3 ≤ ticksOf l 1 ∧ ticksOf l 6 + ticksOf l 7 ≤ ticksOf l 5 ∧
      ticksOf l 1 + ticksOf l 4 + ticksOf l 5 ≤ b - a := by
  obtain ⟨_, h2⟩ := call_alike clk i (some o) out
  rw [h] at h2
  obtain ⟨c, _, _, m, j, l, h3, h4, h5⟩ := h2.ok_left
  have hm := h4 hk (lt_of_lt_of_eq hk' (by norm_num))
  subst hm
  have hb := h3 hs
  obtain ⟨t1, t2, t3, t4⟩ := hb.ticks
  refine ⟨_, _, l, hb, ?_, t1, t2, t3⟩
  simp only at h5
  rw [h5, if_pos ho]
  have e0 : secondsOf E.fp clk.secs (l ++ [⟨0, clk.ticks 0, clk.ticks j⟩]) 0 =
      secondsOf E.fp clk.secs [⟨0, clk.ticks 0, clk.ticks j⟩] 0 := by
    rw [secondsOf_eq, secondsOf_eq, spanSecs_append, hb.noTotal, List.nil_append]
  have e : ∀ c, c ≠ 0 → secondsOf E.fp clk.secs (l ++ [⟨0, clk.ticks 0, clk.ticks j⟩]) c = secondsOf E.fp clk.secs l c := by
    intro c hc
    rw [secondsOf_eq, secondsOf_eq, spanSecs_append]
    have : spanSecs clk.secs [⟨0, clk.ticks 0, clk.ticks j⟩] c = [] := by
      unfold spanSecs; simp [Ne.symm hc]
    rw [this, List.append_nil]
  unfold linesOf
  rw [e0, e 1 (by decide), e 2 (by decide), e 3 (by decide), e 4 (by decide), e 5 (by decide), e 6 (by decide),
    e 7 (by decide)]

/-! ### C113 -/

section dbl
open Concrete

/-- Not negative, not a non-number. -/
def Concrete.F64.Nn : F64 → Prop
  | .fin q => 0 ≤ q
  | .inf s => s = false
  | .nan => False

theorem nn_of_le {x y : F64} (hx : x.Nn) (h : F64.le x y = true) : y.Nn := by
  cases x with
  | fin a =>
    cases y with
    | fin c => exact le_trans (show (0 : ℚ) ≤ a from hx) (le_fin.mp h)
    | inf s => cases s; rfl; simp [F64.le, F64.lt] at h
    | nan => simp [F64.le, F64.lt] at h
  | inf s =>
    have : s = false := hx
    subst this
    cases y with
    | fin c => simp [F64.le, F64.lt] at h
    | inf s => cases s; rfl; simp [F64.le, F64.lt] at h
    | nan => simp [F64.le, F64.lt] at h
  | nan => exact hx.elim

theorem rnd_nn {q : ℚ} (h : 0 ≤ q) : (rnd q).Nn := by
  rcases rnd_cases h with ⟨a, e, ha⟩ | e
  · rw [e]; exact ha
  · rw [e]; rfl

theorem le_top {x : F64} (hx : x.Nn) : F64.le x (.inf false) = true := by
  cases x with
  | fin a => simp [F64.le, F64.lt]
  | inf s => have : s = false := hx; subst this; rfl
  | nan => exact hx.elim

theorem rnd_le {q q' : ℚ} (h : 0 ≤ q) (hle : q ≤ q') : F64.le (rnd q) (rnd q') = true := by
  rcases lt_or_eq_of_le h with hp | rfl
  · rw [rnd_pos hp, rnd_pos (lt_of_lt_of_le hp hle)]
    have := rp_mono hp hle
    split
    · rename_i h1
      rw [if_pos (le_trans h1 this)]
      rfl
    · split
      · exact le_top (show (0 : ℚ) ≤ rp q from rp_nonneg)
      · exact le_fin.mpr this
  · have e : rnd 0 = .fin 0 := by simp [rnd]
    rw [e]
    rcases rnd_cases hle with ⟨a, e, ha⟩ | e
    · rw [e]; exact le_fin.mpr ha
    · rw [e]; rfl

theorem add_nn {x y : F64} (hx : x.Nn) (hy : y.Nn) : (F64.add x y).Nn := by
  cases x with
  | fin a =>
    cases y with
    | fin c => exact rnd_nn (add_nonneg (show (0 : ℚ) ≤ a from hx) hy)
    | inf s => exact hy
    | nan => exact hy.elim
  | inf s =>
    have : s = false := hx
    subst this
    cases y with
    | fin c => rfl
    | inf s => have : s = false := hy; subst this; rfl
    | nan => exact hy.elim
  | nan => exact hx.elim

/-- Addition of non-negative numbers is monotone, in spite of rounding. -/
theorem add_le {x y x' y' : F64} (hx : x.Nn) (hy : y.Nn) (h : F64.le x x' = true) (h' : F64.le y y' = true) :
    F64.le (F64.add x y) (F64.add x' y') = true := by
  have hx' := nn_of_le hx h
  have hy' := nn_of_le hy h'
  cases x' with
  | fin a' =>
    cases x with
    | fin a =>
      cases y' with
      | fin c' =>
        cases y with
        | fin c => exact rnd_le (add_nonneg hx hy) (add_le_add (le_fin.mp h) (le_fin.mp h'))
        | inf s => have : s = false := hy; subst this; simp [F64.le, F64.lt] at h'
        | nan => exact hy.elim
      | inf s =>
        have : s = false := hy'
        subst this
        exact le_top (add_nn hx hy)
      | nan => exact hy'.elim
    | inf s => have : s = false := hx; subst this; simp [F64.le, F64.lt] at h
    | nan => exact hx.elim
  | inf s =>
    have : s = false := hx'
    subst this
    have e : F64.add (.inf false) y' = .inf false := by
      cases y' with
      | fin c => rfl
      | inf s => have : s = false := hy'; subst this; rfl
      | nan => exact hy'.elim
    rw [e]
    exact le_top (add_nn hx hy)
  | nan => exact hx'.elim

theorem foldl_add_le {l l' : List F64} (h : List.Forall₂ (fun x y => x.Nn ∧ F64.le x y = true) l l') :
    ∀ {x y : F64}, x.Nn → F64.le x y = true → F64.le (l.foldl F64.add x) (l'.foldl F64.add y) = true := by
  induction h with
  | nil => intro x y _ h; exact h
  | cons h _ ih => intro x y hx hxy; exact ih (add_nn hx h.1) (add_le hx h.1 hxy h.2)

end dbl
open Concrete

theorem spansOf_le {a b : Nat} {l : List Span} (h : BisTimes a l b) :
    List.Forall₂ (· ≤ ·) (spansOf l 2) (spansOf l 1) ∧ List.Forall₂ (· ≤ ·) (spansOf l 3) (spansOf l 1) ∧
    List.Forall₂ (· ≤ ·) (spansOf l 6) (spansOf l 5) ∧ List.Forall₂ (· ≤ ·) (spansOf l 7) (spansOf l 5) := by
  induction h with
  | bottom h1 h2 h3 => exact ⟨.nil, .nil, .nil, .nil⟩
  | level h1 h2 h3 h4 h5 h6 hin h7 h8 h9 h10 h11 h12 ih =>
    have := hin.le
    obtain ⟨i1, i2, i3, i4⟩ := ih
    simp only [spansOf_append]
    refine ⟨?_, ?_, ?_, ?_⟩
    · exact List.rel_append (List.rel_append (.cons (by simp only [Span.length]; omega) .nil) i1) .nil
    · exact List.rel_append (List.rel_append (.cons (by simp only [Span.length]; omega) .nil) i2) .nil
    · exact List.rel_append (List.rel_append .nil i3) (.cons (by simp only [Span.length]; omega) .nil)
    · exact List.rel_append (List.rel_append .nil i4) (.cons (by simp only [Span.length]; omega) .nil)

theorem spansOf_seq_le {n a b : Nat} {l : List Span} (h : BisSeq n a l b) :
    List.Forall₂ (· ≤ ·) (spansOf l 2) (spansOf l 1) ∧ List.Forall₂ (· ≤ ·) (spansOf l 3) (spansOf l 1) ∧
    List.Forall₂ (· ≤ ·) (spansOf l 6) (spansOf l 5) ∧ List.Forall₂ (· ≤ ·) (spansOf l 7) (spansOf l 5) := by
  induction h with
  | nil h => exact ⟨.nil, .nil, .nil, .nil⟩
  | cons h _ ih =>
    obtain ⟨i1, i2, i3, i4⟩ := ih
    obtain ⟨j1, j2, j3, j4⟩ := spansOf_le h
    simp only [spansOf_append]
    exact ⟨List.rel_append j1 i1, List.rel_append j2 i2, List.rel_append j3 i3, List.rel_append j4 i4⟩

theorem secondsOf_spans {fp : FP} (secs : Nat → fp.F) (l : List Span) (c : Nat) :
    secondsOf fp secs l c = ((spansOf l c).map secs).foldl fp.add (fp.lit 0 0) := by
  rw [secondsOf_eq]
  have : spanSecs secs l c = (spansOf l c).map secs := by
    unfold spanSecs spansOf
    rw [List.map_map]
    rfl
  rw [this]

theorem secondsOf_le [Concrete.Log2Impl] {secs : Nat → F64} (h0 : F64.le (.fin 0) (secs 0) = true)
    (hm : ∀ m n, m ≤ n → F64.le (secs m) (secs n) = true) {l : List Span} {c d : Nat}
    (h : List.Forall₂ (· ≤ ·) (spansOf l c) (spansOf l d)) :
    F64.le (secondsOf Concrete.fp secs l c) (secondsOf Concrete.fp secs l d) = true := by
  have e : ∀ c, secondsOf Concrete.fp secs l c = ((spansOf l c).map secs).foldl F64.add (.fin 0) := fun c =>
    (secondsOf_spans (fp := Concrete.fp) secs l c).trans
      (congrArg (fun z => ((spansOf l c).map secs).foldl F64.add z) Concrete.lit_zero)
  rw [e, e]
  refine foldl_add_le ?_ (show (0 : ℚ) ≤ 0 from le_refl _) (Concrete.le_fin.mpr (le_refl _))
  rw [List.forall₂_map_left_iff, List.forall₂_map_right_iff]
  refine h.imp fun m n hmn => ⟨?_, hm _ _ hmn⟩
  exact nn_of_le (nn_of_le (show F64.Nn (.fin 0) from le_refl (0 : ℚ)) h0) (hm 0 m (Nat.zero_le _))

/-- **C113.** In IEEE binary64, in spite of rounding, a printed part is never more than the whole it is a part of, as long
as the clock does not run backwards and longer stretches are not converted to fewer seconds: the printed aggregation and
contraction times are each at most the printed coarsening time, the printed refinement and projection times at most the
printed uncoarsening time. -/
theorem C113_parts_at_most_whole [Concrete.Log2Impl] {pq : PQImpl} {set : SetImpl} {rng : RngImpl} {clk : Clock Concrete.fp}
    (hs : clk.Steady) (h0 : F64.le (.fin 0) (clk.secs 0) = true)
    (hm : ∀ m n, m ≤ n → F64.le (clk.secs m) (clk.secs n) = true) {i : Input} (hk : 2 ≤ i.numPartitions)
    (hk' : i.numPartitions < 2 ^ 32) {o : Options Concrete.fp} (ho : o.outputTimes ≠ 0) {out : Out}
    {lines : List (String × F64)} (h : (partGraphRecursiveT (dblEnv pq set rng) clk i (some o) out).2 = ok (1, lines)) :
    ∃ total coarsening aggregation contraction initial uncoarsening refinement projection : F64,
      lines = [("Total", total), ("Coarsening", coarsening), ("Aggregation", aggregation), ("Contraction", contraction),
        ("Initial Partitioning", initial), ("Uncoarsening", uncoarsening), ("Refinement", refinement),
        ("Projection", projection)] ∧
      F64.le aggregation coarsening = true ∧ F64.le contraction coarsening = true ∧
      F64.le refinement uncoarsening = true ∧ F64.le projection uncoarsening = true := by
  obtain ⟨a, b, l, h1, h2, _⟩ := C112_times (E := dblEnv pq set rng) hs hk hk' ho h
  obtain ⟨q1, q2, q3, q4⟩ := spansOf_seq_le h1
  exact ⟨_, _, _, _, _, _, _, _, h2, secondsOf_le h0 hm q1, secondsOf_le h0 hm q2, secondsOf_le h0 hm q3,
    secondsOf_le h0 hm q4⟩

/-! ### Instances -/

namespace Ex

/-- A clock that advances by one tick between readings; a tick is a second. -/
def tickClock : Clock Concrete.fp := ⟨fun n => n, fun n => (.fin n : F64)⟩

/-- The options of `Ex.cuts 1` with times. -/
def withTimes : Options Concrete.fp := { cuts 1 with outputTimes := 1 }

theorem tickClock_steady : tickClock.Steady := fun i => Nat.le_succ i

/-- The returned value and the printed numbers. -/
def printed : Res (Nat × List (String × F64)) → Option (Nat × List F64)
  | .ok r => some (r.1, r.2.map Prod.snd)
  | _ => none

/-- The comb is coarsened twice. The call prints times, and 27 readings of the clock were made after the first. -/
theorem comb_times :
    printed (partGraphRecursiveT Concrete.env tickClock (combIn 1) (some withTimes) before30).2 =
      some (1, [.fin 27, .fin 10, .fin 2, .fin 2, .fin 1, .fin 10, .fin 2, .fin 2]) := by decide +kernel

end Ex

/-- The hypotheses of C111-C113 hold for a call that coarsens its graph twice. -/
example : Ex.tickClock.Steady ∧ F64.le (.fin 0) (Ex.tickClock.secs 0) = true ∧
    (∀ m n, m ≤ n → F64.le (Ex.tickClock.secs m) (Ex.tickClock.secs n) = true) ∧ 2 ≤ (Ex.combIn 1).numPartitions ∧
    (Ex.combIn 1).numPartitions < 2 ^ 32 ∧ Ex.withTimes.outputTimes ≠ 0 ∧
    ∃ lines, (partGraphRecursiveT Concrete.env Ex.tickClock (Ex.combIn 1) (some Ex.withTimes) Ex.before30).2 =
      ok (1, lines) := by
  refine ⟨Ex.tickClock_steady, by decide +kernel, fun m n h => ?_, by decide +kernel, by decide +kernel, by decide +kernel, ?_⟩
  · exact Concrete.le_fin.mpr (by exact_mod_cast h)
  · have h := Ex.comb_times
    generalize (partGraphRecursiveT Concrete.env Ex.tickClock (Ex.combIn 1) (some Ex.withTimes) Ex.before30).2 = r at h
    cases r with
    | ok x =>
      obtain ⟨c, l⟩ := x
      have : c = 1 := congrArg Prod.fst (Option.some.inj h)
      subst this
      exact ⟨l, rfl⟩
    | ub => cases h
    | exn => cases h
    | diverge => cases h

end Poros
