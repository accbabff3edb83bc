import Verif.Model.Params
import Verif.Props.P44_Util
import Verif.Props.P19_Partitioning
import Verif.Props.P48_Target
/-
C86, C87, C88: the parameter classes and the iteration over the partitions.
-/
namespace Poros
open Res

variable {fp : FP}

/-! ### C86 -/

/-- The setters of the partition parameters. -/
inductive ParamOp (fp : FP) where
  | tolerance (t : fp.F)
  | fractions (f : List fp.F)

/-- Running a setter. -/
def ParamOp.run (p : PartParams fp) : ParamOp fp → Res (PartParams fp)
  | .tolerance t => ok (p.setTolerance t)
  | .fractions f => p.setFractions f

/-- The tolerance a history of setters leaves: the last one set, or the default `d`. -/
def lastTolerance (d : fp.F) : List (ParamOp fp) → fp.F
  | [] => d
  | .tolerance t :: l => lastTolerance t l
  | .fractions _ :: l => lastTolerance d l

/-- The fractions a history of setters leaves: the first `k` of the last ones set, or the default `d`. -/
def lastFractions (k : Nat) (d : List fp.F) : List (ParamOp fp) → List fp.F
  | [] => d
  | .tolerance _ :: l => lastFractions k d l
  | .fractions f :: l => lastFractions k (f.take k) l

theorem fill_spec {α : Type} [Inhabited α] {k : Nat} {x : Nat → Res α} {y : Nat → α} (hx : ∀ i, i < k → x i = ok (y i)) {l : List α}
    (hl : l.length = k) :
    (List.range k).foldlM (fun fr i => do
      let f ← x i
      wr fr i f) l = ok ((List.range k).map y) := by
  obtain ⟨r, h1, h2, h3⟩ := sat_iff.mp (Post_foldlM_range (B := False) (n := k) (s := l)
    (f := fun fr i => do
      let f ← x i
      wr fr i f)
    (fun i r => r.length = k ∧ ∀ j, j < i → nth r j = y j) ⟨hl, fun j hj => absurd hj (by omega)⟩ (by
      rintro i r hi ⟨h1, h2⟩
      rw [hx i hi, ok_bind, wr_of_lt (by omega)]
      refine ⟨by simpa using h1, fun j hj => ?_⟩
      rw [nth_set (by omega)]
      by_cases e : j = i
      · rw [if_pos e, e]
      · rw [if_neg e]; exact h2 j (by omega)))
  rw [h1]
  refine congrArg ok (list_ext_nth (by simpa using h2) fun i hi => ?_)
  rw [h3 i (by omega), nth_map (by simpa using (by omega : i < k)), nth_range (by omega)]

theorem PartParams.new_eq (fp : FP) (k : Nat) :
    PartParams.new fp k = ok ⟨k, fp.lit 3 2, List.replicate k (fp.div (fp.lit 1 0) (fp.ofNat k))⟩ := by
  unfold PartParams.new
  have := @fill_spec _ ⟨fp.lit 0 0⟩ k (fun _ => ok (fp.div (fp.lit 1 0) (fp.ofNat k))) _ (fun _ _ => rfl)
    (List.replicate k (fp.lit 0 0)) (by simp)
  simp only [ok_bind] at this
  rw [this, ok_bind]
  simp

theorem PartParams.setFractions_eq {p : PartParams fp} (hp : p.frac.length = p.k) {f : List fp.F} (hf : p.k ≤ f.length) :
    p.setFractions f = ok { p with frac := f.take p.k } := by
  have : Inhabited fp.F := ⟨fp.lit 0 0⟩
  unfold PartParams.setFractions
  rw [fill_spec (y := nth f) (fun i hi => rd_of_lt (by omega)) hp, ok_bind]
  refine congrArg (fun x => ok ({ p with frac := x } : PartParams fp)) (list_ext_nth (by simp [hf]) fun i hi => ?_)
  have hi : i < p.k := by simpa using hi
  rw [nth_map (by simpa using hi), nth_range hi, nth_take hi]

/-- **C86.** After any history of setters, given at least `k` fractions each time, the number of parts is the one of the
constructor, the tolerance the last one set (0.03 if none was), the fractions the first `k` of the last ones set (`1/k` each
if none were). -/
theorem C86_parameters (k : Nat) (ops : List (ParamOp fp)) (hops : ∀ f, ParamOp.fractions f ∈ ops → k ≤ f.length) :
    ∃ p, (do let p ← PartParams.new fp k; ops.foldlM ParamOp.run p) = ok p ∧ p.k = k ∧
      p.tol = lastTolerance (fp.lit 3 2) ops ∧
      p.frac = lastFractions k (List.replicate k (fp.div (fp.lit 1 0) (fp.ofNat k))) ops := by
  rw [PartParams.new_eq, ok_bind]
  have key : ∀ (ops : List (ParamOp fp)) (q : PartParams fp), q.k = k → q.frac.length = k →
      (∀ f, ParamOp.fractions f ∈ ops → k ≤ f.length) →
      ∃ p, ops.foldlM ParamOp.run q = ok p ∧ p.k = k ∧ p.tol = lastTolerance q.tol ops ∧
        p.frac = lastFractions k q.frac ops := by
    intro ops
    induction ops with
    | nil => exact fun q hk _ _ => ⟨q, rfl, hk, rfl, rfl⟩
    | cons o l ih =>
      intro q hk hl ho
      rw [List.foldlM_cons]
      cases o with
      | tolerance t =>
        show ∃ p, (ok (q.setTolerance t) >>= _) = ok p ∧ _
        rw [ok_bind]
        exact ih (q.setTolerance t) hk hl fun f hf => ho f (List.mem_cons_of_mem _ hf)
      | fractions f =>
        show ∃ p, (q.setFractions f >>= _) = ok p ∧ _
        have hf := ho f List.mem_cons_self
        rw [PartParams.setFractions_eq (by rw [hk, hl]) (by rw [hk]; exact hf), ok_bind]
        have := ih { q with frac := f.take q.k } hk (by simp [hk, hf]) fun f hf => ho f (List.mem_cons_of_mem _ hf)
        rw [hk] at this ⊢
        exact this
  exact key ops _ rfl (by simp) hops

/-- **C86, the target.** The target made from the parameters is the one of the values last set. -/
theorem C86_target (k tot : Nat) (ops : List (ParamOp fp)) (hops : ∀ f, ParamOp.fractions f ∈ ops → k ≤ f.length) :
    (do let p ← PartParams.new fp k; let p ← ops.foldlM ParamOp.run p; p.target tot) =
      Target.ofFractions k tot (lastTolerance (fp.lit 3 2) ops)
        (lastFractions k (List.replicate k (fp.div (fp.lit 1 0) (fp.ofNat k))) ops) := by
  obtain ⟨p, h, hk, ht, hf⟩ := C86_parameters (fp := fp) k ops hops
  rw [PartParams.new_eq, ok_bind] at h ⊢
  rw [h, ok_bind, PartParams.target, hk, ht, hf]

/-- **C86, short arrays.** Setting fewer fractions than parts reads beyond the array. -/
theorem C86_short_array {p : PartParams fp} {f : List fp.F} (hp : p.frac.length = p.k) (hf : f.length < p.k) :
    p.setFractions f = ub := by
  unfold PartParams.setFractions
  obtain ⟨n, hn⟩ : ∃ n, p.k = f.length + (1 + n) := ⟨p.k - f.length - 1, by omega⟩
  have hr : List.range p.k = List.range f.length ++ f.length :: (List.range n).map (f.length + 1 + ·) := by
    rw [hn, List.range_add, List.range_add]
    simp [Function.comp_def, Nat.add_assoc]
  have : Inhabited fp.F := ⟨fp.lit 0 0⟩
  rw [hr, List.foldlM_append]
  obtain ⟨r, h1, -⟩ := sat_iff.mp (Post_foldlM_range (B := False) (n := f.length) (s := p.frac)
    (f := fun fr i => do
      let x ← rd f i
      wr fr i x)
    (fun _ r => r.length = p.k) hp (by
      intro i r hi h1
      rw [rd_of_lt hi, ok_bind, wr_of_lt (by omega)]
      simpa using h1))
  rw [h1, ok_bind, List.foldlM_cons, rd_of_le (le_refl _)]
  rfl

/-- **C86, the call.** The target the C interface uses is the one of parameters no setter was called on. -/
theorem C86_call_defaults (E : Env) (i : Input) (o : Options E.fp) :
    prepare E i o = (do
      let ne ← rd i.edgePrefix i.numVertices
      let g ← Graph.ofPtrs i.numVertices ne i.edgePrefix i.edgeList i.vertexWeights i.edgeWeights
      let s ← makeScheme o.aggregationScheme
      let params ← PartParams.new E.fp i.numPartitions
      let t ← params.target g.totVtx
      ok { graph := g, scheme := s, target := t }) := by
  unfold prepare
  rw [PartParams.new_eq]
  rfl

/-- A history that sets everything twice, on three parts. -/
example : (do
      let p ← PartParams.new Concrete.fp 3
      [ParamOp.tolerance (Concrete.fp.lit 1 1), .fractions [Concrete.fp.lit 2 1, Concrete.fp.lit 3 1, Concrete.fp.lit 5 1],
        .tolerance (Concrete.fp.lit 5 2),
        .fractions [Concrete.fp.lit 5 1, Concrete.fp.lit 25 2, Concrete.fp.lit 25 2, Concrete.fp.lit 9 1]].foldlM ParamOp.run p) =
    ok ⟨3, Concrete.fp.lit 5 2, [Concrete.fp.lit 5 1, Concrete.fp.lit 25 2, Concrete.fp.lit 25 2]⟩ := rfl

/-! ### C87 -/

/-- **C87.** Iterating over a partitioning yields each partition once, in order, with its weight. -/
theorem C87_iterate {p : Partitioning} (hk : p.pw.length < 2 ^ 32) {fuel : Nat} (hf : p.pw.length < fuel) :
    p.partitions fuel = ok ((List.range p.pw.length).map fun q => (q, nth p.pw q)) := by
  have hk' : p.pw.length < M32 := by simpa using hk
  unfold Partitioning.partitions
  rw [Nat.mod_eq_of_lt hk', IndexSet.iterate_eq (Nat.zero_le _) hk' (by simpa using hf), ok_bind]
  simp only [Nat.sub_zero, ← List.range_eq_range']
  exact mapM_ok_eq_map fun i hi => by
    rw [rd_of_lt (List.mem_range.mp hi), ok_bind]

/-- **C87, after any history.** After every legal history of operations the weights yielded are the true weights. -/
theorem C87_history {g : Graph} (hg : g.WF) (hm : g.Small) {k : Nat} (hk : k ≤ NULL32) (ops : List POp)
    (hops : LegalHistory g.nv k (fun _ => none) ops) {fuel : Nat} (hf : k < fuel) :
    ∃ p, ops.foldlM (POp.run g) (Partitioning.fresh k g) = ok p ∧
      p.partitions fuel = ok ((List.range k).map fun q => (q, mapWeight g (ops.foldl POp.spec (fun _ => none)) q)) := by
  obtain ⟨p, hp, ht⟩ := sat_iff.mp (Tracks.history hg hk ops Tracks.fresh hops)
  obtain ⟨p', hp', hw⟩ := C19_history_exact hg hm hk ops hops
  rw [hp] at hp'
  cases hp'
  refine ⟨p, hp, ?_⟩
  have hl : p.pw.length = k := ht.pw_len
  rw [C87_iterate (by rw [hl]; omega) (by omega), hl]
  exact congrArg ok (List.map_congr_left fun q hq => by rw [hw q (List.mem_range.mp hq)])

example : (do
      let p ← [POp.assign 0 2, .assign 3 1, .move 0 1].foldlM (POp.run Ex.tri2) (Partitioning.fresh 3 Ex.tri2)
      p.partitions 5) = ok [(0, 0), (1, Ex.tri2.vw 0 + Ex.tri2.vw 3), (2, 0)] ∧ 0 < Ex.tri2.vw 0 + Ex.tri2.vw 3 := by
  decide +kernel

/-! ### C88 -/

/-- **C88.** New aggregation parameters allow every weight; after any sequence of maximum weights set, exactly the weights
up to the last one and the weight `2^32 - 1` are allowed. -/
theorem C88_max_weight (ws : List Nat) (w : Nat) :
    (∀ x, AggParams.new.allowed x = true ↔ x < 2 ^ 32) ∧
    ((ws ++ [w]).foldl (fun p w => AggParams.setMax w p) AggParams.new).maxW = w ∧
    ∀ x, (((ws ++ [w]).foldl (fun p w => AggParams.setMax w p) AggParams.new).allowed x = true ↔ x ≤ w ∨ x = 2 ^ 32 - 1) := by
  have h : (ws ++ [w]).foldl (fun p w => AggParams.setMax w p) AggParams.new = ⟨w⟩ := by
    rw [List.foldl_append]; rfl
  rw [h]
  refine ⟨fun x => ?_, rfl, fun x => ?_⟩
  · show (decide (x = NULL32) || decide (x ≤ NULL32)) = true ↔ _
    rw [Bool.or_eq_true, decide_eq_true_eq, decide_eq_true_eq]
    omega
  · simp [AggParams.allowed, isAllowed]; omega

/-- Whatever maximum below it is set, the weight `2^32 - 1` passes. -/
example : (AggParams.setMax 10 AggParams.new).allowed 11 = false ∧ (AggParams.setMax 10 AggParams.new).allowed 10 = true ∧
    (AggParams.setMax 10 AggParams.new).allowed (2 ^ 32 - 1) = true := by decide

end Poros
