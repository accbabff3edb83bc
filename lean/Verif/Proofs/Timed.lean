import Verif.SpecTime
import Verif.Model.Timed
import Verif.Proofs.Api
/-
Timers: the run with timers and the run without them proceed alike.
-/
namespace Poros
open Res

/-! ### Runs that proceed alike -/

/-- The two runs end in the same way; if they return values, these are related. -/
def Alike {α β : Type} (R : α → β → Prop) : Res α → Res β → Prop
  | .ok a, .ok b => R a b
  | .ub, .ub => True
  | .exn, .exn => True
  | .diverge, .diverge => True
  | _, _ => False

namespace Alike
variable {α β γ δ σ τ : Type}

theorem ok {R : α → β → Prop} {a : α} {b : β} (h : R a b) : Alike R (Res.ok a) (Res.ok b) := h

theorem refl (r : Res α) : Alike (fun a b => a = b) r r := by cases r <;> simp [Alike]

theorem mono {R R' : α → β → Prop} {r : Res α} {r' : Res β} (h : Alike R r r') (hR : ∀ a b, R a b → R' a b) :
    Alike R' r r' := by
  cases r <;> cases r' <;> first | exact hR _ _ h | exact h

theorem bind {R : α → β → Prop} {Q : γ → δ → Prop} {r : Res α} {r' : Res β} {f : α → Res γ} {f' : β → Res δ}
    (h : Alike R r r') (hf : ∀ a b, R a b → Alike Q (f a) (f' b)) : Alike Q (r >>= f) (r' >>= f') := by
  cases r <;> cases r' <;> first | exact hf _ _ h | exact h.elim | trivial

/-- The same first step. -/
theorem same {Q : γ → δ → Prop} {r : Res α} {f : α → Res γ} {f' : α → Res δ}
    (hf : ∀ a, r = Res.ok a → Alike Q (f a) (f' a)) : Alike Q (r >>= f) (r >>= f') := by
  cases r
  · exact hf _ rfl
  all_goals trivial

/-- Some knowledge about the second run. -/
theorem and {R : α → β → Prop} {r : Res α} {r' : Res β} (h : Alike R r r') :
    Alike (fun a b => R a b ∧ r' = Res.ok b) r r' := by
  cases r <;> cases r' <;> first | exact ⟨h, rfl⟩ | exact h

theorem foldlM {S S' : Nat → σ → τ → Prop} (f : σ → Nat → Res σ) (f' : τ → Nat → Res τ) {s : σ} {s' : τ} (n : Nat)
    (h0 : S 0 s s') (hs : S' = S) (hf : ∀ i s s', i < n → S i s s' → Alike (S (i + 1)) (f s i) (f' s' i)) :
    Alike (S n) ((List.range n).foldlM f s) ((List.range n).foldlM f' s') := by
  subst hs
  induction n with
  | zero => simpa [Alike] using h0
  | succ n ih =>
    rw [List.range_succ, List.foldlM_append, List.foldlM_append]
    refine (ih fun i s s' hi => hf i s s' (by omega)).bind fun a b hab => ?_
    rw [List.foldlM_cons, List.foldlM_cons]
    refine (hf n a b (by omega) hab).bind fun c d hcd => ?_
    simpa [Alike] using hcd

theorem ok_right {R : α → β → Prop} {r : Res α} {b : β} (h : Alike R r (Res.ok b)) : ∃ a, r = Res.ok a ∧ R a b := by
  cases r
  · exact ⟨_, rfl, h⟩
  all_goals exact h.elim

theorem ok_left {R : α → β → Prop} {r : Res β} {a : α} (h : Alike R (Res.ok a) r) : ∃ b, r = Res.ok b ∧ R a b := by
  cases r
  · exact ⟨_, rfl, h⟩
  all_goals exact h.elim

end Alike

/-! ### What a time keeper holds -/

variable {fp : FP}

theorem Clock.Steady.le {clk : Clock fp} (h : clk.Steady) {i j : Nat} (hij : i ≤ j) : clk.ticks i ≤ clk.ticks j := by
  induction hij with
  | refl => exact Nat.le_refl _
  | step _ ih => exact Nat.le_trans ih (h _)

/-- The reports for category `j` among the spans. -/
def spanSecs (secs : Nat → fp.F) (l : List Span) (j : Nat) : List fp.F :=
  (l.filter fun s => s.key = j).map fun s => secs s.length

theorem spanSecs_append (secs : Nat → fp.F) (l l' : List Span) (j : Nat) :
    spanSecs secs (l ++ l') j = spanSecs secs l j ++ spanSecs secs l' j := by
  unfold spanSecs; rw [List.filter_append, List.map_append]

theorem secondsOf_eq (secs : Nat → fp.F) (l : List Span) (j : Nat) :
    secondsOf fp secs l j = (spanSecs secs l j).foldl fp.add (fp.lit 0 0) := by
  unfold secondsOf reported spanSecs
  rw [List.filter_map, List.map_map]
  rfl

/-- The second watch has been read no less often and its keeper got the reports of the spans in addition. -/
structure Clocked (clk : Clock fp) (l : List Span) (w w' : Watch fp) : Prop where
  reads : w.reads ≤ w'.reads
  secs : w'.keeper.secs = (List.range 8).map fun j => (spanSecs clk.secs l j).foldl fp.add (nth w.keeper.secs j)

theorem Clocked.length {clk : Clock fp} {l : List Span} {w w' : Watch fp} (h : Clocked clk l w w') :
    w'.keeper.secs.length = 8 := by rw [h.secs]; simp

theorem Clocked.nth {clk : Clock fp} {l : List Span} {w w' : Watch fp} (h : Clocked clk l w w') {j : Nat} (hj : j < 8) :
    nth w'.keeper.secs j = (spanSecs clk.secs l j).foldl fp.add (nth w.keeper.secs j) := by
  rw [h.secs, nth_map (by simpa using hj), nth_range hj]

theorem Clocked.trans {clk : Clock fp} {l l' : List Span} {w w' w'' : Watch fp} (h : Clocked clk l w w')
    (h' : Clocked clk l' w' w'') : Clocked clk (l ++ l') w w'' := by
  refine ⟨Nat.le_trans h.reads h'.reads, h'.secs.trans ?_⟩
  refine List.map_congr_left fun j hj => ?_
  rw [spanSecs_append, List.foldl_append, h.nth (List.mem_range.mp hj)]

theorem Clocked.refl (clk : Clock fp) {w w' : Watch fp} (hl : w.keeper.secs.length = 8) (hr : w.reads ≤ w'.reads)
    (hk : w'.keeper = w.keeper) : Clocked clk [] w w' := by
  refine ⟨hr, ?_⟩
  rw [hk]
  refine list_ext_nth (by simpa using hl) fun j hj => ?_
  rw [nth_map (by simpa using (by omega : j < 8)), nth_range (by omega)]
  rfl

theorem reportTime_eq {K : TimeKeeper fp} (hl : K.secs.length = 8) {key : Nat} (hk : key < 8) (s : fp.F) :
    K.reportTime key s = ok ⟨K.secs.set key (fp.add (nth K.secs key) s)⟩ := by
  unfold TimeKeeper.reportTime
  rw [if_neg (by omega), rd_of_lt (by omega), ok_bind, wr_of_lt (by omega), ok_bind]

theorem kept_one {clk : Clock fp} {w : Watch fp} (hl : w.keeper.secs.length = 8) {key : Nat} (hk : key < 8)
    (i j n : Nat) (hn : w.reads ≤ n) :
    Clocked clk [⟨key, clk.ticks i, clk.ticks j⟩] w
      ⟨n, ⟨w.keeper.secs.set key (fp.add (nth w.keeper.secs key) (Watch.poll clk i j))⟩⟩ := by
  refine ⟨hn, ?_⟩
  refine list_ext_nth (by simpa using hl) fun q hq => ?_
  have hq' : q < 8 := by simpa [hl] using hq
  rw [nth_map (by simpa using hq'), nth_range hq']
  unfold spanSecs
  by_cases h : key = q
  · subst h
    rw [nth_set_self (by omega)]
    simp [Watch.poll, Span.length]
  · rw [nth_set_ne (by omega)]
    simp [h]

theorem Watch.stop_eq {clk : Clock fp} {w : Watch fp} (hl : w.keeper.secs.length = 8) {key : Nat} (hk : key < 8) (i : Nat) :
    ∃ w', w.stop clk key i = ok w' ∧ w'.reads = w.reads + 1 ∧
      Clocked clk [⟨key, clk.ticks i, clk.ticks w.reads⟩] w w' := by
  unfold Watch.stop
  rw [reportTime_eq hl hk, ok_bind]
  exact ⟨_, rfl, rfl, kept_one hl hk _ _ _ (by omega)⟩

theorem Watch.during_eq {α : Type} {clk : Clock fp} {w : Watch fp} (hl : w.keeper.secs.length = 8) {key : Nat} (hk : key < 8)
    (op : Res α) : ∃ w', w.during clk key op = (op >>= fun a => ok (a, w')) ∧ w'.reads = w.reads + 2 ∧
      Clocked clk [⟨key, clk.ticks w.reads, clk.ticks (w.reads + 1)⟩] w w' := by
  refine ⟨_, ?_, rfl, kept_one (clk := clk) hl hk w.reads (w.reads + 1) (w.reads + 2) (by omega)⟩
  unfold Watch.during timed timedReport
  cases op
  · rw [ok_bind]
    have : ofI32 (key : Int) = key := by
      unfold ofI32; omega
    simp only [this, reportTime_eq hl hk]
    rfl
  all_goals rfl

/-! ### One bisection -/

theorem BisTimes.earlier {a a' b : Nat} {l : List Span} (h : BisTimes a l b) (ha : a' ≤ a) : BisTimes a' l b := by
  cases h with
  | bottom h1 h2 h3 => exact .bottom (by omega) h2 h3
  | level h1 h2 h3 h4 h5 h6 hin h7 h8 h9 h10 h11 h12 => exact .level (by omega) h2 h3 h4 h5 h6 hin h7 h8 h9 h10 h11 h12

variable {E : Env}

theorem recurse_alike (m : Multilevel E) (clk : Clock E.fp) (maxW : Nat) (stop : Criterion) (t : Target E.fp) :
    ∀ (fuel level : Nat) (parent : Option Graph) (g : Graph) (r : E.rng.S) (w : Watch E.fp), w.keeper.secs.length = 8 →
      Alike (fun o' o => o'.1 = o.1 ∧ o'.2.1 = o.2 ∧ ∃ l, Clocked clk l w o'.2.2 ∧
          (clk.Steady → BisTimes (clk.ticks w.reads) l (clk.ticks o'.2.2.reads)))
        (m.recurseT clk maxW stop t fuel level parent g (r, w)) (m.recurse maxW stop t fuel level parent g r) := by
  intro fuel
  induction fuel with
  | zero => intro level parent g r w _; trivial
  | succ fuel ih =>
    intro level parent g r w hl
    unfold Multilevel.recurseT Multilevel.recurse
    refine Alike.same fun b _ => ?_
    cases b
    · simp only [Bool.false_eq_true, if_false, Watch.start]
      obtain ⟨w1, e1, n1, c1⟩ := Watch.during_eq (clk := clk) (w := ⟨w.reads + 1, w.keeper⟩) hl (key := 2) (by omega)
        (m.agg maxW g r)
      have e1' := e1
      simp only [Nat.cast_ofNat] at e1'
      rw [e1', bind_assoc]
      refine Alike.same fun a _ => ?_
      rw [ok_bind]
      simp only
      refine Alike.same fun cg _ => ?_
      obtain ⟨w2, e2, n2, c2⟩ := Watch.stop_eq (clk := clk) (w := ⟨w1.reads + 1, w1.keeper⟩) c1.length (key := 3)
        (by omega) w1.reads
      rw [e2, ok_bind]
      obtain ⟨w3, e3, n3, c3⟩ := Watch.stop_eq (clk := clk) (w := w2) c2.length (key := 1) (by omega) w.reads
      rw [e3, ok_bind]
      refine (ih (level + 1) (some g) cg.coarse a.2 w3 c3.length).bind fun i' i hi => ?_
      obtain ⟨hi1, hi2, inner, hin, hbis⟩ := hi
      rw [hi1]
      refine Alike.same fun fine _ => ?_
      obtain ⟨w5, e5, n5, c5⟩ := Watch.stop_eq (clk := clk) (w := ⟨i'.2.2.reads + 1 + 1, i'.2.2.keeper⟩) hin.length (key := 7)
        (by omega) (i'.2.2.reads + 1)
      rw [e5, ok_bind]
      obtain ⟨w6, e6, n6, c6⟩ := Watch.during_eq (clk := clk) (w := w5) c5.length (key := 6) (by omega)
        (m.refine t g fine.1 fine.2)
      simp only [Nat.cast_ofNat] at e6
      rw [e6, bind_assoc]
      refine Alike.same fun out _ => ?_
      rw [ok_bind]
      obtain ⟨w7, e7, n7, c7⟩ := Watch.stop_eq (clk := clk) (w := w6) c6.length (key := 5) (by omega) i'.2.2.reads
      rw [e7, ok_bind]
      simp only at n1 n2 n5 c1 c2 c5
      have a1 : Clocked clk [] w ⟨w.reads + 1, w.keeper⟩ := Clocked.refl clk hl (Nat.le_succ _) rfl
      have a2 : Clocked clk [] w1 ⟨w1.reads + 1, w1.keeper⟩ := Clocked.refl clk c1.length (Nat.le_succ _) rfl
      have a5 : Clocked clk [] i'.2.2 ⟨i'.2.2.reads + 1 + 1, i'.2.2.keeper⟩ :=
        Clocked.refl clk hin.length (by simp only; omega) rfl
      refine ⟨rfl, hi2, _, ((((((((a1.trans c1).trans a2).trans c2).trans c3).trans hin).trans a5).trans c5).trans
        c6).trans c7, fun hs => ?_⟩
      have hr := hin.reads
      have := BisTimes.level (a := clk.ticks w.reads) (b := clk.ticks w7.reads) (c0 := clk.ticks w.reads)
        (g0 := clk.ticks (w.reads + 1)) (g1 := clk.ticks (w.reads + 1 + 1)) (k0 := clk.ticks w1.reads)
        (k1 := clk.ticks (w1.reads + 1)) (c1 := clk.ticks w2.reads) (u0 := clk.ticks i'.2.2.reads)
        (p0 := clk.ticks (i'.2.2.reads + 1)) (p1 := clk.ticks (i'.2.2.reads + 1 + 1)) (r0 := clk.ticks w5.reads)
        (r1 := clk.ticks (w5.reads + 1)) (u1 := clk.ticks w6.reads) (inner := inner)
        (Nat.le_refl _) (hs.le (by omega)) (hs.le (by omega)) (hs.le (by omega)) (hs.le (by omega)) (hs.le (by omega))
        ((hbis hs).earlier (hs.le (by omega)))
        (hs.le (by omega)) (hs.le (by omega)) (hs.le (by omega)) (hs.le (by omega)) (hs.le (by omega)) (hs.le (by omega))
      simpa using this
    · simp only [if_true]
      obtain ⟨w1, e1, n1, c1⟩ := Watch.during_eq (clk := clk) (w := w) hl (key := 4) (by omega) (m.init t g r)
      simp only [Nat.cast_ofNat] at e1
      rw [e1, bind_assoc]
      refine Alike.same fun a _ => ?_
      rw [ok_bind]
      refine Alike.same fun c _ => ?_
      exact ⟨rfl, rfl, _, c1, fun hs => .bottom (Nat.le_refl _) (hs _)
        (hs.le (show w.reads + 1 ≤ w1.reads by omega))⟩

theorem execute_alike (m : Multilevel E) (clk : Clock E.fp) (t : Target E.fp) (g : Graph) (r : E.rng.S) (w : Watch E.fp)
    (hl : w.keeper.secs.length = 8) :
    Alike (fun o' o => o'.1 = o.1 ∧ o'.2.1 = o.2 ∧ ∃ l, Clocked clk l w o'.2.2 ∧
        (clk.Steady → BisTimes (clk.ticks w.reads) l (clk.ticks o'.2.2.reads)))
      (m.executeT clk t g (r, w)) (m.execute t g r) := by
  unfold Multilevel.executeT Multilevel.execute
  refine Alike.same fun ratio _ => ?_
  refine Alike.same fun maxW _ => ?_
  refine (recurse_alike m clk maxW _ t _ 0 none g r w hl).bind fun o' o ho => ?_
  obtain ⟨h1, h2, h3⟩ := ho
  exact ⟨congrArg Prod.fst h1, h2, h3⟩

/-! ### Recursive bisection -/

/-- Between the two watches lie `n` bisections. -/
def Took (clk : Clock fp) (n : Nat) (w w' : Watch fp) : Prop :=
  ∃ l, Clocked clk l w w' ∧ (clk.Steady → BisSeq n (clk.ticks w.reads) l (clk.ticks w'.reads))

theorem BisSeq.append {n n' a b c : Nat} {l l' : List Span} (h : BisSeq n a l b) (h' : BisSeq n' b l' c) :
    BisSeq (n + n') a (l ++ l') c := by
  induction h with
  | @nil a b hab =>
    rw [Nat.zero_add, List.nil_append]
    cases h' with
    | nil h => exact .nil (by omega)
    | cons h h' => exact .cons (h.earlier hab) h'
  | cons h _ ih =>
    rw [Nat.succ_add, List.append_assoc]
    exact .cons h (ih h')

theorem Took.trans {clk : Clock fp} {n n' : Nat} {w w' w'' : Watch fp} (h : Took clk n w w') (h' : Took clk n' w' w'') :
    Took clk (n + n') w w'' := by
  obtain ⟨l, h1, h2⟩ := h
  obtain ⟨l', h1', h2'⟩ := h'
  exact ⟨_, h1.trans h1', fun hs => (h2 hs).append (h2' hs)⟩

theorem Took.refl {clk : Clock fp} {w : Watch fp} (hl : w.keeper.secs.length = 8) : Took clk 0 w w :=
  ⟨[], Clocked.refl clk hl (Nat.le_refl _) rfl, fun _ => .nil (Nat.le_refl _)⟩

theorem Took.length {clk : Clock fp} {n : Nat} {w w' : Watch fp} (h : Took clk n w w') : w'.keeper.secs.length = 8 := by
  obtain ⟨l, h, _⟩ := h; exact h.length

/-- The arrays of a target have one entry per part. -/
def Target.Sized (t : Target fp) : Prop := t.tw.length = t.k ∧ t.mx.length = t.k

theorem halfTarget_sized {t st : Target fp} {b n : Nat} (h : halfTarget t b n = ok st) : st.k = n ∧ st.Sized := by
  unfold halfTarget at h
  obtain ⟨tw, h1, h⟩ := bind_eq_ok h
  obtain ⟨mx, h2, h⟩ := bind_eq_ok h
  have l1 := ((Post_mapM (B := True) (f := fun pid => rd t.tw (pid + b)) (l := List.range n) (fun _ _ => True)
    fun x _ => by cases rd t.tw (x + b) <;> trivial).elim_ok h1).1
  have l2 := ((Post_mapM (B := True) (f := fun pid => rd t.mx (pid + b)) (l := List.range n) (fun _ _ => True)
    fun x _ => by cases rd t.mx (x + b) <;> trivial).elim_ok h2).1
  rw [List.length_range] at l1 l2
  obtain ⟨fr, _, e, _⟩ := ofWeights_ok (fp := fp) (n := n) (tw := tw) (mx := mx) (by omega)
  rw [e] at h
  cases h
  exact ⟨rfl, l1, l2⟩

theorem wr_len {α : Type} {l l' : List α} {i : Nat} {x : α} (h : wr l i x = ok l') : l'.length = l.length := by
  unfold wr at h
  split at h
  · cases h; simp
  · cases h

theorem mapM_len {α β : Type} {f : α → Res β} {l : List α} {out : List β} (h : l.mapM f = ok out) :
    out.length = l.length :=
  ((Post_mapM (B := True) (fun _ _ => True) fun x _ => by cases f x <;> trivial).elim_ok h).1

theorem extract_length {g : Graph} {p : Partitioning} {labels : Option (List Nat)} {parts : List Subgraph}
    (h : extractPartitions g p labels = ok parts) : parts.length = p.pw.length := by
  unfold extractPartitions at h
  obtain ⟨counts, h1, h⟩ := bind_eq_ok h
  obtain ⟨_, _, h⟩ := bind_eq_ok h
  obtain ⟨_, _, h⟩ := bind_eq_ok h
  obtain ⟨_, _, h⟩ := bind_eq_ok h
  obtain ⟨_, _, h⟩ := bind_eq_ok h
  obtain ⟨_, _, h⟩ := bind_eq_ok h
  have l1 := mapM_len h
  rw [l1, List.length_range]
  unfold Partitioning.calcVertexCounts at h1
  have := (Post_foldlM_inv (B := True) (fun c : List Nat => c.length = p.pw.length) (by simp)
    (fun x c _ hc => by
      rw [Post_bind]
      cases hr : rd c x
      · simp only [Post_ok]
        refine may_iff.mpr fun c' hc' => (wr_len hc').trans hc
      all_goals trivial)).elim_ok h1
  exact this

/-- What a timed bisector must do. -/
def Timed (clk : Clock E.fp) (bt : Bisector (timedEnv E)) (b : Bisector E) : Prop :=
  ∀ (t : Target E.fp) (g : Graph) (r : E.rng.S) (w : Watch E.fp), w.keeper.secs.length = 8 →
    Alike (fun o' o => o'.1 = o.1 ∧ o'.2.1 = o.2 ∧ Took clk 1 w o'.2.2) (bt t g (r, w)) (b t g r)

theorem rbRecurse_alike {clk : Clock E.fp} {bt : Bisector (timedEnv E)} {b : Bisector E} (hb : Timed clk bt b)
    (h2 : ∀ t g r o, t.k = 2 → b t g r = ok o → o.1.pw.length = 2) :
    ∀ (fuel : Nat) (t : Target E.fp) (mg : Mapped) (offset : Nat) (labels : Mem) (r : E.rng.S) (w : Watch E.fp),
      w.keeper.secs.length = 8 →
      Alike (fun o' o => o'.1 = o.1 ∧ o'.2.1 = o.2 ∧ ∃ n, Took clk n w o'.2.2 ∧
          (t.Sized → 2 ≤ t.k → t.k < M32 → n = t.k - 1))
        (rbRecurse (E := timedEnv E) bt fuel t mg offset (labels, (r, w))) (rbRecurse b fuel t mg offset (labels, r)) := by
  intro fuel
  induction fuel with
  | zero => intros; trivial
  | succ fuel ih =>
    intro t mg offset labels r w hl
    unfold rbRecurse
    refine Alike.same fun h hh => ?_
    refine Alike.same fun bt' hbt => ?_
    refine (hb bt' mg.graph r w hl).and.bind fun o' o ho => ?_
    obtain ⟨⟨e1, e2, ht⟩, ho⟩ := ho
    rw [e1]
    refine Alike.same fun labels' _ => ?_
    have hk2 : bt'.k = 2 := by
      unfold Target.ofWeights at hbt
      obtain ⟨fr, _, h⟩ := bind_eq_ok hbt
      cases h; rfl
    have hnum : t.Sized → 2 ≤ t.k → t.k < M32 → h.num = [0, t.k / 2, t.k] := fun hz h2 h3 =>
      ((makeHalves_spec (bu := True) (be := True) (bd := True) h2 h3 hz.1 hz.2 (M := 0) (by decide) (.inr trivial)).elim_ok
        hh).1
    by_cases hk : t.k > 2
    · rw [if_pos hk, if_pos hk]
      refine Alike.same fun parts hparts => ?_
      have hlen : parts.length = 2 := by
        rw [← h2 _ _ _ _ hk2 ho]
        exact extract_length hparts
      rw [hlen]
      have step : ∀ (i : Nat) (s' : Mem × (E.rng.S × Watch E.fp)) (s : Mem × E.rng.S), s'.1 = s.1 → s'.2.1 = s.2 →
          s'.2.2.keeper.secs.length = 8 →
          Alike (fun o' o => o'.1 = o.1 ∧ o'.2.1 = o.2 ∧ ∃ n, Took clk n s'.2.2 o'.2.2 ∧
              (t.Sized → t.k < M32 → i < 2 → n = nth [t.k / 2, t.k - t.k / 2] i - 1))
            (rbSide (E := timedEnv E) (rbRecurse (E := timedEnv E) bt fuel) t h.num parts offset s' i)
            (rbSide (rbRecurse b fuel) t h.num parts offset s i) := by
        intro i s' s q1 q2 q3
        unfold rbSide
        refine Alike.same fun lo hlo => ?_
        refine Alike.same fun hi hhi => ?_
        have hcnt : t.Sized → t.k < M32 → i < 2 → usub hi lo = nth [t.k / 2, t.k - t.k / 2] i := by
          intro hz h3 hi2
          rw [hnum hz (by omega) h3] at hlo hhi
          rcases Nat.lt_or_ge i 1 with h0 | h0
          · have : i = 0 := by omega
            subst this
            cases hlo; cases hhi
            show usub (t.k / 2) 0 = t.k / 2
            rw [usub_eq (by omega) (by omega)]; omega
          · have : i = 1 := by omega
            subst this
            cases hlo; cases hhi
            show usub t.k (t.k / 2) = t.k - t.k / 2
            rw [usub_eq (by omega) (by omega)]
        by_cases hc : usub hi lo > 1
        · rw [if_pos hc, if_pos hc]
          refine Alike.same fun st hst => ?_
          refine Alike.same fun sg _ => ?_
          obtain ⟨z1, z2⟩ := halfTarget_sized hst
          obtain ⟨m', r', w'⟩ := s'
          obtain ⟨m, r⟩ := s
          simp only at q1 q2 q3
          subst q1 q2
          refine (ih st _ _ m' r' w' q3).mono fun o' o ho => ⟨ho.1, ho.2.1, ?_⟩
          obtain ⟨n, hn, hn'⟩ := ho.2.2
          refine ⟨n, hn, fun hz h3 hi2 => ?_⟩
          rw [← hcnt hz h3 hi2, ← z1]
          refine hn' z2 (by omega) ?_
          rw [z1, hcnt hz h3 hi2]
          rcases Nat.lt_or_ge i 1 with h0 | h0
          · have : i = 0 := by omega
            subst this
            show t.k / 2 < _
            omega
          · have : i = 1 := by omega
            subst this
            show t.k - t.k / 2 < _
            omega
        · rw [if_neg hc, if_neg hc]
          refine ⟨q1, q2, 0, Took.refl q3, fun hz h3 hi2 => ?_⟩
          rw [← hcnt hz h3 hi2]
          omega
      have r2 : List.range 2 = [0, 1] := rfl
      rw [r2]
      simp only [List.foldlM_cons, List.foldlM_nil]
      refine (step 0 (labels', o'.2) (labels', o.2) rfl e2 ht.length).bind fun s1' s1 hs1 => ?_
      obtain ⟨a1, a2, n1, a3, a4⟩ := hs1
      refine (step 1 s1' s1 a1 a2 a3.length).bind fun s2' s2 hs2 => ?_
      obtain ⟨b1, b2, n2, b3, b4⟩ := hs2
      refine ⟨b1, b2, _, (ht.trans a3).trans b3, fun hz _ h3 => ?_⟩
      have c1 := a4 hz h3 (by omega)
      have c2 := b4 hz h3 (by omega)
      have d1 : nth [t.k / 2, t.k - t.k / 2] 0 = t.k / 2 := rfl
      have d2 : nth [t.k / 2, t.k - t.k / 2] 1 = t.k - t.k / 2 := rfl
      omega
    · rw [if_neg hk, if_neg hk]
      exact ⟨rfl, e2, 1, ht, fun _ _ _ => by omega⟩

theorem rbExecute_alike {clk : Clock E.fp} {bt : Bisector (timedEnv E)} {b : Bisector E} (hb : Timed clk bt b)
    (h2 : ∀ t g r o, t.k = 2 → b t g r = ok o → o.1.pw.length = 2) (t : Target E.fp) (g : Graph) (r : E.rng.S)
    (w : Watch E.fp) (hl : w.keeper.secs.length = 8) :
    Alike (fun o' o => o'.1 = o.1 ∧ o'.2.1 = o.2 ∧ ∃ n, Took clk n w o'.2.2 ∧
        (t.Sized → 2 ≤ t.k → t.k < M32 → n = t.k - 1))
      (rbExecute (E := timedEnv E) bt t g (r, w)) (rbExecute b t g r) := by
  unfold rbExecute
  refine (rbRecurse_alike hb h2 t.k t _ 0 _ r w hl).bind fun o' o ho => ?_
  obtain ⟨q1, q2, q3⟩ := ho
  rw [q1]
  refine Alike.same fun labels _ => ?_
  refine Alike.same fun p _ => ?_
  refine Alike.same fun p _ => ?_
  exact ⟨rfl, q2, q3⟩

end Poros
