import Verif.Props.P75_Call
/-
C103: the cost of recursive bisection.
-/
namespace Poros
open Finset Res

/-- The two sides of a bisection share the vertices of the graph, and have at most its edges. -/
theorem sides_size {g sL sR : Graph} {lab : Nat → Nat} (hg : g.WF) (h2 : ∀ v, v < g.nv → lab v < 2)
    (hL : IsInduced g lab 0 sL) (hR : IsInduced g lab 1 sR) :
    sL.nv + sR.nv = g.nv ∧ sL.ne + sR.ne ≤ g.ne := by
  constructor
  · have := sum_sides h2 hL hR (fun _ => 1)
    simpa using this.symm
  · rw [← sum_nbrs_length hg, ← sum_nbrs_length hL.valid, ← sum_nbrs_length hR.valid,
      sum_sides h2 hL hR (fun v => (g.nbrs v).length)]
    refine Nat.add_le_add (sum_le_sum fun i hi => ?_) (sum_le_sum fun i hi => ?_)
    · have := congrArg List.length (hL.nbrs i (mem_range.mp hi))
      rw [List.length_map] at this
      rw [this]
      exact List.length_filter_le _ _
    · have := congrArg List.length (hR.nbrs i (mem_range.mp hi))
      rw [List.length_map] at this
      rw [this]
      exact List.length_filter_le _ _

/-- Counting bisections along a run. -/
theorem RBRun.count {fp : FP} {S : Type} {cnt : S → Nat} {tw mx : List Nat} {g : Graph} {r r' : S} {lab : Nat → Nat}
    (h : RBRun (fp := fp) (fun _ _ r _ r' => cnt r' = cnt r + 1) tw mx g r lab r') :
    cnt r' = cnt r + (tw.length - 1) := by
  induction h with
  | leaf hk => omega
  | node hk _ _ hR _ _ _ _ _ _ _ iL iR =>
    rw [List.length_take] at iL
    rw [List.length_drop] at iR
    omega

/-- Adding up the cost along a run. -/
theorem RBRun.cost {fp : FP} {S : Type} {cnt : S → Nat} {a b : Nat} {tw mx : List Nat} {g : Graph} {r r' : S}
    {lab : Nat → Nat}
    (h : RBRun (fp := fp) (fun _ g r _ r' => cnt r' ≤ cnt r + (a * g.nv + b * g.ne)) tw mx g r lab r') (hg : g.WF) :
    ∀ d, tw.length ≤ 2 ^ d → cnt r' ≤ cnt r + d * (a * g.nv + b * g.ne) := by
  induction h with
  | leaf hk => intro d _; exact Nat.le_add_right _ _
  | @node tw _ g _ _ _ sL sR _ _ _ _ _ _ hk _ _ hR hp hL hRt _ _ _ _ iL iR =>
    intro d hd
    obtain _ | d := d
    · simp at hd; omega
    · have e1 := iL hL.valid d (by rw [List.length_take]; rw [Nat.pow_succ] at hd; omega)
      have e2 := iR hRt.valid d (by rw [List.length_drop]; rw [Nat.pow_succ] at hd; omega)
      obtain ⟨hv, he⟩ := sides_size hg hp hL hRt
      have hsum : (a * sL.nv + b * sL.ne) + (a * sR.nv + b * sR.ne) ≤ a * g.nv + b * g.ne := by
        have h1 : a * sL.nv + a * sR.nv = a * g.nv := by rw [← Nat.mul_add, hv]
        have h2 : b * sL.ne + b * sR.ne ≤ b * g.ne := by rw [← Nat.mul_add]; exact Nat.mul_le_mul_left _ he
        omega
      have h3 := Nat.mul_le_mul_left d hsum
      rw [Nat.mul_add] at h3
      rw [Nat.succ_mul]
      omega

variable {E : Env}

/-- **C103, number of bisections.** Whatever the state of the bisector counts: if every bisection counts one, recursive
bisection into `k ≥ 2` parts counts `k - 1`. So a run that finishes bisects exactly `k - 1` graphs. -/
theorem C103_bisections {bis : Bisector E} {cnt : E.rng.S → Nat}
    (hbis : ∀ bt g r p r', g.Good → bt.Two → nth bt.mx 0 < 2 ^ 32 → nth bt.mx 1 < 2 ^ 32 → bis bt g r = ok (p, r') →
      IsExact g 2 p ∧ cnt r' = cnt r + 1)
    {t : Target E.fp} (hk : 2 ≤ t.k) (hk' : t.k < 2 ^ 32) (htw : t.tw.length = t.k) (hmx : t.mx.length = t.k)
    {g : Graph} (hg : g.Good) {r : E.rng.S} {p : Partitioning} {r' : E.rng.S} (h : rbExecute bis t g r = ok (p, r')) :
    cnt r' = cnt r + (t.k - 1) := by
  have hrun := ((rbExecute_run (bu := True) (be := True) (bd := True) (S := g.sumVtx) (M := NULL32)
    (R := fun _ _ r _ r' => cnt r' = cnt r + 1) (by omega)
    (fun bt g r hg _ hb h0 h1 => Wp.post.mpr (may_iff.mpr fun o ho =>
      hbis bt g r o.1 o.2 hg hb (by norm_num; omega) (by norm_num; omega) ho)) hk (by simpa using hk')
    htw hmx (Or.inr ⟨trivial, rfl⟩) hg (le_refl _) r).elim_ok h).2
  rw [← htw]
  exact hrun.count

/-- **C103, cost.** If bisecting a graph with `n` vertices and `m` (directed) edges costs at most `a * n + b * m`, then
recursive bisection into at most `2 ^ d` parts costs at most `d * (a * n + b * m)`: each of the `d` levels of the
recursion works on disjoint pieces of the graph. -/
theorem C103_cost {bis : Bisector E} {cnt : E.rng.S → Nat} {a b : Nat}
    (hbis : ∀ bt g r p r', g.Good → bt.Two → nth bt.mx 0 < 2 ^ 32 → nth bt.mx 1 < 2 ^ 32 → bis bt g r = ok (p, r') →
      IsExact g 2 p ∧ cnt r' ≤ cnt r + (a * g.nv + b * g.ne))
    {t : Target E.fp} (hk : 2 ≤ t.k) (hk' : t.k < 2 ^ 32) (htw : t.tw.length = t.k) (hmx : t.mx.length = t.k)
    {g : Graph} (hg : g.Good) {d : Nat} (hd : t.k ≤ 2 ^ d) {r : E.rng.S} {p : Partitioning} {r' : E.rng.S}
    (h : rbExecute bis t g r = ok (p, r')) : cnt r' ≤ cnt r + d * (a * g.nv + b * g.ne) := by
  have hrun := ((rbExecute_run (bu := True) (be := True) (bd := True) (S := g.sumVtx) (M := NULL32)
    (R := fun _ g r _ r' => cnt r' ≤ cnt r + (a * g.nv + b * g.ne)) (by omega)
    (fun bt g r hg _ hb h0 h1 => Wp.post.mpr (may_iff.mpr fun o ho =>
      hbis bt g r o.1 o.2 hg hb (by norm_num; omega) (by norm_num; omega) ho)) hk (by simpa using hk')
    htw hmx (Or.inr ⟨trivial, rfl⟩) hg (le_refl _) r).elim_ok h).2
  exact hrun.cost hg.wf d (by rw [htw]; exact hd)

/-- The concrete environment with a random engine that counts. -/
def Ex.countEnv : Env := { Concrete.env with rng := {
  S := Nat
  seed _ := 0
  perm s n := (List.range n, s + n)
  rand s lo _ := (lo, s + 1)
  sortRandom s keys := (Concrete.rng.sort keys, s)
  sort := Concrete.rng.sort
  perm_perm _ _ := List.Perm.refl _
  rand_range _ _ _ h := ⟨le_refl _, h⟩
  sortRandom_perm _ keys := Concrete.rng.sort_perm keys
  sortRandom_sorted _ keys := Concrete.rng.sort_sorted keys
  sort_perm := Concrete.rng.sort_perm
  sort_sorted := Concrete.rng.sort_sorted } }

/-- Random bisection that counts its calls. -/
def Ex.counted : Bisector Ex.countEnv := fun bt g r => do
  let o ← randomBisect bt g r
  ok (o.1, Nat.add r 1)

/-- Random bisection that counts the vertices and edges of the graphs it is given. -/
def Ex.weighed : Bisector Ex.countEnv := fun bt g r => do
  let o ← randomBisect bt g r
  ok (o.1, Nat.add r (g.nv + g.ne))

/-- The counting bisectors are bisectors. -/
theorem Ex.counted_exact : ∀ bt g (r : Nat) p (r' : Nat), g.Good → bt.Two → nth bt.mx 0 < 2 ^ 32 →
    nth bt.mx 1 < 2 ^ 32 → Ex.counted bt g r = ok (p, r') → IsExact g 2 p ∧ r' = r + 1 := by
  intro bt g r p r' hg hb hm _ h
  obtain ⟨o, ho, h⟩ := bind_eq_ok h
  cases h
  exact ⟨((C32_random (E := Ex.countEnv) hg hb (by simpa using hm) r).1 o.1 o.2 ho).1, rfl⟩

theorem Ex.weighed_exact : ∀ bt g (r : Nat) p (r' : Nat), g.Good → bt.Two → nth bt.mx 0 < 2 ^ 32 →
    nth bt.mx 1 < 2 ^ 32 → Ex.weighed bt g r = ok (p, r') → IsExact g 2 p ∧ r' ≤ r + (1 * g.nv + 1 * g.ne) := by
  intro bt g r p r' hg hb hm _ h
  obtain ⟨o, ho, h⟩ := bind_eq_ok h
  cases h
  refine ⟨((C32_random (E := Ex.countEnv) hg hb (by simpa using hm) r).1 o.1 o.2 ho).1, ?_⟩
  show r + (g.nv + g.ne) ≤ _
  omega

/-- The random state of a result. -/
def Ex.stateOf (x : Res (Partitioning × Nat)) : Option Nat :=
  match x with
  | .ok o => some o.2
  | _ => none

/-- The hypotheses are met: the two triangles (6 vertices, 14 directed edges) in three parts take two bisections, of graphs
with altogether 32 of the allowed `2 * 20` vertices and edges. -/
example : 2 ≤ thirds.k ∧ thirds.k ≤ 2 ^ 2 ∧ thirds.tw.length = thirds.k ∧ thirds.mx.length = thirds.k ∧ Ex.tri2.Good ∧
    Ex.tri2.nv = 6 ∧ Ex.tri2.ne = 14 ∧
    (rbExecute (E := Ex.countEnv) Ex.counted thirds Ex.tri2 (5 : Nat)).value =
      ok { cut := 10, pw := [3, 4, 2], asg := [0, 0, 1, 1, 2, 2] } ∧
    Ex.stateOf (rbExecute (E := Ex.countEnv) Ex.counted thirds Ex.tri2 (5 : Nat)) = some 7 ∧
    Ex.stateOf (rbExecute (E := Ex.countEnv) Ex.weighed thirds Ex.tri2 (5 : Nat)) = some 37 :=
  ⟨by decide, by decide, rfl, rfl, Ex.tri2_good, by decide, by decide, by decide +kernel, by decide +kernel,
    by decide +kernel⟩

/-! ### The library's partitioner -/

/-- A run whose bisections carry witnesses can be read as a run that collects the witnesses. -/
theorem RBRun.collect {fp : FP} {S W : Type} {R : W → Target fp → Graph → S → (Nat → Nat) → S → Prop}
    {tw mx : List Nat} {g : Graph} {r r' : S} {lab : Nat → Nat}
    (h : RBRun (fun bt g r side r' => ∃ w, R w bt g r side r') tw mx g r lab r') :
    ∀ l : List W, ∃ l', RBRun (S := S × List W)
      (fun bt g s side s' => ∃ w, R w bt g s.1 side s'.1 ∧ s'.2 = s.2 ++ [w]) tw mx g (r, l) lab (r', l') := by
  induction h with
  | leaf hk hm h => exact fun l => ⟨l, .leaf hk hm h⟩
  | @node tw mx g lab bt side sL sR labL labR r r1 r2 r3 hk hm hbt hR hp hL hRt _ _ lL lR iL iR =>
    intro l
    obtain ⟨w, hw⟩ := hR
    obtain ⟨l2, h2⟩ := iL (l ++ [w])
    obtain ⟨l3, h3⟩ := iR l2
    exact ⟨l3, .node (r1 := (r1, l ++ [w])) hk hm hbt ⟨w, hw, rfl⟩ hp hL hRt h2 h3 lL lR⟩

theorem RBRun.weaken {fp : FP} {S : Type} {R R' : Target fp → Graph → S → (Nat → Nat) → S → Prop}
    (hR : ∀ bt g r side r', R bt g r side r' → R' bt g r side r')
    {tw mx : List Nat} {g : Graph} {r r' : S} {lab : Nat → Nat} (h : RBRun R tw mx g r lab r') :
    RBRun R' tw mx g r lab r' := by
  induction h with
  | leaf hk hm h => exact .leaf hk hm h
  | node hk hm hbt h hp hL hRt _ _ lL lR iL iR => exact .node hk hm hbt (hR _ _ _ _ _ h) hp hL hRt iL iR lL lR

/-- **C103 for the library's partitioner.** A run for `2 ≤ k ≤ 2 ^ d` parts builds exactly `k - 1` multilevel
hierarchies, whose graphs have altogether at most `20 * d` times the edges of the input graph. -/
theorem C103_hierarchies [Concrete.Log2Impl] {pq : PQImpl} {set : SetImpl} {rng : RngImpl} (s : Scheme)
    {t : Target Concrete.fp} (hk : 2 ≤ t.k) (hk' : t.k < 2 ^ 32) (htw : t.tw.length = t.k) (hmx : t.mx.length = t.k)
    {d : Nat} (hd : t.k ≤ 2 ^ d) {g : Graph} (hg : g.Good) {r : rng.S} {p : Partitioning} {r' : rng.S}
    (h : partitioner (dblEnv pq set rng) s t g r = ok (p, r')) :
    ∃ hiers : List (List Graph),
      RBRun (S := rng.S × List (List Graph)) (fun bt g s0 side s1 => ∃ hier,
        MLRun (dblEnv pq set rng) s bt (3 * g.sumVtx / 40) (Sown (dblEnv pq set rng) bt) none g s0.1 side s1.1 hier ∧
        s1.2 = s0.2 ++ [hier]) t.tw t.mx g (r, []) p.lab (r', hiers) ∧
      hiers.length = t.k - 1 ∧
      (hiers.flatten.map Graph.ne).sum ≤ 20 * d * g.ne := by
  have hrun := partitioner_run (pq := pq) (set := set) s hk hk' htw hmx hg h
  obtain ⟨hiers, hr⟩ := RBRun.collect (fp := Concrete.fp) (S := rng.S) (W := List Graph)
    (R := fun hier bt g r side r' => MLRun (dblEnv pq set rng) s bt (3 * g.sumVtx / 40) (Sown (dblEnv pq set rng) bt)
      none g r side r' hier) hrun []
  refine ⟨hiers, hr, ?_, ?_⟩
  · have := RBRun.count (fp := Concrete.fp) (cnt := fun x : rng.S × List (List Graph) => x.2.length)
      (hr.weaken fun bt g s0 side s1 hx => by
        obtain ⟨hier, -, h2⟩ := hx
        simp [h2])
    simpa [htw] using this
  · have := RBRun.cost (fp := Concrete.fp) (a := 0) (b := 20)
      (cnt := fun x : rng.S × List (List Graph) => (x.2.flatten.map Graph.ne).sum)
      (hr.weaken fun bt g s0 side s1 hx => by
        obtain ⟨hier, h1, h2⟩ := hx
        have := (MLRun.hierarchy (E := dblEnv pq set rng) h1).1
        simp only [h2, List.flatten_append, List.map_append, List.sum_append, List.flatten_cons, List.flatten_nil,
          List.append_nil]
        omega) hg.wf d (by rw [htw]; exact hd)
    simp only [List.flatten_nil, List.map_nil, List.sum_nil, Nat.zero_mul, Nat.zero_add] at this
    rw [Nat.mul_comm 20 d, Nat.mul_assoc]
    exact this

/-- The hypotheses are met: the two triangles in three parts. -/
example : 2 ≤ thirds.k ∧ thirds.k < 2 ^ 32 ∧ thirds.k ≤ 2 ^ 2 ∧ Ex.tri2.Good ∧
    (partitioner Concrete.env .sortedHeavyEdge thirds Ex.tri2 ()).value =
      ok { cut := 10, pw := [3, 4, 2], asg := [0, 0, 1, 1, 2, 2] } :=
  ⟨by decide, by decide, by decide, Ex.tri2_good, by decide +kernel⟩

end Poros
