import Verif.Props.P107_Halves
import Verif.Props.P120_CutFloor
import Verif.Props.P122_LocalCall
/-
C123: breadth-first bisection of a connected graph grows a connected side; the other side need not be connected, and neither
need the grown side if vertices are too heavy to be taken.
-/
namespace Poros
open Finset Res Concrete

variable {pq : PQImpl} {set : SetImpl} {rng : RngImpl}

/-- Among the vertices with the property `P`, each can be reached from every other along edges of positive weight without
leaving them. -/
def LinkedIn (n : Nat) (wt : Nat → Nat → Nat) (P : Nat → Prop) : Prop :=
  ∀ v u, v < n → u < n → P v → P u → Relation.ReflTransGen (fun a b => b < n ∧ P b ∧ 0 < wt a b) v u

/-- The graph is connected. -/
def Graph.Linked (g : Graph) : Prop := LinkedIn g.nv g.wt fun _ => True

/-- The vertices labelled `q` are connected among themselves. -/
def Graph.SideLinked (g : Graph) (lab : Nat → Nat) (q : Nat) : Prop := LinkedIn g.nv g.wt fun v => lab v = q

theorem leaves {R : Nat → Nat → Prop} {A : Nat → Prop} {a v : Nat} (h : Relation.ReflTransGen R a v) (ha : A a) (hv : ¬ A v) :
    ∃ x y, A x ∧ ¬ A y ∧ R x y := by
  induction h with
  | refl => exact absurd ha hv
  | @tail b c _ hbc ih =>
    by_cases hb : A b
    · exact ⟨b, c, hb, hv, hbc⟩
    · exact ih hb

theorem LinkedIn.mono {n : Nat} {wt : Nat → Nat → Nat} {P Q : Nat → Prop} (h : LinkedIn n wt P)
    (hpq : ∀ v, v < n → (P v ↔ Q v)) : LinkedIn n wt Q := by
  intro v u hv hu h1 h2
  refine Relation.ReflTransGen.mono (fun a b hab => ?_) _ _ (h v u hv hu ((hpq v hv).mpr h1) ((hpq u hu).mpr h2))
  exact ⟨hab.1, (hpq b hab.1).mp hab.2.1, hab.2.2⟩

/-- One more vertex, tied to one that is there. -/
theorem LinkedIn.insert {n : Nat} {wt : Nat → Nat → Nat} {P : Nat → Prop} (h : LinkedIn n wt P) {v w : Nat} (hv : v < n)
    (hw : w < n) (hPw : P w) (h1 : 0 < wt w v) (h2 : 0 < wt v w) : LinkedIn n wt fun u => u = v ∨ P u := by
  have up : ∀ a b, a < n → b < n → P a → P b →
      Relation.ReflTransGen (fun a b => b < n ∧ (b = v ∨ P b) ∧ 0 < wt a b) a b := fun a b ha hb pa pb =>
    Relation.ReflTransGen.mono (fun x y hxy => ⟨hxy.1, Or.inr hxy.2.1, hxy.2.2⟩) _ _ (h a b ha hb pa pb)
  intro a b ha hb pa pb
  rcases pa with rfl | pa
  · rcases pb with rfl | pb
    · exact .refl
    · exact .head ⟨hw, Or.inr hPw, h2⟩ (up w b hw hb hPw pb)
  · rcases pb with rfl | pb
    · exact (up a w ha hw pa hPw).tail ⟨hv, Or.inl rfl, h1⟩
    · exact up a b ha hb pa pb

/-- Growing in a connected graph whose vertices all fit: what has been looked at is the left side, and it is connected. -/
theorem Grown.linked {fp : FP} {g : Graph} (hsy : g.Symm) (hconn : g.Linked) {t : Target fp}
    (hfit : ∀ v, v < g.nv → g.vw v + nth t.tw 0 ≤ nth t.mx 0 + 1) {seed : Nat} (hseed : seed < g.nv) {lab : Nat → Nat}
    {seen : List Nat} (h : Grown g t seed lab seen) :
    (∀ v, v < g.nv → lab v = if v ∈ seen then 0 else 1) ∧ (∀ v ∈ seen, v < g.nv) ∧ (seen ≠ [] → seed ∈ seen) ∧
      LinkedIn g.nv g.wt (· ∈ seen) := by
  induction h with
  | start h => exact ⟨fun v hv => by simp [h v hv], by simp, by simp, fun v u _ _ h => by simp at h⟩
  | @skip lab seen v _ hlt hnext hno _ =>
    have := hfit v hnext.1
    omega
  | @take lab seen v _ hlt hnext _ ih =>
    obtain ⟨i1, i2, i3, i4⟩ := ih
    obtain ⟨hv, hns, hbest⟩ := hnext
    refine ⟨fun u hu => ?_, fun u hu => ?_, fun _ => ?_, ?_⟩
    · unfold put
      by_cases huv : u = v
      · simp [huv]
      · simp only [List.mem_cons, huv, false_or]
        exact i1 u hu
    · rcases List.mem_cons.mp hu with rfl | hu
      · exact hv
      · exact i2 u hu
    · by_cases hnil : seen = []
      · subst hnil
        have h1 := hbest seed hseed (by simp)
        have hz : ∀ u, ∑ w ∈ range g.nv, (if lab w = 0 then g.wt w u else 0) = 0 := fun u => by
          refine sum_eq_zero fun w hw => ?_
          rw [i1 w (mem_range.mp hw)]
          simp
        unfold tie at h1
        rw [hz, hz, if_pos rfl] at h1
        by_cases e : v = seed
        · simp [e]
        · rw [if_neg e] at h1; omega
      · exact List.mem_cons_of_mem _ (i3 hnil)
    · by_cases hnil : seen = []
      · subst hnil
        intro a b _ _ ha hb
        simp only [List.mem_singleton] at ha hb
        subst ha hb
        exact .refl
      · have hs := i3 hnil
        obtain ⟨x, y, hx, hy, hyn, -, hxy⟩ := leaves (A := (· ∈ seen)) (hconn seed v hseed hv trivial trivial) hs hns
        have hxn := i2 x hx
        have htie : 0 < tie g seed lab y := by
          unfold tie
          have := single_le_sum (f := fun w => if lab w = 0 then g.wt w y else 0) (fun _ _ => Nat.zero_le _)
            (mem_range.mpr hxn)
          have e : lab x = 0 := by rw [i1 x hxn, if_pos hx]
          simp only [e, if_true] at this
          omega
        have hvt := hbest y hyn hy
        have hvs : v ≠ seed := fun e => hns (e ▸ hs)
        unfold tie at hvt htie
        rw [if_neg hvs] at hvt
        have hpos : 0 < ∑ w ∈ range g.nv, if lab w = 0 then g.wt w v else 0 := by omega
        obtain ⟨w, hw, hwp⟩ := exists_ne_zero_of_sum_ne_zero (Nat.pos_iff_ne_zero.mp hpos)
        have hwn := mem_range.mp hw
        have hlw : lab w = 0 := by
          by_contra h
          rw [if_neg h] at hwp
          exact hwp rfl
        rw [if_pos hlw] at hwp
        have hws : w ∈ seen := by
          have := i1 w hwn
          rw [hlw] at this
          by_contra h
          rw [if_neg h] at this
          omega
        refine (i4.insert hv hwn hws (Nat.pos_of_ne_zero hwp) ?_).mono fun u _ => List.mem_cons.symm
        rw [← hsy w v hwn hv]
        exact Nat.pos_of_ne_zero hwp

/-- The left side of a whole run of growing. -/
theorem GrownTo.linked {fp : FP} {g : Graph} (hsy : g.Symm) (hconn : g.Linked) {t : Target fp}
    (hfit : ∀ v, v < g.nv → g.vw v + nth t.tw 0 ≤ nth t.mx 0 + 1) {seed : Nat} {out : Nat → Nat}
    (hno : ∀ lab seen, Grown g t seed lab seen → GrownOut g t lab seen → ¬ OneMore g t lab seen)
    (h : GrownTo g t seed out) : g.SideLinked out 0 := by
  obtain ⟨hseed, lab, seen, hgr, hout, hx⟩ := h
  rcases hx with ⟨ho, -⟩ | ⟨-, rfl⟩
  · exact absurd ho (hno lab seen hgr hout)
  · obtain ⟨k1, -, -, k4⟩ := hgr.linked hsy hconn hfit hseed
    refine k4.mono fun v hv => ?_
    rw [k1 v hv]
    by_cases h : v ∈ seen <;> simp [h]

/-- No further vertex is added if the right side fits when the left one has its target. -/
theorem no_oneMore {fp : FP} {g : Graph} (hsy : g.Symm) (hconn : g.Linked) {t : Target fp}
    (hfit : ∀ v, v < g.nv → g.vw v + nth t.tw 0 ≤ nth t.mx 0 + 1) (hsum : g.sumVtx ≤ nth t.tw 0 + nth t.mx 1) {seed : Nat}
    (hseed : seed < g.nv) : ∀ lab seen, Grown g t seed lab seen → GrownOut g t lab seen → ¬ OneMore g t lab seen := by
  intro lab seen hgr hout ho
  obtain ⟨k1, -, -, -⟩ := hgr.linked hsy hconn hfit hseed
  have h2 : ∀ v, v < g.nv → lab v < 2 := fun v hv => by rw [k1 v hv]; split <;> decide
  have hs := partWeight_two h2
  have h1 := ho.1
  rcases hout with h | h
  · omega
  · have : partWeight g lab 1 = 0 := by
      unfold partWeight
      refine sum_eq_zero fun v hv => if_neg ?_
      have hv := mem_range.mp hv
      rw [k1 v hv, if_pos (h v hv)]
      decide
    omega

/-- **C123.** Breadth-first bisection of a connected graph in which every vertex fits on the left side as long as that is below
its target, and in which the right side fits once the left one has its target, gives a connected left side. -/
theorem C123_grown_side {E : Env} {g : Graph} (hg : g.Good) (hconn : g.Linked) {t : Target E.fp} (ht : t.Two)
    (hfit : ∀ v, v < g.nv → g.vw v + nth t.tw 0 ≤ nth t.mx 0 + 1) (hsum : g.sumVtx ≤ nth t.tw 0 + nth t.mx 1) {r : E.rng.S}
    {p : Partitioning} {r' : E.rng.S} (h : bfsBisect t g r = ok (p, r')) : g.SideLinked p.lab 0 := by
  have hgr := ((C74_bfs hg ht r).1 p r' h).2
  exact hgr.linked hg.symm hconn hfit (no_oneMore hg.symm hconn hfit hsum hgr.1)

/-- **C123, unit weights.** Breadth-first bisection of a connected graph of vertices of weight 1 into two equal parts gives a
connected left side, of half of the vertices rounded down. -/
theorem C123_unit [Concrete.Log2Impl] {g : Graph} (hg : g.Good) (hconn : g.Linked) (hu : ∀ v, v < g.nv → g.vw v = 1)
    {tol : Concrete.fp.F} (htol : Concrete.fp.le (Concrete.fp.lit 0 0) tol = true) {t : Target Concrete.fp}
    (ht : Target.uniform (fp := Concrete.fp) 2 g.nv tol = ok t) {r : rng.S} {p : Partitioning} {r' : rng.S}
    (h : bfsBisect (E := dblEnv pq set rng) t g r = ok (p, r')) :
    g.SideLinked p.lab 0 ∧ sideSize g p.lab 0 = g.nv / 2 := by
  have hc := unitCase hg hu htol ht
  have hgr := ((C74_bfs (E := dblEnv pq set rng) hg hc.even.two r).1 p r' h).2
  have w0 : nth t.tw 0 = g.nv / 2 := by rw [hc.even.tw]; rfl
  have hle := hc.le
  have m0 := hc.m0
  have m1 := hc.m1
  refine ⟨hgr.linked hg.symm hconn (fun v hv => by rw [hu v hv]; omega) fun lab seen h1 h2 ho => ?_,
    ((C107_bfs (pq := pq) (set := set) hg hu htol ht r).1 p r' h).1⟩
  obtain ⟨k1, k2, k3, k4, k5, k6⟩ := grown_unit hu (by omega) h1
  have t1 := partWeight_two k1
  have hsum := hc.sum
  have hpw : partWeight g lab 0 = g.nv / 2 := by
    rcases h2 with h | h
    · omega
    · have : (List.range g.nv).length ≤ seen.length :=
        (List.subperm_of_subset List.nodup_range fun v hv => h v (List.mem_range.mp hv)).length_le
      rw [List.length_range] at this
      omega
  obtain ⟨o1, -, o3⟩ := ho
  have e : 1 + partWeight g lab 0 = partWeight g lab 1 := by omega
  rw [m0, m1, e] at o3
  exact absurd (o3.symm.trans (F64_lt_self _)) (by decide)

/-! ### The first part of a call -/

theorem vertsOf_inj {g : Graph} {lab : Nat → Nat} {p i j : Nat} (hi : i < (vertsOf g lab p).length)
    (hj : j < (vertsOf g lab p).length) (h : nth (vertsOf g lab p) i = nth (vertsOf g lab p) j) : i = j := by
  have hnd : (vertsOf g lab p).Nodup := fiber_nodup lab g.nv p
  rw [nth_eq_getElem hi, nth_eq_getElem hj] at h
  exact (List.Nodup.getElem_inj_iff hnd).mp h

/-- Connected vertices of a graph are connected in the subgraph they induce. -/
theorem IsInduced.linked {g s : Graph} {lab : Nat → Nat} {p : Nat} (h : IsInduced g lab p s) (hg : g.WF)
    (hl : g.SideLinked lab p) : s.Linked := by
  intro i j hi hj _ _
  obtain ⟨hvi, hpi⟩ := h.vert hi
  obtain ⟨hvj, hpj⟩ := h.vert hj
  have key : ∀ u, Relation.ReflTransGen (fun a b => b < g.nv ∧ lab b = p ∧ 0 < g.wt a b) (nth (vertsOf g lab p) i) u →
      u < g.nv ∧ lab u = p ∧ ∀ k, k < s.nv → nth (vertsOf g lab p) k = u →
        Relation.ReflTransGen (fun a b => b < s.nv ∧ True ∧ 0 < s.wt a b) i k := by
    intro u hp
    induction hp with
    | refl =>
      refine ⟨hvi, hpi, fun k hk e => ?_⟩
      rw [h.nv] at hk hi
      rw [vertsOf_inj hk hi e]
    | @tail b c _ hbc ih =>
      obtain ⟨i1, i2, i3⟩ := ih
      refine ⟨hbc.1, hbc.2.1, fun k hk e => ?_⟩
      obtain ⟨m, hm, em⟩ := h.index i1 i2
      refine (i3 m hm em).tail ⟨hk, trivial, ?_⟩
      rw [h.wt hg hm hk, em, e]
      exact hbc.2.2
  exact (key _ (hl _ _ hvi hvj hpi hpj)).2.2 j hj rfl

/-- Connected vertices of an induced subgraph are connected in the graph. -/
theorem IsInduced.lift {g s : Graph} {lab : Nat → Nat} {p : Nat} (h : IsInduced g lab p s) (hg : g.WF) {P Q : Nat → Prop}
    (hl : LinkedIn s.nv s.wt Q) (hP : ∀ v, v < g.nv → P v → lab v = p)
    (hPQ : ∀ k, k < s.nv → (Q k ↔ P (nth (vertsOf g lab p) k))) : LinkedIn g.nv g.wt P := by
  intro v u hv hu pv pu
  obtain ⟨i, hi, rfl⟩ := h.index hv (hP v hv pv)
  obtain ⟨j, hj, rfl⟩ := h.index hu (hP u hu pu)
  have key : ∀ k, Relation.ReflTransGen (fun a b => b < s.nv ∧ Q b ∧ 0 < s.wt a b) i k → k < s.nv ∧
      Relation.ReflTransGen (fun a b => b < g.nv ∧ P b ∧ 0 < g.wt a b) (nth (vertsOf g lab p) i) (nth (vertsOf g lab p) k) := by
    intro k hk
    induction hk with
    | refl => exact ⟨hi, .refl⟩
    | @tail b c _ hbc ih =>
      refine ⟨hbc.1, ih.2.tail ⟨(h.vert hbc.1).1, (hPQ c hbc.1).mp hbc.2.1, ?_⟩⟩
      rw [← h.wt hg ih.1 hbc.1]
      exact hbc.2.2
  exact (key j (hl i j hi hj ((hPQ i hi).mpr pv) ((hPQ j hj).mpr pu))).2

theorem MLBisected.coarsestGrown {E : Env} {s : Scheme} {t : Target E.fp} {g : Graph} {r : E.rng.S} {lab : Nat → Nat}
    {r' : E.rng.S} (h : MLBisected E s t g r lab r') (hstop : g.nv ≤ 20 ∨ g.ne = 0) : ∃ seed, GrownTo g t seed lab := by
  obtain ⟨hier, h⟩ := h
  cases h with
  | coarsest _ hi => exact hi.grown
  | level hn => exact absurd (hstop.elim Or.inl fun h => Or.inr (Or.inl h)) hn

/-- The first part of a run on a small connected graph of unit weights is connected. -/
theorem RBRun.firstLinked [Concrete.Log2Impl] {s : Scheme} {a b : Nat} (ha : 0 < a) (hab : a ≤ b) {tw mx : List Nat} {g : Graph}
    {r : rng.S} {lab : Nat → Nat} {r' : rng.S} (h : RBRun (MLBisected (dblEnv pq set rng) s) tw mx g r lab r') :
    ∀ m, tw = List.replicate m a → mx = List.replicate m b → Even a m g → g.Good → (m - m / 2) * b < 4294967296 →
      m * a < 4294967296 → g.Linked → g.SideLinked lab 0 := by
  induction h with
  | leaf hk _ h =>
    intro _ _ _ _ _ _ _ hl
    exact LinkedIn.mono hl fun v hv => ⟨fun _ => h v hv, fun _ => trivial⟩
  | @node tw mx g lab bt side sL sR labL labR r r1 r2 r3 hk hm hbt hR hp hL hRt runL runR labelsL labelsR ihL _ =>
    intro m e1 e2 hE hg hb hk' hl
    subst e1 e2
    simp only [List.length_replicate, List.take_replicate] at hk ihL labelsR
    rw [Nat.min_eq_left (Nat.div_le_self m 2)] at ihL
    obtain ⟨w0, w1⟩ := hR.even hE hk ha hab hb hk' hbt hp
    obtain ⟨t1, t2, t3, t4⟩ := even_halves hE hk ha hab hb hk' hbt
    obtain ⟨seed, hgr⟩ := MLBisected.coarsestGrown (E := dblEnv pq set rng) hR hE.stop
    have hfit : ∀ v, v < g.nv → g.vw v + nth bt.tw 0 ≤ nth bt.mx 0 + 1 := fun v hv => by rw [hE.unit v hv]; omega
    have hside := hgr.linked hg.symm hl hfit (no_oneMore hg.symm hl hfit (by rw [unit_sum hE.unit]; exact t4) hgr.1)
    have hle : ∀ x y, x ≤ y → x * b ≤ y * b := fun x y h => Nat.mul_le_mul_right _ h
    have hle' : ∀ x y, x ≤ y → x * a ≤ y * a := fun x y h => Nat.mul_le_mul_right _ h
    have hsub := ihL _ rfl rfl (hL.even hg.wf hE w0) (hL.good hg hL.valid)
        (lt_of_le_of_lt (hle _ _ (by omega)) hb) (lt_of_le_of_lt (hle' _ _ (by omega)) hk') (hL.linked hg.wf hside)
    refine hL.lift hg.wf hsub (fun v hv h0 => ?_) fun k hk => by rw [labelsL k hk]
    by_contra hne
    obtain ⟨j, hj, rfl⟩ := hRt.index hv (by have := hp v hv; omega)
    rw [labelsR j hj] at h0
    omega

/-- The vertices of the caller's graph with label `q` are connected among themselves. -/
def Input.PartLinked (i : Input) (lab : Nat → Nat) (q : Nat) : Prop := LinkedIn i.numVertices i.wt fun v => lab v = q

theorem Input.Describes.wt_eq {i : Input} (hv : i.Valid) {g : Graph} (h : i.Describes g) {v u : Nat} (hv' : v < i.numVertices) :
    i.wt v u = g.wt v u := by
  unfold Input.wt csrWt Graph.wt Graph.wsum
  rw [h.nbrs v hv', List.map_map, ← sum_list_range' (hv.csr.mono v hv')]
  refine congrArg List.sum (List.map_congr_left fun e _ => ?_)
  simp

theorem LinkedIn.congr {n : Nat} {wt wt' : Nat → Nat → Nat} {P : Nat → Prop} (h : LinkedIn n wt P)
    (he : ∀ v u, v < n → wt v u = wt' v u) : LinkedIn n wt' P := by
  intro v u hv hu h1 h2
  have key : ∀ x, Relation.ReflTransGen (fun a b => b < n ∧ P b ∧ 0 < wt a b) v x →
      x < n ∧ Relation.ReflTransGen (fun a b => b < n ∧ P b ∧ 0 < wt' a b) v x := by
    intro x hx
    induction hx with
    | refl => exact ⟨hv, .refl⟩
    | @tail b c _ hbc ih => exact ⟨hbc.1, ih.2.tail ⟨hbc.1, hbc.2.1, by rw [← he b c ih.1]; exact hbc.2.2⟩⟩
  exact (key u (h v u hv hu h1 h2)).2

/-- **C123, the first part of a call.** A call on a connected graph of at most twenty vertices of weight 1, whose number is a
positive multiple of the number of parts, succeeds, and the vertices of part 0 are connected among themselves. -/
theorem C123_first_part [Concrete.Log2Impl] (pq : PQImpl) (set : SetImpl) (rng : RngImpl) {i : Input} (hv : i.Valid)
    (hconn : i.Linked) (hone : ∀ v, v < i.numVertices → weightAt i.vertexWeights v = 1) (hsmall : i.numVertices ≤ 20)
    (hk : 2 ≤ i.numPartitions) {c : Nat} (hc : 0 < c)
    (hdiv : i.numVertices = i.numPartitions * c) {o : Options Concrete.fp} (ho : o.Known)
    (hcuts : 0 < o.numGlobalCuts) {out : Out} (hb : i.numVertices ≤ out.asg.length) :
    ∃ out', partGraphRecursive (dblEnv pq set rng) i (some o) out = (out', ok 1) ∧
      (∀ q, q < i.numPartitions → i.partSize (nth out'.asg) q = c) ∧ i.PartLinked (nth out'.asg) 0 := by
  have hk' : i.numPartitions ≤ 48 := by
    have := Nat.le_mul_of_pos_right i.numPartitions hc
    omega
  obtain ⟨out', h, hsz⟩ := C90_exact_parts pq set rng hv hone (Or.inl hsmall) hk hk' hc hdiv ho hcuts hb
  refine ⟨out', h, hsz, ?_⟩
  have htot := unit_total hone
  have hlt := hv.vtxFits
  rw [show (∑ v ∈ range i.numVertices, weightAt i.vertexWeights v) = i.totalWeight from rfl, htot] at hlt
  have hlt' : i.numPartitions * c < 4294967296 := by rw [← hdiv]; simpa using hlt
  obtain ⟨P, hp, hfit⟩ := prepare_total (E := dblEnv pq set rng) Concrete.uniformOK hv (by omega) (by omega) ho
  have hP := prepare_ok hv hp
  have ht := hP.target
  rw [htot, hdiv] at ht
  obtain ⟨b, etw, emx, hcb, hb'⟩ := exact_shares hk hk' hlt' ht
  obtain ⟨g, s, tw, mx, labs, j, hcall⟩ := C75_call (pq := pq) (set := set) (rng := rng) hv hk (by omega) hcuts h
  obtain ⟨r', hrep⟩ := hcall.runs
  obtain ⟨r0, r1, hrun⟩ := hrep.all _ (nth_mem hcall.index)
  have hes := evenShares ht
  have htw : tw = List.replicate i.numPartitions c := by
    refine List.ext_getElem (by rw [hcall.shares.len.1]; simp) fun q h1 h2 => ?_
    have hq : q < i.numPartitions := by simpa using h2
    have h4 := hcall.shares.target q hq
    rw [htot, hdiv] at h4
    have := toU32_inj h4 (hes.target q hq)
    rw [etw, nth_replicate hq, nth_eq_getElem h1] at this
    rw [this]; simp
  have hmx : mx = List.replicate i.numPartitions b := by
    refine List.ext_getElem (by rw [hcall.shares.len.2]; simp) fun q h1 h2 => ?_
    have hq : q < i.numPartitions := by simpa using h2
    have h4 := hcall.shares.limit q hq
    rw [htot, hdiv] at h4
    have := toU32_inj h4 (hes.limit q hq)
    rw [emx, nth_replicate hq, nth_eq_getElem h1] at this
    rw [this]; simp
  have hnv := hcall.graph.nv
  have hgl : g.Linked := by
    unfold Graph.Linked
    rw [hnv]
    refine LinkedIn.congr (wt := i.wt) (fun v u hv hu _ _ => ?_) fun v u hv' => hcall.graph.wt_eq hv hv'
    exact Relation.ReflTransGen.mono (fun a b hab => ⟨hab.1, trivial, hab.2⟩) _ _ (hconn v u hv hu)
  have hE : Even c i.numPartitions g := ⟨fun v hv => by
    rw [hnv] at hv
    rw [hcall.graph.vw v hv, hone v hv], by rw [hnv, hdiv], Or.inl (by rw [hnv]; exact hsmall)⟩
  have hfl := hrun.firstLinked hc hcb _ htw hmx hE hcall.good hb' hlt' hgl
  unfold Graph.SideLinked at hfl
  rw [hnv] at hfl
  exact (hfl.congr fun v u hv' => (hcall.graph.wt_eq hv hv').symm).mono fun v hv' => by rw [hcall.labels v hv']

theorem not_linked {n : Nat} {wt : Nat → Nat → Nat} {P : Nat → Prop} {v u : Nat} (hv : v < n) (hu : u < n) (pv : P v) (pu : P u)
    (hne : u ≠ v) (hno : ∀ b, b < n → P b → b ≠ v → wt v b = 0) : ¬ LinkedIn n wt P := by
  intro h
  obtain ⟨x, y, rfl, hy, h1, h2, h3⟩ := leaves (A := (· = v)) (h v u hv hu pv pu) rfl hne
  have := hno y h1 h2 hy
  omega

namespace Ex

/-- The path 1 - 0 - 2 - 3 with edges of weights 1, 2 and 1, in two parts. -/
def midIn : Input :=
  { numVertices := 4, edgePrefix := [0, 2, 3, 5, 6], edgeList := [1, 2, 0, 0, 3, 2], vertexWeights := some [1, 1, 1, 1],
    edgeWeights := some [1, 2, 1, 2, 1, 1], numPartitions := 2 }

theorem midIn_valid : midIn.Valid :=
  valid_of (by constructor <;> decide +kernel) (by decide +kernel) (by decide +kernel) (by decide +kernel)
    (by decide +kernel)

theorem midIn_linked : midIn.Linked := by
  have st : ∀ a b, b < 4 → 0 < midIn.wt a b →
      Relation.ReflTransGen (fun a b => b < midIn.numVertices ∧ 0 < midIn.wt a b) a b :=
    fun a b hb hw => Relation.ReflTransGen.single ⟨hb, hw⟩
  have e10 := st 1 0 (by decide) (by decide +kernel)
  have e01 := st 0 1 (by decide) (by decide +kernel)
  have e02 := st 0 2 (by decide) (by decide +kernel)
  have e20 := st 2 0 (by decide) (by decide +kernel)
  have e23 := st 2 3 (by decide) (by decide +kernel)
  have e32 := st 3 2 (by decide) (by decide +kernel)
  have down : ∀ v, v < 4 → Relation.ReflTransGen (fun a b => b < midIn.numVertices ∧ 0 < midIn.wt a b) v 0 := by
    intro v hv
    obtain rfl | rfl | rfl | rfl : v = 0 ∨ v = 1 ∨ v = 2 ∨ v = 3 := by omega
    · exact .refl
    · exact e10
    · exact e20
    · exact e32.trans e20
  have up : ∀ v, v < 4 → Relation.ReflTransGen (fun a b => b < midIn.numVertices ∧ 0 < midIn.wt a b) 0 v := by
    intro v hv
    obtain rfl | rfl | rfl | rfl : v = 0 ∨ v = 1 ∨ v = 2 ∨ v = 3 := by omega
    · exact .refl
    · exact e01
    · exact e02
    · exact e02.trans e23
  exact fun v u hv hu => (down v hv).trans (up u hu)

/-- A path of vertices of weights 2, 5, 2 and 1, in two parts. -/
def gapIn : Input :=
  { numVertices := 4, edgePrefix := [0, 1, 3, 5, 6], edgeList := [1, 0, 2, 1, 3, 2], vertexWeights := some [2, 5, 2, 1],
    edgeWeights := none, numPartitions := 2 }

theorem gapIn_valid : gapIn.Valid :=
  valid_of (by constructor <;> decide +kernel) (by decide +kernel) (by decide +kernel) (by decide +kernel)
    (by decide +kernel)

end Ex

/-- **C123, the other parts.** Part 1 need not be connected, even where two connected parts of the same cut exist. -/
theorem C123_second_part : Ex.midIn.Valid ∧ Ex.midIn.Linked ∧
    partGraphRecursive Concrete.env Ex.midIn (some (Ex.cuts 2)) { cut := 0, asg := [0, 0, 0, 0] } =
      ({ cut := 2, asg := [0, 1, 0, 1] }, ok 1) ∧
    ¬ Ex.midIn.PartLinked (nth [0, 1, 0, 1]) 1 ∧ Ex.midIn.cut (nth [0, 0, 1, 1]) = 2 := by
  refine ⟨Ex.midIn_valid, Ex.midIn_linked, by decide +kernel, ?_, by decide +kernel⟩
  exact not_linked (v := 1) (u := 3) (by decide) (by decide) (by decide) (by decide) (by decide) (by decide +kernel)

/-- **C123, heavy vertices.** Part 0 need not be connected either if a vertex is too heavy to be taken: growing goes on behind
it. -/
theorem C123_heavy_gap : Ex.gapIn.Valid ∧
    partGraphRecursive Concrete.env Ex.gapIn (some (Ex.cuts 2)) { cut := 0, asg := [0, 0, 0, 0] } =
      ({ cut := 2, asg := [0, 1, 0, 0] }, ok 1) ∧ ¬ Ex.gapIn.PartLinked (nth [0, 1, 0, 0]) 0 := by
  refine ⟨Ex.gapIn_valid, by decide +kernel, ?_⟩
  exact not_linked (v := 0) (u := 2) (by decide) (by decide) (by decide) (by decide) (by decide) (by decide +kernel)

/-- The hypotheses of `C123_first_part` are met by the path. -/
example : Ex.midIn.Valid ∧ Ex.midIn.Linked ∧ (∀ v, v < Ex.midIn.numVertices → weightAt Ex.midIn.vertexWeights v = 1) ∧
    Ex.midIn.numVertices ≤ 20 ∧ 2 ≤ Ex.midIn.numPartitions ∧ Ex.midIn.numVertices = Ex.midIn.numPartitions * 2 ∧
    (defaultOptions Concrete.fp).Known ∧ 0 < (defaultOptions Concrete.fp).numGlobalCuts :=
  ⟨Ex.midIn_valid, Ex.midIn_linked, by decide +kernel, by decide, by decide, by decide, Or.inr rfl, by decide⟩

/-- A graph in which every vertex but the first is joined to an earlier one is connected. -/
theorem linked_of_tree {n : Nat} {wt : Nat → Nat → Nat}
    (h : ∀ v, v < n → 0 < v → ∃ w, w < v ∧ 0 < wt v w ∧ 0 < wt w v) : LinkedIn n wt fun _ => True := by
  have key : ∀ v, v < n → Relation.ReflTransGen (fun a b => b < n ∧ True ∧ 0 < wt a b) v 0 ∧
      Relation.ReflTransGen (fun a b => b < n ∧ True ∧ 0 < wt a b) 0 v := by
    intro v
    induction v using Nat.strong_induction_on with
    | _ v ih =>
      intro hv
      rcases Nat.eq_zero_or_pos v with rfl | hpos
      · exact ⟨.refl, .refl⟩
      · obtain ⟨w, h1, h2, h3⟩ := h v hv hpos
        obtain ⟨k1, k2⟩ := ih w h1 (by omega)
        exact ⟨.head ⟨by omega, trivial, h2⟩ k1, k2.tail ⟨hv, trivial, h3⟩⟩
  exact fun v u hv hu _ _ => (key v hv).1.trans (key u hu).2

theorem tri2_linked : Ex.tri2.Linked := linked_of_tree (by decide +kernel)

/-- The hypotheses of `C123_grown_side` are met, with vertices of different weights. -/
example : Ex.tri2.Good ∧ Ex.tri2.Linked ∧ wide.Two ∧ (∀ v, v < Ex.tri2.nv → Ex.tri2.vw v + nth wide.tw 0 ≤ nth wide.mx 0 + 1) ∧
    Ex.tri2.sumVtx ≤ nth wide.tw 0 + nth wide.mx 1 ∧
    ∃ p, bfsBisect (E := Concrete.env) wide Ex.tri2 () = ok (p, ()) := by
  refine ⟨Ex.tri2_good, tri2_linked, ⟨rfl, rfl, rfl, rfl⟩, by decide +kernel, by decide +kernel, ?_⟩
  obtain ⟨⟨p, ⟨⟩⟩, h⟩ := (C74_bfs (E := Concrete.env) Ex.tri2_good (t := wide) ⟨rfl, rfl, rfl, rfl⟩ ()).2 (by decide) tri2_hasWeights
  exact ⟨p, h⟩

/-- The hypotheses of `C123_unit` are met by the complete graph of four vertices. -/
example : Ex.k4.Good ∧ Ex.k4.Linked ∧ (∀ v, v < Ex.k4.nv → Ex.k4.vw v = 1) ∧
    Concrete.fp.le (Concrete.fp.lit 0 0) (Concrete.fp.lit 0 0) = true ∧
    Target.uniform (fp := Concrete.fp) 2 Ex.k4.nv (Concrete.fp.lit 0 0) = ok Ex.k4Target ∧
    (bfsBisect (E := Concrete.env) Ex.k4Target Ex.k4 ()).value = ok { cut := 4, pw := [2, 2], asg := [0, 1, 1, 0] } :=
  ⟨Ex.k4_good, linked_of_tree (by decide +kernel), Ex.k4_unit, by decide +kernel, Ex.k4Target_uniform, by decide +kernel⟩

end Poros
