import Verif.Proofs.DebugLone
import Verif.Props.P26_FM
/-
C95: the assertions of two-way refinement (debug build).
-/
namespace Poros
open Finset Res

/-- **C95.** Whatever refinement returns in a debug build, it returns in a release build, for all arguments. -/
theorem C95_same_result {E : Env} (g : Graph) (t : Target E.fp) (maxIters maxMoves : Nat) (p : Partitioning)
    (c : Conn E.set) {r : Partitioning × Conn E.set} (h : fmRefineD g t maxIters maxMoves p c = ok r) :
    fmRefine g t maxIters maxMoves p c = ok r :=
  fmRefineD_sim g t maxIters maxMoves p c r h

/-- **C95.** If every vertex has edges of positive weight and the target fractions are positive, no assertion of
refinement fails: the debug build does what the release build does. -/
theorem C95_assertions_hold {E : Env} {g : Graph} (hg : g.Good) {t : Target E.fp} (ht : t.Two)
    (hf : ∀ q, q < 2 → E.fp.lt (E.fp.lit 0 0) (nth t.frac q) = true)
    (hd : ∀ v, v < g.nv → 0 < g.wsum v fun _ => true) (maxIters maxMoves : Nat) {p : Partitioning} {c : Conn E.set}
    (hp : IsExact g 2 p) (hc : ConnExact g p.lab c) :
    fmRefineD g t maxIters maxMoves p c = fmRefine g t maxIters maxMoves p c :=
  (fmRefineD_close (H := True) hg ht (fun _ => ⟨hf, hd⟩) maxIters maxMoves hp hc).eq trivial

/-- **C95.** On any well-formed graph the assertions themselves are well defined: the debug build does what the release
build does or stops at an assertion. -/
theorem C95_or_stops {E : Env} {g : Graph} (hg : g.Good) {t : Target E.fp} (ht : t.Two) (maxIters maxMoves : Nat)
    {p : Partitioning} {c : Conn E.set} (hp : IsExact g 2 p) (hc : ConnExact g p.lab c) :
    fmRefineD g t maxIters maxMoves p c = fmRefine g t maxIters maxMoves p c ∨
      fmRefineD g t maxIters maxMoves p c = exn :=
  (fmRefineD_close (H := False) hg ht (fun h => h.elim) maxIters maxMoves hp hc).imp id And.right

theorem calcMaxImbalanceD_bad' {fp : FP} {g : Graph} {t : Target fp} (ht : t.Two) {p : Partitioning}
    (hp : p.pw.length = 2) {q : Nat} (hq : q < 2) (hf : fp.lt (fp.lit 0 0) (nth t.frac q) = false) :
    calcMaxImbalanceD g p t = exn := by
  have hbad : ∀ i, i < 2 → fp.lt (fp.lit 0 0) (nth t.frac i) = false → getImbalanceD g p t i = exn := by
    intro i hi h
    unfold getImbalanceD
    rw [rd_of_lt (by rw [ht.frac]; exact hi), ok_bind, check_false (by rw [h]; simp)]
    rfl
  unfold calcMaxImbalanceD findMaxD
  rw [hp, show List.range 2 = [0, 1] from rfl, List.foldlM_cons]
  cases h0 : fp.lt (fp.lit 0 0) (nth t.frac 0) with
  | false => rw [hbad 0 (by omega) h0]; rfl
  | true =>
    have h1 : fp.lt (fp.lit 0 0) (nth t.frac 1) = false := by
      have : q = 0 ∨ q = 1 := by omega
      rcases this with rfl | rfl
      · rw [hf] at h0; cases h0
      · exact hf
    have g0 : getImbalanceD g p t 0 = getImbalance g p t 0 := by
      unfold getImbalanceD
      rw [rd_of_lt (by rw [ht.frac]; omega), ok_bind, check_bind h0]
    have g0' : ∃ x, getImbalance g p t 0 = ok x := by
      unfold getImbalance getFraction
      rw [rd_of_lt (by rw [ht.frac]; omega), rd_of_lt (by rw [hp]; omega)]
      exact ⟨_, rfl⟩
    obtain ⟨x, hx⟩ := g0'
    rw [g0, hx, ok_bind]
    have rest : ∀ s : Nat × fp.F, ([1] : List Nat).foldlM (fun best i => do
        let f ← getImbalanceD g p t i
        if fp.lt best.2 f then (.ok (i, f) : Res (Nat × fp.F)) else .ok best) s = exn := by
      intro s
      rw [List.foldlM_cons, hbad 1 (by omega) h1]
      rfl
    split <;> (rw [ok_bind, rest]; rfl)

theorem calcMaxImbalanceD_bad {fp : FP} {g : Graph} {t : Target fp} (ht : t.Two) {p : Partitioning}
    (hp : IsExact g 2 p) {q : Nat} (hq : q < 2) (hf : fp.lt (fp.lit 0 0) (nth t.frac q) = false) :
    calcMaxImbalanceD g p t = exn := calcMaxImbalanceD_bad' ht hp.pw_len hq hf

/-- **C95.** A target fraction that is not positive (0 or NaN) makes refinement stop at an assertion. -/
theorem C95_fraction_stops {E : Env} {g : Graph} {t : Target E.fp} (ht : t.Two) {q : Nat} (hq : q < 2)
    (hf : E.fp.lt (E.fp.lit 0 0) (nth t.frac q) = false) {maxIters : Nat} (maxMoves : Nat) (hi : 0 < maxIters)
    (hb : E.fp.BadMovesOK g.nv) {p : Partitioning} (c : Conn E.set) (hp : IsExact g 2 p) :
    fmRefineD g t maxIters maxMoves p c = exn := by
  obtain ⟨m, rfl⟩ : ∃ m, maxIters = m + 1 := ⟨maxIters - 1, by omega⟩
  unfold fmRefineD maxBadMoves FP.cast
  obtain ⟨n, hn⟩ := Option.isSome_iff_exists.mp hb
  rw [hn, ok_bind, ok_bind]
  unfold fmItersD fmPassD
  rw [calcMaxImbalanceD_bad ht hp hq hf]
  rfl

/-- **C95.** On a graph of at most 25 vertices, refinement in a debug build stops at an assertion exactly if a target
fraction is not positive or some vertex has no edges of positive weight. (The release build refines all of these.) -/
theorem C95_small_graphs {E : Env} {g : Graph} (hg : g.Good) {t : Target E.fp} (ht : t.Two) (hn : g.nv ≤ 25)
    {maxIters maxMoves : Nat} (hi : 0 < maxIters) (hm : 25 ≤ maxMoves) (hb : E.fp.BadMovesOK g.nv)
    {p : Partitioning} {c : Conn E.set} (hp : IsExact g 2 p) (hc : ConnExact g p.lab c) :
    (∃ r, fmRefine g t maxIters maxMoves p c = ok r) ∧
    (fmRefineD g t maxIters maxMoves p c = exn ↔
      (∃ q, q < 2 ∧ E.fp.lt (E.fp.lit 0 0) (nth t.frac q) = false) ∨
      ∃ v, v < g.nv ∧ g.wsum v (fun _ => true) = 0) := by
  obtain ⟨r, hr, -⟩ := sat_iff.mp (fmRefine_spec (B := False) hg ht maxIters maxMoves hp hc (fun h => h hb))
  refine ⟨⟨r, hr⟩, fun h => ?_, ?_⟩
  · by_contra hcon
    rw [not_or] at hcon
    have := C95_assertions_hold hg ht (fun q hq => ?_) (fun v hv => ?_) maxIters maxMoves hp hc
    · rw [this, hr] at h; cases h
    · cases hh : E.fp.lt (E.fp.lit 0 0) (nth t.frac q) with
      | true => rfl
      | false => exact absurd ⟨q, hq, hh⟩ hcon.1
    · by_contra hh
      exact hcon.2 ⟨v, hv, by omega⟩
  · rintro (⟨q, hq, hf⟩ | ⟨v, hv, hd⟩)
    · exact C95_fraction_stops ht hq hf maxMoves hi hb c hp
    · obtain ⟨n, hn'⟩ := Option.isSome_iff_exists.mp hb
      refine fmRefineD_lone hg ⟨hv, hd⟩ ht (b := min maxMoves (max n 25)) hi ?_ (by omega) hp hc
      unfold maxBadMoves FP.cast
      rw [hn']; rfl

/-! ### the hypotheses hold for real graphs -/

/-- No assertion fails on the two weighted triangles. -/
example : ∃ c, Conn.fromPartitioning Concrete.env.set Ex.tri2 Ex.badPart = ok c ∧
    fmRefineD (E := Concrete.env) Ex.tri2 halves 8 150 Ex.badPart c =
      fmRefine (E := Concrete.env) Ex.tri2 halves 8 150 Ex.badPart c := by
  obtain ⟨c, h1, h2, h3⟩ := start_good Concrete.env
  exact ⟨c, h1, C95_assertions_hold (E := Concrete.env) Ex.tri2_good halves_two (by decide +kernel) (by decide +kernel)
    8 150 h2 h3⟩

/-- The debug build stops on an edge and a vertex without edges, which the release build refines. -/
example : ∃ c r, Conn.fromPartitioning Concrete.env.set loneGraph ⟨4, [2, 1], [0, 1, 0]⟩ = ok c ∧
    fmRefine (E := Concrete.env) loneGraph halves 8 150 ⟨4, [2, 1], [0, 1, 0]⟩ c = ok r ∧
    fmRefineD (E := Concrete.env) loneGraph halves 8 150 ⟨4, [2, 1], [0, 1, 0]⟩ c = exn := by
  have hw : loneGraph.WF := by constructor <;> decide +kernel
  have hg : loneGraph.Good := ⟨hw, Graph.symm_of (by decide +kernel), by unfold Graph.NoLoop; decide +kernel,
    by constructor <;> decide +kernel⟩
  have hp : IsExact loneGraph 2 ⟨4, [2, 1], [0, 1, 0]⟩ := by constructor <;> decide +kernel
  obtain ⟨c, h1, h2, h3⟩ := sat_iff.mp (fromPartitioning_spec Concrete.env.set hw hg.small hp.asg_len)
  have hb : Concrete.env.fp.BadMovesOK loneGraph.nv := by
    show Option.isSome _ = true
    decide +kernel
  obtain ⟨⟨r, hr⟩, hd⟩ := C95_small_graphs (E := Concrete.env) (t := halves) hg halves_two (by decide) (maxIters := 8)
    (maxMoves := 150) (by omega) (by omega) hb hp h2
  exact ⟨c, r, h1, hr, hd.mpr (Or.inr ⟨2, by decide, by decide +kernel⟩)⟩

end Poros
