import Verif.Props.P70_FMTrace
import Verif.Props.P27_Uniform
import Verif.Props.P26_FM
/-
C121: when refinement stops by itself, no single move is better.
-/
namespace Poros
open Finset Res

/-- Moving a single vertex does not help: either no move lowers the cut, or the move of some vertex that lowers it the most
would leave the limits of the target. -/
def NoBetterMove {fp : FP} (g : Graph) (t : Target fp) (lab : Nat → Nat) : Prop :=
  (∀ v, v < g.nv → cutWeight g lab ≤ cutWeight g (flip lab v)) ∨
  ∃ v, v < g.nv ∧ (∀ u, u < g.nv → cutWeight g (flip lab v) ≤ cutWeight g (flip lab u)) ∧ ¬ Balanced g t (flip lab v)

theorem cut_gain {g : Graph} (hg : g.Good) {lab : Nat → Nat} (h2 : ∀ u, u < g.nv → lab u < 2) {v : Nat} (hv : v < g.nv) :
    (cutWeight g (flip lab v) : Int) = cutWeight g lab - gain g lab v := by
  have := cut_flip hg.symm hg.noLoop lab (flip lab v) hv (fun u _ hne => flip_ne lab hne) h2 (flip_self lab v)
  unfold gain
  omega

/-- The first move of a pass that accepted nothing so far. -/
theorem PassTo.first {fp : FP} {g : Graph} {t : Target fp} {maxBad : Nat} {a lab best : Nat → Nat} {moved : List Nat} {bad : Nat}
    (h : PassTo g t maxBad a lab best moved bad) :
    bad = moved.length → (moved = [] ∧ lab = a) ∨ ∃ C v, CandSet g a [] C ∧ Chosen g t a C v ∧ ¬ Improves g t a (flip a v) := by
  induction h with
  | start => intro _; exact Or.inl ⟨rfl, rfl⟩
  | accept => intro h; simp at h
  | @reject lab best moved bad C v hrun _ hc hv hi ih =>
    intro h
    right
    have hb : bad = moved.length := by simpa using h
    rcases ih hb with ⟨rfl, rfl⟩ | h
    · cases hrun with
      | start => exact ⟨C, v, hc, hv, hi⟩
    · exact h

/-- A fruitless pass from a bisection within the limits. -/
theorem PassDone.noBetterMove {fp : FP} {g : Graph} (hg : g.Good) {t : Target fp} {maxBad : Nat} (hm : 0 < maxBad)
    {a b : Nat → Nat} (h2 : ∀ v, v < g.nv → a v < 2) (hbal : Balanced g t a) (h : PassDone g t maxBad a b true) :
    NoBetterMove g t a := by
  obtain ⟨lab, moved, bad, hrun, hend, hfr⟩ := h
  by_contra hno
  unfold NoBetterMove at hno
  rw [not_or] at hno
  obtain ⟨h1, h3⟩ := hno
  push Not at h1 h3
  obtain ⟨v, hv, hlt⟩ := h1
  have hgv := cut_gain hg h2 hv
  have hext : 0 < externalWeight g a v := by unfold gain at hgv; omega
  rcases hrun.first (hfr.mp rfl) with ⟨rfl, rfl⟩ | ⟨C, w, hC, hw, himp⟩
  · rcases hend with rfl | hend
    · have := hfr.mp rfl
      simp at this
      omega
    · exact hend.all v hv (by simp) hext
  · have hrel : ∀ s, s < 2 → ¬ MustRelieve g t a C s := fun s hs hm => by
      have := hbal s hs
      have := hm.1
      omega
    have hbest := hw.free (hrel 0 (by omega)) (hrel 1 (by omega))
    have hwn := (hC.only w hw.cand).1
    have hgw := cut_gain hg h2 hwn
    have hvw := hbest v (hC.all v hv (by simp) hext)
    have hcut : cutWeight g (flip a w) < cutWeight g a := by omega
    have hB := h3 w hwn fun u hu => by
      have hgu := cut_gain hg h2 hu
      by_cases hue : 0 < externalWeight g a u
      · have := hbest u (hC.all u hu (by simp) hue)
        omega
      · have : gain g a u ≤ 0 := by unfold gain; omega
        omega
    exact himp (Or.inr ⟨hcut, Or.inl hB⟩)

/-- What a pass from a bisection within the limits keeps. -/
theorem PassTo.kept {fp : FP} {g : Graph} (hg : g.Good) {t : Target fp} (hcons : Consistent t g.totVtx) {maxBad : Nat}
    {a lab best : Nat → Nat} {moved : List Nat} {bad : Nat} (h2 : ∀ v, v < g.nv → a v < 2) (hbal : Balanced g t a)
    (h : PassTo g t maxBad a lab best moved bad) :
    (∀ v, v < g.nv → lab v < 2) ∧ (∀ v, v < g.nv → best v < 2) ∧ Balanced g t best ∧ bad ≤ moved.length ∧
      (bad = moved.length ∨ cutWeight g best < cutWeight g a) ∧ cutWeight g best ≤ cutWeight g a := by
  have htot : g.totVtx = g.sumVtx := by rw [hg.wf.tot_vtx, Nat.mod_eq_of_lt hg.small.vtx]
  induction h with
  | start => exact ⟨h2, h2, hbal, le_refl _, Or.inl rfl, le_refl _⟩
  | @accept lab best moved bad C v _ _ _ _ hi ih =>
    obtain ⟨i1, i2, i3, i4, i5, i6⟩ := ih
    have hl := flip_lt i1 v
    obtain ⟨s1, s2⟩ := (hcons.step htot i2 hl hi).1 i3
    exact ⟨hl, hl, s1, Nat.zero_le _, Or.inr (by omega), by omega⟩
  | @reject lab best moved bad C v _ _ _ _ _ ih =>
    obtain ⟨i1, i2, i3, i4, i5, i6⟩ := ih
    exact ⟨flip_lt i1 v, i2, i3, by simpa using i4, by simpa using i5, i6⟩

/-- A whole refinement from a bisection within the limits: it ends where no single move is better, or has lowered the cut
in every pass. -/
theorem Refined.noBetterMove {fp : FP} {g : Graph} (hg : g.Good) {t : Target fp} (hcons : Consistent t g.totVtx)
    {maxBad n : Nat} (hm : 0 < maxBad) {a b : Nat → Nat} (h : Refined g t maxBad n a b) :
    (∀ v, v < g.nv → a v < 2) → Balanced g t a →
    Balanced g t b ∧ (NoBetterMove g t b ∨ cutWeight g b + n ≤ cutWeight g a) := by
  induction h with
  | zero => exact fun _ hb => ⟨hb, Or.inr (by omega)⟩
  | last h =>
    intro h2 hb
    rw [h.fruitless]
    exact ⟨hb, Or.inl (h.noBetterMove hg hm h2 hb)⟩
  | more h _ ih =>
    intro h2 hb
    obtain ⟨lab, moved, bad, hrun, -, hfr⟩ := h
    obtain ⟨-, k2, k3, -, k5, k6⟩ := hrun.kept hg hcons h2 hb
    obtain ⟨i1, i2⟩ := ih k2 k3
    refine ⟨i1, i2.imp_right fun hle => ?_⟩
    rcases k5 with h | h
    · exact absurd (hfr.mpr h) (by simp)
    · omega

/-- **C121.** Refining a bisection within the limits (which the target's fractions match) gives a bisection within the limits
that no single move makes better: no vertex lowers the cut when moved, or a vertex that lowers it the most does not fit on the
other side. Only if every one of the allowed passes lowered the cut may that fail. -/
theorem C121_local_optimum {E : Env} {g : Graph} (hg : g.Good) {t : Target E.fp} (ht : t.Two)
    (hcons : Consistent t g.totVtx) (maxIters : Nat) {maxMoves : Nat} (hm : 0 < maxMoves) {p : Partitioning} {c : Conn E.set}
    (hp : IsExact g 2 p) (hc : ConnExact g p.lab c) (hbal : Balanced g t p.lab) {r : Partitioning × Conn E.set}
    (hr : fmRefine g t maxIters maxMoves p c = ok r) :
    Balanced g t r.1.lab ∧ (NoBetterMove g t r.1.lab ∨ r.1.cut + maxIters ≤ p.cut) := by
  obtain ⟨a, -, h⟩ := C70_fm_run hg ht maxIters maxMoves hp hc hr
  rw [((C26_fm_exact hg ht maxIters maxMoves hp hc).1 r hr).1.cut_eq, hp.cut_eq]
  exact h.noBetterMove hg hcons (by omega) hp.complete hbal

/-- **C121, uniform target.** The same for the two equal parts of the library, in doubles. -/
theorem C121_uniform [Concrete.Log2Impl] {pq : PQImpl} {set : SetImpl} {rng : RngImpl} {g : Graph} (hg : g.Good)
    {tol : Concrete.fp.F} {t : Target Concrete.fp} (ht : Target.uniform (fp := Concrete.fp) 2 g.totVtx tol = ok t)
    (maxIters : Nat) {maxMoves : Nat} (hm : 0 < maxMoves) {p : Partitioning} {c : Conn set} (hp : IsExact g 2 p)
    (hc : ConnExact g p.lab c) (hbal : Balanced g t p.lab) {r : Partitioning × Conn set}
    (hr : fmRefine (E := dblEnv pq set rng) g t maxIters maxMoves p c = ok r) :
    Balanced g t r.1.lab ∧ (NoBetterMove g t r.1.lab ∨ r.1.cut + maxIters ≤ p.cut) := by
  have hn := hg.tot_lt
  obtain ⟨M, hs⟩ := SameTwo.uniform (by omega) ht
  exact C121_local_optimum (E := dblEnv pq set rng) hg hs.two (hs.consistent hn) maxIters hm hp hc hbal hr

/-- **C121, with room.** If every vertex fits on the other side, the result is a local optimum: no single move lowers the
cut. -/
theorem C121_with_room {E : Env} {g : Graph} (hg : g.Good) {t : Target E.fp} (ht : t.Two)
    (hcons : Consistent t g.totVtx) (maxIters : Nat) {maxMoves : Nat} (hm : 0 < maxMoves) {p : Partitioning} {c : Conn E.set}
    (hp : IsExact g 2 p) (hc : ConnExact g p.lab c) (hbal : Balanced g t p.lab) {r : Partitioning × Conn E.set}
    (hr : fmRefine g t maxIters maxMoves p c = ok r) (hcut : p.cut < r.1.cut + maxIters)
    (hroom : ∀ v, v < g.nv → Balanced g t (flip r.1.lab v)) :
    ∀ v, v < g.nv → cutWeight g r.1.lab ≤ cutWeight g (flip r.1.lab v) := by
  rcases (C121_local_optimum hg ht hcons maxIters hm hp hc hbal hr).2 with (h | ⟨v, hv, -, hb⟩) | h
  · exact h
  · exact absurd (hroom v hv) hb
  · omega

/-- A target that leaves much room: neither side of `tri2` may weigh more than 7 of 9. -/
def wide : Target Concrete.env.fp :=
  { k := 2, frac := [Concrete.fp.lit 5 1, Concrete.fp.lit 5 1], tw := [4, 4], mx := [7, 7] }

theorem wide_consistent : Consistent wide Ex.tri2.totVtx where
  threshold := ⟨Concrete.fp.lit 6 1, _, _, rfl, by decide +kernel⟩
  lt_le := F64_lt_le
  le_trans := F64_le_trans

def mixedPart : Partitioning := { cut := 10, pw := [3, 6], asg := [0, 1, 0, 1, 0, 1] }

theorem wide_refined : (do
    let c ← Conn.fromPartitioning Concrete.env.set Ex.tri2 mixedPart
    let r ← fmRefine (E := Concrete.env) Ex.tri2 wide 20 150 mixedPart c
    (.ok r.1 : Res Partitioning)) = ok { cut := 1, pw := [4, 5], asg := [0, 0, 0, 1, 1, 1] } := by decide +kernel

/-- The hypotheses are met, also those of `C121_with_room`: a bisection with cut 10 is refined to one with cut 1 in less than
twenty passes, and every vertex fits on the other side of it. -/
example : ∃ c r, Ex.tri2.Good ∧ wide.Two ∧ Consistent wide Ex.tri2.totVtx ∧ IsExact Ex.tri2 2 mixedPart ∧
    ConnExact Ex.tri2 mixedPart.lab c ∧ Balanced Ex.tri2 wide mixedPart.lab ∧
    fmRefine (E := Concrete.env) Ex.tri2 wide 20 150 mixedPart c = ok r ∧ mixedPart.cut < r.1.cut + 20 ∧
    ∀ v, v < Ex.tri2.nv → Balanced Ex.tri2 wide (flip r.1.lab v) := by
  have hex : IsExact Ex.tri2 2 mixedPart := by constructor <;> decide +kernel
  obtain ⟨c, hc, hce, -⟩ := sat_iff.mp
    (fromPartitioning_spec Concrete.env.set Ex.tri2_wf Ex.tri2_small (p := mixedPart) (by decide))
  have hw : wide.Two := ⟨rfl, rfl, rfl, rfl⟩
  obtain ⟨r, hr⟩ := (C26_fm_exact (E := Concrete.env) Ex.tri2_good hw 20 150 hex hce).2 (by decide +kernel)
  have h := wide_refined
  rw [hc, ok_bind, hr, ok_bind] at h
  have h := Res.ok.inj h
  refine ⟨c, r, Ex.tri2_good, hw, wide_consistent, hex, hce, by decide +kernel, hr, ?_, ?_⟩
  · rw [h]; decide
  · rw [h]; decide +kernel

end Poros
