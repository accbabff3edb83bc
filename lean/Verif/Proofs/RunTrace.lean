import Verif.SpecRun
import Verif.Proofs.InitTrace
import Verif.Props.P74_Init
/-
Repeated initial bisection against the specification in SpecRun.lean.
-/
namespace Poros
open Finset Res

variable {E : Env}

structure MultiTrace (R : E.rng.S → (Nat → Nat) → E.rng.S → Prop) (t : Target E.fp) (g : Graph) (r0 : E.rng.S) (m : Nat)
    (s : MultiState E) : Prop where
  init : m = 0 → s.found = false
  cand : ∃ cs, Repeated R r0 cs s.rng ∧ cs.length = m ∧
    (0 < m → s.bestCut = cutWeight g s.best.lab ∧ s.bestBal = maxImbalance g t s.best.lab ∧
      s.found = decide (Balanced g t s.best.lab) ∧ BestOf g t cs s.best.lab)

theorem multiStep_trace {g : Graph} {t : Target E.fp} (ht : t.Two) {bis : Bisector E}
    {R : E.rng.S → (Nat → Nat) → E.rng.S → Prop}
    (hbis : ∀ r, Post True (bis t g r) (fun o => IsExact g 2 o.1 ∧ R r o.1.lab o.2)) {r0 : E.rng.S}
    {m : Nat} {s : MultiState E} (h : MultiTrace R t g r0 m s) :
    Post True (multiStep bis t g s m) (MultiTrace R t g r0 (m + 1)) := by
  obtain ⟨hinit, cs, hc, hlen, hk⟩ := h
  unfold multiStep
  refine (hbis s.rng).bind fun o ho => ?_
  obtain ⟨hex, hRo⟩ := ho
  simp only
  rw [calcMaxImbalance_eq ht hex, ok_bind, isBalanced_eq ht hex, ok_bind]
  have hlen' : (cs ++ [o.1.lab]).length = m + 1 := by simp [hlen]
  by_cases h0 : m = 0
  · subst h0
    rw [if_pos (by simp)]
    refine ⟨fun h => by omega, cs ++ [o.1.lab], .more hc hRo, hlen', fun _ => ⟨hex.cut_eq, rfl, ?_, ?_⟩⟩
    · by_cases hb : Balanced g t o.1.lab
      · simp [hb]
      · simp [hb, hinit rfl]
    · rw [List.eq_nil_of_length_eq_zero hlen]; exact .first
  · obtain ⟨k1, k2, k3, k4⟩ := hk (by omega)
    have hiff : (decide (m = 0) || (!s.found && E.fp.lt (maxImbalance g t o.1.lab) s.bestBal) ||
        (s.found && decide (Balanced g t o.1.lab) && decide (o.1.cut < s.bestCut))) = true ↔
        Better g t s.best.lab o.1.lab := by
      rw [k1, k2, k3, hex.cut_eq]
      unfold Better
      by_cases hb : Balanced g t s.best.lab <;> simp [hb, h0]
    split
    · rename_i hacc
      have hbt := hiff.mp hacc
      refine ⟨fun h => by omega, cs ++ [o.1.lab], .more hc hRo, hlen', fun _ => ⟨hex.cut_eq, rfl, ?_, .take k4 hbt⟩⟩
      by_cases hb : Balanced g t o.1.lab
      · simp [hb]
      · simp only [hb, decide_false, Bool.false_eq_true, if_false]
        rw [k3]
        by_contra hc2
        simp only [decide_eq_false_iff_not, not_not] at hc2
        exact hb (hbt.1 hc2).1
    · rename_i hacc
      exact ⟨fun h => by omega, cs ++ [o.1.lab], .more hc hRo, hlen', fun _ => ⟨k1, k2, k3, .keep k4 fun h => hacc (hiff.mpr h)⟩⟩

theorem multiBisect_trace {g : Graph} {t : Target E.fp} (ht : t.Two) {bis : Bisector E}
    {R : E.rng.S → (Nat → Nat) → E.rng.S → Prop}
    (hbis : ∀ r, Post True (bis t g r) (fun o => IsExact g 2 o.1 ∧ R r o.1.lab o.2)) {n : Nat} (hn : 0 < n)
    (r : E.rng.S) :
    Post True (multiBisect n bis t g r) (fun o => ∃ cs, Repeated R r cs o.2 ∧ cs.length = n ∧ BestOf g t cs o.1.lab) := by
  unfold multiBisect
  refine (Post_foldlM_range (MultiTrace R t g r) ⟨fun _ => rfl, [], .none, rfl, by simp⟩
    (fun m s _ h => multiStep_trace ht hbis h)).bind fun s hs => ?_
  obtain ⟨-, cs, hc, hlen, hk⟩ := hs
  exact ⟨cs, hc, hlen, (hk hn).2.2.2⟩

/-- The library's initial bisector. -/
theorem sown_of {g : Graph} (hg : g.Good) {t : Target E.fp} (ht : t.Two) {r : E.rng.S} {p : Partitioning} {r' : E.rng.S}
    (h : makeBisector E .bfs 8 t g r = ok (p, r')) : Sown E t g r p.lab r' := by
  have := multiBisect_trace (n := 8) ht (bis := bfsBisect) (g := g)
    (R := fun r c r' => r' = (E.rng.rand r 0 (g.nv - 1)).2 ∧ GrownTo g t (E.rng.rand r 0 (g.nv - 1)).1 c)
    (fun r => may_iff.mpr fun o ho => ⟨((C31_bfs hg ht r).1 o.1 o.2 ho).1, (C74_bfs hg ht r).1 o.1 o.2 ho⟩)
    (by decide) r
  exact this.elim_ok h

end Poros
