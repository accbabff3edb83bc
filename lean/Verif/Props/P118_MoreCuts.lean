import Verif.Props.P38_Api
import Verif.ExamplesApi
/-
C118: asking for more cuts never makes the answer worse.
-/
namespace Poros
open Res
variable {E : Env}

theorem output_cut {p : Partitioning} {buf : List Nat} {w : Nat × List Nat} (h : p.output buf = ok w) : w.1 = p.cut :=
  (output_isOutput (out := ⟨0, buf⟩) h).cut

/-- One run of the loop over the cuts that did not fail. -/
theorem cutsLoop_succ {S : Type} {run : S → Res (Partitioning × S)} {n i b : Nat} {out : Out} {s : S}
    (h : (cutsLoop run (n + 1) i b out s).2 = ok ()) :
    ∃ b' out' s', (∀ m, cutsLoop run (m + 1) i b out s = cutsLoop run m (i + 1) b' out' s') ∧
      ((out'.cut = b' ∧ (i ≠ 0 → b' < b)) ∨ (i ≠ 0 ∧ b' = b ∧ out' = out)) := by
  cases hr : run s with
  | ub => simp [cutsLoop, hr, andThen] at h
  | exn => simp [cutsLoop, hr, andThen] at h
  | diverge => simp [cutsLoop, hr, andThen] at h
  | ok o =>
    obtain ⟨p, s'⟩ := o
    by_cases hb : i = 0 ∨ p.cut < b
    · cases ho : p.output out.asg with
      | ub => simp [cutsLoop, hr, andThen, hb, writeOut, ho] at h
      | exn => simp [cutsLoop, hr, andThen, hb, writeOut, ho] at h
      | diverge => simp [cutsLoop, hr, andThen, hb, writeOut, ho] at h
      | ok w =>
        refine ⟨p.cut, { cut := w.1, asg := w.2 }, s', fun m => by simp [cutsLoop, hr, andThen, hb, writeOut, ho],
          Or.inl ⟨output_cut ho, fun hi => ?_⟩⟩
        rcases hb with h | h
        · exact absurd h hi
        · exact h
    · refine ⟨b, out, s', fun m => by simp [cutsLoop, hr, andThen, hb], Or.inr ⟨fun h => hb (Or.inl h), rfl, rfl⟩⟩

/-- More runs, once there is an answer. -/
theorem cutsLoop_more {S : Type} {run : S → Res (Partitioning × S)} :
    ∀ (n i b : Nat) (out : Out) (s : S), i ≠ 0 → out.cut = b → (cutsLoop run n i b out s).2 = ok () →
      (cutsLoop run n i b out s).1 = out ∨ (cutsLoop run n i b out s).1.cut < out.cut
  | 0, _, _, _, _, _, _, _ => Or.inl rfl
  | n + 1, i, b, out, s, hi, hb, h => by
    obtain ⟨b', out', s', he, hc⟩ := cutsLoop_succ h
    rw [he] at h ⊢
    rcases hc with ⟨h1, h2⟩ | ⟨-, rfl, rfl⟩
    · have hlt := h2 hi
      rcases cutsLoop_more n (i + 1) b' out' s' (Nat.succ_ne_zero i) h1 h with h3 | h3
      · right; rw [h3]; omega
      · right; omega
    · exact cutsLoop_more n (i + 1) b' out' s' (Nat.succ_ne_zero i) hb h

/-- Fewer runs succeed if more do, and what more runs change is for the better. -/
theorem cutsLoop_fewer {S : Type} {run : S → Res (Partitioning × S)} :
    ∀ (m n i b : Nat) (out : Out) (s : S), (i ≠ 0 → out.cut = b) → (i ≠ 0 ∨ 0 < m) →
      (cutsLoop run (m + n) i b out s).2 = ok () →
      (cutsLoop run m i b out s).2 = ok () ∧
      ((cutsLoop run (m + n) i b out s).1 = (cutsLoop run m i b out s).1 ∨
        (cutsLoop run (m + n) i b out s).1.cut < (cutsLoop run m i b out s).1.cut)
  | 0, n, i, b, out, s, hb, hi, h => by
    rw [Nat.zero_add] at h ⊢
    have hi : i ≠ 0 := by omega
    exact ⟨rfl, cutsLoop_more n i b out s hi (hb hi) h⟩
  | m + 1, n, i, b, out, s, hb, hi, h => by
    rw [show m + 1 + n = (m + n) + 1 by omega] at h ⊢
    obtain ⟨b', out', s', he, hc⟩ := cutsLoop_succ h
    rw [he] at h ⊢
    rw [he]
    refine cutsLoop_fewer m n (i + 1) b' out' s' (fun _ => ?_) (Or.inl (Nat.succ_ne_zero i)) h
    rcases hc with ⟨h1, -⟩ | ⟨h1, rfl, rfl⟩
    · exact h1
    · exact hb h1

/-- **C118.** If a call with `c'` cuts returns 1, so does the same call with any smaller positive number of cuts, and the two
answers are either the same, cut and labels, or the call with more cuts reports a smaller cut: whatever the arrays describe. -/
theorem C118_more_cuts {i : Input} {o : Options E.fp} {c c' : Int} (hc : 0 < c) (hcc : c ≤ c') {out out' : Out}
    (h : partGraphRecursive E i (some { o with numGlobalCuts := c' }) out = (out', ok 1)) :
    ∃ best, partGraphRecursive E i (some { o with numGlobalCuts := c }) out = (best, ok 1) ∧
      (out' = best ∨ out'.cut < best.cut) := by
  obtain ⟨P, hp, hl⟩ := call_ok h
  have hp' : prepare E i { o with numGlobalCuts := c } = ok P := hp
  obtain ⟨n, hn⟩ : ∃ n, c'.toNat = c.toNat + n := ⟨c'.toNat - c.toNat, by omega⟩
  have hpos : 0 < c.toNat := by omega
  have hl : cutsLoop (partitioner E P.scheme P.target P.graph) (c.toNat + n) 0 0 out (E.rng.seed o.randomSeed) =
      (out', ok ()) := by rw [← hn]; exact hl
  obtain ⟨h1, h2⟩ := cutsLoop_fewer c.toNat n 0 0 out (E.rng.seed o.randomSeed) (fun h => absurd rfl h) (Or.inr hpos)
    (by rw [hl])
  rw [hl] at h2
  revert h1 h2
  generalize hL : cutsLoop (partitioner E P.scheme P.target P.graph) c.toNat 0 0 out (E.rng.seed o.randomSeed) = l
  obtain ⟨l1, l2⟩ := l
  rintro rfl h2
  refine ⟨l1, ?_, h2⟩
  unfold partGraphRecursive
  simp only [hp', andThen, hL]

/-- So the cut of a call with more cuts is at most that of a call with fewer. -/
theorem C118_cut_le {i : Input} {o : Options E.fp} {c c' : Int} (hc : 0 < c) (hcc : c ≤ c') {out a b : Out}
    (ha : partGraphRecursive E i (some { o with numGlobalCuts := c }) out = (a, ok 1))
    (hb : partGraphRecursive E i (some { o with numGlobalCuts := c' }) out = (b, ok 1)) : b.cut ≤ a.cut := by
  obtain ⟨best, h1, h2⟩ := C118_more_cuts hc hcc hb
  rw [ha] at h1
  cases h1
  rcases h2 with rfl | h2
  · exact le_refl _
  · exact h2.le

/-- An engine that counts: its random numbers stay the same for eight draws, those of one run, and then go up by one. -/
def slowRng : RngImpl where
  S := Nat
  seed s := s
  perm s n := (List.range n, s)
  rand s lo hi := (lo + s / 8 % (hi - lo + 1), s + 1)
  sortRandom s keys := (Concrete.sortKeys keys, s)
  sort := Concrete.sortKeys
  perm_perm _ _ := List.Perm.refl _
  rand_range s lo hi h := by
    have : s / 8 % (hi - lo + 1) < hi - lo + 1 := Nat.mod_lt _ (by omega)
    exact ⟨by omega, by simp only; omega⟩
  sortRandom_perm _ _ := List.perm_insertionSort _ _
  sortRandom_sorted _ keys := Concrete.sortKeys_sorted keys
  sort_perm _ := List.perm_insertionSort _ _
  sort_sorted keys := Concrete.sortKeys_sorted keys

def slowEnv : Env := { Concrete.env with rng := slowRng }

/-- The path 1 - 4 - 2 - 0 - 3 - 5 with unit weights. -/
def zigzagIn : Input :=
  { numVertices := 6, edgePrefix := [0, 2, 3, 5, 7, 9, 10], edgeList := [3, 2, 4, 4, 0, 5, 0, 1, 2, 3],
    vertexWeights := some [1, 1, 1, 1, 1, 1], edgeWeights := none, numPartitions := 2 }

/-- With one cut the path is cut twice, with two or three cuts once: the hypotheses are met, and both cases of the
conclusion happen. -/
example : partGraphRecursive slowEnv zigzagIn (some { defaultOptions Concrete.fp with numGlobalCuts := 1 }) Ex.before =
      ({ cut := 2, asg := [0, 1, 0, 1, 0, 1, 9, 9] }, ok 1) ∧
    partGraphRecursive slowEnv zigzagIn (some { defaultOptions Concrete.fp with numGlobalCuts := 2 }) Ex.before =
      ({ cut := 1, asg := [1, 0, 0, 1, 0, 1, 9, 9] }, ok 1) ∧
    partGraphRecursive slowEnv zigzagIn (some { defaultOptions Concrete.fp with numGlobalCuts := 3 }) Ex.before =
      ({ cut := 1, asg := [1, 0, 0, 1, 0, 1, 9, 9] }, ok 1) := by
  refine ⟨?_, ?_, ?_⟩ <;> decide +kernel

end Poros
