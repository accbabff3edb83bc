import Verif.Proofs.DebugRB
import Verif.Proofs.Api
/-
The assertions of a whole call.
-/
namespace Poros
open Finset Res

variable {E : Env}

theorem rbExecuteD_close {d b : Bisector E} (hd : ∀ bt g r, g.Good → bt.Two → Close False (d bt g r) (b bt g r))
    (hb : ∀ bt g r o, g.Good → bt.Two → b bt g r = ok o → IsExact g 2 o.1) {H : Prop} {t : Target E.fp} {g : Graph}
    (hk : 2 ≤ t.k) (hk' : t.k < M32) (htw : t.tw.length = t.k) (hmx : t.mx.length = t.k) (hg : g.Good)
    (hA : H → RBAssert d b t g) (r : E.rng.S) : Close H (rbExecuteD d t g r) (rbExecute b t g r) := by
  unfold rbExecuteD rbExecute
  refine (rbRecurseD_close hd hb t.k t ⟨none, g⟩ 0 (Mem.alloc g.nv, r) hk hk' htw hmx hg trivial hA).bind fun o _ =>
    Close.bind_ok fun labels _ => ?_
  refine Close.bind ?_ fun _ _ => Close.refl _
  unfold Partitioning.ofLabelsD
  exact Close.check (fun _ => by omega) (Close.refl _)

theorem makeMultilevel_exact (s : Scheme) {bt : Target E.fp} {g : Graph} {r : E.rng.S} {o : Partitioning × E.rng.S}
    (hg : g.Good) (ht : bt.Two) (h : (makeMultilevel E s).execute bt g r = ok o) : IsExact g 2 o.1 :=
  ((Multilevel.execute_spec (B := True) (makeMultilevel_contract s ht g.totVtx (fun _ => trivial)) hg
    ⟨Or.inl trivial, rfl⟩ (fun _ => trivial) r).elim_ok h).1

theorem partitionerD_close {H : Prop} (s : Scheme) {t : Target E.fp} {g : Graph}
    (hk : 2 ≤ t.k) (hk' : t.k < M32) (htw : t.tw.length = t.k) (hmx : t.mx.length = t.k) (hg : g.Good)
    (hA : H → RBAssert (makeMultilevelD E s).executeD (makeMultilevel E s).execute t g) (r : E.rng.S) :
    Close H (partitionerD E s t g r) (partitioner E s t g r) :=
  rbExecuteD_close (fun _ _ r hg ht => executeD_close (H := False) s ht (fun h => h.elim) hg (fun h => h.elim) r)
    (fun _ _ _ _ hg ht h => makeMultilevel_exact s hg ht h) hk hk' htw hmx hg hA r

/-- For two parts: the assertions hold if those of the bisector do. -/
theorem RBAssert.of_two {s : Scheme} {t : Target E.fp} {g : Graph} (hk : t.k = 2) (htw : t.tw.length = t.k)
    (hle : ∀ q, q < 2 → nth t.tw q ≤ nth t.mx q)
    (hbt : ∀ bt : Target E.fp, IsHalvesTarget t.tw t.mx bt → PosFrac bt 2 ∧ ∀ maxW, E.fp.cast (E.fp.div (E.fp.mul
      (E.fp.lit 15 1) (E.fp.ofNat g.totVtx)) (E.fp.ofNat 20)) = ok maxW → MLAssert g bt maxW) :
    RBAssert (makeMultilevelD E s).executeD (makeMultilevel E s).execute t g := by
  refine ⟨fun tw mx g' => tw.length = 2 ∧ tw = t.tw ∧ mx = t.mx ∧ g' = g, ⟨?_, ?_, ?_, ?_⟩, by rw [htw, hk], rfl, rfl, rfl⟩
  · rintro _ _ _ ⟨h2, rfl, rfl, rfl⟩ q hq
    exact hle q (by omega)
  · rintro _ _ _ bt ⟨h2, rfl, rfl, rfl⟩ _ h
    exact (hbt bt h).1
  · rintro _ _ _ bt r ⟨h2, rfl, rfl, rfl⟩ hg h
    exact (executeD_close (H := True) s h.two (fun _ => (hbt bt h).1) hg (fun _ => (hbt bt h).2) r).eq trivial
  · rintro _ _ _ bt r o ⟨h2, rfl, rfl, rfl⟩ _ _ _ _ hlt
    omega

/-! ### the loop over cuts, and the call -/

theorem cutsLoop_close {H : Prop} {S : Type} {d b : S → Res (Partitioning × S)} (h : ∀ s, Close H (d s) (b s)) (n i best : Nat)
    (out : Out) (s : S) : cutsLoop d n i best out s = cutsLoop b n i best out s ∨
      (¬ H ∧ (cutsLoop d n i best out s).2 = exn) := by
  induction n generalizing i best out s with
  | zero => exact Or.inl rfl
  | succ n ih =>
    unfold cutsLoop
    rcases h s with hs | ⟨hn, hs⟩
    · rw [hs]
      cases hr : b s with
      | ok x =>
        simp only [andThen]
        split
        · unfold writeOut
          cases hw : x.1.output out.asg with
          | ok w => simp only [andThen]; exact ih _ _ _ _
          | ub => exact Or.inl rfl
          | exn => exact Or.inl rfl
          | diverge => exact Or.inl rfl
        · exact ih _ _ _ _
      | ub => exact Or.inl rfl
      | exn => exact Or.inl rfl
      | diverge => exact Or.inl rfl
    · rw [hs]
      exact Or.inr ⟨hn, rfl⟩

theorem callD_close {H : Prop} {i : Input} {o : Options E.fp} (h : ∀ P, prepare E i o = ok P → ∀ r,
      Close H (partitionerD E P.scheme P.target P.graph r) (partitioner E P.scheme P.target P.graph r)) (out : Out) :
    partGraphRecursiveD E i (some o) out = partGraphRecursive E i (some o) out ∨
      (¬ H ∧ (partGraphRecursiveD E i (some o) out).2 = exn) := by
  unfold partGraphRecursiveD partGraphRecursive
  simp only
  cases hp : prepare E i o with
  | ok p =>
    simp only [andThen]
    rcases cutsLoop_close (h p hp) o.numGlobalCuts.toNat 0 0 out (E.rng.seed o.randomSeed) with hl | ⟨hn, hl⟩
    · exact Or.inl (by rw [hl])
    · exact Or.inr ⟨hn, by rw [hl]⟩
  | ub => exact Or.inl rfl
  | exn => exact Or.inl rfl
  | diverge => exact Or.inl rfl

end Poros
