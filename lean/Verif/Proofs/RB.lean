import Verif.SpecRB
import Verif.Proofs.Extract
import Verif.Proofs.Ends
import Verif.Props.P07_Subgraph
/-
Recursive bisection.
-/
namespace Poros
open Finset Res

variable {E : Env}

/-! ### Outcomes with separate conditions for undefined behaviour, exceptions and divergence -/

/-- A normal result satisfies `Q`; undefined behaviour needs `bu`, an exception `be`, divergence `bd`. -/
def Wp (bu be bd : Prop) (r : Res α) (Q : α → Prop) : Prop :=
  match r with
  | .ok a => Q a
  | .ub => bu
  | .exn => be
  | .diverge => bd

section wp
variable {bu be bd : Prop}

@[simp] theorem Wp_ok (a : α) (Q : α → Prop) : Wp bu be bd (ok a) Q ↔ Q a := Iff.rfl

theorem Wp.mono {r : Res α} {Q Q' : α → Prop} (h : Wp bu be bd r Q) (hq : ∀ a, Q a → Q' a) :
    Wp bu be bd r Q' := by
  cases r <;> first | exact hq _ h | exact h

theorem Wp.bind {r : Res α} {f : α → Res β} {Q : α → Prop} {Q' : β → Prop} (h : Wp bu be bd r Q)
    (hf : ∀ a, Q a → Wp bu be bd (f a) Q') : Wp bu be bd (r >>= f) Q' := by
  cases r <;> first | exact hf _ h | exact h

theorem Wp.of_sat {r : Res α} {Q : α → Prop} (h : Sat r Q) : Wp bu be bd r Q := by
  obtain ⟨a, rfl, ha⟩ := sat_iff.mp h; exact ha

theorem Wp.post {B : Prop} {r : Res α} {Q : α → Prop} : Wp B B B r Q ↔ Post B r Q := by
  cases r <;> rfl

theorem Wp.endsE {be : Prop} {r : Res α} {Q : α → Prop} : Wp True be False r Q ↔ EndsE be r Q := by
  cases r <;> exact Iff.rfl

theorem Wp.ends {r : Res α} {Q : α → Prop} : Wp True True False r Q ↔ Ends r Q := by
  cases r <;> rfl

theorem Wp.elim_ok {r : Res α} {a : α} {Q : α → Prop} (h : Wp bu be bd r Q) (hr : r = ok a) : Q a := by
  subst hr; exact h

theorem Wp.with_eq {r : Res α} {Q : α → Prop} (h : Wp bu be bd r Q) :
    Wp bu be bd r (fun a => Q a ∧ r = ok a) := by
  cases r <;> simp_all [Wp]

theorem Wp_foldlM_range {f : σ → Nat → Res σ} {n : Nat} {s : σ} (P : Nat → σ → Prop) (h0 : P 0 s)
    (hstep : ∀ i s, i < n → P i s → Wp bu be bd (f s i) (P (i + 1))) :
    Wp bu be bd ((List.range n).foldlM f s) (P n) := by
  induction n with
  | zero => simpa using h0
  | succ n ih =>
    rw [List.range_succ, List.foldlM_append]
    refine (ih (fun i s hi => hstep i s (by omega))).bind fun a ha => ?_
    rw [List.foldlM_cons]
    refine (hstep n a (by omega) ha).bind fun b hb => ?_
    simpa using hb

end wp

/-! ### Targets of halves -/

theorem ofWeights_ok {fp : FP} {n : Nat} {tw mx : List Nat} (h : n ≤ tw.length) :
    ∃ fr : List fp.F, fr.length = n ∧ Target.ofWeights n tw mx = ok ⟨n, fr, tw, mx⟩ ∧
      (n = tw.length → fr = shares fp tw) := by
  unfold Target.ofWeights calcFractions
  have h1 : ∃ tot, (List.range n).foldlM (fun acc i => (do
      let w ← rd tw i
      .ok (uadd acc w) : Res Nat)) 0 = ok tot ∧ tot = (tw.take n).sum % M32 := by
    refine sat_iff.mp (Post_foldlM_range (B := False) (f := fun acc i => (do
      let w ← rd tw i
      .ok (uadd acc w) : Res Nat)) (n := n) (s := 0) (P := fun i acc => acc = (tw.take i).sum % M32) (by simp) ?_)
    intro i s hi hs
    rw [rd_of_lt (by omega)]
    show uadd s (nth tw i) = _
    rw [List.take_succ_eq_append_getElem (show i < tw.length by omega), List.sum_append, List.sum_singleton,
      ← nth_eq_getElem (show i < tw.length by omega), hs]
    unfold uadd
    omega
  obtain ⟨tot, ht, hs⟩ := h1
  rw [ht, ok_bind, mapM_ok_eq_map (g := fun i => fp.mul (fp.ofNat (nth tw i)) (fp.div (fp.lit 1 0) (fp.ofNat tot)))]
  · refine ⟨_, by simp, rfl, fun hn => ?_⟩
    subst hn
    rw [List.take_length] at hs
    unfold shares
    rw [show tw.sum % 2 ^ 32 = tot from hs.symm]
    refine List.ext_getElem (by simp) fun i h1 h2 => ?_
    have hi : i < tw.length := by simpa using h1
    rw [List.getElem_map, List.getElem_map, List.getElem_range, nth_eq_getElem hi]
  · intro i hi
    rw [rd_of_lt (by have := List.mem_range.mp hi; omega)]; rfl

theorem halfMax_snoc {fp : FP} {k : Nat} {l : List (Nat × Nat)} {p : Nat × Nat} {m : Nat}
    (h : halfMax fp k l = some m) : halfMax fp k (l ++ [p]) = fp.toU32 (fp.add (fp.ofNat m)
      (fp.add (fp.ofNat p.1) (fp.mul (fp.ofNat (usub p.2 p.1)) (shareOf fp k)))) := by
  unfold halfMax at h ⊢
  rw [List.foldlM_append, h]
  simp only [Option.bind_eq_bind, Option.bind_some, List.foldlM_cons, List.foldlM_nil]
  cases fp.toU32 _ <;> rfl

theorem halfMax_ok {fp : FP} (hfp : fp.RecursiveOK) {k : Nat} (hk : 2 ≤ k) (hk' : k < M32) (l : List (Nat × Nat))
    (hle : ∀ p ∈ l, p.1 ≤ p.2) (hs : (l.map Prod.snd).sum < M32) :
    ∃ m, halfMax fp k l = some m ∧ (l.map Prod.fst).sum ≤ m ∧ m ≤ (l.map Prod.snd).sum ∧
      (k = 2 → m = (l.map Prod.snd).sum) := by
  induction l using List.reverseRecOn with
  | nil => exact ⟨0, rfl, by simp, by simp, by simp⟩
  | append_singleton l p ih =>
    simp only [List.map_append, List.map_cons, List.map_nil, List.sum_append, List.sum_cons, List.sum_nil] at hs ⊢
    obtain ⟨m, h1, h2, h3, h4⟩ := ih (fun q hq => hle q (by simp [hq])) (by omega)
    have hp := hle p (by simp)
    rw [halfMax_snoc h1, usub_eq hp (by omega)]
    obtain ⟨n, g1, g2, g3, g4⟩ := hfp.step k m p.1 (p.2 - p.1) hk hk' (by omega)
    exact ⟨n, g1, by omega, by omega, fun h => by have := h4 h; have := g4 h; omega⟩

theorem map_fst_zip' {l m : List Nat} (h : l.length = m.length) : (l.zip m).map Prod.fst = l :=
  List.map_fst_zip (by omega)
theorem map_snd_zip' {l m : List Nat} (h : l.length = m.length) : (l.zip m).map Prod.snd = m :=
  List.map_snd_zip (by omega)

theorem WeightsFit.zip_le {M : Nat} {tw mx : List Nat} (h : WeightsFit M tw mx) (hm : mx.length = tw.length) :
    ∀ p ∈ tw.zip mx, p.1 ≤ p.2 := by
  intro p hp
  obtain ⟨i, hi, rfl⟩ := List.getElem_of_mem hp
  have hi' : i < tw.length := by simp at hi; omega
  have := h.le i hi'
  rw [nth_eq_getElem hi', nth_eq_getElem (by omega)] at this
  simpa using this

/-- The limits of the halves lie between the sums of the targets and the sums of the maxima. -/
theorem IsHalvesTarget.bounds {fp : FP} (hfp : fp.RecursiveOK) {tw mx : List Nat} {bt : Target fp} {M : Nat}
    (h : IsHalvesTarget tw mx bt) (hk : 2 ≤ tw.length) (hk' : tw.length < M32) (hm : mx.length = tw.length)
    (hf : WeightsFit M tw mx) (hM : M < M32) :
    ((tw.take (tw.length / 2)).sum ≤ nth bt.mx 0 ∧ nth bt.mx 0 ≤ (mx.take (tw.length / 2)).sum) ∧
    ((tw.drop (tw.length / 2)).sum ≤ nth bt.mx 1 ∧ nth bt.mx 1 ≤ (mx.drop (tw.length / 2)).sum) ∧
    (tw.length = 2 → nth bt.mx 0 = nth mx 0 ∧ nth bt.mx 1 = nth mx 1) := by
  have hz := hf.zip_le hm
  have e1 : ((tw.zip mx).take (tw.length / 2)).map Prod.snd = mx.take (tw.length / 2) := by
    rw [List.map_take, map_snd_zip' hm.symm]
  have e2 : ((tw.zip mx).drop (tw.length / 2)).map Prod.snd = mx.drop (tw.length / 2) := by
    rw [List.map_drop, map_snd_zip' hm.symm]
  have e3 : ((tw.zip mx).take (tw.length / 2)).map Prod.fst = tw.take (tw.length / 2) := by
    rw [List.map_take, map_fst_zip' hm.symm]
  have e4 : ((tw.zip mx).drop (tw.length / 2)).map Prod.fst = tw.drop (tw.length / 2) := by
    rw [List.map_drop, map_fst_zip' hm.symm]
  have := hf.left
  have := hf.right
  obtain ⟨m1, a1, a2, a3, a4⟩ := halfMax_ok hfp hk hk' ((tw.zip mx).take (tw.length / 2))
    (fun p hp => hz p (List.mem_of_mem_take hp)) (by rw [e1]; omega)
  obtain ⟨m2, b1, b2, b3, b4⟩ := halfMax_ok hfp hk hk' ((tw.zip mx).drop (tw.length / 2))
    (fun p hp => hz p (List.mem_of_mem_drop hp)) (by rw [e2]; omega)
  have c1 := h.maxLeft
  have c2 := h.maxRight
  rw [a1] at c1
  rw [b1] at c2
  injection c1 with c1
  injection c2 with c2
  subst c1 c2
  rw [e1] at a3 a4
  rw [e2] at b3 b4
  rw [e3] at a2
  rw [e4] at b2
  refine ⟨⟨a2, a3⟩, ⟨b2, b3⟩, fun h2 => ⟨?_, ?_⟩⟩
  · rw [a4 h2]
    match mx, (show mx.length = 2 by omega) with
    | [a, b], _ => rw [h2]; simp [nth]
  · rw [b4 h2]
    match mx, (show mx.length = 2 by omega) with
    | [a, b], _ => rw [h2]; simp [nth]

/-! ### The loop over the parts -/

/-- State of the loop after `i` parts. -/
structure HalvesInv {fp : FP} (t : Target fp) (i : Nat) (s : Halves) : Prop where
  tw : s.tw = [((t.tw.take i).take (t.k / 2)).sum % M32, ((t.tw.take i).drop (t.k / 2)).sum % M32]
  mxLen : s.mx.length = 2
  left : halfMax fp t.k (((t.tw.zip t.mx).take i).take (t.k / 2)) = some (nth s.mx 0)
  right : halfMax fp t.k (((t.tw.zip t.mx).take i).drop (t.k / 2)) = some (nth s.mx 1)
  num : s.num = [min i (t.k / 2), i - t.k / 2, 0]

theorem take_succ_nth {α} [Inhabited α] {l : List α} {i : Nat} (h : i < l.length) :
    l.take (i + 1) = l.take i ++ [nth l i] := by
  rw [List.take_add_one, List.getElem?_eq_getElem h, nth_eq_getElem h]; rfl

theorem take_split_lt {α} [Inhabited α] {l : List α} {i h : Nat} (hi : i < l.length) (hh : i < h) :
    (l.take (i + 1)).take h = (l.take i).take h ++ [nth l i] ∧ (l.take (i + 1)).drop h = (l.take i).drop h := by
  refine ⟨?_, ?_⟩
  · rw [List.take_take, List.take_take, Nat.min_eq_right (by omega), Nat.min_eq_right (by omega), take_succ_nth hi]
  · rw [List.drop_eq_nil_of_le (by simp; omega), List.drop_eq_nil_of_le (by simp; omega)]

theorem take_split_ge {α} [Inhabited α] {l : List α} {i h : Nat} (hi : i < l.length) (hh : h ≤ i) :
    (l.take (i + 1)).take h = (l.take i).take h ∧ (l.take (i + 1)).drop h = (l.take i).drop h ++ [nth l i] := by
  refine ⟨?_, ?_⟩
  · rw [List.take_take, List.take_take, Nat.min_eq_left (by omega), Nat.min_eq_left (by omega)]
  · rw [take_succ_nth hi, List.drop_append_of_le_length (by simp; omega)]

theorem nth_zip {l m : List Nat} {i : Nat} (h : i < l.length) (h' : i < m.length) :
    nth (l.zip m) i = (nth l i, nth m i) := by
  rw [nth_eq_getElem (by simp; omega), nth_eq_getElem h, nth_eq_getElem h']; simp

theorem sum_snoc_mod (l : List Nat) (x : Nat) : uadd (l.sum % M32) x = (l ++ [x]).sum % M32 := by
  unfold uadd
  rw [List.sum_append]
  simp

section
variable {bu be bd : Prop}

theorem halvesStep_spec {fp : FP} {t : Target fp} (hk : 2 ≤ t.k) (hk' : t.k < M32) (htw : t.tw.length = t.k)
    (hmx : t.mx.length = t.k) {M : Nat} (hM : M < M32) (hfp : (fp.RecursiveOK ∧ WeightsFit M t.tw t.mx) ∨ bu)
    {i : Nat} (hi : i < t.k) {s : Halves} (hs : HalvesInv t i s) :
    Wp bu be bd (halvesStep t s i) (HalvesInv t (i + 1)) := by
  obtain ⟨stw, smx, snum⟩ := s
  obtain ⟨h1, h2, h3, h4, h5⟩ := hs
  simp only at h1 h2 h3 h4 h5
  subst h1 h5
  match smx, h2 with
  | [m0, m1], _ =>
  have e3 : nth [m0, m1] 0 = m0 := rfl
  have e4 : nth [m0, m1] 1 = m1 := rfl
  rw [e3] at h3
  rw [e4] at h4
  have hzl : i < (t.tw.zip t.mx).length := by simp; omega
  have hz : nth (t.tw.zip t.mx) i = (nth t.tw i, nth t.mx i) := nth_zip (by omega) (by omega)
  unfold halvesStep halfOf
  by_cases hh : t.k / 2 ≤ i
  · rw [if_pos hh]
    obtain ⟨a1, a2⟩ := take_split_ge (l := t.tw) (by omega : i < t.tw.length) hh
    obtain ⟨b1, b2⟩ := take_split_ge (l := t.tw.zip t.mx) hzl hh
    have hstep := halfMax_snoc (p := nth (t.tw.zip t.mx) i) h4
    rw [← b2, hz] at hstep
    simp only at hstep
    simp only [rd_of_lt (show i < t.tw.length by omega), rd_of_lt (show i < t.mx.length by omega), ok_bind]
    show Wp bu be bd (FP.cast fp _ >>= _) _
    unfold FP.cast
    have hq : toleranceFactor fp t.k = shareOf fp t.k := rfl
    have e5 : nth [m0, m1] 1 = m1 := rfl
    rw [hq, ← hstep]
    cases hc : halfMax fp t.k (((t.tw.zip t.mx).take (i + 1)).drop (t.k / 2)) with
    | none =>
      simp only [ub_bind]
      show bu
      rcases hfp with ⟨hl, hw⟩ | hb
      · exfalso
        have hle : ((((t.tw.zip t.mx).take (i + 1)).drop (t.k / 2)).map Prod.snd).sum < M32 := by
          have := hw.right
          rw [htw] at this
          refine lt_of_le_of_lt (le_trans ?_ this) hM
          rw [List.drop_take, List.map_take, List.map_drop, map_snd_zip' (by omega)]
          exact List.Sublist.sum_le_sum (List.take_sublist _ _) (by simp)
        obtain ⟨m, hm, -⟩ := halfMax_ok hl hk hk' (((t.tw.zip t.mx).take (i + 1)).drop (t.k / 2))
          (fun p hp => hw.zip_le (by omega) p (List.mem_of_mem_take (List.mem_of_mem_drop hp))) hle
        rw [hm] at hc; cases hc
      · exact hb
    | some m =>
      simp only [ok_bind]
      refine ⟨?_, rfl, ?_, ?_, ?_⟩
      · rw [a1, a2, ← sum_snoc_mod]; rfl
      · rw [b1]; exact h3
      · rw [hc]; rfl
      · show [_, uadd _ 1, _] = [_, _, _]
        rw [uadd_eq (by omega), Nat.min_eq_right hh, Nat.min_eq_right (by omega),
          show i - t.k / 2 + 1 = i + 1 - t.k / 2 by omega]
  · rw [if_neg hh]
    obtain ⟨a1, a2⟩ := take_split_lt (l := t.tw) (by omega : i < t.tw.length) (Nat.lt_of_not_le hh)
    obtain ⟨b1, b2⟩ := take_split_lt (l := t.tw.zip t.mx) hzl (Nat.lt_of_not_le hh)
    have hstep := halfMax_snoc (p := nth (t.tw.zip t.mx) i) h3
    rw [← b1, hz] at hstep
    simp only at hstep
    simp only [rd_of_lt (show i < t.tw.length by omega), rd_of_lt (show i < t.mx.length by omega), ok_bind]
    show Wp bu be bd (FP.cast fp _ >>= _) _
    unfold FP.cast
    have hq : toleranceFactor fp t.k = shareOf fp t.k := rfl
    rw [hq, ← hstep]
    cases hc : halfMax fp t.k (((t.tw.zip t.mx).take (i + 1)).take (t.k / 2)) with
    | none =>
      simp only [ub_bind]
      show bu
      rcases hfp with ⟨hl, hw⟩ | hb
      · exfalso
        have hle : ((((t.tw.zip t.mx).take (i + 1)).take (t.k / 2)).map Prod.snd).sum < M32 := by
          have := hw.left
          rw [htw] at this
          refine lt_of_le_of_lt (le_trans ?_ this) hM
          rw [List.take_take, Nat.min_comm, ← List.take_take, List.map_take, List.map_take, map_snd_zip' (by omega)]
          exact List.Sublist.sum_le_sum (List.take_sublist _ _) (by simp)
        obtain ⟨m, hm, -⟩ := halfMax_ok hl hk hk' (((t.tw.zip t.mx).take (i + 1)).take (t.k / 2))
          (fun p hp => hw.zip_le (by omega) p (List.mem_of_mem_take (List.mem_of_mem_take hp))) hle
        rw [hm] at hc; cases hc
      · exact hb
    | some m =>
      simp only [ok_bind]
      refine ⟨?_, rfl, ?_, ?_, ?_⟩
      · rw [a1, a2, ← sum_snoc_mod]; rfl
      · rw [hc]; rfl
      · rw [b2]; exact h4
      · show [uadd _ 1, _, _] = [_, _, _]
        rw [uadd_eq (by omega), Nat.min_eq_left (by omega), Nat.min_eq_left (by omega),
          show i - t.k / 2 = i + 1 - t.k / 2 by omega]

theorem makeHalves_spec {fp : FP} {t : Target fp} (hk : 2 ≤ t.k) (hk' : t.k < M32) (htw : t.tw.length = t.k)
    (hmx : t.mx.length = t.k) {M : Nat} (hM : M < M32) (hfp : (fp.RecursiveOK ∧ WeightsFit M t.tw t.mx) ∨ bu) :
    Wp bu be bd (makeHalves t) (fun h => h.num = [0, t.k / 2, t.k] ∧
      ∃ fr, Target.ofWeights 2 h.tw h.mx = ok (⟨2, fr, h.tw, h.mx⟩ : Target fp) ∧
        IsHalvesTarget t.tw t.mx (⟨2, fr, h.tw, h.mx⟩ : Target fp)) := by
  unfold makeHalves
  refine (Wp_foldlM_range (P := HalvesInv t) ?_ fun i s hi hs => halvesStep_spec hk hk' htw hmx hM hfp hi hs).bind
    fun s hs => ?_
  · exact ⟨by simp, rfl, by simp [halfMax, nth], by simp [halfMax, nth], by simp⟩
  · obtain ⟨h1, h2, h3, h4, h5⟩ := hs
    have f1 : t.tw.take t.k = t.tw := List.take_of_length_le (by omega)
    have f2 : (t.tw.zip t.mx).take t.k = t.tw.zip t.mx := List.take_of_length_le (by simp; omega)
    rw [f1] at h1
    rw [f2] at h3 h4
    refine ⟨?_, ?_⟩
    · simp only
      rw [h5]
      unfold prefixSumExclusive
      have r3 : List.range 3 = [0, 1, 2] := rfl
      simp only [List.length_cons, List.length_nil, Nat.zero_add, r3, List.map_cons, List.map_nil, List.take,
        List.sum_nil, List.sum_cons, Nat.add_zero]
      rw [Nat.min_eq_right (by omega), Nat.mod_eq_of_lt (by omega), Nat.mod_eq_of_lt (by omega),
        Nat.mod_eq_of_lt (by omega), show t.k / 2 + (t.k - t.k / 2) = t.k by omega]
    · obtain ⟨fr, g1, g2, g3⟩ := ofWeights_ok (fp := fp) (n := 2) (tw := s.tw) (mx := s.mx) (by rw [h1]; simp)
      refine ⟨fr, g2, ⟨⟨rfl, g1, by simp only; rw [h1]; simp, h2⟩, ?_, ?_, ?_, ?_, g3 (by rw [h1]; rfl)⟩⟩
      · simp only; rw [h1, htw]; rfl
      · simp only; rw [h1, htw]; rfl
      · rw [htw]; exact h3
      · rw [htw]; exact h4

theorem halfTarget_ok {fp : FP} {t : Target fp} {off n : Nat} (h1 : off + n ≤ t.tw.length)
    (h2 : off + n ≤ t.mx.length) :
    ∃ fr, halfTarget t off n = ok ⟨n, fr, (t.tw.drop off).take n, (t.mx.drop off).take n⟩ := by
  unfold halfTarget
  have key : ∀ l : List Nat, off + n ≤ l.length →
      ((List.range n).mapM fun pid => rd l (pid + off)) = ok ((l.drop off).take n) := by
    intro l hl
    rw [mapM_ok_eq_map (g := fun pid => nth l (pid + off))]
    · refine congrArg ok (list_ext_nth (by simp; omega) fun i hi => ?_)
      have hi : i < n := by simpa using hi
      rw [nth_map (by simpa using hi), nth_range hi, nth_eq_getElem (by omega), nth_eq_getElem (by simp; omega)]
      simp [Nat.add_comm]
    · intro x hx
      rw [rd_of_lt (by have := List.mem_range.mp hx; omega)]
  rw [key t.tw h1, key t.mx h2, ok_bind, ok_bind]
  obtain ⟨fr, -, h, -⟩ := ofWeights_ok (fp := fp) (n := n) (tw := (t.tw.drop off).take n) (mx := (t.mx.drop off).take n)
    (by simp; omega)
  exact ⟨fr, h⟩

end

/-! ### The recursion -/

/-- The super-map of a mapped graph embeds its vertices into an array of length `L`. -/
structure MappedOK (mg : Mapped) (L : Nat) : Prop where
  len : ∀ l, mg.superMap = some l → l.length = mg.graph.nv
  lt : ∀ v, v < mg.graph.nv → superOf mg.superMap v < L
  inj : ∀ u v, u < mg.graph.nv → v < mg.graph.nv → superOf mg.superMap u = superOf mg.superMap v → u = v

/-- `out` carries `f v` at the super-vertex of every vertex in `vs` and agrees with `labels` elsewhere. -/
structure Written (sup : Nat → Nat) (vs : List Nat) (f : Nat → Nat) (labels out : Mem) : Prop where
  len : out.length = labels.length
  vals : ∀ v ∈ vs, nth out (sup v) = some (f v)
  rest : ∀ x, (∀ v ∈ vs, sup v ≠ x) → nth out x = nth labels x

theorem Mapped.mapPartitioning_spec {mg : Mapped} {labels : Mem} (h : MappedOK mg labels.length) {p : Partitioning}
    (hp : p.asg.length = mg.graph.nv) (offset : Nat) :
    ∃ out, mg.mapPartitioning p labels offset = ok out ∧
      Written (superOf mg.superMap) (List.range mg.graph.nv) (fun v => (p.lab v + offset) % 2 ^ 32) labels out := by
  obtain ⟨sm, g⟩ := mg
  obtain ⟨h1, h2, h3⟩ := h
  simp only at h1 h2 h3 hp
  unfold Mapped.mapPartitioning
  cases sm with
  | none =>
    simp only
    have hle : g.nv ≤ labels.length := by
      rcases Nat.eq_zero_or_pos g.nv with h0 | h0
      · omega
      · have := h2 (g.nv - 1) (by omega); simp only [superOf] at this; omega
    obtain ⟨out, a1, a2, a3, a4⟩ := C11_wrapper_map (offset := offset) hp hle
    refine ⟨out, a1, a2, fun v hv => a3 v (List.mem_range.mp hv), fun x hx => a4 x ?_⟩
    by_contra hlt
    exact hx x (List.mem_range.mpr (by omega)) rfl
  | some l =>
    simp only
    have hl := h1 l rfl
    obtain ⟨out, a1, a2, a3, a4⟩ := C11_subgraph_map (s := ⟨l, g⟩) (labels := labels) (offset := offset) hp hl
      (fun v hv => h2 v hv) (fun u v hu hv h => h3 u v hu hv h)
    exact ⟨out, a1, a2, fun v hv => a3 v (List.mem_range.mp hv),
      fun x hx => a4 x fun v hv => hx v (List.mem_range.mpr hv)⟩

theorem IsInduced.good {g s : Graph} {lab : Nat → Nat} {p : Nat} (h : IsInduced g lab p s) (hg : g.Good)
    (hs : s.WF) : s.Good :=
  ⟨hs, h.symm hg.wf hg.symm, h.noLoop hg.noLoop, h.small hg.wf hg.small⟩

theorem vertsOf_eq (g : Graph) (lab : Nat → Nat) (p : Nat) : vertsOf g lab p = fiber lab g.nv p := rfl

theorem mem_vertsOf {g : Graph} {lab : Nat → Nat} {p v : Nat} : v ∈ vertsOf g lab p ↔ v < g.nv ∧ lab v = p := by
  rw [vertsOf_eq, mem_fiber]

/-- A subgraph extracted from a mapped graph is a mapped graph. -/
theorem SubOK.mappedOK {mg : Mapped} {L : Nat} (h : MappedOK mg L) {lab : Nat → Nat} {p : Nat} {s : Subgraph}
    (hs : SubOK mg.graph lab mg.superMap p s) :
    MappedOK ⟨some s.superMap, s.graph⟩ L ∧
      ∀ i, i < s.graph.nv → superOf (some s.superMap) i = superOf mg.superMap (nth (vertsOf mg.graph lab p) i) := by
  have hlen : s.graph.nv = (vertsOf mg.graph lab p).length := hs.induced.nv
  have hsup : ∀ i, i < s.graph.nv →
      superOf (some s.superMap) i = superOf mg.superMap (nth (vertsOf mg.graph lab p) i) := by
    intro i hi
    show nth s.superMap i = _
    rw [hs.superMap, nth_map (by omega)]
  have hmem : ∀ i, i < s.graph.nv → nth (vertsOf mg.graph lab p) i < mg.graph.nv := fun i hi =>
    (mem_vertsOf.mp (nth_mem (by omega))).1
  refine ⟨⟨?_, ?_, ?_⟩, hsup⟩
  · intro l hl
    injection hl with hl
    rw [← hl, hs.superMap, List.length_map, ← hlen]
  · intro v hv
    simp only at hv ⊢
    rw [hsup v hv]
    exact h.lt _ (hmem v hv)
  · intro u v hu hv huv
    simp only at hu hv huv
    rw [hsup u hu, hsup v hv] at huv
    have := h.inj _ _ (hmem u hu) (hmem v hv) huv
    rw [nth_eq_getElem (by omega), nth_eq_getElem (by omega)] at this
    have hnd : (vertsOf mg.graph lab p).Nodup := fiber_nodup lab mg.graph.nv p
    exact (List.Nodup.getElem_inj_iff hnd).mp this

/-- Writing one side after the other. -/
theorem Written.sides {sup : Nat → Nat} {n : Nat} {lab : Nat → Nat} {f0 fL fR f : Nat → Nat}
    {labels l0 l1 l2 : Mem} (g : Graph) (hn : g.nv = n)
    (hinj : ∀ u v, u < n → v < n → sup u = sup v → u = v) (h2 : ∀ v, v < n → lab v < 2)
    (w0 : Written sup (List.range n) f0 labels l0) (w1 : Written sup (vertsOf g lab 0) fL l0 l1)
    (w2 : Written sup (vertsOf g lab 1) fR l1 l2)
    (hL : ∀ v ∈ vertsOf g lab 0, f v = fL v) (hR : ∀ v ∈ vertsOf g lab 1, f v = fR v) :
    Written sup (List.range n) f labels l2 := by
  subst hn
  have hside : ∀ v, v < g.nv → v ∈ vertsOf g lab 0 ∨ v ∈ vertsOf g lab 1 := by
    intro v hv
    have := h2 v hv
    rw [mem_vertsOf, mem_vertsOf]
    omega
  refine ⟨by rw [w2.len, w1.len, w0.len], ?_, ?_⟩
  · intro v hv
    have hv := List.mem_range.mp hv
    rcases hside v hv with h | h
    · rw [w2.rest (sup v), w1.vals v h, hL v h]
      intro u hu he
      have hu' := mem_vertsOf.mp hu
      have := hinj u v hu'.1 hv he
      subst this
      have := (mem_vertsOf.mp h).2
      omega
    · rw [w2.vals v h, hR v h]
  · intro x hx
    have h01 : ∀ q, ∀ v ∈ vertsOf g lab q, sup v ≠ x := fun q v hv =>
      hx v (List.mem_range.mpr (mem_vertsOf.mp hv).1)
    rw [w2.rest x (h01 1), w1.rest x (h01 0), w0.rest x hx]

theorem WeightsFit.take {M : Nat} {tw mx : List Nat} (h : WeightsFit M tw mx) (hm : mx.length = tw.length) :
    WeightsFit M (tw.take (tw.length / 2)) (mx.take (tw.length / 2)) := by
  have sub : ∀ n, ((mx.take (tw.length / 2)).take n).sum ≤ M := fun n =>
    le_trans (List.Sublist.sum_le_sum (List.take_sublist _ _) (by simp)) h.left
  have sub' : ∀ n, ((mx.take (tw.length / 2)).drop n).sum ≤ M := fun n =>
    le_trans (List.Sublist.sum_le_sum (List.drop_sublist _ _) (by simp)) h.left
  refine ⟨?_, sub _, sub' _⟩
  intro i hi
  have hi' : i < tw.length / 2 := by simp at hi; omega
  have := h.le i (by omega)
  rw [nth_eq_getElem (by omega), nth_eq_getElem (by omega)] at this
  rw [nth_eq_getElem hi, nth_eq_getElem (by simp; omega)]
  simpa using this

theorem WeightsFit.drop {M : Nat} {tw mx : List Nat} (h : WeightsFit M tw mx) (hm : mx.length = tw.length) :
    WeightsFit M (tw.drop (tw.length / 2)) (mx.drop (tw.length / 2)) := by
  have sub : ∀ n, ((mx.drop (tw.length / 2)).take n).sum ≤ M := fun n =>
    le_trans (List.Sublist.sum_le_sum (List.take_sublist _ _) (by simp)) h.right
  have sub' : ∀ n, ((mx.drop (tw.length / 2)).drop n).sum ≤ M := fun n =>
    le_trans (List.Sublist.sum_le_sum (List.drop_sublist _ _) (by simp)) h.right
  refine ⟨?_, sub _, sub' _⟩
  intro i hi
  have hi' : i < tw.length - tw.length / 2 := by simpa using hi
  have := h.le (tw.length / 2 + i) (by omega)
  rw [nth_eq_getElem (by omega), nth_eq_getElem (by omega)] at this
  rw [nth_eq_getElem hi, nth_eq_getElem (by simp; omega)]
  simpa using this

theorem halfMax_lt {fp : FP} {k : Nat} {l : List (Nat × Nat)} {m : Nat} (h : halfMax fp k l = some m) : m < M32 := by
  induction l using List.reverseRecOn generalizing m with
  | nil => unfold halfMax at h; simp at h; omega
  | append_singleton l p ih =>
    cases hl : halfMax fp k l with
    | none => unfold halfMax at h hl; rw [List.foldlM_append, hl] at h; cases h
    | some m' => rw [halfMax_snoc hl] at h; exact fp.toU32_lt _ _ h

section
variable {bu be bd : Prop}

/-- A bisection of `g`, whatever its stored weights and cut. -/
structure Sides (g : Graph) (p : Partitioning) : Prop where
  asg_len : p.asg.length = g.nv
  pw_len : p.pw.length = 2
  complete : ∀ v, v < g.nv → p.lab v < 2

theorem IsExact.sides {g : Graph} {p : Partitioning} (h : IsExact g 2 p) : Sides g p := ⟨h.asg_len, h.pw_len, h.complete⟩

/-- A class of graphs closed under taking the subgraph of a part. -/
structure PartClosed (G : Graph → Prop) : Prop where
  wf : ∀ g, G g → g.WF
  sub : ∀ g lab p s, G g → IsInduced g lab p s → G s

theorem good_closed : PartClosed Graph.Good := ⟨fun _ h => h.wf, fun _ _ _ _ h hi => hi.good h hi.valid⟩

theorem rbRecurse_gen {G : Graph → Prop} (hG : PartClosed G) {bis : Bisector E} {R : Target E.fp → Graph → E.rng.S → (Nat → Nat) → E.rng.S → Prop} {S M : Nat} (hM : M < M32)
    (I : List Nat → List Nat → Graph → Prop)
    (hI : ∀ tw mx bt g r lab r' labels sub, G g → I tw mx g → IsHalvesTarget tw mx bt → R bt g r lab r' →
      (2 ≤ (tw.take (tw.length / 2)).length → SubOK g lab labels 0 sub →
        I (tw.take (tw.length / 2)) (mx.take (tw.length / 2)) sub.graph) ∧
      (2 ≤ (tw.drop (tw.length / 2)).length → SubOK g lab labels 1 sub →
        I (tw.drop (tw.length / 2)) (mx.drop (tw.length / 2)) sub.graph))
    (hbis : ∀ tw mx bt g r, I tw mx g → IsHalvesTarget tw mx bt → G g → g.sumVtx ≤ S → bt.Two → nth bt.mx 0 ≤ M → nth bt.mx 1 ≤ M →
      Wp bu be bd (bis bt g r) (fun o => Sides g o.1 ∧ R bt g r o.1.lab o.2)) :
    ∀ (fuel : Nat) (t : Target E.fp) (mg : Mapped) (offset : Nat) (s : Mem × E.rng.S), 2 ≤ t.k → t.k ≤ fuel →
      offset + t.k < M32 → t.tw.length = t.k → t.mx.length = t.k →
      ((E.fp.RecursiveOK ∧ WeightsFit M t.tw t.mx) ∨ (bu ∧ M = NULL32)) →
      I t.tw t.mx mg.graph → G mg.graph → mg.graph.sumVtx ≤ S → MappedOK mg s.1.length →
      Wp bu be bd (rbRecurse bis fuel t mg offset s) (fun o => ∃ lab, RBRun R t.tw t.mx mg.graph s.2 lab o.2 ∧
        Written (superOf mg.superMap) (List.range mg.graph.nv) (fun v => offset + lab v) s.1 o.1) := by
  intro fuel
  induction fuel with
  | zero => intro t mg offset s h1 h2; omega
  | succ fuel ih =>
    intro t mg offset s hk hfuel hoff htw hmx hfp hi hg hS hmap
    unfold rbRecurse
    refine (makeHalves_spec hk (by omega) htw hmx hM (hfp.imp id (fun h => h.1))).bind fun h hh => ?_
    obtain ⟨hnum, fr, hof, hbt⟩ := hh
    rw [hof, ok_bind]
    have hmxM : nth h.mx 0 ≤ M ∧ nth h.mx 1 ≤ M := by
      rcases hfp with ⟨hl, hw⟩ | ⟨-, hMM⟩
      · obtain ⟨⟨-, b1⟩, ⟨-, b2⟩, -⟩ := hbt.bounds hl (by omega) (by omega) (by omega) hw hM
        exact ⟨le_trans b1 hw.left, le_trans b2 hw.right⟩
      · have b1 := halfMax_lt hbt.maxLeft
        have b2 := halfMax_lt hbt.maxRight
        simp only at b1 b2
        omega
    refine (hbis _ _ _ mg.graph s.2 hi hbt hg hS hbt.two hmxM.1 hmxM.2).bind fun o ho => ?_
    obtain ⟨hp, hR⟩ := ho
    obtain ⟨l0, hl0, w0⟩ := Mapped.mapPartitioning_spec hmap hp.asg_len offset
    rw [hl0, ok_bind]
    have hlab : LabelsOK mg.graph.nv mg.superMap := by
      unfold LabelsOK
      cases hsm : mg.superMap with
      | none => trivial
      | some l => exact le_of_eq (hmap.len l hsm).symm
    obtain ⟨subs, hx, hsl, hsub⟩ := extract_spec (hG.wf _ hg) hp.asg_len hp.pw_len hp.complete hlab
    have sub0 := hsub 0 (by omega)
    have sub1 := hsub 1 (by omega)
    obtain ⟨map0, sup0⟩ := sub0.mappedOK hmap
    obtain ⟨map1, sup1⟩ := sub1.mappedOK hmap
    have good0 := hG.sub _ _ _ _ hg sub0.induced
    have good1 := hG.sub _ _ _ _ hg sub1.induced
    have sum0 : (nth subs 0).graph.sumVtx ≤ S := by
      rw [sub0.induced.sumVtx]; exact le_trans (partWeight_le _ _) hS
    have sum1 : (nth subs 1).graph.sumVtx ≤ S := by
      rw [sub1.induced.sumVtx]; exact le_trans (partWeight_le _ _) hS
    -- the labels of a side, as a function of the vertex
    have conv : ∀ (q : Nat) (labq : Nat → Nat) (off : Nat) (la lb : Mem)
        (hq : SubOK mg.graph o.1.lab mg.superMap q (nth subs q))
        (hs : ∀ i, i < (nth subs q).graph.nv → superOf (some (nth subs q).superMap) i =
          superOf mg.superMap (nth (vertsOf mg.graph o.1.lab q) i)),
        Written (superOf (some (nth subs q).superMap)) (List.range (nth subs q).graph.nv) (fun i => off + labq i)
          la lb →
        Written (superOf mg.superMap) (vertsOf mg.graph o.1.lab q) (fun v => off + labq (subOf o.1.lab v)) la lb := by
      intro q labq off la lb hq hs w
      have hlen := hq.induced.nv
      refine ⟨w.len, ?_, ?_⟩
      · intro v hv
        obtain ⟨hv1, hv2⟩ := mem_vertsOf.mp hv
        have hlt := subOf_lt (lab := o.1.lab) hv1
        have hn := nth_fiber_subOf (lab := o.1.lab) hv1
        rw [hv2] at hlt hn
        rw [← vertsOf_eq] at hlt hn
        have := w.vals (subOf o.1.lab v) (List.mem_range.mpr (by omega))
        rwa [hs _ (by omega), hn] at this
      · intro x hx
        refine w.rest x fun i hi => ?_
        have hi := List.mem_range.mp hi
        rw [hs i hi]
        exact hx _ (nth_mem (by omega))
    have lab01 : ∀ v, v < mg.graph.nv → o.1.lab v < 2 := hp.complete
    -- assembling a node
    have build : ∀ (labL labR : Nat → Nat) (l2 : Mem) (ra rb : E.rng.S),
        RBRun R (t.tw.take (t.tw.length / 2)) (t.mx.take (t.tw.length / 2)) (nth subs 0).graph o.2 labL ra →
        RBRun R (t.tw.drop (t.tw.length / 2)) (t.mx.drop (t.tw.length / 2)) (nth subs 1).graph ra labR rb →
        (∃ l1, Written (superOf mg.superMap) (vertsOf mg.graph o.1.lab 0)
            (fun v => offset + labL (subOf o.1.lab v)) l0 l1 ∧
          Written (superOf mg.superMap) (vertsOf mg.graph o.1.lab 1)
            (fun v => (offset + t.k / 2) + labR (subOf o.1.lab v)) l1 l2) →
        ∃ lab, RBRun R t.tw t.mx mg.graph s.2 lab rb ∧
          Written (superOf mg.superMap) (List.range mg.graph.nv) (fun v => offset + lab v) s.1 l2 := by
      intro labL labR l2 ra rb tL tR ⟨l1, w1, w2⟩
      refine ⟨fun v => if o.1.lab v = 0 then labL (subOf o.1.lab v) else t.k / 2 + labR (subOf o.1.lab v), ?_, ?_⟩
      · refine RBRun.node (by omega) (by omega) hbt hR hp.complete sub0.induced sub1.induced tL tR ?_ ?_
        · intro i hi
          rw [sub0.induced.nv] at hi
          have hm := (mem_vertsOf.mp (nth_mem hi)).2
          rw [if_pos hm]
          exact congrArg labL (subOf_nth_fiber hi)
        · intro i hi
          rw [sub1.induced.nv] at hi
          have hm := (mem_vertsOf.mp (nth_mem hi)).2
          rw [if_neg (by omega), htw]
          exact congrArg (fun j => t.k / 2 + labR j) (subOf_nth_fiber hi)
      · refine Written.sides mg.graph rfl hmap.inj lab01 w0 w1 w2 ?_ ?_
        · intro v hv
          simp only [if_pos (mem_vertsOf.mp hv).2]
        · intro v hv
          simp only
          rw [if_neg (by have := (mem_vertsOf.mp hv).2; omega), Nat.add_assoc]
    -- a side that stays as it is
    have stay : ∀ q, q < 2 → Written (superOf mg.superMap) (vertsOf mg.graph o.1.lab q) (fun v => (offset + q) + 0) l0 l0 := by
      intro q hq
      refine ⟨rfl, ?_, fun _ _ => rfl⟩
      intro v hv
      obtain ⟨hv1, hv2⟩ := mem_vertsOf.mp hv
      rw [w0.vals v (List.mem_range.mpr hv1), hv2, Nat.mod_eq_of_lt (by norm_num; omega), Nat.add_comm]
      rfl
    by_cases hk2 : t.k > 2
    · rw [if_pos hk2]
      rw [hx, ok_bind, hsl, show List.range 2 = [0, 1] from rfl, List.foldlM_cons, hnum]
      -- left side
      generalize hFF : rbSide (rbRecurse bis fuel) t [0, t.k / 2, t.k] subs offset = FF
      refine Wp.bind (Q :=
          (fun o1 : Mem × E.rng.S => ∃ labL, RBRun R (t.tw.take (t.tw.length / 2)) (t.mx.take (t.tw.length / 2))
              (nth subs 0).graph o.2 labL o1.2 ∧
            Written (superOf mg.superMap) (vertsOf mg.graph o.1.lab 0)
              (fun v => offset + labL (subOf o.1.lab v)) l0 o1.1)) ?_ fun o1 ho1 => ?_
      · rw [← hFF]; unfold rbSide
        rw [show rd [0, t.k / 2, t.k] 0 = ok 0 from rfl, ok_bind,
          show rd [0, t.k / 2, t.k] (0 + 1) = ok (t.k / 2) from rfl, ok_bind, usub_eq (by omega) (by omega), Nat.sub_zero]
        by_cases h1 : t.k / 2 > 1
        · rw [if_pos h1]
          obtain ⟨fr', hht⟩ := halfTarget_ok (t := t) (off := 0) (n := t.k / 2) (by omega) (by omega)
          rw [hht, ok_bind, rd_of_lt (by omega), ok_bind, uadd_eq (by omega), Nat.add_zero]
          refine (ih ⟨t.k / 2, fr', (t.tw.drop 0).take (t.k / 2), (t.mx.drop 0).take (t.k / 2)⟩
            ⟨some (nth subs 0).superMap, (nth subs 0).graph⟩ offset (l0, o.2) (by simp only; omega)
            (by simp only; omega) (by simp only; omega) (by simp; omega) (by simp; omega) ?_ ?_ good0 sum0
            (by simp only; rw [w0.len]; exact map0)).mono ?_
          · refine hfp.imp (fun h => ⟨h.1, ?_⟩) id
            have := h.2.take (by omega)
            rw [htw] at this
            simpa using this
          · have := (hI _ _ _ _ _ _ _ _ _ hg hi hbt hR).1 (by rw [List.length_take]; omega) sub0
            rw [htw] at this
            simpa using this
          · intro o1 ⟨labL, r1, r2⟩
            refine ⟨labL, ?_, conv 0 labL offset l0 o1.1 sub0 sup0 r2⟩
            rw [htw]
            simpa using r1
        · rw [if_neg h1]
          refine ⟨fun _ => 0, RBRun.leaf (by simp; omega) (by simp; omega) (fun _ _ => rfl), ?_⟩
          have := stay 0 (by omega)
          simpa using this
      obtain ⟨labL, tL, w1⟩ := ho1
      rw [List.foldlM_cons]
      refine Wp.bind (Q :=
          (fun o2 : Mem × E.rng.S => ∃ labR, RBRun R (t.tw.drop (t.tw.length / 2)) (t.mx.drop (t.tw.length / 2))
              (nth subs 1).graph o1.2 labR o2.2 ∧
            Written (superOf mg.superMap) (vertsOf mg.graph o.1.lab 1)
              (fun v => (offset + t.k / 2) + labR (subOf o.1.lab v)) o1.1 o2.1)) ?_ fun o2 ho2 => ?_
      · rw [← hFF]; unfold rbSide
        rw [show rd [0, t.k / 2, t.k] 1 = ok (t.k / 2) from rfl, ok_bind,
          show rd [0, t.k / 2, t.k] (1 + 1) = ok t.k from rfl, ok_bind, usub_eq (by omega) (by omega), if_pos (by omega)]
        obtain ⟨fr', hht⟩ := halfTarget_ok (t := t) (off := t.k / 2) (n := t.k - t.k / 2) (by omega) (by omega)
        rw [hht, ok_bind, rd_of_lt (by omega), ok_bind, uadd_eq (by omega)]
        have e1 : (t.tw.drop (t.k / 2)).take (t.k - t.k / 2) = t.tw.drop (t.k / 2) :=
          List.take_of_length_le (by simp; omega)
        have e2 : (t.mx.drop (t.k / 2)).take (t.k - t.k / 2) = t.mx.drop (t.k / 2) :=
          List.take_of_length_le (by simp; omega)
        rw [e1, e2]
        refine (ih ⟨t.k - t.k / 2, fr', t.tw.drop (t.k / 2), t.mx.drop (t.k / 2)⟩
          ⟨some (nth subs 1).superMap, (nth subs 1).graph⟩ (offset + t.k / 2) o1 (by simp only; omega)
          (by simp only; omega) (by simp only; omega) (by simp; omega) (by simp; omega) ?_ ?_ good1 sum1
          (by rw [w1.len, w0.len]; exact map1)).mono ?_
        · refine hfp.imp (fun h => ⟨h.1, ?_⟩) id
          have := h.2.drop (by omega)
          rwa [htw] at this
        · have := (hI _ _ _ _ _ _ _ _ _ hg hi hbt hR).2 (by rw [List.length_drop]; omega) sub1
          rwa [htw] at this
        · intro o2 ⟨labR, r1, r2⟩
          refine ⟨labR, ?_, conv 1 labR (offset + t.k / 2) o1.1 o2.1 sub1 sup1 r2⟩
          rw [htw]
          exact r1
      obtain ⟨labR, tR, w2⟩ := ho2
      exact build labL labR o2.1 _ _ tL tR ⟨o1.1, w1, w2⟩
    · rw [if_neg hk2]
      have hk3 : t.k = 2 := by omega
      refine build (fun _ => 0) (fun _ => 0) l0 _ _ (RBRun.leaf (by simp; omega) (by simp; omega) (fun _ _ => rfl))
        (RBRun.leaf (by simp; omega) (by simp; omega) (fun _ _ => rfl)) ⟨l0, ?_, ?_⟩
      · have := stay 0 (by omega)
        simpa using this
      · have := stay 1 (by omega)
        rw [hk3]
        simpa using this

theorem rbRecurse_inv {bis : Bisector E} {R : Target E.fp → Graph → E.rng.S → (Nat → Nat) → E.rng.S → Prop} {S M : Nat} (hM : M < M32)
    (I : List Nat → List Nat → Graph → Prop)
    (hI : ∀ tw mx bt g r lab r' labels sub, g.Good → I tw mx g → IsHalvesTarget tw mx bt → R bt g r lab r' →
      (2 ≤ (tw.take (tw.length / 2)).length → SubOK g lab labels 0 sub →
        I (tw.take (tw.length / 2)) (mx.take (tw.length / 2)) sub.graph) ∧
      (2 ≤ (tw.drop (tw.length / 2)).length → SubOK g lab labels 1 sub →
        I (tw.drop (tw.length / 2)) (mx.drop (tw.length / 2)) sub.graph))
    (hbis : ∀ tw mx bt g r, I tw mx g → IsHalvesTarget tw mx bt → g.Good → g.sumVtx ≤ S → bt.Two → nth bt.mx 0 ≤ M → nth bt.mx 1 ≤ M →
      Wp bu be bd (bis bt g r) (fun o => IsExact g 2 o.1 ∧ R bt g r o.1.lab o.2)) :
    ∀ (fuel : Nat) (t : Target E.fp) (mg : Mapped) (offset : Nat) (s : Mem × E.rng.S), 2 ≤ t.k → t.k ≤ fuel →
      offset + t.k < M32 → t.tw.length = t.k → t.mx.length = t.k →
      ((E.fp.RecursiveOK ∧ WeightsFit M t.tw t.mx) ∨ (bu ∧ M = NULL32)) →
      I t.tw t.mx mg.graph → mg.graph.Good → mg.graph.sumVtx ≤ S → MappedOK mg s.1.length →
      Wp bu be bd (rbRecurse bis fuel t mg offset s) (fun o => ∃ lab, RBRun R t.tw t.mx mg.graph s.2 lab o.2 ∧
        Written (superOf mg.superMap) (List.range mg.graph.nv) (fun v => offset + lab v) s.1 o.1) :=
  rbRecurse_gen good_closed hM I hI (fun tw mx bt g r a b c d e f h =>
    (hbis tw mx bt g r a b c d e f h).mono fun _ ho => ⟨ho.1.sides, ho.2⟩)

theorem rbRecurse_run {bis : Bisector E} {R : Target E.fp → Graph → E.rng.S → (Nat → Nat) → E.rng.S → Prop} {S M : Nat} (hM : M < M32)
    (hbis : ∀ bt g r, g.Good → g.sumVtx ≤ S → bt.Two → nth bt.mx 0 ≤ M → nth bt.mx 1 ≤ M →
      Wp bu be bd (bis bt g r) (fun o => IsExact g 2 o.1 ∧ R bt g r o.1.lab o.2)) :
    ∀ (fuel : Nat) (t : Target E.fp) (mg : Mapped) (offset : Nat) (s : Mem × E.rng.S), 2 ≤ t.k → t.k ≤ fuel →
      offset + t.k < M32 → t.tw.length = t.k → t.mx.length = t.k →
      ((E.fp.RecursiveOK ∧ WeightsFit M t.tw t.mx) ∨ (bu ∧ M = NULL32)) →
      mg.graph.Good → mg.graph.sumVtx ≤ S → MappedOK mg s.1.length →
      Wp bu be bd (rbRecurse bis fuel t mg offset s) (fun o => ∃ lab, RBRun R t.tw t.mx mg.graph s.2 lab o.2 ∧
        Written (superOf mg.superMap) (List.range mg.graph.nv) (fun v => offset + lab v) s.1 o.1) :=
  fun fuel t mg offset s a1 a2 a3 a4 a5 a6 a7 a8 a9 =>
    rbRecurse_inv hM (fun _ _ _ => True) (fun _ _ _ _ _ _ _ _ _ _ _ _ _ => ⟨fun _ _ => trivial, fun _ _ => trivial⟩)
      (fun _ _ bt g r _ _ => hbis bt g r) fuel t mg offset s a1 a2 a3 a4 a5 a6 trivial a7 a8 a9

theorem RBRun.tree {fp : FP} {S : Type} {R : Target fp → Graph → Partitioning → Prop} {tw mx : List Nat} {g : Graph}
    {r r' : S} {lab : Nat → Nat}
    (h : RBRun (fun bt g _ side _ => ∃ p : Partitioning, p.lab = side ∧ IsExact g 2 p ∧ R bt g p) tw mx g r lab r') :
    RBTree R tw mx g lab := by
  induction h with
  | leaf hk hm h => exact .leaf hk hm h
  | node hk hm hbt hR hp hL hRt _ _ lL lR iL iR =>
    obtain ⟨p, rfl, hex, hR⟩ := hR
    exact .node hk hm hbt hR hex hL hRt iL iR lL lR

theorem rbRecurse_spec {bis : Bisector E} {R : Target E.fp → Graph → Partitioning → Prop} {S M : Nat} (hM : M < M32)
    (hbis : ∀ bt g r, g.Good → g.sumVtx ≤ S → bt.Two → nth bt.mx 0 ≤ M → nth bt.mx 1 ≤ M →
      Wp bu be bd (bis bt g r) (fun o => IsExact g 2 o.1 ∧ R bt g o.1)) :
    ∀ (fuel : Nat) (t : Target E.fp) (mg : Mapped) (offset : Nat) (s : Mem × E.rng.S), 2 ≤ t.k → t.k ≤ fuel →
      offset + t.k < M32 → t.tw.length = t.k → t.mx.length = t.k →
      ((E.fp.RecursiveOK ∧ WeightsFit M t.tw t.mx) ∨ (bu ∧ M = NULL32)) →
      mg.graph.Good → mg.graph.sumVtx ≤ S → MappedOK mg s.1.length →
      Wp bu be bd (rbRecurse bis fuel t mg offset s) (fun o => ∃ lab, RBTree R t.tw t.mx mg.graph lab ∧
        Written (superOf mg.superMap) (List.range mg.graph.nv) (fun v => offset + lab v) s.1 o.1) := by
  intro fuel t mg offset s h1 h2 h3 h4 h5 h6 h7 h8 h9
  refine (rbRecurse_run (R := fun bt g _ side _ => ∃ p : Partitioning, p.lab = side ∧ IsExact g 2 p ∧ R bt g p) hM
    (fun bt g r a1 a2 a3 a4 a5 => (hbis bt g r a1 a2 a3 a4 a5).mono fun o ho => ⟨ho.1, o.1, rfl, ho.1, ho.2⟩)
    fuel t mg offset s h1 h2 h3 h4 h5 h6 h7 h8 h9).mono ?_
  rintro o ⟨lab, hr, hw⟩
  exact ⟨lab, hr.tree, hw⟩

end

/-! ### Facts about the tree -/

/-- Every vertex is some vertex of its side. -/
theorem IsInduced.index {g s : Graph} {lab : Nat → Nat} {p : Nat} (h : IsInduced g lab p s) {v : Nat} (hv : v < g.nv)
    (hp : lab v = p) : ∃ i, i < s.nv ∧ nth (vertsOf g lab p) i = v := by
  have hlt := subOf_lt (lab := lab) hv
  have hn := nth_fiber_subOf (lab := lab) hv
  rw [hp] at hlt hn
  exact ⟨subOf lab v, by rw [h.nv]; exact hlt, hn⟩

theorem IsInduced.vert {g s : Graph} {lab : Nat → Nat} {p : Nat} (h : IsInduced g lab p s) {i : Nat} (hi : i < s.nv) :
    nth (vertsOf g lab p) i < g.nv ∧ lab (nth (vertsOf g lab p) i) = p := by
  rw [h.nv] at hi
  exact mem_vertsOf.mp (nth_mem hi)

section
variable {fp : FP} {R : Target fp → Graph → Partitioning → Prop} {tw mx : List Nat} {g : Graph} {lab : Nat → Nat}

theorem RBTree.lengths (h : RBTree R tw mx g lab) : 0 < tw.length ∧ mx.length = tw.length := by
  cases h with
  | leaf hk hm => omega
  | node hk hm => omega

theorem RBTree.lt (h : RBTree R tw mx g lab) : ∀ v, v < g.nv → lab v < tw.length := by
  induction h with
  | leaf hk hm h => intro v hv; rw [h v hv]; omega
  | @node tw mx g lab bt p sL sR labL labR hk hm hbt hR hp hL hRt treeL treeR labelsL labelsR ihL ihR =>
    intro v hv
    have h2 := hp.complete v hv
    rcases (show p.lab v = 0 ∨ p.lab v = 1 by omega) with h0 | h1
    · obtain ⟨i, hi, rfl⟩ := hL.index hv h0
      rw [labelsL i hi]
      have := ihL i hi
      simp at this
      omega
    · obtain ⟨i, hi, rfl⟩ := hRt.index hv h1
      rw [labelsR i hi]
      have := ihR i hi
      simp at this
      omega

/-- Sums over the vertices of a side are sums over the induced subgraph. -/
theorem IsInduced.sum {g s : Graph} {lab : Nat → Nat} {p : Nat} (h : IsInduced g lab p s) (f : Nat → Nat) :
    (∑ v ∈ range g.nv, if lab v = p then f v else 0) = ∑ i ∈ range s.nv, f (nth (vertsOf g lab p) i) := by
  rw [← sum_over_fiber lab g.nv p f, sum_eq_sum_nth, List.length_map, h.nv]
  refine sum_congr rfl fun i hi => ?_
  have hi := mem_range.mp hi
  exact nth_map (l := fiber lab g.nv p) hi

/-- Sums over all vertices are sums over the two sides. -/
theorem sum_sides {g sL sR : Graph} {lab : Nat → Nat} (h2 : ∀ v, v < g.nv → lab v < 2) (hL : IsInduced g lab 0 sL)
    (hR : IsInduced g lab 1 sR) (f : Nat → Nat) :
    ∑ v ∈ range g.nv, f v = (∑ i ∈ range sL.nv, f (nth (vertsOf g lab 0) i)) +
      ∑ i ∈ range sR.nv, f (nth (vertsOf g lab 1) i) := by
  rw [← hL.sum, ← hR.sum, ← sum_add_distrib]
  refine sum_congr rfl fun v hv => ?_
  have := h2 v (mem_range.mp hv)
  rcases (show lab v = 0 ∨ lab v = 1 by omega) with h | h <;> simp [h]

theorem partWeight_sides {g sL sR : Graph} {p : Nat → Nat} {lab labL labR : Nat → Nat} {m : Nat}
    (h2 : ∀ v, v < g.nv → p v < 2) (hL : IsInduced g p 0 sL) (hR : IsInduced g p 1 sR)
    (hltL : ∀ i, i < sL.nv → labL i < m)
    (labelsL : ∀ i, i < sL.nv → lab (nth (vertsOf g p 0) i) = labL i)
    (labelsR : ∀ i, i < sR.nv → lab (nth (vertsOf g p 1) i) = m + labR i) (q : Nat) :
    partWeight g lab q = if q < m then partWeight sL labL q else partWeight sR labR (q - m) := by
  have hl : (∑ i ∈ range sL.nv, if lab (nth (vertsOf g p 0) i) = q then g.vw (nth (vertsOf g p 0) i) else 0) =
      if q < m then partWeight sL labL q else 0 := by
    split
    · unfold partWeight
      refine sum_congr rfl fun i hi => ?_
      have hi := mem_range.mp hi
      rw [labelsL i hi, hL.vw i hi]
    · refine sum_eq_zero fun i hi => ?_
      have hi := mem_range.mp hi
      have := hltL i hi
      rw [labelsL i hi, if_neg (by omega)]
  have hr : (∑ i ∈ range sR.nv, if lab (nth (vertsOf g p 1) i) = q then g.vw (nth (vertsOf g p 1) i) else 0) =
      if q < m then 0 else partWeight sR labR (q - m) := by
    split
    · refine sum_eq_zero fun i hi => ?_
      have hi := mem_range.mp hi
      rw [labelsR i hi, if_neg (by omega)]
    · unfold partWeight
      refine sum_congr rfl fun i hi => ?_
      have hi := mem_range.mp hi
      rw [labelsR i hi, hR.vw i hi]
      by_cases h : labR i = q - m
      · rw [if_pos (by omega), if_pos h]
      · rw [if_neg (by omega), if_neg h]
  have := sum_sides h2 hL hR (fun v => if lab v = q then g.vw v else 0)
  show (∑ v ∈ range g.nv, if lab v = q then g.vw v else 0) = _
  rw [this, hl, hr]
  split <;> omega

/-- If every bisection stays within its limits, every part stays within its maximum weight. -/
theorem RBTree.balanced (hfp : fp.RecursiveOK) {M : Nat} (hM : M < M32)
    (hbal : ∀ bt g p, R bt g p → Balanced g bt p.lab) (h : RBTree R tw mx g lab) (hk : tw.length < M32)
    (hf : WeightsFit M tw mx) (hs : g.sumVtx ≤ mx.sum ∨ 2 ≤ tw.length) :
    ∀ q, q < tw.length → partWeight g lab q ≤ nth mx q := by
  induction h with
  | @leaf tw mx g lab hk1 hm h =>
    intro q hq
    have hq0 : q = 0 := by omega
    subst hq0
    match mx, hm with
    | [a], _ =>
      have : g.sumVtx ≤ a := by
        rcases hs with h | h
        · simpa using h
        · omega
      exact le_trans (partWeight_le _ _) this
  | @node tw mx g lab bt p sL sR labL labR hk2 hm hbt hR hp hL hRt treeL treeR labelsL labelsR ihL ihR =>
    intro q hq
    have hb := hbal bt g p hR
    obtain ⟨⟨-, b1⟩, ⟨-, b2⟩, -⟩ := hbt.bounds hfp hk2 hk hm hf hM
    have hltL := treeL.lt
    have hlenL : (tw.take (tw.length / 2)).length = tw.length / 2 := by simp; omega
    rw [hlenL] at hltL
    rw [partWeight_sides hp.complete hL hRt hltL labelsL labelsR q]
    have sL' : sL.sumVtx ≤ (mx.take (tw.length / 2)).sum := by
      rw [hL.sumVtx]; exact le_trans (hb 0 (by omega)) b1
    have sR' : sR.sumVtx ≤ (mx.drop (tw.length / 2)).sum := by
      rw [hRt.sumVtx]; exact le_trans (hb 1 (by omega)) b2
    split
    · rename_i hlt
      have := ihL (by omega) (hf.take hm) (Or.inl sL') q (by omega)
      rw [nth_eq_getElem (by simp; omega)] at this
      rw [nth_eq_getElem (by omega)]
      simpa using this
    · rename_i hge
      have := ihR (by simp; omega) (hf.drop hm) (Or.inl sR') (q - tw.length / 2) (by simp; omega)
      rw [nth_eq_getElem (by simp; omega)] at this
      rw [nth_eq_getElem (by omega)]
      simp only [List.getElem_drop, show tw.length / 2 + (q - tw.length / 2) = q by omega] at this
      exact this

end

end Poros
