import Verif.Proofs.F64Imbalance
import Verif.Proofs.InitTrace
import Verif.Props.P48_Target
import Verif.Props.P78_Quality
/-
Bisections of graphs whose vertices all weigh 1, for the even two-part target: the computed imbalance orders the sizes of
the sides as the real one does.
-/
namespace Poros
open Finset Res Concrete

/-- A two-part target with equal shares of `n` and equal limits `M`. -/
structure EvenTwo [Concrete.Log2Impl] (t : Target Concrete.fp) (n M : Nat) : Prop where
  two : t.Two
  frac : t.frac = [F64.fin (1 / 2), F64.fin (1 / 2)]
  tw : t.tw = [n / 2, n / 2]
  mx : t.mx = [M, M]
  lt : M < 4294967296

theorem half_fin [Concrete.Log2Impl] :
    Concrete.fp.div (Concrete.fp.lit 1 0) (Concrete.fp.ofNat 2) = F64.fin (1 / 2) := by
  rw [lit_one, show Concrete.fp.ofNat 2 = F64.fin (2 : ℚ) from by
    show rnd ((2 : Nat) : ℚ) = F64.fin 2
    decide +kernel]
  show F64.div (F64.fin 1) (F64.fin 2) = F64.fin (1 / 2)
  decide +kernel

theorem mapM_twice {α : Type} (x : α) (f : α → Res Nat) {l : List Nat} (h : (List.replicate 2 x).mapM f = ok l) :
    ∃ a, f x = ok a ∧ l = [a, a] := by
  cases hf : f x with
  | ok a =>
    refine ⟨a, rfl, ?_⟩
    simp [List.replicate, List.mapM_cons, hf] at h
    exact h.symm
  | ub => simp [List.replicate, List.mapM_cons, hf] at h
  | exn => simp [List.replicate, List.mapM_cons, hf] at h
  | diverge => simp [List.replicate, List.mapM_cons, hf] at h

theorem F64_lt_self (x : F64) : F64.lt x x = false := by
  cases x with
  | nan => rfl
  | inf s => cases s <;> rfl
  | fin q => exact decide_eq_false (lt_irrefl q)

/-- The uniform target of two parts. -/
theorem evenTwo [Concrete.Log2Impl] {n : Nat} (hn : n < 4294967296) {tol : Concrete.fp.F} {t : Target Concrete.fp}
    (h : Target.uniform (fp := Concrete.fp) 2 n tol = ok t) : ∃ M, EvenTwo t n M := by
  obtain ⟨-, h0, h1, h2, h3, h4, h5⟩ := ofFractions_shape h
  rw [List.take_of_length_le (by simp)] at h1 h4 h5
  obtain ⟨a, ha, ha'⟩ := mapM_twice _ _ h4
  obtain ⟨b, hb, hb'⟩ := mapM_twice _ _ h5
  have hae : a = n / 2 := by
    unfold FP.cast at ha
    rw [half_exact hn] at ha
    exact (Res.ok.inj ha).symm
  refine ⟨b, ⟨h0, ?_, h2, h3⟩, ?_, by rw [ha', hae], hb', ?_⟩
  · rw [h1]; simp
  · rw [h1, half_fin]; rfl
  · unfold FP.cast at hb
    split at hb
    · rename_i m hm
      rw [← Res.ok.inj hb]
      exact Concrete.fp.toU32_lt _ _ hm
    · cases hb

theorem EvenTwo.le [Concrete.Log2Impl] {n M : Nat} (hn : n < 4294967296) {tol : Concrete.fp.F} {t : Target Concrete.fp}
    (h : Target.uniform (fp := Concrete.fp) 2 n tol = ok t) (htol : Concrete.fp.le (Concrete.fp.lit 0 0) tol = true)
    (he : EvenTwo t n M) : n / 2 ≤ M := by
  have h2 := C48_target_le_max Concrete.targetOK (by norm_num; exact hn) htol (fun f hf => by
    have := List.eq_of_mem_replicate hf
    rw [this, half_fin, lit_one]
    show F64.mul (F64.fin (1 / 2)) (F64.fin 1) = F64.fin (1 / 2)
    decide +kernel) h 0 (by decide)
  rw [he.tw, he.mx] at h2
  simpa [nth] using h2

/-- The imbalance the library computes for a side with `x` of `n` vertices. -/
def sideImb [Concrete.Log2Impl] (n x : Nat) : F64 :=
  Concrete.fp.sub (Concrete.fp.div (Concrete.fp.div (Concrete.fp.ofNat x) (Concrete.fp.ofNat n)) (F64.fin (1 / 2)))
    (Concrete.fp.lit 1 0)

/-- The computed imbalance of a bisection depends on the sizes of its sides, symmetrically, and compares as the larger side
does. -/
theorem imbalance_order [Concrete.Log2Impl] {g : Graph} {t : Target Concrete.fp} {n M : Nat} (he : EvenTwo t n M)
    (hn : n < 4294967295) (htot : g.totVtx = n) (hsum : g.sumVtx = n)
    {lab lab' : Nat → Nat} (h : ∀ v, v < g.nv → lab v < 2) (h' : ∀ v, v < g.nv → lab' v < 2) :
    (max (partWeight g lab 0) (partWeight g lab 1) < max (partWeight g lab' 0) (partWeight g lab' 1) →
      Concrete.fp.lt (maxImbalance g t lab) (maxImbalance g t lab') = true ∧
      Concrete.fp.le (maxImbalance g t lab') (maxImbalance g t lab) = false ∧
      Concrete.fp.lt (maxImbalance g t lab') (maxImbalance g t lab) = false) ∧
    (max (partWeight g lab 0) (partWeight g lab 1) = max (partWeight g lab' 0) (partWeight g lab' 1) →
      maxImbalance g t lab = maxImbalance g t lab' ∧
      Concrete.fp.lt (maxImbalance g t lab') (maxImbalance g t lab) = false) := by
  have a2 := partWeight_two h
  have b2 := partWeight_two h'
  rw [hsum] at a2 b2
  by_cases hn0 : n = 0
  · have e : max (partWeight g lab 0) (partWeight g lab 1) = 0 := by omega
    have e' : max (partWeight g lab' 0) (partWeight g lab' 1) = 0 := by omega
    rw [e, e']
    have hm : maxImbalance g t lab = maxImbalance g t lab' := by
      unfold maxImbalance imbalanceOf
      rw [he.frac]
      simp only
      rw [show partWeight g lab 0 = 0 by omega, show partWeight g lab 1 = 0 by omega,
        show partWeight g lab' 0 = 0 by omega, show partWeight g lab' 1 = 0 by omega]
    refine ⟨fun hh => absurd hh (by omega), fun _ => ⟨hm, ?_⟩⟩
    rw [hm]
    exact F64_lt_self _
  have hx : ∀ x, x ≤ n → ∃ z, sideImb n x = F64.fin z ∧
      z ≤ max 0 ((x : ℚ) / (n * (1 / 2)) - 1) + eps ∧ (x : ℚ) / (n * (1 / 2)) - 1 ≤ max 0 z + eps :=
    fun x hx => imbalance_err (by omega) (by omega) hx (by norm_num)
  have form : ∀ {l : Nat → Nat}, (∀ v, v < g.nv → l v < 2) → ∀ {z0 z1 : ℚ}, sideImb n (partWeight g l 0) = F64.fin z0 →
      sideImb n (partWeight g l 1) = F64.fin z1 → maxImbalance g t l = F64.fin (max (max 0 z0) z1) := by
    intro l hl z0 z1 e0 e1
    unfold maxImbalance imbalanceOf
    rw [he.frac, htot]
    simp only
    unfold sideImb at e0 e1
    rw [show Concrete.fp.sub _ (Concrete.fp.lit 1 0) = _ from e0, show Concrete.fp.sub _ (Concrete.fp.lit 1 0) = _ from e1,
      lit_zero]
    exact (congrArg (fun x => fmaxF Concrete.fp x (F64.fin z1)) (fmaxF_fin 0 z0)).trans (fmaxF_fin _ _)
  obtain ⟨z0, p1, p2, p3⟩ := hx (partWeight g lab 0) (by omega)
  obtain ⟨z1, q1, q2, q3⟩ := hx (partWeight g lab 1) (by omega)
  obtain ⟨y0, r1, r2, r3⟩ := hx (partWeight g lab' 0) (by omega)
  obtain ⟨y1, s1, s2, s3⟩ := hx (partWeight g lab' 1) (by omega)
  have fa := form h p1 q1
  have fb := form h' r1 s1
  have hnq : (0 : ℚ) < n := by exact_mod_cast Nat.pos_of_ne_zero hn0
  have hnq' : (n : ℚ) < 4294967295 := by exact_mod_cast hn
  have conv : ∀ x : ℚ, x / (n * (1 / 2)) = 2 * x / n := fun x => by field_simp
  simp only [conv] at p2 p3 q2 q3 r2 r3 s2 s3
  constructor
  · intro hlt
    -- the larger sides
    have hgap : ∀ a b : Nat, a < b → 2 * (a : ℚ) / n + 2 / 4294967295 < 2 * (b : ℚ) / n := by
      intro a b hab
      have hab' : (a : ℚ) + 1 ≤ b := by exact_mod_cast hab
      have : 2 / 4294967295 < 2 / (n : ℚ) := by
        rw [div_lt_div_iff₀ (by norm_num) hnq]; linarith
      have h2 : 2 * (a : ℚ) / n + 2 / n ≤ 2 * (b : ℚ) / n := by
        rw [← add_div]
        exact div_le_div_of_nonneg_right (by linarith) hnq.le
      linarith
    have hub : max (max 0 z0) z1 ≤ 2 * ((max (partWeight g lab 0) (partWeight g lab 1) : Nat) : ℚ) / n - 1 + eps := by
      have hm1 : (n : ℚ) ≤ 2 * ((max (partWeight g lab 0) (partWeight g lab 1) : Nat) : ℚ) := by
        exact_mod_cast (show n ≤ 2 * max (partWeight g lab 0) (partWeight g lab 1) by omega)
      have hm2 : 0 ≤ 2 * ((max (partWeight g lab 0) (partWeight g lab 1) : Nat) : ℚ) / n - 1 := by
        rw [sub_nonneg, le_div_iff₀ hnq]; linarith
      have hle : ∀ x : Nat, x ≤ max (partWeight g lab 0) (partWeight g lab 1) →
          2 * (x : ℚ) / n ≤ 2 * ((max (partWeight g lab 0) (partWeight g lab 1) : Nat) : ℚ) / n := by
        intro x hx
        have : (x : ℚ) ≤ ((max (partWeight g lab 0) (partWeight g lab 1) : Nat) : ℚ) := by exact_mod_cast hx
        exact div_le_div_of_nonneg_right (by linarith) hnq.le
      have l0 := hle _ (le_max_left _ _)
      have l1 := hle _ (le_max_right _ _)
      have e0 : (0 : ℚ) < eps := by unfold eps; norm_num
      refine max_le (max_le (by linarith) (le_trans p2 ?_)) (le_trans q2 ?_)
      · have := max_le hm2 (show 2 * (partWeight g lab 0 : ℚ) / n - 1 ≤ _ by linarith)
        linarith
      · have := max_le hm2 (show 2 * (partWeight g lab 1 : ℚ) / n - 1 ≤ _ by linarith)
        linarith
    have hlb : 2 * ((max (partWeight g lab' 0) (partWeight g lab' 1) : Nat) : ℚ) / n - 1 ≤ max (max 0 y0) y1 + eps := by
      rcases max_choice (partWeight g lab' 0) (partWeight g lab' 1) with e | e <;> rw [e]
      · have := le_max_left (max 0 y0) y1; linarith
      · have : max 0 y1 ≤ max (max 0 y0) y1 := max_le (le_trans (le_max_left _ _) (le_max_left _ _)) (le_max_right _ _)
        linarith
    have := hgap _ _ hlt
    have hfin : max (max 0 z0) z1 < max (max 0 y0) y1 := by
      have e2 : 2 * eps < 2 / 4294967295 := by unfold eps; norm_num
      linarith
    rw [fa, fb]
    refine ⟨decide_eq_true hfin, ?_, decide_eq_false (not_lt.mpr hfin.le)⟩
    rw [Bool.eq_false_iff]
    intro hc
    exact absurd (le_fin.mp hc) (not_le.mpr hfin)
  · intro heq
    have hcases : (partWeight g lab 0 = partWeight g lab' 0 ∧ partWeight g lab 1 = partWeight g lab' 1) ∨
        (partWeight g lab 0 = partWeight g lab' 1 ∧ partWeight g lab 1 = partWeight g lab' 0) := by omega
    have hm : max (max 0 z0) z1 = max (max 0 y0) y1 := by
      rcases hcases with ⟨e0, e1⟩ | ⟨e0, e1⟩
      · rw [e0, r1] at p1
        rw [e1, s1] at q1
        rw [F64.fin.inj p1, F64.fin.inj q1]
      · rw [e0, s1] at p1
        rw [e1, r1] at q1
        rw [← F64.fin.inj p1, ← F64.fin.inj q1, max_right_comm]
    rw [fa, fb, hm]
    exact ⟨rfl, decide_eq_false (lt_irrefl _)⟩

/-! ### sizes -/

theorem partWeight_put {g : Graph} {lab : Nat → Nat} {v : Nat} (hv : v < g.nv) (hl : lab v = 1) (h1 : g.vw v = 1) :
    partWeight g (put lab v 0) 0 = partWeight g lab 0 + 1 := by
  have := partWeight_relabel (q := 0) lab hv 0
  rw [if_neg (by omega), if_pos rfl, h1] at this
  show partWeight g (relabel lab v 0) 0 = _
  omega

theorem put_lt {g : Graph} {lab : Nat → Nat} (h : ∀ v, v < g.nv → lab v < 2) (v : Nat) {q : Nat} (hq : q < 2) :
    ∀ u, u < g.nv → put lab v q u < 2 := by
  intro u hu
  unfold put
  split
  · exact hq
  · exact h u hu

/-- Filling the left side of a graph with unit vertex weights. -/
theorem filled_unit [Concrete.Log2Impl] {g : Graph} {t : Target Concrete.fp} {n M : Nat} (he : EvenTwo t n M)
    (hn : n < 4294967295) (htot : g.totVtx = n) (hsum : g.sumVtx = n) (hu : ∀ v, v < g.nv → g.vw v = 1)
    {order : List Nat} {lab out : Nat → Nat} (h : Filled g t order lab out) (h2 : ∀ v, v < g.nv → lab v < 2)
    (hnd : order.Nodup) (ho : ∀ v ∈ order, v < g.nv ∧ lab v = 1) (hle : partWeight g lab 0 ≤ min M ((n + 1) / 2))
    (hge : min M ((n + 1) / 2) ≤ partWeight g lab 0 + order.length) :
    (∀ v, v < g.nv → out v < 2) ∧ partWeight g out 0 = min M ((n + 1) / 2) := by
  have hM : nth t.mx 0 = M := by rw [he.mx]; rfl
  induction h with
  | done => exact ⟨h2, by simp at hge; omega⟩
  | @full v vs lab hf =>
    rw [hM, hu v (ho v (by simp)).1] at hf
    exact ⟨h2, by omega⟩
  | @worse v vs lab hf hw =>
    obtain ⟨hv, hl⟩ := ho v (by simp)
    refine ⟨h2, ?_⟩
    by_contra hne
    have hp := partWeight_put hv hl (hu v hv)
    have t1 := partWeight_two h2
    have t2 := partWeight_two (put_lt h2 v (q := 0) (by decide))
    rw [hsum] at t1 t2
    obtain ⟨o1, o2⟩ := imbalance_order he hn htot hsum (put_lt h2 v (q := 0) (by decide)) h2
    rcases Nat.lt_or_ge (max (partWeight g (put lab v 0) 0) (partWeight g (put lab v 0) 1))
      (max (partWeight g lab 0) (partWeight g lab 1)) with hc | hc
    · rw [show Concrete.fp.lt (maxImbalance g t lab) (maxImbalance g t (put lab v 0)) = false from (o1 hc).2.2] at hw
      cases hw
    · rw [show Concrete.fp.lt (maxImbalance g t lab) (maxImbalance g t (put lab v 0)) = false from (o2 (by omega)).2] at hw
      cases hw
  | @take v vs lab out hf hw hrest ih =>
    obtain ⟨hv, hl⟩ := ho v (by simp)
    have hp := partWeight_put hv hl (hu v hv)
    have t1 := partWeight_two h2
    have t2 := partWeight_two (put_lt h2 v (q := 0) (by decide))
    rw [hsum] at t1 t2
    rw [hM, hu v hv] at hf
    refine ih (put_lt h2 v (by decide)) hnd.of_cons (fun u hu' => ?_) ?_ ?_
    · obtain ⟨a1, a2⟩ := ho u (by simp [hu'])
      have : u ≠ v := fun e => (List.nodup_cons.mp hnd).1 (e ▸ hu')
      exact ⟨a1, by unfold put; rw [if_neg this]; exact a2⟩
    · by_contra hne
      obtain ⟨o1, -⟩ := imbalance_order he hn htot hsum h2 (put_lt h2 v (q := 0) (by decide))
      rw [show Concrete.fp.lt (maxImbalance g t lab) (maxImbalance g t (put lab v 0)) = true from (o1 (by omega)).1] at hw
      cases hw
    · simp only [List.length_cons] at hge
      omega

theorem exchanged_unit [Concrete.Log2Impl] {g : Graph} {t : Target Concrete.fp} (hu : ∀ v, v < g.nv → g.vw v = 1)
    {lab out : Nat → Nat} (h2 : ∀ v, v < g.nv → lab v < 2) (h : Exchanged g t lab out) :
    (∀ v, v < g.nv → out v < 2) ∧ partWeight g out 0 = partWeight g lab 0 := by
  obtain ⟨v, hv, hl, -, h⟩ := h
  rcases h with ⟨u, ⟨hun, hlu, -, -⟩, -, rfl⟩ | ⟨-, rfl⟩
  · refine ⟨put_lt (put_lt h2 v (by decide)) u (by decide), ?_⟩
    have hp := partWeight_put hv hl (hu v hv)
    have hne : u ≠ v := fun e => by rw [e] at hlu; omega
    have hlu' : put lab v 0 u = 0 := by unfold put; rw [if_neg hne]; exact hlu
    have := partWeight_relabel (q := 1) (put lab v 0) hun 0
    rw [if_pos hlu', if_neg (by omega), hu u hun] at this
    show partWeight g (relabel (put lab v 0) u 1) 0 = _
    omega
  · exact ⟨h2, rfl⟩

/-- Random bisection of a graph with unit vertex weights. -/
theorem filledTo_unit [Concrete.Log2Impl] {g : Graph} {t : Target Concrete.fp} {n M : Nat} (he : EvenTwo t n M)
    (hn : n < 4294967295) (hnv : g.nv = n) (htot : g.totVtx = n) (hsum : g.sumVtx = n)
    (hu : ∀ v, v < g.nv → g.vw v = 1) {order : List Nat} (hperm : order.Perm (List.range g.nv)) {out : Nat → Nat}
    (h : FilledTo g t order out) :
    (∀ v, v < g.nv → out v < 2) ∧ partWeight g out 0 = min M ((n + 1) / 2) := by
  obtain ⟨lab0, lab, h0, hf, hx⟩ := h
  have hz : partWeight g lab0 0 = 0 := by rw [partWeight_all (q := 1) h0 (by decide)]
  have hl : order.length = n := by rw [hperm.length_eq, List.length_range, hnv]
  obtain ⟨k1, k2⟩ := filled_unit he hn htot hsum hu hf (fun v hv => by rw [h0 v hv]; decide)
    (hperm.nodup_iff.mpr List.nodup_range)
    (fun v hv => by
      have := List.mem_range.mp (hperm.mem_iff.mp hv)
      exact ⟨this, h0 v this⟩) (by omega) (by omega)
  rcases hx with ⟨-, hx⟩ | ⟨-, rfl⟩
  · obtain ⟨x1, x2⟩ := exchanged_unit hu k1 hx
    exact ⟨x1, by omega⟩
  · exact ⟨k1, k2⟩

theorem grown_unit {fp : FP} {g : Graph} {t : Target fp} {seed : Nat} (hu : ∀ v, v < g.nv → g.vw v = 1)
    (htm : nth t.tw 0 ≤ nth t.mx 0) {lab : Nat → Nat} {seen : List Nat} (h : Grown g t seed lab seen) :
    (∀ v, v < g.nv → lab v < 2) ∧ (∀ v, v < g.nv → v ∉ seen → lab v = 1) ∧ seen.Nodup ∧ (∀ v ∈ seen, v < g.nv) ∧
      partWeight g lab 0 = seen.length ∧ partWeight g lab 0 ≤ nth t.tw 0 := by
  induction h with
  | start h =>
    have hz := partWeight_all (g := g) (q := 1) (r := 0) h (by decide)
    exact ⟨fun v hv => by rw [h v hv]; decide, fun v hv _ => h v hv, List.nodup_nil, by simp, by simp [hz],
      by omega⟩
  | @take lab seen v _ hlt hnext hfit ih =>
    obtain ⟨i1, i2, i3, i4, i5, i6⟩ := ih
    obtain ⟨hv, hs, -⟩ := hnext
    have hp := partWeight_put hv (i2 v hv hs) (hu v hv)
    refine ⟨put_lt i1 v (by decide), fun u hun hus => ?_, List.nodup_cons.mpr ⟨hs, i3⟩, ?_, by
      rw [hp, i5, List.length_cons], by omega⟩
    · have hne : u ≠ v := fun e => hus (by simp [e])
      unfold put
      rw [if_neg hne]
      exact i2 u hun fun hm => hus (by simp [hm])
    · intro u hm
      rcases List.mem_cons.mp hm with rfl | hm
      · exact hv
      · exact i4 u hm
  | @skip lab seen v _ hlt hnext hfit ih =>
    rw [hu v hnext.1] at hfit
    omega

/-- Breadth-first bisection of a graph with unit vertex weights. -/
theorem grownTo_unit [Concrete.Log2Impl] {g : Graph} {t : Target Concrete.fp} {n M : Nat} (he : EvenTwo t n M)
    (hM : n / 2 ≤ M) (hnv : g.nv = n) (hsum : g.sumVtx = n)
    (hu : ∀ v, v < g.nv → g.vw v = 1) {seed : Nat} {out : Nat → Nat} (h : GrownTo g t seed out) :
    (∀ v, v < g.nv → out v < 2) ∧ partWeight g out 0 = n / 2 := by
  obtain ⟨hseed, lab, seen, hg, hout, hx⟩ := h
  have m0 : nth t.mx 0 = M := by rw [he.mx]; rfl
  have m1 : nth t.mx 1 = M := by rw [he.mx]; rfl
  have w0 : nth t.tw 0 = n / 2 := by rw [he.tw]; rfl
  obtain ⟨k1, k2, k3, k4, k5, k6⟩ := grown_unit hu (by omega) hg
  have t1 := partWeight_two k1
  have hpw : partWeight g lab 0 = n / 2 := by
    rcases hout with h | h
    · omega
    · have : (List.range g.nv).length ≤ seen.length :=
        (List.subperm_of_subset List.nodup_range fun v hv => h v (List.mem_range.mp hv)).length_le
      rw [List.length_range] at this
      omega
  rcases hx with ⟨ho, -⟩ | ⟨-, rfl⟩
  · obtain ⟨o1, -, o3⟩ := ho
    rw [m1] at o1
    have e : 1 + partWeight g lab 0 = partWeight g lab 1 := by omega
    rw [m0, m1, e] at o3
    exact absurd (o3.symm.trans (F64_lt_self _)) (by decide)
  · exact ⟨k1, hpw⟩

end Poros
