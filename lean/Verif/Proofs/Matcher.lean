import Verif.Proofs.Aggregation
namespace Poros
open Finset Res

/-- The builder stores the matching `f`. -/
structure MatchOK (n : Nat) (f : Nat → Option Nat) (m : Matcher) : Prop where
  len : m.mtch.length = n
  vals : ∀ v, v < n → nth m.mtch v = (f v).getD NULL32
  isM : IsMatching n f

variable {n : Nat} {f : Nat → Option Nat} {m : Matcher}

theorem MatchOK.new (n : Nat) : MatchOK n (fun _ => none) (Matcher.new n) := by
  refine ⟨by simp [Matcher.new], ?_, ⟨by simp, by simp, by simp⟩⟩
  intro v hv
  exact nth_replicate hv

theorem MatchOK.isMatched_eq (h : MatchOK n f m) (hn : n ≤ NULL32) {v : Nat} (hv : v < n) :
    m.isMatched v = ok (f v).isSome := by
  unfold Matcher.isMatched
  rw [rd_of_lt (by rw [h.len]; exact hv), ok_bind, h.vals v hv]
  cases hf : f v with
  | none => simp
  | some u => have := h.isM.lt v u hv hf; simp; omega

theorem MatchOK.mate (h : MatchOK n f m) {a b : Nat} (ha : a < n) (hb : b < n) (hab : a ≠ b)
    (hfa : f a = none) (hfb : f b = none) :
    ∃ m', m.mate a b = ok m' ∧ MatchOK n (MOp.spec f (.mate a b)) m' ∧ m'.next = m.next := by
  unfold Matcher.mate
  rw [wr_of_lt (by rw [h.len]; exact ha), ok_bind, wr_of_lt (by simp [h.len]; exact hb), ok_bind]
  refine ⟨_, rfl, ⟨by simp [h.len], ?_, ⟨?_, ?_, ?_⟩⟩, rfl⟩
  · intro v hv
    simp only [MOp.spec]
    rw [nth_set (by simp [h.len]; exact hb), nth_set (by rw [h.len]; exact ha), h.vals v hv]
    by_cases h1 : v = a
    · subst h1; simp [hab]
    · by_cases h2 : v = b
      · subst h2; simp [h1]
      · simp [h1, h2]
  · intro v u hv hf
    simp only [MOp.spec] at hf
    split at hf
    · cases hf; exact hb
    · split at hf
      · cases hf; exact ha
      · exact h.isM.lt v u hv hf
  · intro v u hv hf
    simp only [MOp.spec] at hf
    split at hf
    · cases hf; subst_vars; exact hab.symm
    · split at hf
      · cases hf; subst_vars; exact hab
      · exact h.isM.ne v u hv hf
  · intro v u hv hf
    simp only [MOp.spec] at hf ⊢
    split at hf
    · cases hf; subst_vars; simp [hab.symm]
    · split at hf
      · cases hf; subst_vars; simp
      · have h1 := h.isM.symm v u hv hf
        have hua : u ≠ a := by rintro rfl; rw [hfa] at h1; cases h1
        have hub : u ≠ b := by rintro rfl; rw [hfb] at h1; cases h1
        simp [hua, hub, h1]

/-! ### next unmatched -/

theorem advance_spec (h : MatchOK n f m) (hn : n ≤ NULL32) (fuel next : Nat) (hf : n < fuel + next)
    (hnx : next ≤ n) (hlow : ∀ v, v < next → f v ≠ none) :
    ∃ r, Matcher.advance m.mtch fuel next = ok r ∧ r ≤ n ∧ (∀ v, v < r → f v ≠ none) ∧
      (r < n → f r = none) := by
  induction fuel generalizing next with
  | zero => omega
  | succ fuel ih =>
    unfold Matcher.advance
    by_cases hlt : next < n
    · rw [if_pos (by rw [h.len]; exact hlt), rd_of_lt (by rw [h.len]; exact hlt), ok_bind, h.vals next hlt]
      cases hfn : f next with
      | none =>
        simp only [Option.getD_none, ne_eq, not_true_eq_false, if_false]
        exact ⟨next, rfl, hnx, hlow, fun _ => hfn⟩
      | some u =>
        have := h.isM.lt next u hlt hfn
        rw [if_pos (by simp; omega)]
        refine ih (next + 1) (by omega) (by omega) ?_
        intro v hv
        rcases Nat.lt_or_ge v next with h1 | h1
        · exact hlow v h1
        · obtain rfl : v = next := by omega
          rw [hfn]; simp
    · rw [if_neg (by rw [h.len]; exact hlt)]
      exact ⟨next, rfl, hnx, hlow, fun h => absurd h hlt⟩

theorem getNextUnmatched_spec (h : MatchOK n f m) (hn : n ≤ NULL32) (hnx : m.next ≤ n)
    (hlow : ∀ v, v < m.next → f v ≠ none) :
    ∃ r m', m.getNextUnmatched = ok (r, m') ∧ MatchOK n f m' ∧ m'.next = r ∧ r ≤ n ∧
      (∀ v, v < r → f v ≠ none) ∧ (r < n → f r = none) := by
  obtain ⟨r, h1, h2, h3, h4⟩ := advance_spec h hn (m.mtch.length + 1) m.next (by rw [h.len]; omega) hnx hlow
  unfold Matcher.getNextUnmatched
  rw [h1, ok_bind]
  exact ⟨r, _, rfl, ⟨h.len, h.vals, h.isM⟩, rfl, h2, h3, h4⟩

/-- Everything a history of calls preserves. -/
structure MatchHist (n : Nat) (f : Nat → Option Nat) (m : Matcher) : Prop where
  ok : MatchOK n f m
  next_le : m.next ≤ n
  low : ∀ v, v < m.next → f v ≠ none

theorem MatchHist.run (h : MatchHist n f m) (hn : n ≤ NULL32) (op : MOp) (hl : op.Legal n f) :
    ∃ m', op.run m = .ok m' ∧ MatchHist n (op.spec f) m' := by
  cases op with
  | mate a b =>
    obtain ⟨ha, hb, hab, hfa, hfb⟩ := hl
    obtain ⟨m', h1, h2, h3⟩ := h.ok.mate ha hb hab hfa hfb
    refine ⟨m', h1, h2, by rw [h3]; exact h.next_le, ?_⟩
    intro v hv
    rw [h3] at hv
    have := h.low v hv
    simp only [MOp.spec]
    split
    · simp
    · split
      · simp
      · exact this
  | next =>
    obtain ⟨r, m', h1, h2, h3, h4, h5, h6⟩ := getNextUnmatched_spec h.ok hn h.next_le h.low
    refine ⟨m', by simp [MOp.run, h1], h2, by rw [h3]; exact h4, by rw [h3]; exact h5⟩

theorem MatchHist.history (ops : List MOp) (h : MatchHist n f m) (hn : n ≤ NULL32)
    (hl : LegalMatches n f ops) :
    ∃ m', ops.foldlM MOp.run m = .ok m' ∧ MatchHist n (ops.foldl MOp.spec f) m' := by
  induction ops generalizing f m with
  | nil => exact ⟨m, rfl, h⟩
  | cons op ops ih =>
    obtain ⟨h1, h2⟩ := hl
    obtain ⟨m1, r1, i1⟩ := h.run hn op h1
    obtain ⟨m2, r2, i2⟩ := ih i1 h2
    refine ⟨m2, ?_, i2⟩
    rw [List.foldlM_cons, r1, ok_bind, r2]

theorem MatchHist.new (n : Nat) : MatchHist n (fun _ => none) (Matcher.new n) :=
  ⟨MatchOK.new n, by simp [Matcher.new], by intro v hv; simp [Matcher.new] at hv⟩

/-! ### build -/

/-- The smaller of a vertex and its partner. -/
def ldr (f : Nat → Option Nat) (v : Nat) : Nat :=
  match f v with
  | none => v
  | some u => min v u

/-- Number of leaders below `l`. -/
def lrank (f : Nat → Option Nat) (l : Nat) : Nat := ∑ v ∈ range l, if ldr f v = v then 1 else 0

theorem lrank_succ (f : Nat → Option Nat) (l : Nat) :
    lrank f (l + 1) = lrank f l + if ldr f l = l then 1 else 0 := sum_range_succ _ _

theorem lrank_mono {f : Nat → Option Nat} {a b : Nat} (h : a ≤ b) : lrank f a ≤ lrank f b :=
  sum_le_sum_of_subset (range_subset_range.mpr h)

theorem lrank_le (f : Nat → Option Nat) (l : Nat) : lrank f l ≤ l := by
  induction l with
  | zero => simp [lrank]
  | succ l ih => rw [lrank_succ]; split <;> omega

theorem lrank_lt {f : Nat → Option Nat} {a b : Nat} (h : a < b) (ha : ldr f a = a) : lrank f a < lrank f b := by
  have := lrank_mono (f := f) (show a + 1 ≤ b by omega)
  rw [lrank_succ, if_pos ha] at this
  omega

theorem ldr_le (f : Nat → Option Nat) (v : Nat) : ldr f v ≤ v := by
  unfold ldr; split <;> omega

theorem ldr_ldr (h : IsMatching n f) {v : Nat} (hv : v < n) : ldr f (ldr f v) = ldr f v := by
  unfold ldr
  cases hf : f v with
  | none => simp [hf]
  | some u =>
    simp only
    rcases Nat.le_total v u with h1 | h1
    · rw [Nat.min_eq_left h1, hf]; simp [h1]
    · rw [Nat.min_eq_right h1, h.symm v u hv hf]; simp [h1]

theorem ldr_eq_iff (h : IsMatching n f) {v u : Nat} (hv : v < n) (hu : u < n) :
    ldr f v = ldr f u ↔ v = u ∨ f v = some u := by
  constructor
  · intro he
    unfold ldr at he
    cases hfv : f v with
    | none =>
      cases hfu : f u with
      | none => simp only [hfv, hfu] at he; exact Or.inl he
      | some u' =>
        simp only [hfv, hfu] at he
        rcases Nat.le_total u u' with h1 | h1
        · rw [Nat.min_eq_left h1] at he; exact Or.inl he
        · rw [Nat.min_eq_right h1] at he
          subst he
          rw [h.symm u v hu hfu] at hfv; cases hfv
    | some v' =>
      have hv' := h.symm v v' hv hfv
      cases hfu : f u with
      | none =>
        simp only [hfv, hfu] at he
        rcases Nat.le_total v v' with h1 | h1
        · rw [Nat.min_eq_left h1] at he; exact Or.inl he
        · rw [Nat.min_eq_right h1] at he
          subst he; exact Or.inr rfl
      | some u' =>
        have hu' := h.symm u u' hu hfu
        simp only [hfv, hfu] at he
        rcases Nat.le_total v v' with h1 | h1 <;> rcases Nat.le_total u u' with h2 | h2
        · rw [Nat.min_eq_left h1, Nat.min_eq_left h2] at he; exact Or.inl he
        · rw [Nat.min_eq_left h1, Nat.min_eq_right h2] at he
          subst he; rw [hfv] at hu'; cases hu'; exact Or.inr rfl
        · rw [Nat.min_eq_right h1, Nat.min_eq_left h2] at he
          subst he; exact Or.inr rfl
        · rw [Nat.min_eq_right h1, Nat.min_eq_right h2] at he
          subst he; rw [hv'] at hu'; cases hu'; exact Or.inl rfl
  · rintro (rfl | hf)
    · rfl
    · unfold ldr
      rw [hf, h.symm v u hv hf]
      simp only
      exact Nat.min_comm _ _

theorem build_loop (h : MatchOK n f m) (hn : n ≤ NULL32) :
    Sat ((List.range m.mtch.length).foldlM (Matcher.buildStep m) (Mem.alloc m.mtch.length, 0))
      (fun s => s.1.length = n ∧ s.2 = lrank f n ∧
        ∀ v, v < n → nth s.1 v = some (lrank f (ldr f v))) := by
  rw [h.len]
  refine (Post_foldlM_range (P := fun i (s : Mem × Nat) => s.1.length = n ∧ s.2 = lrank f i ∧
      ∀ v, v < n → ldr f v < i → nth s.1 v = some (lrank f (ldr f v))) ?_ ?_).mono ?_
  · exact ⟨by simp [Mem.alloc], by simp [lrank], fun v _ hv => absurd hv (by omega)⟩
  · rintro i ⟨cm, nc⟩ hi ⟨h1, h2, h3⟩
    simp only at h1 h2 h3
    subst h2
    have hrk := lrank_le f i
    unfold Matcher.buildStep
    rw [rd_of_lt (by rw [h.len]; exact hi), ok_bind, h.vals i hi]
    cases hf : f i with
    | none =>
      have hl : ldr f i = i := by unfold ldr; rw [hf]
      simp only [Option.getD_none, if_true]
      rw [Mem.wr_of_lt (by omega), ok_bind]
      refine ⟨by simpa using h1, ?_, ?_⟩
      · rw [lrank_succ, if_pos hl, uadd_eq (by omega)]
      · intro v hv hlt
        rw [nth_set (by omega)]
        by_cases hvi : v = i
        · subst hvi; simp [hl]
        · rw [if_neg hvi]
          refine h3 v hv ?_
          rcases Nat.lt_or_ge (ldr f v) i with hh | hh
          · exact hh
          · have : ldr f v = ldr f i := by omega
            rcases (ldr_eq_iff h.isM hv hi).mp this with he | he
            · exact absurd he hvi
            · have := h.isM.symm v i hv he
              rw [hf] at this; cases this
    | some u =>
      have hu := h.isM.lt i u hi hf
      have hune := h.isM.ne i u hi hf
      have hmu := h.isM.symm i u hi hf
      simp only [Option.getD_some]
      rw [if_neg (by omega)]
      by_cases hiu : i < u
      · have hl : ldr f i = i := by unfold ldr; rw [hf]; simp; omega
        rw [if_pos hiu, Mem.wr_of_lt (by omega), ok_bind, Mem.wr_of_lt (by simp; omega), ok_bind]
        refine ⟨by simpa using h1, ?_, ?_⟩
        · rw [lrank_succ, if_pos hl, uadd_eq (by omega)]
        · intro v hv hlt
          rw [nth_set (by simp; omega), nth_set (by omega)]
          by_cases hvu : v = u
          · subst hvu
            have : ldr f v = i := by rw [← hl]; exact (ldr_eq_iff h.isM hv hi).mpr (Or.inr hmu)
            simp [this]
          · by_cases hvi : v = i
            · subst hvi; simp [hl, hvu]
            · rw [if_neg hvu, if_neg hvi]
              refine h3 v hv ?_
              rcases Nat.lt_or_ge (ldr f v) i with hh | hh
              · exact hh
              · have : ldr f v = ldr f i := by omega
                rcases (ldr_eq_iff h.isM hv hi).mp this with he | he
                · exact absurd he hvi
                · have := h.isM.symm v i hv he
                  rw [hf] at this; cases this; exact absurd rfl hvu
      · have hl : ldr f i = u := by unfold ldr; rw [hf]; simp; omega
        rw [if_neg hiu]
        refine ⟨h1, ?_, ?_⟩
        · rw [lrank_succ, if_neg (by omega)]; rfl
        · intro v hv hlt
          refine h3 v hv ?_
          rcases Nat.lt_or_ge (ldr f v) i with hh | hh
          · exact hh
          · have h5 : ldr f v = i := by omega
            have h6 := ldr_ldr h.isM hv
            rw [h5, hl] at h6
            omega
  · rintro s ⟨h1, h2, h3⟩
    exact ⟨h1, h2, fun v hv => h3 v hv (lt_of_le_of_lt (ldr_le f v) hv)⟩

theorem lrank_surj {f : Nat → Option Nat} {n c : Nat} (h : c < lrank f n) :
    ∃ l, l < n ∧ ldr f l = l ∧ lrank f l = c := by
  induction n with
  | zero => simp [lrank] at h
  | succ n ih =>
    by_cases hc : c < lrank f n
    · obtain ⟨l, h1, h2, h3⟩ := ih hc
      exact ⟨l, by omega, h2, h3⟩
    · rw [lrank_succ] at h
      split at h
      · rename_i hl
        exact ⟨n, by omega, hl, by omega⟩
      · omega

/-- What `build` produces. -/
structure BuiltFrom (n : Nat) (f : Nat → Option Nat) (a : Aggregation) : Prop where
  ok : AggOK n a
  same : ∀ v u, v < n → u < n → (a.same v u ↔ v = u ∨ f v = some u)
  surj : ∀ c, c < a.nc → ∃ v, v < n ∧ nth a.cmap v = c

theorem build_spec (h : MatchOK n f m) (hn : n ≤ NULL32) : Sat m.build (BuiltFrom n f) := by
  unfold Matcher.build
  refine (build_loop h hn).bind fun s ⟨h1, h2, h3⟩ => ?_
  have hfz := freeze_spec (fun v => lrank f (ldr f v)) h1 h3
  have hv : ∀ v, v < n → nth ((List.range n).map fun v => lrank f (ldr f v)) v = lrank f (ldr f v) := by
    intro v hv
    rw [nth_map (by simpa using hv), nth_range hv]
  have hlt : ∀ v, v < n → lrank f (ldr f v) < lrank f n := fun v hv =>
    lrank_lt (lt_of_le_of_lt (ldr_le f v) hv) (ldr_ldr h.isM hv)
  refine (Aggregation.make_spec (n := n) (nc := s.2) hfz (by simp) (by omega) (fun v hv' => ?_)).mono ?_
  · rw [hv v hv', h2]; exact hlt v hv'
  · rintro a ⟨a1, a2, a3⟩
    refine ⟨a1, ?_, ?_⟩
    · intro v u hvn hun
      unfold Aggregation.same
      rw [a3, hv v hvn, hv u hun, ← ldr_eq_iff h.isM hvn hun]
      constructor
      · intro he
        rcases Nat.lt_trichotomy (ldr f v) (ldr f u) with hh | hh | hh
        · have := lrank_lt hh (ldr_ldr h.isM hvn); omega
        · exact hh
        · have := lrank_lt hh (ldr_ldr h.isM hun); omega
      · intro he; rw [he]
    · intro c hc
      rw [a2, h2] at hc
      obtain ⟨l, l1, l2, l3⟩ := lrank_surj hc
      exact ⟨l, l1, by rw [a3, hv l l1, l2, l3]⟩

theorem BuiltFrom.fiber_le {a : Aggregation} (h : BuiltFrom n f a) (c : Nat) :
    (fiber (nth a.cmap) n c).length ≤ 2 := by
  have hnd := fiber_nodup (nth a.cmap) n c
  have hm : ∀ v, v ∈ fiber (nth a.cmap) n c → v < n ∧ nth a.cmap v = c := fun v hv => mem_fiber.mp hv
  match hfb : fiber (nth a.cmap) n c with
  | [] => simp
  | [_] => simp
  | [_, _] => simp
  | x :: y :: z :: rest =>
    rw [hfb] at hnd hm
    have hx := hm x (by simp)
    have hy := hm y (by simp)
    have hz := hm z (by simp)
    simp only [List.nodup_cons, List.mem_cons, not_or] at hnd
    have h1 := (h.same x y hx.1 hy.1).mp (by unfold Aggregation.same; omega)
    have h2 := (h.same x z hx.1 hz.1).mp (by unfold Aggregation.same; omega)
    rcases h1 with h1 | h1
    · exact absurd h1 hnd.1.1
    · rcases h2 with h2 | h2
      · exact absurd h2 hnd.1.2.1
      · rw [h1] at h2; cases h2; exact absurd rfl hnd.2.1.1

theorem BuiltFrom.size {a : Aggregation} (h : BuiltFrom n f a) : a.nc ≤ n ∧ n ≤ 2 * a.nc := by
  have hs := sum_fiber (nth a.cmap) a.nc n h.ok.lt
  constructor
  · calc a.nc = ∑ c ∈ range a.nc, 1 := by simp
      _ ≤ ∑ c ∈ range a.nc, (fiber (nth a.cmap) n c).length := by
        refine sum_le_sum fun c hc => ?_
        obtain ⟨v, hv, hvc⟩ := h.surj c (mem_range.mp hc)
        exact List.length_pos_of_mem (mem_fiber.mpr ⟨hv, hvc⟩)
      _ = n := hs
  · calc n = ∑ c ∈ range a.nc, (fiber (nth a.cmap) n c).length := hs.symm
      _ ≤ ∑ c ∈ range a.nc, 2 := sum_le_sum fun c _ => h.fiber_le c
      _ = 2 * a.nc := by simp; omega

end Poros
