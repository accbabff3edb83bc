import Verif.Proofs.Aggregation
import Mathlib.Data.List.Nodup
/-
The one-step builder refines a list of finished adjacency lists and one list under construction.
-/
namespace Poros
open Finset Res

attribute [-simp] List.length_flatten List.map_flatten

/-- Weight to `d` in a list of (vertex, weight) pairs. -/
def wOf (l : List (Nat × Nat)) (d : Nat) : Nat := (l.map fun q => if q.1 = d then q.2 else 0).sum

/-- Total weight of a list of (vertex, weight) pairs. -/
def wAll (l : List (Nat × Nat)) : Nat := (l.map fun q => q.2).sum

/-- First components. -/
abbrev keysOf (l : List (Nat × Nat)) : List Nat := l.map fun q => q.1

@[simp] theorem wOf_nil (d : Nat) : wOf [] d = 0 := rfl
@[simp] theorem wAll_nil : wAll [] = 0 := rfl
@[simp] theorem wOf_append (l m : List (Nat × Nat)) (d : Nat) : wOf (l ++ m) d = wOf l d + wOf m d := by
  simp [wOf]
@[simp] theorem wAll_append (l m : List (Nat × Nat)) : wAll (l ++ m) = wAll l + wAll m := by simp [wAll]
@[simp] theorem wOf_cons (q : Nat × Nat) (l : List (Nat × Nat)) (d : Nat) :
    wOf (q :: l) d = (if q.1 = d then q.2 else 0) + wOf l d := by simp [wOf]
@[simp] theorem wAll_cons (q : Nat × Nat) (l : List (Nat × Nat)) : wAll (q :: l) = q.2 + wAll l := by simp [wAll]

theorem wOf_eq_zero {l : List (Nat × Nat)} {d : Nat} (h : d ∉ keysOf l) : wOf l d = 0 := by
  induction l with
  | nil => rfl
  | cons q l ih =>
    simp only [keysOf, List.map_cons, List.mem_cons, not_or] at h
    rw [wOf_cons, if_neg (Ne.symm h.1), ih h.2]

theorem wOf_le (l : List (Nat × Nat)) (d : Nat) : wOf l d ≤ wAll l := by
  induction l with
  | nil => simp
  | cons q l ih => rw [wOf_cons, wAll_cons]; split <;> omega

theorem wOf_perm {l m : List (Nat × Nat)} (h : l.Perm m) (d : Nat) : wOf l d = wOf m d :=
  (h.map _).sum_eq

theorem wAll_perm {l m : List (Nat × Nat)} (h : l.Perm m) : wAll l = wAll m :=
  (h.map _).sum_eq

/-- The builder state `b` stands for the finished adjacency lists `blocks` (with vertex weights `vws`) and the
list `cur` of the current vertex, which begins with the slot collecting self loops. -/
structure BInv (nc cap : Nat) (blocks : List (List (Nat × Nat))) (cur : List (Nat × Nat)) (vws : List Nat)
    (b : OneStep) : Prop where
  nvEq : b.nv = blocks.length
  vlen : vws.length = blocks.length
  le : blocks.length ≤ nc
  neEq : b.ne = blocks.flatten.length + cur.length
  neLe : b.ne ≤ cap
  el : ∃ j, b.elist = (blocks.flatten ++ cur).map (fun q => some q.1) ++ j
  elLen : b.elist.length = cap
  ew : ∃ j, b.ewgt = (blocks.flatten ++ cur).map (fun q => some q.2) ++ j
  ewLen : b.ewgt.length = cap
  preLen : b.pre.length = nc + 1
  pre : ∀ i, i ≤ blocks.length → nth b.pre i = some (blocks.take i).flatten.length
  vwLen : b.vwgt.length = nc
  vw : ∀ i, i < blocks.length → nth b.vwgt i = some (nth vws i)
  htLen : b.ht.length = nc + 1
  htIn : ∀ i, i < cur.length → nth b.ht (nth cur i).1 = blocks.flatten.length + i
  htOut : ∀ d, d ≤ nc → d ∉ keysOf cur → nth b.ht d = NULL32
  nodup : (keysOf cur).Nodup
  keys : ∀ q ∈ cur, q.1 ≤ nc
  head : ∃ sw rest, cur = (blocks.length, sw) :: rest
  totE : b.totE = wAll (blocks.flatten ++ cur)
  totV : b.totV = vws.sum

/-- What adding an edge does to the current list. -/
def Bump (cur : List (Nat × Nat)) (d w : Nat) (cur' : List (Nat × Nat)) : Prop :=
  (d ∉ keysOf cur ∧ cur' = cur ++ [(d, w)]) ∨
  (∃ l1 o l2, cur = l1 ++ (d, o) :: l2 ∧ cur' = l1 ++ (d, o + w) :: l2)

theorem oneStep_new (nc maxE : Nat) :
    ∃ b, OneStep.new nc maxE = ok b ∧ BInv nc (maxE + 1) [] [(0, 0)] [] b ∧ b.ne = 1 := by
  unfold OneStep.new
  rw [Mem.wr_of_lt (by simp [Mem.alloc]), ok_bind, wr_of_lt (by simp), ok_bind,
    Mem.wr_of_lt (by simp [Mem.alloc]), ok_bind, ok_bind]
  refine ⟨_, rfl, ?_, rfl⟩
  refine { nvEq := rfl, vlen := rfl, le := by simp, neEq := rfl, neLe := by simp,
           el := ⟨List.replicate maxE none, by simp [Mem.alloc, List.replicate_succ]⟩,
           elLen := by simp [Mem.alloc],
           ew := ⟨List.replicate maxE none, by simp [Mem.alloc, List.replicate_succ]⟩,
           ewLen := by simp [Mem.alloc],
           preLen := by simp [Mem.alloc], pre := ?_, vwLen := by simp [Mem.alloc],
           vw := by simp, htLen := by simp, htIn := ?_, htOut := ?_, nodup := by simp, keys := by simp,
           head := ⟨0, [], rfl⟩, totE := rfl, totV := rfl }
  · intro i hi
    simp only [List.length_nil, Nat.le_zero_eq] at hi
    subst hi
    simp [Mem.alloc]
  · intro i hi
    simp only [List.length_cons, List.length_nil] at hi
    have : i = 0 := by omega
    subst this
    simp [nth]
  · intro d hd hk
    have : d ≠ 0 := by simpa using hk
    rw [nth_set (by simp), if_neg this, nth_replicate (by omega)]

theorem set_append_cons {α} (l m : List α) (x y : α) (i : Nat) (h : i = l.length) :
    (l ++ x :: m).set i y = l ++ y :: m := by
  subst h; simp

theorem nth_append_cons {α} [Inhabited α] (l m : List α) (x : α) (i : Nat) (h : i = l.length) :
    nth (l ++ x :: m) i = x := by
  subst h; simp [nth]

variable {nc cap : Nat} {blocks : List (List (Nat × Nat))} {cur : List (Nat × Nat)} {vws : List Nat} {b : OneStep}

theorem BInv.addEdge (h : BInv nc cap blocks cur vws b) (hcap : cap ≤ NULL32) {d w : Nat} (hd : d ≤ nc)
    (hne : b.ne < cap) (hw : wAll (blocks.flatten ++ cur) + w < M32) :
    ∃ b' cur', b.addEdge d w = ok b' ∧ BInv nc cap blocks cur' vws b' ∧ Bump cur d w cur' ∧
      b'.ne ≤ b.ne + 1 := by
  unfold OneStep.addEdge
  rw [rd_of_lt (by rw [h.htLen]; omega), ok_bind]
  by_cases hk : d ∈ keysOf cur
  · obtain ⟨q, hq, rfl⟩ := List.mem_map.mp hk
    obtain ⟨l1, l2, rfl⟩ := List.append_of_mem hq
    have hi : l1.length < (l1 ++ q :: l2).length := by simp
    have hht := h.htIn l1.length hi
    rw [nth_append_cons _ _ _ _ rfl] at hht
    have hle := h.neEq
    simp only [List.length_append, List.length_cons] at hle
    rw [hht, if_neg (by omega)]
    obtain ⟨j, hj⟩ := h.ew
    have hj' : b.ewgt = ((blocks.flatten ++ l1).map fun q => some q.2) ++ some q.2 ::
        (l2.map (fun q => some q.2) ++ j) := by rw [hj]; simp
    have hlen : blocks.flatten.length + l1.length = ((blocks.flatten ++ l1).map fun q => some q.2).length := by
      rw [List.length_map, List.length_append]
    rw [Mem.rd_of_some (x := q.2) (by rw [hj']; exact nth_append_cons _ _ _ _ hlen), ok_bind,
      Mem.wr_of_lt (by rw [h.ewLen]; omega), ok_bind]
    have hqw : q.2 + w < M32 := by
      simp only [wAll_append, wAll_cons] at hw; omega
    rw [uadd_eq hqw]
    refine ⟨_, l1 ++ (q.1, q.2 + w) :: l2, rfl, ?_, Or.inr ⟨l1, q.2, l2, by simp, rfl⟩, by simp⟩
    have hks : keysOf (l1 ++ (q.1, q.2 + w) :: l2) = keysOf (l1 ++ q :: l2) := by simp [keysOf]
    refine { nvEq := h.nvEq, vlen := h.vlen, le := h.le, neEq := ?_, neLe := h.neLe, el := ?_, elLen := h.elLen,
             ew := ?_, ewLen := ?_, preLen := h.preLen, pre := h.pre, vwLen := h.vwLen, vw := h.vw,
             htLen := h.htLen, htIn := ?_, htOut := ?_, nodup := ?_, keys := ?_, head := ?_, totE := ?_,
             totV := h.totV }
    · simpa using h.neEq
    · obtain ⟨j, hj⟩ := h.el
      exact ⟨j, by simpa using hj⟩
    · refine ⟨j, ?_⟩
      simp only
      rw [hj', set_append_cons _ _ _ _ _ hlen]
      simp
    · simpa using h.ewLen
    · intro i hi
      have hi' : i < (l1 ++ q :: l2).length := by simpa using hi
      have h1 := h.htIn i hi'
      have : (nth (l1 ++ (q.1, q.2 + w) :: l2) i).1 = (nth (l1 ++ q :: l2) i).1 := by
        have e := congrArg (fun l => nth l i) hks
        simp only [keysOf] at e
        rwa [nth_map hi, nth_map hi'] at e
      simp only
      rw [this, h1]
    · intro x hx hxk
      rw [hks] at hxk
      exact h.htOut x hx hxk
    · rw [hks]; exact h.nodup
    · intro x hx
      have : x.1 ∈ keysOf (l1 ++ (q.1, q.2 + w) :: l2) := List.mem_map.mpr ⟨x, hx, rfl⟩
      rw [hks] at this
      obtain ⟨y, hy, hyx⟩ := List.mem_map.mp this
      rw [← hyx]; exact h.keys y hy
    · obtain ⟨sw, rest, he⟩ := h.head
      cases l1 with
      | nil =>
        simp only [List.nil_append, List.cons.injEq] at he
        refine ⟨q.2 + w, l2, ?_⟩
        rw [he.1]; rfl
      | cons a l1 =>
        simp only [List.cons_append, List.cons.injEq] at he
        exact ⟨sw, l1 ++ (q.1, q.2 + w) :: l2, by rw [he.1]; rfl⟩
    · simp only
      rw [h.totE, uadd_eq hw]
      simp only [wAll_append, wAll_cons]
      omega
  · rw [h.htOut d hd hk, if_pos rfl, wr_of_lt (by rw [h.htLen]; omega), ok_bind]
    rw [Mem.wr_of_lt (by rw [h.elLen]; exact hne), ok_bind, Mem.wr_of_lt (by rw [h.ewLen]; exact hne), ok_bind]
    refine ⟨_, cur ++ [(d, w)], rfl, ?_, Or.inl ⟨hk, rfl⟩, ?_⟩
    · refine { nvEq := h.nvEq, vlen := h.vlen, le := h.le, neEq := ?_, neLe := ?_, el := ?_, elLen := ?_,
               ew := ?_, ewLen := ?_, preLen := h.preLen, pre := h.pre, vwLen := h.vwLen, vw := h.vw,
               htLen := ?_, htIn := ?_, htOut := ?_, nodup := ?_, keys := ?_, head := ?_, totE := ?_,
               totV := h.totV }
      · simp only
        rw [uadd_eq (by omega), h.neEq]; simp; omega
      · simp only
        rw [uadd_eq (by omega)]; omega
      · obtain ⟨j, hj⟩ := h.el
        have hl : b.ne = ((blocks.flatten ++ cur).map fun q => some q.1).length := by
          rw [List.length_map, List.length_append]; exact h.neEq
        cases j with
        | nil =>
          exfalso
          have := h.elLen
          rw [hj, List.append_nil, ← hl] at this
          omega
        | cons x j =>
          refine ⟨j, ?_⟩
          simp only
          rw [hj, set_append_cons _ _ _ _ _ hl]
          simp
      · simpa using h.elLen
      · obtain ⟨j, hj⟩ := h.ew
        have hl : b.ne = ((blocks.flatten ++ cur).map fun q => some q.2).length := by
          rw [List.length_map, List.length_append]; exact h.neEq
        cases j with
        | nil =>
          exfalso
          have := h.ewLen
          rw [hj, List.append_nil, ← hl] at this
          omega
        | cons x j =>
          refine ⟨j, ?_⟩
          simp only
          rw [hj, set_append_cons _ _ _ _ _ hl]
          simp
      · simpa using h.ewLen
      · simpa using h.htLen
      · intro i hi
        simp only
        simp only [List.length_append, List.length_cons, List.length_nil] at hi
        by_cases hic : i < cur.length
        · rw [nth_append_left hic, nth_set_ne, h.htIn i hic]
          rintro rfl
          exact hk (List.mem_map.mpr ⟨_, nth_mem hic, rfl⟩)
        · have : i = cur.length := by omega
          rw [nth_append_cons _ _ _ _ this, nth_set_self (by rw [h.htLen]; omega), h.neEq, this]
      · intro x hx hxk
        simp only [keysOf, List.map_append, List.map_cons, List.map_nil, List.mem_append, List.mem_singleton,
          not_or] at hxk
        simp only
        rw [nth_set_ne (Ne.symm hxk.2)]
        exact h.htOut x hx hxk.1
      · simp only [keysOf, List.map_append, List.map_cons, List.map_nil]
        rw [List.nodup_append]
        refine ⟨h.nodup, by simp, ?_⟩
        intro a ha c hc
        rw [List.mem_singleton] at hc
        rintro rfl
        exact hk (hc ▸ ha)
      · intro q hq
        rcases List.mem_append.mp hq with hq | hq
        · exact h.keys q hq
        · rw [List.mem_singleton] at hq; subst hq; exact hd
      · obtain ⟨sw, rest, he⟩ := h.head
        exact ⟨sw, rest ++ [(d, w)], by rw [he]; rfl⟩
      · simp only
        rw [h.totE, uadd_eq hw]
        simp only [wAll_append, wAll_cons, wAll_nil]
        omega
    · simp only
      rw [uadd_eq (by omega)]

/-- The list of neighbours a finished vertex keeps: the self loop slot is replaced by the last entry. -/
def rot (rest : List (Nat × Nat)) : List (Nat × Nat) :=
  match rest.getLast? with
  | none => []
  | some z => z :: rest.dropLast

theorem rot_nil : rot [] = [] := rfl
theorem rot_snoc (l : List (Nat × Nat)) (z : Nat × Nat) : rot (l ++ [z]) = z :: l := by simp [rot]

theorem rot_perm (l : List (Nat × Nat)) : (rot l).Perm l := by
  rcases List.eq_nil_or_concat l with rfl | ⟨l', z, rfl⟩
  · exact List.Perm.refl _
  · rw [List.concat_eq_append, rot_snoc]
    exact List.perm_append_comm (l₁ := [z]) (l₂ := l')

theorem reset_spec {ht : List Nat} {el : Mem} {F n : Nat} {cur : List (Nat × Nat)}
    (hl : ht.length = nc + 1) (hel : ∀ i, i < cur.length → nth el (F + i) = some (nth cur i).1)
    (hk : ∀ q ∈ cur, q.1 ≤ nc) (ho : ∀ d, d ≤ nc → d ∉ keysOf cur → nth ht d = NULL32) (hn : n = cur.length) :
    Sat ((List.range' F n).foldlM (fun ht j => do
      let u ← el.rd j
      wr ht u NULL32) ht) (fun ht' => ht'.length = nc + 1 ∧ ∀ d, d ≤ nc → nth ht' d = NULL32) := by
  subst hn
  rw [List.range'_eq_map_range, List.foldlM_map]
  refine (Post_foldlM_range (P := fun i (ht' : List Nat) => ht'.length = nc + 1 ∧
    ∀ d, d ≤ nc → (d ∉ keysOf cur ∨ ∃ k, k < i ∧ (nth cur k).1 = d) → nth ht' d = NULL32) ?_ ?_).mono ?_
  · refine ⟨hl, ?_⟩
    rintro d hd (h | ⟨k, hk, -⟩)
    · exact ho d hd h
    · omega
  · rintro i s hi ⟨h1, h2⟩
    have hki := hk _ (nth_mem hi)
    rw [Mem.rd_of_some (hel i hi), ok_bind, wr_of_lt (by omega)]
    refine ⟨by simpa using h1, ?_⟩
    intro d hd hc
    by_cases hdi : d = (nth cur i).1
    · subst hdi; rw [nth_set_self (by omega)]
    · rw [nth_set_ne (Ne.symm hdi)]
      refine h2 d hd ?_
      rcases hc with h | ⟨k, hk, he⟩
      · exact Or.inl h
      · refine Or.inr ⟨k, ?_, he⟩
        rcases Nat.lt_or_ge k i with h | h
        · exact h
        · have : k = i := by omega
          subst this; exact absurd he.symm hdi
  · rintro s ⟨h1, h2⟩
    refine ⟨h1, fun d hd => h2 d hd ?_⟩
    by_cases hdk : d ∈ keysOf cur
    · right
      obtain ⟨q, hq, rfl⟩ := List.mem_map.mp hdk
      obtain ⟨k, hk, rfl⟩ := List.getElem_of_mem hq
      exact ⟨k, hk, by rw [nth_eq_getElem hk]⟩
    · exact Or.inl hdk

/-- Overwriting the slot of the self loop by the last entry and putting a new slot at the end. -/
theorem rotate_store {α} [Inhabited α] (F : List α) (c0 : α) (rest : List α) (j : List α) (x : α) :
    ((F ++ c0 :: rest ++ j).set F.length (nth (F ++ c0 :: rest ++ j) (F.length + rest.length))).set
      (F.length + rest.length) x =
    F ++ (match rest.getLast? with | none => [] | some z => z :: rest.dropLast) ++ x :: j := by
  rcases List.eq_nil_or_concat rest with rfl | ⟨l', z, rfl⟩
  · simp
  · rw [List.concat_eq_append]
    have e1 : F ++ c0 :: (l' ++ [z]) ++ j = (F ++ c0 :: l') ++ z :: j := by simp
    have hl : F.length + (l' ++ [z]).length = (F ++ c0 :: l').length := by simp
    rw [e1, nth_append_cons _ _ _ _ hl]
    have e2 : (F ++ c0 :: l') ++ z :: j = F ++ c0 :: (l' ++ z :: j) := by simp
    rw [e2, set_append_cons _ _ _ _ _ rfl]
    have e3 : F ++ z :: (l' ++ z :: j) = (F ++ z :: l') ++ z :: j := by simp
    rw [e3, set_append_cons _ _ _ _ _ (by simp)]
    simp

theorem rotate_map {β} [Inhabited β] (F : List (Nat × Nat)) (c0 : Nat × Nat) (rest : List (Nat × Nat)) (j : List β)
    (f : Nat × Nat → β) (x : Nat × Nat) (m : List β) (hm : m = (F ++ c0 :: rest).map f ++ j) :
    (m.set F.length (nth m (F.length + rest.length))).set (F.length + rest.length) (f x) =
      (F ++ rot rest ++ [x]).map f ++ j := by
  have := rotate_store (F.map f) (f c0) (rest.map f) j (f x)
  rw [hm]
  simp only [List.length_map] at this
  simp only [List.map_append, List.map_cons] at this ⊢
  rw [this]
  rcases List.eq_nil_or_concat rest with rfl | ⟨l', z, rfl⟩
  · simp [rot]
  · simp [rot]

theorem BInv.finishVertex {c0 : Nat} {rest : List (Nat × Nat)} {sw : Nat}
    (h : BInv nc cap blocks ((c0, sw) :: rest) vws b) (hcap : cap ≤ NULL32)
    (hlt : blocks.length < nc) (hnc : nc < NULL32) {w : Nat} (hv : vws.sum + w < M32)
    (hE : wAll (blocks.flatten ++ (c0, sw) :: rest) < M32) :
    ∃ b', b.finishVertex w = ok b' ∧
      BInv nc cap (blocks ++ [rot rest]) [(blocks.length + 1, 0)] (vws ++ [w]) b' ∧ b'.ne = b.ne := by
  have hne := h.neEq
  have hneLe := h.neLe
  simp only [List.length_cons] at hne
  unfold OneStep.finishVertex
  simp only
  have hpre := h.pre blocks.length le_rfl
  rw [List.take_length] at hpre
  rw [h.nvEq, Mem.rd_of_some hpre, ok_bind, uadd_eq (by omega)]
  obtain ⟨j, hj⟩ := h.el
  obtain ⟨j', hj'⟩ := h.ew
  have hrd : ∀ i, i < ((c0, sw) :: rest).length →
      nth b.elist (blocks.flatten.length + i) = some (nth ((c0, sw) :: rest) i).1 := by
    intro i hi
    have hi2 : blocks.flatten.length + i < (blocks.flatten ++ (c0, sw) :: rest).length := by simp at hi ⊢; omega
    rw [hj, nth_append_left (by simpa using hi2), nth_map hi2, nth_append_right (by omega)]
    simp
  have hrd' : ∀ i, i < ((c0, sw) :: rest).length →
      nth b.ewgt (blocks.flatten.length + i) = some (nth ((c0, sw) :: rest) i).2 := by
    intro i hi
    have hi2 : blocks.flatten.length + i < (blocks.flatten ++ (c0, sw) :: rest).length := by simp at hi ⊢; omega
    rw [hj', nth_append_left (by simpa using hi2), nth_map hi2, nth_append_right (by omega)]
    simp
  obtain ⟨ht', e1, e2, e3⟩ := sat_iff.mp (reset_spec (n := b.ne - blocks.flatten.length) h.htLen hrd h.keys h.htOut
    (by simp; omega))
  rw [e1, ok_bind, usub_eq (by omega) (by omega)]
  have hlast : b.ne - 1 = blocks.flatten.length + rest.length := by omega
  have hr0 := hrd' 0 (by simp)
  rw [Nat.add_zero] at hr0
  rw [hlast, Mem.rd_of_some (x := sw) hr0, ok_bind]
  have hrl := hrd rest.length (by simp)
  have hrl' := hrd' rest.length (by simp)
  rw [Mem.rd_of_some hrl, ok_bind, Mem.wr_of_lt (by rw [h.elLen]; omega), ok_bind,
    Mem.rd_of_some hrl', ok_bind, Mem.wr_of_lt (by rw [h.ewLen]; omega), ok_bind,
    Mem.wr_of_lt (by rw [h.vwLen]; omega), ok_bind, Mem.wr_of_lt (by rw [h.preLen]; omega), ok_bind,
    wr_of_lt (by omega), ok_bind, Mem.wr_of_lt (by simp [h.elLen]; omega), ok_bind,
    Mem.wr_of_lt (by simp [h.ewLen]; omega), ok_bind]
  have hrl2 : (rot rest).length = rest.length := (rot_perm rest).length_eq
  have hbl : (blocks ++ [rot rest]).flatten = blocks.flatten ++ rot rest := by simp
  refine ⟨_, rfl, ?_, rfl⟩
  refine { nvEq := by simp, vlen := by simp [h.vlen], le := by simp; omega, neEq := ?_, neLe := h.neLe,
           el := ⟨j, ?_⟩, elLen := by simpa using h.elLen, ew := ⟨j', ?_⟩, ewLen := by simpa using h.ewLen,
           preLen := by simpa using h.preLen, pre := ?_, vwLen := by simpa using h.vwLen, vw := ?_,
           htLen := by simpa using e2, htIn := ?_, htOut := ?_, nodup := by simp,
           keys := by simp; omega, head := ⟨0, [], by simp⟩, totE := ?_, totV := ?_ }
  · simp only
    rw [hbl, List.length_append, hrl2]; simp; omega
  · simp only
    rw [hbl, ← hrl]
    exact rotate_map blocks.flatten (c0, sw) rest j (fun q => some q.1) (blocks.length + 1, 0) b.elist hj
  · simp only
    rw [hbl, ← hrl']
    exact rotate_map blocks.flatten (c0, sw) rest j' (fun q => some q.2) (blocks.length + 1, 0) b.ewgt hj'
  · intro i hi
    simp only
    simp only [List.length_append, List.length_cons, List.length_nil] at hi
    rw [nth_set (by rw [h.preLen]; omega)]
    by_cases hib : i = blocks.length + 1
    · rw [if_pos hib, hib, List.take_of_length_le (by simp), hbl, List.length_append, hrl2]
    · rw [if_neg hib, h.pre i (by omega), List.take_append_of_le_length (by omega)]
  · intro i hi
    simp only
    simp only [List.length_append, List.length_cons, List.length_nil] at hi
    rw [nth_set (by rw [h.vwLen]; omega)]
    by_cases hib : i = blocks.length
    · rw [if_pos hib, nth_append_cons _ _ _ _ (by rw [h.vlen]; exact hib)]
    · rw [if_neg hib, h.vw i (by omega), nth_append_left (by rw [h.vlen]; omega)]
  · intro i hi
    simp only [List.length_cons, List.length_nil] at hi
    have : i = 0 := by omega
    subst this
    simp only
    have : (nth [(blocks.length + 1, 0)] 0).1 = blocks.length + 1 := by simp [nth]
    rw [this, nth_set_self (by omega), hbl, List.length_append, hrl2]
    omega
  · intro d hd hk
    simp only
    have : d ≠ blocks.length + 1 := by simpa using hk
    rw [nth_set_ne (Ne.symm this), e3 d hd]
  · simp only
    rw [h.totE, hbl]
    simp only [wAll_append, wAll_cons, wAll_nil] at hE ⊢
    rw [usub_eq (by omega) (by omega), wAll_perm (rot_perm rest)]
    omega
  · simp only
    rw [h.totV, uadd_eq hv]; simp

end Poros
