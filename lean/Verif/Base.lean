/-
Base layer of the model: outcomes of C++ code, checked memory access, 32-bit arithmetic.
-/
namespace Poros

/-- Outcome of running a piece of C++: a value, undefined behaviour, a thrown C++ exception, or
a loop/recursion that used up the fuel the model gave it. -/
inductive Res (α : Type u) : Type u where
  | ok (a : α) : Res α
  | ub : Res α
  | exn : Res α
  | diverge : Res α
deriving DecidableEq, Repr

namespace Res

/-- Sequencing: the first abnormal outcome stops execution. -/
protected def bind : Res α → (α → Res β) → Res β
  | ok a, f => f a
  | ub, _ => ub
  | exn, _ => exn
  | diverge, _ => diverge

instance : Monad Res where
  pure := ok
  bind := Res.bind

@[simp] theorem pure_def (a : α) : (pure a : Res α) = ok a := rfl
@[simp] theorem ok_bind (a : α) (f : α → Res β) : (ok a >>= f) = f a := rfl
@[simp] theorem ub_bind (f : α → Res β) : ((ub : Res α) >>= f) = ub := rfl
@[simp] theorem exn_bind (f : α → Res β) : ((exn : Res α) >>= f) = exn := rfl
@[simp] theorem diverge_bind (f : α → Res β) : ((diverge : Res α) >>= f) = diverge := rfl

instance : LawfulMonad Res := LawfulMonad.mk'
  (id_map := by intro α x; cases x <;> rfl)
  (pure_bind := by intros; rfl)
  (bind_assoc := by intro α β γ x f g; cases x <;> rfl)

/-- `Post B r Q`: if `r` is a value then it satisfies `Q`, otherwise `B` holds.
With `B = False` this is total correctness (no undefined behaviour, no exception, termination),
with `B = True` it is partial correctness. -/
def Post (B : Prop) (r : Res α) (Q : α → Prop) : Prop :=
  match r with
  | ok a => Q a
  | _ => B

/-- Total correctness: the code finishes normally with a result satisfying `Q`. -/
abbrev Sat (r : Res α) (Q : α → Prop) : Prop := Post False r Q

/-- Partial correctness: if the code finishes normally, the result satisfies `Q`. -/
abbrev May (r : Res α) (Q : α → Prop) : Prop := Post True r Q

variable {B : Prop}

@[simp] theorem Post_ok (a : α) (Q : α → Prop) : Post B (ok a) Q ↔ Q a := Iff.rfl
@[simp] theorem Post_pure (a : α) (Q : α → Prop) : Post B (pure a : Res α) Q ↔ Q a := Iff.rfl
@[simp] theorem Post_ub (Q : α → Prop) : Post B (ub : Res α) Q ↔ B := Iff.rfl
@[simp] theorem Post_exn (Q : α → Prop) : Post B (exn : Res α) Q ↔ B := Iff.rfl
@[simp] theorem Post_diverge (Q : α → Prop) : Post B (diverge : Res α) Q ↔ B := Iff.rfl

theorem Post_bind (r : Res α) (f : α → Res β) (Q : β → Prop) :
    Post B (r >>= f) Q ↔ Post B r (fun a => Post B (f a) Q) := by
  cases r <;> rfl

theorem Post_map (r : Res α) (f : α → β) (Q : β → Prop) :
    Post B (f <$> r) Q ↔ Post B r (fun a => Q (f a)) := by
  cases r <;> rfl

theorem Post.mono {r : Res α} {Q Q' : α → Prop} (h : Post B r Q) (hq : ∀ a, Q a → Q' a) :
    Post B r Q' := by
  cases r <;> first | exact hq _ h | exact h

theorem Post.bind {r : Res α} {f : α → Res β} {Q : α → Prop} {Q' : β → Prop}
    (h : Post B r Q) (hf : ∀ a, Q a → Post B (f a) Q') : Post B (r >>= f) Q' := by
  rw [Post_bind]; exact h.mono hf

theorem sat_iff {r : Res α} {Q : α → Prop} : Sat r Q ↔ ∃ a, r = ok a ∧ Q a := by
  cases r <;> simp [Sat, Post]

theorem may_iff {r : Res α} {Q : α → Prop} : May r Q ↔ ∀ a, r = ok a → Q a := by
  cases r <;> simp [May, Post]

theorem Post.of_sat {r : Res α} {Q : α → Prop} (h : Sat r Q) : Post B r Q := by
  cases r <;> simp_all [Sat, Post]

theorem Post.and {r : Res α} {Q Q' : α → Prop} (h : Post B r Q) (h' : Post B r Q') :
    Post B r (fun a => Q a ∧ Q' a) := by
  cases r <;> simp_all [Post]

theorem Post.and_may {r : Res α} {Q Q' : α → Prop} (h : Post B r Q) (h' : May r Q') :
    Post B r (fun a => Q a ∧ Q' a) := by
  cases r <;> simp_all [Post, May]

/-- Reasoning with knowledge of the actual result. -/
theorem Post.with_eq {r : Res α} {Q : α → Prop} (h : Post B r Q) :
    Post B r (fun a => Q a ∧ r = ok a) := by
  cases r <;> simp_all [Post]

theorem Post.elim_ok {r : Res α} {a : α} {Q : α → Prop} (h : Post B r Q) (hr : r = ok a) : Q a := by
  subst hr; exact h

/-- Loop rule, invariant over the processed prefix. -/
theorem Post_foldlM {f : σ → α → Res σ} {l : List α} {s : σ} (P : List α → σ → Prop)
    (h0 : P [] s)
    (hstep : ∀ pre x post s, l = pre ++ x :: post → P pre s → Post B (f s x) (P (pre ++ [x]))) :
    Post B (l.foldlM f s) (P l) := by
  suffices H : ∀ (post pre : List α) (s : σ), l = pre ++ post → P pre s →
      Post B (post.foldlM f s) (P l) from H l [] s rfl h0
  intro post
  induction post with
  | nil => intro pre s hl hp; simp at hl; subst hl; simpa using hp
  | cons x xs ih =>
    intro pre s hl hp
    rw [List.foldlM_cons]
    exact (hstep pre x xs s hl hp).bind fun a ha => ih (pre ++ [x]) a (by simp [hl]) ha

/-- Loop rule for counting loops `for (i = 0; i < n; ++i)`. -/
theorem Post_foldlM_range {f : σ → Nat → Res σ} {n : Nat} {s : σ} (P : Nat → σ → Prop)
    (h0 : P 0 s)
    (hstep : ∀ i s, i < n → P i s → Post B (f s i) (P (i + 1))) :
    Post B ((List.range n).foldlM f s) (P n) := by
  induction n with
  | zero => simpa using h0
  | succ n ih =>
    rw [List.range_succ, List.foldlM_append]
    refine (ih (fun i s hi => hstep i s (by omega))).bind fun a ha => ?_
    rw [List.foldlM_cons]
    refine (hstep n a (by omega) ha).bind fun b hb => ?_
    simpa using hb

/-- Loop rule with an invariant that does not mention progress. -/
theorem Post_foldlM_inv {f : σ → α → Res σ} {l : List α} {s : σ} (P : σ → Prop)
    (h0 : P s) (hstep : ∀ x s, x ∈ l → P s → Post B (f s x) P) :
    Post B (l.foldlM f s) P := by
  refine Post_foldlM (fun _ s => P s) h0 ?_
  intro pre x post s hl hp
  exact hstep x s (by simp [hl]) hp

theorem foldlM_ok_eq_foldl {f : σ → α → Res σ} {g : σ → α → σ} {l : List α} {s : σ}
    (h : ∀ s x, x ∈ l → f s x = ok (g s x)) : l.foldlM f s = ok (l.foldl g s) := by
  induction l generalizing s with
  | nil => rfl
  | cons x xs ih =>
    rw [List.foldlM_cons, h s x (by simp), ok_bind, List.foldl_cons]
    exact ih fun s y hy => h s y (by simp [hy])

theorem Post_mapM {f : α → Res β} {l : List α} (R : α → β → Prop)
    (h : ∀ x ∈ l, Post B (f x) (R x)) :
    Post B (l.mapM f) (fun out => out.length = l.length ∧
      ∀ i (hi : i < l.length) (ho : i < out.length), R l[i] out[i]) := by
  induction l with
  | nil => simp [Post]
  | cons x xs ih =>
    rw [List.mapM_cons]
    refine (h x (by simp)).bind fun b hb => ?_
    refine (ih fun y hy => h y (by simp [hy])).bind fun bs hbs => ?_
    simp only [Post_pure, List.length_cons, hbs.1, true_and]
    intro i hi ho
    cases i with
    | zero => simpa using hb
    | succ i =>
      have hi' : i < xs.length := Nat.lt_of_succ_lt_succ (by simpa using hi)
      simpa using hbs.2 i hi' (by rw [hbs.1]; exact hi')

theorem mapM_ok_eq_map {f : α → Res β} {g : α → β} {l : List α}
    (h : ∀ x ∈ l, f x = ok (g x)) : l.mapM f = ok (l.map g) := by
  induction l with
  | nil => rfl
  | cons x xs ih =>
    rw [List.mapM_cons, h x (by simp), ok_bind, ih (fun y hy => h y (by simp [hy]))]
    rfl

end Res

open Res

/-! ### Arrays -/

/-- Mathematical lookup (only used in specifications and in statements guarded by bounds). -/
def nth [Inhabited α] (l : List α) (i : Nat) : α := l.getD i default

/-- Checked read `a[i]`: out of bounds is undefined behaviour. -/
def rd (l : List α) (i : Nat) : Res α :=
  match l[i]? with
  | some a => .ok a
  | none => .ub

/-- Checked write `a[i] = x`: out of bounds is undefined behaviour. -/
def wr (l : List α) (i : Nat) (x : α) : Res (List α) :=
  if i < l.length then .ok (l.set i x) else .ub

theorem nth_eq_getElem [Inhabited α] {l : List α} {i : Nat} (h : i < l.length) : nth l i = l[i] := by
  simp [nth, h]

theorem nth_of_le [Inhabited α] {l : List α} {i : Nat} (h : l.length ≤ i) :
    nth l i = default := by
  simp [nth, h]

theorem rd_of_lt [Inhabited α] {l : List α} {i : Nat} (h : i < l.length) : rd l i = ok (nth l i) := by
  simp [rd, nth, h]

theorem rd_of_le {l : List α} {i : Nat} (h : l.length ≤ i) : rd l i = ub := by
  simp [rd, h]

theorem wr_of_lt {l : List α} {i : Nat} {x : α} (h : i < l.length) : wr l i x = ok (l.set i x) := by
  simp [wr, h]

theorem Post_rd [Inhabited α] {B : Prop} {l : List α} {i : Nat} {Q : α → Prop} :
    Post B (rd l i) Q ↔ (i < l.length → Q (nth l i)) ∧ (l.length ≤ i → B) := by
  by_cases h : i < l.length
  · rw [rd_of_lt h]; simp [h, Nat.not_le.mpr h]
  · rw [rd_of_le (by omega)]; simp [h, Nat.not_lt.mp h]

theorem Post_wr {B : Prop} {l : List α} {i : Nat} {x : α} {Q : List α → Prop} :
    Post B (wr l i x) Q ↔ (i < l.length → Q (l.set i x)) ∧ (l.length ≤ i → B) := by
  by_cases h : i < l.length
  · rw [wr_of_lt h]; simp [h, Nat.not_le.mpr h]
  · simp [wr, h, Nat.not_lt.mp h]

theorem rd_eq_ok [Inhabited α] {l : List α} {i : Nat} {a : α} :
    rd l i = ok a ↔ i < l.length ∧ nth l i = a := by
  by_cases h : i < l.length
  · rw [rd_of_lt h]; simp [h]
  · rw [rd_of_le (by omega)]; simp [h]

@[simp] theorem nth_set_self [Inhabited α] {l : List α} {i : Nat} {x : α} (h : i < l.length) :
    nth (l.set i x) i = x := by
  simp [nth, h]

theorem nth_set_ne [Inhabited α] {l : List α} {i j : Nat} {x : α} (h : i ≠ j) :
    nth (l.set i x) j = nth l j := by
  simp [nth, h]

theorem nth_set [Inhabited α] {l : List α} {i j : Nat} {x : α} (h : i < l.length) :
    nth (l.set i x) j = if j = i then x else nth l j := by
  by_cases hj : j = i
  · subst hj; simp [h]
  · rw [nth_set_ne (Ne.symm hj)]; simp [hj]

theorem nth_replicate [Inhabited α] {n i : Nat} {x : α} (h : i < n) :
    nth (List.replicate n x) i = x := by
  simp [nth, h]

theorem nth_map [Inhabited α] [Inhabited β] {l : List α} {f : α → β} {i : Nat} (h : i < l.length) :
    nth (l.map f) i = f (nth l i) := by
  simp [nth, h]

theorem nth_range {n i : Nat} (h : i < n) : nth (List.range n) i = i := by
  simp [nth, h]

theorem nth_mem [Inhabited α] {l : List α} {i : Nat} (h : i < l.length) : nth l i ∈ l := by
  rw [nth_eq_getElem h]; exact List.getElem_mem h

theorem nth_append_left [Inhabited α] {l m : List α} {i : Nat} (h : i < l.length) :
    nth (l ++ m) i = nth l i := by
  simp [nth, List.getElem?_append_left, h]

theorem nth_append_right [Inhabited α] {l m : List α} {i : Nat} (h : l.length ≤ i) :
    nth (l ++ m) i = nth m (i - l.length) := by
  simp [nth, List.getElem?_append_right, h]

theorem list_ext_nth [Inhabited α] {l m : List α} (hl : l.length = m.length)
    (h : ∀ i, i < l.length → nth l i = nth m i) : l = m := by
  refine List.ext_getElem hl ?_
  intro i h1 h2
  rw [← nth_eq_getElem h1, ← nth_eq_getElem h2]; exact h i h1

/-- Memory obtained from `sl::Array<T>(n)`/`new T[n]`: cells may be uninitialised (`none`). -/
abbrev Mem := List (Option Nat)

/-- Fresh uninitialised memory of `n` cells (`sl::Array<T>(n)`). -/
def Mem.alloc (n : Nat) : Mem := List.replicate n none

/-- Reading an uninitialised cell is undefined behaviour. -/
def Mem.rd (m : Mem) (i : Nat) : Res Nat :=
  match m[i]? with
  | some (some a) => .ok a
  | _ => .ub

/-- Checked write. -/
def Mem.wr (m : Mem) (i : Nat) (x : Nat) : Res Mem := Poros.wr m i (some x)

/-- All cells, once every one of them has been initialised (otherwise some later read would be of an
uninitialised cell; we count that as undefined behaviour at the moment the array is handed over). -/
def Mem.freeze (m : Mem) : Res (List Nat) :=
  m.mapM (fun c => match c with | some a => .ok a | none => .ub)

/-! ### 32-bit arithmetic -/

/-- 2^32, as a literal so that arithmetic tactics see it. -/
macro "M32" : term => `((4294967296 : Nat))

/-- `NULL_VTX`, `NULL_ADJ`, `NULL_WGT`, `NULL_PID` (src/Base.hpp:57-60): `(uint32_t)-1`. -/
macro "NULL32" : term => `((4294967295 : Nat))

/-- `uint32_t` addition. -/
def uadd (a b : Nat) : Nat := (a + b) % M32
/-- `uint32_t` subtraction. -/
def usub (a b : Nat) : Nat := (a + (M32 - b % M32)) % M32
/-- `(uint32_t)(d * w)` for `d : int` converted to unsigned, as in `flow*edgeWeight`. -/
def umulI (d : Int) (w : Nat) : Nat := ((d * (w : Int)) % (M32 : Int)).toNat
/-- Conversion `uint32_t -> int32_t` (two's complement). -/
def toI32 (a : Nat) : Int := if a % M32 < 2147483648 then (a % M32 : Int) else (a % M32 : Int) - M32
/-- Conversion `int32_t -> uint32_t`. -/
def ofI32 (z : Int) : Nat := (z % (M32 : Int)).toNat

/-- Signed 32-bit subtraction; overflow is undefined behaviour. -/
def isub (a b : Int) : Res Int :=
  if -2147483648 ≤ a - b ∧ a - b < 2147483648 then .ok (a - b) else .ub

/-- Signed 32-bit negation; overflow is undefined behaviour. -/
def ineg (a : Int) : Res Int := isub 0 a

theorem uadd_lt (a b : Nat) : uadd a b < M32 := by unfold uadd; omega
theorem usub_lt (a b : Nat) : usub a b < M32 := by unfold usub; omega

theorem uadd_eq {a b : Nat} (h : a + b < M32) : uadd a b = a + b := by unfold uadd; omega
theorem usub_eq {a b : Nat} (h : b ≤ a) (ha : a < M32) : usub a b = a - b := by unfold usub; omega

theorem toI32_eq {a : Nat} (h : a < 2147483648) : toI32 a = a := by unfold toI32; omega

theorem umulI_one {w : Nat} (h : w < M32) : umulI 1 w = w := by unfold umulI; omega
theorem umulI_neg_one {w : Nat} : umulI (-1) w = usub 0 w := by unfold umulI usub; omega

theorem isub_eq {a b : Int} (h1 : -2147483648 ≤ a - b) (h2 : a - b < 2147483648) :
    isub a b = ok (a - b) := by unfold isub; simp [h1, h2]

theorem ofI32_nat {a : Nat} (h : a < M32) : ofI32 a = a := by unfold ofI32; omega

end Poros
