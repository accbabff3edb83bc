import Verif.Ext
import Mathlib.Data.List.Sort
import Mathlib.Data.List.Dedup
import Mathlib.Data.Rat.Floor
import Mathlib.Tactic.Linarith
/-
One concrete environment, used only to show that hypotheses can be met and to compute witnesses.
Queues and sets are lists, the random engine is the identity, doubles are binary64 with round to nearest
even (without signed zeros).
-/
namespace Poros

namespace Concrete

/-! ### priority queue -/

/-- First element with a maximal value of `f`. -/
def argmax (f : Nat → Int) : List Nat → Nat
  | [] => 0
  | [a] => a
  | a :: b :: l =>
    let m := argmax f (b :: l)
    if f m ≤ f a then a else m

theorem argmax_mem (f : Nat → Int) : ∀ {l : List Nat}, l ≠ [] → argmax f l ∈ l
  | [a], _ => by simp [argmax]
  | a :: b :: l, _ => by
    have := argmax_mem f (l := b :: l) (by simp)
    simp only [argmax]
    split
    · simp
    · exact List.mem_cons_of_mem _ this

theorem argmax_le (f : Nat → Int) : ∀ {l : List Nat} {u : Nat}, u ∈ l → f u ≤ f (argmax f l)
  | [a], u, h => by simp at h; subst h; simp [argmax]
  | a :: b :: l, u, h => by
    simp only [argmax]
    rcases List.mem_cons.mp h with rfl | h'
    · split
      · exact le_refl _
      · omega
    · have := argmax_le f h'
      split
      · omega
      · exact this

/-- Association list lookup. -/
def look : List (Nat × Int) → Nat → Option Int
  | [], _ => none
  | (a, k) :: l, v => if v = a then some k else look l v

theorem look_filter (l : List (Nat × Int)) (v u : Nat) :
    look (l.filter fun p => p.1 != v) u = if u = v then none else look l u := by
  induction l with
  | nil => simp [look]
  | cons p l ih =>
    obtain ⟨a, k⟩ := p
    rw [List.filter_cons]
    by_cases ha : a = v
    · subst ha
      simp only [bne_self_eq_false, Bool.false_eq_true, if_false, ih, look]
      split <;> rfl
    · simp only [bne_iff_ne, ne_eq, ha, not_false_eq_true, if_true, look, ih]
      by_cases hu : u = a
      · subst hu; simp [ha]
      · simp [hu]

theorem look_isSome (l : List (Nat × Int)) (u : Nat) : (look l u).isSome ↔ u ∈ l.map Prod.fst := by
  induction l with
  | nil => simp [look]
  | cons p l ih =>
    obtain ⟨a, k⟩ := p
    simp only [look, List.map_cons, List.mem_cons]
    by_cases hu : u = a
    · simp [hu]
    · simp [hu, ih]

def pq : PQImpl where
  Q := List (Nat × Int)
  empty := []
  key := look
  put q v k := (v, k) :: q.filter fun p => p.1 != v
  del q v := q.filter fun p => p.1 != v
  top q := argmax (fun u => (look q u).getD 0) (q.map Prod.fst)
  elems q := (q.map Prod.fst).dedup
  key_empty _ := rfl
  key_put q v k u := by simp only [look, look_filter]; split <;> simp_all
  key_del q v u := look_filter q v u
  mem_elems q v := by rw [List.mem_dedup, look_isSome]
  nodup_elems q := List.nodup_dedup _
  top_max q u k h := by
    have hu : u ∈ q.map Prod.fst := (look_isSome q u).mp (by rw [h]; rfl)
    have hm := argmax_mem (fun u => (look q u).getD 0) (List.ne_nil_of_mem hu)
    obtain ⟨m, hm'⟩ := Option.isSome_iff_exists.mp ((look_isSome q _).mpr hm)
    refine ⟨m, hm', ?_⟩
    have := argmax_le (fun u => (look q u).getD 0) hu
    rw [h, hm'] at this
    simpa using this

/-! ### set -/

def set : SetImpl where
  S := List Nat
  empty := []
  has s v := decide (v ∈ s)
  ins s v := s ++ [v]
  del s v := s.filter fun u => u != v
  elems s := s.dedup
  has_empty _ := rfl
  has_ins s v u := by by_cases h : u = v <;> simp [h]
  has_del s v u := by by_cases h : u = v <;> simp [h]
  mem_elems s v := by simp
  nodup_elems s := List.nodup_dedup _

/-! ### random engine -/

/-- Vertices sorted by key. -/
def sortKeys (keys : List Nat) : List Nat :=
  (List.range keys.length).insertionSort (fun a b => nth keys a ≤ nth keys b)

theorem sortKeys_sorted (keys : List Nat) :
    (sortKeys keys).Pairwise (fun a b => nth keys a ≤ nth keys b) := by
  have : Std.Total (fun a b => nth keys a ≤ nth keys b) := ⟨fun a b => le_total _ _⟩
  have : IsTrans Nat (fun a b => nth keys a ≤ nth keys b) := ⟨fun _ _ _ h1 h2 => le_trans h1 h2⟩
  exact List.pairwise_insertionSort _ _

def rng : RngImpl where
  S := Unit
  seed _ := ()
  perm s n := (List.range n, s)
  rand s lo _ := (lo, s)
  sortRandom s keys := (sortKeys keys, s)
  sort := sortKeys
  perm_perm _ _ := List.Perm.refl _
  rand_range _ _ _ h := ⟨le_refl _, h⟩
  sortRandom_perm _ _ := List.perm_insertionSort _ _
  sortRandom_sorted _ keys := sortKeys_sorted keys
  sort_perm _ := List.perm_insertionSort _ _
  sort_sorted keys := sortKeys_sorted keys

/-! ### binary64 -/

/-- Doubles: rationals, infinities, not-a-number. -/
inductive F64 where
  | fin (q : Rat) | inf (neg : Bool) | nan
deriving DecidableEq, Repr

/-- `2^e` for an integer exponent. -/
def pow2 (e : Int) : Rat := if 0 ≤ e then ((2 ^ e.toNat : Nat) : Rat) else 1 / ((2 ^ (-e).toNat : Nat) : Rat)

/-- Floor of the binary logarithm of a positive rational. -/
def ilog2 (q : Rat) : Int :=
  let a : Int := (Nat.log2 q.num.natAbs : Int) - Nat.log2 q.den
  if pow2 a ≤ q then a else a - 1

/-- Nearest integer, ties to even, of a non-negative rational. -/
def rne (q : Rat) : Nat :=
  let f := q.num.natAbs / q.den
  let r := q - f
  if r < 1 / 2 then f else if 1 / 2 < r then f + 1 else if f % 2 = 0 then f else f + 1

/-- Rounding to binary64. -/
def rnd (q : Rat) : F64 :=
  if q = 0 then .fin 0 else
  let a := if q < 0 then -q else q
  let e := max (ilog2 a - 52) (-1074)
  let r := (rne (a / pow2 e) : Rat) * pow2 e
  if pow2 1024 ≤ r then .inf (decide (q < 0)) else .fin (if q < 0 then -r else r)

namespace F64
def neg : F64 → F64
  | fin q => fin (-q) | inf s => inf (!s) | nan => nan
def add : F64 → F64 → F64
  | fin a, fin b => rnd (a + b)
  | inf s, fin _ => inf s
  | fin _, inf s => inf s
  | inf s, inf r => if s = r then inf s else nan
  | _, _ => nan
def mul : F64 → F64 → F64
  | fin a, fin b => rnd (a * b)
  | inf s, fin b => if b = 0 then nan else inf (xor s (decide (b < 0)))
  | fin a, inf s => if a = 0 then nan else inf (xor s (decide (a < 0)))
  | inf s, inf r => inf (xor s r)
  | _, _ => nan
def div : F64 → F64 → F64
  | fin a, fin b => if b = 0 then (if a = 0 then nan else inf (decide (a < 0))) else rnd (a / b)
  | inf s, fin b => inf (xor s (decide (b < 0)))
  | fin _, inf _ => fin 0
  | _, _ => nan
def lt : F64 → F64 → Bool
  | fin a, fin b => decide (a < b)
  | inf s, fin _ => s
  | fin _, inf s => !s
  | inf s, inf r => s && !r
  | _, _ => false
def le (a b : F64) : Bool := lt a b || (decide (a = b) && decide (a ≠ nan))
def abs : F64 → F64
  | fin q => fin (if q < 0 then -q else q) | inf _ => inf false | nan => nan
/-- A logarithm: exact on powers of two, rounded down to an integer otherwise. -/
def log2 : F64 → F64
  | fin q => if q = 0 then inf true else if q < 0 then nan else fin (ilog2 q)
  | inf s => if s then nan else inf false
  | nan => nan
def toU32 : F64 → Option Nat
  | fin q =>
    if -1 < q then
      let n := q.num.toNat / q.den
      if n < M32 then some n else none
    else none
  | _ => none
end F64

/-- What the theorems about doubles know of the library function `log2`: the logarithm of an integer between two
neighbouring powers of two is a number between the two exponents, and the logarithm of a power of two is exact. -/
class Log2Impl where
  log2 : F64 → F64
  between : ∀ m k : Nat, 2 ^ m ≤ k → k < 2 ^ (m + 1) → m < 32 →
    ∃ q : Rat, log2 (.fin (k : Rat)) = .fin q ∧ (m : Rat) ≤ q ∧ q ≤ (m : Rat) + 1
  exact : ∀ m : Nat, m < 32 → log2 (.fin ((2 ^ m : Nat) : Rat)) = .fin (m : Rat)

theorem ilog2_nat' {k : Nat} (hk : 0 < k) : ilog2 (k : Rat) = Nat.log2 k := by
  have h1 : (((Nat.log2 (k : Rat).num.natAbs : Nat) : Int) - ((Nat.log2 (k : Rat).den : Nat) : Int)) = (Nat.log2 k : Int) := by
    rw [Rat.num_natCast, Rat.den_natCast, Int.natAbs_natCast, show Nat.log2 1 = 0 by decide]; simp
  unfold ilog2
  simp only [h1]
  rw [if_pos]
  unfold pow2
  rw [if_pos (Int.natCast_nonneg _), Int.toNat_natCast]
  exact_mod_cast Nat.log2_self_le (by omega)

/-- Such a function exists. -/
instance floorLog2 : Log2Impl where
  log2 := F64.log2
  between m k h1 h2 _ := by
    have hk : 0 < k := lt_of_lt_of_le (Nat.two_pow_pos m) h1
    have hkq : (0 : Rat) < k := by exact_mod_cast hk
    have hm : Nat.log2 k = m := (Nat.log2_eq_iff (by omega)).mpr ⟨h1, h2⟩
    refine ⟨(m : Rat), ?_, le_refl _, by linarith⟩
    unfold F64.log2
    simp only
    rw [if_neg (ne_of_gt hkq), if_neg (not_lt.mpr hkq.le), ilog2_nat' hk, hm]
    simp
  exact m _ := by
    have hk : 0 < 2 ^ m := Nat.two_pow_pos m
    have hkq : (0 : Rat) < ((2 ^ m : Nat) : Rat) := by exact_mod_cast hk
    unfold F64.log2
    simp only
    rw [if_neg (ne_of_gt hkq), if_neg (not_lt.mpr hkq.le), ilog2_nat' hk, Nat.log2_two_pow]
    simp

/-- Doubles with some implementation of the logarithm. -/
def fp [Log2Impl] : FP where
  F := F64
  ofNat n := rnd n
  lit m e := rnd ((m : Rat) / ((10 ^ e : Nat) : Rat))
  add := F64.add
  sub a b := F64.add a b.neg
  mul := F64.mul
  div := F64.div
  log2 := Log2Impl.log2
  abs := F64.abs
  lt := F64.lt
  le := F64.le
  toU32 := F64.toU32
  toU32_lt x n h := by
    cases x with
    | fin q =>
      simp only [F64.toU32] at h
      split at h
      · split at h
        · simp at h; omega
        · simp at h
      · simp at h
    | inf s => simp [F64.toU32] at h
    | nan => simp [F64.toU32] at h

def env : Env := ⟨pq, set, rng, fp⟩

example : fp.lt (fp.lit 1 1) (fp.div (fp.lit 3 0) (fp.lit 10 0)) = true := by decide +kernel
/-- the classic: 0.1 + 0.2 > 0.3 in binary64 -/
example : fp.lt (fp.lit 3 1) (fp.add (fp.lit 1 1) (fp.lit 2 1)) = true := by decide +kernel

end Concrete
end Poros
