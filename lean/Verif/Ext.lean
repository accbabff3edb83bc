import Verif.Base
/-
External components: code that this repository calls but does not contain (the `solidutils`
submodule, the C++ library, IEEE doubles). They are *parameters* of the model. Each theorem holds for
every implementation that satisfies the laws below, so for every tie breaking, iteration order and
random sequence. The laws are part of the trusted base (DESIGN.md).
-/
namespace Poros

/-- `sl::FixedPriorityQueue<wgt_diff_type, vtx_type>` seen through `src/util/VertexQueue.hpp:37-199`:
a finite map from values to keys. -/
structure PQImpl where
  Q : Type
  /-- empty queue -/
  empty : Q
  /-- the key of a value, `none` if absent -/
  key : Q → Nat → Option Int
  /-- insert or overwrite -/
  put : Q → Nat → Int → Q
  /-- erase -/
  del : Q → Nat → Q
  /-- the value `peek()`/`pop()` refers to (unspecified on an empty queue) -/
  top : Q → Nat
  /-- iteration order of `remaining()` -/
  elems : Q → List Nat
  key_empty : ∀ v, key empty v = none
  key_put : ∀ q v k u, key (put q v k) u = if u = v then some k else key q u
  key_del : ∀ q v u, key (del q v) u = if u = v then none else key q u
  mem_elems : ∀ q v, v ∈ elems q ↔ (key q v).isSome
  nodup_elems : ∀ q, (elems q).Nodup
  /-- the top has a maximal key -/
  top_max : ∀ q u k, key q u = some k → ∃ m, key q (top q) = some m ∧ k ≤ m

/-- `sl::FixedSet<vtx_type>`: a finite set with some iteration order. -/
structure SetImpl where
  S : Type
  empty : S
  has : S → Nat → Bool
  ins : S → Nat → S
  del : S → Nat → S
  elems : S → List Nat
  has_empty : ∀ v, has empty v = false
  has_ins : ∀ s v u, has (ins s v) u = if u = v then true else has s u
  has_del : ∀ s v u, has (del s v) u = if u = v then false else has s u
  mem_elems : ∀ s v, v ∈ elems s ↔ has s v = true
  nodup_elems : ∀ s, (elems s).Nodup

/-- Random engine (`src/util/SimpleRandomEngine.hpp/.cpp`, `src/util/RandomEngineHandle.hpp`) and the
`sl::Random`, `sl::Sort`, `sl::FastIntDistribution` routines used with it. `S` is the engine state. -/
structure RngImpl where
  S : Type
  /-- engine created from a seed -/
  seed : Nat → S
  /-- `fillWithPerm(container, 0, n)` -/
  perm : S → Nat → List Nat × S
  /-- `randInRange(lo, hi)` for `lo ≤ hi` -/
  rand : S → Nat → Nat → Nat × S
  /-- `sl::Sort::fixedKeysRandom(keys, n, engine)` -/
  sortRandom : S → List Nat → List Nat × S
  /-- `sl::Sort::fixedKeys(keys, n)` -/
  sort : List Nat → List Nat
  perm_perm : ∀ s n, (perm s n).1.Perm (List.range n)
  rand_range : ∀ s lo hi, lo ≤ hi → lo ≤ (rand s lo hi).1 ∧ (rand s lo hi).1 ≤ hi
  sortRandom_perm : ∀ s keys, (sortRandom s keys).1.Perm (List.range keys.length)
  sortRandom_sorted : ∀ s keys,
    (sortRandom s keys).1.Pairwise (fun a b => nth keys a ≤ nth keys b)
  sort_perm : ∀ keys, (sort keys).Perm (List.range keys.length)
  sort_sorted : ∀ keys, (sort keys).Pairwise (fun a b => nth keys a ≤ nth keys b)

/-- `double`: operations only, no laws. A theorem needing laws states them as hypotheses. -/
structure FP where
  F : Type
  /-- conversion from an integer type -/
  ofNat : Nat → F
  /-- the literal `m * 10^(-e)` -/
  lit : Nat → Nat → F
  add : F → F → F
  sub : F → F → F
  mul : F → F → F
  div : F → F → F
  log2 : F → F
  abs : F → F
  lt : F → F → Bool
  le : F → F → Bool
  /-- `static_cast<uint32_t>(x)`; `none` when the value is not representable (undefined behaviour) -/
  toU32 : F → Option Nat
  /-- a converted value is a 32-bit number -/
  toU32_lt : ∀ x n, toU32 x = some n → n < M32

instance (fp : FP) : Inhabited fp.F := ⟨fp.lit 0 0⟩

/-- The environment of the model: one choice of all external components. -/
structure Env where
  pq : PQImpl
  set : SetImpl
  rng : RngImpl
  fp : FP

open Res

/-! ### Checked uses

Misuse of an external container (adding a present value, removing or updating an absent one, looking
at the top of an empty queue, using a value at or above the capacity) is undefined behaviour. -/

/-- A `VertexQueue` with its capacity (`VertexQueue(numVertices)`, src/util/VertexQueue.hpp:48-53). -/
structure VQueue (P : PQImpl) where
  cap : Nat
  q : P.Q

namespace VQueue
variable {P : PQImpl}

/-- src/util/VertexQueue.hpp:48-53 -/
def new (P : PQImpl) (n : Nat) : VQueue P := ⟨n, P.empty⟩

/-- src/util/VertexQueue.hpp:175-178 (`size`) -/
def size (q : VQueue P) : Nat := (P.elems q.q).length

/-- src/util/VertexQueue.hpp:74-79 (`add`); the `uint32_t` key is converted to `int32_t`, which for the
callers' `int32_t` arguments is the identity. -/
def add (q : VQueue P) (k : Int) (v : Nat) : Res (VQueue P) :=
  if q.cap ≤ v then .ub else
  match P.key q.q v with
  | some _ => .ub
  | none => .ok { q with q := P.put q.q v k }

/-- src/util/VertexQueue.hpp:61-65 (`remove`) -/
def remove (q : VQueue P) (v : Nat) : Res (VQueue P) :=
  if q.cap ≤ v then .ub else
  match P.key q.q v with
  | none => .ub
  | some _ => .ok { q with q := P.del q.q v }

/-- src/util/VertexQueue.hpp:88-93 (`update`) -/
def update (q : VQueue P) (k : Int) (v : Nat) : Res (VQueue P) :=
  if q.cap ≤ v then .ub else
  match P.key q.q v with
  | none => .ub
  | some _ => .ok { q with q := P.put q.q v k }

/-- src/util/VertexQueue.hpp:102-107 (`updateByDelta`); signed overflow of the key is undefined. -/
def updateByDelta (q : VQueue P) (d : Int) (v : Nat) : Res (VQueue P) :=
  if q.cap ≤ v then .ub else
  match P.key q.q v with
  | none => .ub
  | some k => do
    let k' ← isub k (-d)
    .ok { q with q := P.put q.q v k' }

/-- src/util/VertexQueue.hpp:116-120 (`contains`) -/
def contains (q : VQueue P) (v : Nat) : Res Bool :=
  if q.cap ≤ v then .ub else .ok (P.key q.q v).isSome

/-- src/util/VertexQueue.hpp:153-156 (`peek`) -/
def peek (q : VQueue P) : Res Nat :=
  match P.key q.q (P.top q.q) with
  | none => .ub
  | some _ => .ok (P.top q.q)

/-- src/util/VertexQueue.hpp:164-167 (`max`) -/
def max (q : VQueue P) : Res Int :=
  match P.key q.q (P.top q.q) with
  | none => .ub
  | some k => .ok k

/-- src/util/VertexQueue.hpp:142-145 (`pop`) -/
def pop (q : VQueue P) : Res (Nat × VQueue P) :=
  match P.key q.q (P.top q.q) with
  | none => .ub
  | some _ => .ok (P.top q.q, { q with q := P.del q.q (P.top q.q) })

/-- src/util/VertexQueue.hpp:183-186 (`clear`) -/
def clear (q : VQueue P) : VQueue P := { q with q := P.empty }

/-- src/util/VertexQueue.hpp:193-196 (`remaining`) -/
def remaining (q : VQueue P) : List Nat := P.elems q.q

end VQueue

/-- `sl::FixedSet` with its capacity. -/
structure VSet (P : SetImpl) where
  cap : Nat
  s : P.S

namespace VSet
variable {P : SetImpl}

/-- `FixedSet(n)` -/
def new (P : SetImpl) (n : Nat) : VSet P := ⟨n, P.empty⟩
/-- `has(v)` -/
def has (s : VSet P) (v : Nat) : Res Bool := if s.cap ≤ v then .ub else .ok (P.has s.s v)
/-- `add(v)` -/
def add (s : VSet P) (v : Nat) : Res (VSet P) :=
  if s.cap ≤ v then .ub else if P.has s.s v then .ub else .ok { s with s := P.ins s.s v }
/-- `remove(v)` -/
def remove (s : VSet P) (v : Nat) : Res (VSet P) :=
  if s.cap ≤ v then .ub else if P.has s.s v then .ok { s with s := P.del s.s v } else .ub
/-- iteration -/
def elems (s : VSet P) : List Nat := P.elems s.s
end VSet

/-- `static_cast<uint32_t>(double)` -/
def FP.cast (fp : FP) (x : fp.F) : Res Nat :=
  match fp.toU32 x with
  | some n => .ok n
  | none => .ub

/-- `randInRange(lo, hi)` (src/util/SimpleRandomEngine.hpp:103-108): an empty range is undefined. -/
def RngImpl.randInRange (r : RngImpl) (s : r.S) (lo hi : Nat) : Res (Nat × r.S) :=
  if lo ≤ hi then .ok (r.rand s lo hi) else .ub

end Poros
