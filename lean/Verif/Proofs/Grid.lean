import Verif.SpecGrid
import Verif.Proofs.Blocks
import Verif.Proofs.Partitioning
import Mathlib.Algebra.GroupWithZero.Action.Defs
import Mathlib.Tactic.Ring
import Mathlib.Tactic.Linarith
import Mathlib.Algebra.BigOperators.Ring.Finset
/-
The grid generator.
-/
namespace Poros
open Finset Res

attribute [-simp] List.length_flatten List.map_flatten

/-! ### Numbering -/

theorem Pt.id_lt {X Y Z : Nat} {p : Pt} (h : p.In X Y Z) : p.id X Y < Z * Y * X := by
  obtain ⟨hx, hy, hz⟩ := h
  unfold Pt.id
  have h1 : p.z * Y + p.y + 1 ≤ Z * Y := by
    calc p.z * Y + p.y + 1 ≤ p.z * Y + Y := by omega
      _ = (p.z + 1) * Y := by ring
      _ ≤ Z * Y := Nat.mul_le_mul_right _ hz
  calc (p.z * Y + p.y) * X + p.x < (p.z * Y + p.y) * X + X := by omega
    _ = (p.z * Y + p.y + 1) * X := by ring
    _ ≤ Z * Y * X := Nat.mul_le_mul_right _ h1

/-- The point of a vertex. -/
def Pt.ofId (X Y v : Nat) : Pt := ⟨v % X, v / X % Y, v / X / Y⟩

theorem Pt.id_ofId (X Y v : Nat) : (Pt.ofId X Y v).id X Y = v := by
  unfold Pt.id Pt.ofId
  show (v / X / Y * Y + v / X % Y) * X + v % X = v
  rw [Nat.mul_comm (v / X / Y), Nat.div_add_mod, Nat.mul_comm, Nat.div_add_mod]

theorem Pt.ofId_id {X Y Z : Nat} {p : Pt} (h : p.In X Y Z) : Pt.ofId X Y (p.id X Y) = p := by
  obtain ⟨hx, hy, hz⟩ := h
  have h1 : p.id X Y / X = p.z * Y + p.y := by
    unfold Pt.id
    rw [Nat.mul_comm, Nat.mul_add_div (by omega), Nat.div_eq_of_lt hx, Nat.add_zero]
  have h2 : p.id X Y % X = p.x := by
    unfold Pt.id
    rw [Nat.mul_add_mod_self_right, Nat.mod_eq_of_lt hx]
  unfold Pt.ofId
  rw [h1, h2, Nat.mul_add_mod_self_right, Nat.mod_eq_of_lt hy, Nat.mul_comm, Nat.mul_add_div (by omega),
    Nat.div_eq_of_lt hy, Nat.add_zero]

theorem Pt.ofId_in {X Y Z v : Nat} (hX : 0 < X) (hY : 0 < Y) (h : v < Z * Y * X) : (Pt.ofId X Y v).In X Y Z := by
  refine ⟨Nat.mod_lt _ hX, Nat.mod_lt _ hY, ?_⟩
  show v / X / Y < Z
  rw [Nat.div_div_eq_div_mul, Nat.div_lt_iff_lt_mul (Nat.mul_pos hX hY)]
  calc v < Z * Y * X := h
    _ = Z * (X * Y) := by ring

theorem Pt.id_inj {X Y Z : Nat} {p q : Pt} (hp : p.In X Y Z) (hq : q.In X Y Z) (h : p.id X Y = q.id X Y) : p = q := by
  rw [← Pt.ofId_id hp, ← Pt.ofId_id hq, h]

/-! ### Nested loops -/

theorem foldlM_nest {σ : Type} {A B : Nat} {f : Nat → Nat → σ → Res σ} {s : σ} :
    (List.range A).foldlM (fun s a => (List.range B).foldlM (fun s b => f a b s) s) s =
      (List.range (A * B)).foldlM (fun s i => f (i / B) (i % B) s) s := by
  induction A generalizing s with
  | zero => simp
  | succ A ih =>
    rw [List.range_succ, List.foldlM_append, ih, Nat.succ_mul, List.range_add, List.foldlM_append]
    congr 1
    funext t
    rw [List.foldlM_cons, List.foldlM_map]
    have : ∀ u : σ, (List.foldlM (fun s a => List.foldlM (fun s b => f a b s) s (List.range B)) u []) = ok u := fun _ => rfl
    simp only [this]
    rw [show ∀ r : Res σ, (r >>= fun u => ok u) = r from fun r => by cases r <;> rfl]
    refine foldlM_congr' fun s b hb => ?_
    have hb := List.mem_range.mp hb
    rw [show A * B + b = B * A + b by ring, Nat.mul_add_div (by omega), Nat.div_eq_of_lt hb, Nat.add_zero,
      Nat.mul_add_mod_self_left, Nat.mod_eq_of_lt hb]

theorem sum_nest {A B : Nat} (f : Nat → Nat → Nat) :
    ∑ i ∈ range (A * B), f (i / B) (i % B) = ∑ a ∈ range A, ∑ b ∈ range B, f a b := by
  induction A with
  | zero => simp
  | succ A ih =>
    rw [sum_range_succ, ← ih, Nat.succ_mul, sum_range_add]
    refine congrArg _ (sum_congr rfl fun b hb => ?_)
    have hb := mem_range.mp hb
    rw [show A * B + b = B * A + b by ring, Nat.mul_add_div (by omega), Nat.div_eq_of_lt hb, Nat.add_zero,
      Nat.mul_add_mod_self_left, Nat.mod_eq_of_lt hb]

/-- All points in the order of the loops. -/
theorem gridLoops_eq {X Y Z : Nat} {src : List Nat} {s : GridState} :
    gridLoops X Y Z src s = (List.range (Z * Y * X)).foldlM (fun s v =>
      gridVertex X Y Z src (Pt.ofId X Y v).x (Pt.ofId X Y v).y (Pt.ofId X Y v).z s) s := by
  unfold gridLoops
  rw [foldlM_nest (f := fun z y s => (List.range X).foldlM (fun s x => gridVertex X Y Z src x y z s) s),
    foldlM_nest (f := fun i x s => gridVertex X Y Z src x (i % Y) (i / Y) s)]
  rfl

/-! ### Neighbours -/

/-- The neighbours of a point in the order in which the generator lists them, with the dimension. -/
def nexts (X Y Z : Nat) (p : Pt) : List (Pt × Nat) :=
  (if 0 < p.x then [(⟨p.x - 1, p.y, p.z⟩, 0)] else []) ++ (if p.x + 1 < X then [(⟨p.x + 1, p.y, p.z⟩, 0)] else []) ++
  (if 0 < p.y then [(⟨p.x, p.y - 1, p.z⟩, 1)] else []) ++ (if p.y + 1 < Y then [(⟨p.x, p.y + 1, p.z⟩, 1)] else []) ++
  (if 0 < p.z then [(⟨p.x, p.y, p.z - 1⟩, 2)] else []) ++ (if p.z + 1 < Z then [(⟨p.x, p.y, p.z + 1⟩, 2)] else [])

theorem mem_ite_singleton {α} {c : Prop} [Decidable c] {a b : α} : a ∈ (if c then [b] else []) ↔ c ∧ a = b := by
  split <;> simp_all

theorem mem_nexts {X Y Z : Nat} {p q : Pt} {d : Nat} (hp : p.In X Y Z) :
    (q, d) ∈ nexts X Y Z p ↔ q.In X Y Z ∧ Pt.Step d p q := by
  obtain ⟨px, py, pz⟩ := p
  obtain ⟨qx, qy, qz⟩ := q
  obtain ⟨hx, hy, hz⟩ := hp
  simp only at hx hy hz
  unfold nexts Pt.In Pt.Step
  simp only [List.mem_append, mem_ite_singleton, Prod.mk.injEq, Pt.mk.injEq]
  omega

theorem nexts_nodup {X Y Z : Nat} {p : Pt} : ((nexts X Y Z p).map (·.1)).Nodup := by
  obtain ⟨px, py, pz⟩ := p
  unfold nexts
  simp only [List.map_append]
  have e : ∀ (c : Prop) [Decidable c] (b : Pt × Nat), (if c then [b] else []).map (·.1) = if c then [b.1] else [] := by
    intro c _ b; split <;> rfl
  simp only [e, List.nodup_append, List.mem_append, mem_ite_singleton]
  have n : ∀ (c : Prop) [Decidable c] (b : Pt), (if c then [b] else []).Nodup := by
    intro c _ b; split <;> simp
  simp only [n, true_and]
  refine ⟨⟨⟨⟨?_, ?_⟩, ?_⟩, ?_⟩, ?_⟩ <;>
    (rintro ⟨ax, ay, az⟩ ha ⟨bx, bY, bz⟩ hb; simp only [Pt.mk.injEq, ne_eq] at *; omega)

/-- Number of neighbours in one dimension. -/
def degIn (a A : Nat) : Nat := (if 0 < a then 1 else 0) + (if a + 1 < A then 1 else 0)

theorem nexts_length (X Y Z : Nat) (p : Pt) :
    (nexts X Y Z p).length = degIn p.x X + degIn p.y Y + degIn p.z Z := by
  have e : ∀ (c : Prop) [Decidable c] (b : Pt × Nat), (if c then [b] else []).length = if c then 1 else 0 := by
    intro c _ b; split <;> rfl
  unfold nexts degIn
  simp only [List.length_append, e]
  omega

theorem sum_degIn {A : Nat} (hA : 0 < A) : ∑ a ∈ range A, degIn a A = 2 * (A - 1) := by
  unfold degIn
  rw [sum_add_distrib]
  have h1 : ∑ a ∈ range A, (if 0 < a then 1 else 0) = A - 1 := by
    obtain ⟨n, rfl⟩ := Nat.exists_eq_succ_of_ne_zero (n := A) (by omega)
    rw [sum_range_succ']
    simp
  have h2 : ∑ a ∈ range A, (if a + 1 < A then 1 else 0) = A - 1 := by
    obtain ⟨n, rfl⟩ := Nat.exists_eq_succ_of_ne_zero (n := A) (by omega)
    rw [sum_range_succ]
    have : ∑ x ∈ range n, (if x + 1 < n.succ then 1 else 0) = ∑ x ∈ range n, 1 :=
      sum_congr rfl fun x hx => by rw [if_pos (by have := mem_range.mp hx; omega)]
    rw [this]
    simp
  omega

theorem sum_nexts {X Y Z : Nat} (hX : 0 < X) (hY : 0 < Y) (hZ : 0 < Z) :
    ∑ v ∈ range (Z * Y * X), (nexts X Y Z (Pt.ofId X Y v)).length = gridEdgeCount X Y Z := by
  have e1 : ∑ v ∈ range (Z * Y * X), (nexts X Y Z (Pt.ofId X Y v)).length =
      ∑ i ∈ range (Z * Y), ∑ x ∈ range X, (degIn x X + degIn (i % Y) Y + degIn (i / Y) Z) := by
    rw [← sum_nest (fun i x => degIn x X + degIn (i % Y) Y + degIn (i / Y) Z)]
    exact sum_congr rfl fun v _ => nexts_length _ _ _ _
  have e2 : ∑ i ∈ range (Z * Y), ∑ x ∈ range X, (degIn x X + degIn (i % Y) Y + degIn (i / Y) Z) =
      ∑ z ∈ range Z, ∑ y ∈ range Y, ∑ x ∈ range X, (degIn x X + degIn y Y + degIn z Z) :=
    sum_nest (fun z y => ∑ x ∈ range X, (degIn x X + degIn y Y + degIn z Z))
  rw [e1, e2]
  simp only [sum_add_distrib, sum_const, card_range, smul_eq_mul, ← mul_sum, sum_degIn hX, sum_degIn hY, sum_degIn hZ]
  unfold gridEdgeCount
  ring

end Poros
