import Verif.Model.IntC
import Mathlib.Data.Int.ModEq
import Mathlib.Tactic.Ring

/-! # C62: sizes in C `int` arithmetic -/

namespace Ceacoest

theorem toIntC_emod (x : Int) : toIntC x % 2 ^ 32 = x % 2 ^ 32 := by unfold toIntC; omega

theorem toIntC_range (x : Int) : -2 ^ 31 ≤ toIntC x ∧ toIntC x < 2 ^ 31 := by unfold toIntC; omega

theorem foldl_intC (l : List Nat) (acc : Int) :
    (l.foldl (fun (acc : Int) (n : Nat) => toIntC (acc * toIntC n)) acc) % 2 ^ 32 = (acc * (l.prod : Nat)) % 2 ^ 32 := by
  induction l generalizing acc with
  | nil => simp
  | cons n l ih =>
    rw [List.foldl_cons, ih, List.prod_cons]
    have h1 : toIntC (acc * toIntC n) ≡ acc * n [ZMOD 2 ^ 32] :=
      (show _ ≡ _ [ZMOD _] from toIntC_emod _).trans ((Int.ModEq.refl acc).mul (toIntC_emod n))
    have h2 := h1.mul (Int.ModEq.refl (l.prod : Int))
    rw [show acc * ((n * l.prod : Nat) : Int) = acc * n * l.prod by push_cast; ring]
    exact h2

/-- `size` is the product of the shape reduced to a signed 32 bit integer, for every shape. -/
theorem C62_size_wraps (c : Component) :
    -2 ^ 31 ≤ c.sizeIntC ∧ c.sizeIntC < 2 ^ 31 ∧ (2 ^ 32 : Int) ∣ (c.shape.prod : Int) - c.sizeIntC := by
  have hm : c.sizeIntC % 2 ^ 32 = (c.shape.prod : Int) % 2 ^ 32 := by
    have := foldl_intC c.shape 1
    rwa [one_mul] at this
  have hr : -2 ^ 31 ≤ c.sizeIntC ∧ c.sizeIntC < 2 ^ 31 := by
    unfold Component.sizeIntC
    rcases List.eq_nil_or_concat c.shape with h | ⟨l, n, h⟩
    · rw [h]; decide
    · rw [h, List.concat_eq_append, List.foldl_append, List.foldl_cons, List.foldl_nil]
      exact toIntC_range _
  refine ⟨hr.1, hr.2, ?_⟩
  omega

/-- The full claim is `∀ c, c.sizeIntC = c.shape.prod`.  It is false (next theorem); it holds exactly for the shapes with
fewer than `2 ^ 31` elements, and then `size` agrees with the exact size used in the rest of the model. -/
theorem C62_size_partial (c : Component) : c.sizeIntC = c.shape.prod ↔ c.shape.prod < 2 ^ 31 := by
  obtain ⟨h1, h2, k, h3⟩ := C62_size_wraps c
  constructor
  · intro h
    have : ((c.shape.prod : Nat) : Int) < 2 ^ 31 := h ▸ h2
    exact_mod_cast this
  · intro h
    have : ((c.shape.prod : Nat) : Int) < 2 ^ 31 := by exact_mod_cast h
    have h0 : (0 : Int) ≤ ((c.shape.prod : Nat) : Int) := Int.natCast_nonneg _
    omega

/-- A variable with more than `2 ^ 31` entries gets size 0, or a negative size. -/
theorem C62_counterexample : ¬ ∀ c : Component, c.sizeIntC = c.shape.prod := by
  intro h
  have := (C62_size_partial ⟨[65536, 65536], 0⟩).1 (h _)
  revert this
  decide

example : (⟨[65536, 65536], 0⟩ : Component).sizeIntC = 0 := by decide
example : (⟨[50000, 50000], 0⟩ : Component).sizeIntC = -1794967296 := by decide
example : (⟨[5, 7, 11], 3⟩ : Component).sizeIntC = 385 := by decide

end Ceacoest
