import Verif.Lemmas.RK
import Mathlib.RingTheory.Polynomial.ShiftedLegendre
import Mathlib.Data.Nat.Choose.Central
import Mathlib.Data.Nat.Choose.Sum
import Mathlib.Analysis.Calculus.LocalExtr.Rolle
import Mathlib.Analysis.Calculus.LocalExtr.Polynomial
import Mathlib.Tactic.LinearCombination
import Mathlib.Tactic.Linarith

/-! # Legendre polynomials: recurrence, orthogonality, location of the zeros of the derivative -/

namespace Ceacoest.RK
open Polynomial Spec

/-- Mathlib's shifted Legendre polynomial over the reals. -/
noncomputable def shiftedLeg (n : Nat) : ℝ[X] := (shiftedLegendre n).map (Int.castRingHom ℝ)

/-- Absolute values of the coefficients. -/
def legCoef (n k : Nat) : Nat := (n + k).choose (2 * k) * Nat.centralBinom k

theorem choose_mul_choose (n k : Nat) : n.choose k * (n + k).choose n = legCoef n k := by
  unfold legCoef
  by_cases h : k ≤ n
  · have := Nat.choose_mul (n := n + k) (k := 2 * k) (s := k) (by omega)
    rw [Nat.centralBinom, this, show n + k - k = n by omega, show 2 * k - k = k by omega, mul_comm, Nat.choose_symm_add]
  · rw [Nat.choose_eq_zero_of_lt (by omega), Nat.choose_eq_zero_of_lt (by omega : n + k < 2 * k)]
    simp

theorem coeff_shiftedLeg (n k : Nat) : (shiftedLeg n).coeff k = (-1) ^ k * (legCoef n k : ℝ) := by
  unfold shiftedLeg
  rw [coeff_map, coeff_shiftedLegendre, ← choose_mul_choose]
  push_cast
  simp [mul_assoc]

/-- Recurrence of the coefficients. -/
theorem legCoef_rec (n k : Nat) :
    ((n : ℝ) + 2) * legCoef (n + 2) (k + 1) + (n + 1) * legCoef n (k + 1) =
      (2 * n + 3) * (legCoef (n + 1) (k + 1) + 2 * legCoef (n + 1) k) := by
  unfold legCoef
  have e1 : (n + 2 + (k + 1)).choose (2 * (k + 1)) =
      (n + 1 + k).choose (2 * k) + 2 * (n + 1 + k).choose (2 * k + 1) + (n + 1 + k).choose (2 * k + 2) := by
    rw [show n + 2 + (k + 1) = (n + 1 + k) + 1 + 1 by ring, show 2 * (k + 1) = 2 * k + 1 + 1 by ring, Nat.choose_succ_succ,
      Nat.choose_succ_succ, Nat.choose_succ_succ]
    ring
  have e2 : (n + 1 + (k + 1)).choose (2 * (k + 1)) = (n + 1 + k).choose (2 * k + 1) + (n + 1 + k).choose (2 * k + 2) := by
    rw [show n + 1 + (k + 1) = (n + 1 + k) + 1 by ring, show 2 * (k + 1) = 2 * k + 1 + 1 by ring, Nat.choose_succ_succ]
  have e3 : (n + (k + 1)).choose (2 * (k + 1)) = (n + 1 + k).choose (2 * k + 2) := by
    rw [show n + (k + 1) = n + 1 + k by ring, show 2 * (k + 1) = 2 * k + 2 by ring]
  have hB : ((k : ℝ) + 1) * Nat.centralBinom (k + 1) = 2 * (2 * k + 1) * Nat.centralBinom k := by
    exact_mod_cast Nat.succ_mul_centralBinom_succ k
  have hC : ((n + 1 + k).choose (2 * k + 1) : ℝ) * (2 * k + 1) = (n + 1 + k).choose (2 * k) * ((n : ℝ) + 1 - k) := by
    have := Nat.choose_succ_right_eq (n + 1 + k) (2 * k)
    by_cases h : 2 * k ≤ n + 1 + k
    · have h' : ((n + 1 + k - 2 * k : Nat) : ℝ) = (n : ℝ) + 1 - k := by
        rw [Nat.cast_sub h]; push_cast; ring
      rw [← h']
      exact_mod_cast this
    · rw [Nat.choose_eq_zero_of_lt (by omega : n + 1 + k < 2 * k), Nat.choose_eq_zero_of_lt (by omega : n + 1 + k < 2 * k + 1)]
      simp
  rw [e1, e2, e3]
  push_cast
  have hk : (2 * (k : ℝ) + 1) ≠ 0 := by positivity
  have hk1 : ((k : ℝ) + 1) ≠ 0 := by positivity
  refine mul_left_cancel₀ hk ?_
  refine mul_left_cancel₀ hk1 ?_
  generalize ((n + 1 + k).choose (2 * k) : ℝ) = a at hC
  generalize ((n + 1 + k).choose (2 * k + 1) : ℝ) = b at hC
  generalize ((n + 1 + k).choose (2 * k + 2) : ℝ) = c
  generalize (Nat.centralBinom (k + 1) : ℝ) = B' at hB
  generalize (Nat.centralBinom k : ℝ) = B at hB
  linear_combination ((k : ℝ) + 1) * B' * hC + (k + 1) * (2 * n + 3) * a * hB

theorem shiftedLeg_rec (n : Nat) :
    C ((n : ℝ) + 2) * shiftedLeg (n + 2) = C (2 * (n : ℝ) + 3) * ((1 - C 2 * X) * shiftedLeg (n + 1)) - C ((n : ℝ) + 1) * shiftedLeg n := by
  ext k
  rw [coeff_sub, coeff_C_mul, coeff_C_mul, coeff_C_mul, sub_mul, coeff_sub, one_mul, mul_assoc, coeff_C_mul]
  cases k with
  | zero =>
    rw [coeff_X_mul_zero]
    simp only [coeff_shiftedLeg, legCoef]
    simp
    ring
  | succ k =>
    rw [coeff_X_mul]
    simp only [coeff_shiftedLeg]
    have := legCoef_rec n k
    rw [pow_succ]
    linear_combination ((-1) ^ k * (-1)) * this

/-- The model's Legendre polynomial is Mathlib's up to sign. -/
theorem legendre01_eq (n : Nat) : legendre01 n = C ((-1) ^ n) * shiftedLeg n := by
  induction n using Nat.strong_induction_on with
  | _ n ih =>
    match n with
    | 0 =>
      simp [legendre01, legendre, shiftedLeg, shiftedLegendre]
    | 1 =>
      ext k
      rw [coeff_C_mul, coeff_shiftedLeg]
      match k with
      | 0 => simp [legendre01, legendre, legCoef]
      | 1 => simp [legendre01, legendre, legCoef, Nat.centralBinom, coeff_one]
      | k + 2 =>
        rw [legCoef, Nat.choose_eq_zero_of_lt (by omega)]
        simp [legendre01, legendre, coeff_X, coeff_one]
    | n + 2 =>
      have h0 := ih n (by omega)
      have h1 := ih (n + 1) (by omega)
      have hr := shiftedLeg_rec n
      have hn : ((n : ℝ) + 2) ≠ 0 := by positivity
      have e : legendre01 (n + 2) = C (1 / ((n : ℝ) + 2)) * (C (2 * (n : ℝ) + 3) * (C 2 * X - 1) * legendre01 (n + 1) -
          C ((n : ℝ) + 1) * legendre01 n) := by
        simp only [legendre01, legendre, mul_comp, sub_comp, C_comp, X_comp]
      have hinv : C (1 / ((n : ℝ) + 2)) * C ((n : ℝ) + 2) = 1 := by
        rw [← C_mul, one_div_mul_cancel hn, C_1]
      rw [e, h0, h1]
      have p2 : (C ((-1) ^ (n + 2)) : ℝ[X]) = C ((-1) ^ n) := by rw [pow_add]; simp
      have p1 : (C ((-1) ^ (n + 1)) : ℝ[X]) = -C ((-1) ^ n) := by rw [pow_succ]; simp
      rw [p2, p1]
      linear_combination (-(C (1 / ((n : ℝ) + 2)) * C ((-1) ^ n))) * hr + (C ((-1) ^ n) * shiftedLeg (n + 2)) * hinv

/-! ### Orthogonality -/

/-- `X^m (1 - X)^m`. -/
noncomputable def bump (m : Nat) : ℝ[X] := X ^ m * (1 - X) ^ m

theorem iterate_bump (m : Nat) : derivative^[m] (bump m) = C (m.factorial : ℝ) * shiftedLeg m := by
  have h := congrArg (Polynomial.map (Int.castRingHom ℝ)) (factorial_mul_shiftedLegendre_eq m)
  rw [Polynomial.map_mul, ← iterate_derivative_map] at h
  simp at h
  rw [bump, ← h]
  rfl

theorem bump_boundary (m k : Nat) (h : k < m) : (derivative^[k] (bump m)).eval 0 = 0 ∧ (derivative^[k] (bump m)).eval 1 = 0 := by
  constructor
  · have h1 : (X : ℝ[X]) ^ m ∣ bump m := ⟨_, rfl⟩
    have h2 := pow_sub_dvd_iterate_derivative_of_pow_dvd k h1
    obtain ⟨q, hq⟩ := h2
    rw [hq, eval_mul, eval_pow, eval_X, zero_pow (by omega), zero_mul]
  · have h1 : (1 - X : ℝ[X]) ^ m ∣ bump m := ⟨X ^ m, mul_comm _ _⟩
    have h2 := pow_sub_dvd_iterate_derivative_of_pow_dvd k h1
    obtain ⟨q, hq⟩ := h2
    rw [hq, eval_mul, eval_pow]
    simp [zero_pow (by omega : m - k ≠ 0)]

theorem integral_by_parts (p q : ℝ[X]) (h0 : p.eval 0 * q.eval 0 = 0) (h1 : p.eval 1 * q.eval 1 = 0) :
    integral (derivative p * q) 0 1 = -integral (p * derivative q) 0 1 := by
  have := integral_derivative (p * q) 0 1
  rw [derivative_mul, integral_add, eval_mul, eval_mul, h0, h1] at this
  linarith

theorem integral_iterate (m j : Nat) (hj : j ≤ m) (q : ℝ[X]) :
    integral (derivative^[j] (bump m) * q) 0 1 = (-1) ^ j * integral (bump m * derivative^[j] q) 0 1 := by
  induction j generalizing q with
  | zero => simp
  | succ j ih =>
    obtain ⟨b0, b1⟩ := bump_boundary m j (by omega)
    rw [Function.iterate_succ_apply', integral_by_parts _ _ (by rw [b0, zero_mul]) (by rw [b1, zero_mul]), ih (by omega),
      Function.iterate_succ_apply, pow_succ]
    ring

/-- The shifted Legendre polynomial is orthogonal to all polynomials of lower degree. -/
theorem shiftedLeg_orth (m : Nat) (q : ℝ[X]) (hq : q.natDegree < m) : integral (shiftedLeg m * q) 0 1 = 0 := by
  have h := integral_iterate m m le_rfl q
  rw [iterate_derivative_eq_zero hq, mul_zero, integral_zero, mul_zero, iterate_bump, mul_assoc, integral_C_mul] at h
  rcases mul_eq_zero.1 h with h | h
  · exact absurd h (by exact_mod_cast m.factorial_ne_zero)
  · exact h

/-- `x (x - 1) P'` is orthogonal to polynomials of degree at most `m - 2`. -/
theorem lobatto_orth (m : Nat) (q : ℝ[X]) (hq : q.natDegree + 2 ≤ m) :
    integral (X * (X - 1) * derivative (shiftedLeg m) * q) 0 1 = 0 := by
  have h := integral_by_parts (shiftedLeg m) (X * (X - 1) * q) (by simp) (by simp)
  rw [show X * (X - 1) * derivative (shiftedLeg m) * q = derivative (shiftedLeg m) * (X * (X - 1) * q) by ring, h,
    shiftedLeg_orth, neg_zero]
  refine lt_of_le_of_lt (natDegree_derivative_le _) ?_
  have h1 : (X * (X - 1) * q : ℝ[X]).natDegree ≤ 2 + q.natDegree := by
    refine (natDegree_mul_le).trans (Nat.add_le_add ?_ le_rfl)
    refine (natDegree_mul_le).trans ?_
    have : (X - 1 : ℝ[X]).natDegree ≤ 1 := by
      refine (natDegree_sub_le _ _).trans ?_
      simp
    simpa using Nat.add_le_add (natDegree_X_le (R := ℝ)) this
  omega

/-! ### Zeros -/

theorem rolle (p : ℝ[X]) (a b : ℝ) (h : a < b) (ha : p.eval a = 0) (hb : p.eval b = 0) :
    ∃ c, a < c ∧ c < b ∧ (derivative p).eval c = 0 := by
  obtain ⟨c, hc, h0⟩ := exists_hasDerivAt_eq_zero (f := fun x => p.eval x) (f' := fun x => (derivative p).eval x) h
    p.continuous.continuousOn (by rw [ha, hb]) (fun x _ => p.hasDerivAt x)
  exact ⟨c, hc.1, hc.2, h0⟩

theorem rolle_list (p : ℝ[X]) (l : List ℝ) : ∀ a, (a :: l).Pairwise (· < ·) → (∀ x ∈ a :: l, p.eval x = 0) →
    ∃ l' : List ℝ, l'.length = l.length ∧ l'.Pairwise (· < ·) ∧ (∀ x ∈ l', a < x ∧ ∃ y ∈ l, x < y) ∧
      ∀ x ∈ l', (derivative p).eval x = 0 := by
  induction l with
  | nil => exact fun a _ _ => ⟨[], rfl, .nil, by simp, by simp⟩
  | cons b l ih =>
    intro a hs hz
    rw [List.pairwise_cons] at hs
    have hab := hs.1 b (by simp)
    obtain ⟨c, hac, hcb, hc⟩ := rolle p a b hab (hz a (by simp)) (hz b (by simp))
    obtain ⟨l', hl, hp, hbd, hz'⟩ := ih b hs.2 (fun x hx => hz x (by simp at hx ⊢; tauto))
    refine ⟨c :: l', by simp [hl], ?_, ?_, ?_⟩
    · rw [List.pairwise_cons]
      exact ⟨fun x hx => hcb.trans (hbd x hx).1, hp⟩
    · intro x hx
      rcases List.mem_cons.1 hx with rfl | hx
      · exact ⟨hac, b, by simp, hcb⟩
      · obtain ⟨h1, y, hy, h2⟩ := hbd x hx
        exact ⟨hab.trans h1, y, by simp [hy], h2⟩
    · intro x hx
      rcases List.mem_cons.1 hx with rfl | hx
      · exact hc
      · exact hz' x hx

theorem bump_zeros (m k : Nat) (h : k ≤ m) : ∃ l : List ℝ, l.length = k ∧ l.Pairwise (· < ·) ∧ (∀ x ∈ l, 0 < x ∧ x < 1) ∧
    ∀ x ∈ l, (derivative^[k] (bump m)).eval x = 0 := by
  induction k with
  | zero => exact ⟨[], rfl, .nil, by simp, by simp⟩
  | succ k ih =>
    obtain ⟨l, hl, hs, hb, hz⟩ := ih (by omega)
    obtain ⟨b0, b1⟩ := bump_boundary m k (by omega)
    obtain ⟨l', hl', hs', hb', hz'⟩ := rolle_list (derivative^[k] (bump m)) (l ++ [1]) 0 (by
        rw [List.pairwise_cons, List.pairwise_append]
        refine ⟨?_, hs, by simp, ?_⟩
        · intro x hx
          rcases List.mem_append.1 hx with hx | hx
          · exact (hb x hx).1
          · simp at hx; simp [hx]
        · intro x hx y hy
          simp at hy
          subst hy
          exact (hb x hx).2) (by
        intro x hx
        rcases List.mem_cons.1 hx with rfl | hx
        · exact b0
        · rcases List.mem_append.1 hx with hx | hx
          · exact hz x hx
          · simp at hx; subst hx; exact b1)
    refine ⟨l', by rw [hl']; simp [hl], hs', ?_, ?_⟩
    · intro x hx
      obtain ⟨h0, y, hy, hxy⟩ := hb' x hx
      refine ⟨h0, ?_⟩
      rcases List.mem_append.1 hy with hy | hy
      · exact hxy.trans (hb y hy).2
      · simp at hy; subst hy; exact hxy
    · intro x hx
      rw [Function.iterate_succ_apply']
      exact hz' x hx

/-- The derivative of the Legendre polynomial of degree `m + 1` has `m` distinct zeros inside the interval. -/
theorem derivative_zeros (m : Nat) : ∃ l : List ℝ, l.length = m ∧ l.Pairwise (· < ·) ∧ (∀ x ∈ l, 0 < x ∧ x < 1) ∧
    ∀ x ∈ l, (derivative (shiftedLeg (m + 1))).eval x = 0 := by
  obtain ⟨l, hl, hs, hb, hz⟩ := bump_zeros (m + 1) (m + 1) le_rfl
  match l, hl with
  | a :: l, hl =>
    have hz1 : ∀ x ∈ a :: l, (shiftedLeg (m + 1)).eval x = 0 := by
      intro x hx
      have := hz x hx
      rw [iterate_bump, eval_mul, eval_C] at this
      rcases mul_eq_zero.1 this with h | h
      · exact absurd h (by exact_mod_cast (m + 1).factorial_ne_zero)
      · exact h
    obtain ⟨l', hl', hs', hb', hz'⟩ := rolle_list _ l a hs hz1
    refine ⟨l', by rw [hl']; simpa using hl, hs', ?_, hz'⟩
    intro x hx
    obtain ⟨h1, y, hy, h2⟩ := hb' x hx
    exact ⟨(hb a (by simp)).1.trans h1, h2.trans (hb y (by simp [hy])).2⟩

theorem natDegree_shiftedLeg (m : Nat) : (shiftedLeg m).natDegree = m := by
  unfold shiftedLeg
  rw [natDegree_map_eq_of_injective (RingHom.injective_int _), natDegree_shiftedLegendre]

theorem derivative_shiftedLeg_ne (m : Nat) : derivative (shiftedLeg (m + 1)) ≠ 0 := by
  intro h
  have := natDegree_eq_zero_of_derivative_eq_zero h
  rw [natDegree_shiftedLeg] at this
  omega

theorem derivative_legendre01 (m : Nat) : derivative (legendre01 m) = C ((-1) ^ m) * derivative (shiftedLeg m) := by
  rw [legendre01_eq, derivative_mul, derivative_C, zero_mul, zero_add]

theorem roots_legendre01 (m : Nat) : (derivative (legendre01 m)).roots = (derivative (shiftedLeg m)).roots := by
  rw [derivative_legendre01, roots_C_mul _ (by simp)]

/-- The zeros found by `.deriv().roots()`. -/
theorem legDerivRoots_spec (m : Nat) :
    (legDerivRoots (m + 1)).length = m ∧ (legDerivRoots (m + 1)).Pairwise (· < ·) ∧ (∀ x ∈ legDerivRoots (m + 1), 0 < x ∧ x < 1) ∧
    (derivative (shiftedLeg (m + 1))).roots = ((legDerivRoots (m + 1) : List ℝ) : Multiset ℝ) ∧
    (derivative (shiftedLeg (m + 1))).natDegree = m := by
  obtain ⟨l, hl, hs, hb, hz⟩ := derivative_zeros m
  have hne := derivative_shiftedLeg_ne m
  have hnd : (l : Multiset ℝ).Nodup := by
    rw [Multiset.coe_nodup]
    exact hs.imp fun h => h.ne
  have hle : (l : Multiset ℝ) ≤ (derivative (shiftedLeg (m + 1))).roots := by
    rw [Multiset.le_iff_subset hnd]
    intro x hx
    rw [mem_roots hne]
    exact hz x hx
  have hdeg : (derivative (shiftedLeg (m + 1))).natDegree ≤ m := by
    have := natDegree_derivative_le (shiftedLeg (m + 1))
    rw [natDegree_shiftedLeg] at this
    omega
  have hcard := card_roots' (derivative (shiftedLeg (m + 1)))
  have heq : (l : Multiset ℝ) = (derivative (shiftedLeg (m + 1))).roots :=
    Multiset.eq_of_le_of_card_le hle (by rw [Multiset.coe_card, hl]; omega)
  have hsort : legDerivRoots (m + 1) = l := by
    unfold legDerivRoots
    rw [roots_legendre01, ← heq]
    refine List.Perm.eq_of_pairwise (le := (· ≤ ·)) (fun a b _ _ => le_antisymm) (Multiset.pairwise_sort _ _) (hs.imp le_of_lt) ?_
    rw [← Multiset.coe_eq_coe, Multiset.sort_eq]
  rw [hsort]
  refine ⟨hl, hs, hb, heq.symm, ?_⟩
  rw [← heq, Multiset.coe_card, hl] at hcard
  omega

end Ceacoest.RK
