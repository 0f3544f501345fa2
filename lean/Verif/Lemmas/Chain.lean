import Verif.Spec.Contract
import Verif.Lemmas.Lists
import Mathlib.Analysis.Calculus.Deriv.Add
import Mathlib.Analysis.Calculus.Deriv.Mul
import Mathlib.Topology.Algebra.Monoid
import Mathlib.Tactic.Ring

/-! Helper lemmas: chain rule through gather maps. -/

namespace Ceacoest
open Spec

/-- Base arguments gathered from a decision vector (positions `pos`) and constants `K`. -/
def gArgs (m : Nat) (bsz : Nat → Nat) (var : Nat → Bool) (pos : Nat → Nat → Nat) (K : Args) (d : List ℝ) : Args :=
  fun j k => if j < m ∧ k < bsz j then (if var j then d.getD (pos j k) 0 else K j k) else 0

theorem getD_set (d : List ℝ) {i : Nat} (hi : i < d.length) (s : ℝ) (q : Nat) :
    (d.set i s).getD q 0 = if q = i then s else d.getD q 0 := by
  simp only [List.getD_eq_getElem?_getD, List.getElem?_set]
  by_cases h : i = q
  · subst h; simp [hi]
  · rw [if_neg h, if_neg (Ne.symm h)]

theorem set_getD_self (d : List ℝ) (i : Nat) : d.set i (d.getD i 0) = d := by
  apply List.ext_getElem?
  intro q
  simp only [List.getElem?_set, List.getD_eq_getElem?_getD]
  split
  · next h =>
    subst h
    split
    · next h => simp [h]
    · next h => simp at h; simp [h]
  · rfl

variable {m : Nat} {bsz : Nat → Nat} {var : Nat → Bool} {pos : Nat → Nat → Nat} {K : Args} {d : List ℝ} {i : Nat}

theorem gArgs_deriv (hi : i < d.length) (j k : Nat) (t : ℝ) :
    HasDerivAt (fun s => gArgs m bsz var pos K (d.set i s) j k)
      (if (j < m ∧ k < bsz j) ∧ var j = true ∧ pos j k = i then 1 else 0) t := by
  unfold gArgs
  by_cases h : j < m ∧ k < bsz j
  · simp only [getD_set d hi, h, true_and, and_self]
    cases var j
    · simpa using hasDerivAt_const t (K j k)
    · by_cases hp : pos j k = i
      · simpa [hp] using hasDerivAt_id' t
      · simpa [hp] using hasDerivAt_const t _
  · simpa [h] using hasDerivAt_const t (0 : ℝ)

theorem gArgs_continuous (hi : i < d.length) (pos : Nat → Nat → Nat) :
    Continuous fun s => gArgs m bsz var pos K (d.set i s) :=
  continuous_pi fun j => continuous_pi fun k =>
    continuous_iff_continuousAt.2 fun t => (gArgs_deriv hi j k t).continuousAt

/-- Chain rule for one evaluation. -/
theorem chain1 {f : Args → ℝ} {D : Nat → Nat → ℝ} {t : ℝ} (hi : i < d.length)
    (h : HasPartialsAt m bsz var f D (gArgs m bsz var pos K (d.set i t))) :
    HasDerivAt (fun s => f (gArgs m bsz var pos K (d.set i s)))
      (∑ j ∈ Finset.range m, if var j then ∑ k ∈ Finset.range (bsz j), D j k * (if pos j k = i then 1 else 0) else 0)
      t := by
  have := h (fun s => gArgs m bsz var pos K (d.set i s))
    (fun j k => if (j < m ∧ k < bsz j) ∧ var j = true ∧ pos j k = i then 1 else 0) t rfl
    (fun j _ k _ => gArgs_deriv hi j k t)
    (fun j _ hv s => by funext k; simp [gArgs, hv])
    (fun j hj s => by funext k; simp [gArgs, Nat.not_lt.2 hj])
    (fun j k hk s => by simp [gArgs, Nat.not_lt.2 hk])
  convert this using 1
  refine Finset.sum_congr rfl fun j hj => ?_
  split
  · next hv =>
    refine Finset.sum_congr rfl fun k hk => ?_
    simp [Finset.mem_range.1 hj, Finset.mem_range.1 hk, hv]
  · rfl

/-- One sparse entry at `(j0, k0, r0)` picked from sums over outputs and argument entries. -/
theorem pick1 {osz j0 k0 r0 : Nat} (hj : j0 < m) (hv : var j0 = true) (hk : k0 < bsz j0) (hr : r0 < osz)
    (w : Nat → ℝ) (v : ℝ) (g : Nat → Nat → ℝ) :
    (∑ r ∈ Finset.range osz, w r * ∑ j ∈ Finset.range m, if var j then
      ∑ k ∈ Finset.range (bsz j), (if j = j0 ∧ k0 = k ∧ r0 = r then v else 0) * g j k else 0) =
      w r0 * v * g j0 k0 := by
  rw [Finset.sum_eq_single r0]
  · rw [Finset.sum_eq_single j0]
    · rw [if_pos hv, Finset.sum_eq_single k0]
      · simp; ring
      · intro k _ hkk; simp [Ne.symm hkk]
      · intro h; exact absurd (Finset.mem_range.2 hk) h
    · intro j _ hjj; simp [hjj]
    · intro h; exact absurd (Finset.mem_range.2 hj) h
  · intro r _ hrr
    simp [Ne.symm hrr]
  · intro h; exact absurd (Finset.mem_range.2 hr) h

theorem list_sum_finset {β : Type} (l : List β) (s : Finset Nat) (f : β → Nat → ℝ) :
    (∑ n ∈ s, (l.map fun b => f b n).sum) = (l.map fun b => ∑ n ∈ s, f b n).sum := by
  induction l with
  | nil => simp
  | cons a l ih => simp [Finset.sum_add_distrib, ih]

theorem list_sum_mul {β : Type} (l : List β) (f : β → ℝ) (c : ℝ) :
    (l.map f).sum * c = (l.map fun b => f b * c).sum := by
  induction l with
  | nil => simp
  | cons a l ih => simp [add_mul, ih]

theorem list_mul_sum {β : Type} (l : List β) (f : β → ℝ) (c : ℝ) :
    c * (l.map f).sum = (l.map fun b => c * f b).sum := by
  induction l with
  | nil => simp
  | cons a l ih => simp [mul_add, ih]

/-- Assembling sparse first derivatives: `ent` lists entries `(j, k, r)` with values. -/
theorem assemble1 {β : Type} {osz : Nat} (l : List β) (nnz : β → Nat) (J : β → Nat) (k0 r0 : β → Nat → Nat)
    (V : β → Nat → ℝ) (w : Nat → ℝ) (g : Nat → Nat → ℝ)
    (h : ∀ b ∈ l, J b < m ∧ var (J b) = true ∧ ∀ n < nnz b, k0 b n < bsz (J b) ∧ r0 b n < osz) :
    (∑ r ∈ Finset.range osz, w r * ∑ j ∈ Finset.range m, if var j then
      ∑ k ∈ Finset.range (bsz j),
        (l.map fun b => ∑ n ∈ Finset.range (nnz b), if j = J b ∧ k0 b n = k ∧ r0 b n = r then V b n else 0).sum *
          g j k else 0) =
    (l.map fun b => ∑ n ∈ Finset.range (nnz b), w (r0 b n) * V b n * g (J b) (k0 b n)).sum := by
  induction l with
  | nil => simp
  | cons b l ih =>
    rw [List.map_cons, List.sum_cons, ← ih fun b hb => h b (by simp [hb])]
    obtain ⟨h1, h2, h3⟩ := h b (by simp)
    have hb : (∑ n ∈ Finset.range (nnz b), w (r0 b n) * V b n * g (J b) (k0 b n)) =
        ∑ r ∈ Finset.range osz, w r * ∑ j ∈ Finset.range m, if var j then ∑ k ∈ Finset.range (bsz j),
          (∑ n ∈ Finset.range (nnz b), if j = J b ∧ k0 b n = k ∧ r0 b n = r then V b n else 0) * g j k else 0 := by
      have : ∀ n ∈ Finset.range (nnz b), w (r0 b n) * V b n * g (J b) (k0 b n) =
          ∑ r ∈ Finset.range osz, w r * ∑ j ∈ Finset.range m, if var j then ∑ k ∈ Finset.range (bsz j),
            (if j = J b ∧ k0 b n = k ∧ r0 b n = r then V b n else 0) * g j k else 0 := fun n hn =>
        (pick1 h1 h2 (h3 n (Finset.mem_range.1 hn)).1 (h3 n (Finset.mem_range.1 hn)).2 w (V b n) g).symm
      rw [Finset.sum_congr rfl this, Finset.sum_comm]
      refine Finset.sum_congr rfl fun r _ => ?_
      rw [← Finset.mul_sum, Finset.sum_comm]
      congr 1
      refine Finset.sum_congr rfl fun j _ => ?_
      split
      · rw [Finset.sum_comm]
        refine Finset.sum_congr rfl fun k _ => ?_
        rw [Finset.sum_mul]
      · simp
    rw [hb, ← Finset.sum_add_distrib]
    refine Finset.sum_congr rfl fun r _ => ?_
    rw [← mul_add, ← Finset.sum_add_distrib]
    congr 1
    refine Finset.sum_congr rfl fun j _ => ?_
    split
    · rw [← Finset.sum_add_distrib]
      refine Finset.sum_congr rfl fun k _ => ?_
      rw [List.map_cons, List.sum_cons, add_mul]
    · simp

/-- Weighted sum over the entries of the variable arguments. -/
noncomputable def entSum (m : Nat) (bsz : Nat → Nat) (var : Nat → Bool) (f : Nat → Nat → ℝ) : ℝ :=
  ∑ j ∈ Finset.range m, if var j then ∑ k ∈ Finset.range (bsz j), f j k else 0

theorem entSum_congr {f g : Nat → Nat → ℝ} (h : ∀ j < m, var j = true → ∀ k < bsz j, f j k = g j k) :
    entSum m bsz var f = entSum m bsz var g := by
  refine Finset.sum_congr rfl fun j hj => ?_
  split
  · next hv =>
    exact Finset.sum_congr rfl fun k hk => h j (Finset.mem_range.1 hj) hv k (Finset.mem_range.1 hk)
  · rfl

theorem entSum_add (f g : Nat → Nat → ℝ) :
    entSum m bsz var (fun j k => f j k + g j k) = entSum m bsz var f + entSum m bsz var g := by
  unfold entSum
  rw [← Finset.sum_add_distrib]
  refine Finset.sum_congr rfl fun j _ => ?_
  split
  · rw [Finset.sum_add_distrib]
  · simp

theorem entSum_zero : entSum m bsz var (fun _ _ => 0) = 0 := by simp [entSum]

theorem entSum_finset {s : Finset Nat} (f : Nat → Nat → Nat → ℝ) :
    entSum m bsz var (fun j k => ∑ n ∈ s, f n j k) = ∑ n ∈ s, entSum m bsz var (f n) := by
  induction s using Finset.induction_on with
  | empty => simp [entSum_zero]
  | insert a s ha ih => simp only [Finset.sum_insert ha, entSum_add, ih]

theorem entSum_list {β : Type} (l : List β) (f : β → Nat → Nat → ℝ) :
    entSum m bsz var (fun j k => (l.map fun b => f b j k).sum) = (l.map fun b => entSum m bsz var (f b)).sum := by
  induction l with
  | nil => simp [entSum_zero]
  | cons a l ih => simp only [List.map_cons, List.sum_cons, entSum_add, ih]

theorem entSum_single {j0 k0 : Nat} (hj : j0 < m) (hv : var j0 = true) (hk : k0 < bsz j0) (v : ℝ) (g : Nat → Nat → ℝ) :
    entSum m bsz var (fun j k => (if j = j0 ∧ k0 = k then v else 0) * g j k) = v * g j0 k0 := by
  unfold entSum
  rw [Finset.sum_eq_single j0]
  · rw [if_pos hv, Finset.sum_eq_single k0]
    · simp
    · intro k _ hkk; simp [Ne.symm hkk]
    · intro h; exact absurd (Finset.mem_range.2 hk) h
  · intro j _ hjj; simp [hjj]
  · intro h; exact absurd (Finset.mem_range.2 hj) h

theorem entSum_deriv {f : Nat → Nat → ℝ → ℝ} {f' : Nat → Nat → ℝ} {t : ℝ}
    (h : ∀ j < m, var j = true → ∀ k < bsz j, HasDerivAt (f j k) (f' j k) t) :
    HasDerivAt (fun s => entSum m bsz var fun j k => f j k s) (entSum m bsz var f') t := by
  unfold entSum
  refine HasDerivAt.fun_sum fun j hj => ?_
  cases hv : var j
  · simpa using hasDerivAt_const t (0 : ℝ)
  · simpa using HasDerivAt.fun_sum fun k hk => h j (Finset.mem_range.1 hj) hv k (Finset.mem_range.1 hk)

/-- One sparse second-order entry, standing for itself and its mirror image. -/
theorem pick2 {j1 k1 j2 k2 : Nat} (hj1 : j1 < m) (hv1 : var j1 = true) (hk1 : k1 < bsz j1)
    (hj2 : j2 < m) (hv2 : var j2 = true) (hk2 : k2 < bsz j2) (v : ℝ) (pos : Nat → Nat → Nat) (i i' : Nat)
    (hna : pos j1 k1 = pos j2 k2 → j1 = j2 ∧ k1 = k2) :
    entSum m bsz var (fun j k => entSum m bsz var (fun j' k' =>
      (if j = j1 ∧ j' = j2 ∧ k1 = k ∧ k2 = k' ∨ j' = j1 ∧ j = j2 ∧ k1 = k' ∧ k2 = k then v else 0) *
        (if pos j' k' = i then 1 else 0)) * (if pos j k = i' then 1 else 0)) =
      if pos j1 k1 = i ∧ pos j2 k2 = i' ∨ pos j1 k1 = i' ∧ pos j2 k2 = i then v else 0 := by
  by_cases heq : j1 = j2 ∧ k1 = k2
  · obtain ⟨rfl, rfl⟩ := heq
    have hin : ∀ j k, entSum m bsz var (fun j' k' =>
        (if j = j1 ∧ j' = j1 ∧ k1 = k ∧ k1 = k' ∨ j' = j1 ∧ j = j1 ∧ k1 = k' ∧ k1 = k then v else 0) *
        (if pos j' k' = i then 1 else 0)) = if j = j1 ∧ k1 = k then v * (if pos j1 k1 = i then 1 else 0) else 0 := by
      intro j k
      by_cases h : j = j1 ∧ k1 = k
      · rw [if_pos h, ← entSum_single hj1 hv1 hk1 v (fun j k => if pos j k = i then 1 else 0)]
        refine entSum_congr fun j' _ _ k' _ => ?_
        congr 1
        refine if_congr ?_ rfl rfl
        simp only [h, true_and]
        tauto
      · rw [if_neg h]
        refine (entSum_congr fun j' _ _ k' _ => ?_).trans entSum_zero
        rw [if_neg (by tauto), zero_mul]
    simp only [hin]
    rw [entSum_single hj1 hv1 hk1]
    by_cases h1 : pos j1 k1 = i <;> by_cases h2 : pos j1 k1 = i' <;> simp [h1, h2]
  · have hpos : pos j1 k1 ≠ pos j2 k2 := fun h => heq (hna h)
    have hin : ∀ j k, entSum m bsz var (fun j' k' =>
        (if j = j1 ∧ j' = j2 ∧ k1 = k ∧ k2 = k' ∨ j' = j1 ∧ j = j2 ∧ k1 = k' ∧ k2 = k then v else 0) *
        (if pos j' k' = i then 1 else 0)) = (if j = j1 ∧ k1 = k then v * (if pos j2 k2 = i then 1 else 0) else 0) +
          (if j = j2 ∧ k2 = k then v * (if pos j1 k1 = i then 1 else 0) else 0) := by
      intro j k
      rw [← entSum_single hj2 hv2 hk2 v (fun j k => if pos j k = i then 1 else 0),
        ← entSum_single hj1 hv1 hk1 v (fun j k => if pos j k = i then 1 else 0)]
      have e1 : ∀ (P : Prop) [Decidable P] (x : ℝ), (if P then x else 0) = x * (if P then 1 else 0) := by
        intro P _ x; split <;> simp
      rw [e1 (j = j1 ∧ k1 = k), e1 (j = j2 ∧ k2 = k)]
      have e2 : ∀ (f : Nat → Nat → ℝ) (c : ℝ), entSum m bsz var f * c = entSum m bsz var fun j k => f j k * c := by
        intro f c
        unfold entSum
        rw [Finset.sum_mul]
        refine Finset.sum_congr rfl fun j _ => ?_
        split
        · rw [Finset.sum_mul]
        · simp
      rw [e2, e2, ← entSum_add]
      refine entSum_congr fun j' _ _ k' _ => ?_
      by_cases a1 : j = j1 ∧ k1 = k
      · by_cases a2 : j = j2 ∧ k2 = k
        · exact absurd ⟨a1.1.symm.trans a2.1, a1.2.trans a2.2.symm⟩ heq
        · rw [if_pos a1, if_neg a2]
          by_cases b : j' = j2 ∧ k2 = k'
          · rw [if_pos (by omega), if_pos b]; simp
          · rw [if_neg (by omega), if_neg b]; simp
      · by_cases a2 : j = j2 ∧ k2 = k
        · rw [if_neg a1, if_pos a2]
          by_cases b : j' = j1 ∧ k1 = k'
          · rw [if_pos (by omega), if_pos b]; simp
          · rw [if_neg (by omega), if_neg b]; simp
        · rw [if_neg (by omega), if_neg a1, if_neg a2]; simp
    simp only [hin, add_mul]
    rw [entSum_add, entSum_single hj1 hv1 hk1, entSum_single hj2 hv2 hk2]
    generalize pos j1 k1 = a at *
    generalize pos j2 k2 = b at *
    split_ifs <;> first | (exfalso; omega) | simp

theorem entSum_mul (f : Nat → Nat → ℝ) (c : ℝ) :
    entSum m bsz var f * c = entSum m bsz var fun j k => f j k * c := by
  unfold entSum
  rw [Finset.sum_mul]
  refine Finset.sum_congr rfl fun j _ => ?_
  split
  · rw [Finset.sum_mul]
  · simp

/-- Assembling sparse second derivatives. -/
theorem assemble2 {β : Type} {osz : Nat} (l : List β) (nnz : β → Nat) (J0 J1 : β → Nat) (k0 k1 r0 : β → Nat → Nat)
    (V : β → Nat → ℝ) (w : Nat → ℝ) (pos : Nat → Nat → Nat) (i i' : Nat)
    (h : ∀ b ∈ l, J0 b < m ∧ var (J0 b) = true ∧ J1 b < m ∧ var (J1 b) = true ∧
      ∀ n < nnz b, k0 b n < bsz (J0 b) ∧ k1 b n < bsz (J1 b) ∧ r0 b n < osz ∧
        (pos (J0 b) (k0 b n) = pos (J1 b) (k1 b n) → J0 b = J1 b ∧ k0 b n = k1 b n)) :
    (∑ r ∈ Finset.range osz, w r * entSum m bsz var fun j k => (entSum m bsz var fun j' k' =>
      (l.map fun b => ∑ n ∈ Finset.range (nnz b), if r0 b n = r then
        (if j = J0 b ∧ j' = J1 b ∧ k0 b n = k ∧ k1 b n = k' ∨ j' = J0 b ∧ j = J1 b ∧ k0 b n = k' ∧ k1 b n = k then
          V b n else 0) else 0).sum * (if pos j' k' = i then 1 else 0)) * (if pos j k = i' then 1 else 0)) =
    (l.map fun b => ∑ n ∈ Finset.range (nnz b), w (r0 b n) * V b n *
      (if pos (J0 b) (k0 b n) = i ∧ pos (J1 b) (k1 b n) = i' ∨ pos (J0 b) (k0 b n) = i' ∧ pos (J1 b) (k1 b n) = i
        then 1 else 0)).sum := by
  have e1 : ∀ r, (entSum m bsz var fun j k => (entSum m bsz var fun j' k' =>
      (l.map fun b => ∑ n ∈ Finset.range (nnz b), if r0 b n = r then
        (if j = J0 b ∧ j' = J1 b ∧ k0 b n = k ∧ k1 b n = k' ∨ j' = J0 b ∧ j = J1 b ∧ k0 b n = k' ∧ k1 b n = k then
          V b n else 0) else 0).sum * (if pos j' k' = i then 1 else 0)) * (if pos j k = i' then 1 else 0)) =
      (l.map fun b => ∑ n ∈ Finset.range (nnz b), if r0 b n = r then V b n *
        (if pos (J0 b) (k0 b n) = i ∧ pos (J1 b) (k1 b n) = i' ∨ pos (J0 b) (k0 b n) = i' ∧ pos (J1 b) (k1 b n) = i
          then 1 else 0) else 0).sum := by
    intro r
    simp only [list_sum_mul, Finset.sum_mul, entSum_list, entSum_finset]
    refine congrArg _ (List.map_congr_left fun b hb => Finset.sum_congr rfl fun n hn => ?_)
    obtain ⟨h1, h2, h3, h4, h5⟩ := h b hb
    obtain ⟨h6, h7, -, h8⟩ := h5 n (Finset.mem_range.1 hn)
    by_cases hr : r0 b n = r
    · simp only [if_pos hr]
      rw [pick2 h1 h2 h6 h3 h4 h7 (V b n) pos i i' h8]
      split <;> simp
    · simp only [if_neg hr, zero_mul]
      simp [entSum]
  simp only [e1, list_mul_sum]
  rw [list_sum_finset]
  refine congrArg _ (List.map_congr_left fun b hb => ?_)
  simp only [Finset.mul_sum]
  rw [Finset.sum_comm]
  refine Finset.sum_congr rfl fun n hn => ?_
  obtain ⟨-, -, -, -, h5⟩ := h b hb
  obtain ⟨-, -, hr, -⟩ := h5 n (Finset.mem_range.1 hn)
  rw [Finset.sum_eq_single (r0 b n)]
  · rw [if_pos rfl, mul_assoc]
  · intro r _ hne
    rw [if_neg (Ne.symm hne), mul_zero]
  · intro h; exact absurd (Finset.mem_range.2 hr) h

end Ceacoest
