import Verif.Spec.ZeroNoise
import Verif.Props.Smoothing

/-! # Lemmas on estimation with and without noise (C101) -/

namespace Ceacoest
open Spec RK

section
variable {P N nx nw np : Nat} {d : List ℝ}

theorem dropNoise_length (h : d.length = (P * N + 1) * nx + P * N * nw + np) : (dropNoise P N nx nw d).length = (P * N + 1) * nx + np := by
  rw [dropNoise, List.length_append, List.length_take, List.length_drop]
  omega

theorem addZeroNoise_length (h : d.length = (P * N + 1) * nx + np) : (addZeroNoise P N nx nw d).length = (P * N + 1) * nx + P * N * nw + np := by
  rw [addZeroNoise, List.length_append, List.length_append, List.length_take, List.length_drop, List.length_replicate]
  omega

theorem dropNoise_addZeroNoise (h : d.length = (P * N + 1) * nx + np) : dropNoise P N nx nw (addZeroNoise P N nx nw d) = d := by
  have e : (d.take ((P * N + 1) * nx)).length = (P * N + 1) * nx := by rw [List.length_take]; omega
  rw [dropNoise, addZeroNoise, List.append_assoc, List.take_append_of_le_length (by omega), List.take_take, Nat.min_self, ← List.append_assoc, List.drop_left' (by simp [e]),
    List.take_append_drop]

theorem dropNoise_x (h : d.length = (P * N + 1) * nx + P * N * nw + np) {r : Nat} (hr : r ≤ P * N) : rowAt (dropNoise P N nx nw d) 0 nx r = rowAt d 0 nx r := by
  refine rowAt_congr fun j hj => ?_
  have hlt : r * nx + j < (P * N + 1) * nx := mul_add_lt (by omega) hj
  have e : (d.take ((P * N + 1) * nx)).length = (P * N + 1) * nx := by rw [List.length_take]; omega
  rw [dropNoise, List.getD_eq_getElem?_getD, List.getElem?_append_left (by omega), List.getElem?_take_of_lt (by omega), List.getD_eq_getElem?_getD]

theorem dropNoise_p (h : d.length = (P * N + 1) * nx + P * N * nw + np) : rowAt (dropNoise P N nx nw d) ((P * N + 1) * nx) np 0 = jmeP P N nx nw np d := by
  refine rowAt_congr fun j hj => ?_
  have e : (d.take ((P * N + 1) * nx)).length = (P * N + 1) * nx := by rw [List.length_take]; omega
  rw [dropNoise, List.getD_eq_getElem?_getD, List.getElem?_append_right (by omega), List.getElem?_drop, e, List.getD_eq_getElem?_getD]
  congr 2
  omega

theorem addZeroNoise_w (h : d.length = (P * N + 1) * nx + np) {i k : Nat} (hi : i < P) (hk : k < N) (b : Nat) : (jmeW P N nx nw (addZeroNoise P N nx nw d) i k).getD b 0 = 0 := by
  by_cases hb : b < nw
  · rw [jmeW, rowAt_getD hb, addZeroNoise, List.append_assoc]
    have e : (d.take ((P * N + 1) * nx)).length = (P * N + 1) * nx := by rw [List.length_take]; omega
    have hlt : (i * N + k) * nw + b < P * N * nw := mul_add_lt (mul_add_lt hi hk) hb
    rw [List.getD_eq_getElem?_getD, List.getElem?_append_right (by omega), e, List.getElem?_append_left (by rw [List.length_replicate]; omega), List.getElem?_replicate, if_pos (by omega)]
    rfl
  · rw [List.getD_eq_getElem?_getD, List.getElem?_eq_none (by simp [jmeW, rowAt]; omega)]
    rfl

end

section
variable {F : JMEFunctions} {useOm : Bool} {K len : List ℝ} {J jt : List (List ℝ)} {P N nx nu nw np ny : Nat} {rows : List Nat} {y u G : List ℝ} {d : List ℝ}

/-- Where the noise does not act on the states the defects are those without noise. -/
theorem jmeDefects_quiet (h : d.length = (P * N + 1) * nx + P * N * nw + np)
    (hq : ∀ i < P, ∀ l ≤ N, ∀ j < nx, ∑ b ∈ Finset.range nw, (noiseAt jt (jmeW P N nx nw d i) N nw l).getD b 0 * (rowAt G 0 nw j).getD b 0 = 0) :
    (List.range P).flatMap (jmeDefects F J jt len u G P N nx nu nw np d) =
      oemConstraints F.toOEMFunctions J len u P N nx nu (rowAt (dropNoise P N nx nw d) ((P * N + 1) * nx) np 0) (dropNoise P N nx nw d) := by
  refine flatMap_range_congr P fun i hi => ?_
  have hi := List.mem_range.1 hi
  rw [jmeDefects, defects, defects]
  refine flatMap_range_congr N fun k hk => List.map_congr_left fun j hj => ?_
  have hk := List.mem_range.1 hk
  have hj := List.mem_range.1 hj
  have hlt : ∀ l ≤ N, i * N + l ≤ P * N := fun l hl => by
    have : (i + 1) * N ≤ P * N := Nat.mul_le_mul_right _ hi
    rw [Nat.add_mul] at this
    omega
  rw [dropNoise_p h, dropNoise_x h (by have := hlt (k + 1) (by omega); omega), dropNoise_x h (hlt k (by omega))]
  simp only [Nat.zero_add, ← Nat.add_assoc]
  congr 2
  refine Finset.sum_congr rfl fun l hl => ?_
  have hl := Finset.mem_range.1 hl
  rw [dropNoise_x h (hlt l (by omega))]
  refine congrArg (fun z : ℝ => (J.getD k []).getD l 0 * z) ?_
  rw [noisyRhs, List.getD_eq_getElem?_getD, List.getElem?_map, List.getElem?_range hj]
  dsimp only [Option.map_some, Option.getD_some]
  rw [hq i hi l (by omega) j hj, add_zero]

/-- The cost of the joint MAP problem: log-likelihood, divergence, energy of the noise, penalty. -/
theorem jmeCost_parts (h : d.length = (P * N + 1) * nx + P * N * nw + np) (hrows : ∀ k ∈ rows, k ≤ P) (pw : Option (List ℝ)) :
    jmeCost F useOm pw J jt K len rows y u G P N nx nu nw np ny d =
      logLikelihood F.toOEMFunctions rows y u N nx nu ny (rowAt (dropNoise P N nx nw d) ((P * N + 1) * nx) np 0) (dropNoise P N nx nw d) -
      1 / 2 * (∑ i ∈ Finset.range P, (∑ l ∈ Finset.range (N + 1), (if useOm then
        driftDiv (F.div (rowAt d 0 nx (i * N + l)) (rowAt u 0 nu (i * N + l)) (jmeP P N nx nw np d)) nx nw else 0) * K.getD l 0) * len.getD i 0) -
      1 / 2 * noiseEnergy (fun i => noiseAt jt (jmeW P N nx nw d i) N nw) K len P N nw +
      match pw with
      | some weight => ∑ i ∈ Finset.range P, defectPenalty (jmeDefects F J jt len u G P N nx nu nw np d i) weight N nx
      | none => 0 := by
  have e1 : logLikelihood F.toOEMFunctions rows y u N nx nu ny (rowAt (dropNoise P N nx nw d) ((P * N + 1) * nx) np 0) (dropNoise P N nx nw d) =
      logLikelihood F.toOEMFunctions rows y u N nx nu ny (jmeP P N nx nw np d) d := by
    rw [logLikelihood, logLikelihood, dropNoise_p h]
    refine congrArg List.sum (List.map_congr_left fun k hk => ?_)
    rw [dropNoise_x h (Nat.mul_le_mul_right _ (hrows k hk))]
  rw [e1, jmeCost.eq_def]
  refine congrArg₂ (· + ·) ?_ rfl
  rw [sub_sub, ← mul_add, noiseEnergy, ← Finset.sum_add_distrib, sub_eq_add_neg, Finset.mul_sum, ← Finset.sum_neg_distrib]
  refine congrArg₂ (· + ·) rfl (Finset.sum_congr rfl fun i _ => ?_)
  rw [tubeDensity, ← add_mul, ← Finset.sum_add_distrib, ← mul_assoc, ← neg_mul, Finset.mul_sum, ← Finset.sum_neg_distrib]
  refine congrArg (· * _) (Finset.sum_congr rfl fun l _ => ?_)
  ring

/-- The energy of the noise is not negative, and zero only for zero noise. -/
theorem noiseEnergy_nonneg {w : Nat → Nat → List ℝ} (hK : ∀ l ≤ N, 0 < K.getD l 0) (hlen : ∀ i < P, 0 < len.getD i 0) :
    0 ≤ noiseEnergy w K len P N nw ∧ (noiseEnergy w K len P N nw = 0 ↔ ∀ i < P, ∀ l ≤ N, ∀ b < nw, (w i l).getD b 0 = 0) := by
  have h0 : ∀ i l, 0 ≤ ∑ b ∈ Finset.range nw, (w i l).getD b 0 ^ 2 := fun i l => Finset.sum_nonneg fun b _ => sq_nonneg _
  have h1 : ∀ i, ∀ l ∈ Finset.range (N + 1), 0 ≤ (∑ b ∈ Finset.range nw, (w i l).getD b 0 ^ 2) * K.getD l 0 := fun i l hl =>
    mul_nonneg (h0 i l) (hK l (by have := Finset.mem_range.1 hl; omega)).le
  have h2 : ∀ i ∈ Finset.range P, 0 ≤ (∑ l ∈ Finset.range (N + 1), (∑ b ∈ Finset.range nw, (w i l).getD b 0 ^ 2) * K.getD l 0) * len.getD i 0 := fun i hi =>
    mul_nonneg (Finset.sum_nonneg (h1 i)) (hlen i (Finset.mem_range.1 hi)).le
  refine ⟨Finset.sum_nonneg h2, ?_⟩
  rw [noiseEnergy, Finset.sum_eq_zero_iff_of_nonneg h2]
  constructor
  · intro h i hi l hl b hb
    have e := (mul_eq_zero.1 (h i (Finset.mem_range.2 hi))).resolve_right (hlen i hi).ne'
    rw [Finset.sum_eq_zero_iff_of_nonneg (h1 i)] at e
    have e := (mul_eq_zero.1 (e l (Finset.mem_range.2 (by omega)))).resolve_right (hK l hl).ne'
    rw [Finset.sum_eq_zero_iff_of_nonneg fun b _ => sq_nonneg _] at e
    exact pow_eq_zero_iff (two_ne_zero) |>.1 (e b (Finset.mem_range.2 hb))
  · intro h i hi
    rw [Finset.sum_eq_zero fun l hl => ?_, zero_mul]
    rw [Finset.sum_eq_zero fun b hb => ?_, zero_mul]
    rw [h i (Finset.mem_range.1 hi) l (by have := Finset.mem_range.1 hl; omega) b (Finset.mem_range.1 hb)]
    norm_num

theorem defectPenalty_nonpos {e weight : List ℝ} (hw : ∀ j < nx, 0 ≤ weight.getD j 0) : defectPenalty e weight N nx ≤ 0 := by
  rw [defectPenalty, neg_nonpos]
  exact Finset.sum_nonneg fun k _ => Finset.sum_nonneg fun j hj => mul_nonneg (sq_nonneg _) (hw j (Finset.mem_range.1 hj))

/-- Without defects there is no penalty. -/
theorem penalty_feasible (hfe : (List.range P).flatMap (jmeDefects F J jt len u G P N nx nu nw np d) = List.replicate (P * N * nx) 0) (weight : List ℝ) :
    ∑ i ∈ Finset.range P, defectPenalty (jmeDefects F J jt len u G P N nx nu nw np d i) weight N nx = 0 := by
  refine Finset.sum_eq_zero fun i hi => ?_
  rw [defectPenalty, neg_eq_zero]
  refine Finset.sum_eq_zero fun k hk => Finset.sum_eq_zero fun j hj => ?_
  have hi := Finset.mem_range.1 hi; have hk := Finset.mem_range.1 hk; have hj := Finset.mem_range.1 hj
  have h1 := (flatMap_getElem? (g := jmeDefects F J jt len u G P N nx nu nw np d) (n := N * nx) P fun i _ => by unfold jmeDefects; exact defects_length ..).2 i hi
    (k * nx + j) (mul_add_lt hk hj)
  have hlt := mul_add_lt (mul_add_lt hi hk) hj
  rw [hfe, List.getElem?_replicate, if_pos (by rw [show i * (N * nx) + (k * nx + j) = (i * N + k) * nx + j by ring]; exact hlt)] at h1
  rw [List.getD_eq_getElem?_getD, ← h1]
  simp

end
end Ceacoest
