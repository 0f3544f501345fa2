import Verif.Lemmas.Smoothing

/-! # The Lagrange function of a joint MAP problem (C100) -/

namespace Ceacoest
open Polynomial Spec RK

/-- Component `b` of the noise at point `l` of piece `k`, from the rows of noise coefficients. -/
noncomputable def noiseC (jt : List (List ℝ)) (N : Nat) (W : Nat → List ℝ) (k l b : Nat) : ℝ := ∑ j ∈ Finset.range N, (jt.getD l []).getD j 0 * (W (k * N + j)).getD b 0

theorem noiseAt_getD {jt : List (List ℝ)} {N nw : Nat} (W : Nat → List ℝ) (k l : Nat) {b : Nat} (hb : b < nw) :
    (noiseAt jt (fun j => W (k * N + j)) N nw l).getD b 0 = noiseC jt N W k l b := by
  rw [noiseAt, List.getD_eq_getElem?_getD, List.getElem?_map, List.getElem?_range hb]
  rfl

/-- The part of the Lagrange function with the noise. -/
noncomputable def noiseF (K len : List ℝ) (jt : List (List ℝ)) (G : Nat → List ℝ) (ψ : Nat → Nat → Nat → ℝ) (P N nx nw : Nat) (W : Nat → List ℝ) : ℝ :=
  ∑ k ∈ Finset.range P, ∑ l ∈ Finset.range (N + 1), ∑ b ∈ Finset.range nw, len.getD k 0 * K.getD l 0 *
    (noiseC jt N W k l b * (∑ a ∈ Finset.range nx, ψ k l a * (G a).getD b 0) - 1 / 2 * noiseC jt N W k l b ^ 2)

theorem noiseF_congr (K len : List ℝ) (jt : List (List ℝ)) (G : Nat → List ℝ) (ψ : Nat → Nat → Nat → ℝ) (P N nx nw : Nat) {W W' : Nat → List ℝ} (h : ∀ r < P * N, W r = W' r) :
    noiseF K len jt G ψ P N nx nw W = noiseF K len jt G ψ P N nx nw W' := by
  refine Finset.sum_congr rfl fun k hk => Finset.sum_congr rfl fun l _ => Finset.sum_congr rfl fun b _ => ?_
  have e : noiseC jt N W k l b = noiseC jt N W' k l b := Finset.sum_congr rfl fun j hj => by
    rw [h _ (mul_add_lt (Finset.mem_range.1 hk) (Finset.mem_range.1 hj))]
  rw [e]

theorem noiseF_multipliers (K len : List ℝ) (jt : List (List ℝ)) (G : Nat → List ℝ) {ψ ψ' : Nat → Nat → Nat → ℝ} {P N nx nw : Nat} (h : ∀ k < P, ∀ l ≤ N, ∀ a < nx, ψ k l a = ψ' k l a) :
    noiseF K len jt G ψ P N nx nw = noiseF K len jt G ψ' P N nx nw := by
  funext W
  refine Finset.sum_congr rfl fun k hk => Finset.sum_congr rfl fun l hl => Finset.sum_congr rfl fun b _ => ?_
  have e : ∑ a ∈ Finset.range nx, ψ k l a * (G a).getD b 0 = ∑ a ∈ Finset.range nx, ψ' k l a * (G a).getD b 0 := Finset.sum_congr rfl fun a ha => by
    rw [h k (Finset.mem_range.1 hk) l (by have := Finset.mem_range.1 hl; omega) a (Finset.mem_range.1 ha)]
  rw [e]

/-- The derivative with respect to a noise coefficient. -/
theorem noiseF_deriv (K len : List ℝ) (jt : List (List ℝ)) (G : Nat → List ℝ) (ψ : Nat → Nat → Nat → ℝ) {P N nx nw : Nat} {W : Nat → List ℝ} (hW : ∀ r, (W r).length = nw) {k j b : Nat}
    (hk : k < P) (hj : j < N) (hb : b < nw) :
    HasDerivAt (fun s => noiseF K len jt G ψ P N nx nw (Function.update W (k * N + j) ((W (k * N + j)).set b s)))
      (-(len.getD k 0 * ∑ l ∈ Finset.range (N + 1), K.getD l 0 * (jt.getD l []).getD j 0 * (noiseC jt N W k l b - ∑ a ∈ Finset.range nx, ψ k l a * (G a).getD b 0)))
      ((W (k * N + j)).getD b 0) := by
  set s0 := (W (k * N + j)).getD b 0 with hs0
  have hself : Function.update W (k * N + j) ((W (k * N + j)).set b s0) = W := by
    rw [hs0]
    have : (W (k * N + j)).set b ((W (k * N + j)).getD b 0) = W (k * N + j) := by
      have hb' : b < (W (k * N + j)).length := by rw [hW]; exact hb
      rw [getD_of_lt _ _ hb', List.set_getElem_self]
    rw [this, Function.update_eq_self]
  have hC : ∀ k' l b', HasDerivAt (fun s => noiseC jt N (Function.update W (k * N + j) ((W (k * N + j)).set b s)) k' l b')
      (if k' = k ∧ b' = b then (jt.getD l []).getD j 0 else 0) s0 := fun k' l b' => by
    have h1 := HasDerivAt.fun_sum (u := Finset.range N) fun j' _ =>
      (entry_deriv (z := W) (q := k' * N + j') (r := k * N + j) (a := b') (b := b) (by rw [hW]; exact hb)).const_mul ((jt.getD l []).getD j' 0)
    refine h1.congr_deriv ?_
    by_cases hkb : k' = k ∧ b' = b
    · obtain ⟨rfl, rfl⟩ := hkb
      rw [if_pos ⟨rfl, rfl⟩, Finset.sum_eq_single j]
      · simp
      · intro j' hj' hne
        rw [if_neg (by omega), mul_zero]
      · exact fun h => absurd (Finset.mem_range.2 hj) h
    · rw [if_neg hkb]
      refine Finset.sum_eq_zero fun j' hj' => ?_
      have hj' := Finset.mem_range.1 hj'
      rw [if_neg, mul_zero]
      rintro ⟨e, rfl⟩
      refine hkb ⟨?_, rfl⟩
      have := congrArg (· / N) e
      simpa only [Nat.add_comm _ j', Nat.add_comm _ j, Nat.add_mul_div_right _ _ (show 0 < N by omega), Nat.div_eq_of_lt hj', Nat.div_eq_of_lt hj, Nat.zero_add] using this
  have h2 := HasDerivAt.fun_sum (u := Finset.range P) fun k' _ => HasDerivAt.fun_sum (u := Finset.range (N + 1)) fun l _ => HasDerivAt.fun_sum (u := Finset.range nw) fun b' _ =>
    ((((hC k' l b').mul_const (∑ a ∈ Finset.range nx, ψ k' l a * (G a).getD b' 0)).sub (((hC k' l b').pow 2).const_mul (1 / 2))).const_mul (len.getD k' 0 * K.getD l 0))
  refine HasDerivAt.congr_deriv (f := fun s => noiseF K len jt G ψ P N nx nw (Function.update W (k * N + j) ((W (k * N + j)).set b s))) h2 ?_
  rw [Finset.sum_eq_single k, Finset.mul_sum, ← Finset.sum_neg_distrib]
  · refine Finset.sum_congr rfl fun l _ => ?_
    rw [Finset.sum_eq_single b]
    · simp only [hself, and_self, if_true]
      push_cast
      ring
    · intro b' _ hne
      simp only [hne, and_false, if_false]
      ring
    · exact fun h => absurd (Finset.mem_range.2 hb) h
  · intro k' _ hne
    refine Finset.sum_eq_zero fun l _ => Finset.sum_eq_zero fun b' _ => ?_
    simp only [hne, false_and, if_false]
    ring
  · exact fun h => absurd (Finset.mem_range.2 hk) h

section
variable {F : JMEFunctions} {useOm : Bool} {K len : List ℝ} {J jt : List (List ℝ)} {P N nx nu nw np ny : Nat} {rows : List Nat} {y u G : List ℝ}

/-- The defects without and with noise. -/
theorem jmeDefects_getD (d : List ℝ) (i : Nat) {j a : Nat} (hj : j < N) (ha : a < nx) :
    (jmeDefects F J jt len u G P N nx nu nw np d i).getD (j * nx + a) 0 = (rowAt d 0 nx (i * N + j + 1)).getD a 0 - (rowAt d 0 nx (i * N + j)).getD a 0 -
      (∑ l ∈ Finset.range (N + 1), (J.getD j []).getD l 0 * (F.f (rowAt d 0 nx (i * N + l)) (rowAt u 0 nu (i * N + l)) (jmeP P N nx nw np d)).getD a 0) * len.getD i 0 -
      len.getD i 0 * ∑ l ∈ Finset.range (N + 1), ∑ b ∈ Finset.range nw, (J.getD j []).getD l 0 * (noiseC jt N (rowAt d ((P * N + 1) * nx) nw) i l b * (rowAt G 0 nw a).getD b 0) := by
  rw [jmeDefects, defects_getD _ _ _ _ _ hj ha]
  have e : ∀ l, (noisyRhs (F.f (rowAt d 0 nx (i * N + l)) (rowAt u 0 nu (i * N + l)) (jmeP P N nx nw np d)) (noiseAt jt (jmeW P N nx nw d i) N nw l) (rowAt G 0 nw) nx nw).getD a 0 =
      (F.f (rowAt d 0 nx (i * N + l)) (rowAt u 0 nu (i * N + l)) (jmeP P N nx nw np d)).getD a 0 +
        ∑ b ∈ Finset.range nw, noiseC jt N (rowAt d ((P * N + 1) * nx) nw) i l b * (rowAt G 0 nw a).getD b 0 := fun l => by
    rw [noisyRhs, List.getD_eq_getElem?_getD, List.getElem?_map, List.getElem?_range ha]
    refine congrArg (_ + ·) (Finset.sum_congr rfl fun b hb => ?_)
    rw [← noiseAt_getD _ _ _ (Finset.mem_range.1 hb)]
    rfl
  simp only [Nat.zero_add, e, mul_add, Finset.sum_add_distrib, ← Finset.mul_sum, ← Nat.add_assoc]
  ring

/-- The Lagrange function of a joint MAP problem without penalty. -/
theorem jme_lagrangian (hN : 1 ≤ N) (hr : rows.Pairwise (· < ·)) (hlt : ∀ k ∈ rows, k ≤ P) (hK : ∀ l ≤ N, K.getD l 0 ≠ 0) (lam : Nat → ℝ) (d : List ℝ) :
    jmeCost F useOm none J jt K len rows y u G P N nx nu nw np ny d +
        ∑ q ∈ Finset.range (P * N * nx), lam q * ((List.range P).flatMap (jmeDefects F J jt len u G P N nx nu nw np d)).getD q 0 =
      lagF (asOC F useOm nx nw nu) K len P N nx 1 0 (fun _ _ => 1) (fun _ => 0) (psiOf K J N (lamOf N nx lam)) (lamOf N nx lam) (rowAt d 0 nx)
        (dataRow rows (rowAt y 0 ny) (rowAt u 0 nu) N) (jmeP P N nx nw np d) +
      noiseF K len jt (rowAt G 0 nw) (psiOf K J N (lamOf N nx lam)) P N nx nw (rowAt d ((P * N + 1) * nx) nw) := by
  have hu : ∀ r, (rowAt u 0 nu r).length = nu := fun r => by simp [rowAt]
  have e0 : ∑ q ∈ Finset.range (P * N * nx), lam q * ((List.range P).flatMap (jmeDefects F J jt len u G P N nx nu nw np d)).getD q 0 =
      ∑ i ∈ Finset.range P, ∑ j ∈ Finset.range N, ∑ a ∈ Finset.range nx, lamOf N nx lam i j a * (jmeDefects F J jt len u G P N nx nu nw np d i).getD (j * nx + a) 0 := by
    rw [sum_blocks, sum_blocks]
    refine Finset.sum_congr rfl fun i hi => Finset.sum_congr rfl fun j hj => Finset.sum_congr rfl fun a ha => ?_
    have h1 := (flatMap_getElem? (g := jmeDefects F J jt len u G P N nx nu nw np d) (n := N * nx) P fun i _ => by unfold jmeDefects; exact defects_length ..).2 i (Finset.mem_range.1 hi)
      (j * nx + a) (mul_add_lt (Finset.mem_range.1 hj) (Finset.mem_range.1 ha))
    rw [show i * (N * nx) + (j * nx + a) = (i * N + j) * nx + a by ring] at h1
    rw [List.getD_eq_getElem?_getD, h1, lamOf, List.getD_eq_getElem?_getD]
  have e1 : logLikelihood F.toOEMFunctions rows y u N nx nu ny (jmeP P N nx nw np d) d =
      ∑ r ∈ Finset.range (P * N + 1), (asOC F useOm nx nw nu).pathTerm 1 (fun _ => 1) (rowAt d 0 nx r) (dataRow rows (rowAt y 0 ny) (rowAt u 0 nu) N r) (jmeP P N nx nw np d) := by
    simp only [asOC_path hu]
    rw [sum_measured hN hr hlt fun r => F.L (rowAt y 0 ny (r / N)) (rowAt d 0 nx r) (rowAt u 0 nu r) (jmeP P N nx nw np d)]
    simp only [Nat.mul_div_cancel _ (show 0 < N by omega)]
    rfl
  have e2 : ∀ i, tubeDensity useOm (fun l => F.div (rowAt d 0 nx (i * N + l)) (rowAt u 0 nu (i * N + l)) (jmeP P N nx nw np d))
      (noiseAt jt (jmeW P N nx nw d i) N nw) K N nx nw (len.getD i 0) =
      (∑ l ∈ Finset.range (N + 1), (asOC F useOm nx nw nu).L (rowAt d 0 nx (i * N + l)) (dataRow rows (rowAt y 0 ny) (rowAt u 0 nu) N (i * N + l)) (jmeP P N nx nw np d) * K.getD l 0) *
          len.getD i 0 -
        ∑ l ∈ Finset.range (N + 1), ∑ b ∈ Finset.range nw, len.getD i 0 * K.getD l 0 * (1 / 2 * noiseC jt N (rowAt d ((P * N + 1) * nx) nw) i l b ^ 2) := fun i => by
    rw [tubeDensity, Finset.sum_mul, Finset.sum_mul, ← Finset.sum_sub_distrib]
    refine Finset.sum_congr rfl fun l _ => ?_
    have e : ∑ b ∈ Finset.range nw, (noiseAt jt (jmeW P N nx nw d i) N nw l).getD b 0 ^ 2 = ∑ b ∈ Finset.range nw, noiseC jt N (rowAt d ((P * N + 1) * nx) nw) i l b ^ 2 :=
      Finset.sum_congr rfl fun b hb => by
        rw [← noiseAt_getD _ _ _ (Finset.mem_range.1 hb)]
        rfl
    rw [asOC_L hu, e]
    simp only [← Finset.mul_sum]
    ring
  have e3 : ∀ i, ∑ j ∈ Finset.range N, ∑ a ∈ Finset.range nx, lamOf N nx lam i j a * (jmeDefects F J jt len u G P N nx nu nw np d i).getD (j * nx + a) 0 =
      (∑ j ∈ Finset.range N, ∑ a ∈ Finset.range nx, lamOf N nx lam i j a * ((rowAt d 0 nx (i * N + j + 1)).getD a 0 - (rowAt d 0 nx (i * N + j)).getD a 0 -
        (∑ l ∈ Finset.range (N + 1), (J.getD j []).getD l 0 * ((asOC F useOm nx nw nu).f (rowAt d 0 nx (i * N + l)) (dataRow rows (rowAt y 0 ny) (rowAt u 0 nu) N (i * N + l))
          (jmeP P N nx nw np d)).getD a 0) * len.getD i 0)) +
      ∑ l ∈ Finset.range (N + 1), ∑ b ∈ Finset.range nw, len.getD i 0 * K.getD l 0 * (noiseC jt N (rowAt d ((P * N + 1) * nx) nw) i l b *
        ∑ a ∈ Finset.range nx, psiOf K J N (lamOf N nx lam) i l a * (rowAt G 0 nw a).getD b 0) := fun i => by
    have h1 : ∑ l ∈ Finset.range (N + 1), ∑ b ∈ Finset.range nw, len.getD i 0 * K.getD l 0 * (noiseC jt N (rowAt d ((P * N + 1) * nx) nw) i l b *
        ∑ a ∈ Finset.range nx, psiOf K J N (lamOf N nx lam) i l a * (rowAt G 0 nw a).getD b 0) =
        ∑ j ∈ Finset.range N, ∑ a ∈ Finset.range nx, -(lamOf N nx lam i j a * (len.getD i 0 * ∑ l ∈ Finset.range (N + 1), ∑ b ∈ Finset.range nw,
          (J.getD j []).getD l 0 * (noiseC jt N (rowAt d ((P * N + 1) * nx) nw) i l b * (rowAt G 0 nw a).getD b 0))) := by
      have h2 : ∀ l ∈ Finset.range (N + 1), ∀ b, len.getD i 0 * K.getD l 0 * (noiseC jt N (rowAt d ((P * N + 1) * nx) nw) i l b *
          ∑ a ∈ Finset.range nx, psiOf K J N (lamOf N nx lam) i l a * (rowAt G 0 nw a).getD b 0) =
          ∑ j ∈ Finset.range N, ∑ a ∈ Finset.range nx, -(lamOf N nx lam i j a * (len.getD i 0 *
            ((J.getD j []).getD l 0 * (noiseC jt N (rowAt d ((P * N + 1) * nx) nw) i l b * (rowAt G 0 nw a).getD b 0)))) := fun l hl b => by
        have hKl := hK l (by have := Finset.mem_range.1 hl; omega)
        rw [Finset.sum_comm, Finset.mul_sum, Finset.mul_sum]
        refine Finset.sum_congr rfl fun a _ => ?_
        rw [psiOf, Finset.sum_neg_distrib]
        have h3 : ∑ j ∈ Finset.range N, lamOf N nx lam i j a * (len.getD i 0 *
            ((J.getD j []).getD l 0 * (noiseC jt N (rowAt d ((P * N + 1) * nx) nw) i l b * (rowAt G 0 nw a).getD b 0))) =
            (∑ j ∈ Finset.range N, (J.getD j []).getD l 0 * lamOf N nx lam i j a) * (len.getD i 0 * (noiseC jt N (rowAt d ((P * N + 1) * nx) nw) i l b * (rowAt G 0 nw a).getD b 0)) := by
          rw [Finset.sum_mul]
          exact Finset.sum_congr rfl fun j _ => by ring
        rw [h3]
        field_simp
      rw [Finset.sum_congr rfl fun l hl => Finset.sum_congr rfl fun b _ => h2 l hl b]
      simp only [Finset.mul_sum, ← Finset.sum_neg_distrib]
      simp only [Finset.sum_comm (s := Finset.range nw) (t := Finset.range N)]
      rw [Finset.sum_comm (s := Finset.range (N + 1)) (t := Finset.range N)]
      refine Finset.sum_congr rfl fun j _ => ?_
      simp only [Finset.sum_comm (s := Finset.range nw) (t := Finset.range nx)]
      rw [Finset.sum_comm (s := Finset.range (N + 1)) (t := Finset.range nx)]
    rw [h1, ← Finset.sum_add_distrib]
    refine Finset.sum_congr rfl fun j hj => ?_
    rw [← Finset.sum_add_distrib]
    refine Finset.sum_congr rfl fun a ha => ?_
    rw [jmeDefects_getD d i (Finset.mem_range.1 hj) (Finset.mem_range.1 ha)]
    simp only [asOC_f hu]
    ring
  have e4 := fun k => piece_lagrangian (asOC F useOm nx nw nu) (K := K) (J := J) (N := N) nx hK (lamOf N nx lam) k (len.getD k 0) (rowAt d 0 nx)
    (dataRow rows (rowAt y 0 ny) (rowAt u 0 nu) N) (jmeP P N nx nw np d)
  have e5 : noiseF K len jt (rowAt G 0 nw) (psiOf K J N (lamOf N nx lam)) P N nx nw (rowAt d ((P * N + 1) * nx) nw) =
      ∑ i ∈ Finset.range P, ((∑ l ∈ Finset.range (N + 1), ∑ b ∈ Finset.range nw, len.getD i 0 * K.getD l 0 * (noiseC jt N (rowAt d ((P * N + 1) * nx) nw) i l b *
        ∑ a ∈ Finset.range nx, psiOf K J N (lamOf N nx lam) i l a * (rowAt G 0 nw a).getD b 0)) -
        ∑ l ∈ Finset.range (N + 1), ∑ b ∈ Finset.range nw, len.getD i 0 * K.getD l 0 * (1 / 2 * noiseC jt N (rowAt d ((P * N + 1) * nx) nw) i l b ^ 2)) := by
    refine Finset.sum_congr rfl fun i _ => ?_
    rw [← Finset.sum_sub_distrib]
    refine Finset.sum_congr rfl fun l _ => ?_
    rw [← Finset.sum_sub_distrib]
    exact Finset.sum_congr rfl fun b _ => by ring
  rw [jmeCost, e0, e1, lagF, asOC_end, e5]
  have e6 : (∑ i ∈ Finset.range P, tubeDensity useOm (fun l => F.div (rowAt d 0 nx (i * N + l)) (rowAt u 0 nu (i * N + l)) (jmeP P N nx nw np d))
      (noiseAt jt (jmeW P N nx nw d i) N nw) K N nx nw (len.getD i 0)) +
      ∑ i ∈ Finset.range P, ∑ j ∈ Finset.range N, ∑ a ∈ Finset.range nx, lamOf N nx lam i j a * (jmeDefects F J jt len u G P N nx nu nw np d i).getD (j * nx + a) 0 =
      (∑ k ∈ Finset.range P, ∑ l ∈ Finset.range (N + 1), len.getD k 0 * K.getD l 0 * (asOC F useOm nx nw nu).hamiltonian nx (psiOf K J N (lamOf N nx lam) k l) (rowAt d 0 nx (k * N + l))
        (dataRow rows (rowAt y 0 ny) (rowAt u 0 nu) N (k * N + l)) (jmeP P N nx nw np d)) +
      (∑ k ∈ Finset.range P, ∑ j ∈ Finset.range N, ∑ a ∈ Finset.range nx, lamOf N nx lam k j a * ((rowAt d 0 nx (k * N + j + 1)).getD a 0 - (rowAt d 0 nx (k * N + j)).getD a 0)) +
      ∑ i ∈ Finset.range P, ((∑ l ∈ Finset.range (N + 1), ∑ b ∈ Finset.range nw, len.getD i 0 * K.getD l 0 * (noiseC jt N (rowAt d ((P * N + 1) * nx) nw) i l b *
        ∑ a ∈ Finset.range nx, psiOf K J N (lamOf N nx lam) i l a * (rowAt G 0 nw a).getD b 0)) -
        ∑ l ∈ Finset.range (N + 1), ∑ b ∈ Finset.range nw, len.getD i 0 * K.getD l 0 * (1 / 2 * noiseC jt N (rowAt d ((P * N + 1) * nx) nw) i l b ^ 2)) := by
    rw [← Finset.sum_add_distrib, ← Finset.sum_add_distrib, ← Finset.sum_add_distrib]
    refine Finset.sum_congr rfl fun i _ => ?_
    rw [e2, e3, ← e4 i]
    ring
  linarith

end

/-- The derivatives of a function of states, noise coefficients and parameters with respect to the entries of the decision vector. -/
theorem entries_jme {P N nx nw np : Nat} (Q : (ℝ → ℝ) → ℝ → Prop) {G : (Nat → List ℝ) → (Nat → List ℝ) → List ℝ → ℝ}
    (hG : ∀ x w x' w' p, (∀ r ≤ P * N, x r = x' r) → (∀ r < P * N, w r = w' r) → G x w p = G x' w' p) {d : List ℝ} (hd : d.length = (P * N + 1) * nx + P * N * nw + np) :
    (∀ i < d.length, Q (fun s => G (rowAt (d.set i s) 0 nx) (rowAt (d.set i s) ((P * N + 1) * nx) nw) (jmeP P N nx nw np (d.set i s))) (d.getD i 0)) ↔
      (∀ r ≤ P * N, ∀ b < nx, Q (fun s => G (Function.update (rowAt d 0 nx) r ((rowAt d 0 nx r).set b s)) (rowAt d ((P * N + 1) * nx) nw) (jmeP P N nx nw np d)) ((rowAt d 0 nx r).getD b 0)) ∧
      (∀ r < P * N, ∀ b < nw, Q (fun s => G (rowAt d 0 nx) (Function.update (rowAt d ((P * N + 1) * nx) nw) r ((rowAt d ((P * N + 1) * nx) nw r).set b s)) (jmeP P N nx nw np d))
        ((rowAt d ((P * N + 1) * nx) nw r).getD b 0)) ∧
      ∀ b < np, Q (fun s => G (rowAt d 0 nx) (rowAt d ((P * N + 1) * nx) nw) ((jmeP P N nx nw np d).set b s)) ((jmeP P N nx nw np d).getD b 0) := by
  have ex : ∀ r ≤ P * N, ∀ b < nx, r * nx + b < d.length ∧ (fun s => G (rowAt (d.set (r * nx + b) s) 0 nx) (rowAt (d.set (r * nx + b) s) ((P * N + 1) * nx) nw)
      (jmeP P N nx nw np (d.set (r * nx + b) s))) =
      (fun s => G (Function.update (rowAt d 0 nx) r ((rowAt d 0 nx r).set b s)) (rowAt d ((P * N + 1) * nx) nw) (jmeP P N nx nw np d)) ∧
        d.getD (r * nx + b) 0 = (rowAt d 0 nx r).getD b 0 := by
    intro r hr b hb
    have h1 := mul_add_lt (show r < P * N + 1 by omega) hb
    refine ⟨by omega, funext fun s => ?_, ?_⟩
    · have ep : jmeP P N nx nw np (d.set (r * nx + b) s) = jmeP P N nx nw np d := rowAt_set_other (by omega) s
      rw [ep]
      refine hG _ _ _ _ _ (fun q _ => ?_) fun q _ => rowAt_set_other (by omega) s
      have := rowAt_set (d := d) (off := 0) (n := nx) (r := r) hb (by omega) s q
      rw [Nat.zero_add] at this
      exact this
    · rw [rowAt_getD hb, Nat.zero_add]
  have eu : ∀ r < P * N, ∀ b < nw, (P * N + 1) * nx + (r * nw + b) < d.length ∧ (fun s => G (rowAt (d.set ((P * N + 1) * nx + (r * nw + b)) s) 0 nx)
      (rowAt (d.set ((P * N + 1) * nx + (r * nw + b)) s) ((P * N + 1) * nx) nw) (jmeP P N nx nw np (d.set ((P * N + 1) * nx + (r * nw + b)) s))) =
      (fun s => G (rowAt d 0 nx) (Function.update (rowAt d ((P * N + 1) * nx) nw) r ((rowAt d ((P * N + 1) * nx) nw r).set b s)) (jmeP P N nx nw np d)) ∧
        d.getD ((P * N + 1) * nx + (r * nw + b)) 0 = (rowAt d ((P * N + 1) * nx) nw r).getD b 0 := by
    intro r hr b hb
    have h1 := mul_add_lt hr hb
    refine ⟨by omega, funext fun s => ?_, ?_⟩
    · have ep : jmeP P N nx nw np (d.set ((P * N + 1) * nx + (r * nw + b)) s) = jmeP P N nx nw np d := rowAt_set_other (by omega) s
      rw [ep]
      refine hG _ _ _ _ _ (fun q hq => rowAt_set_other ?_ s) fun q _ => rowAt_set hb (by omega) s q
      have : q * nx + nx ≤ (P * N + 1) * nx := by rw [← Nat.succ_mul]; exact Nat.mul_le_mul_right _ (by omega)
      omega
    · rw [rowAt_getD hb]
  have ep : ∀ b < np, (P * N + 1) * nx + P * N * nw + b < d.length ∧ (fun s => G (rowAt (d.set ((P * N + 1) * nx + P * N * nw + b) s) 0 nx)
      (rowAt (d.set ((P * N + 1) * nx + P * N * nw + b) s) ((P * N + 1) * nx) nw) (jmeP P N nx nw np (d.set ((P * N + 1) * nx + P * N * nw + b) s))) =
      (fun s => G (rowAt d 0 nx) (rowAt d ((P * N + 1) * nx) nw) ((jmeP P N nx nw np d).set b s)) ∧
        d.getD ((P * N + 1) * nx + P * N * nw + b) 0 = (jmeP P N nx nw np d).getD b 0 := by
    intro b hb
    refine ⟨by omega, funext fun s => ?_, ?_⟩
    · have e := rowAt_set (d := d) (off := (P * N + 1) * nx + P * N * nw) (n := np) (r := 0) (b := b) hb (by omega) s 0
      rw [Function.update_self, Nat.zero_mul, Nat.zero_add] at e
      rw [jmeP, e]
      refine hG _ _ _ _ _ (fun q hq => rowAt_set_other ?_ s) fun q hq => rowAt_set_other ?_ s
      · have : q * nx + nx ≤ (P * N + 1) * nx := by rw [← Nat.succ_mul]; exact Nat.mul_le_mul_right _ (by omega)
        omega
      · have : q * nw + nw ≤ P * N * nw := by rw [← Nat.succ_mul]; exact Nat.mul_le_mul_right _ (by omega)
        omega
    · rw [jmeP, rowAt_getD hb, Nat.zero_mul, Nat.zero_add]
  constructor
  · intro h
    refine ⟨fun r hr b hb => ?_, fun r hr b hb => ?_, fun b hb => ?_⟩
    · obtain ⟨h1, h2, h3⟩ := ex r hr b hb
      rw [← h2, ← h3]; exact h _ h1
    · obtain ⟨h1, h2, h3⟩ := eu r hr b hb
      rw [← h2, ← h3]; exact h _ h1
    · obtain ⟨h1, h2, h3⟩ := ep b hb
      rw [← h2, ← h3]; exact h _ h1
  · rintro ⟨hx, hu, hp⟩ i hi
    have split : ∀ {m n j : Nat}, j < m * n → ∃ r b, r < m ∧ b < n ∧ j = r * n + b := fun {m n j} hj => by
      have hn : 0 < n := Nat.pos_of_ne_zero fun e => by simp [e] at hj
      exact ⟨j / n, j % n, Nat.div_lt_of_lt_mul (by rwa [Nat.mul_comm]), Nat.mod_lt _ hn, (Nat.div_add_mod' j n).symm⟩
    rcases Nat.lt_or_ge i ((P * N + 1) * nx) with h | h
    · obtain ⟨r, b, hr, hb, rfl⟩ := split h
      obtain ⟨-, e2, e3⟩ := ex r (by omega) b hb
      rw [e2, e3]; exact hx r (by omega) b hb
    rcases Nat.lt_or_ge i ((P * N + 1) * nx + P * N * nw) with h' | h'
    · obtain ⟨r, b, hr, hb, e⟩ := split (m := P * N) (n := nw) (j := i - (P * N + 1) * nx) (by omega)
      obtain rfl : i = (P * N + 1) * nx + (r * nw + b) := by omega
      obtain ⟨-, e2, e3⟩ := eu r hr b hb
      rw [e2, e3]; exact hu r hr b hb
    · obtain ⟨b, rfl⟩ := Nat.exists_eq_add_of_le h'
      obtain ⟨-, e2, e3⟩ := ep b (by omega)
      rw [e2, e3]; exact hp b (by omega)

end Ceacoest
