import Verif.Spec.Smoothing
import Verif.Props.MaximumPrinciple

/-! # Lemmas about the Lagrange functions of estimation problems (C100) -/

namespace Ceacoest
open Polynomial Spec RK

/-- The inputs at a grid point, and the measurement if there is one. -/
noncomputable def dataRow (rows : List Nat) (y u : Nat → List ℝ) (N r : Nat) : List ℝ := u r ++ if r ∈ rows.map (· * N) then 1 :: y (r / N) else []

/-- An estimation problem without noise as an optimal control problem: the divergence of the drift is the running cost and the log-likelihood a path constraint with multiplier one. -/
noncomputable def asOC (F : JMEFunctions) (useOm : Bool) (nx nw nu : Nat) : OCFunctions where
  f x v p := F.f x (v.take nu) p
  g x v p := [match v.drop nu with
    | [] => 0
    | _ :: y => F.L y x (v.take nu) p]
  L x v p := -(1 / 2) * if useOm then driftDiv (F.div x (v.take nu) p) nx nw else 0
  M _ _ := 0
  h _ _ := []

section
variable {F : JMEFunctions} {useOm : Bool} {K len : List ℝ} {P N nx nu nw np : Nat} {rows : List Nat} {y x u : Nat → List ℝ} {p : List ℝ}

theorem dataRow_take (hu : ∀ r, (u r).length = nu) (r : Nat) : (dataRow rows y u N r).take nu = u r := by
  rw [dataRow, List.take_append_of_le_length (by rw [hu]), ← hu r, List.take_length]

theorem dataRow_drop (hu : ∀ r, (u r).length = nu) (r : Nat) : (dataRow rows y u N r).drop nu = if r ∈ rows.map (· * N) then 1 :: y (r / N) else [] := by
  rw [dataRow, List.drop_append_of_le_length (by rw [hu]), ← hu r, List.drop_length, List.nil_append]

theorem asOC_f (hu : ∀ r, (u r).length = nu) (z q : List ℝ) (r : Nat) : (asOC F useOm nx nw nu).f z (dataRow rows y u N r) q = F.f z (u r) q := by
  simp only [asOC, dataRow_take hu]

theorem asOC_L (hu : ∀ r, (u r).length = nu) (z q : List ℝ) (r : Nat) :
    (asOC F useOm nx nw nu).L z (dataRow rows y u N r) q = -(1 / 2) * if useOm then driftDiv (F.div z (u r) q) nx nw else 0 := by
  simp only [asOC, dataRow_take hu]

theorem asOC_ham (hu : ∀ r, (u r).length = nu) (ψ : Nat → ℝ) (z q : List ℝ) (r : Nat) :
    (asOC F useOm nx nw nu).hamiltonian nx ψ z (dataRow rows y u N r) q = F.hamiltonian useOm nx nw ψ z (u r) q := by
  rw [OCFunctions.hamiltonian, asOC_f hu, asOC_L hu, JMEFunctions.hamiltonian]

theorem asOC_g (hu : ∀ r, (u r).length = nu) (z q : List ℝ) (r : Nat) :
    (asOC F useOm nx nw nu).g z (dataRow rows y u N r) q = [if r ∈ rows.map (· * N) then F.L (y (r / N)) z (u r) q else 0] := by
  rw [asOC]
  simp only [dataRow_take hu, dataRow_drop hu]
  split_ifs <;> rfl

theorem asOC_path (hu : ∀ r, (u r).length = nu) (z q : List ℝ) (r : Nat) :
    (asOC F useOm nx nw nu).pathTerm 1 (fun _ => 1) z (dataRow rows y u N r) q = if r ∈ rows.map (· * N) then F.L (y (r / N)) z (u r) q else 0 := by
  rw [OCFunctions.pathTerm, Finset.sum_range_one, asOC_g hu, one_mul]
  rfl

theorem asOC_end (ν : Nat → ℝ) (z q : List ℝ) : (asOC F useOm nx nw nu).endTerm 0 ν z q = 0 := by
  rw [OCFunctions.endTerm, Finset.sum_range_zero, add_zero, asOC]

theorem mem_mesh (hN : 1 ≤ N) (k : Nat) : k * N ∈ rows.map (· * N) ↔ k ∈ rows := by
  rw [List.mem_map]
  constructor
  · rintro ⟨j, hj, e⟩
    rwa [← Nat.eq_of_mul_eq_mul_right (by omega) e]
  · exact fun h => ⟨k, h, rfl⟩

/-- The sum over the grid points with a measurement is the sum over the measured rows. -/
theorem sum_measured (hN : 1 ≤ N) (hr : rows.Pairwise (· < ·)) (hlt : ∀ k ∈ rows, k ≤ P) (g : Nat → ℝ) :
    ∑ r ∈ Finset.range (P * N + 1), (if r ∈ rows.map (· * N) then g r else 0) = (rows.map fun k => g (k * N)).sum := by
  have nd : (rows.map (· * N)).Nodup := (List.nodup_map_iff_inj_on (hr.imp fun h => Nat.ne_of_lt h)).2 fun a _ b _ e => Nat.eq_of_mul_eq_mul_right (by omega) e
  rw [← Finset.sum_filter]
  have e : (Finset.range (P * N + 1)).filter (· ∈ rows.map (· * N)) = (rows.map (· * N)).toFinset := by
    ext r
    rw [Finset.mem_filter, List.mem_toFinset, Finset.mem_range]
    refine ⟨fun h => h.2, fun h => ⟨?_, h⟩⟩
    obtain ⟨k, hk, rfl⟩ := List.mem_map.1 h
    exact Nat.lt_succ_of_le (Nat.mul_le_mul_right _ (hlt k hk))
  rw [e, List.sum_toFinset _ nd, List.map_map]
  rfl

theorem asOC_partials (hN : 1 ≤ N) (hu : ∀ r, (u r).length = nu) (h : F.PartialsAt useOm nx nw np (P * N) N rows y x u p) :
    (asOC F useOm nx nw nu).PartialsAt nx 0 np 1 0 (P * N) x (dataRow rows y u N) p where
  fx r hr a ha := by simp only [asOC_f hu]; exact h.fx r hr a ha
  fu r hr a ha j hj := absurd hj (Nat.not_lt_zero _)
  fp r hr a ha := by simp only [asOC_f hu]; exact h.fp r hr a ha
  Lx r hr j hj := by
    simp only [asOC_L hu]
    cases useOm
    · simp only [Bool.false_eq_true, if_false]
      exact differentiableAt_const _
    · exact (h.divx rfl r hr j hj).const_mul _
  Lu r hr j hj := absurd hj (Nat.not_lt_zero _)
  Lp r hr j hj := by
    simp only [asOC_L hu]
    cases useOm
    · simp only [Bool.false_eq_true, if_false]
      exact differentiableAt_const _
    · exact (h.divp rfl r hr j hj).const_mul _
  gx r hr a ha j hj := by
    obtain rfl : a = 0 := by omega
    simp only [asOC_g hu]
    by_cases hm : r ∈ rows.map (· * N)
    · obtain ⟨k, hk, rfl⟩ := List.mem_map.1 hm
      simp only [if_pos hm, Nat.mul_div_cancel _ (show 0 < N by omega)]
      exact h.Lx k hk j hj
    · simp only [if_neg hm]
      exact differentiableAt_const _
  gu r hr a ha j hj := absurd hj (Nat.not_lt_zero _)
  gp r hr a ha j hj := by
    obtain rfl : a = 0 := by omega
    simp only [asOC_g hu]
    by_cases hm : r ∈ rows.map (· * N)
    · obtain ⟨k, hk, rfl⟩ := List.mem_map.1 hm
      simp only [if_pos hm, Nat.mul_div_cancel _ (show 0 < N by omega)]
      exact h.Lp k hk j hj
    · simp only [if_neg hm]
      exact differentiableAt_const _
  Mx j hj := differentiableAt_const _
  Mp j hj := differentiableAt_const _
  hx a ha := absurd ha (Nat.not_lt_zero _)
  hp a ha := absurd ha (Nat.not_lt_zero _)

/-- The maximum principle of the optimal control problem is the adjoint equation. -/
theorem adjoint_iff {B : Nat → Nat → ℝ} (hN : 1 ≤ N) (hu : ∀ r, (u r).length = nu) (hr : rows.Pairwise (· < ·)) (hlt : ∀ k ∈ rows, k ≤ P) (hK : ∀ l ≤ N, K.getD l 0 ≠ 0)
    (ν : Nat → ℝ) (ψ : Nat → Nat → Nat → ℝ) (before after : Nat → Nat → ℝ) :
    (asOC F useOm nx nw nu).MaximumPrinciple K len B P N nx 0 np 1 0 x (dataRow rows y u N) p (fun _ _ => 1) ν ψ before after ↔
      F.Adjoint useOm K len B P N nx nw np rows y x u p ψ before after := by
  have hz : ∀ (c : ℝ) (q : List ℝ) (b : Nat), pderiv (fun _ => c) q b = 0 := fun c q b => by rw [pderiv, deriv_const]
  have hend : ∀ b, pderiv (fun xe => (asOC F useOm nx nw nu).endTerm 0 ν xe p) (x 0 ++ x (P * N)) b = 0 := fun b => by
    simp only [asOC_end, hz]
  have hend' : ∀ b, pderiv (fun w => (asOC F useOm nx nw nu).endTerm 0 ν (x 0 ++ x (P * N)) w) p b = 0 := fun b => by
    simp only [asOC_end, hz]
  have hjump : ∀ k b, pderiv (fun z => (asOC F useOm nx nw nu).pathTerm 1 (fun _ => 1) z (dataRow rows y u N (k * N)) p) (x (k * N)) b =
      if k ∈ rows then pderiv (fun z => F.L (y k) z (u (k * N)) p) (x (k * N)) b else 0 := fun k b => by
    simp only [asOC_path hu, mem_mesh hN, Nat.mul_div_cancel _ (show 0 < N by omega)]
    by_cases hk : k ∈ rows
    · simp only [if_pos hk]
    · simp only [if_neg hk, hz]
  have hforce : ∀ k, ∀ m ≤ N, ∀ b, (asOC F useOm nx nw nu).force K len N nx 1 x (dataRow rows y u N) p (fun _ _ => 1) ψ k m b =
      len.getD k 0 * (K.getD m 0 * pderiv (fun z => F.hamiltonian useOm nx nw (ψ k m) z (u (k * N + m)) p) (x (k * N + m)) b) := fun k m hm b => by
    rw [OCFunctions.force]
    simp only [asOC_ham hu, asOC_path hu]
    rw [mul_assoc]
    split_ifs with h1 h2
    · obtain ⟨j, -, e⟩ := List.mem_map.1 h2
      exfalso
      have := congrArg (· % N) e
      simp only [Nat.mul_mod_left, Nat.add_comm _ m, Nat.add_mul_mod_self_right, Nat.mod_eq_of_lt h1.2] at this
      omega
    · rw [hz, add_zero]
    · rw [add_zero]
  have hmesh : ∀ k b, ∑ m ∈ Finset.range (N + 1), (asOC F useOm nx nw nu).force K len N nx 1 x (dataRow rows y u N) p (fun _ _ => 1) ψ k m b =
      len.getD k 0 * ∑ m ∈ Finset.range (N + 1), K.getD m 0 * pderiv (fun z => F.hamiltonian useOm nx nw (ψ k m) z (u (k * N + m)) p) (x (k * N + m)) b := fun k b => by
    rw [Finset.mul_sum]
    exact Finset.sum_congr rfl fun m hm => hforce k m (by have := Finset.mem_range.1 hm; omega) b
  have hinner : ∀ k l b, ∑ m ∈ Finset.range (N + 1), B l m / K.getD m 0 * (asOC F useOm nx nw nu).force K len N nx 1 x (dataRow rows y u N) p (fun _ _ => 1) ψ k m b =
      len.getD k 0 * ∑ m ∈ Finset.range (N + 1), B l m * pderiv (fun z => F.hamiltonian useOm nx nw (ψ k m) z (u (k * N + m)) p) (x (k * N + m)) b := fun k l b => by
    rw [Finset.mul_sum]
    refine Finset.sum_congr rfl fun m hm => ?_
    have hm' : m ≤ N := by have := Finset.mem_range.1 hm; omega
    have := hK m hm'
    rw [hforce k m hm' b]
    field_simp
  have hparam : ∀ b, (∑ k ∈ Finset.range P, ∑ l ∈ Finset.range (N + 1), len.getD k 0 * K.getD l 0 *
        pderiv (fun w => (asOC F useOm nx nw nu).hamiltonian nx (ψ k l) (x (k * N + l)) (dataRow rows y u N (k * N + l)) w) p b) +
      (∑ r ∈ Finset.range (P * N + 1), pderiv (fun w => (asOC F useOm nx nw nu).pathTerm 1 (fun _ => 1) (x r) (dataRow rows y u N r) w) p b) =
      (∑ k ∈ Finset.range P, len.getD k 0 * ∑ l ∈ Finset.range (N + 1),
        K.getD l 0 * pderiv (fun w => F.hamiltonian useOm nx nw (ψ k l) (x (k * N + l)) (u (k * N + l)) w) p b) +
      (rows.map fun k => pderiv (fun w => F.L (y k) (x (k * N)) (u (k * N)) w) p b).sum := fun b => by
    simp only [asOC_ham hu, asOC_path hu, Finset.mul_sum, mul_assoc]
    congr 1
    have := sum_measured hN hr hlt fun r => pderiv (fun w => F.L (y (r / N)) (x r) (u r) w) p b
    simp only [Nat.mul_div_cancel _ (show 0 < N by omega)] at this
    rw [← this]
    refine Finset.sum_congr rfl fun r _ => ?_
    split_ifs
    · rfl
    · rw [hz]
  constructor
  · intro h
    refine ⟨fun b hb => ?_, fun b hb => ?_, fun k hk b hb => ?_, fun k hk b hb => ?_, fun k hk l hl b hb => ?_, fun b hb => ?_⟩
    · rw [h.start b hb, hend, neg_zero]
    · rw [h.stop b hb, hend]
    · rw [h.jump k hk b hb, hjump]
    · rw [h.mesh k hk b hb, hmesh]
    · rw [h.inner k hk l hl b hb, hinner]
    · have := h.param b hb
      rw [hend', add_zero] at this
      rw [← hparam]
      exact this
  · intro h
    refine ⟨fun b hb => ?_, fun b hb => ?_, fun k hk b hb => ?_, fun k hk b hb => ?_, fun k hk l hl b hb => ?_, fun r hr b hb => absurd hb (Nat.not_lt_zero _), fun b hb => ?_⟩
    · rw [h.start b hb, hend, neg_zero]
    · rw [h.stop b hb, hend]
    · rw [h.jump k hk b hb, hjump]
    · rw [h.mesh k hk b hb, hmesh]
    · rw [h.inner k hk l hl b hb, hinner]
    · rw [hparam, hend', add_zero, h.param b hb]

end
end Ceacoest
