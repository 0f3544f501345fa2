import Verif.Lemmas.Smoothing2
import Verif.Props.TranscriptionJMEExpr
import Verif.Props.TranscriptionOEMExpr

/-! # C100: stationary points of estimation problems satisfy the equations of smoothing -/

namespace Ceacoest
open Polynomial Spec RK
variable {X : Type}

section
variable {F : JMEFunctions} {useOm : Bool} {K len c : List ℝ} {J jt : List (List ℝ)} {P N nx nu nw np ny : Nat} {rows : List Nat} {y u G : List ℝ} {B : Nat → Nat → ℝ}

/-- The derivatives of the Lagrange function without penalty with respect to all entries of the decision vector. -/
theorem jme_entries (hP : 1 ≤ P) (hN : 1 ≤ N) (lam : Nat → Nat → Nat → ℝ) (ψ : Nat → Nat → Nat → ℝ) {d : List ℝ}
    (hpd : F.PartialsAt useOm nx nw np (P * N) N rows (rowAt y 0 ny) (rowAt d 0 nx) (rowAt u 0 nu) (jmeP P N nx nw np d)) :
    (∀ r ≤ P * N, ∀ b < nx, HasDerivAt (fun s => lagF (asOC F useOm nx nw nu) K len P N nx 1 0 (fun _ _ => 1) (fun _ => 0) ψ lam
        (Function.update (rowAt d 0 nx) r ((rowAt d 0 nx r).set b s)) (dataRow rows (rowAt y 0 ny) (rowAt u 0 nu) N) (jmeP P N nx nw np d) +
        noiseF K len jt (rowAt G 0 nw) ψ P N nx nw (rowAt d ((P * N + 1) * nx) nw))
      (lagX (asOC F useOm nx nw nu) K len P N nx 1 0 (rowAt d 0 nx) (dataRow rows (rowAt y 0 ny) (rowAt u 0 nu) N) (jmeP P N nx nw np d) (fun _ _ => 1) (fun _ => 0) ψ lam r b)
      ((rowAt d 0 nx r).getD b 0)) ∧
    (∀ k < P, ∀ j < N, ∀ b < nw, HasDerivAt (fun s => lagF (asOC F useOm nx nw nu) K len P N nx 1 0 (fun _ _ => 1) (fun _ => 0) ψ lam
        (rowAt d 0 nx) (dataRow rows (rowAt y 0 ny) (rowAt u 0 nu) N) (jmeP P N nx nw np d) +
        noiseF K len jt (rowAt G 0 nw) ψ P N nx nw (Function.update (rowAt d ((P * N + 1) * nx) nw) (k * N + j) ((rowAt d ((P * N + 1) * nx) nw (k * N + j)).set b s)))
      (-(len.getD k 0 * ∑ l ∈ Finset.range (N + 1), K.getD l 0 * (jt.getD l []).getD j 0 *
        ((noiseAt jt (jmeW P N nx nw d k) N nw l).getD b 0 - ∑ a ∈ Finset.range nx, ψ k l a * (rowAt G 0 nw a).getD b 0)))
      ((rowAt d ((P * N + 1) * nx) nw (k * N + j)).getD b 0)) ∧
    (∀ b < np, HasDerivAt (fun s => lagF (asOC F useOm nx nw nu) K len P N nx 1 0 (fun _ _ => 1) (fun _ => 0) ψ lam
        (rowAt d 0 nx) (dataRow rows (rowAt y 0 ny) (rowAt u 0 nu) N) ((jmeP P N nx nw np d).set b s) +
        noiseF K len jt (rowAt G 0 nw) ψ P N nx nw (rowAt d ((P * N + 1) * nx) nw))
      ((∑ k ∈ Finset.range P, ∑ l ∈ Finset.range (N + 1), len.getD k 0 * K.getD l 0 * pderiv (fun w => (asOC F useOm nx nw nu).hamiltonian nx (ψ k l) (rowAt d 0 nx (k * N + l))
          (dataRow rows (rowAt y 0 ny) (rowAt u 0 nu) N (k * N + l)) w) (jmeP P N nx nw np d) b) +
        (∑ r ∈ Finset.range (P * N + 1), pderiv (fun w => (asOC F useOm nx nw nu).pathTerm 1 (fun _ => 1) (rowAt d 0 nx r) (dataRow rows (rowAt y 0 ny) (rowAt u 0 nu) N r) w)
          (jmeP P N nx nw np d) b) +
        pderiv (fun w => (asOC F useOm nx nw nu).endTerm 0 (fun _ => 0) (rowAt d 0 nx 0 ++ rowAt d 0 nx (P * N)) w) (jmeP P N nx nw np d) b)
      ((jmeP P N nx nw np d).getD b 0)) := by
  have hu : ∀ r, (rowAt u 0 nu r).length = nu := fun r => by simp [rowAt]
  have hoc := asOC_partials hN hu hpd
  refine ⟨fun r hr b hb => ?_, fun k hk j hj b hb => ?_, fun b hb => ?_⟩
  · exact (lagF_x _ _ _ _ hoc (fun r => by simp [rowAt]) (Nat.mul_pos hP hN) hr hb).add_const _
  · have h := (noiseF_deriv K len jt (rowAt G 0 nw) ψ (P := P) (N := N) (nx := nx) (W := rowAt d ((P * N + 1) * nx) nw) (fun r => by simp [rowAt]) hk hj hb).const_add
      (lagF (asOC F useOm nx nw nu) K len P N nx 1 0 (fun _ _ => 1) (fun _ => 0) ψ lam (rowAt d 0 nx) (dataRow rows (rowAt y 0 ny) (rowAt u 0 nu) N) (jmeP P N nx nw np d))
    refine h.congr_deriv ?_
    simp only [← noiseAt_getD _ _ _ hb]
    rfl
  · exact (lagF_p _ _ _ _ hoc hb).add_const _

/-- The multipliers of a penalised problem at a feasible point are those without the penalty. -/
theorem penalty_flat (hP : 1 ≤ P) (hN : 1 ≤ N) (hr : rows.Pairwise (· < ·)) (hlt : ∀ k ∈ rows, k ≤ P) (hK : ∀ l ≤ N, K.getD l 0 ≠ 0) {d : List ℝ}
    (hdl : d.length = (P * N + 1) * nx + P * N * nw + np)
    (hpd : F.PartialsAt useOm nx nw np (P * N) N rows (rowAt y 0 ny) (rowAt d 0 nx) (rowAt u 0 nu) (jmeP P N nx nw np d)) (weight : List ℝ)
    (hfe : ∀ q < P * N * nx, ((List.range P).flatMap (jmeDefects F J jt len u G P N nx nu nw np d)).getD q 0 = 0) {i : Nat} (hi : i < d.length) :
    HasDerivAt (fun s => ∑ k ∈ Finset.range P, defectPenalty (jmeDefects F J jt len u G P N nx nu nw np (d.set i s) k) weight N nx) 0 (d.getD i 0) := by
  have hdiff : ∀ lam : Nat → ℝ, ∃ D, HasDerivAt (fun s => jmeCost F useOm none J jt K len rows y u G P N nx nu nw np ny (d.set i s) +
      ∑ q ∈ Finset.range (P * N * nx), lam q * ((List.range P).flatMap (jmeDefects F J jt len u G P N nx nu nw np (d.set i s))).getD q 0) D (d.getD i 0) := fun lam => by
    simp only [jme_lagrangian hN hr hlt hK lam]
    obtain ⟨e1, e2, e3⟩ := jme_entries (K := K) (len := len) (jt := jt) (G := G) hP hN (lamOf N nx lam) (psiOf K J N (lamOf N nx lam)) hpd
    refine (entries_jme (P := P) (N := N) (fun f s => ∃ D, HasDerivAt f D s) (G := fun x w p => lagF (asOC F useOm nx nw nu) K len P N nx 1 0 (fun _ _ => 1) (fun _ => 0)
      (psiOf K J N (lamOf N nx lam)) (lamOf N nx lam) x (dataRow rows (rowAt y 0 ny) (rowAt u 0 nu) N) p + noiseF K len jt (rowAt G 0 nw) (psiOf K J N (lamOf N nx lam)) P N nx nw w)
      (fun x w x' w' p hx hw => by rw [lagF_congr _ _ _ _ _ _ _ _ _ _ _ _ hx fun _ _ => rfl, noiseF_congr _ _ _ _ _ _ _ _ _ hw]) hdl).2
      ⟨fun r hr b hb => ⟨_, e1 r hr b hb⟩, fun r hr b hb => ?_, fun b hb => ⟨_, e3 b hb⟩⟩ i hi
    obtain ⟨hk, hj⟩ : r / N < P ∧ r % N < N := ⟨Nat.div_lt_of_lt_mul (by rwa [Nat.mul_comm]), Nat.mod_lt _ (by omega)⟩
    have := e2 _ hk _ hj b hb
    rw [Nat.div_add_mod' r N] at this
    exact ⟨_, this⟩
  have hself : d.set i (d.getD i 0) = d := by rw [getD_of_lt _ _ hi, List.set_getElem_self]
  have hq : ∀ q < P * N * nx, ∃ D, HasDerivAt (fun s => ((List.range P).flatMap (jmeDefects F J jt len u G P N nx nu nw np (d.set i s))).getD q 0) D (d.getD i 0) := fun q hq => by
    obtain ⟨D1, h1⟩ := hdiff fun q' => if q' = q then 1 else 0
    obtain ⟨D0, h0⟩ := hdiff fun _ => 0
    refine ⟨_, (h1.sub h0).congr_of_eventuallyEq (Filter.Eventually.of_forall fun s => ?_)⟩
    simp [Finset.sum_ite_eq', hq]
  have h3 : ∀ k ∈ Finset.range P, HasDerivAt (fun s => defectPenalty (jmeDefects F J jt len u G P N nx nu nw np (d.set i s) k) weight N nx) 0 (d.getD i 0) := fun k hk => by
    have h4 : ∀ j ∈ Finset.range N, ∀ a ∈ Finset.range nx, HasDerivAt (fun s => (jmeDefects F J jt len u G P N nx nu nw np (d.set i s) k).getD (j * nx + a) 0 ^ 2 * weight.getD a 0) 0
        (d.getD i 0) := fun j hj a ha => by
      have hk := Finset.mem_range.1 hk; have hj := Finset.mem_range.1 hj; have ha := Finset.mem_range.1 ha
      have e : ∀ d' : List ℝ, ((List.range P).flatMap (jmeDefects F J jt len u G P N nx nu nw np d')).getD ((k * N + j) * nx + a) 0 =
          (jmeDefects F J jt len u G P N nx nu nw np d' k).getD (j * nx + a) 0 := fun d' => by
        have h1 := (flatMap_getElem? (g := jmeDefects F J jt len u G P N nx nu nw np d') (n := N * nx) P fun i _ => by unfold jmeDefects; exact defects_length ..).2 k hk
          (j * nx + a) (mul_add_lt hj ha)
        rw [show k * (N * nx) + (j * nx + a) = (k * N + j) * nx + a by ring] at h1
        rw [List.getD_eq_getElem?_getD, h1, List.getD_eq_getElem?_getD]
      have hlt' := mul_add_lt (mul_add_lt hk hj) ha
      obtain ⟨D, hD⟩ := hq _ hlt'
      have hz := hfe _ hlt'
      simp only [e] at hD hz
      refine ((hD.pow 2).mul_const (weight.getD a 0)).congr_deriv ?_
      simp only [hself, hz]
      simp
    have := (HasDerivAt.fun_sum fun j hj => HasDerivAt.fun_sum fun a ha => h4 j hj a ha).fun_neg
    refine HasDerivAt.congr_deriv (f := fun s => defectPenalty (jmeDefects F J jt len u G P N nx nu nw np (d.set i s) k) weight N nx) this ?_
    simp
  simpa using HasDerivAt.fun_sum h3

/-- Both directions, for the cost and the constraints as functions. -/
theorem jme_principle {pw : Option (List ℝ)} (hpo : PointsOK c J N)
    (hq : ∀ q : ℝ[X], q.natDegree ≤ 2 * N - 1 → ∑ l ∈ Finset.range (N + 1), K.getD l 0 * q.eval (c.getD l 0) = integral q 0 1)
    (hpos : ∀ l ≤ N, 0 < K.getD l 0) (hB : LobattoIIIB c K N B) (hP : 1 ≤ P) (hN : 1 ≤ N) (hr : rows.Pairwise (· < ·)) (hlt : ∀ k ∈ rows, k ≤ P)
    (hlen : ∀ k < P, len.getD k 0 ≠ 0) {d : List ℝ} (hdl : d.length = (P * N + 1) * nx + P * N * nw + np)
    (hpd : F.PartialsAt useOm nx nw np (P * N) N rows (rowAt y 0 ny) (rowAt d 0 nx) (rowAt u 0 nu) (jmeP P N nx nw np d))
    (hfe : pw = none ∨ ∀ q < P * N * nx, ((List.range P).flatMap (jmeDefects F J jt len u G P N nx nu nw np d)).getD q 0 = 0) :
    (∀ lam : Nat → ℝ, (∀ i < d.length, HasDerivAt (fun s => jmeCost F useOm pw J jt K len rows y u G P N nx nu nw np ny (d.set i s) +
        ∑ q ∈ Finset.range (P * N * nx), lam q * ((List.range P).flatMap (jmeDefects F J jt len u G P N nx nu nw np (d.set i s))).getD q 0) 0 (d.getD i 0)) →
      ∃ before after, F.Adjoint useOm K len B P N nx nw np rows (rowAt y 0 ny) (rowAt d 0 nx) (rowAt u 0 nu) (jmeP P N nx nw np d) (psiOf K J N (lamOf N nx lam)) before after ∧
        NoiseProjects K jt (rowAt G 0 nw) P N nx nw (fun k => noiseAt jt (jmeW P N nx nw d k) N nw) (psiOf K J N (lamOf N nx lam))) ∧
    ∀ ψ before after, F.Adjoint useOm K len B P N nx nw np rows (rowAt y 0 ny) (rowAt d 0 nx) (rowAt u 0 nu) (jmeP P N nx nw np d) ψ before after →
      NoiseProjects K jt (rowAt G 0 nw) P N nx nw (fun k => noiseAt jt (jmeW P N nx nw d k) N nw) ψ →
      ∃ lam : List ℝ, lam.length = P * N * nx ∧ (∀ k < P, ∀ l ≤ N, ∀ b < nx, ψ k l b = psiOf K J N (lamOf N nx fun q => lam.getD q 0) k l b) ∧
        ∀ i < d.length, HasDerivAt (fun s => jmeCost F useOm pw J jt K len rows y u G P N nx nu nw np ny (d.set i s) +
        ∑ q ∈ Finset.range (P * N * nx), lam.getD q 0 * ((List.range P).flatMap (jmeDefects F J jt len u G P N nx nu nw np (d.set i s))).getD q 0) 0 (d.getD i 0) := by
  have hK0 : ∀ l ≤ N, K.getD l 0 ≠ 0 := fun l hl => (hpos l hl).ne'
  have hu : ∀ r, (rowAt u 0 nu r).length = nu := fun r => by simp [rowAt]
  -- the penalty does not matter
  have hpen : ∀ i < d.length, ∀ lam : Nat → ℝ, HasDerivAt (fun s => jmeCost F useOm pw J jt K len rows y u G P N nx nu nw np ny (d.set i s) +
        ∑ q ∈ Finset.range (P * N * nx), lam q * ((List.range P).flatMap (jmeDefects F J jt len u G P N nx nu nw np (d.set i s))).getD q 0) 0 (d.getD i 0) ↔
      HasDerivAt (fun s => jmeCost F useOm none J jt K len rows y u G P N nx nu nw np ny (d.set i s) +
        ∑ q ∈ Finset.range (P * N * nx), lam q * ((List.range P).flatMap (jmeDefects F J jt len u G P N nx nu nw np (d.set i s))).getD q 0) 0 (d.getD i 0) := fun i hi lam => by
    cases pw with
    | none => exact Iff.rfl
    | some weight =>
      have h0 := penalty_flat hP hN hr hlt hK0 hdl hpd weight (hfe.resolve_left (by simp)) hi
      constructor
      · intro h
        refine ((h.fun_sub h0).congr_of_eventuallyEq (Filter.Eventually.of_forall fun s => ?_)).congr_deriv (sub_zero 0)
        simp only [jmeCost]
        ring
      · intro h
        refine ((h.fun_add h0).congr_of_eventuallyEq (Filter.Eventually.of_forall fun s => ?_)).congr_deriv (add_zero 0)
        simp only [jmeCost]
        ring
  have hlag : ∀ lam : Nat → ℝ, (∀ i < d.length, HasDerivAt (fun s => jmeCost F useOm pw J jt K len rows y u G P N nx nu nw np ny (d.set i s) +
        ∑ q ∈ Finset.range (P * N * nx), lam q * ((List.range P).flatMap (jmeDefects F J jt len u G P N nx nu nw np (d.set i s))).getD q 0) 0 (d.getD i 0)) ↔
      ∀ i < d.length, HasDerivAt (fun s => lagF (asOC F useOm nx nw nu) K len P N nx 1 0 (fun _ _ => 1) (fun _ => 0) (psiOf K J N (lamOf N nx lam)) (lamOf N nx lam)
        (rowAt (d.set i s) 0 nx) (dataRow rows (rowAt y 0 ny) (rowAt u 0 nu) N) (jmeP P N nx nw np (d.set i s)) +
      noiseF K len jt (rowAt G 0 nw) (psiOf K J N (lamOf N nx lam)) P N nx nw (rowAt (d.set i s) ((P * N + 1) * nx) nw)) 0 (d.getD i 0) := fun lam => by
    refine forall₂_congr fun i hi => ?_
    rw [hpen i hi lam]
    simp only [jme_lagrangian hN hr hlt hK0 lam]
  have hent := fun (lam ψ : Nat → Nat → Nat → ℝ) => entries_jme (P := P) (N := N) (nx := nx) (nw := nw) (np := np) (fun f s => HasDerivAt f 0 s)
    (G := fun x w p => lagF (asOC F useOm nx nw nu) K len P N nx 1 0 (fun _ _ => 1) (fun _ => 0) ψ lam x (dataRow rows (rowAt y 0 ny) (rowAt u 0 nu) N) p +
      noiseF K len jt (rowAt G 0 nw) ψ P N nx nw w)
    (fun x w x' w' p hx hw => by rw [lagF_congr _ _ _ _ _ _ _ _ _ _ _ _ hx fun _ _ => rfl, noiseF_congr _ _ _ _ _ _ _ _ _ hw]) hdl
  constructor
  · intro lam h
    have h := (hent _ _).1 ((hlag lam).1 h)
    obtain ⟨sx, sw, sp⟩ := h
    obtain ⟨e1, e2, e3⟩ := jme_entries (K := K) (len := len) (jt := jt) (G := G) hP hN (lamOf N nx lam) (psiOf K J N (lamOf N nx lam)) hpd
    obtain ⟨before, after, hmp⟩ := principle_of_stationary (F := asOC F useOm nx nw nu) (nu := 0) (np := np) (len := len) (x := rowAt d 0 nx)
      (u := dataRow rows (rowAt y 0 ny) (rowAt u 0 nu) N) (p := jmeP P N nx nw np d) (fun _ _ => 1) (fun _ => 0) (psiOf K J N (lamOf N nx lam)) (lamOf N nx lam) hpo hq hpos hB hP hN
      (fun _ _ _ _ _ _ => rfl) (fun r hr b hb => (e1 r hr b hb).unique (sx r hr b hb)) (fun r hr b hb => absurd hb (Nat.not_lt_zero _))
      (fun b hb => (e3 b hb).unique (sp b hb))
    refine ⟨before, after, (adjoint_iff hN hu hr hlt hK0 _ _ _ _).1 hmp, fun k hk j hj b hb => ?_⟩
    have := (e2 k hk j hj b hb).unique (sw (k * N + j) (mul_add_lt hk hj) b hb)
    exact (mul_eq_zero.1 (neg_eq_zero.1 this)).resolve_left (hlen k hk)
  · intro ψ before after hadj hnoise
    have hmp := (adjoint_iff (nu := nu) hN hu hr hlt hK0 (fun _ => 0) ψ before after).2 hadj
    obtain ⟨lam0, hlam0⟩ : ∃ lam0 : Nat → Nat → Nat → ℝ, ∀ k j b, lam0 k j b = -(after k b - ∑ m ∈ Finset.range (j + 1), (asOC F useOm nx nw nu).force K len N nx 1 (rowAt d 0 nx)
      (dataRow rows (rowAt y 0 ny) (rowAt u 0 nu) N) (jmeP P N nx nw np d) (fun _ _ => 1) ψ k m b) := ⟨_, fun _ _ _ => rfl⟩
    obtain ⟨s1, s2⟩ := stationary_of_principle (fun _ _ => 1) (fun _ => 0) ψ lam0 hpo hq hpos hB hP hN hmp (fun _ _ _ _ _ _ => hlam0 _ _ _)
    obtain ⟨e1, e2, e3⟩ := jme_entries (K := K) (len := len) (jt := jt) (G := G) hP hN lam0 ψ hpd
    have s3 := (hent lam0 ψ).2 ⟨fun r hr b hb => (e1 r hr b hb).congr_deriv (s2 r hr b hb), fun r hr b hb => by
      obtain ⟨hk, hj⟩ : r / N < P ∧ r % N < N := ⟨Nat.div_lt_of_lt_mul (by rwa [Nat.mul_comm]), Nat.mod_lt _ (by omega)⟩
      have h := e2 _ hk _ hj b hb
      rw [Nat.div_add_mod' r N] at h
      exact h.congr_deriv (by rw [hnoise _ hk _ hj b hb, mul_zero, neg_zero]), fun b hb => (e3 b hb).congr_deriv (hmp.param b hb)⟩
    have m1 : ∀ k < P, ∀ j < N, ∀ a < nx, lamOf N nx (fun q => (multipliers P N nx 0 0 lam0 (fun _ _ => 0) fun _ => 0).getD q 0) k j a = lam0 k j a :=
      (multipliers_parts (P := P) (N := N) (nx := nx) (ng := 0) (nh := 0) lam0 (fun _ _ => 0) fun _ => 0).1
    have m2 : ∀ k < P, ∀ l ≤ N, ∀ b < nx, ψ k l b = psiOf K J N (lamOf N nx fun q => (multipliers P N nx 0 0 lam0 (fun _ _ => 0) fun _ => 0).getD q 0) k l b := fun k hk l hl b hb => by
      rw [s1 k hk l hl b hb, psiOf, psiOf]
      congr 2
      exact Finset.sum_congr rfl fun j hj => by rw [m1 k hk j (Finset.mem_range.1 hj) b hb]
    refine ⟨multipliers P N nx 0 0 lam0 (fun _ _ => 0) fun _ => 0, by rw [multipliers]; simp, m2, (hlag _).2 ?_⟩
    rw [← lagF_multipliers (asOC F useOm nx nw nu) K len (P := P) (N := N) (nx := nx) (ng := 1) (nh := 0) (μ := fun _ _ => 1) (ν := fun _ => 0) (fun _ _ _ _ => rfl) (fun _ _ => rfl) m2
      fun k hk j hj a ha => (m1 k hk j hj a ha).symm, ← noiseF_multipliers K len jt (rowAt G 0 nw) m2]
    exact s3

end

/-- **C100** (joint MAP). The Lagrange function of the nonlinear program made from a joint MAP model is stationary at a decision vector exactly where the equations of smoothing hold: costates,
which are weighted means of the multipliers of the defects, run by the adjoint equation, jump by the gradient of the log-likelihood at each measurement and are zero before the first and
after the last; the parameters make log-likelihood and Hamiltonian stationary; and the noise is the projection of `Gᵀ ψ`. With a penalty this holds where the defects are zero. -/
theorem C100_jme {A : SymArith X} {ev : X → Env → ℝ} (hA : ArithOK A ev) (U : JMEUser X) (F : JMEFunctions) {xn un pn yn : List String} {N nw : Nat}
    (hU : JMEDenotes A ev U F xn.length un.length pn.length yn.length) (hN : (N : Int) + 1 = U.order) (hN1 : 1 ≤ N)
    (hjt : U.jtRange.length = N + 1 ∧ ∀ r ∈ U.jtRange, r.length = N) {vars : Dict String SymVar}
    (hv : ColVars vars xn un pn) (hy : Dict.get? vars "y" = some (.vec yn)) {Gv : SymVar} (hGv : Dict.get? vars "G" = some Gv)
    (hGs : Gv.shape = [xn.length, nw]) {decision : List String}
    (hd : DecisionOK vars ["x", "p", "xp", "wc"] ["y", "u", "up", "piece_len", "G", "penweight"] decision)
    {iter : String → List String} (hi : OrdersOK iter jmeWrt) (G : NDArray ℝ) (hG : G.WF ∧ G.shape = [xn.length, nw])
    (penweight : Option (NDArray ℝ)) (hw : U.usePenalty = true → ∃ w, penweight = some w ∧ w.WF ∧ w.shape = [xn.length]) :
    ∃ c, symjmeInit A U iter vars decision = .ok c ∧ lglCollocation U.order = .ok c.col ∧
      ∀ codegen : SymFn X → List (NDArray ℝ) → NDArray ℝ,
      (∀ name g, Dict.get? c.model.funcs name = some g → CodegenOK ev (shapeOf c.vars) codegen g) →
      ∃ m, symjmeGen codegen U G penweight c = .ok m ∧ m.collocationOrder = U.order ∧ m.nu = un.length ∧ m.ny = yn.length ∧
      ∀ (t : NDArray ℝ) (y : MaskedArray) (u : UArg) (ua : NDArray ℝ) (P : Nat), OEMInput m.toOEMModel t y P → InputsOK m.toOEMModel t u ua →
      ∃ q rows, jmeProblem m t y u = .ok q ∧ MeasuredRows y.mask (P + 1) yn.length rows ∧
      q.prob.ndec = (P * N + 1) * xn.length + P * N * nw + pn.length ∧
      ∀ d : List ℝ, d.length = q.prob.ndec →
        F.PartialsAt U.useOm xn.length nw pn.length (P * N) N rows (rowAt y.arr.data 0 yn.length) (rowAt d 0 xn.length) (rowAt ua.data 0 un.length) (jmeP P N xn.length nw pn.length d) →
        (U.usePenalty = true → q.prob.constr d = .ok (List.replicate (P * N * xn.length) 0)) →
      ∀ B, LobattoIIIB c.col.points c.col.K N B →
        (∀ lam : List ℝ, lam.length = P * N * xn.length → Stationary q.prob lam d →
          ∃ ψ before after, (∀ k l b, ψ k l b = -((∑ j ∈ Finset.range N, (c.col.J.getD j []).getD l 0 * lam.getD ((k * N + j) * xn.length + b) 0) / c.col.K.getD l 0)) ∧
            F.Adjoint U.useOm c.col.K (diff t.data) B P N xn.length nw pn.length rows (rowAt y.arr.data 0 yn.length) (rowAt d 0 xn.length) (rowAt ua.data 0 un.length)
              (jmeP P N xn.length nw pn.length d) ψ before after ∧
            NoiseProjects c.col.K U.jtRange (rowAt G.data 0 nw) P N xn.length nw (fun k => noiseAt U.jtRange (jmeW P N xn.length nw d k) N nw) ψ) ∧
        ∀ ψ before after, F.Adjoint U.useOm c.col.K (diff t.data) B P N xn.length nw pn.length rows (rowAt y.arr.data 0 yn.length) (rowAt d 0 xn.length) (rowAt ua.data 0 un.length)
              (jmeP P N xn.length nw pn.length d) ψ before after →
            NoiseProjects c.col.K U.jtRange (rowAt G.data 0 nw) P N xn.length nw (fun k => noiseAt U.jtRange (jmeW P N xn.length nw d k) N nw) ψ →
          ∃ lam : List ℝ, lam.length = P * N * xn.length ∧
            (∀ k < P, ∀ l ≤ N, ∀ b < xn.length, ψ k l b = -((∑ j ∈ Finset.range N, (c.col.J.getD j []).getD l 0 * lam.getD ((k * N + j) * xn.length + b) 0) / c.col.K.getD l 0)) ∧
            Stationary q.prob lam d := by
  obtain ⟨c, h1, h2, h3⟩ := C70_jme hA U F hU hN hN1 hjt hv hy hGv hGs hd hi G hG penweight hw
  refine ⟨c, h1, h2, fun codegen hcg => ?_⟩
  obtain ⟨m, s, g1, g2, -, g4, -, g6, -, h4⟩ := h3 codegen hcg
  refine ⟨m, g1, g2, g4, g6, fun t y u ua P hin hu => ?_⟩
  obtain ⟨q, rows, q1, q2, q3, q4⟩ := h4 t y u ua P hin hu
  refine ⟨q, rows, q1, q2, q3, fun d hdl hpd hfe B hB => ?_⟩
  obtain ⟨hpo, hK⟩ := lgl_points_ok hN1 hN h2
  obtain ⟨hpos, -⟩ := lgl_weights_ok hN1 hN h2
  have hlen : ∀ k < P, (diff t.data).getD k 0 ≠ 0 := fun k hk => by
    have htl : t.data.length = P + 1 := by have := hin.twf; rw [NDArray.WF, hin.tshape] at this; simpa using this
    rw [diff_getD (by omega)]
    have := (List.pairwise_iff_getElem.1 hin.tinc) k (k + 1) (by omega) (by omega) (by omega)
    rw [getD_of_lt _ _ (by omega), getD_of_lt _ _ (by omega)]
    exact (sub_pos.2 this).ne'
  have hfe' : penaltyWeights U.usePenalty penweight = none ∨ ∀ q < P * N * xn.length,
      ((List.range P).flatMap (jmeDefects F c.col.J U.jtRange (diff t.data) ua.data G.data P N xn.length un.length nw pn.length d)).getD q 0 = 0 := by
    cases hpe : U.usePenalty
    · exact Or.inl rfl
    · refine Or.inr fun q' hq' => ?_
      rw [Except.ok.inj ((q4 d hdl).2.1.symm.trans (hfe hpe)), List.getD_eq_getElem?_getD, List.getElem?_replicate, if_pos hq']
      rfl
  obtain ⟨w1, w2⟩ := jme_principle (F := F) (useOm := U.useOm) (jt := U.jtRange) (len := diff t.data) (rows := rows) (y := y.arr.data) (u := ua.data) (G := G.data) (nu := un.length)
    (ny := yn.length) hpo hK hpos hB hin.pieces hN1 q2.1 (fun k hk => by have := ((q2.2 k).1 hk).1; omega) hlen (hdl.trans q3) hpd hfe'
  constructor
  · rintro lam hl ⟨f, cf, e1, e2⟩
    obtain ⟨before, after, hmp⟩ := w1 (fun q => lam.getD q 0) fun i hi' => by
      refine (e2 i (by omega)).congr_of_eventuallyEq (Filter.Eventually.of_forall fun s => ?_)
      have hs : (d.set i s).length = q.prob.ndec := by rw [List.length_set, hdl]
      dsimp only
      rw [Except.ok.inj ((e1 _ hs).1.symm.trans (q4 _ hs).1), Except.ok.inj ((e1 _ hs).2.1.symm.trans (q4 _ hs).2.1), hl]
    exact ⟨_, before, after, fun _ _ _ => rfl, hmp⟩
  · intro ψ before after hadj hnoise
    obtain ⟨lam, hl, m2, m4⟩ := w2 ψ before after hadj hnoise
    refine ⟨lam, hl, m2, _, _, fun e he => ⟨(q4 e he).1, (q4 e he).2.1, ?_⟩, fun i hi' => ?_⟩
    · rw [hl, (flatMap_getElem? P fun i _ => by unfold jmeDefects; exact defects_length ..).1, Nat.mul_assoc]
    · rw [hl]
      exact m4 i (by omega)

section
variable {F : OEMFunctions} {K len : List ℝ} {J : List (List ℝ)} {P N nx nu np ny : Nat} {rows : List Nat} {y u : List ℝ}

theorem flatMap_range_congr {β : Type _} (n : Nat) {f g : Nat → List β} (h : ∀ k ∈ List.range n, f k = g k) : (List.range n).flatMap f = (List.range n).flatMap g := by
  rw [List.flatMap_def, List.flatMap_def, List.map_congr_left h]

/-- An output error problem is a joint MAP problem without noise. -/
theorem oem_as_jme_cost (d : List ℝ) : jmeCost F.withDiv false none J [] K len rows y u [] P N nx nu 0 np ny d =
    logLikelihood F rows y u N nx nu ny (rowAt d ((P * N + 1) * nx) np 0) d := by
  simp only [jmeCost, jmeP, tubeDensity, Finset.sum_range_zero, Nat.mul_zero, Nat.add_zero, Bool.false_eq_true, if_false, add_zero, mul_zero, zero_mul, Finset.sum_const_zero]
  rfl

theorem oem_as_jme_defects (d : List ℝ) : (List.range P).flatMap (jmeDefects F.withDiv J [] len u [] P N nx nu 0 np d) =
    oemConstraints F J len u P N nx nu (rowAt d ((P * N + 1) * nx) np 0) d := by
  refine flatMap_range_congr P fun i _ => ?_
  rw [jmeDefects, jmeP, Nat.mul_zero, Nat.add_zero, defects, defects]
  refine flatMap_range_congr N fun k _ => List.map_congr_left fun j hj => ?_
  have e : ∀ f w : List ℝ, (noisyRhs f w (rowAt [] 0 0) nx 0).getD j 0 = f.getD j 0 := fun f w => by
    rw [noisyRhs, List.getD_eq_getElem?_getD, List.getElem?_map, List.getElem?_range (List.mem_range.1 hj)]
    simp
  simp only [e, Nat.zero_add, ← Nat.add_assoc]
  rfl

end

/-- **C100** (output error). The Lagrange function of the nonlinear program made from an output error model is stationary at a decision vector exactly where the adjoint equation holds: the
costates jump by the gradient of the log-likelihood at each measurement and are zero before the first and after the last, and the parameters make log-likelihood and Hamiltonian
stationary. -/
theorem C100_oem {A : SymArith X} {ev : X → Env → ℝ} (hA : ArithOK A ev) (U : OEMUser X) (F : OEMFunctions) {xn un pn yn : List String} {N : Nat}
    (hU : OEMDenotes ev U F xn.length un.length pn.length yn.length) (hN : (N : Int) + 1 = U.order) (hN1 : 1 ≤ N) {vars : Dict String SymVar}
    (hv : ColVars vars xn un pn) (hy : Dict.get? vars "y" = some (.vec yn)) {decision : List String}
    (hd : DecisionOK vars ["x", "p", "xp"] ["y", "u", "up", "piece_len"] decision) {iter : String → List String} (hi : OrdersOK iter oemWrt) :
    ∃ c, symoemInit A U.order (oemMethods A U) iter vars decision = .ok c ∧ lglCollocation U.order = .ok c.col ∧
      ∀ codegen : SymFn X → List (NDArray ℝ) → NDArray ℝ,
      (∀ name g, Dict.get? c.model.funcs name = some g → CodegenOK ev (shapeOf c.vars) codegen g) →
      ∃ m, symoemGen codegen U.order c = .ok m ∧ m.collocationOrder = U.order ∧ m.nu = un.length ∧ m.ny = yn.length ∧
      ∀ (t : NDArray ℝ) (y : MaskedArray) (u : UArg) (ua : NDArray ℝ) (P : Nat), OEMInput m t y P → InputsOK m t u ua →
      ∃ q rows, oemProblem ColProblem.initVars m t y u = .ok q ∧ MeasuredRows y.mask (P + 1) yn.length rows ∧
      q.prob.ndec = (P * N + 1) * xn.length + pn.length ∧
      ∀ d : List ℝ, d.length = q.prob.ndec →
        F.withDiv.PartialsAt false xn.length 0 pn.length (P * N) N rows (rowAt y.arr.data 0 yn.length) (rowAt d 0 xn.length) (rowAt ua.data 0 un.length)
          (rowAt d ((P * N + 1) * xn.length) pn.length 0) →
      ∀ B, LobattoIIIB c.col.points c.col.K N B →
        (∀ lam : List ℝ, lam.length = P * N * xn.length → Stationary q.prob lam d →
          ∃ ψ before after, (∀ k l b, ψ k l b = -((∑ j ∈ Finset.range N, (c.col.J.getD j []).getD l 0 * lam.getD ((k * N + j) * xn.length + b) 0) / c.col.K.getD l 0)) ∧
            F.withDiv.Adjoint false c.col.K (diff t.data) B P N xn.length 0 pn.length rows (rowAt y.arr.data 0 yn.length) (rowAt d 0 xn.length) (rowAt ua.data 0 un.length)
              (rowAt d ((P * N + 1) * xn.length) pn.length 0) ψ before after) ∧
        ∀ ψ before after, F.withDiv.Adjoint false c.col.K (diff t.data) B P N xn.length 0 pn.length rows (rowAt y.arr.data 0 yn.length) (rowAt d 0 xn.length)
              (rowAt ua.data 0 un.length) (rowAt d ((P * N + 1) * xn.length) pn.length 0) ψ before after →
          ∃ lam : List ℝ, lam.length = P * N * xn.length ∧
            (∀ k < P, ∀ l ≤ N, ∀ b < xn.length, ψ k l b = -((∑ j ∈ Finset.range N, (c.col.J.getD j []).getD l 0 * lam.getD ((k * N + j) * xn.length + b) 0) / c.col.K.getD l 0)) ∧
            Stationary q.prob lam d := by
  obtain ⟨c, h1, h2, h3⟩ := C70_oem hA U F hU hN hN1 hv hy hd hi
  refine ⟨c, h1, h2, fun codegen hcg => ?_⟩
  obtain ⟨m, s, g1, g2, -, g4, -, g6, h4⟩ := h3 codegen hcg
  refine ⟨m, g1, g2, g4, g6, fun t y u ua P hin hu => ?_⟩
  obtain ⟨q, rows, q1, q2, q3, q4⟩ := h4 t y u ua P hin hu
  refine ⟨q, rows, q1, q2, q3, fun d hdl hpd B hB => ?_⟩
  obtain ⟨hpo, hK⟩ := lgl_points_ok hN1 hN h2
  obtain ⟨hpos, -⟩ := lgl_weights_ok hN1 hN h2
  have hlen : ∀ k < P, (diff t.data).getD k 0 ≠ 0 := fun k hk => by
    have htl : t.data.length = P + 1 := by have := hin.twf; rw [NDArray.WF, hin.tshape] at this; simpa using this
    rw [diff_getD (by omega)]
    have := (List.pairwise_iff_getElem.1 hin.tinc) k (k + 1) (by omega) (by omega) (by omega)
    rw [getD_of_lt _ _ (by omega), getD_of_lt _ _ (by omega)]
    exact (sub_pos.2 this).ne'
  have hp0 : ∀ d : List ℝ, jmeP P N xn.length 0 pn.length d = rowAt d ((P * N + 1) * xn.length) pn.length 0 := fun d => by rw [jmeP, Nat.mul_zero, Nat.add_zero]
  obtain ⟨w1, w2⟩ := jme_principle (F := F.withDiv) (useOm := false) (pw := none) (jt := []) (len := diff t.data) (rows := rows) (y := y.arr.data) (u := ua.data) (G := [])
    (nu := un.length) (nw := 0) (np := pn.length) (ny := yn.length) hpo hK hpos hB hin.pieces hN1 q2.1 (fun k hk => by have := ((q2.2 k).1 hk).1; omega) hlen (d := d)
    (nx := xn.length) (by rw [hdl, q3]; simp) (by rw [hp0]; exact hpd) (Or.inl rfl)
  simp only [oem_as_jme_cost, oem_as_jme_defects, hp0] at w1 w2
  constructor
  · rintro lam hl ⟨f, cf, e1, e2⟩
    obtain ⟨before, after, hmp, -⟩ := w1 (fun q => lam.getD q 0) fun i hi' => by
      refine (e2 i (by omega)).congr_of_eventuallyEq (Filter.Eventually.of_forall fun s => ?_)
      have hs : (d.set i s).length = q.prob.ndec := by rw [List.length_set, hdl]
      dsimp only
      rw [Except.ok.inj ((e1 _ hs).1.symm.trans (q4 _ hs).1), Except.ok.inj ((e1 _ hs).2.1.symm.trans (q4 _ hs).2.1), hl]
    exact ⟨_, before, after, fun _ _ _ => rfl, hmp⟩
  · intro ψ before after hadj
    obtain ⟨lam, hl, m2, m4⟩ := w2 ψ before after hadj fun k _ j _ b hb => absurd hb (Nat.not_lt_zero _)
    refine ⟨lam, hl, m2, _, _, fun e he => ⟨(q4 e he).1, (q4 e he).2.1, ?_⟩, fun i hi' => ?_⟩
    · rw [hl, oemConstraints, (flatMap_getElem? P fun i _ => defects_length ..).1, Nat.mul_assoc]
    · rw [hl]
      exact m4 i (by omega)

/-! ### The pendulum -/

namespace PendulumId
open SExpr

/-- The pendulum has the partial derivatives everywhere, also with the divergence. -/
theorem partials (useOm : Bool) (nw m N : Nat) (hnw : nw = 1 ∨ useOm = false) (rows : List Nat) (y x u : Nat → List ℝ) (hx : ∀ r, (x r).length = 2) (p : List ℝ) :
    functions.withDiv.PartialsAt useOm 2 nw 2 m N rows y x u p := by
  have D := fun y j i => differentiable_entry y j i
  have hdiv : ∀ (z u p : List ℝ), z.length = 2 → driftDiv (functions.withDiv.div z u p) 2 1 = -p.getD 0 0 := fun z u p hz => by
    obtain ⟨a, b, rfl⟩ : ∃ a b, z = [a, b] := by
      match z, hz with
      | [a, b], _ => exact ⟨a, b, rfl⟩
    have h : HasDerivAt (fun s => -Real.sin a + (u.getD 0 0 - p.getD 0 0 * s)) (-(p.getD 0 0)) b :=
      ((((hasDerivAt_id b).const_mul (p.getD 0 0)).const_sub (u.getD 0 0)).const_add (-Real.sin a)).congr_deriv (by simp)
    have e : functions.withDiv.div [a, b] u p 1 = -p.getD 0 0 := h.deriv
    simp only [driftDiv, Finset.sum_range_succ, Finset.sum_range_zero]
    simpa using e
  constructor
  · intro r hr a ha j hj
    interval_cases a
    · exact (D _ _ _).differentiableAt
    · exact ((((D _ _ 0).sin).neg).add ((differentiable_const _).sub ((D _ _ 1).const_mul _))).differentiableAt
  · intro r hr a ha j hj
    interval_cases a
    · exact differentiableAt_const _
    · exact ((differentiable_const _).add ((differentiable_const _).sub ((D _ _ 0).mul_const _))).differentiableAt
  · intro ho r hr j hj
    obtain rfl : nw = 1 := hnw.resolve_right (by rw [ho]; simp)
    have e : (fun s => driftDiv (functions.withDiv.div ((x r).set j s) (u r) p) 2 1) = fun _ => -p.getD 0 0 := funext fun s => hdiv _ _ _ (by rw [List.length_set, hx])
    rw [e]
    exact differentiableAt_const _
  · intro ho r hr j hj
    obtain rfl : nw = 1 := hnw.resolve_right (by rw [ho]; simp)
    have e : (fun s => driftDiv (functions.withDiv.div (x r) (u r) (p.set j s)) 2 1) = fun s => -(p.set j s).getD 0 0 := funext fun s => hdiv _ _ _ (hx r)
    rw [e]
    exact (D _ _ 0).neg.differentiableAt
  · exact fun k hk j hj => ((differentiable_const _).sub ((((differentiable_const _).sub (D _ _ 0)).pow 2).const_mul _ |>.div_const 2)).differentiableAt
  · exact fun k hk j hj => (((D _ _ 1).div_const 2).sub (((D _ _ 1).exp.mul_const _).div_const 2)).differentiableAt

/-- All hypotheses hold for output error estimation, at every decision vector. -/
example : ∃ c, symoemInit SExpr.arith 3 (oemMethods SExpr.arith user) iter vars [] = .ok c ∧ ∃ m, symoemGen (exprCode (shapeOf c.vars)) 3 c = .ok m ∧
    ∃ q rows, oemProblem ColProblem.initVars m t y (.callable fun _ => .ok (.array ua)) = .ok q ∧ ∀ d : List ℝ, d.length = 12 → ∀ lam : List ℝ, lam.length = 8 → Stationary q.prob lam d →
      ∃ B ψ before after, LobattoIIIB c.col.points c.col.K 2 B ∧ functions.withDiv.Adjoint false c.col.K (diff t.data) B 2 2 2 0 2 rows (rowAt y.arr.data 0 1) (rowAt d 0 2)
        (rowAt ua.data 0 1) (rowAt d 10 2 0) ψ before after := by
  obtain ⟨c, h1, hcol, h3⟩ := C100_oem arith_ok user functions (xn := ["angle", "speed"]) (un := ["torque"]) (pn := ["friction", "precision"]) (yn := ["angle_meas"]) (N := 2) denotes rfl
    (by decide) vars_ok rfl (decision := []) (by unfold DecisionOK; decide) iter_ok
  obtain ⟨m, g1, m1, m3, m5, h4⟩ := h3 (exprCode (shapeOf c.vars)) fun _ g _ => C66_expr_code _ g
  obtain ⟨q, rows, q1, -, q3, q4⟩ := h4 t y _ ua 2 (input m1 m5) (inputs m1 m5 m3)
  obtain ⟨col, N, hcol', hN, B, hB, -⟩ := C92_coefficients (n := 3) (by decide)
  obtain rfl : N = 2 := by omega
  obtain rfl : col = c.col := Except.ok.inj (hcol'.symm.trans hcol)
  refine ⟨c, h1, m, g1, q, rows, q1, fun d hd lam hl hs => ?_⟩
  obtain ⟨ψ, before, after, -, h⟩ := (q4 d (by rw [q3]; exact hd) (partials _ _ _ _ (Or.inr rfl) _ _ _ _ (fun r => by simp [rowAt]) _) B hB).1 lam hl hs
  exact ⟨B, ψ, before, after, hB, h⟩

/-- All hypotheses hold for joint MAP estimation, with the divergence and a penalty, at every decision vector without defects. -/
example : ∃ c, symjmeInit SExpr.arith juser jiter jvars [] = .ok c ∧ ∃ m, symjmeGen (exprCode (shapeOf c.vars)) juser ⟨[2, 1], [0, 1]⟩ (some ⟨[2], [3, 4]⟩) c = .ok m ∧
    ∃ q rows, jmeProblem m t y (.callable fun _ => .ok (.array ua)) = .ok q ∧ ∀ d : List ℝ, d.length = 16 → q.prob.constr d = .ok (List.replicate 8 0) →
      ∀ lam : List ℝ, lam.length = 8 → Stationary q.prob lam d →
      ∃ B ψ before after, LobattoIIIB c.col.points c.col.K 2 B ∧ functions.withDiv.Adjoint true c.col.K (diff t.data) B 2 2 2 1 2 rows (rowAt y.arr.data 0 1) (rowAt d 0 2)
        (rowAt ua.data 0 1) (jmeP 2 2 2 1 2 d) ψ before after := by
  obtain ⟨c, h1, hcol, h3⟩ := C100_jme arith_ok juser functions.withDiv (xn := ["angle", "speed"]) (un := ["torque"]) (pn := ["friction", "precision"]) (yn := ["angle_meas"]) (N := 2) (nw := 1)
    (denotes_withDiv total.f denotes) rfl (by decide)
    ⟨rfl, by intro r hr; simp only [juser, List.mem_cons, List.not_mem_nil, or_false] at hr; rcases hr with rfl | rfl | rfl <;> rfl⟩
    jvars_ok rfl rfl rfl (decision := []) (by unfold DecisionOK; decide) jiter_ok ⟨[2, 1], [0, 1]⟩ ⟨rfl, rfl⟩ (some ⟨[2], [3, 4]⟩) (fun _ => ⟨_, rfl, rfl, rfl⟩)
  obtain ⟨m, g1, m1, m3, m5, h4⟩ := h3 (exprCode (shapeOf c.vars)) fun _ g _ => C66_expr_code _ g
  obtain ⟨q, rows, q1, -, q3, q4⟩ := h4 t y _ ua 2 (input m1 m5) (inputs m1 m5 m3)
  obtain ⟨col, N, hcol', hN, B, hB, -⟩ := C92_coefficients (n := 3) (by decide)
  obtain rfl : N = 2 := by omega
  obtain rfl : col = c.col := Except.ok.inj (hcol'.symm.trans hcol)
  refine ⟨c, h1, m, g1, q, rows, q1, fun d hd hfe lam hl hs => ?_⟩
  obtain ⟨ψ, before, after, -, h, -⟩ := (q4 d (by rw [q3]; exact hd) (partials _ _ _ _ (Or.inl rfl) _ _ _ _ (fun r => by simp [rowAt]) _) (fun _ => hfe) B hB).1 lam hl hs
  exact ⟨B, ψ, before, after, hB, h⟩

end PendulumId

/-! ### A random walk -/

namespace RandomWalk
open SExpr

/-- A random walk, measured with errors of unit variance. -/
noncomputable def user : JMEUser SExpr where
  order := 3
  f _ _ _ := [const 0]
  L y x _ _ :=
    let r := add (y.getD 0 (const 0)) (mul (const (-1)) (x.getD 0 (const 0)))
    mul (const (-(1 / 2))) (mul r r)
  useOm := false
  usePenalty := false
  jtRange := [[1, 0], [1 / 2, 1 / 2], [0, 1]]

/-- The same on numbers. -/
noncomputable def functions : OEMFunctions where
  f _ _ _ := [0]
  L y x _ _ := -((y.getD 0 0 - x.getD 0 0) ^ 2 / 2)

theorem denotes : OEMDenotes ev user.toOEMUser functions 1 1 0 1 where
  lenf := fun _ _ _ _ _ _ => rfl
  f := fun x u p env _ _ _ => rfl
  L := fun y x u p env _ _ _ _ => by simp only [user, functions, ev, Pendulum.getD_map_ev]; ring

def vars : Dict String SymVar := [("x", .vec ["pos"]), ("u", .vec ["unused"]), ("y", .vec ["pos_meas"]), ("G", .mat 1 1 fun _ _ => "G")]

theorem vars_ok : ColVars vars ["pos"] ["unused"] [] where
  keys := by decide
  x := rfl
  u := Or.inl rfl
  p := by right; exact ⟨rfl, rfl⟩
  pieceLen := fun v h => by cases h

/-- The estimate goes along a straight line from near the first measurement to near the last. -/
noncomputable def estimate : List ℝ := [7 / 5, 8 / 5, 9 / 5, 11 / 5, 13 / 5, 2 / 5, 2 / 5, 2 / 5, 2 / 5]

theorem partials (m N : Nat) (rows : List Nat) (y x u : Nat → List ℝ) (p : List ℝ) : functions.withDiv.PartialsAt false 1 1 0 m N rows y x u p where
  fx r hr a ha j hj := by
    interval_cases a
    exact differentiableAt_const _
  fp r hr a ha j hj := absurd hj (Nat.not_lt_zero _)
  divx h := by cases h
  divp h := by cases h
  Lx k hk j hj := ((((differentiable_const _).sub (differentiable_entry _ _ 0)).pow 2).div_const 2).neg.differentiableAt
  Lp k hk j hj := absurd hj (Nat.not_lt_zero _)

/-- The estimate is a stationary point: the costate is the same everywhere, two fifths, and so is the noise. -/
example : ∃ c, symjmeInit SExpr.arith user PendulumId.jiter vars [] = .ok c ∧ ∃ m, symjmeGen (exprCode (shapeOf c.vars)) user ⟨[1, 1], [1]⟩ none c = .ok m ∧
    ∃ q, jmeProblem m PendulumId.t PendulumId.y (.callable fun _ => .ok (.array PendulumId.ua)) = .ok q ∧ q.prob.ndec = 9 ∧ ∃ lam, lam.length = 4 ∧ Stationary q.prob lam estimate := by
  obtain ⟨c, h1, hcol, h3⟩ := C100_jme arith_ok user functions.withDiv (xn := ["pos"]) (un := ["unused"]) (pn := []) (yn := ["pos_meas"]) (N := 2) (nw := 1)
    (denotes_withDiv (fun x u p _ _ _ a ha => by
      simp only [user, List.mem_cons, List.not_mem_nil, or_false] at ha
      subst ha
      exact fun env => trivial) denotes) rfl (by decide)
    ⟨rfl, by intro r hr; simp only [user, List.mem_cons, List.not_mem_nil, or_false] at hr; rcases hr with rfl | rfl | rfl <;> rfl⟩
    vars_ok rfl rfl rfl (decision := []) (by unfold DecisionOK; decide) PendulumId.jiter_ok ⟨[1, 1], [1]⟩ ⟨rfl, rfl⟩ none (fun h => by cases h)
  obtain ⟨m, g1, m1, m3, m5, h4⟩ := h3 (exprCode (shapeOf c.vars)) fun _ g _ => C66_expr_code _ g
  obtain ⟨q, rows, q1, q2, q3, q4⟩ := h4 PendulumId.t PendulumId.y _ PendulumId.ua 2 (PendulumId.input m1 m5) (PendulumId.inputs m1 m5 m3)
  obtain ⟨col, N, hcol', hN, B, hB, -⟩ := C92_coefficients (n := 3) (by decide)
  obtain rfl : N = 2 := by omega
  obtain rfl : col = c.col := Except.ok.inj (hcol'.symm.trans hcol)
  have hmem : 0 ∈ rows ∧ 1 ∉ rows ∧ 2 ∈ rows := by
    simp only [q2.2, HasMeasurement, PendulumId.y]
    simp
  have hH : ∀ (z u p : List ℝ) (ψ : Nat → ℝ) b, pderiv (fun z => functions.withDiv.hamiltonian false 1 1 ψ z u p) z b = 0 := fun z u p ψ b => by
    simp [pderiv, JMEFunctions.hamiltonian, functions, OEMFunctions.withDiv]
  have hL : ∀ (a b : ℝ) (u p : List ℝ), pderiv (fun z => functions.withDiv.L [a] z u p) [b] 0 = a - b := fun a b u p => by
    have h : HasDerivAt (fun s : ℝ => -((a - s) ^ 2 / 2)) (a - b) b :=
      (((((hasDerivAt_id b).const_sub a).pow 2).div_const 2).neg).congr_deriv (by simp; ring)
    exact h.deriv
  obtain ⟨lam, l1, -, l3⟩ := (q4 estimate (by rw [q3]; rfl) (partials _ _ _ _ _ _ _) (fun h => by cases h) B hB).2 (fun _ _ _ => 2 / 5)
    (fun k _ => if k = 0 then 0 else 2 / 5) (fun k _ => if k = 2 then 0 else 2 / 5) (by
      refine ⟨fun b hb => rfl, fun b hb => rfl, fun k hk b hb => ?_, fun k hk b hb => ?_, fun k hk l hl b hb => ?_, fun b hb => absurd hb (Nat.not_lt_zero _)⟩
      · obtain rfl : b = 0 := by simpa using hb
        interval_cases k
        · rw [if_pos hmem.1]
          have e := hL 1 (7 / 5) (rowAt PendulumId.ua.data 0 1 0) (jmeP 2 2 1 1 0 estimate)
          change (2 / 5 : ℝ) = 0 - pderiv _ [7 / 5] 0
          exact (by rw [show (2 / 5 : ℝ) = 0 - (1 - 7 / 5) by norm_num]; exact congrArg (0 - ·) e.symm)
        · rw [if_neg hmem.2.1]
          simp
        · rw [if_pos hmem.2.2]
          have e := hL 3 (13 / 5) (rowAt PendulumId.ua.data 0 1 4) (jmeP 2 2 1 1 0 estimate)
          change (0 : ℝ) = 2 / 5 - pderiv _ [13 / 5] 0
          exact (by rw [show (0 : ℝ) = 2 / 5 - (3 - 13 / 5) by norm_num]; exact congrArg (2 / 5 - ·) e.symm)
      · simp only [user, List.length_cons, List.length_nil, hH, mul_zero, Finset.sum_const_zero, sub_zero]
        rw [if_neg (by omega), if_neg (by omega)]
      · simp only [user, List.length_cons, List.length_nil, hH, mul_zero, Finset.sum_const_zero, sub_zero]
        rw [if_neg (by omega)]) (by
      intro k hk j hj b hb
      obtain rfl : b = 0 := by omega
      refine Finset.sum_eq_zero fun l hl => ?_
      have hl := Finset.mem_range.1 hl
      have e : (noiseAt user.jtRange (jmeW 2 2 1 1 estimate k) 2 1 l).getD 0 0 = 2 / 5 := by
        simp only [noiseAt, user, jmeW, estimate, Finset.sum_range_succ, Finset.sum_range_zero]
        interval_cases k <;> interval_cases l <;> simp [rowAt] <;> norm_num
      rw [show (["pos"] : List String).length = 1 from rfl, e]
      simp [rowAt])
  exact ⟨c, h1, m, g1, q, q1, q3, lam, l1, l3⟩

end RandomWalk
end Ceacoest
