import Verif.Spec.TestKalmanDiff
import Verif.Lemmas.TestOptim
import Verif.Lemmas.SymExpr
import Verif.Lemmas.KalmanRun2
import Mathlib.Analysis.Calculus.Deriv.Pi

/-! # Lemmas on numerical differences of differentiable functions -/

namespace Ceacoest.Spec
open TestKalman Filter Topology

theorem ForSmallSteps.mono {P Q : Steps → Prop} (h : ForSmallSteps P) (hPQ : ∀ c, P c → Q c) : ForSmallSteps Q := by
  obtain ⟨ε, hε, h⟩ := h
  exact ⟨ε, hε, fun c h1 h2 h3 => hPQ c (h c h1 h2 h3)⟩

theorem ForSmallSteps.and {P Q : Steps → Prop} (h : ForSmallSteps P) (h' : ForSmallSteps Q) : ForSmallSteps fun c => P c ∧ Q c := by
  obtain ⟨ε, hε, h⟩ := h
  obtain ⟨ε', hε', h'⟩ := h'
  exact ⟨min ε ε', lt_min hε hε', fun c h1 h2 h3 => ⟨h c h1 (lt_of_lt_of_le h2 (min_le_left _ _)) (lt_of_lt_of_le h3 (min_le_left _ _)),
    h' c h1 (lt_of_lt_of_le h2 (min_le_right _ _)) (lt_of_lt_of_le h3 (min_le_right _ _))⟩⟩

theorem ForSmallSteps.all {ι : Type} [Finite ι] {P : ι → Steps → Prop} (h : ∀ i, ForSmallSteps (P i)) : ForSmallSteps fun c => ∀ i, P i c := by
  choose e he h using h
  have h1 : ∀ᶠ ε in 𝓝[>] (0 : ℝ), ∀ i, ε < e i := eventually_all.2 fun i => (eventually_lt_nhds (he i)).filter_mono nhdsWithin_le_nhds
  obtain ⟨ε, h2, h3⟩ := (h1.and self_mem_nhdsWithin).exists
  exact ⟨ε, h3, fun c h4 h5 h6 i => h i c h4 (h5.trans (h2 i)) (h6.trans (h2 i))⟩

theorem smallSteps_of (P : Steps → Prop) (h : ∀ c, P c) : ForSmallSteps P := ⟨1, one_pos, fun c _ _ _ => h c⟩

/-- The steps are positive, and small. -/
theorem step_small (x : ℝ) {δ : ℝ} (hδ : 0 < δ) : ForSmallSteps fun c => 0 < max (x * c.relStep) c.minStep ∧ max (x * c.relStep) c.minStep < δ := by
  have hx : 0 < 1 + |x| := by positivity
  refine ⟨δ / (1 + |x|), by positivity, fun c h1 h2 h3 => ⟨lt_of_lt_of_le h1 (le_max_right _ _), max_lt ?_ ?_⟩⟩
  · have h4 : x * c.relStep ≤ |x| * |c.relStep| := (le_abs_self _).trans (abs_mul _ _).le
    have h5 : |x| * |c.relStep| ≤ (1 + |x|) * |c.relStep| := mul_le_mul_of_nonneg_right (by linarith) (abs_nonneg _)
    have h6 : (1 + |x|) * |c.relStep| < δ := by
      rw [lt_div_iff₀ hx] at h3
      linarith
    linarith
  · refine h2.trans_le (div_le_self hδ.le (by linarith [abs_nonneg x]))

/-- The partial derivatives of a differentiable function. -/
theorem HasGrad.partial {nq : Nat} {F : (Fin nq → ℝ) → ℝ} {g : Fin nq → ℝ} {q : Fin nq → ℝ} (h : HasGrad F g q) (i : Fin nq) :
    HasDerivAt (fun t => F (Function.update q i t)) (g i) (q i) := by
  have h1 := hasDerivAt_update q i (q i)
  have h2 : HasFDerivAt F (lin g) (Function.update q i (q i)) := by rwa [Function.update_eq_self]
  refine (h2.comp_hasDerivAt (q i) h1).congr_deriv ?_
  rw [lin_apply]
  simp [Pi.single_apply]

/-- Central differences converge to the derivative. -/
theorem central_tends {f : ℝ → ℝ} {D x η : ℝ} (h : HasDerivAt f D x) (hη : 0 < η) :
    ∃ δ > 0, ∀ s, 0 < s → s < δ → |1 / 2 * (f (x + s) - f (x - s)) / s - D| ≤ η := by
  have h1 := (hasDerivAt_iff_isLittleO.1 h).def hη
  obtain ⟨δ, hδ, h1⟩ := Metric.eventually_nhds_iff.1 h1
  refine ⟨δ, hδ, fun s hs hsδ => ?_⟩
  have ep := h1 (y := x + s) (by simpa [abs_of_pos hs] using hsδ)
  have em := h1 (y := x - s) (by simpa [abs_of_pos hs] using hsδ)
  simp only [add_sub_cancel_left, smul_eq_mul, Real.norm_eq_abs, abs_of_pos hs] at ep
  have e1 : x - s - x = -s := by ring
  rw [e1] at em
  simp only [smul_eq_mul, Real.norm_eq_abs, abs_neg, abs_of_pos hs] at em
  have e : 1 / 2 * (f (x + s) - f (x - s)) / s - D = ((f (x + s) - f x - s * D) - (f (x - s) - f x - -s * D)) / (2 * s) := by
    field_simp
    ring
  rw [e, abs_div, abs_of_pos (by linarith : 0 < 2 * s), div_le_iff₀ (by linarith)]
  refine (abs_sub _ _).trans ?_
  linarith

end Ceacoest.Spec

namespace Ceacoest.TestKalman
open Spec Utils Filter Topology Matrix

variable {nq : Nat} {q₀ : Fin nq → ℝ}

/-! ### Differences -/

theorem params_at (q : Fin nq → ℝ) (i : Fin nq) (t : ℝ) :
    (fun j : Fin nq => (atCoord (arr1 q) i.1 t).data.getD j.1 0) = Function.update q i t := by
  funext j
  simp only [atCoord, arr1]
  by_cases h : j = i
  · subst h
    simp [List.getD_eq_getElem?_getD]
  · have h' : i.1 ≠ j.1 := fun e => h (Fin.ext e.symm)
    rw [Function.update_of_ne h, List.getD_eq_getElem?_getD, List.getElem?_set_ne h']
    simp

theorem arr1_getD (q : Fin nq → ℝ) (i : Fin nq) : (arr1 q).data.getD i.1 0 = q i := by
  simp [arr1, List.getD_eq_getElem?_getD]

/-- Near parameters where the function returns arrays of one shape, `central_diff` returns the quotients. -/
theorem numDiff_local {F : (Fin nq → ℝ) → Py (NDArray ℝ)} {G : (Fin nq → ℝ) → NDArray ℝ} {sh : List Nat} (hn : 0 < nq)
    (hF : ∀ᶠ q in 𝓝 q₀, F q = .ok (G q)) (hG : ∀ᶠ q in 𝓝 q₀, (G q).shape = sh ∧ (G q).WF) :
    ForSmallSteps fun c => ∃ b, numDiff c F q₀ = .ok (some b) ∧ b.shape = nq :: sh ∧ b.WF ∧ ∀ i : Fin nq, ∀ r < sh.prod,
      b.data.getD (i.1 * sh.prod + r) 0 = 1 / 2 *
        ((G (Function.update q₀ i (q₀ i + max (q₀ i * c.relStep) c.minStep))).data.getD r 0 -
          (G (Function.update q₀ i (q₀ i - max (q₀ i * c.relStep) c.minStep))).data.getD r 0) / max (q₀ i * c.relStep) c.minStep := by
  classical
  obtain ⟨δ, hδ, hball⟩ := Metric.eventually_nhds_iff.1 (hF.and hG)
  refine (ForSmallSteps.all fun i : Fin nq => step_small (q₀ i) hδ).mono fun c hc => ?_
  let G' : (Fin nq → ℝ) → NDArray ℝ := fun q => if (G q).shape = sh ∧ (G q).WF then G q else ⟨sh, List.replicate sh.prod 0⟩
  have hG' : ∀ q, (G' q).shape = sh ∧ (G' q).WF := by
    intro q
    simp only [G']
    split
    · assumption
    · exact ⟨rfl, by simp [NDArray.WF]⟩
  have hd : ∀ (i : Fin nq) (s : ℝ), |s| < δ → F (Function.update q₀ i (q₀ i + s)) = .ok (G' (Function.update q₀ i (q₀ i + s))) ∧
      G' (Function.update q₀ i (q₀ i + s)) = G (Function.update q₀ i (q₀ i + s)) := by
    intro i s hs
    have : dist (Function.update q₀ i (q₀ i + s)) q₀ < δ := by
      rw [dist_pi_lt_iff hδ]
      intro j
      by_cases h : j = i
      · subst h
        simpa [Real.dist_eq] using hs
      · rw [Function.update_of_ne h, dist_self]
        exact hδ
    have h1 := hball this
    have h2 : G' (Function.update q₀ i (q₀ i + s)) = G (Function.update q₀ i (q₀ i + s)) := if_pos h1.2
    exact ⟨by rw [h2]; exact h1.1, h2⟩
  have hlen : (arr1 q₀).data.length = nq := by simp [arr1]
  have hst : ∀ i : Fin nq, (steps (arr1 q₀).data c.minStep c.relStep).getD i.1 0 = max (q₀ i * c.relStep) c.minStep := by
    intro i
    rw [TestOptim.steps_getD _ _ _ (by rw [hlen]; exact i.2), arr1_getD]
  obtain ⟨st, h1, -, h3⟩ := central_fold (fun x => G' fun i => x.data.getD i.1 0) (arr1 q₀) (steps (arr1 q₀).data c.minStep c.relStep) c.junk sh
    (fun i _ t => hG' _) (by simp [NDArray.WF, arr1]) nq (by rw [hlen])
  obtain ⟨a, rfl, h4, h5, h6⟩ := h3 hn
  have habs : ∀ i, |max (q₀ i * c.relStep) c.minStep| < δ := fun i => by rw [abs_of_pos (hc i).1]; exact (hc i).2
  have habs' : ∀ i, |-max (q₀ i * c.relStep) c.minStep| < δ := fun i => by rw [abs_neg]; exact habs i
  refine ⟨a, ?_, h4, ?_, fun i r hr => ?_⟩
  · unfold numDiff centralDiff
    simp only
    rw [show (steps (arr1 q₀).data c.minStep c.relStep).length = nq from by simp [steps, arr1],
      TestOptim.foldlM_congr_range (g := centralStep (fun x => .ok (G' fun i => x.data.getD i.1 0)) (arr1 q₀)
        (steps (arr1 q₀).data c.minStep c.relStep) c.junk) (fun b i hi => ?_), h1]
    · rfl
    · unfold centralStep
      simp only
      have e := hst ⟨i, hi⟩
      simp only at e
      have e' := arr1_getD q₀ ⟨i, hi⟩
      simp only at e'
      have ep := params_at q₀ ⟨i, hi⟩
      simp only at ep
      simp only [e, e', ep]
      have hm := hd ⟨i, hi⟩ _ (habs' ⟨i, hi⟩)
      rw [← sub_eq_add_neg] at hm
      rw [(hd ⟨i, hi⟩ _ (habs ⟨i, hi⟩)).1, hm.1]
  · rw [NDArray.WF, h5, h4, List.prod_append, hlen]
    simp [arr1]
  · have h7 := h6 i.1 i.2 r hr
    rw [h7, hst i]
    have hm := (hd i _ (habs' i)).2
    rw [← sub_eq_add_neg] at hm
    simp only [arr1_getD, params_at]
    rw [(hd i _ (habs i)).2, hm]

/-- The differences are close to the derivatives. -/
theorem numDiff_close {F : (Fin nq → ℝ) → Py (NDArray ℝ)} {G : (Fin nq → ℝ) → NDArray ℝ} {D : Fin nq → NDArray ℝ} {sh : List Nat} (hn : 0 < nq)
    (hF : ∀ᶠ q in 𝓝 q₀, F q = .ok (G q)) (hG : GradArr G D sh q₀) {η : ℝ} (hη : 0 < η) :
    ForSmallSteps fun c => ∃ b, numDiff c F q₀ = .ok (some b) ∧ b.shape = nq :: sh ∧ b.WF ∧ ∀ i : Fin nq, ∀ r < sh.prod,
      |b.data.getD (i.1 * sh.prod + r) 0 - (D i).data.getD r 0| ≤ η := by
  have h1 : ∀ (i : Fin nq) (r : Fin sh.prod), ForSmallSteps fun c => |1 / 2 *
        ((G (Function.update q₀ i (q₀ i + max (q₀ i * c.relStep) c.minStep))).data.getD r.1 0 -
          (G (Function.update q₀ i (q₀ i - max (q₀ i * c.relStep) c.minStep))).data.getD r.1 0) / max (q₀ i * c.relStep) c.minStep -
        (D i).data.getD r.1 0| ≤ η := by
    intro i r
    obtain ⟨δ, hδ, h⟩ := central_tends ((hG.grad r.1 r.2).partial i) hη
    exact (step_small (q₀ i) hδ).mono fun c hc => h _ hc.1 hc.2
  refine ((numDiff_local hn hF hG.near).and (ForSmallSteps.all fun i => ForSmallSteps.all fun r => h1 i r)).mono ?_
  rintro c ⟨⟨b, h2, h3, h4, h5⟩, h6⟩
  refine ⟨b, h2, h3, h4, fun i r hr => ?_⟩
  rw [h5 i r hr]
  exact h6 i ⟨r, hr⟩

/-! ### Comparison -/

theorem assertClose_iff {a b : NDArray ℝ} {sh : List Nat} (ha : a.WF) (hb : b.WF) (hsa : a.shape = sh) (hsb : b.shape = sh) (tol : ℝ) :
    (assertClose a b tol = .ok () ∧ ∀ k < sh.prod, |a.data.getD k 0 - b.data.getD k 0| < tol + tol * |b.data.getD k 0|) ∨
    (assertClose a b tol = .error .assertionError ∧ ¬∀ k < sh.prod, |a.data.getD k 0 - b.data.getD k 0| < tol + tol * |b.data.getD k 0|) := by
  obtain ⟨r, h1, h2⟩ := ArrayCmp.C61_within_tol a b ha hb tol tol
  have hc : assertClose a b tol = pyAssert r := by
    unfold assertClose
    rw [(ArrayCmp.C61_lt _ _ none none).1, h1]
    rfl
  have he : ∀ {c : NDArray ℝ}, c.WF → c.shape = sh → ∀ idx, InBounds sh idx → ArrayCmp.bcEntry c idx = c.data.getD (cOrder sh idx) 0 := by
    intro c hc hs idx hi
    subst hs
    rw [← ArrayCmp.bcIdx_entry hc (canBroadcast_self _) hi, bcIdx_self _ (cOrder_lt hi)]
  have hiff : r = true ↔ ∀ k < sh.prod, |a.data.getD k 0 - b.data.getD k 0| < tol + tol * |b.data.getD k 0| := by
    rw [h2, hsa, hsb]
    constructor
    · rintro ⟨sh', hs', hall⟩ k hk
      have : sh' = sh := by
        have := (bcShape2_iff _ _ _).2 hs'
        rw [bcShape2_self] at this
        exact (Option.some.inj this).symm
      subst this
      obtain ⟨idx, hi, rfl⟩ := exists_idx _ k hk
      have := hall idx hi
      rwa [he ha hsa idx hi, he hb hsb idx hi] at this
    · intro hall
      refine ⟨sh, (bcShape2_iff _ _ _).1 (bcShape2_self sh), fun idx hi => ?_⟩
      rw [he ha hsa idx hi, he hb hsb idx hi]
      exact hall _ (cOrder_lt hi)
  rw [hc]
  cases r with
  | true => exact Or.inl ⟨rfl, hiff.1 rfl⟩
  | false => exact Or.inr ⟨rfl, fun h => by simpa using hiff.2 h⟩

/-! ### Arrays of derivatives -/

theorem stack_shape {n : Nat} (sh : List Nat) (T : Fin n → NDArray ℝ) : (stack sh T).shape = n :: sh := rfl

theorem stack_data {n : Nat} {sh : List Nat} {T : Fin n → NDArray ℝ} (hT : ∀ i, (T i).shape = sh ∧ (T i).WF) :
    (stack sh T).WF ∧ ∀ (i : Fin n), ∀ r < sh.prod, (stack sh T).data.getD (i.1 * sh.prod + r) 0 = (T i).data.getD r 0 := by
  have hl : ∀ i, (T i).data.length = sh.prod := fun i => by rw [(hT i).2, (hT i).1]
  have e : (List.ofFn fun i => (T i).data).flatten = (List.range n).flatMap fun k => if h : k < n then (T ⟨k, h⟩).data else [] := by
    rw [List.flatMap_def]
    congr 1
    refine List.ext_getElem (by simp) fun k h1 h2 => ?_
    have hk : k < n := by simpa using h1
    simp [hk]
  obtain ⟨h1, h2⟩ := flatMap_getElem? (g := fun k => if h : k < n then (T ⟨k, h⟩).data else []) (n := sh.prod) n (fun k hk => by
    simp only [dif_pos hk]
    exact hl _)
  refine ⟨?_, fun i r hr => ?_⟩
  · rw [NDArray.WF]
    simp only [stack]
    rw [e, h1, List.prod_cons]
  · have h3 := h2 i.1 i.2 r hr
    simp only [stack]
    rw [e, List.getD_eq_getElem?_getD, h3, dif_pos i.2, List.getD_eq_getElem?_getD]

theorem index_split {n m k : Nat} (hk : k < n * m) : ∃ (i : Fin n) (r : Nat), r < m ∧ k = i.1 * m + r := by
  have hm : 0 < m := Nat.pos_of_ne_zero fun h => by subst h; simp at hk
  exact ⟨⟨k / m, Nat.div_lt_of_lt_mul (by rwa [Nat.mul_comm])⟩, k % m, Nat.mod_lt _ hm, by
    simp only
    rw [Nat.mul_comm]
    exact (Nat.div_add_mod k m).symm⟩

theorem gradArr0 {G : (Fin nq → ℝ) → ℝ} {D : Fin nq → ℝ} (h : HasGrad G D q₀) : GradArr (fun q => arr0 (G q)) (fun a => arr0 (D a)) [] q₀ := by
  refine ⟨Eventually.of_forall fun q => ⟨rfl, rfl⟩, fun a => ⟨rfl, rfl⟩, fun r hr => ?_⟩
  obtain rfl : r = 0 := by simpa using hr
  exact h

theorem gradArr1 {n : Nat} {G : (Fin nq → ℝ) → Fin n → ℝ} {D : Fin nq → Fin n → ℝ} (h : ∀ i, HasGrad (fun q => G q i) (fun a => D a i) q₀) :
    GradArr (fun q => arr1 (G q)) (fun a => arr1 (D a)) [n] q₀ := by
  refine ⟨Eventually.of_forall fun q => ⟨rfl, by simp [arr1, NDArray.WF]⟩, fun a => ⟨rfl, by simp [arr1, NDArray.WF]⟩, fun r hr => ?_⟩
  have hr : r < n := by simpa using hr
  have := h ⟨r, hr⟩
  refine (this.congr (Eventually.of_forall fun q => ?_)).congr_grad fun a => ?_
  · exact arr1_getD (G q) ⟨r, hr⟩
  · exact arr1_getD (D a) ⟨r, hr⟩

theorem arr2_getD {m n : Nat} (A : Matrix (Fin m) (Fin n) ℝ) (i : Fin m) (j : Fin n) : (arr2 A).data.getD (i.1 * n + j.1) 0 = A i j := by
  have hlt : i.1 * n + j.1 < m * n := mul_add_lt i.2 j.2
  simp only [arr2, List.getD_eq_getElem?_getD]
  rw [List.getElem?_ofFn, dif_pos hlt]
  simp only [Option.getD_some]
  congr 1
  · ext
    simp only [Fin.divNat]
    rw [Nat.add_comm, Nat.add_mul_div_right _ _ (by have := j.2; omega), Nat.div_eq_of_lt j.2, Nat.zero_add]
  · ext
    simp only [Fin.modNat]
    rw [Nat.add_comm, Nat.add_mul_mod_self_right, Nat.mod_eq_of_lt j.2]

theorem gradArr2 {m n : Nat} {G : (Fin nq → ℝ) → Matrix (Fin m) (Fin n) ℝ} {D : Fin nq → Matrix (Fin m) (Fin n) ℝ}
    (h : ∀ i j, HasGrad (fun q => G q i j) (fun a => D a i j) q₀) : GradArr (fun q => arr2 (G q)) (fun a => arr2 (D a)) [m, n] q₀ := by
  refine ⟨Eventually.of_forall fun q => ⟨rfl, by simp [arr2, NDArray.WF]⟩, fun a => ⟨rfl, by simp [arr2, NDArray.WF]⟩, fun r hr => ?_⟩
  obtain ⟨i, j, hj, rfl⟩ := index_split (n := m) (m := n) (k := r) (by simpa using hr)
  refine ((h i ⟨j, hj⟩).congr (Eventually.of_forall fun q => ?_)).congr_grad fun a => ?_
  · exact arr2_getD (G q) i ⟨j, hj⟩
  · exact arr2_getD (D a) i ⟨j, hj⟩

theorem gradArr_stack {n : Nat} {sh : List Nat} {G : (Fin nq → ℝ) → Fin n → NDArray ℝ} {D : Fin nq → Fin n → NDArray ℝ}
    (h : ∀ b, GradArr (fun q => G q b) (fun a => D a b) sh q₀) : GradArr (fun q => stack sh (G q)) (fun a => stack sh (D a)) (n :: sh) q₀ := by
  have hall : ∀ᶠ q in 𝓝 q₀, ∀ b, (G q b).shape = sh ∧ (G q b).WF := eventually_all.2 fun b => (h b).near
  refine ⟨hall.mono fun q hq => ⟨rfl, (stack_data hq).1⟩, fun a => ⟨rfl, (stack_data fun b => (h b).shape a).1⟩, fun r hr => ?_⟩
  obtain ⟨b, j, hj, rfl⟩ := index_split (n := n) (m := sh.prod) (k := r) (by simpa using hr)
  refine (((h b).grad j hj).congr (hall.mono fun q hq => ?_)).congr_grad fun a => ?_
  · exact (stack_data hq).2 b j hj
  · exact (stack_data fun b => (h b).shape a).2 b j hj

/-! ### Verdicts -/

theorem _root_.Ceacoest.Spec.GradArr.passes {F : (Fin nq → ℝ) → Py (NDArray ℝ)} {G : (Fin nq → ℝ) → NDArray ℝ} {D : Fin nq → NDArray ℝ} {sh : List Nat}
    (hG : GradArr G D sh q₀) (hn : 0 < nq) (hF : ∀ᶠ q in 𝓝 q₀, F q = .ok (G q)) {tol : ℝ} (ht : 0 < tol) :
    ForSmallSteps fun c => ∃ b, numDiff c F q₀ = .ok b ∧ assertDiff b (stack sh D) tol = .ok () := by
  have hη : 0 < tol / 2 := by positivity
  refine (numDiff_close hn hF hG hη).mono ?_
  rintro c ⟨b, h1, h2, h3, h4⟩
  refine ⟨some b, h1, ?_⟩
  have hs := stack_data hG.shape
  rcases assertClose_iff h3 hs.1 h2 (stack_shape sh D) tol with h | h
  · exact h.1
  · refine absurd (fun k hk => ?_) h.2
    obtain ⟨i, r, hr, rfl⟩ := index_split (n := nq) (m := sh.prod) (k := k) (by simpa using hk)
    have h5 := h4 i r hr
    rw [hs.2 i r hr]
    have h6 : 0 ≤ tol * |(D i).data.getD r 0| := by positivity
    linarith

theorem _root_.Ceacoest.Spec.GradArr.rejects {F : (Fin nq → ℝ) → Py (NDArray ℝ)} {G : (Fin nq → ℝ) → NDArray ℝ} {D : Fin nq → NDArray ℝ} {sh : List Nat}
    (hG : GradArr G D sh q₀) (hF : ∀ᶠ q in 𝓝 q₀, F q = .ok (G q)) {tol : ℝ} {A : Fin nq → NDArray ℝ} (hA : ∀ a, (A a).shape = sh ∧ (A a).WF)
    {i : Fin nq} {r : Nat} (hr : r < sh.prod) (hfar : tol * (1 + |(A i).data.getD r 0|) < |(D i).data.getD r 0 - (A i).data.getD r 0|) :
    ForSmallSteps fun c => ∃ b, numDiff c F q₀ = .ok b ∧ assertDiff b (stack sh A) tol = .error .assertionError := by
  have hn : 0 < nq := lt_of_le_of_lt (Nat.zero_le _) i.2
  refine (numDiff_close hn hF hG (sub_pos.2 hfar)).mono ?_
  rintro c ⟨b, h1, h2, h3, h4⟩
  refine ⟨some b, h1, ?_⟩
  have hs := stack_data hA
  rcases assertClose_iff h3 hs.1 h2 (stack_shape sh A) tol with h | h
  · exfalso
    have h5 := h.2 (i.1 * sh.prod + r) (by simpa using mul_add_lt i.2 hr)
    rw [hs.2 i r hr] at h5
    have h6 := h4 i r hr
    have h7 := abs_sub_le ((D i).data.getD r 0) (b.data.getD (i.1 * sh.prod + r) 0) ((A i).data.getD r 0)
    rw [abs_sub_comm ((D i).data.getD r 0) (b.data.getD (i.1 * sh.prod + r) 0)] at h7
    linarith
  · exact h.1

end Ceacoest.TestKalman
