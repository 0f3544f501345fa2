import Verif.Props.TestOptim
import Verif.Spec.Transcription
import Mathlib.Analysis.Calculus.ContDiff.Operations
import Mathlib.Analysis.Calculus.Deriv.Pi
import Mathlib.Analysis.Calculus.ContDiff.FTaylorSeries
import Mathlib.Analysis.SpecialFunctions.ExpDeriv
import Mathlib.Analysis.SpecialFunctions.Log.Deriv
import Mathlib.Analysis.SpecialFunctions.Trigonometric.Deriv

/-! # Smooth functions of lists of numbers -/

namespace Ceacoest
open Spec TestOptim
open scoped ContDiff

/-- `φ` is smooth on lists of length `n`. -/
def SmoothOn (n : Nat) (φ : List ℝ → ℝ) : Prop := ContDiff ℝ ∞ fun v : Fin n → ℝ => φ (List.ofFn v)

theorem Spec.Thrice.mono {F : ℝ → ℝ} {x h D M M' : ℝ} (hF : Thrice F x h D M) (hM : M ≤ M') : Thrice F x h D M' := by
  obtain ⟨F1, F2, F3, h1, h2⟩ := hF
  exact ⟨F1, F2, F3, h1, fun t ht => ⟨(h2 t ht).1, (h2 t ht).2.1, (h2 t ht).2.2.1, (h2 t ht).2.2.2.trans hM⟩⟩

theorem SmoothAround.mono {φ : List ℝ → ℝ} {n : Nat} {dec : List ℝ} {M M' : ℝ} (h : SmoothAround φ n dec M) (hM : M ≤ M') : SmoothAround φ n dec M' := fun i hi =>
  ⟨(h i hi).1.imp fun _ h => h.mono hM, fun j hj => ((h i hi).2 j hj).imp fun _ h => h.mono hM⟩

theorem thrice_of_smooth {F : ℝ → ℝ} (hF : ContDiff ℝ ∞ F) (x h : ℝ) : ∃ M D, Thrice F x h D M := by
  have h1 : ContDiff ℝ ∞ (deriv F) := hF.deriv' 
  have h2 : ContDiff ℝ ∞ (deriv (deriv F)) := h1.deriv'
  have h3 : ContDiff ℝ ∞ (deriv (deriv (deriv F))) := h2.deriv'
  obtain ⟨M, hM⟩ := (isCompact_Icc (a := x - h) (b := x + h)).exists_bound_of_continuousOn h3.continuous.continuousOn
  exact ⟨M, _, _, _, _, rfl, fun t ht => ⟨(hF.differentiable (by simp) t).hasDerivAt, (h1.differentiable (by simp) t).hasDerivAt,
    (h2.differentiable (by simp) t).hasDerivAt, hM t ht⟩⟩

theorem ofFn_getD {n : Nat} {l : List ℝ} (h : l.length = n) : l = List.ofFn fun k : Fin n => l.getD k 0 := by
  subst h
  refine List.ext_getElem (by simp) fun i h1 h2 => ?_
  simp [List.getD_eq_getElem?_getD, h1]

theorem ofFn_set {n : Nat} (v : Fin n → ℝ) (i : Fin n) (t : ℝ) : (List.ofFn v).set i t = List.ofFn (Function.update v i t) := by
  refine List.ext_getElem (by simp) fun k h1 h2 => ?_
  simp only [List.length_ofFn] at h2
  rw [List.getElem_set, List.getElem_ofFn, List.getElem_ofFn, Function.update_apply]
  by_cases h : i.val = k
  · rw [if_pos h, if_pos (Fin.ext h.symm)]
  · rw [if_neg h, if_neg fun e => h (by rw [← e])]

theorem update_smooth {n : Nat} (v : Fin n → ℝ) (i : Fin n) : ContDiff ℝ ∞ fun t : ℝ => Function.update v i t := by
  refine contDiff_pi.2 fun k => ?_
  by_cases h : k = i
  · subst h
    simp only [Function.update_self]
    exact contDiff_id
  · simpa [Function.update_of_ne h] using contDiff_const

theorem ofFn_getD_eq {n : Nat} (v : Fin n → ℝ) (i : Fin n) : (List.ofFn v).getD i 0 = v i := by
  simp [List.getD_eq_getElem?_getD]

theorem SmoothOn.around {n : Nat} {φ : List ℝ → ℝ} (h : SmoothOn n φ) {dec : List ℝ} (hdec : dec.length = n) : ∃ M, SmoothAround φ n dec M := by
  obtain ⟨v, rfl⟩ : ∃ v : Fin n → ℝ, dec = List.ofFn v := ⟨_, ofFn_getD hdec⟩
  have h1 : ∀ i : Fin n, ∃ M, ∃ D, Thrice (fun t => φ ((List.ofFn v).set i t)) ((List.ofFn v).getD i 0) (step (List.ofFn v) i) D M := fun i => by
    simp only [ofFn_set]
    exact thrice_of_smooth (h.comp (update_smooth v i)) _ _
  have hpd : ∀ (j : Fin n) (w : Fin n → ℝ), pdAt φ j (List.ofFn w) = fderiv ℝ (fun v : Fin n → ℝ => φ (List.ofFn v)) w (Pi.single j 1) := fun j w => by
    unfold pdAt
    simp only [ofFn_set, ofFn_getD_eq]
    have hd : HasDerivAt (fun t : ℝ => Function.update w j t) (Pi.single j 1) (w j) := hasDerivAt_update w j (w j)
    have h0 : HasFDerivAt (fun v : Fin n → ℝ => φ (List.ofFn v)) (fderiv ℝ (fun v : Fin n → ℝ => φ (List.ofFn v)) w) (Function.update w j (w j)) := by
      rw [Function.update_eq_self]
      exact (h.differentiable (by simp) w).hasFDerivAt
    exact (h0.comp_hasDerivAt (w j) hd).deriv
  have h2 : ∀ i j : Fin n, ∃ M, ∃ D, Thrice (fun t => pdAt φ j ((List.ofFn v).set i t)) ((List.ofFn v).getD i 0) (step (List.ofFn v) i) D M := fun i j => by
    simp only [ofFn_set, hpd]
    exact thrice_of_smooth (((h.fderiv_right (m := ∞) (by simp)).clm_apply contDiff_const).comp (update_smooth v i)) _ _
  choose A hA using h1
  choose B hB using h2
  have hle : ∀ i : Fin n, A i ≤ ∑ i, |A i| + ∑ i, ∑ j, |B i j| := fun i => by
    have := Finset.single_le_sum (f := fun i => |A i|) (fun i _ => abs_nonneg _) (Finset.mem_univ i)
    have h' : 0 ≤ ∑ i, ∑ j, |B i j| := Finset.sum_nonneg fun i _ => Finset.sum_nonneg fun j _ => abs_nonneg _
    linarith [le_abs_self (A i)]
  have hle' : ∀ i j : Fin n, B i j ≤ ∑ i, |A i| + ∑ i, ∑ j, |B i j| := fun i j => by
    have := Finset.single_le_sum (f := fun j => |B i j|) (fun i _ => abs_nonneg _) (Finset.mem_univ j)
    have h1 := Finset.single_le_sum (f := fun i => ∑ j, |B i j|) (fun i _ => Finset.sum_nonneg fun j _ => abs_nonneg _) (Finset.mem_univ i)
    have h' : 0 ≤ ∑ i, |A i| := Finset.sum_nonneg fun i _ => abs_nonneg _
    linarith [le_abs_self (B i j)]
  exact ⟨_, fun i hi => ⟨(hA ⟨i, hi⟩).imp fun _ h => h.mono (hle _), fun j hj => (hB ⟨i, hi⟩ ⟨j, hj⟩).imp fun _ h => h.mono (hle' _ _)⟩⟩

/-- The same for finitely many functions. -/
theorem SmoothOn.around_all {n m : Nat} {φ : Nat → List ℝ → ℝ} (h : ∀ q < m, SmoothOn n (φ q)) {dec : List ℝ} (hdec : dec.length = n) :
    ∃ M, ∀ q < m, SmoothAround (φ q) n dec M := by
  induction m with
  | zero => exact ⟨0, fun q hq => absurd hq (by omega)⟩
  | succ m ih =>
    obtain ⟨M, hM⟩ := ih fun q hq => h q (by omega)
    obtain ⟨M', hM'⟩ := (h m (by omega)).around hdec
    refine ⟨max M M', fun q hq => ?_⟩
    rcases Nat.lt_succ_iff_lt_or_eq.1 hq with h' | rfl
    · exact (hM q h').mono (le_max_left _ _)
    · exact hM'.mono (le_max_right _ _)

/-! ### Entries, rows and lists of them -/

theorem entry_smooth {n : Nat} (k : Nat) : SmoothOn n fun d => d.getD k 0 := by
  unfold SmoothOn
  by_cases h : k < n
  · have : (fun v : Fin n → ℝ => (List.ofFn v).getD k 0) = fun v => v ⟨k, h⟩ := funext fun v => ofFn_getD_eq v ⟨k, h⟩
    rw [this]
    exact contDiff_apply ℝ ℝ _
  · have : (fun v : Fin n → ℝ => (List.ofFn v).getD k 0) = fun _ => 0 := funext fun v => by
      rw [List.getD_eq_getElem?_getD, List.getElem?_eq_none (by simpa using h)]
      rfl
    rw [this]
    exact contDiff_const

/-- A list of constant length, all entries of which are smooth. -/
structure SmoothRow (n m : Nat) (L : List ℝ → List ℝ) : Prop where
  length : ∀ d, (L d).length = m
  smooth : ∀ q, SmoothOn n fun d => (L d).getD q 0

theorem SmoothRow.nil {n : Nat} : SmoothRow n 0 fun _ => [] := ⟨fun _ => rfl, fun q => by simpa [SmoothOn] using contDiff_const⟩

theorem SmoothRow.cons {n m : Nat} {φ : List ℝ → ℝ} {L : List ℝ → List ℝ} (hφ : SmoothOn n φ) (hL : SmoothRow n m L) : SmoothRow n (m + 1) fun d => φ d :: L d :=
  ⟨fun d => by rw [List.length_cons, hL.length], fun q => by
    cases q with
    | zero => simpa using hφ
    | succ q => simpa using hL.smooth q⟩

theorem SmoothRow.append {n m m' : Nat} {L L' : List ℝ → List ℝ} (h : SmoothRow n m L) (h' : SmoothRow n m' L') : SmoothRow n (m + m') fun d => L d ++ L' d :=
  ⟨fun d => by rw [List.length_append, h.length, h'.length], fun q => by
    by_cases hq : q < m
    · have : (fun d => (L d ++ L' d).getD q 0) = fun d => (L d).getD q 0 := funext fun d => by
        rw [List.getD_eq_getElem?_getD, List.getElem?_append_left (by rw [h.length]; exact hq), List.getD_eq_getElem?_getD]
      rw [this]
      exact h.smooth q
    · have : (fun d => (L d ++ L' d).getD q 0) = fun d => (L' d).getD (q - m) 0 := funext fun d => by
        rw [List.getD_eq_getElem?_getD, List.getElem?_append_right (by rw [h.length]; omega), h.length, List.getD_eq_getElem?_getD]
      rw [this]
      exact h'.smooth _⟩

theorem SmoothRow.flatMap {n m : Nat} {g : Nat → List ℝ → List ℝ} (p : Nat) (h : ∀ k, SmoothRow n m (g k)) : SmoothRow n (p * m) fun d => (List.range p).flatMap fun k => g k d := by
  induction p with
  | zero => simpa using SmoothRow.nil
  | succ p ih =>
    have := ih.append (h p)
    simp only [List.range_succ, List.flatMap_append, List.flatMap_cons, List.flatMap_nil, List.append_nil, Nat.succ_mul]
    exact this

theorem SmoothRow.map {n : Nat} {g : Nat → List ℝ → ℝ} (p : Nat) (h : ∀ k, SmoothOn n (g k)) : SmoothRow n p fun d => (List.range p).map fun k => g k d := by
  have h1 := SmoothRow.flatMap (n := n) (m := 1) (g := fun k d => [g k d]) p fun k => SmoothRow.cons (h k) SmoothRow.nil
  simp only [Nat.mul_one] at h1
  have : (fun d => (List.range p).map fun k => g k d) = fun d => (List.range p).flatMap fun k => [g k d] := funext fun d => (List.flatMap_pure_eq_map _ _).symm
  rw [this]
  exact h1

theorem rowAt_smooth {n : Nat} (off c r : Nat) : SmoothRow n c fun d => rowAt d off c r := SmoothRow.map c fun j => entry_smooth (off + (r * c + j))

/-- The defects are smooth where the right hand side is. -/
theorem defects_smooth {n nx : Nat} (J : List (List ℝ)) {rhs x : List ℝ → Nat → List ℝ} (hr : ∀ r j, SmoothOn n fun d => (rhs d r).getD j 0)
    (hx : ∀ r j, SmoothOn n fun d => (x d r).getD j 0) (N s : Nat) (len : ℝ) : SmoothRow n (N * nx) fun d => defects J (rhs d) (x d) N nx s len :=
  SmoothRow.flatMap N fun k => SmoothRow.map nx fun j =>
    ContDiff.sub (ContDiff.sub (hx _ j) (hx _ j)) (ContDiff.mul (ContDiff.sum fun l _ => ContDiff.mul contDiff_const (hr _ j)) contDiff_const)

end Ceacoest
