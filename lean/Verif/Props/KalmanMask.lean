import Verif.Lemmas.KalmanReindex
import Verif.Props.KalmanSteps

/-! # C35: partially masked measurements -/

namespace Ceacoest
open Matrix Spec
variable {nx : Nat} {o o' p : Type} [Fintype o] [LinearOrder o] [Fintype o'] [LinearOrder o']

/-- The active outputs are the outputs of the reduced model, in the same order. -/
noncomputable def activeIso (y : MaskedRow o) (φ : o' ↪o o) (hφ : ∀ j, y.mask j = false ↔ j ∈ Set.range φ) (z : o' → ℝ) :
    (MaskedRow.full z).Active ≃o y.Active :=
  RelIso.ofSurjective
    (OrderEmbedding.ofMapLEIff (fun j : (MaskedRow.full z).Active => (⟨φ j.1, (hφ _).2 ⟨j.1, rfl⟩⟩ : y.Active)) fun a b => φ.le_iff_le)
    fun j => by
      obtain ⟨i, hi⟩ := (hφ j.1).1 j.2
      exact ⟨⟨i, rfl⟩, Subtype.ext hi⟩

theorem activeIso_val (y : MaskedRow o) (φ : o' ↪o o) (hφ : ∀ j, y.mask j = false ↔ j ∈ Set.range φ) (z : o' → ℝ)
    (j : (MaskedRow.full z).Active) : (activeIso y φ hφ z j).1 = φ j.1 := rfl

theorem full_masked_iff (y : MaskedRow o) (φ : o' ↪o o) (hφ : ∀ j, y.mask j = false ↔ j ∈ Set.range φ) (z : o' → ℝ) :
    (∀ j, (MaskedRow.full z).mask j = true) ↔ ∀ j, y.mask j = true := by
  constructor
  · intro h j
    cases hm : y.mask j with
    | true => rfl
    | false =>
      obtain ⟨i, -⟩ := (hφ j).1 hm
      exact absurd (h i) Bool.false_ne_true
  · intro h j
    have h1 := h (φ j)
    rw [(hφ (φ j)).2 ⟨j, rfl⟩] at h1
    exact absurd h1 Bool.false_ne_true

/-- **C35.** When the outputs `φ j` are the ones that are not masked, a correction of the extended filter gives the same moments and the same
attributes, or raises the same exception, as a correction without mask with the model that has only these outputs. -/
theorem C35_ekf (model : KModel nx o p) (y : MaskedRow o) (φ : o' ↪o o) (hφ : ∀ j, y.mask j = false ↔ j ∈ Set.range φ)
    (s : EKF nx o p) (s₂ : EKF nx o' p) (hs : s₂.toFilterAttrs = s.toFilterAttrs) :
    (EKF.correct model y s >>= fun r => .ok (r.1, r.2.toFilterAttrs)) =
      (EKF.correct (model.outputs φ) (.full fun j => y.data (φ j)) s₂ >>= fun r => .ok (r.1, r.2.toFilterAttrs)) := by
  obtain ⟨att, P₂, last₂⟩ := s₂
  cases hs
  by_cases hy : ∀ j, y.mask j = true
  · rw [ekf_correct_masked model hy, ekf_correct_masked _ ((full_masked_iff y φ hφ _).2 hy)]
    rfl
  · rw [ekf_correct_active model hy, ekf_correct_active _ (fun h => hy ((full_masked_iff y φ hφ _).1 h))]
    have hr := ekf_core_reindex (activeIso y φ hφ fun j => y.data (φ j)) s.x s.Px (fun j : y.Active => y.data j.1) (fun j => model.h s.k s.x j.1)
      (activeH y (model.dh_dx s.k s.x)) (activeR y model.R)
    refine Eq.trans ?_ (congrArg (fun c => (c >>= fun r => Except.ok (r.1, (⟨{ s.toFilterAttrs with x := r.1.1, Px := r.1.2 }, P₂, .data _ r.2⟩ : EKF nx o' p))) >>= fun r =>
      Except.ok (r.1, r.2.toFilterAttrs)) hr.symm)
    simp only [py_bind_assoc, py_bind_ok]

/-- The same for the unscented filter, and for the likelihood update after the correction. -/
theorem C35_ukf {ns' : Nat} (cut : UT nx) (model : KModel nx o p) (y : MaskedRow o) (φ : o' ↪o o) (hφ : ∀ j, y.mask j = false ↔ j ∈ Set.range φ)
    (s : UKF nx cut.nsigma ns' o p) (s₂ : UKF nx cut.nsigma ns' o' p) (hs : s₂.toFilterAttrs = s.toFilterAttrs) :
    (UKF.correct cut model y s >>= fun r => .ok (r.1, r.2.toFilterAttrs)) =
      (UKF.correct cut (model.outputs φ) (.full fun j => y.data (φ j)) s₂ >>= fun r => .ok (r.1, r.2.toFilterAttrs)) ∧
    (UKF.correct cut model y s >>= fun r => UKF.updateLikelihood r.2 >>= fun s' => .ok (r.1, s'.toFilterAttrs)) =
      (UKF.correct cut (model.outputs φ) (.full fun j => y.data (φ j)) s₂ >>= fun r => UKF.updateLikelihood r.2 >>= fun s' =>
        .ok (r.1, s'.toFilterAttrs)) := by
  obtain ⟨att, P₂, last₂⟩ := s₂
  cases hs
  by_cases hy : ∀ j, y.mask j = true
  · rw [ukf_correct_masked model hy, ukf_correct_masked _ ((full_masked_iff y φ hφ _).2 hy)]
    exact ⟨rfl, rfl⟩
  · rw [ukf_correct_active model hy, ukf_correct_active _ (fun h => hy ((full_masked_iff y φ hφ _).1 h))]
    have hr := ukf_core_reindex (p := p) cut (activeIso y φ hφ fun j => y.data (φ j)) s.x s.Px (fun j : y.Active => y.data j.1)
      (fun x j => model.h s.k x j.1) (activeR y model.R)
    constructor
    · refine Eq.trans ?_ (congrArg (fun c => (c >>= fun r => Except.ok (r.1, (⟨{ s.toFilterAttrs with x := r.1.1, Px := r.1.2 }, P₂, .data _ r.2⟩ : UKF nx cut.nsigma ns' o' p))) >>= fun r =>
        Except.ok (r.1, r.2.toFilterAttrs)) hr.symm)
      simp only [py_bind_assoc, py_bind_ok]
    · refine Eq.trans ?_ (congrArg (fun c => (c >>= fun r => Except.ok (r.1, (⟨{ s.toFilterAttrs with x := r.1.1, Px := r.1.2 }, P₂, .data _ r.2⟩ : UKF nx cut.nsigma ns' o' p))) >>= fun r =>
        UKF.updateLikelihood r.2 >>= fun s' => Except.ok (r.1, s'.toFilterAttrs)) hr.symm)
      simp only [py_bind_assoc, py_bind_ok, UKF.updateLikelihood]
      refine py_bind_congr fun r _ => ?_
      refine congrArg Except.ok (Prod.ext rfl ?_)
      dsimp only
      congr 1
      have e := activeIso y φ hφ fun j => y.data (φ j)
      simp only [UCorr.rename, submatrix_apply]
      congr 1
      · congr 2
        rw [← sum_reindex (activeIso y φ hφ fun j => y.data (φ j))]
        exact Finset.sum_congr rfl fun i _ => (sum_reindex (activeIso y φ hφ fun j => y.data (φ j)) _).symm
      · exact (sum_reindex (activeIso y φ hφ fun j => y.data (φ j)) fun k => Real.log (r.2.PyC k k)).symm

/-- The numbers in masked entries are irrelevant. -/
theorem C35_masked_numbers {ns' : Nat} (cut : UT nx) (model : KModel nx o p) (y y₂ : MaskedRow o) (hm : y₂.mask = y.mask)
    (hd : ∀ j, y.mask j = false → y₂.data j = y.data j) (s : EKF nx o p) (u : UKF nx cut.nsigma ns' o p) :
    (EKF.correct model y s >>= fun r => .ok (r.1, r.2.toFilterAttrs)) = (EKF.correct model y₂ s >>= fun r => .ok (r.1, r.2.toFilterAttrs)) ∧
    (UKF.correct cut model y u >>= fun r => .ok (r.1, r.2.toFilterAttrs)) = (UKF.correct cut model y₂ u >>= fun r => .ok (r.1, r.2.toFilterAttrs)) := by
  let φ : y.Active ↪o o := OrderEmbedding.subtype _
  have h1 : ∀ j, y.mask j = false ↔ j ∈ Set.range φ := fun j => ⟨fun h => ⟨⟨j, h⟩, rfl⟩, fun ⟨i, hi⟩ => hi ▸ i.2⟩
  have h2 : ∀ j, y₂.mask j = false ↔ j ∈ Set.range φ := by rw [hm]; exact h1
  have e : (fun j => y₂.data (φ j)) = fun j => y.data (φ j) := funext fun j => hd j.1 j.2
  let s₂ : EKF nx y.Active p := { s.toFilterAttrs with }
  let u₂ : UKF nx cut.nsigma ns' y.Active p := { u.toFilterAttrs with }
  constructor
  · rw [C35_ekf model y φ h1 s s₂ rfl, C35_ekf model y₂ φ h2 s s₂ rfl, e]
  · rw [(C35_ukf cut model y φ h1 u u₂ rfl).1, (C35_ukf cut model y₂ φ h2 u u₂ rfl).1, e]

/-- With one of the two outputs of the demonstration model masked. -/
example : ∃ φ : Fin 1 ↪o Fin 2, (∀ j, Demo.half.mask j = false ↔ j ∈ Set.range φ) ∧
    (EKF.correct (Demo.model 2) Demo.half Demo.ekf >>= fun r => .ok (r.1, r.2.toFilterAttrs)) =
      (EKF.correct ((Demo.model 2).outputs φ) (.full fun j => Demo.half.data (φ j)) { Demo.attrs with } >>= fun r => .ok (r.1, r.2.toFilterAttrs)) := by
  let φ : Fin 1 ↪o Fin 2 := Fin.castLEOrderEmb (by norm_num)
  have h : ∀ j, Demo.half.mask j = false ↔ j ∈ Set.range φ := by
    intro j
    fin_cases j
    · exact ⟨fun _ => ⟨0, rfl⟩, fun _ => rfl⟩
    · constructor
      · intro h; simp [Demo.half] at h
      · rintro ⟨i, hi⟩
        have := congrArg Fin.val hi
        have hi' := i.2
        simp [φ] at this
  exact ⟨φ, h, C35_ekf (Demo.model 2) Demo.half φ h Demo.ekf { Demo.attrs with } rfl⟩

end Ceacoest
