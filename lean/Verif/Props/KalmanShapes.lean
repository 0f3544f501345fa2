import Verif.Model.KalmanShapes
import Verif.Props.KalmanLoops

/-! # C118: the shapes of measurements that filters accept -/

namespace Ceacoest
open Matrix MArray
variable {nx ny : Nat} {p : Type}

theorem allMasked_iff {y : MArray} : y.allMasked = true ↔ ∀ e ∈ y.data, e.2 = true := by
  unfold MArray.allMasked
  exact List.all_eq_true

theorem toRow_masked {y : MArray} (hl : y.data.length = ny) : y.allMasked = true ↔ ∀ j, (y.toRow ny).mask j = true := by
  rw [allMasked_iff]
  unfold MArray.toRow
  constructor
  · intro h j
    have hj : j.1 < y.data.length := hl ▸ j.2
    show (y.data.getD j (0, true)).2 = true
    rw [List.getD_eq_getElem?_getD, List.getElem?_eq_getElem hj]
    exact h _ (List.getElem_mem hj)
  · intro h e he
    obtain ⟨k, hk, rfl⟩ := List.getElem_of_mem he
    have := h ⟨k, hl ▸ hk⟩
    dsimp only at this
    rwa [List.getD_eq_getElem?_getD, List.getElem?_eq_getElem hk] at this

theorem drop_fits {y : MArray} (hl : y.data.length = ny) (hs : y.shape = [ny]) : ixCheck ny y = .ok () ∧ boolCheck ny y = .ok () := by
  unfold ixCheck boolCheck
  rw [hs, List.drop_of_length_le hl.le]
  exact ⟨rfl, if_pos rfl⟩

/-- **C118** (extended filter). A measurement that is masked as a whole changes nothing, whatever its shape. Any other must be a vector with an entry for each output, and is then corrected as a
row; if it has not one axis, `correct` raises ValueError, and if it has the wrong length, IndexError. -/
theorem C118_ekf (model : KModel nx (Fin ny) p) (y : MArray) (hy : y.data.length = y.shape.prod) (s : EKF nx (Fin ny) p) :
    ((∀ e ∈ y.data, e.2 = true) → ∃ s', EKF.correctArr model y s = .ok ((s.x, s.Px), s') ∧ s'.x = s.x ∧ s'.Px = s.Px ∧ s'.k = s.k) ∧
    ((∃ e ∈ y.data, e.2 = false) → y.shape ≠ [ny] → EKF.correctArr model y s = .error (if y.shape.length = 1 then .indexError else .valueError)) ∧
    ∀ r : MaskedRow (Fin ny), y.shape = [ny] → (∀ j : Fin ny, y.data[j.1]? = some (r.data j, r.mask j)) → EKF.correctArr model y s = EKF.correct model r s := by
  unfold EKF.correctArr
  refine ⟨fun h => ⟨{ s with last := .masked }, ?_, rfl, rfl, rfl⟩, fun ⟨e, he, h⟩ hs => ?_, fun r hs hr => ?_⟩
  · rw [if_pos (allMasked_iff.2 h)]
    rfl
  · rw [if_neg (fun h' => by rw [allMasked_iff.1 h' e he] at h; cases h)]
    obtain ⟨shape, data⟩ := y
    dsimp only at hs
    match shape with
    | [] => rfl
    | [n] =>
      have hb : boolCheck ny ⟨[n], data⟩ = .error .indexError := if_neg hs
      have hi : ixCheck ny ⟨[n], data⟩ = if (data.drop ny).all Prod.snd then .ok () else .error .indexError := rfl
      rw [hb, hi]
      split <;> rfl
    | _ :: _ :: _ => rfl
  · have hl : y.data.length = ny := by rw [hy, hs]; simp
    have e : y.toRow ny = r := by
      unfold MArray.toRow
      have : ∀ j : Fin ny, y.data.getD j (0, true) = (r.data j, r.mask j) := fun j => by rw [List.getD_eq_getElem?_getD, hr j]; rfl
      simp only [this]
    by_cases hm : y.allMasked = true
    · rw [if_pos hm]
      have := (toRow_masked hl).1 hm
      rw [e] at this
      unfold EKF.correct
      rw [if_pos this]
      rfl
    · rw [if_neg hm, (drop_fits hl hs).1, (drop_fits hl hs).2, e]
      rfl

/-- **C118** (unscented filter). The same; but with the wrong length and a covariance that has no root, the root raises first. -/
theorem C118_ukf {ns' : Nat} (cut : UT nx) (model : KModel nx (Fin ny) p) (y : MArray) (hy : y.data.length = y.shape.prod) (s : UKF nx cut.nsigma ns' (Fin ny) p) :
    ((∀ e ∈ y.data, e.2 = true) → ∃ s', UKF.correctArr cut model y s = .ok ((s.x, s.Px), s') ∧ s'.x = s.x ∧ s'.Px = s.Px ∧ s'.k = s.k) ∧
    ((∃ e ∈ y.data, e.2 = false) → y.shape ≠ [ny] → (y.shape.length ≠ 1 → UKF.correctArr cut model y s = .error .valueError) ∧
      ((∃ r, cut.sigmaPoints s.x s.Px = .ok r) → y.shape.length = 1 → UKF.correctArr cut model y s = .error .indexError) ∧ ∀ r, UKF.correctArr cut model y s ≠ .ok r) ∧
    ∀ r : MaskedRow (Fin ny), y.shape = [ny] → (∀ j : Fin ny, y.data[j.1]? = some (r.data j, r.mask j)) → UKF.correctArr cut model y s = UKF.correct cut model r s := by
  unfold UKF.correctArr
  refine ⟨fun h => ⟨{ s with last := .masked }, ?_, rfl, rfl, rfl⟩, fun ⟨e, he, h⟩ hs => ?_, fun r hs hr => ?_⟩
  · rw [if_pos (allMasked_iff.2 h)]
    rfl
  · rw [if_neg (fun h' => by rw [allMasked_iff.1 h' e he] at h; cases h)]
    obtain ⟨shape, data⟩ := y
    dsimp only at hs
    match shape with
    | [] => exact ⟨fun _ => rfl, fun _ h => by simp at h, fun r h => by cases h⟩
    | [n] =>
      have hb : boolCheck ny ⟨[n], data⟩ = .error .indexError := if_neg hs
      have hi : ixCheck ny ⟨[n], data⟩ = if (data.drop ny).all Prod.snd then .ok () else .error .indexError := rfl
      rw [hb, hi]
      refine ⟨fun h => by simp at h, fun ⟨r, h⟩ _ => ?_, fun r h => ?_⟩
      · rw [h]
        split <;> rfl
      · split at h
        · obtain ⟨_, -, h⟩ := py_bind_eq_ok h
          obtain ⟨_, -, h⟩ := py_bind_eq_ok h
          cases h
        · cases h
    | _ :: _ :: _ => exact ⟨fun _ => rfl, fun _ h => by simp at h, fun r h => by cases h⟩
  · have hl : y.data.length = ny := by rw [hy, hs]; simp
    have e : y.toRow ny = r := by
      unfold MArray.toRow
      have : ∀ j : Fin ny, y.data.getD j (0, true) = (r.data j, r.mask j) := fun j => by rw [List.getD_eq_getElem?_getD, hr j]; rfl
      simp only [this]
    have hm := toRow_masked hl
    rw [e] at hm
    by_cases h : y.allMasked = true
    · rw [if_pos h]
      unfold UKF.correct
      rw [if_pos (hm.1 h)]
      rfl
    · rw [if_neg h, (drop_fits hl hs).1, (drop_fits hl hs).2, e]
      show (cut.sigmaPoints s.x s.Px >>= fun _ => UKF.correct cut model r s) = _
      cases hp : cut.sigmaPoints s.x s.Px with
      | ok v => rfl
      | error v =>
        rw [py_bind_error]
        unfold UKF.correct UKF.core UT.transform
        rw [if_neg (fun h' => h (hm.2 h')), hp]
        rfl

/-! ### Whole series -/

section
variable {Y Y' σ : Type} (F : FilterClass nx Y p σ)

/-- Measurements of one class that are corrected as those of another. -/
theorem onArrays_runs {c : Y' → σ → Py (Moments nx × σ)} {y : List Y'} {y' : List Y} (h : List.Forall₂ (fun r r' => c r = F.correct r') y y') :
    (F.onArrays c).filter y = F.filter y' ∧ (F.onArrays c).smooth y = F.smooth y' ∧ (F.onArrays c).pemMerit y = F.pemMerit y' ∧ (F.onArrays c).pemGradient y = F.pemGradient y' ∧
      (F.onArrays c).pemHessian y = F.pemHessian y' := by
  have hl := h.length_eq
  have hr : ∀ k, (FilterClass.row y k = .error .indexError ∧ FilterClass.row y' k = .error .indexError) ∨
      ∃ r r', FilterClass.row y k = .ok r ∧ FilterClass.row y' k = .ok r' ∧ (F.onArrays c).correct r = F.correct r' := fun k => by
    unfold FilterClass.row
    by_cases hk : k < y.length
    · refine Or.inr ⟨y[k], y'[k]'(hl ▸ hk), ?_, ?_, (List.forall₂_iff_get.1 h).2 k hk (hl ▸ hk)⟩
      · rw [List.getElem?_eq_getElem hk]
      · rw [List.getElem?_eq_getElem (hl ▸ hk)]
    · refine Or.inl ⟨?_, ?_⟩
      · rw [List.getElem?_eq_none (by omega)]
      · rw [List.getElem?_eq_none (by omega)]
  have e1 : (F.onArrays c).filterStep y = F.filterStep y' := by
    funext acc k
    unfold FilterClass.filterStep
    rw [hl]
    rcases hr k with ⟨a, b⟩ | ⟨r, r', a, b, d⟩ <;> simp only [a, b, py_bind_ok, *] <;> rfl
  have e2 : (F.onArrays c).smoothForward y = F.smoothForward y' := by
    funext acc k
    unfold FilterClass.smoothForward
    rw [hl]
    rcases hr k with ⟨a, b⟩ | ⟨r, r', a, b, d⟩ <;> simp only [a, b, py_bind_ok, *] <;> rfl
  have e3 : (F.onArrays c).meritStep y = F.meritStep y' := by
    funext acc k
    unfold FilterClass.meritStep
    rw [hl]
    rcases hr k with ⟨a, b⟩ | ⟨r, r', a, b, d⟩ <;> simp only [a, b, py_bind_ok, *] <;> rfl
  have e4 : (F.onArrays c).gradientStep y = F.gradientStep y' := by
    funext acc k
    unfold FilterClass.gradientStep
    rw [hl]
    rcases hr k with ⟨a, b⟩ | ⟨r, r', a, b, d⟩ <;> simp only [a, b, py_bind_ok, *] <;> rfl
  have e5 : (F.onArrays c).hessianStep y = F.hessianStep y' := by
    funext acc k
    unfold FilterClass.hessianStep
    rw [hl]
    rcases hr k with ⟨a, b⟩ | ⟨r, r', a, b, d⟩ <;> simp only [a, b, py_bind_ok, *] <;> rfl
  refine ⟨?_, ?_, ?_, ?_, ?_⟩ <;> funext s
  · unfold FilterClass.filter; rw [e1, hl]
  · unfold FilterClass.smooth; rw [e2, hl]; rfl
  · unfold FilterClass.pemMerit; rw [e3, hl]; rfl
  · unfold FilterClass.pemGradient; rw [e4, hl]; rfl
  · unfold FilterClass.pemHessian; rw [e5, hl]; rfl

/-- A loop that returns has gone through all its passes. -/
theorem foldlM_passes {α β : Type} {f : β → α → Py β} {l : List α} {b b' : β} (h : l.foldlM f b = .ok b') {a : α} (ha : a ∈ l) : ∃ c c', f c a = .ok c' := by
  induction l generalizing b with
  | nil => cases ha
  | cons x l ih =>
    rw [List.foldlM_cons] at h
    obtain ⟨c, h1, h2⟩ := py_bind_eq_ok h
    rcases List.mem_cons.1 ha with rfl | ha
    · exact ⟨b, c, h1⟩
    · exact ih h2 ha

/-- A method that returns has corrected with every row. -/
theorem runs_correct {y : List Y} {s : σ} (h : (∃ r, F.filter y s = .ok r) ∨ (∃ r, F.smooth y s = .ok r) ∨ (∃ r, F.pemMerit y s = .ok r) ∨ (∃ r, F.pemGradient y s = .ok r) ∨
    ∃ r, F.pemHessian y s = .ok r) : ∀ r ∈ y, ∃ t v, F.correct r t = .ok v := by
  intro r hr
  obtain ⟨k, hk, rfl⟩ := List.getElem_of_mem hr
  have hmem : k ∈ List.range y.length := List.mem_range.2 hk
  have hrow : FilterClass.row y k = .ok y[k] := by unfold FilterClass.row; rw [List.getElem?_eq_getElem hk]
  rcases h with ⟨r, h⟩ | ⟨r, h⟩ | ⟨r, h⟩ | ⟨r, h⟩ | ⟨r, h⟩
  · obtain ⟨⟨out, t⟩, c', h⟩ := foldlM_passes h hmem
    unfold FilterClass.filterStep at h
    dsimp only at h
    rw [hrow, py_bind_ok] at h
    obtain ⟨v, h, -⟩ := py_bind_eq_ok h
    exact ⟨t, v, h⟩
  · unfold FilterClass.smooth at h
    dsimp only at h
    rw [if_neg (by omega)] at h
    obtain ⟨v, h, -⟩ := py_bind_eq_ok h
    obtain ⟨⟨out, t⟩, c', h⟩ := foldlM_passes h hmem
    unfold FilterClass.smoothForward at h
    dsimp only at h
    rw [hrow, py_bind_ok] at h
    obtain ⟨v, h, -⟩ := py_bind_eq_ok h
    exact ⟨t, v, h⟩
  · obtain ⟨v, h, -⟩ := py_bind_eq_ok h
    obtain ⟨t, c', h⟩ := foldlM_passes h hmem
    unfold FilterClass.meritStep at h
    rw [hrow, py_bind_ok] at h
    obtain ⟨v, h, -⟩ := py_bind_eq_ok h
    exact ⟨t, v, h⟩
  · obtain ⟨v, h, -⟩ := py_bind_eq_ok h
    obtain ⟨t, c', h⟩ := foldlM_passes h hmem
    unfold FilterClass.gradientStep at h
    rw [hrow, py_bind_ok] at h
    obtain ⟨v, h, -⟩ := py_bind_eq_ok h
    exact ⟨t, v, h⟩
  · obtain ⟨v, h, -⟩ := py_bind_eq_ok h
    obtain ⟨t, c', h⟩ := foldlM_passes h hmem
    unfold FilterClass.hessianStep at h
    rw [hrow, py_bind_ok] at h
    obtain ⟨v, h, -⟩ := py_bind_eq_ok h
    exact ⟨t, v, h⟩

end

/-- The rows of an array. -/
theorem rows_cons {y : MArray} {n : Nat} {t : List Nat} (hs : y.shape = n :: t) : y.rows = .ok ((List.range n).map fun k => ⟨t, (y.data.drop (k * t.prod)).take t.prod⟩) := by
  unfold MArray.rows
  rw [hs]

/-- Each row has all the entries of its shape. -/
theorem marray_row_length {y : MArray} {n : Nat} {t : List Nat} (hs : y.shape = n :: t) (hy : y.data.length = y.shape.prod) {k : Nat} (hk : k < n) :
    ((y.data.drop (k * t.prod)).take t.prod).length = t.prod := by
  rw [List.length_take, List.length_drop, hy, hs, List.prod_cons]
  have : (k + 1) * t.prod ≤ n * t.prod := Nat.mul_le_mul_right _ hk
  rw [Nat.add_mul, Nat.one_mul] at this
  omega

/-- An entry of a row. -/
theorem marray_row_entry {y : MArray} {n m : Nat} (hs : y.shape = [n, m]) (hy : y.data.length = y.shape.prod) {k j : Nat} (hk : k < n) (hj : j < m) :
    ((y.data.drop (k * m)).take m)[j]? = y.data[k * m + j]? := by
  rw [List.getElem?_take_of_lt hj, List.getElem?_drop]

/-- **C118** (series). A series of measurements with a row for each time and a column for each output gives, in each of the five methods, what its rows give. -/
theorem C118_runs (put cut : UT nx) (model : KModel nx (Fin ny) p) (y : MArray) (N : Nat) (hs : y.shape = [N, ny]) (hy : y.data.length = y.shape.prod)
    (r : List (MaskedRow (Fin ny))) (hN : r.length = N) (hr : ∀ k (hk : k < r.length) (j : Fin ny), y.data[k * ny + j.1]? = some (r[k].data j, r[k].mask j)) :
    (∀ s, y.run (EKF.arrCls model).filter s = (EKF.cls model).filter r s ∧ y.run (EKF.arrCls model).smooth s = (EKF.cls model).smooth r s ∧
      y.run (EKF.arrCls model).pemMerit s = (EKF.cls model).pemMerit r s ∧ y.run (EKF.arrCls model).pemGradient s = (EKF.cls model).pemGradient r s ∧
      y.run (EKF.arrCls model).pemHessian s = (EKF.cls model).pemHessian r s) ∧
    ∀ s, y.run (UKF.arrCls put cut model).filter s = (UKF.cls put cut model).filter r s ∧ y.run (UKF.arrCls put cut model).smooth s = (UKF.cls put cut model).smooth r s ∧
      y.run (UKF.arrCls put cut model).pemMerit s = (UKF.cls put cut model).pemMerit r s ∧ y.run (UKF.arrCls put cut model).pemGradient s = (UKF.cls put cut model).pemGradient r s ∧
      y.run (UKF.arrCls put cut model).pemHessian s = (UKF.cls put cut model).pemHessian r s := by
  have hrow := rows_cons hs
  have hent : ∀ k (hk : k < N) (j : Fin ny), ((y.data.drop (k * [ny].prod)).take [ny].prod)[j.1]? = some ((r[k]'(hN ▸ hk)).data j, (r[k]'(hN ▸ hk)).mask j) := fun k hk j => by
    rw [← hr k (hN ▸ hk) j, ← marray_row_entry hs hy hk j.2, List.prod_singleton]
  have fa : ∀ {σ : Type} {c : MArray → σ → Py (Moments nx × σ)} {c' : MaskedRow (Fin ny) → σ → Py (Moments nx × σ)},
      (∀ k (hk : k < N), c ⟨[ny], (y.data.drop (k * [ny].prod)).take [ny].prod⟩ = c' (r[k]'(hN ▸ hk))) →
      List.Forall₂ (fun a b => c a = c' b) ((List.range N).map fun k => (⟨[ny], (y.data.drop (k * [ny].prod)).take [ny].prod⟩ : MArray)) r := fun h => by
    refine List.forall₂_iff_get.2 ⟨by simp [hN], fun k hk hk' => ?_⟩
    have := h k (hN ▸ hk')
    simpa using this
  unfold MArray.run
  rw [hrow]
  refine ⟨fun s => ?_, fun s => ?_⟩
  · obtain ⟨a, b, c, d, e⟩ := onArrays_runs (EKF.cls model) (c := EKF.correctArr model) (fa (c' := (EKF.cls model).correct) fun k hk => funext fun s =>
      (C118_ekf model ⟨[ny], _⟩ (marray_row_length hs hy hk) s).2.2 _ rfl (hent k hk))
    exact ⟨congrFun a s, congrFun b s, congrFun c s, congrFun d s, congrFun e s⟩
  · obtain ⟨a, b, c, d, e⟩ := onArrays_runs (UKF.cls put cut model) (c := UKF.correctArr cut model) (fa (c' := (UKF.cls put cut model).correct) fun k hk => funext fun s =>
      (C118_ukf cut model ⟨[ny], _⟩ (marray_row_length hs hy hk) s).2.2 _ rfl (hent k hk))
    exact ⟨congrFun a s, congrFun b s, congrFun c s, congrFun d s, congrFun e s⟩

/-- One of the five methods returns. -/
def Returns {Y σ : Type} (F : FilterClass nx Y p σ) (y : List Y) (s : σ) : Prop :=
  (∃ r, F.filter y s = .ok r) ∨ (∃ r, F.smooth y s = .ok r) ∨ (∃ r, F.pemMerit y s = .ok r) ∨ (∃ r, F.pemGradient y s = .ok r) ∨ ∃ r, F.pemHessian y s = .ok r

theorem all_masked_of_correct {σ β : Type} {c : MArray → σ → Py β} {y : MArray} {n : Nat} {t : List Nat} (hs : y.shape = n :: t) (hy : y.data.length = y.shape.prod) (ht : t ≠ [ny])
    (hF : ∀ (r : MArray) s v, r.data.length = r.shape.prod → r.shape ≠ [ny] → c r s = .ok v → ∀ e ∈ r.data, e.2 = true) {l : List MArray} (hl : y.rows = .ok l)
    (h : ∀ r ∈ l, ∃ t v, c r t = .ok v) : ∀ e ∈ y.data, e.2 = true := by
  rw [rows_cons hs] at hl
  cases hl
  intro e he
  obtain ⟨i, hi, rfl⟩ := List.getElem_of_mem he
  have hp : 0 < t.prod := by
    rcases Nat.eq_zero_or_pos t.prod with h0 | h0
    · rw [hy, hs, List.prod_cons, h0, Nat.mul_zero] at hi
      omega
    · exact h0
  have hk : i / t.prod < n := by
    rw [hy, hs, List.prod_cons] at hi
    exact Nat.div_lt_of_lt_mul (by rwa [Nat.mul_comm])
  obtain ⟨t', v, hc⟩ := h ⟨t, (y.data.drop (i / t.prod * t.prod)).take t.prod⟩ (List.mem_map.2 ⟨i / t.prod, List.mem_range.2 hk, rfl⟩)
  refine hF _ _ _ (marray_row_length hs hy hk) ht hc _ ?_
  refine List.mem_of_getElem? (i := i % t.prod) ?_
  dsimp only
  rw [List.getElem?_take_of_lt (Nat.mod_lt _ hp), List.getElem?_drop, Nat.div_add_mod', List.getElem?_eq_getElem hi]

/-- **C118** (wrong shapes). If any of the five methods returns for a series whose rows are not vectors with an entry for each output, everything in the series is masked. A single number has no length. -/
theorem C118_shape (put cut : UT nx) (model : KModel nx (Fin ny) p) (y : MArray) (hy : y.data.length = y.shape.prod) :
    (∀ n t, y.shape = n :: t → t ≠ [ny] → ∀ l, y.rows = .ok l → ((∃ s, Returns (EKF.arrCls model) l s) ∨ ∃ s, Returns (UKF.arrCls put cut model) l s) → ∀ e ∈ y.data, e.2 = true) ∧
    (y.shape = [] → ∀ {σ α : Type} (method : List MArray → σ → Py α) (s : σ), y.run method s = .error .typeError) := by
  refine ⟨fun n t hs ht l hl h => ?_, fun hs σ α method s => ?_⟩
  · rcases h with ⟨s, h⟩ | ⟨s, h⟩
    · refine all_masked_of_correct hs hy ht (fun r s v hr hr' hc e he => ?_) hl (runs_correct _ h)
      by_contra hne
      have := (C118_ekf model r hr s).2.1 ⟨e, he, by simpa using hne⟩ hr'
      rw [show EKF.correctArr model r s = .ok v from hc] at this
      cases this
    · refine all_masked_of_correct hs hy ht (fun r s v hr hr' hc e he => ?_) hl (runs_correct _ h)
      by_contra hne
      exact ((C118_ukf cut model r hr s).2.1 ⟨e, he, by simpa using hne⟩ hr').2.2 v hc
  · unfold MArray.run MArray.rows
    rw [hs]
    rfl

/-- Two measurements of one output as a vector are refused; as a column, they are two rows. -/
example (cut : UT nx) (model : KModel nx (Fin 1) p) (s : EKF nx (Fin 1) p) :
    MArray.run (EKF.arrCls model).filter ⟨[2], [(3, false), (4, false)]⟩ s = .error .valueError ∧
    MArray.run (EKF.arrCls model).filter ⟨[2, 1], [(3, false), (4, false)]⟩ s = (EKF.cls model).filter [⟨![3], ![false]⟩, ⟨![4], ![false]⟩] s := by
  refine ⟨rfl, ((C118_runs cut cut model ⟨[2, 1], _⟩ 2 rfl rfl [⟨![3], ![false]⟩, ⟨![4], ![false]⟩] rfl ?_).1 s).1⟩
  intro k hk j
  fin_cases j
  have : k = 0 ∨ k = 1 := by simp at hk; omega
  rcases this with rfl | rfl <;> rfl

/-- The unscented filter refuses it in the same way, and one column too many by the root or the index. -/
example (put cut : UT nx) (model : KModel nx (Fin 1) p) (s : UKF nx cut.nsigma put.nsigma (Fin 1) p) :
    MArray.run (UKF.arrCls put cut model).filter ⟨[2], [(3, false), (4, false)]⟩ s = .error .valueError ∧
    ¬ Returns (UKF.arrCls put cut model) [⟨[2], [(3, false), (4, true)]⟩] s := by
  refine ⟨rfl, fun h => ?_⟩
  have := (C118_shape put cut model ⟨[1, 2], [(3, false), (4, true)]⟩ rfl).1 1 [2] rfl (by simp) _ rfl (.inr ⟨s, h⟩) (3, false) (by simp)
  cases this

/-- A series of scalars that are all masked passes, though it has the wrong shape. -/
example (model : KModel nx (Fin 2) p) (s : EKF nx (Fin 2) p) : ∃ s', EKF.correctArr model ⟨[], [(0, true)]⟩ s = .ok ((s.x, s.Px), s') :=
  let ⟨s', h, _⟩ := (C118_ekf model ⟨[], [(0, true)]⟩ rfl s).1 (by simp)
  ⟨s', h⟩

end Ceacoest
