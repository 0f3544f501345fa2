import Verif.Model.KalmanBatchShapes
import Verif.Props.KalmanShapes

/-! # C119: a stack of states is filtered against one series of measurements -/

namespace Ceacoest
open Matrix MArray
variable {nx ny : Nat} {p : Type}

/-- **C119** (extended filter). A stack of states is corrected with one vector of outputs for all of them, or one that is masked as a whole. -/
theorem C119_ekf (model : KModel nx (Fin ny) p) (y : MArray) (hy : y.data.length = y.shape.prod) (s : BEKF nx) :
    ((∀ e ∈ y.data, e.2 = true) → ∃ s', BEKF.correctArr model y s = .ok ((s.x, s.Px), s') ∧ s'.x = s.x ∧ s'.Px = s.Px ∧ s'.k = s.k ∧ s'.L = s.L) ∧
    ((∃ e ∈ y.data, e.2 = false) → y.shape ≠ [ny] → BEKF.correctArr model y s = .error (if y.shape.length = 1 then .indexError else .valueError)) ∧
    ∀ r : MaskedRow (Fin ny), y.shape = [ny] → (∀ j : Fin ny, y.data[j.1]? = some (r.data j, r.mask j)) → BEKF.correctArr model y s = BEKF.correct model r s := by
  unfold BEKF.correctArr
  refine ⟨fun h => ⟨{ s with last := .masked }, ?_, rfl, rfl, rfl, rfl⟩, fun ⟨e, he, h⟩ hs => ?_, fun r hs hr => ?_⟩
  · rw [if_pos (allMasked_iff.2 h)]
    rfl
  · rw [if_neg (fun h' => by rw [allMasked_iff.1 h' e he] at h; cases h)]
    obtain ⟨shape, data⟩ := y
    dsimp only at hs
    match shape with
    | [] => rfl
    | [n] =>
      have hb : boolCheck ny ⟨[n], data⟩ = .error .indexError := if_neg hs
      have hi : ixCheck ny ⟨[n], data⟩ = if (data.drop ny).all Prod.snd then .ok () else .error .indexError := rfl
      rw [hb, hi]
      split <;> rfl
    | _ :: _ :: _ => rfl
  · have hl : y.data.length = ny := by rw [hy, hs]; simp
    have e : y.toRow ny = r := by
      unfold MArray.toRow
      have : ∀ j : Fin ny, y.data.getD j (0, true) = (r.data j, r.mask j) := fun j => by rw [List.getD_eq_getElem?_getD, hr j]; rfl
      simp only [this]
    have hm := toRow_masked hl
    rw [e] at hm
    by_cases h : y.allMasked = true
    · rw [if_pos h]
      unfold BEKF.correct
      rw [if_pos (hm.1 h)]
      rfl
    · rw [if_neg h, (drop_fits hl hs).1, (drop_fits hl hs).2, e]
      rfl

/-- **C119** (unscented filter). The same; but with the wrong length and covariances that have no roots, the roots raise first. -/
theorem C119_ukf (cut : UT nx) (model : KModel nx (Fin ny) p) (y : MArray) (hy : y.data.length = y.shape.prod) (s : BUKF nx (Fin ny) p) :
    ((∀ e ∈ y.data, e.2 = true) → ∃ s', BUKF.correctArr cut model y s = .ok ((s.x, s.Px), s') ∧ s'.x = s.x ∧ s'.Px = s.Px ∧ s'.k = s.k ∧ s'.L = s.L) ∧
    ((∃ e ∈ y.data, e.2 = false) → y.shape ≠ [ny] → (y.shape.length ≠ 1 → BUKF.correctArr cut model y s = .error .valueError) ∧
      ((∃ r, cut.bSigmaPoints s.x s.Px = .ok r) → y.shape.length = 1 → BUKF.correctArr cut model y s = .error .indexError) ∧ ∀ r, BUKF.correctArr cut model y s ≠ .ok r) ∧
    ∀ r : MaskedRow (Fin ny), y.shape = [ny] → (∀ j : Fin ny, y.data[j.1]? = some (r.data j, r.mask j)) → BUKF.correctArr cut model y s = BUKF.correct cut model r s := by
  unfold BUKF.correctArr
  refine ⟨fun h => ⟨{ s with last := .masked }, ?_, rfl, rfl, rfl, rfl⟩, fun ⟨e, he, h⟩ hs => ?_, fun r hs hr => ?_⟩
  · rw [if_pos (allMasked_iff.2 h)]
    rfl
  · rw [if_neg (fun h' => by rw [allMasked_iff.1 h' e he] at h; cases h)]
    obtain ⟨shape, data⟩ := y
    dsimp only at hs
    match shape with
    | [] => exact ⟨fun _ => rfl, fun _ h => by simp at h, fun r h => by cases h⟩
    | [n] =>
      have hb : boolCheck ny ⟨[n], data⟩ = .error .indexError := if_neg hs
      have hi : ixCheck ny ⟨[n], data⟩ = if (data.drop ny).all Prod.snd then .ok () else .error .indexError := rfl
      rw [hb, hi]
      refine ⟨fun h => by simp at h, fun ⟨r, h⟩ _ => ?_, fun r h => ?_⟩
      · rw [h]
        split <;> rfl
      · split at h
        · obtain ⟨_, -, h⟩ := py_bind_eq_ok h
          obtain ⟨_, -, h⟩ := py_bind_eq_ok h
          cases h
        · cases h
    | _ :: _ :: _ => exact ⟨fun _ => rfl, fun _ h => by simp at h, fun r h => by cases h⟩
  · have hl : y.data.length = ny := by rw [hy, hs]; simp
    have e : y.toRow ny = r := by
      unfold MArray.toRow
      have : ∀ j : Fin ny, y.data.getD j (0, true) = (r.data j, r.mask j) := fun j => by rw [List.getD_eq_getElem?_getD, hr j]; rfl
      simp only [this]
    have hm := toRow_masked hl
    rw [e] at hm
    by_cases h : y.allMasked = true
    · rw [if_pos h]
      unfold BUKF.correct
      rw [if_pos (hm.1 h)]
      rfl
    · rw [if_neg h, (drop_fits hl hs).1, (drop_fits hl hs).2, e]
      show (cut.bSigmaPoints s.x s.Px >>= fun _ => BUKF.correct cut model r s) = _
      cases hp : cut.bSigmaPoints s.x s.Px with
      | ok v => rfl
      | error v =>
        rw [py_bind_error]
        unfold BUKF.correct UT.bTransform
        rw [if_neg (fun h' => h (hm.2 h')), hp]
        rfl

/-! ### Whole series -/

section
variable {Y Y' σ : Type} (F : BFilterClass nx Y σ)

theorem rows_forall₂ {Y Y' σ : Type} {c : Y' → σ → Py (BMoments nx × σ)} {c' : Y → σ → Py (BMoments nx × σ)} {y : List Y'} {y' : List Y} (h : List.Forall₂ (fun r r' => c r = c' r') y y') (k : Nat) :
    (FilterClass.row y k = .error .indexError ∧ FilterClass.row y' k = .error .indexError) ∨
      ∃ r r', FilterClass.row y k = .ok r ∧ FilterClass.row y' k = .ok r' ∧ c r = c' r' := by
  have hl := h.length_eq
  unfold FilterClass.row
  by_cases hk : k < y.length
  · refine Or.inr ⟨y[k], y'[k]'(hl ▸ hk), ?_, ?_, (List.forall₂_iff_get.1 h).2 k hk (hl ▸ hk)⟩
    · rw [List.getElem?_eq_getElem hk]
    · rw [List.getElem?_eq_getElem (hl ▸ hk)]
  · refine Or.inl ⟨?_, ?_⟩
    · rw [List.getElem?_eq_none (by omega)]
    · rw [List.getElem?_eq_none (by omega)]

/-- Measurements of one class that are corrected as those of another. -/
theorem batch_onArrays_runs {c : Y' → σ → Py (BMoments nx × σ)} {y : List Y'} {y' : List Y} (h : List.Forall₂ (fun r r' => c r = F.correct r') y y') :
    (F.onArrays c).filter y = F.filter y' ∧ (F.onArrays c).smooth y = F.smooth y' ∧ (F.onArrays c).pemMerit y = F.pemMerit y' := by
  have hl := h.length_eq
  have hr : ∀ k, (FilterClass.row y k = .error .indexError ∧ FilterClass.row y' k = .error .indexError) ∨
      ∃ r r', FilterClass.row y k = .ok r ∧ FilterClass.row y' k = .ok r' ∧ (F.onArrays c).correct r = F.correct r' := rows_forall₂ h
  have e1 : ∀ b, (F.onArrays c).filterStep b y = F.filterStep b y' := fun b => by
    funext acc k
    unfold BFilterClass.filterStep
    rw [hl]
    rcases hr k with ⟨a, b⟩ | ⟨r, r', a, b, d⟩ <;> simp only [a, b, py_bind_ok, *] <;> rfl
  have e2 : ∀ b, (F.onArrays c).smoothForward b y = F.smoothForward b y' := fun b => by
    funext acc k
    unfold BFilterClass.smoothForward
    rw [hl]
    rcases hr k with ⟨a, b⟩ | ⟨r, r', a, b, d⟩ <;> simp only [a, b, py_bind_ok, *] <;> rfl
  have e3 : (F.onArrays c).meritStep y = F.meritStep y' := by
    funext acc k
    unfold BFilterClass.meritStep
    rw [hl]
    rcases hr k with ⟨a, b⟩ | ⟨r, r', a, b, d⟩ <;> simp only [a, b, py_bind_ok, *] <;> rfl
  refine ⟨?_, ?_, ?_⟩ <;> funext s
  · unfold BFilterClass.filter; dsimp only; rw [e1, hl]; rfl
  · unfold BFilterClass.smooth; dsimp only; rw [e2, hl]; rfl
  · unfold BFilterClass.pemMerit; rw [e3, hl]; rfl

/-- The same for the methods with derivatives. -/
theorem batch_onArrays_diff {F : BDFilterClass nx Y p σ} {c : Y' → σ → Py (BMoments nx × σ)} {y : List Y'} {y' : List Y} (h : List.Forall₂ (fun r r' => c r = F.correct r') y y') :
    (F.onArrays c).pemGradient y = F.pemGradient y' ∧ (F.onArrays c).pemHessian y = F.pemHessian y' := by
  have hl := h.length_eq
  have hr : ∀ k, (FilterClass.row y k = .error .indexError ∧ FilterClass.row y' k = .error .indexError) ∨
      ∃ r r', FilterClass.row y k = .ok r ∧ FilterClass.row y' k = .ok r' ∧ (F.onArrays c).correct r = F.correct r' := rows_forall₂ h
  have e4 : (F.onArrays c).gradientStep y = F.gradientStep y' := by
    funext acc k
    unfold BDFilterClass.gradientStep
    rw [hl]
    rcases hr k with ⟨a, b⟩ | ⟨r, r', a, b, d⟩ <;> simp only [a, b, py_bind_ok, *] <;> rfl
  have e5 : (F.onArrays c).hessianStep y = F.hessianStep y' := by
    funext acc k
    unfold BDFilterClass.hessianStep
    rw [hl]
    rcases hr k with ⟨a, b⟩ | ⟨r, r', a, b, d⟩ <;> simp only [a, b, py_bind_ok, *] <;> rfl
  refine ⟨?_, ?_⟩ <;> funext s
  · unfold BDFilterClass.pemGradient; rw [e4, hl]; rfl
  · unfold BDFilterClass.pemHessian; rw [e5, hl]; rfl

/-- `filter`, `smooth` or `pem_merit` returns. -/
def BReturns (y : List Y) (s : σ) : Prop := (∃ r, F.filter y s = .ok r) ∨ (∃ r, F.smooth y s = .ok r) ∨ ∃ r, F.pemMerit y s = .ok r

/-- `pem_gradient` or `pem_hessian` returns. -/
def BDReturns (F : BDFilterClass nx Y p σ) (y : List Y) (s : σ) : Prop := (∃ r, F.pemGradient y s = .ok r) ∨ ∃ r, F.pemHessian y s = .ok r

/-- A method that returns has corrected with every row. -/
theorem batch_correct {y : List Y} {s : σ} (h : BReturns F y s) : ∀ r ∈ y, ∃ t v, F.correct r t = .ok v := by
  intro r hr
  obtain ⟨k, hk, rfl⟩ := List.getElem_of_mem hr
  have hmem : k ∈ List.range y.length := List.mem_range.2 hk
  have hrow := row_of_lt hk
  rcases h with ⟨r, h⟩ | ⟨r, h⟩ | ⟨r, h⟩
  · obtain ⟨⟨out, t⟩, c', h⟩ := foldlM_passes h hmem
    unfold BFilterClass.filterStep at h
    dsimp only at h
    rw [hrow, py_bind_ok] at h
    obtain ⟨v, h, -⟩ := py_bind_eq_ok h
    exact ⟨t, v, h⟩
  · unfold BFilterClass.smooth at h
    dsimp only at h
    rw [if_neg (by omega)] at h
    obtain ⟨_, -, h⟩ := py_bind_eq_ok h
    obtain ⟨v, h, -⟩ := py_bind_eq_ok h
    obtain ⟨⟨out, t⟩, c', h⟩ := foldlM_passes h hmem
    unfold BFilterClass.smoothForward at h
    dsimp only at h
    rw [hrow, py_bind_ok] at h
    obtain ⟨v, h, -⟩ := py_bind_eq_ok h
    exact ⟨t, v, h⟩
  · obtain ⟨v, h, -⟩ := py_bind_eq_ok h
    obtain ⟨t, c', h⟩ := foldlM_passes h hmem
    unfold BFilterClass.meritStep at h
    rw [hrow, py_bind_ok] at h
    obtain ⟨v, h, -⟩ := py_bind_eq_ok h
    exact ⟨t, v, h⟩

/-- The same for the methods with derivatives. -/
theorem batch_correct_diff {F : BDFilterClass nx Y p σ} {y : List Y} {s : σ} (h : BDReturns F y s) : ∀ r ∈ y, ∃ t v, F.correct r t = .ok v := by
  intro r hr
  obtain ⟨k, hk, rfl⟩ := List.getElem_of_mem hr
  have hmem : k ∈ List.range y.length := List.mem_range.2 hk
  have hrow := row_of_lt hk
  rcases h with ⟨r, h⟩ | ⟨r, h⟩
  · obtain ⟨v, h, -⟩ := py_bind_eq_ok h
    obtain ⟨t, c', h⟩ := foldlM_passes h hmem
    unfold BDFilterClass.gradientStep at h
    rw [hrow, py_bind_ok] at h
    obtain ⟨v, h, -⟩ := py_bind_eq_ok h
    exact ⟨t, v, h⟩
  · obtain ⟨v, h, -⟩ := py_bind_eq_ok h
    obtain ⟨t, c', h⟩ := foldlM_passes h hmem
    unfold BDFilterClass.hessianStep at h
    rw [hrow, py_bind_ok] at h
    obtain ⟨v, h, -⟩ := py_bind_eq_ok h
    exact ⟨t, v, h⟩

end

/-- **C119** (series). A series of shape `(N, ny)` gives what its rows give: all states of the stack against the same rows. -/
theorem C119_runs (put cut : UT nx) (model : KModel nx (Fin ny) p) (y : MArray) (N : Nat) (hs : y.shape = [N, ny]) (hy : y.data.length = y.shape.prod)
    (r : List (MaskedRow (Fin ny))) (hN : r.length = N) (hr : ∀ k (hk : k < r.length) (j : Fin ny), y.data[k * ny + j.1]? = some (r[k].data j, r[k].mask j)) :
    (∀ s, y.run (BEKF.arrCls model).filter s = (BEKF.cls model).filter r s ∧ y.run (BEKF.arrCls model).smooth s = (BEKF.cls model).smooth r s ∧
      y.run (BEKF.arrCls model).pemMerit s = (BEKF.cls model).pemMerit r s) ∧
    ∀ s, y.run (BUKF.arrCls put cut model).filter s = (BUKF.cls put cut model).filter r s ∧ y.run (BUKF.arrCls put cut model).smooth s = (BUKF.cls put cut model).smooth r s ∧
      y.run (BUKF.arrCls put cut model).pemMerit s = (BUKF.cls put cut model).pemMerit r s ∧ y.run (BUKF.arrCls put cut model).pemGradient s = (BUKF.dcls put cut model).pemGradient r s ∧
      y.run (BUKF.arrCls put cut model).pemHessian s = (BUKF.dcls put cut model).pemHessian r s := by
  have hrow := rows_cons hs
  have hent : ∀ k (hk : k < N) (j : Fin ny), ((y.data.drop (k * [ny].prod)).take [ny].prod)[j.1]? = some ((r[k]'(hN ▸ hk)).data j, (r[k]'(hN ▸ hk)).mask j) := fun k hk j => by
    rw [← hr k (hN ▸ hk) j, ← marray_row_entry hs hy hk j.2, List.prod_singleton]
  have fa : ∀ {σ : Type} {c : MArray → σ → Py (BMoments nx × σ)} {c' : MaskedRow (Fin ny) → σ → Py (BMoments nx × σ)},
      (∀ k (hk : k < N), c ⟨[ny], (y.data.drop (k * [ny].prod)).take [ny].prod⟩ = c' (r[k]'(hN ▸ hk))) →
      List.Forall₂ (fun a b => c a = c' b) ((List.range N).map fun k => (⟨[ny], (y.data.drop (k * [ny].prod)).take [ny].prod⟩ : MArray)) r := fun h => by
    refine List.forall₂_iff_get.2 ⟨by simp [hN], fun k hk hk' => ?_⟩
    have := h k (hN ▸ hk')
    simpa using this
  unfold MArray.run
  rw [hrow]
  refine ⟨fun s => ?_, fun s => ?_⟩
  · obtain ⟨a, b, c⟩ := batch_onArrays_runs (BEKF.cls model) (c := BEKF.correctArr model) (fa (c' := (BEKF.cls model).correct) fun k hk => funext fun s =>
      (C119_ekf model ⟨[ny], _⟩ (marray_row_length hs hy hk) s).2.2 _ rfl (hent k hk))
    exact ⟨congrFun a s, congrFun b s, congrFun c s⟩
  · have h := fa (c := BUKF.correctArr cut model) (c' := (BUKF.cls put cut model).correct) fun k hk => funext fun s =>
      (C119_ukf cut model ⟨[ny], _⟩ (marray_row_length hs hy hk) s).2.2 _ rfl (hent k hk)
    obtain ⟨a, b, c⟩ := batch_onArrays_runs (BUKF.cls put cut model) h
    obtain ⟨d, e⟩ := batch_onArrays_diff (F := BUKF.dcls put cut model) h
    exact ⟨congrFun a s, congrFun b s, congrFun c s, congrFun d s, congrFun e s⟩

/-- **C119** (wrong shapes). If a method returns for a series whose rows are not vectors with an entry for each output, everything in the series is masked. So there is no way to give the states of a
stack different measurements: the series of shape `(N,) + base_shape + (ny,)` is refused. -/
theorem C119_shape (put cut : UT nx) (model : KModel nx (Fin ny) p) (y : MArray) (hy : y.data.length = y.shape.prod) (n : Nat) (t : List Nat) (hs : y.shape = n :: t) (ht : t ≠ [ny])
    (l : List MArray) (hl : y.rows = .ok l)
    (h : (∃ s, BReturns (BEKF.arrCls model) l s) ∨ ∃ s, BReturns (BUKF.arrCls put cut model).toBFilterClass l s ∨ BDReturns (BUKF.arrCls put cut model) l s) : ∀ e ∈ y.data, e.2 = true := by
  rcases h with ⟨s, h⟩ | ⟨s, h⟩
  · refine all_masked_of_correct hs hy ht (fun r s v hr hr' hc e he => ?_) hl (batch_correct _ h)
    by_contra hne
    have := (C119_ekf model r hr s).2.1 ⟨e, he, by simpa using hne⟩ hr'
    rw [show BEKF.correctArr model r s = .ok v from hc] at this
    cases this
  · refine all_masked_of_correct (c := BUKF.correctArr cut model) hs hy ht (fun r s v hr hr' hc e he => ?_) hl ?_
    · by_contra hne
      exact ((C119_ukf cut model r hr s).2.1 ⟨e, he, by simpa using hne⟩ hr').2.2 v hc
    · rcases h with h | h
      · exact batch_correct _ h
      · exact batch_correct_diff h

/-- Two states and one output for each, two samples: refused. -/
example (model : KModel nx (Fin 1) p) (s : BEKF nx) : MArray.run (BEKF.arrCls model).filter ⟨[2, 2, 1], [(3, false), (4, false), (5, false), (6, true)]⟩ s = .error .valueError := rfl

/-- Two samples for all states. -/
example (cut : UT nx) (model : KModel nx (Fin 1) p) (s : BEKF nx) :
    MArray.run (BEKF.arrCls model).smooth ⟨[2, 1], [(3, false), (4, false)]⟩ s = (BEKF.cls model).smooth [⟨![3], ![false]⟩, ⟨![4], ![false]⟩] s := by
  refine ((C119_runs cut cut model ⟨[2, 1], _⟩ 2 rfl rfl [⟨![3], ![false]⟩, ⟨![4], ![false]⟩] rfl ?_).1 s).2.1
  intro k hk j
  fin_cases j
  have : k = 0 ∨ k = 1 := by simp at hk; omega
  rcases this with rfl | rfl <;> rfl

end Ceacoest
