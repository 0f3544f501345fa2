import Verif.Model.Utils
import Verif.Lemmas.Broadcast
import Verif.Lemmas.Piece
import Mathlib.Analysis.Calculus.Deriv.Pow
import Mathlib.Analysis.Calculus.Deriv.Mul
import Mathlib.Analysis.Calculus.Deriv.Add
import Mathlib.Tactic.FieldSimp
import Mathlib.Tactic.Linarith

/-! # C57: finite differences -/

namespace Ceacoest.Utils

/-- Every step is at least `min_step`, whatever the sign of `x`. -/
theorem C57_steps (x : List ℝ) (minStep relStep : ℝ) :
    (steps x minStep relStep).length = x.length ∧
    ∀ i < x.length, minStep ≤ (steps x minStep relStep).getD i 0 ∧
      (0 < x.getD i 0 * relStep → minStep < x.getD i 0 * relStep →
        (steps x minStep relStep).getD i 0 = x.getD i 0 * relStep) := by
  refine ⟨by simp [steps], fun i hi => ?_⟩
  have : (steps x minStep relStep).getD i 0 = max (x.getD i 0 * relStep) minStep := by
    simp [steps, List.getD_eq_getElem?_getD, hi]
  rw [this]
  exact ⟨le_max_right _ _, fun _ h => max_eq_left h.le⟩

/-- Entry `(i, r)` of an array with rows of length `m`. -/
theorem writeRow (l : List ℝ) (m n k : Nat) (hk : k < n) (hl : l.length = n * m) (v : List ℝ) (hv : v.length = m) :
    (writeAt l ((List.range m).map (k * m + ·)) v).length = n * m ∧
    (∀ r < m, (writeAt l ((List.range m).map (k * m + ·)) v).getD (k * m + r) 0 = v.getD r 0) ∧
    ∀ j, j ≠ k → ∀ r < m, (writeAt l ((List.range m).map (k * m + ·)) v).getD (j * m + r) 0 = l.getD (j * m + r) 0 := by
  refine ⟨by rw [writeAt_length, hl], fun r hr => ?_, fun j hj r hr => ?_⟩
  · refine writeAt_map_hit 0 l m (k * m + ·) v (fun a _ b _ h => by simpa using h) hv.ge hr ?_
    rw [hl]
    exact mul_add_lt hk hr
  · refine writeAt_map_miss 0 l m (k * m + ·) v ?_
    intro a ha h
    apply hj
    have h1 : (k * m + a) / m = k := by
      rw [Nat.add_comm, Nat.add_mul_div_right _ _ (by omega), Nat.div_eq_of_lt ha, Nat.zero_add]
    have h2 : (j * m + r) / m = j := by
      rw [Nat.add_comm, Nat.add_mul_div_right _ _ (by omega), Nat.div_eq_of_lt hr, Nat.zero_add]
    have h' : k * m + a = j * m + r := h
    rw [← h1, ← h2, h']

theorem atCoord_self (x : NDArray ℝ) (i : Nat) : atCoord x i (x.data.getD i 0) = x := by
  unfold atCoord
  congr 1
  by_cases h : i < x.data.length
  · simp [List.getD_eq_getElem?_getD, h]
  · rw [List.set_eq_of_length_le (by omega)]

theorem assignRow_ok {diff v : NDArray ℝ} {osh : List Nat} {k : Nat} (hw : v.WF) (hs : v.shape = osh) :
    assignRow diff osh k v =
      .ok ⟨diff.shape, writeAt diff.data ((List.range osh.prod).map (k * osh.prod + ·)) v.data⟩ := by
  unfold assignRow
  rw [broadcastTo_self' v hs (by rw [← hs]; exact hw)]
  rfl

theorem zip_getD (f : ℝ → ℝ → ℝ) {a b : List ℝ} {m r : Nat} (ha : a.length = m) (hb : b.length = m) (hr : r < m) :
    (List.zipWith f a b).getD r 0 = f (a.getD r 0) (b.getD r 0) := by
  simp [List.getD_eq_getElem?_getD, ha, hb, hr]

theorem zip_ok (g : ℝ → ℝ → ℝ) {a b : NDArray ℝ} {osh : List Nat} (ha : a.shape = osh ∧ a.WF) (hb : b.shape = osh ∧ b.WF) :
    ∃ v, binop g a b = .ok v ∧ v.shape = osh ∧ v.WF ∧ v.data.length = osh.prod ∧
      ∀ r < osh.prod, v.data.getD r 0 = g (a.data.getD r 0) (b.data.getD r 0) := by
  have la : a.data.length = osh.prod := by rw [ha.2, ha.1]
  have lb : b.data.length = osh.prod := by rw [hb.2, hb.1]
  have hl : (List.zipWith g a.data b.data).length = osh.prod := by rw [List.length_zipWith, la, lb, min_self]
  refine ⟨_, binop_self g ha.2 hb.2 (hb.1.trans ha.1.symm), ha.1, ?_, hl, fun r hr => zip_getD g la lb hr⟩
  rw [NDArray.WF]
  simp only
  rw [hl, ha.1]

theorem emptyDiff_length {x : NDArray ℝ} (hx : x.WF) (osh : List Nat) (junk) :
    (emptyDiff x osh junk).data.length = x.data.length * osh.prod := by
  simp [emptyDiff, List.prod_append, show x.data.length = x.shape.prod from hx]

theorem central_fold (f : NDArray ℝ → NDArray ℝ) (x : NDArray ℝ) (h : List ℝ) (junk : Nat → ℝ)
    (osh : List Nat) (hf : ∀ i < x.data.length, ∀ t, (f (atCoord x i t)).shape = osh ∧ (f (atCoord x i t)).WF)
    (hx : x.WF) (N : Nat) (hN : N ≤ x.data.length) :
    ∃ st, (List.range N).foldlM (centralStep (fun y => .ok (f y)) x h junk) none = .ok st ∧ (N = 0 → st = none) ∧
      (0 < N → ∃ a, st = some (a, osh) ∧ a.shape = x.shape ++ osh ∧ a.data.length = x.data.length * osh.prod ∧
        ∀ i < N, ∀ r < osh.prod, a.data.getD (i * osh.prod + r) 0 =
          1 / 2 * ((f (atCoord x i (x.data.getD i 0 + h.getD i 0))).data.getD r 0 -
            (f (atCoord x i (x.data.getD i 0 - h.getD i 0))).data.getD r 0) / h.getD i 0) := by
  induction N with
  | zero => exact ⟨none, rfl, fun _ => rfl, fun h => absurd h (by omega)⟩
  | succ N ih =>
    obtain ⟨st, h1, h2, h3⟩ := ih (by omega)
    have hp := hf N (by omega) (x.data.getD N 0 + h.getD N 0)
    have hm := hf N (by omega) (x.data.getD N 0 - h.getD N 0)
    obtain ⟨v, hb, hvs, hvw, hvl, hv⟩ := zip_ok (fun p m => (1 / 2 * (p - m)) / h.getD N 0) hp hm
    rw [List.range_succ, List.foldlM_append, h1]
    simp only [py_bind_ok, List.foldlM_cons, List.foldlM_nil]
    obtain ⟨a, ha, hash, hal, hval⟩ : ∃ a : NDArray ℝ,
        st.getD (emptyDiff x (f (atCoord x N (x.data.getD N 0 + h.getD N 0))).shape junk,
          (f (atCoord x N (x.data.getD N 0 + h.getD N 0))).shape) = (a, osh) ∧ a.shape = x.shape ++ osh ∧
        a.data.length = x.data.length * osh.prod ∧
        ∀ i < N, ∀ r < osh.prod, a.data.getD (i * osh.prod + r) 0 =
          1 / 2 * ((f (atCoord x i (x.data.getD i 0 + h.getD i 0))).data.getD r 0 -
          (f (atCoord x i (x.data.getD i 0 - h.getD i 0))).data.getD r 0) / h.getD i 0 := by
      rcases Nat.eq_zero_or_pos N with h0 | h0
      · rw [h2 h0, hp.1]
        exact ⟨_, rfl, rfl, emptyDiff_length hx _ _, fun i hi => absurd hi (by omega)⟩
      · obtain ⟨a, ha, h4, h5, h6⟩ := h3 h0
        rw [ha]
        exact ⟨a, rfl, h4, h5, h6⟩
    obtain ⟨w1, w2, w3⟩ := writeRow a.data osh.prod x.data.length N (by omega) hal v.data hvl
    refine ⟨some (⟨a.shape, writeAt a.data ((List.range osh.prod).map (N * osh.prod + ·)) v.data⟩, osh), ?_,
      fun h => absurd h (by omega), fun _ => ⟨_, rfl, hash, w1, ?_⟩⟩
    · unfold centralStep
      simp only [py_bind_ok]
      rw [hb, ha]
      simp only [py_bind_ok]
      rw [assignRow_ok hvw hvs]
      rfl
    · intro i hi r hr
      rcases Nat.lt_succ_iff_lt_or_eq.1 hi with hi | rfl
      · rw [w3 i (by omega) r hr, hval i hi r hr]
      · rw [w2 r hr, hv r hr]

theorem forward_fold (f : NDArray ℝ → NDArray ℝ) (x : NDArray ℝ) (h : List ℝ) (junk : Nat → ℝ)
    (osh : List Nat) (hf : ∀ i < x.data.length, ∀ t, (f (atCoord x i t)).shape = osh ∧ (f (atCoord x i t)).WF)
    (h0 : (f x).shape = osh ∧ (f x).WF) (hx : x.WF) (N : Nat) (hN : N ≤ x.data.length) :
    ∃ a, (List.range N).foldlM (forwardStep (fun y => .ok (f y)) x h (f x)) (emptyDiff x osh junk) = .ok a ∧
      a.shape = x.shape ++ osh ∧ a.data.length = x.data.length * osh.prod ∧
        ∀ i < N, ∀ r < osh.prod, a.data.getD (i * osh.prod + r) 0 =
          ((f (atCoord x i (x.data.getD i 0 + h.getD i 0))).data.getD r 0 - (f x).data.getD r 0) / h.getD i 0 := by
  induction N with
  | zero => exact ⟨_, rfl, rfl, emptyDiff_length hx _ _, fun i hi => absurd hi (by omega)⟩
  | succ N ih =>
    obtain ⟨a, h1, hash, hal, hval⟩ := ih (by omega)
    have hp := hf N (by omega) (x.data.getD N 0 + h.getD N 0)
    obtain ⟨v, hb, hvs, hvw, hvl, hv⟩ := zip_ok (fun p m => (p - m) / h.getD N 0) hp h0
    rw [List.range_succ, List.foldlM_append, h1]
    simp only [py_bind_ok, List.foldlM_cons, List.foldlM_nil]
    obtain ⟨w1, w2, w3⟩ := writeRow a.data osh.prod x.data.length N (by omega) hal v.data hvl
    refine ⟨⟨a.shape, writeAt a.data ((List.range osh.prod).map (N * osh.prod + ·)) v.data⟩, ?_, hash, w1, ?_⟩
    · unfold forwardStep
      simp only [py_bind_ok]
      rw [hb, h0.1]
      simp only [py_bind_ok]
      rw [assignRow_ok hvw hvs]
      rfl
    · intro i hi r hr
      rcases Nat.lt_succ_iff_lt_or_eq.1 hi with hi | rfl
      · rw [w3 i (by omega) r hr, hval i hi r hr]
      · rw [w2 r hr, hv r hr]

/-- `central_diff` returns the exact derivatives of every array-valued function that is quadratic in each coordinate of
`x` separately (with coefficients depending on the other coordinates), for every relative step and `min_step > 0`. -/
theorem C57_central (f : NDArray ℝ → NDArray ℝ) (x : NDArray ℝ) (minStep relStep : ℝ) (junk : Nat → ℝ)
    (osh : List Nat) (hx : x.WF) (hne : 0 < x.data.length) (hmin : 0 < minStep)
    (hf : ∀ i < x.data.length, ∀ t, (f ⟨x.shape, x.data.set i t⟩).shape = osh ∧ (f ⟨x.shape, x.data.set i t⟩).WF)
    (hq : ∀ i < x.data.length, ∀ r < osh.prod, ∃ a b c : ℝ, ∀ t,
      (f ⟨x.shape, x.data.set i t⟩).data.getD r 0 = a * t ^ 2 + b * t + c) :
    ∃ d, centralDiff (fun y => .ok (f y)) x minStep relStep junk = .ok (some d) ∧ d.shape = x.shape ++ osh ∧ d.WF ∧
      ∀ i < x.data.length, ∀ r < osh.prod, HasDerivAt (fun t => (f ⟨x.shape, x.data.set i t⟩).data.getD r 0)
        (d.data.getD (i * osh.prod + r) 0) (x.data.getD i 0) := by
  obtain ⟨hsl, hst⟩ := C57_steps x.data minStep relStep
  obtain ⟨st, h1, -, h3⟩ := central_fold f x (steps x.data minStep relStep) junk osh hf hx _ le_rfl
  obtain ⟨a, rfl, h4, h5, h6⟩ := h3 hne
  refine ⟨a, ?_, h4, ?_, fun i hi r hr => ?_⟩
  · unfold centralDiff
    simp only
    rw [hsl, h1]
    rfl
  · rw [NDArray.WF, h5, h4, List.prod_append, ← hx]
  · rw [h6 i hi r hr]
    obtain ⟨A, B, C, hABC⟩ := hq i hi r hr
    have hpos : 0 < (steps x.data minStep relStep).getD i 0 := lt_of_lt_of_le hmin (hst i hi).1
    have e1 : ∀ t, (f (atCoord x i t)).data.getD r 0 = A * t ^ 2 + B * t + C := hABC
    rw [e1, e1]
    have e2 : (fun t => (f ⟨x.shape, x.data.set i t⟩).data.getD r 0) = fun t => A * t ^ 2 + B * t + C := funext hABC
    rw [e2]
    generalize (steps x.data minStep relStep).getD i 0 = h at hpos ⊢
    generalize x.data.getD i 0 = y
    refine ((((hasDerivAt_id' y).pow 2).const_mul A).add ((hasDerivAt_id' y).const_mul B)).add_const C |>.congr_deriv ?_
    field_simp
    ring

/-- `forward_diff` returns the exact derivatives of every array-valued function affine in each coordinate. -/
theorem C57_forward (f : NDArray ℝ → NDArray ℝ) (x : NDArray ℝ) (minStep relStep : ℝ) (junk : Nat → ℝ)
    (osh : List Nat) (hx : x.WF) (hmin : 0 < minStep) (h0 : (f x).shape = osh ∧ (f x).WF)
    (hf : ∀ i < x.data.length, ∀ t, (f ⟨x.shape, x.data.set i t⟩).shape = osh ∧ (f ⟨x.shape, x.data.set i t⟩).WF)
    (hq : ∀ i < x.data.length, ∀ r < osh.prod, ∃ b c : ℝ, ∀ t,
      (f ⟨x.shape, x.data.set i t⟩).data.getD r 0 = b * t + c) :
    ∃ d, forwardDiff (fun y => .ok (f y)) x minStep relStep junk = .ok d ∧ d.shape = x.shape ++ osh ∧ d.WF ∧
      ∀ i < x.data.length, ∀ r < osh.prod, HasDerivAt (fun t => (f ⟨x.shape, x.data.set i t⟩).data.getD r 0)
        (d.data.getD (i * osh.prod + r) 0) (x.data.getD i 0) := by
  obtain ⟨hsl, hst⟩ := C57_steps x.data minStep relStep
  obtain ⟨a, h1, h4, h5, h6⟩ := forward_fold f x (steps x.data minStep relStep) junk osh hf h0 hx _ le_rfl
  refine ⟨a, ?_, h4, ?_, fun i hi r hr => ?_⟩
  · unfold forwardDiff
    simp only [py_bind_ok]
    rw [hsl, h0.1, h1]
  · rw [NDArray.WF, h5, h4, List.prod_append, ← hx]
  · rw [h6 i hi r hr]
    obtain ⟨B, C, hABC⟩ := hq i hi r hr
    have hpos : 0 < (steps x.data minStep relStep).getD i 0 := lt_of_lt_of_le hmin (hst i hi).1
    have e1 : ∀ t, (f (atCoord x i t)).data.getD r 0 = B * t + C := hABC
    have e3 : (f x).data.getD r 0 = B * x.data.getD i 0 + C := by rw [← e1, atCoord_self]
    rw [e1, e3]
    have e2 : (fun t => (f ⟨x.shape, x.data.set i t⟩).data.getD r 0) = fun t => B * t + C := funext hABC
    rw [e2]
    generalize (steps x.data minStep relStep).getD i 0 = h at hpos ⊢
    generalize x.data.getD i 0 = y
    refine ((hasDerivAt_id' y).const_mul B).add_const C |>.congr_deriv ?_
    field_simp
    ring

/-- For an empty `x`, `central_diff` returns `None`. -/
theorem C57_central_empty (f : NDArray ℝ → Py (NDArray ℝ)) (x : NDArray ℝ) (minStep relStep : ℝ) (junk : Nat → ℝ)
    (hx : x.data = []) : centralDiff f x minStep relStep junk = .ok none := by
  unfold centralDiff
  simp only [steps, hx]
  rfl

/-- `f(x) = (x₀² x₁, x₀ + 3 x₁²)` at any point, negative coordinates included. -/
example (u v : ℝ) (junk : Nat → ℝ) :
    ∃ d, centralDiff (fun y => .ok ⟨[2], [y.data.getD 0 0 ^ 2 * y.data.getD 1 0, y.data.getD 0 0 + 3 * y.data.getD 1 0 ^ 2]⟩)
      ⟨[2], [u, v]⟩ (1 / 10) (1 / 10) junk = .ok (some d) ∧ d.shape = [2, 2] := by
  obtain ⟨d, h1, h2, -, -⟩ := C57_central (fun y => ⟨[2], [y.data.getD 0 0 ^ 2 * y.data.getD 1 0,
    y.data.getD 0 0 + 3 * y.data.getD 1 0 ^ 2]⟩) ⟨[2], [u, v]⟩ (1 / 10) (1 / 10) junk [2] rfl (by simp) (by norm_num)
    (fun i _ t => ⟨rfl, rfl⟩) (by
      intro i hi r hr
      simp only [List.length_cons, List.length_nil, List.prod_cons, List.prod_nil] at hi hr
      obtain rfl | rfl : i = 0 ∨ i = 1 := by omega
      · obtain rfl | rfl : r = 0 ∨ r = 1 := by omega
        · exact ⟨v, 0, 0, fun t => by simp; ring⟩
        · exact ⟨0, 1, 3 * v ^ 2, fun t => by simp⟩
      · obtain rfl | rfl : r = 0 ∨ r = 1 := by omega
        · exact ⟨0, u ^ 2, 0, fun t => by simp⟩
        · exact ⟨3, 0, u, fun t => by simp; ring⟩)
  exact ⟨d, h1, h2⟩

end Ceacoest.Utils
