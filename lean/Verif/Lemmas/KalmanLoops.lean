import Verif.Model.Kalman
import Verif.Spec.Kalman
import Verif.Lemmas.Lists

/-! # The loops of base.py as recursions -/

namespace Ceacoest
open FilterClass
open scoped Matrix
variable {nx : Nat} {Y p σ : Type}

theorem py_bind_assoc {α β γ : Type} (x : Py α) (f : α → Py β) (g : β → Py γ) : (x >>= f) >>= g = x >>= fun a => f a >>= g := by
  cases x <;> rfl

theorem py_bind_eq_ok {α β : Type} {x : Py α} {f : α → Py β} {b : β} (h : x >>= f = .ok b) : ∃ a, x = .ok a ∧ f a = .ok b := by
  cases x with
  | error e => cases h
  | ok a => exact ⟨a, rfl, h⟩

theorem py_bind_congr {α β : Type} {x : Py α} {f g : α → Py β} (h : ∀ a, x = .ok a → f a = g a) : x >>= f = x >>= g := by
  cases x with
  | error e => rfl
  | ok a => exact h a rfl

theorem row_append (pre : List Y) (y : Y) (rest : List Y) : row (pre ++ y :: rest) pre.length = .ok y := by
  unfold row
  rw [List.getElem?_append_right (Nat.le_refl _), Nat.sub_self]
  rfl

theorem set_append {α : Type} (pre : List α) (y z : α) (rest : List α) : (pre ++ y :: rest).set pre.length z = pre ++ z :: rest := by
  rw [List.set_append_right _ _ (Nat.le_refl _), Nat.sub_self]
  try rfl

variable (F : FilterClass nx Y p σ)

theorem filter_from (rest pre : List Y) (done : List (Moments nx)) (hd : done.length = pre.length) (s : σ) :
    (List.range' pre.length rest.length).foldlM (F.filterStep (pre ++ rest)) (done ++ List.replicate rest.length (0, 0), s) =
      (Spec.schedule F.correct F.predict rest s >>= fun r => .ok (done ++ r.1, r.2)) := by
  induction rest generalizing pre done s with
  | nil => simp [Spec.schedule]
  | cons y rest ih =>
    rw [List.length_cons, List.range'_succ, List.foldlM_cons]
    conv_lhs => lhs; unfold FilterClass.filterStep
    rw [row_append]
    simp only [py_bind_ok, List.replicate_succ]
    cases rest with
    | nil =>
      simp only [Spec.schedule]
      cases hc : F.correct y s with
      | error e => rfl
      | ok r =>
        simp only [py_bind_ok]
        rw [if_neg (by simp), ← hd, set_append]
        simp
    | cons y' ys =>
      simp only [Spec.schedule]
      rw [py_bind_assoc, py_bind_assoc]
      refine py_bind_congr fun r _ => ?_
      rw [if_pos (by simp), py_bind_assoc, py_bind_assoc]
      refine py_bind_congr fun r' _ => ?_
      rw [← hd, set_append]
      have := ih (pre ++ [y]) (done ++ [r.1]) (by simp [hd]) r'.2
      simp only [List.append_assoc, List.singleton_append, List.length_append, List.length_singleton] at this
      simp only [py_bind_ok, py_pure]
      rw [hd, this]
      rw [py_bind_assoc]
      rfl

theorem filter_eq (y : List Y) (s : σ) : F.filter y s = Spec.schedule F.correct F.predict y s := by
  unfold FilterClass.filter
  have := filter_from F y [] [] rfl s
  simp only [List.length_nil, List.nil_append] at this
  rw [List.range_eq_range', this]
  cases Spec.schedule F.correct F.predict y s <;> rfl

theorem forward_from (rest pre : List Y) (done pdone : List (Moments nx)) (cdone : List (Matrix (Fin nx) (Fin nx) ℝ)) (first : Moments nx)
    (hd : done.length = pre.length) (hp : pdone.length = pre.length) (hc : cdone.length = pre.length) (s : σ) (hne : rest ≠ []) :
    (List.range' pre.length rest.length).foldlM (F.smoothForward (pre ++ rest))
        (⟨done ++ List.replicate rest.length (0, 0), pdone ++ first :: List.replicate (rest.length - 1) (0, 0),
          cdone ++ List.replicate (rest.length - 1) 0⟩, s) =
      (Spec.scheduleWith F.correct F.predict F.predictionCrosscov rest s >>= fun r =>
        .ok (⟨done ++ r.1, pdone ++ first :: r.2.1.map Prod.fst, cdone ++ r.2.1.map Prod.snd⟩, r.2.2)) := by
  induction rest generalizing pre done pdone cdone first s with
  | nil => exact absurd rfl hne
  | cons y rest ih =>
    rw [List.length_cons, List.range'_succ, List.foldlM_cons]
    conv_lhs => lhs; unfold FilterClass.smoothForward
    rw [row_append]
    simp only [py_bind_ok, List.replicate_succ]
    cases rest with
    | nil =>
      simp only [Spec.scheduleWith]
      cases hcr : F.correct y s with
      | error e => rfl
      | ok r =>
        simp only [py_bind_ok]
        rw [if_neg (by simp), ← hd, set_append]
        simp
    | cons y' ys =>
      simp only [Spec.scheduleWith]
      rw [py_bind_assoc, py_bind_assoc]
      refine py_bind_congr fun r _ => ?_
      rw [if_pos (by simp), py_bind_assoc, py_bind_assoc]
      refine py_bind_congr fun r' _ => ?_
      rw [py_bind_assoc, py_bind_assoc]
      refine py_bind_congr fun c _ => ?_
      have e1 : (done ++ (0, 0) :: List.replicate (y' :: ys).length (0, 0)).set pre.length r.1 = (done ++ [r.1]) ++ List.replicate (y' :: ys).length (0, 0) := by
        rw [← hd, set_append]; simp
      have e2 : (pdone ++ first :: List.replicate ((y' :: ys).length + 1 - 1) (0, 0)).set (pre.length + 1) r'.1 =
          (pdone ++ [first]) ++ r'.1 :: List.replicate ((y' :: ys).length - 1) (0, 0) := by
        rw [Nat.add_sub_cancel, List.length_cons, List.replicate_succ]
        have := set_append (pdone ++ [first]) (0, 0) r'.1 (List.replicate ys.length (0, 0))
        simp only [List.length_append, List.length_singleton, hp, List.append_assoc, List.singleton_append] at this
        rw [this]
        simp
      have e3 : (cdone ++ List.replicate ((y' :: ys).length + 1 - 1) 0).set pre.length c =
          (cdone ++ [c]) ++ List.replicate ((y' :: ys).length - 1) 0 := by
        rw [Nat.add_sub_cancel, List.length_cons, List.replicate_succ, ← hc, set_append]
        simp
      rw [e1, e2, e3]
      have := ih (pre ++ [y]) (done ++ [r.1]) (pdone ++ [first]) (cdone ++ [c]) r'.1 (by simp [hd]) (by simp [hp]) (by simp [hc]) r'.2 (by simp)
      simp only [List.length_append, List.length_singleton, List.append_assoc, List.singleton_append] at this
      simp only [py_bind_ok, py_pure, List.append_assoc, List.singleton_append]
      rw [this, py_bind_assoc]
      rfl

/-- The schedule with predictions is the schedule. -/
theorem scheduleWith_schedule {M C : Type} {correct : Y → σ → Py (M × σ)} {predict : σ → Py (M × σ)} {cross : σ → Py C} {y : List Y} {s : σ}
    {ms : List M} {prs : List (M × C)} {s' : σ} (h : Spec.scheduleWith correct predict cross y s = .ok (ms, prs, s')) :
    Spec.schedule correct predict y s = .ok (ms, s') ∧ ms.length = y.length ∧ prs.length = y.length - 1 := by
  induction y generalizing s ms prs with
  | nil => simp only [Spec.scheduleWith] at h; cases h; exact ⟨rfl, rfl, rfl⟩
  | cons y ys ih =>
    cases ys with
    | nil =>
      simp only [Spec.scheduleWith, Spec.schedule] at h ⊢
      cases hc : correct y s with
      | error e => rw [hc] at h; cases h
      | ok r => rw [hc] at h; cases h; exact ⟨rfl, rfl, rfl⟩
    | cons y' ys =>
      simp only [Spec.scheduleWith, Spec.schedule] at h ⊢
      cases hc : correct y s with
      | error e => rw [hc] at h; cases h
      | ok r =>
        rw [hc] at h
        simp only [py_bind_ok] at h ⊢
        cases hp : predict r.2 with
        | error e => rw [hp] at h; cases h
        | ok r' =>
          rw [hp] at h
          simp only [py_bind_ok] at h ⊢
          cases hx : cross r'.2 with
          | error e => rw [hx] at h; cases h
          | ok c =>
            rw [hx] at h
            simp only [py_bind_ok] at h
            cases hr : Spec.scheduleWith correct predict cross (y' :: ys) r'.2 with
            | error e => rw [hr] at h; cases h
            | ok r'' =>
              obtain ⟨ms', prs', s''⟩ := r''
              rw [hr] at h
              cases h
              obtain ⟨h1, h2, h3⟩ := ih hr
              rw [h1]
              refine ⟨rfl, by simp [h2], ?_⟩
              rw [List.length_cons, h3]
              simp

theorem sandwich_eq {n m : Type} [Fintype m] (K : Matrix n m ℝ) (D : Matrix m m ℝ) :
    (Matrix.of fun i l => ∑ j, ∑ k, K i j * D j k * K l k) = K * D * Kᵀ := by
  ext i l
  simp only [Matrix.of_apply, Matrix.mul_apply, Matrix.transpose_apply, Finset.sum_mul]
  exact Finset.sum_comm

theorem smootherCorrection_ok {xp : Fin nx → ℝ} {Pp Pxf : Matrix (Fin nx) (Fin nx) ℝ} {xs : Fin nx → ℝ} {Ps : Matrix (Fin nx) (Fin nx) ℝ}
    {r : Moments nx} (h : smootherCorrection xp Pp Pxf xs Ps = .ok r) (m : Moments nx) :
    Spec.SmoothStep m (xp, Pp) Pxf (xs, Ps) (m.1 + r.1, m.2 + r.2) := by
  unfold smootherCorrection npInv at h
  by_cases hdet : Pp.det = 0
  · rw [if_pos hdet] at h; cases h
  · rw [if_neg hdet] at h
    simp only [py_bind_ok, py_pure] at h
    have h := Except.ok.inj h
    refine ⟨isUnit_iff_ne_zero.2 hdet, ?_⟩
    rw [← h]
    refine Prod.ext ?_ ?_
    · rfl
    · exact congrArg (m.2 + ·) (sandwich_eq _ _)

theorem smootherCorrection_of {xp : Fin nx → ℝ} {Pp : Matrix (Fin nx) (Fin nx) ℝ} (hdet : Pp.det ≠ 0) (Pxf : Matrix (Fin nx) (Fin nx) ℝ)
    (xs : Fin nx → ℝ) (Ps : Matrix (Fin nx) (Fin nx) ℝ) : ∃ r, smootherCorrection xp Pp Pxf xs Ps = .ok r := by
  unfold smootherCorrection npInv
  rw [if_neg hdet]
  exact ⟨_, rfl⟩

theorem row_ok {l : List Y} {k : Nat} {a : Y} (h : row l k = .ok a) : l[k]? = some a := by
  unfold row at h
  cases hl : l[k]? with
  | none => rw [hl] at h; cases h
  | some b => rw [hl] at h; cases h; rfl

theorem row_some {l : List Y} {k : Nat} {a : Y} (h : l[k]? = some a) : row l k = .ok a := by
  unfold row
  rw [h]

theorem row_of_lt {l : List Y} {k : Nat} (h : k < l.length) : row l k = .ok l[k] := row_some (List.getElem?_eq_getElem h)

/-- The backward loop. -/
theorem backward_ok {pred : List (Moments nx)} {cross : List (Matrix (Fin nx) (Fin nx) ℝ)} {n : Nat} {m sm : List (Moments nx)}
    (h : (List.range' 1 n).reverse.foldlM (smoothBackward pred cross) m = .ok sm) :
    sm.length = m.length ∧ (∀ i, n ≤ i → sm[i]? = m[i]?) ∧ ∀ k, k < n → ∃ mk pr c sm' smk, m[k]? = some mk ∧ pred[k + 1]? = some pr ∧
      cross[k]? = some c ∧ sm[k + 1]? = some sm' ∧ sm[k]? = some smk ∧ Spec.SmoothStep mk pr c sm' smk := by
  induction n generalizing m with
  | zero => cases h; exact ⟨rfl, fun _ _ => rfl, fun k hk => absurd hk (Nat.not_lt_zero k)⟩
  | succ n ih =>
    rw [List.range'_concat, List.reverse_append, List.reverse_singleton, List.singleton_append, List.foldlM_cons] at h
    obtain ⟨m1, hb, h⟩ := py_bind_eq_ok h
    obtain ⟨hl, hge, hlt⟩ := ih h
    have en : 1 + 1 * n = n + 1 := by omega
    rw [en] at hb
    unfold smoothBackward at hb
    rw [Nat.add_sub_cancel] at hb
    obtain ⟨pr, hpr, hb⟩ := py_bind_eq_ok hb
    obtain ⟨c, hcr, hb⟩ := py_bind_eq_ok hb
    obtain ⟨mk1, hm1, hb⟩ := py_bind_eq_ok hb
    obtain ⟨inc, hinc, hb⟩ := py_bind_eq_ok hb
    obtain ⟨mk, hm, hb⟩ := py_bind_eq_ok hb
    have hpr := row_ok hpr
    have hcr := row_ok hcr
    have hm1 := row_ok hm1
    have hm := row_ok hm
    have hb := Except.ok.inj hb
    have hn1 : n + 1 < m.length := (List.getElem?_eq_some_iff.1 hm1).1
    have hset : m1[n]? = some (mk.1 + inc.1, mk.2 + inc.2) := by rw [← hb, List.getElem?_set_self (by omega)]
    have hother : ∀ i, i ≠ n → m1[i]? = m[i]? := fun i hi => by rw [← hb, List.getElem?_set_ne (Ne.symm hi)]
    refine ⟨by rw [hl, ← hb, List.length_set], fun i hi => by rw [hge i (by omega), hother i (by omega)], fun k hk => ?_⟩
    rcases Nat.lt_succ_iff_lt_or_eq.1 hk with hk | rfl
    · obtain ⟨mk', pr', c', sm', smk, h1, h2⟩ := hlt k hk
      exact ⟨mk', pr', c', sm', smk, by rw [← h1, hother k (by omega)], h2⟩
    · exact ⟨mk, pr, c, mk1, _, hm, hpr, hcr, by rw [hge (k + 1) (by omega), hother (k + 1) (by omega), hm1], by rw [hge k le_rfl, hset],
        smootherCorrection_ok hinc mk⟩

/-- The backward loop does not raise when the predicted covariances are invertible. -/
theorem backward_of {pred : List (Moments nx)} {cross : List (Matrix (Fin nx) (Fin nx) ℝ)} {n : Nat} {m : List (Moments nx)}
    (hm : n < m.length) (hp : n < pred.length) (hc : n ≤ cross.length) (hdet : ∀ k pr, k < n → pred[k + 1]? = some pr → pr.2.det ≠ 0) :
    ∃ sm, (List.range' 1 n).reverse.foldlM (smoothBackward pred cross) m = .ok sm := by
  induction n generalizing m with
  | zero => exact ⟨m, rfl⟩
  | succ n ih =>
    rw [List.range'_concat, List.reverse_append, List.reverse_singleton, List.singleton_append, List.foldlM_cons]
    have en : 1 + 1 * n = n + 1 := by omega
    rw [en]
    conv => enter [1, sm, 1, 1]; unfold smoothBackward
    rw [Nat.add_sub_cancel, row_of_lt hp, row_of_lt (by omega : n < cross.length), row_of_lt hm, row_of_lt (by omega : n < m.length)]
    simp only [py_bind_ok]
    obtain ⟨r, hr⟩ := smootherCorrection_of (hdet n _ (Nat.lt_succ_self n) (List.getElem?_eq_getElem hp)) cross[n] m[n + 1].1 m[n + 1].2 (xp := pred[n + 1].1)
    rw [hr]
    exact ih (by rw [List.length_set]; omega) (by omega) (by omega) fun k pr hk => hdet k pr (by omega)

theorem smooth_eq {y : List Y} (hy : y ≠ []) (s : σ) : F.smooth y s =
    (Spec.scheduleWith F.correct F.predict F.predictionCrosscov y s >>= fun r =>
      (List.range' 1 (y.length - 1)).reverse.foldlM
        (smoothBackward (((F.attrs s).x, (F.attrs s).Px) :: r.2.1.map Prod.fst) (r.2.1.map Prod.snd)) r.1 >>= fun m => .ok (m, r.2.2)) := by
  have := forward_from F y [] [] [] [] ((F.attrs s).x, (F.attrs s).Px) rfl rfl rfl s hy
  simp only [List.length_nil, List.nil_append] at this
  unfold FilterClass.smooth
  have h0 : y.length ≠ 0 := fun h => hy (List.length_eq_zero_iff.1 h)
  have e : (List.replicate y.length ((0 : Fin nx → ℝ), (0 : Matrix (Fin nx) (Fin nx) ℝ))).set 0 ((F.attrs s).x, (F.attrs s).Px) =
      ((F.attrs s).x, (F.attrs s).Px) :: List.replicate (y.length - 1) (0, 0) := by
    obtain ⟨n, hn⟩ := Nat.exists_eq_succ_of_ne_zero h0
    rw [hn]
    rfl
  rw [if_neg h0, List.range_eq_range', e]
  dsimp only
  rw [this, py_bind_assoc]
  rfl

/-- What is known of a `smooth` that returns. -/
theorem smooth_ok {y : List Y} {s s' : σ} {sm : List (Moments nx)} (h : F.smooth y s = .ok (sm, s')) :
    ∃ ms prs, Spec.scheduleWith F.correct F.predict F.predictionCrosscov y s = .ok (ms, prs, s') ∧ y ≠ [] ∧ sm.length = y.length ∧
      sm[y.length - 1]? = ms[y.length - 1]? ∧ ∀ k, k + 1 < y.length → ∃ mk pr sm' smk, ms[k]? = some mk ∧ prs[k]? = some pr ∧
        sm[k + 1]? = some sm' ∧ sm[k]? = some smk ∧ Spec.SmoothStep mk pr.1 pr.2 sm' smk := by
  have hy : y ≠ [] := by
    rintro rfl
    unfold FilterClass.smooth at h
    cases h
  rw [smooth_eq F hy] at h
  obtain ⟨⟨ms, prs, s''⟩, hs, h⟩ := py_bind_eq_ok h
  obtain ⟨m, hb, h⟩ := py_bind_eq_ok h
  cases h
  obtain ⟨h1, h2, h3⟩ := backward_ok hb
  obtain ⟨_, hl, hp⟩ := scheduleWith_schedule hs
  have hpos : 0 < y.length := List.length_pos_iff.2 hy
  refine ⟨ms, prs, hs, hy, by rw [h1, hl], h2 _ le_rfl, fun k hk => ?_⟩
  obtain ⟨mk, pr, c, sm', smk, g1, g2, g3, g4, g5, g6⟩ := h3 k (by omega)
  rw [List.getElem?_cons_succ, List.getElem?_map] at g2
  rw [List.getElem?_map] at g3
  have hkp : k < prs.length := by rw [hp]; omega
  rw [List.getElem?_eq_getElem hkp] at g2 g3
  refine ⟨mk, prs[k], sm', smk, g1, List.getElem?_eq_getElem hkp, g4, g5, ?_⟩
  cases g2
  cases g3
  exact g6

/-- A `smooth` returns when the forward pass does and the predicted covariances are invertible. -/
theorem smooth_of {y : List Y} (hy : y ≠ []) {s s' : σ} {ms : List (Moments nx)} {prs : List (Moments nx × Matrix (Fin nx) (Fin nx) ℝ)}
    (h : Spec.scheduleWith F.correct F.predict F.predictionCrosscov y s = .ok (ms, prs, s')) (hdet : ∀ pr ∈ prs, pr.1.2.det ≠ 0) :
    ∃ sm, F.smooth y s = .ok (sm, s') := by
  obtain ⟨_, hl, hp⟩ := scheduleWith_schedule h
  have hpos : 0 < y.length := List.length_pos_iff.2 hy
  rw [smooth_eq F hy, h]
  simp only [py_bind_ok]
  obtain ⟨sm, hsm⟩ := backward_of (n := y.length - 1) (pred := ((F.attrs s).x, (F.attrs s).Px) :: prs.map Prod.fst) (cross := prs.map Prod.snd)
    (m := ms) (by omega) (by simp [hp]) (by simp [hp]) (fun k pr hk hpr => by
      rw [List.getElem?_cons_succ, List.getElem?_map] at hpr
      have hkp : k < prs.length := by rw [hp]; omega
      rw [List.getElem?_eq_getElem hkp] at hpr
      cases hpr
      exact hdet _ (List.getElem_mem hkp))
  rw [hsm]
  exact ⟨sm, rfl⟩

/-- Splitting the schedule. -/
theorem schedule_append {M : Type} (correct : Y → σ → Py (M × σ)) (predict : σ → Py (M × σ)) (y z : List Y) (hy : y ≠ []) (hz : z ≠ []) (s : σ) :
    Spec.schedule correct predict (y ++ z) s = (do
      let (ms, s) ← Spec.schedule correct predict y s
      let (_, s) ← predict s
      let (ms', s) ← Spec.schedule correct predict z s
      return (ms ++ ms', s)) := by
  induction y generalizing s with
  | nil => exact absurd rfl hy
  | cons a y ih =>
    cases y with
    | nil =>
      cases z with
      | nil => exact absurd rfl hz
      | cons b z =>
        simp only [List.singleton_append, Spec.schedule]
        rw [py_bind_assoc]
        rfl
    | cons b y =>
      simp only [List.cons_append, Spec.schedule] at ih ⊢
      rw [py_bind_assoc]
      refine py_bind_congr fun r _ => ?_
      rw [py_bind_assoc]
      refine py_bind_congr fun r' _ => ?_
      rw [ih (by simp)]
      simp only [py_bind_assoc]
      refine py_bind_congr fun r'' _ => ?_
      refine py_bind_congr fun r3 _ => ?_
      refine py_bind_congr fun r4 _ => ?_
      rfl

theorem schedule_length {M : Type} {correct : Y → σ → Py (M × σ)} {predict : σ → Py (M × σ)} {y : List Y} {s s' : σ} {ms : List M}
    (h : Spec.schedule correct predict y s = .ok (ms, s')) : ms.length = y.length := by
  induction y generalizing s ms with
  | nil => cases h; rfl
  | cons a y ih =>
    cases y with
    | nil =>
      obtain ⟨r, hr, h⟩ := py_bind_eq_ok h
      cases h
      rfl
    | cons b y =>
      obtain ⟨r, hr, h⟩ := py_bind_eq_ok h
      obtain ⟨r', hr', h⟩ := py_bind_eq_ok h
      obtain ⟨r'', hr'', h⟩ := py_bind_eq_ok h
      cases h
      rw [List.length_cons, ih hr'']
      rfl

/-- What every call keeps or changes, over the schedule. -/
theorem schedule_count {M : Type} {correct : Y → σ → Py (M × σ)} {predict : σ → Py (M × σ)} (k : σ → ℤ)
    (hc : ∀ y s m s', correct y s = .ok (m, s') → k s' = k s) (hp : ∀ s m s', predict s = .ok (m, s') → k s' = k s + 1)
    {y : List Y} {s s' : σ} {ms : List M} (h : Spec.schedule correct predict y s = .ok (ms, s')) :
    k s' = k s + ((y.length - 1 : ℕ) : ℤ) ∧ ms.length = y.length := by
  induction y generalizing s ms with
  | nil => cases h; simp
  | cons a y ih =>
    cases y with
    | nil =>
      obtain ⟨r, hr, h⟩ := py_bind_eq_ok h
      cases h
      simp [hc _ _ _ _ hr]
    | cons b y =>
      obtain ⟨r, hr, h⟩ := py_bind_eq_ok h
      obtain ⟨r', hr', h⟩ := py_bind_eq_ok h
      obtain ⟨r'', hr'', h⟩ := py_bind_eq_ok h
      cases h
      obtain ⟨h1, h2⟩ := ih hr''
      rw [h1, hp _ _ _ hr', hc _ _ _ _ hr]
      refine ⟨?_, by rw [List.length_cons, h2]; rfl⟩
      simp
      ring

/-! ### Two filters that do the same -/

section sim
variable {τ M C : Type} {c₁ : Y → σ → Py (M × σ)} {p₁ : σ → Py (M × σ)} {x₁ : σ → Py C} {c₂ : Y → τ → Py (M × τ)} {p₂ : τ → Py (M × τ)}
  {x₂ : τ → Py C} (Rel : σ → τ → Prop)

theorem scheduleWith_sim (hc : ∀ y s t m s', Rel s t → c₁ y s = .ok (m, s') → ∃ t', c₂ y t = .ok (m, t') ∧ Rel s' t')
    (hp : ∀ s t m s', Rel s t → p₁ s = .ok (m, s') → ∃ t', p₂ t = .ok (m, t') ∧ Rel s' t' ∧ ∀ c, x₁ s' = .ok c → x₂ t' = .ok c)
    {y : List Y} {s s' : σ} {t : τ} {ms : List M} {prs : List (M × C)} (hst : Rel s t) (h : Spec.scheduleWith c₁ p₁ x₁ y s = .ok (ms, prs, s')) :
    ∃ t', Spec.scheduleWith c₂ p₂ x₂ y t = .ok (ms, prs, t') ∧ Rel s' t' := by
  induction y generalizing s t ms prs with
  | nil => cases h; exact ⟨t, rfl, hst⟩
  | cons a y ih =>
    cases y with
    | nil =>
      obtain ⟨r, hr, h⟩ := py_bind_eq_ok h
      cases h
      obtain ⟨t', ht, hR⟩ := hc _ _ _ _ _ hst hr
      exact ⟨t', by simp only [Spec.scheduleWith, ht]; rfl, hR⟩
    | cons b y =>
      obtain ⟨r, hr, h⟩ := py_bind_eq_ok h
      obtain ⟨r', hr', h⟩ := py_bind_eq_ok h
      obtain ⟨c, hcr, h⟩ := py_bind_eq_ok h
      obtain ⟨r'', hr'', h⟩ := py_bind_eq_ok h
      cases h
      obtain ⟨t1, ht1, hR1⟩ := hc _ _ _ _ _ hst hr
      obtain ⟨t2, ht2, hR2, hx⟩ := hp _ _ _ _ hR1 hr'
      obtain ⟨t3, ht3, hR3⟩ := ih hR2 hr''
      refine ⟨t3, ?_, hR3⟩
      simp only [Spec.scheduleWith, ht1, py_bind_ok, ht2, hx c hcr] at ht3 ⊢
      rw [ht3]
      rfl

theorem schedule_sim (hc : ∀ y s t m s', Rel s t → c₁ y s = .ok (m, s') → ∃ t', c₂ y t = .ok (m, t') ∧ Rel s' t')
    (hp : ∀ s t m s', Rel s t → p₁ s = .ok (m, s') → ∃ t', p₂ t = .ok (m, t') ∧ Rel s' t')
    {y : List Y} {s s' : σ} {t : τ} {ms : List M} (hst : Rel s t) (h : Spec.schedule c₁ p₁ y s = .ok (ms, s')) :
    ∃ t', Spec.schedule c₂ p₂ y t = .ok (ms, t') ∧ Rel s' t' := by
  induction y generalizing s t ms with
  | nil => cases h; exact ⟨t, rfl, hst⟩
  | cons a y ih =>
    cases y with
    | nil =>
      obtain ⟨r, hr, h⟩ := py_bind_eq_ok h
      cases h
      obtain ⟨t', ht, hR⟩ := hc _ _ _ _ _ hst hr
      exact ⟨t', by simp only [Spec.schedule, ht]; rfl, hR⟩
    | cons b y =>
      obtain ⟨r, hr, h⟩ := py_bind_eq_ok h
      obtain ⟨r', hr', h⟩ := py_bind_eq_ok h
      obtain ⟨r'', hr'', h⟩ := py_bind_eq_ok h
      cases h
      obtain ⟨t1, ht1, hR1⟩ := hc _ _ _ _ _ hst hr
      obtain ⟨t2, ht2, hR2⟩ := hp _ _ _ _ hR1 hr'
      obtain ⟨t3, ht3, hR3⟩ := ih hR2 hr''
      refine ⟨t3, ?_, hR3⟩
      simp only [Spec.schedule, ht1, py_bind_ok, ht2] at ht3 ⊢
      rw [ht3]
      rfl

theorem smooth_sim {F : FilterClass nx Y p σ} {p' : Type} {G : FilterClass nx Y p' τ}
    (ha : ∀ s t, Rel s t → (F.attrs s).x = (G.attrs t).x ∧ (F.attrs s).Px = (G.attrs t).Px)
    (hc : ∀ y s t m s', Rel s t → F.correct y s = .ok (m, s') → ∃ t', G.correct y t = .ok (m, t') ∧ Rel s' t')
    (hp : ∀ s t m s', Rel s t → F.predict s = .ok (m, s') → ∃ t', G.predict t = .ok (m, t') ∧ Rel s' t' ∧
      ∀ c, F.predictionCrosscov s' = .ok c → G.predictionCrosscov t' = .ok c)
    {y : List Y} {s s' : σ} {t : τ} {sm : List (Moments nx)} (hst : Rel s t) (h : F.smooth y s = .ok (sm, s')) :
    ∃ t', G.smooth y t = .ok (sm, t') ∧ Rel s' t' := by
  obtain ⟨ms, prs, h1, hy, -⟩ := smooth_ok F h
  obtain ⟨t', h2, hR⟩ := scheduleWith_sim Rel hc hp hst h1
  refine ⟨t', ?_, hR⟩
  rw [smooth_eq F hy, h1] at h
  rw [smooth_eq G hy, h2, ← (ha s t hst).1, ← (ha s t hst).2]
  simp only [py_bind_ok] at h ⊢
  obtain ⟨m, hm, h⟩ := py_bind_eq_ok h
  cases h
  rw [hm]
  rfl

/-- A schedule whose calls return under an invariant returns. -/
theorem scheduleWith_returns (I : σ → Prop) (hc : ∀ y s, I s → ∃ m s', c₁ y s = .ok (m, s') ∧ I s')
    (J : M → Prop) (hp : ∀ s, I s → ∃ m s' c, p₁ s = .ok (m, s') ∧ I s' ∧ J m ∧ x₁ s' = .ok c) (y : List Y) {s : σ} (hs : I s) :
    ∃ ms prs s', Spec.scheduleWith c₁ p₁ x₁ y s = .ok (ms, prs, s') ∧ I s' ∧ ∀ pr ∈ prs, J pr.1 := by
  induction y generalizing s with
  | nil => exact ⟨[], [], s, rfl, hs, by simp⟩
  | cons a y ih =>
    obtain ⟨m, s1, h1, hI1⟩ := hc a s hs
    cases y with
    | nil => exact ⟨[m], [], s1, by simp only [Spec.scheduleWith, h1]; rfl, hI1, by simp⟩
    | cons b y =>
      obtain ⟨pr, s2, c, h2, hI2, hJ, h3⟩ := hp s1 hI1
      obtain ⟨ms, prs, s3, h4, hI3, hJs⟩ := ih hI2
      refine ⟨m :: ms, (pr, c) :: prs, s3, ?_, hI3, ?_⟩
      · simp only [Spec.scheduleWith, h1, py_bind_ok, h2, h3] at h4 ⊢
        rw [h4]
        rfl
      · intro q hq
        rcases List.mem_cons.1 hq with rfl | hq
        · exact hJ
        · exact hJs q hq

end sim

end Ceacoest
