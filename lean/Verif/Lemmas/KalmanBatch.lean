import Verif.Lemmas.Stack

/-! # The filters of a stack follow the filters of its entries -/

namespace Ceacoest
open Stack Matrix
variable {nx : Nat} {o p Y σ τ : Type} {s : List Nat} {ι A C A' C' : Type}

theorem Sim.error [Nonempty ι] {R : A → (ι → C) → Prop} (e e' : PyErr) : Sim R (.error e) fun _ : ι => .error e' :=
  ⟨fun v hv => by simp at hv, fun h => by obtain ⟨w, hw⟩ := h (Classical.arbitrary ι); simp at hw⟩

/-! ### Lists of stacks -/

/-- A list of stacks and the lists of their entries. -/
def RList (F : (ι → C) → A) (out : List A) (w : ι → List C) : Prop := ∃ l : List (ι → C), out = l.map F ∧ ∀ b, w b = l.map (· b)

theorem RList.set {F : (ι → C) → A} {out : List A} {w : ι → List C} (h : RList F out w) (k : Nat) (v : ι → C) :
    RList F (out.set k (F v)) fun b => (w b).set k (v b) := by
  obtain ⟨l, rfl, hl⟩ := h
  exact ⟨l.set k v, by rw [List.map_set], fun b => by dsimp only; rw [hl b, List.map_set]⟩

theorem RList.replicate {F : (ι → C) → A} (n : Nat) (v : ι → C) : RList F (List.replicate n (F v)) fun b => List.replicate n (v b) :=
  ⟨List.replicate n v, by simp, fun b => by simp⟩

theorem RList.row [Nonempty ι] {F : (ι → C) → A} {out : List A} {w : ι → List C} (h : RList F out w) (k : Nat) :
    Sim (fun v w => v = F w) (FilterClass.row out k) fun b => FilterClass.row (w b) k := by
  obtain ⟨l, rfl, hl⟩ := h
  unfold FilterClass.row
  simp only [hl, List.getElem?_map]
  cases l[k]? with
  | none => exact Sim.error _ _
  | some v => exact Sim.pure rfl

/-- A family of moments as a pair of stacks. -/
def bm (s : List Nat) (g : Fin s.prod → Moments nx) : BMoments nx := (arr s fun b => (g b).1, arr s fun b => (g b).2)

/-- A stack of moments; the covariances may be one matrix. -/
def RM (s : List Nat) (m : BMoments nx) (g : Fin s.prod → Moments nx) : Prop :=
  m.1 = arr s (fun b => (g b).1) ∧ Rep s m.2 fun b => (g b).2

theorem RM.store {m : BMoments nx} {g : Fin s.prod → Moments nx} (h : RM s m g) : BFilterClass.store s m = .ok (bm s g) := by
  unfold BFilterClass.store
  rw [h.1, (Rep.arr _).assigned, py_bind_ok, h.2.assigned]
  rfl

/-! ### base.py -/

/-- A filter class for stacks follows a filter class: `R` is the invariant. -/
structure Follows (s : List Nat) (B : BFilterClass nx Y τ) (F : FilterClass nx Y p σ) (R : τ → (Fin s.prod → σ) → Prop) : Prop where
  attrs : ∀ a t, R a t → RM s (B.x a, B.Px a) (fun b => ((F.attrs (t b)).x, (F.attrs (t b)).Px)) ∧
    Rep s (B.L a) fun b => (F.attrs (t b)).L
  correct : ∀ y a t, R a t → Sim (fun v w => RM s v.1 (fun b => (w b).1) ∧ R v.2 fun b => (w b).2) (B.correct y a) fun b => F.correct y (t b)
  predict : ∀ a t, R a t → Sim (fun v w => RM s v.1 (fun b => (w b).1) ∧ R v.2 fun b => (w b).2) (B.predict a) fun b => F.predict (t b)
  cross : ∀ a t, R a t → Sim (fun v w => v = arr s w) (B.predictionCrosscov a) fun b => F.predictionCrosscov (t b)
  likelihood : ∀ a t, R a t → Sim R (B.updateLikelihood a) fun b => F.updateLikelihood (t b)

theorem sim_smootherCorrection (xp : Fin s.prod → Fin nx → ℝ) (Pp C : Fin s.prod → Matrix (Fin nx) (Fin nx) ℝ)
    (xs : Fin s.prod → Fin nx → ℝ) (Ps : Fin s.prod → Matrix (Fin nx) (Fin nx) ℝ) :
    Sim (fun v w => v = bm s w) (BFilterClass.smootherCorrection (arr s xp) (arr s Pp) (arr s C) (arr s xs) (arr s Ps)) fun b =>
      FilterClass.smootherCorrection (xp b) (Pp b) (C b) (xs b) (Ps b) := by
  unfold BFilterClass.smootherCorrection FilterClass.smootherCorrection
  refine (sim_mapM npInv Pp).bind fun v w h => ?_
  subst h
  simp only [binop_arr, py_bind_ok, py_pure]
  exact Sim.pure rfl

variable [Nonempty (Fin s.prod)] {B : BFilterClass nx Y τ} {F : FilterClass nx Y p σ} {R : τ → (Fin s.prod → σ) → Prop}

theorem sim_row {ι : Type} [Nonempty ι] (y : List Y) (k : Nat) :
    Sim (fun v (w : ι → Y) => ∀ b, w b = v) (FilterClass.row y k) fun _ => FilterClass.row y k := by
  unfold FilterClass.row
  cases y[k]? with
  | none => exact Sim.error _ _
  | some v => exact Sim.pure fun _ => rfl

/-- The relation of what the loop of `filter` keeps. -/
def RF (s : List Nat) (R : τ → (Fin s.prod → σ) → Prop) (v : List (BMoments nx) × τ) (w : Fin s.prod → List (Moments nx) × σ) : Prop :=
  RList (bm s) v.1 (fun b => (w b).1) ∧ R v.2 fun b => (w b).2

theorem Follows.filterStep (h : Follows s B F R) (y : List Y) (k : Nat) (v : List (BMoments nx) × τ)
    (w : Fin s.prod → List (Moments nx) × σ) (hv : RF s R v w) :
    Sim (RF s R) (B.filterStep s y v k) fun b => F.filterStep y (w b) k := by
  obtain ⟨out, a⟩ := v
  obtain ⟨h1, h2⟩ := hv
  unfold BFilterClass.filterStep FilterClass.filterStep
  refine (sim_row y k).bind fun r r' hr => ?_
  simp only [hr]
  refine (h.correct r a _ h2).bind fun v w' hv => ?_
  simp only [hv.1.store, py_bind_ok]
  split
  · refine (h.predict v.2 _ hv.2).bind fun v' w'' hv' => ?_
    exact Sim.pure ⟨h1.set k _, hv'.2⟩
  · exact Sim.pure ⟨h1.set k _, hv.2⟩

theorem Follows.filter (h : Follows s B F R) (y : List Y) {a : τ} {t : Fin s.prod → σ} (ha : R a t) :
    Sim (RF s R) (B.filter y a) fun b => F.filter y (t b) := by
  unfold BFilterClass.filter FilterClass.filter
  have hs : (B.x a).shape = s := by
    have := (h.attrs a t ha).1.1
    dsimp only at this
    rw [this]
    rfl
  rw [hs]
  refine Sim.foldlM (g := B.filterStep s y) (h := fun _ => F.filterStep y) _ (fun k _ v w hv => h.filterStep y k v w hv)
    (w := fun b => (List.replicate y.length (0, 0), t b)) ⟨?_, ha⟩
  have := RList.replicate (F := bm s) y.length (fun _ : Fin s.prod => ((0, 0) : Moments nx))
  simpa [bm, zeros_arr] using this

/-- The relation of what the first loop of `smooth` keeps. -/
structure RS (s : List Nat) (R : τ → (Fin s.prod → σ) → Prop) (v : BFilterClass.SmoothArrays nx × τ)
    (w : Fin s.prod → FilterClass.SmoothArrays nx × σ) : Prop where
  m : RList (bm s) v.1.m fun b => (w b).1.m
  pred : RList (bm s) v.1.pred fun b => (w b).1.pred
  cross : RList (arr s) v.1.cross fun b => (w b).1.cross
  inv : R v.2 fun b => (w b).2

theorem Follows.smoothForward (h : Follows s B F R) (y : List Y) (k : Nat) (v : BFilterClass.SmoothArrays nx × τ)
    (w : Fin s.prod → FilterClass.SmoothArrays nx × σ) (hv : RS s R v w) :
    Sim (RS s R) (B.smoothForward s y v k) fun b => F.smoothForward y (w b) k := by
  obtain ⟨out, a⟩ := v
  obtain ⟨h1, h2, h3, h4⟩ := hv
  unfold BFilterClass.smoothForward FilterClass.smoothForward
  refine (sim_row y k).bind fun r r' hr => ?_
  simp only [hr]
  refine (h.correct r a _ h4).bind fun v w' hv => ?_
  simp only [hv.1.store, py_bind_ok]
  split
  · refine (h.predict v.2 _ hv.2).bind fun v' w'' hv' => ?_
    simp only [hv'.1.store, py_bind_ok]
    refine (h.cross v'.2 _ hv'.2).bind fun c c' hc => ?_
    subst hc
    rw [(Rep.arr _).assigned, py_bind_ok]
    exact Sim.pure ⟨h1.set k _, h2.set (k + 1) _, h3.set k _, hv'.2⟩
  · exact Sim.pure ⟨h1.set k _, h2, h3, hv.2⟩

theorem sim_smoothBackward {pred : List (BMoments nx)} {cross : List (NDArray (Matrix (Fin nx) (Fin nx) ℝ))}
    {pred' : Fin s.prod → List (Moments nx)} {cross' : Fin s.prod → List (Matrix (Fin nx) (Fin nx) ℝ)}
    (hp : RList (bm s) pred pred') (hc : RList (arr s) cross cross') (k : Nat) (m : List (BMoments nx)) (m' : Fin s.prod → List (Moments nx))
    (hm : RList (bm s) m m') :
    Sim (RList (bm s)) (BFilterClass.smoothBackward pred cross m k) fun b => FilterClass.smoothBackward (pred' b) (cross' b) (m' b) k := by
  unfold BFilterClass.smoothBackward FilterClass.smoothBackward
  refine (hp.row k).bind fun v1 w1 e1 => ?_
  subst e1
  refine (hc.row (k - 1)).bind fun v2 w2 e2 => ?_
  subst e2
  refine (hm.row k).bind fun v3 w3 e3 => ?_
  subst e3
  refine (sim_smootherCorrection _ _ _ _ _).bind fun v4 w4 e4 => ?_
  subst e4
  refine (hm.row (k - 1)).bind fun v5 w5 e5 => ?_
  subst e5
  simp only [bm, iadd_arr, py_bind_ok]
  exact Sim.pure (hm.set (k - 1) fun b => ((w5 b).1 + (w4 b).1, (w5 b).2 + (w4 b).2))

theorem Follows.smooth (h : Follows s B F R) (y : List Y) {a : τ} {t : Fin s.prod → σ} (ha : R a t) :
    Sim (RF s R) (B.smooth y a) fun b => F.smooth y (t b) := by
  unfold BFilterClass.smooth FilterClass.smooth
  by_cases hy : y.length = 0
  · simp only [hy, if_true]; exact Sim.error _ _
  simp only [hy, if_false]
  obtain ⟨h1, -⟩ := h.attrs a t ha
  have hs : (B.x a).shape = s := by
    have := h1.1
    dsimp only at this
    rw [this]
    rfl
  rw [hs, h1.store, py_bind_ok]
  have z : (NDArray.zeros s, NDArray.zeros s) = bm s (fun _ : Fin s.prod => ((0, 0) : Moments nx)) := by simp [bm, zeros_arr]
  rw [z]
  have z' : (NDArray.zeros s : NDArray (Matrix (Fin nx) (Fin nx) ℝ)) = arr s fun _ => 0 := zeros_arr
  rw [z']
  refine (Sim.foldlM (g := B.smoothForward s y) (h := fun _ => F.smoothForward y) (List.range y.length)
    (fun k _ v w hv => h.smoothForward y k v w hv)
    (w := fun b => (⟨List.replicate y.length (0, 0), (List.replicate y.length (0, 0)).set 0 ((F.attrs (t b)).x, (F.attrs (t b)).Px),
      List.replicate (y.length - 1) 0⟩, t b)) ⟨RList.replicate _ _, (RList.replicate _ _).set 0 _, RList.replicate _ _, ha⟩).bind
    fun v w hv => ?_
  refine (Sim.foldlM (R := RList (bm s)) (g := BFilterClass.smoothBackward v.1.pred v.1.cross)
    (h := fun b => FilterClass.smoothBackward (w b).1.pred (w b).1.cross) _
    (fun k _ m m' hm => sim_smoothBackward hv.pred hv.cross k m m' hm) hv.m).bind fun m m' hm => ?_
  exact Sim.pure ⟨hm, hv.inv⟩

theorem Follows.meritStep (h : Follows s B F R) (y : List Y) (k : Nat) (v : τ) (w : Fin s.prod → σ) (hv : R v w) :
    Sim R (B.meritStep y v k) fun b => F.meritStep y (w b) k := by
  unfold BFilterClass.meritStep FilterClass.meritStep
  refine (sim_row y k).bind fun r r' hr => ?_
  simp only [hr]
  refine (h.correct r v _ hv).bind fun v w' hv => ?_
  refine (h.likelihood v.2 _ hv.2).bind fun v' w'' hv' => ?_
  split
  · refine (h.predict v' _ hv').bind fun v' w'' hv' => ?_
    exact Sim.pure hv'.2
  · exact Sim.pure hv'

theorem Follows.pemMerit (h : Follows s B F R) (y : List Y) {a : τ} {t : Fin s.prod → σ} (ha : R a t) :
    Sim (fun v w => Rep s v.1 (fun b => (w b).1) ∧ R v.2 fun b => (w b).2) (B.pemMerit y a) fun b => F.pemMerit y (t b) := by
  unfold BFilterClass.pemMerit FilterClass.pemMerit
  refine (Sim.foldlM (R := R) (g := B.meritStep y) (h := fun _ => F.meritStep y) _ (fun k _ v w hv => h.meritStep y k v w hv) ha).bind
    fun v w hv => ?_
  exact Sim.pure ⟨(h.attrs v w hv).2, hv⟩

/-! ### extended.py -/

section EKF
variable [Fintype o] [LinearOrder o]

/-- The extended filter of a stack and those of its entries. -/
structure REKF (s : List Nat) (a : BEKF nx) (t : Fin s.prod → EKF nx o p) : Prop where
  x : a.x = arr s fun b => (t b).x
  Px : Rep s a.Px fun b => (t b).Px
  k : ∀ b, (t b).k = a.k
  L : Rep s a.L fun b => (t b).L
  Pxf : (a.Pxf = none ∧ ∀ b, (t b).Pxf = none) ∨ ∃ g : Fin s.prod → Matrix (Fin nx) (Fin nx) ℝ, a.Pxf = some (arr s g) ∧
    ∀ b, (t b).Pxf = some (g b)
  last : match a.last with
    | .never => ∀ b, (t b).last = .never
    | .masked => ∀ b, (t b).last = .masked
    | .data => ∀ b, ∃ y d, (t b).last = .data y d

omit [Nonempty (Fin s.prod)] [Fintype o] [LinearOrder o] in
theorem sim_ekf_predict (M : KModel nx o p) (a : BEKF nx) (t : Fin s.prod → EKF nx o p) (h : REKF s a t) :
    Sim (fun v w => RM s v.1 (fun b => (w b).1) ∧ REKF s v.2 fun b => (w b).2) (BEKF.predict M a) fun b => EKF.predict M (t b) := by
  unfold BEKF.predict EKF.predict
  simp only [h.x, map_arr, h.Px.binop_left, binop_arr, py_bind_ok]
  refine Sim.pure ⟨⟨?_, ?_⟩, ?_, ?_, ?_, h.L, .inr ⟨_, rfl, ?_⟩, h.last⟩
  all_goals try simp only [h.k]
  · exact .inl rfl
  · exact .inl rfl
  · exact fun _ => trivial
  · exact fun _ => trivial

theorem sim_ekf_correct (M : KModel nx o p) (y : MaskedRow o) (a : BEKF nx) (t : Fin s.prod → EKF nx o p) (h : REKF s a t) :
    Sim (fun v w => RM s v.1 (fun b => (w b).1) ∧ REKF s v.2 fun b => (w b).2) (BEKF.correct M y a) fun b => EKF.correct M y (t b) := by
  unfold BEKF.correct EKF.correct
  by_cases hm : ∀ j, y.mask j = true
  · simp only [if_pos hm]
    exact Sim.pure ⟨⟨h.x, h.Px⟩, h.x, h.Px, h.k, h.L, h.Pxf, fun _ => rfl⟩
  simp only [if_neg hm]
  unfold EKF.core
  simp only [h.x, map_arr, h.Px.binop_left, binop_arr, binop_arr_one, binop_one_arr, py_bind_ok, py_bind_assoc, h.k]
  refine (sim_mapM npInv _).bind fun v w hv => ?_
  subst hv
  simp only [binop_arr, h.Px.binop_left, py_bind_ok, py_pure]
  exact Sim.pure ⟨⟨rfl, .inl rfl⟩, rfl, .inl rfl, fun _ => rfl, h.L, h.Pxf, fun _ => ⟨_, _, rfl⟩⟩

theorem ekf_follows (M : KModel nx o p) : Follows s (BEKF.cls M) (EKF.cls M) (REKF s) where
  attrs a t h := ⟨⟨h.x, h.Px⟩, h.L⟩
  correct y a t h := sim_ekf_correct M y a t h
  predict a t h := sim_ekf_predict M a t h
  cross a t h := by
    show Sim _ (BEKF.predictionCrosscov a) fun b => EKF.predictionCrosscov (t b)
    unfold BEKF.predictionCrosscov EKF.predictionCrosscov
    rcases h.Pxf with ⟨h1, h2⟩ | ⟨g, h1, h2⟩
    · simp only [h1, h2]; exact Sim.error _ _
    · simp only [h1, h2]; exact Sim.pure rfl
  likelihood a t h := by
    show Sim _ (BEKF.updateLikelihood a) fun b => EKF.updateLikelihood (t b)
    unfold BEKF.updateLikelihood EKF.updateLikelihood
    have hl := h.last
    cases hc : a.last with
    | never => rw [hc] at hl; simp only [hl]; exact Sim.error _ _
    | masked => rw [hc] at hl; simp only [hl]; exact Sim.pure h
    | data =>
      rw [hc] at hl
      choose y d e using hl
      simp only [e]
      exact Sim.error _ _

end EKF

/-! ### unscented.py -/

section UKF
variable [Fintype o] [LinearOrder o]

/-- What the transform of a stack saves and what those of its entries save. -/
structure RUT {n a : Type} {ns : Nat} (s : List Nat) (v : BUTData n a) (w : Fin s.prod → UTData ns n a) : Prop where
  S : v.S = arr s fun b => (w b).S
  isigma : v.isigma = arr2 ns s fun k b => (w b).isigma k
  idev : v.idev = arr2 ns s fun k b => (w b).idev k
  odev : v.odev = arr2 ns s fun k b => (w b).odev k
  mean : v.mean = arr s fun b => (w b).mean
  Po : v.Po = arr s fun b => (w b).Po

omit [Nonempty (Fin s.prod)] in
theorem sim_sigmaPoints (ut : UT nx) (hns : 2 * nx ≤ ut.nsigma) (i : Fin s.prod → Fin nx → ℝ) (P : Fin s.prod → Matrix (Fin nx) (Fin nx) ℝ) :
    Sim (fun v w => v.1 = arr s (fun b => (w b).1) ∧ v.2.1 = arr2 ut.nsigma s (fun k b => (w b).2.1 k) ∧
        v.2.2 = arr2 ut.nsigma s fun k b => (w b).2.2 k)
      (ut.bSigmaPoints (arr s i) (arr s P)) fun b => ut.sigmaPoints (i b) (P b) := by
  unfold UT.bSigmaPoints UT.sigmaPoints
  rw [map_arr]
  refine (sim_mapM ut.sqrt _).bind fun v w hv => ?_
  subst hv
  simp only [map_arr, rollRows_arr, map_arr2]
  rw [show (arr s i).shape = s from rfl, zeros_arr2, setRows_arr2 (by omega), py_bind_ok, setRows_arr2 (by omega), py_bind_ok,
    binop_arr2_arr, py_bind_ok]
  have e : ∀ (k : Fin ut.nsigma) (b : Fin s.prod), (if hk : nx ≤ k.1 ∧ k.1 < nx + nx then -w b ⟨k.1 - nx, by omega⟩ else
      if hk : 0 ≤ k.1 ∧ k.1 < 0 + nx then w b ⟨k.1 - 0, by omega⟩ else 0) = UT.spread ut.nsigma (fun r => w b r) k := by
    intro k b
    unfold UT.spread
    by_cases h1 : k.1 < nx
    · rw [dif_neg (by omega), dif_pos ⟨by omega, by omega⟩, dif_pos h1]; rfl
    · rw [dif_neg h1]
      by_cases h2 : k.1 < 2 * nx
      · rw [dif_pos ⟨by omega, by omega⟩, dif_pos h2]
      · rw [dif_neg (by omega), dif_neg (by omega), dif_neg h2]
  refine Sim.pure ⟨rfl, ?_, ?_⟩
  · dsimp only
    congr 1
    funext k b
    exact e k b
  · dsimp only
    congr 1
    funext k b
    rw [← e k b]

omit [Nonempty (Fin s.prod)] in
theorem sim_transform {a : Type} [Fintype a] (ut : UT nx) (hns : 2 * nx ≤ ut.nsigma) (i : Fin s.prod → Fin nx → ℝ)
    (P : Fin s.prod → Matrix (Fin nx) (Fin nx) ℝ) (f : (Fin nx → ℝ) → a → ℝ) :
    Sim (RUT s) (ut.bTransform (arr s i) (arr s P) f) fun b => ut.transform (i b) (P b) f := by
  unfold UT.bTransform UT.transform
  refine (sim_sigmaPoints ut hns i P).bind fun v w hv => ?_
  obtain ⟨v0, v1, v2⟩ := v
  obtain ⟨h0, h1, h2⟩ := hv
  dsimp only at h0 h1 h2
  subst h0 h1 h2
  dsimp only
  rw [map_arr2, sumRows_arr2, py_bind_ok, binop_arr2_arr, py_bind_ok, binop_arr2, py_bind_ok, sumRows_arr2, py_bind_ok]
  have e : ∀ b, (∑ k, fun j => ut.weights k * f ((w b).2.2 k) j) = fun j => ∑ k, ut.weights k * f ((w b).2.2 k) j := by
    intro b; funext j; simp
  refine Sim.pure ⟨rfl, rfl, rfl, ?_, ?_, ?_⟩
  · simp only [e]
  · simp only [e]
  · simp only [e]
    congr 1
    funext b
    ext i j
    simp [Matrix.sum_apply]

omit [Nonempty (Fin s.prod)] in
theorem RUT.crosscov {a : Type} [Fintype a] {ut : UT nx} {v : BUTData (Fin nx) a} {w : Fin s.prod → UTData ut.nsigma (Fin nx) a}
    (h : RUT s v w) : ut.bCrosscov v = .ok (arr s fun b => ut.crosscov (w b)) := by
  unfold UT.bCrosscov UT.crosscov
  rw [h.idev, h.odev, binop_arr2, py_bind_ok, sumRows_arr2]
  congr 2
  funext b
  ext i j
  simp [Matrix.sum_apply]

/-- What `transform_diff` of a stack saves and what those of its entries save. -/
structure RUTDiff {n a : Type} [LinearOrder n] {ns : Nat} (s : List Nat) (v : BUTDiff n a p) (w : Fin s.prod → UTDiff ns n a p) : Prop where
  dS : v.chol.dS = arr s fun b => (w b).chol.dS
  dQL : v.chol.dQL = arr s fun b => (w b).chol.dQL
  ALI : v.chol.ALI = arr s fun b => (w b).chol.ALI
  didev : v.didev = arr2 ns s fun k b => (w b).didev k
  disigma : v.disigma = arr2 ns s fun k b => (w b).disigma k
  df_di : v.df_di = arr2 ns s fun k b => (w b).df_di k
  dodev : v.dodev = arr2 ns s fun k b => (w b).dodev k
  do_dq : v.do_dq = arr s fun b => (w b).do_dq
  dPo_dq : v.dPo_dq = arr s fun b => (w b).dPo_dq

/-- Optional data. -/
def ROpt {A C : Type} (R : A → (ι → C) → Prop) (v : Option A) (w : ι → Option C) : Prop :=
  (v = none ∧ ∀ b, w b = none) ∨ ∃ x c, v = some x ∧ (∀ b, w b = some (c b)) ∧ R x c

structure RUCorrDiff {a : Type} {ns : Nat} (s : List Nat) (v : BUCorrDiff nx a p) (w : Fin s.prod → UCorrDiff nx ns a p) : Prop where
  de_dq : v.de_dq = arr s fun b => (w b).de_dq
  dK_dq : v.dK_dq = arr s fun b => (w b).dK_dq
  dPy_dq : v.dPy_dq = arr s fun b => (w b).dPy_dq
  dPyI_dq : v.dPyI_dq = arr s fun b => (w b).dPyI_dq
  dPxh_dq : v.dPxh_dq = arr s fun b => (w b).dPxh_dq
  ut : RUTDiff s v.ut fun b => (w b).ut

structure RUCorrDiff2 {a : Type} (s : List Nat) (v : BUCorrDiff2 a p) (w : Fin s.prod → UCorrDiff2 a p) : Prop where
  d2e_dq2 : v.d2e_dq2 = arr s fun b => (w b).d2e_dq2
  d2Py_dq2 : v.d2Py_dq2 = arr s fun b => (w b).d2Py_dq2
  d2PyI_dq2 : v.d2PyI_dq2 = arr s fun b => (w b).d2PyI_dq2

structure RChol {a : Type} [LinearOrder a] (s : List Nat) (v : BCholDiff a p) (w : Fin s.prod → CholDiff a p) : Prop where
  dS : v.dS = arr s fun b => (w b).dS
  dQL : v.dQL = arr s fun b => (w b).dQL
  ALI : v.ALI = arr s fun b => (w b).ALI

/-- What the corrector of a stack saves. -/
structure RUCorr {a : Type} [LinearOrder a] {ns : Nat} (s : List Nat) (v : BUCorr nx p a) (w : Fin s.prod → UCorr nx ns p a) : Prop where
  e : v.e = arr s fun b => (w b).e
  Pxh : v.Pxh = arr s fun b => (w b).Pxh
  Py : v.Py = arr s fun b => (w b).Py
  PyI : v.PyI = arr s fun b => (w b).PyI
  K : v.K = arr s fun b => (w b).K
  PyC : v.PyC = arr s fun b => (w b).PyC
  ut : RUT s v.ut fun b => (w b).ut
  diff : ROpt (RUCorrDiff s) v.diff fun b => (w b).diff
  diff2 : ROpt (RUCorrDiff2 s) v.diff2 fun b => (w b).diff2
  PyCD : ROpt (fun v w => v = arr s w) v.PyCD fun b => (w b).PyCD
  chol : ROpt (RChol s) v.chol fun b => (w b).chol

structure RUPredDiff {ns : Nat} (s : List Nat) (v : BUPredDiff nx p)
    (w : Fin s.prod → UTDiff ns (Fin nx) (Fin nx) p × (Fin nx → Matrix (Fin nx) (Fin nx) ℝ) × (p → Fin nx → ℝ)) : Prop where
  ut : RUTDiff s v.ut fun b => (w b).1
  dQ_dx : v.dQ_dx = arr s fun b => (w b).2.1
  dx_dq : v.dx_dq = arr s fun b => (w b).2.2

/-- What the predictor of a stack saves. -/
structure RUPred {ns : Nat} (s : List Nat) (v : BUPred nx p) (w : Fin s.prod → UPred nx ns p) : Prop where
  prev_x : v.prev_x = arr s fun b => (w b).prev_x
  ut : RUT s v.ut fun b => (w b).ut
  diff : ROpt (RUPredDiff s) v.diff fun b => (w b).diff

/-- The derivative attributes of a filter. -/
def FilterAttrs.derivs (A : FilterAttrs nx p) :
    (p → ℝ) × (p → p → ℝ) × (p → Fin nx → ℝ) × (p → Matrix (Fin nx) (Fin nx) ℝ) × (p → p → Fin nx → ℝ) × (p → p → Matrix (Fin nx) (Fin nx) ℝ) :=
  (A.dL_dq, A.d2L_dq2, A.dx_dq, A.dPx_dq, A.d2x_dq2, A.d2Px_dq2)

/-- A relation of the derivative attributes of the filter of a stack and of those of the filters of its entries. -/
abbrev DRel (nx : Nat) (p : Type) (s : List Nat) := BDerivs nx p → (Fin s.prod →
  (p → ℝ) × (p → p → ℝ) × (p → Fin nx → ℝ) × (p → Matrix (Fin nx) (Fin nx) ℝ) × (p → p → Fin nx → ℝ) × (p → p → Matrix (Fin nx) (Fin nx) ℝ)) → Prop

/-- The unscented filter of a stack and those of its entries; the derivative attributes are related by `D`. -/
structure RUKF {ns ns' : Nat} {s : List Nat} (D : DRel nx p s) (a : BUKF nx o p) (t : Fin s.prod → UKF nx ns ns' o p) : Prop where
  x : a.x = arr s fun b => (t b).x
  Px : a.Px = arr s fun b => (t b).Px
  k : ∀ b, (t b).k = a.k
  L : Rep s a.L fun b => (t b).L
  d : D a.d fun b => (t b).derivs
  pred : ROpt (RUPred s) a.pred fun b => (t b).pred
  last : (a.last = .never ∧ ∀ b, (t b).last = .never) ∨ (a.last = .masked ∧ ∀ b, (t b).last = .masked) ∨
    ∃ y, ∃ v, ∃ d : Fin s.prod → UCorr nx ns p y.Active, a.last = .data y v ∧ (∀ b, (t b).last = .data y (d b)) ∧ RUCorr s v d

variable {D : DRel nx p s}

omit [Nonempty (Fin s.prod)] [Fintype o] in
theorem sim_ukf_predict {ns : Nat} (put : UT nx) (hp : 2 * nx ≤ put.nsigma) (M : KModel nx o p) (a : BUKF nx o p)
    (t : Fin s.prod → UKF nx ns put.nsigma o p) (h : RUKF D a t) :
    Sim (fun v w => RM s v.1 (fun b => (w b).1) ∧ RUKF D v.2 fun b => (w b).2) (BUKF.predict put M a) fun b => UKF.predict put M (t b) := by
  unfold BUKF.predict UKF.predict
  simp only [h.x, h.Px, h.k, map_arr]
  refine (sim_transform put hp _ _ _).bind fun v w hv => ?_
  rw [hv.Po, binop_arr, py_bind_ok]
  refine Sim.pure ⟨⟨hv.mean, .inl rfl⟩, hv.mean, rfl, fun _ => rfl, h.L, h.d, .inr ⟨_, _, rfl, fun _ => rfl, rfl, hv, .inl ⟨rfl, fun _ => rfl⟩⟩, h.last⟩

theorem sim_ukf_correct {ns' : Nat} (cut : UT nx) (hc : 2 * nx ≤ cut.nsigma) (M : KModel nx o p) (y : MaskedRow o) (a : BUKF nx o p)
    (t : Fin s.prod → UKF nx cut.nsigma ns' o p) (h : RUKF D a t) :
    Sim (fun v w => RM s v.1 (fun b => (w b).1) ∧ RUKF D v.2 fun b => (w b).2) (BUKF.correct cut M y a) fun b => UKF.correct cut M y (t b) := by
  unfold BUKF.correct UKF.correct
  by_cases hm : ∀ j, y.mask j = true
  · simp only [if_pos hm]
    exact Sim.pure ⟨⟨h.x, .inl h.Px⟩, h.x, h.Px, h.k, h.L, h.d, h.pred, .inr (.inl ⟨rfl, fun _ => rfl⟩)⟩
  simp only [if_neg hm]
  unfold UKF.core
  simp only [h.x, h.Px, h.k, py_bind_assoc]
  refine (sim_transform cut hc _ _ _).bind fun v w hv => ?_
  rw [hv.crosscov, py_bind_ok, hv.Po, hv.mean, binop_arr_one, py_bind_ok]
  refine (sim_mapM cholU _).bind fun v1 w1 e1 => ?_
  subst e1
  refine (sim_mapM npInv _).bind fun v2 w2 e2 => ?_
  subst e2
  simp only [binop_arr, binop_one_arr, py_bind_ok, py_pure]
  refine Sim.pure ⟨⟨rfl, .inl rfl⟩, rfl, rfl, fun _ => rfl, h.L, h.d, h.pred, .inr (.inr ⟨y, _, _, rfl, fun _ => rfl, rfl, rfl, rfl, rfl, rfl, rfl, hv,
    .inl ⟨rfl, fun _ => rfl⟩, .inl ⟨rfl, fun _ => rfl⟩, .inl ⟨rfl, fun _ => rfl⟩, .inl ⟨rfl, fun _ => rfl⟩⟩)⟩

theorem sim_ukf_likelihood {ns ns' : Nat} (a : BUKF nx o p) (t : Fin s.prod → UKF nx ns ns' o p) (h : RUKF D a t) :
    Sim (RUKF D) (BUKF.updateLikelihood a) fun b => UKF.updateLikelihood (t b) := by
  unfold BUKF.updateLikelihood UKF.updateLikelihood
  rcases h.last with ⟨h1, h2⟩ | ⟨h1, h2⟩ | ⟨y, v, d, h1, h2, hr⟩
  · simp only [h1, h2]; exact Sim.error _ _
  · simp only [h1, h2]; exact Sim.pure h
  · simp only [h1, h2]
    simp only [hr.e, hr.PyI, hr.PyC, binop_arr, map_arr, h.L.binop_left, py_bind_ok, py_pure]
    exact Sim.pure ⟨h.x, h.Px, h.k, .inl rfl, h.d, h.pred, .inr (.inr ⟨y, _, _, rfl, fun _ => rfl, rfl, hr.Pxh, hr.Py, rfl, hr.K, rfl,
      hr.ut, hr.diff, hr.diff2, .inr ⟨_, _, rfl, fun _ => rfl, rfl⟩, hr.chol⟩)⟩

theorem ukf_follows (put cut : UT nx) (hp : 2 * nx ≤ put.nsigma) (hc : 2 * nx ≤ cut.nsigma) (M : KModel nx o p) (D : DRel nx p s) :
    Follows s (BUKF.cls put cut M) (UKF.cls put cut M) (RUKF D) where
  attrs a t h := ⟨⟨h.x, .inl h.Px⟩, h.L⟩
  correct y a t h := sim_ukf_correct cut hc M y a t h
  predict a t h := sim_ukf_predict put hp M a t h
  cross a t h := by
    show Sim _ (BUKF.predictionCrosscov put a) fun b => UKF.predictionCrosscov put (t b)
    unfold BUKF.predictionCrosscov UKF.predictionCrosscov
    rcases h.pred with ⟨h1, h2⟩ | ⟨d, w, h1, h2, h3⟩
    · simp only [h1, h2]; exact Sim.error _ _
    · simp only [h1, h2]
      rw [h3.ut.crosscov]
      exact Sim.pure rfl
  likelihood a t h := sim_ukf_likelihood a t h

end UKF

end Ceacoest
