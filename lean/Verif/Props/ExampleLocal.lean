import Verif.Lemmas.KalmanLocal
import Verif.Spec.ExampleLocal
import Verif.Props.ExampleAttitude
import Mathlib.Analysis.Calculus.BumpFunction.FiniteDimension

/-! # C116: parameter estimation with a model that is smooth where the filter goes -/

namespace Ceacoest
open Matrix Spec Filter Topology FilterClass
open scoped ContDiff

section
variable {nx : Nat} {o p : Type} [Fintype o] [LinearOrder o] [Fintype p]

/-- **C116.** The derivatives of the likelihood are right if the model agrees with a smooth one in an open set of states, and the filter predicts from states in that set: what the model
is elsewhere, and whether it is smooth there, does not matter. -/
theorem C116_hessian (put cut : UT nx) (hp : put.kind = .cholesky) (hc : cut.kind = .cholesky) (M M' : (p → ℝ) → KModel nx o p)
    (s : (p → ℝ) → UKF nx cut.nsigma put.nsigma o p) (q₀ : p → ℝ) {D : Set (Fin nx → ℝ)} (hD : IsOpen D) (hM : SmoothModel2 M' q₀) (hag : ∀ᶠ q in 𝓝 q₀, AgreeOn D (M q) (M' q))
    (hs : SmoothAttrs2 (fun q => (s q).toFilterAttrs) q₀) (y : List (MaskedRow o)) (hst : StaysIn put cut (M q₀) D y (s q₀))
    (r₀ : ℝ × UKF nx cut.nsigma put.nsigma o p) (h : (UKF.cls put cut (M q₀)).pemMerit y (s q₀) = .ok r₀) :
    ∃ (ℓ : (p → ℝ) → ℝ) (g : (p → ℝ) → p → ℝ) (H : p → p → ℝ),
      (∀ᶠ q in 𝓝 q₀, (∃ s', (UKF.cls put cut (M q)).pemMerit y (s q) = .ok (ℓ q, s')) ∧
        ∃ s', (UKF.cls put cut (M q)).pemGradient y (s q) = .ok (g q, s')) ∧
      (∃ s', (UKF.cls put cut (M q₀)).pemHessian y (s q₀) = .ok (H, s')) ∧ HasHess ℓ g H q₀ := by
  obtain ⟨A, hA, -⟩ := pemMerit_iff.1 ⟨r₀.2, h⟩
  obtain ⟨B₀, hB₀, -⟩ := walk_sim (fun A B : FilterAttrs nx p => A.zeroth = B.zeroth) (merit_grad hc) (merit_gradP hp) y _ _ _ rfl hA
  obtain ⟨C₀, hC₀, -⟩ := walk_sim (fun A B : FilterAttrs nx p => A.first = B.first) grad_hess grad_hessP y _ _ _ rfl hB₀
  have hC₀ := walk_guarded (put := put) (D := D) y _ _ hC₀ fun n C hn hC => by
    obtain ⟨E, hE, e1⟩ := walk_sim (fun A B : FilterAttrs nx p => A.first = B.first) hess_grad hess_gradP _ _ _ _ rfl hC
    obtain ⟨F, hF, e2⟩ := walk_sim (fun A B : FilterAttrs nx p => A.zeroth = B.zeroth) grad_merit grad_meritP _ _ _ _ rfl hE
    have e : C.x = F.x ∧ C.Px = F.Px :=
      ⟨(congrArg (fun z => z.2.1) e1).trans (congrArg (fun z => z.2.1) e2), (congrArg (fun z => z.2.2.1) e1).trans (congrArg (fun z => z.2.2.1) e2)⟩
    rw [e.1, e.2]
    exact staysIn_walk hst n F hn hF
  obtain ⟨B, hB, e⟩ := hess_run_local hp hc hD hM hag y (fun q => (s q).toFilterAttrs) hs hC₀
  refine ⟨fun q => (B q).L, fun q => (B q).dL_dq, (B q₀).d2L_dq2, ?_, pemHessian_iff.2 ⟨_, e.self_of_nhds, rfl⟩,
    hB.near.mono fun q h => h.L, hB.dL⟩
  filter_upwards [e] with q hq
  obtain ⟨C, hC, hf⟩ := walk_sim (fun A B : FilterAttrs nx p => A.first = B.first) hess_grad hess_gradP y _ _ _ rfl hq
  obtain ⟨D, hD, hz⟩ := walk_sim (fun A B : FilterAttrs nx p => A.zeroth = B.zeroth) grad_merit grad_meritP y _ _ _ rfl hC
  refine ⟨pemMerit_iff.2 ⟨D, hD, ?_⟩, pemGradient_iff.2 ⟨C, hC, ?_⟩⟩
  · have e1 : (B q).L = C.L := congrArg (fun z => z.2.2.2.1) hf
    have e2 : C.L = D.L := congrArg (fun z => z.2.2.2) hz
    exact (e1.trans e2).symm
  · exact (congrArg (fun z => z.2.2.2.2.2.2) hf).symm

/-- The filter predicts from finitely many points. -/
theorem staysIn_finite {put cut : UT nx} {M : KModel nx o p} {D : Set (Fin nx → ℝ)} {y : List (MaskedRow o)} {s : UKF nx cut.nsigma put.nsigma o p} (h : StaysIn put cut M D y s) :
    ∃ K : Set (Fin nx → ℝ), K.Finite ∧ K ⊆ D ∧ StaysIn put cut M K y s := by
  let K (n : Nat) : Set (Fin nx → ℝ) := {z | ∃ L s', n + 1 < y.length ∧ (UKF.cls put cut M).pemMerit (y.take (n + 1)) s = .ok (L, s') ∧
    (z = s'.x ∨ ∃ S idev isigma, put.sigmaPoints s'.x s'.Px = .ok (S, idev, isigma) ∧ ∃ k, z = isigma k)}
  have hK : ∀ n, (K n).Finite := fun n => by
    cases e : (UKF.cls put cut M).pemMerit (y.take (n + 1)) s with
    | error x =>
      refine Set.Finite.subset Set.finite_empty ?_
      rintro z ⟨L, s', -, h, -⟩
      rw [e] at h
      cases h
    | ok r =>
      obtain ⟨L, s'⟩ := r
      cases e' : put.sigmaPoints s'.x s'.Px with
      | error x =>
        refine Set.Finite.subset (Set.finite_singleton s'.x) ?_
        rintro z ⟨L, s', -, h, h' | ⟨S, idev, isigma, h', -⟩⟩ <;> rw [e] at h <;> cases h
        · exact h'
        · rw [e'] at h'
          cases h'
      | ok t =>
        obtain ⟨S, idev, isigma⟩ := t
        refine Set.Finite.subset ((Set.finite_singleton s'.x).union (Set.finite_range isigma)) ?_
        rintro z ⟨L, s', -, h, h' | ⟨S, idev, isigma, h', k, hk⟩⟩ <;> rw [e] at h <;> cases h
        · exact .inl h'
        · rw [e'] at h'
          cases h'
          exact .inr ⟨k, hk.symm⟩
  refine ⟨⋃ n ∈ Set.Iio y.length, K n, (Set.finite_Iio _).biUnion fun n _ => hK n, ?_, ?_⟩
  · intro z hz
    obtain ⟨n, -, L, s', hn, h', hz⟩ := Set.mem_iUnion₂.1 hz
    obtain ⟨hx, hs⟩ := h n L s' hn h'
    rcases hz with rfl | ⟨S, idev, isigma, e, k, rfl⟩
    · exact hx
    · exact hs _ _ _ e k
  · intro n L s' hn h'
    have hn' : n ∈ Set.Iio y.length := by
      show n < y.length
      omega
    exact ⟨Set.mem_iUnion₂.2 ⟨n, hn', L, s', hn, h', .inl rfl⟩, fun S idev isigma e k => Set.mem_iUnion₂.2 ⟨n, hn', L, s', hn, h', .inr ⟨S, idev, isigma, e, k, rfl⟩⟩⟩

theorem staysIn_mono {put cut : UT nx} {M : KModel nx o p} {D D' : Set (Fin nx → ℝ)} (hD : D ⊆ D') {y : List (MaskedRow o)} {s : UKF nx cut.nsigma put.nsigma o p}
    (h : StaysIn put cut M D y s) : StaysIn put cut M D' y s :=
  fun n L s' hn h' => ⟨hD (h n L s' hn h').1, fun S idev isigma e k => hD ((h n L s' hn h').2 S idev isigma e k)⟩

end

/-- A smooth function that is one around finitely many points and zero around all points outside of an open set. -/
theorem exists_bump {n : Nat} {D K : Set (Fin n → ℝ)} (hD : IsOpen D) (hK : K.Finite) (hKD : K ⊆ D) :
    ∃ (χ : (Fin n → ℝ) → ℝ) (D' : Set (Fin n → ℝ)), ContDiff ℝ ∞ χ ∧ tsupport χ ⊆ D ∧ IsOpen D' ∧ K ⊆ D' ∧ D' ⊆ D ∧ ∀ x ∈ D', χ x = 1 := by
  have hb : ∀ a : K, ∃ f : (Fin n → ℝ) → ℝ, tsupport f ⊆ D ∧ HasCompactSupport f ∧ ContDiff ℝ ∞ f ∧ Set.range f ⊆ Set.Icc 0 1 ∧ f a = 1 := fun a =>
    exists_contDiff_tsupport_subset (hD.mem_nhds (hKD a.2))
  choose f h1 _ h3 h4 h5 using hb
  have : Fintype K := hK.fintype
  let φ : (Fin n → ℝ) → ℝ := fun x => ∑ a, f a x
  have hφ : ContDiff ℝ ∞ φ := ContDiff.sum fun a _ => h3 a
  have hn : ∀ a x, 0 ≤ f a x := fun a x => (h4 a ⟨x, rfl⟩).1
  have hs : tsupport φ ⊆ D := by
    have hcl : IsClosed (⋃ a, tsupport (f a)) := isClosed_iUnion_of_finite fun a => isClosed_tsupport _
    refine (closure_minimal ?_ hcl).trans (Set.iUnion_subset h1)
    intro x hx
    by_contra hne
    refine hx (Finset.sum_eq_zero fun a _ => ?_)
    by_contra ha
    exact hne (Set.mem_iUnion.2 ⟨a, subset_tsupport _ ha⟩)
  have hχ : ∀ x, φ x = 0 → Real.smoothTransition (2 * φ x) = 0 := fun x hx => by
    rw [hx, mul_zero]
    exact Real.smoothTransition.zero_of_nonpos le_rfl
  have hsub : tsupport (fun x => Real.smoothTransition (2 * φ x)) ⊆ tsupport φ := closure_mono fun x hx h0 => hx (hχ x h0)
  refine ⟨fun x => Real.smoothTransition (2 * φ x), {x | 1 / 2 < φ x}, Real.smoothTransition.contDiff.comp (contDiff_const.mul hφ), hsub.trans hs,
    isOpen_lt continuous_const hφ.continuous, ?_, ?_, ?_⟩
  · intro a ha
    have : f ⟨a, ha⟩ a ≤ φ a := Finset.single_le_sum (f := fun b => f b a) (fun b _ => hn b a) (Finset.mem_univ _)
    rw [h5 ⟨a, ha⟩] at this
    show 1 / 2 < φ a
    linarith
  · intro x hx
    refine hs (subset_tsupport _ ?_)
    have : 1 / 2 < φ x := hx
    show φ x ≠ 0
    linarith
  · intro x hx
    have : 1 / 2 < φ x := hx
    exact Real.smoothTransition.one_of_one_le (by linarith)

namespace Pem
open SymSDE TestKalman
variable {nx nw ny nq : Nat} {S : SDE nx nw ny nq} {D : Set (Fin nx → ℝ)}

theorem partialDiff_congr {n : Nat} {D : Set (Fin n → ℝ)} (hD : IsOpen D) {F G : (Fin n → ℝ) → ℝ} (h : ∀ x ∈ D, F x = G x) (a : Fin n) : ∀ x ∈ D, partialDiff a F x = partialDiff a G x := by
  intro x hx
  unfold partialDiff
  refine EventuallyEq.deriv_eq ?_
  have hc : ContinuousAt (fun t => Function.update x a t) (x a) := (continuous_const.update a continuous_id).continuousAt
  have : ∀ᶠ t in 𝓝 (x a), Function.update x a t ∈ D := hc.eventually (by
    simp only [Function.update_eq_self]
    exact hD.mem_nhds hx)
  exact this.mono fun t ht => h _ ht

theorem generated_agree (hD : IsOpen D) {f f' : (Fin nq → ℝ) → ℤ → (Fin nx → ℝ) → Fin nx → ℝ} {h : (Fin nq → ℝ) → ℤ → (Fin nx → ℝ) → Fin ny → ℝ}
    {Q Q' : (Fin nq → ℝ) → ℤ → (Fin nx → ℝ) → Matrix (Fin nx) (Fin nx) ℝ} {R : (Fin nq → ℝ) → Matrix (Fin ny) (Fin ny) ℝ} (hf : ∀ q k, ∀ x ∈ D, f q k x = f' q k x)
    (hQ : ∀ q k, ∀ x ∈ D, Q q k x = Q' q k x) (q : Fin nq → ℝ) : AgreeOn D (generated f h Q R q) (generated f' h Q' R q) := by
  have hf' : ∀ q k j, ∀ x ∈ D, f q k x j = f' q k x j := fun q k j x hx => congrFun (hf q k x hx) j
  have hQ' : ∀ q k j m, ∀ x ∈ D, Q q k x j m = Q' q k x j m := fun q k j m x hx => congrFun (congrFun (hQ q k x hx) j) m
  have f1 : ∀ q k i j, ∀ x ∈ D, partialDiff i (fun x => f q k x j) x = partialDiff i (fun x => f' q k x j) x := fun q k i j => partialDiff_congr hD (hf' q k j) i
  have Q1 : ∀ q k i j m, ∀ x ∈ D, partialDiff i (fun x => Q q k x j m) x = partialDiff i (fun x => Q' q k x j m) x := fun q k i j m => partialDiff_congr hD (hQ' q k j m) i
  have f2 : ∀ k j, ∀ x ∈ D, (fun q => f q k x j) = fun q => f' q k x j := fun k j x hx => funext fun q => hf' q k j x hx
  have Q2 : ∀ k j m, ∀ x ∈ D, (fun q => Q q k x j m) = fun q => Q' q k x j m := fun k j m x hx => funext fun q => hQ' q k j m x hx
  exact {
    f := fun k x hx => hf q k x hx
    df_dx := fun k x hx => funext fun i => funext fun j => f1 q k i j x hx
    df_dq := fun k x hx => funext fun a => funext fun j => congrArg (fun F => partialDiff a F q) (f2 k j x hx)
    d2f_dx2 := fun k x hx => funext fun l => funext fun i => funext fun j => partialDiff_congr hD (f1 q k i j) l x hx
    d2f_dx_dq := fun k x hx => funext fun a => funext fun i => funext fun j => congrArg (fun F => partialDiff a F q) (funext fun q => f1 q k i j x hx)
    d2f_dq2 := fun k x hx => funext fun a => funext fun b => funext fun j => congrArg (fun F => partialDiff a (fun q => partialDiff b F q) q) (f2 k j x hx)
    Q := fun k x hx => hQ q k x hx
    dQ_dx := fun k x hx => funext fun i => by ext j m; exact Q1 q k i j m x hx
    dQ_dq := fun k x hx => funext fun a => by ext j m; exact congrArg (fun F => partialDiff a F q) (Q2 k j m x hx)
    d2Q_dx2 := fun k x hx => funext fun l => funext fun i => by ext j m; exact partialDiff_congr hD (Q1 q k i j m) l x hx
    d2Q_dx_dq := fun k x hx => funext fun a => funext fun i => by ext j m; exact congrArg (fun F => partialDiff a F q) (funext fun q => Q1 q k i j m x hx)
    d2Q_dq2 := fun k x hx => funext fun a => funext fun b => by ext j m; exact congrArg (fun F => partialDiff a (fun q => partialDiff b F q) q) (Q2 k j m x hx)
    h := rfl
    dh_dx := rfl
    dh_dq := rfl
    d2h_dx2 := rfl
    d2h_dx_dq := rfl
    d2h_dq2 := rfl
    R := rfl
    dR_dq := rfl
    d2R_dq2 := rfl }

/-- Discretised models agree where the continuous-time ones do. -/
theorem ito_agree (hD : IsOpen D) {S S' : SDE nx nw ny nq} (hf : ∀ q t, ∀ x ∈ D, S.f q t x = S'.f q t x) (hg : ∀ q t, ∀ x ∈ D, S.g q t x = S'.g q t x) (hh : S.h = S'.h)
    (hR : S.R = S'.R) (dt : ℝ) (q : Fin nq → ℝ) : AgreeOn D (ito S dt q) (ito S' dt q) := by
  have hf' : ∀ q t i, ∀ x ∈ D, S.f q t x i = S'.f q t x i := fun q t i x hx => congrFun (hf q t x hx) i
  have f1 : ∀ q t r i, ∀ x ∈ D, partialDiff r (fun x => S.f q t x i) x = partialDiff r (fun x => S'.f q t x i) x := fun q t r i => partialDiff_congr hD (hf' q t i) r
  have e1 : ∀ q t, ∀ x ∈ D, (S.at q).df_dt t x = (S'.at q).df_dt t x := fun q t x hx => by
    funext i
    exact congrArg (fun F => deriv F t) (funext fun s => hf' q s i x hx)
  have e2 : ∀ q t, ∀ x ∈ D, (S.at q).df_dx t x = (S'.at q).df_dx t x := fun q t x hx => by
    ext r i
    exact f1 q t r i x hx
  have e3 : ∀ q t, ∀ x ∈ D, (S.at q).d2f_dx2 t x = (S'.at q).d2f_dx2 t x := fun q t x hx => by
    funext l r i
    exact partialDiff_congr hD (f1 q t r i) l x hx
  have e4 : ∀ q t, ∀ x ∈ D, (S.at q).f t x = (S'.at q).f t x := fun q t x hx => hf q t x hx
  have e5 : ∀ q t, ∀ x ∈ D, (S.at q).g t x = (S'.at q).g t x := fun q t x hx => hg q t x hx
  unfold ito
  have eh : (fun q (k : ℤ) x => SymSDE.h (S.at q) dt k x) = fun q (k : ℤ) x => SymSDE.h (S'.at q) dt k x := by
    funext q k x
    unfold SymSDE.h SDE.at
    dsimp only
    rw [hh]
  rw [eh, hR]
  refine generated_agree hD (fun q k x hx => ?_) (fun q k x hx => ?_) q
  · unfold itoF
    dsimp only
    rw [e1 q _ x hx, e2 q _ x hx, e3 q _ x hx, e4 q _ x hx, e5 q _ x hx]
  · unfold itoG
    dsimp only
    rw [e2 q _ x hx, e5 q _ x hx]

/-- The model with drift and diffusion made smooth outside of the set. -/
noncomputable def cutOff (S : SDE nx nw ny nq) (χ : (Fin nx → ℝ) → ℝ) : SDE nx nw ny nq :=
  { S with
    f := fun q t x i => χ x * S.f q t x i
    g := fun q t x => of fun i j => χ x * S.g q t x i j }

theorem cutOff_contDiff (hD : IsOpen D) {χ : (Fin nx → ℝ) → ℝ} (hχ : ContDiff ℝ ∞ χ) (hs : tsupport χ ⊆ D) {F : (Fin nq → ℝ) × ℝ × (Fin nx → ℝ) → ℝ}
    (hF : ContDiffOn ℝ ∞ F {z | z.2.2 ∈ D}) : ContDiff ℝ ∞ fun z : (Fin nq → ℝ) × ℝ × (Fin nx → ℝ) => χ z.2.2 * F z := by
  have hcont : Continuous fun z : (Fin nq → ℝ) × ℝ × (Fin nx → ℝ) => z.2.2 := continuous_snd.comp continuous_snd
  refine contDiff_iff_contDiffAt.2 fun z => ?_
  by_cases hz : z.2.2 ∈ D
  · have : {z : (Fin nq → ℝ) × ℝ × (Fin nx → ℝ) | z.2.2 ∈ D} ∈ 𝓝 z := (hD.preimage hcont).mem_nhds hz
    exact ((hχ.comp (contDiff_snd.comp contDiff_snd)).contDiffAt).mul (hF.contDiffAt this)
  · have h0 : z.2.2 ∉ tsupport χ := fun h => hz (hs h)
    have : ∀ᶠ w in 𝓝 z, χ w.2.2 * F w = 0 := by
      have := (notMem_tsupport_iff_eventuallyEq.1 h0)
      refine (hcont.continuousAt.eventually this).mono fun w hw => ?_
      rw [show χ w.2.2 = 0 from hw, zero_mul]
    exact contDiffAt_const.congr_of_eventuallyEq this

theorem cutOff_smooth (hS : SmoothOn D S) (hD : IsOpen D) {χ : (Fin nx → ℝ) → ℝ} (hχ : ContDiff ℝ ∞ χ) (hs : tsupport χ ⊆ D) : Smooth (cutOff S χ) where
  f i := cutOff_contDiff hD hχ hs (hS.f i)
  g i j := cutOff_contDiff hD hχ hs (hS.g i j)
  h := hS.h
  R := hS.R
  x0 := hS.x0
  Px0 := hS.Px0
  symm := hS.symm

/-- **C116** (discretised models). For any continuous-time model whose drift and diffusion are smooth in an open set of states: where `merit` returns and its filter predicts from
states in that set, it returns nearby, `grad` returns its gradient there, and `hess` returns the multiples of the second derivatives at the pairs `hess_inds`. -/
theorem C116_pem (hD : IsOpen D) (hS : SmoothOn D S) (dt : ℝ) (y : List (MaskedRow (Fin ny))) (q₀ : Fin nq → ℝ) {L₀ : ℝ} (h : merit S dt y q₀ = .ok L₀) (hv : Visits S dt y q₀ D) :
    ∃ (ℓ : (Fin nq → ℝ) → ℝ) (g : (Fin nq → ℝ) → Fin nq → ℝ) (H : Fin nq → Fin nq → ℝ),
      (∀ᶠ q in 𝓝 q₀, merit S dt y q = .ok (ℓ q) ∧ grad S dt y q = .ok (g q)) ∧
      (∀ c, hess S dt y q₀ c = .ok ((trilIndices nq).map fun r => c * H r.1 r.2)) ∧ HasHess ℓ g H q₀ ∧ ∀ a b, H a b = H b a := by
  unfold merit at h
  obtain ⟨ut, hut, h⟩ := py_bind_eq_ok h
  obtain ⟨⟨L, s'⟩, h, -⟩ := py_bind_eq_ok h
  have hkind := (ut_init_ok hut).2.2.1
  obtain ⟨K, hK, hKD, hst⟩ := staysIn_finite (hv ut hut)
  obtain ⟨χ, D', hχ, hs, hD', hKD', -, h1⟩ := exists_bump hD hK hKD
  have hsm := cutOff_smooth hS hD hχ hs
  have hag : ∀ q, AgreeOn D' (ito S dt q) (ito (cutOff S χ) dt q) := ito_agree (S := S) (S' := cutOff S χ) hD'
    (fun q t x hx => funext fun i => by simp only [cutOff, h1 x hx, one_mul]) (fun q t x hx => by ext i j; simp only [cutOff, of_apply, h1 x hx, one_mul]) rfl rfl dt
  obtain ⟨ℓ, g, H, h1, ⟨t, h2⟩, h3⟩ := C116_hessian ut ut hkind hkind (ito S dt) (ito (cutOff S χ) dt) (fun q => ⟨start S q, none, .never⟩) q₀ hD' (ito_smooth hsm dt q₀)
    (Eventually.of_forall hag) (start_smooth hsm q₀) y (staysIn_mono hKD' hst) _ h
  refine ⟨ℓ, g, H, h1.mono fun q hq => ?_, fun c => ?_, h3, h3.symm⟩
  · obtain ⟨⟨t1, e1⟩, t2, e2⟩ := hq
    constructor
    · unfold merit
      rw [hut, py_bind_ok, e1]
      rfl
    · unfold grad
      rw [hut, py_bind_ok, e2]
      rfl
  · unfold hess
    rw [hut, py_bind_ok, h2]
    rfl

/-! ### The attitude example -/

variable (c : AttitudeConsts)

theorem isOpen_slanted : IsOpen {x : Fin 9 → ℝ | Real.cos (x 7) ≠ 0} :=
  isOpen_ne_fun (Real.continuous_cos.comp (continuous_apply 7)) continuous_const

theorem attitude_smoothOn : SmoothOn {x | Real.cos (x 7) ≠ 0} (attitude c) := by
  have q : ∀ a : Fin 10, ContDiff ℝ ∞ fun z : (Fin 10 → ℝ) × ℝ × (Fin 9 → ℝ) => z.1 a := fun a => (contDiff_apply ℝ ℝ a).comp contDiff_fst
  have x : ∀ a : Fin 9, ContDiff ℝ ∞ fun z : (Fin 10 → ℝ) × ℝ × (Fin 9 → ℝ) => z.2.2 a := fun a => (contDiff_apply ℝ ℝ a).comp (contDiff_snd.comp contDiff_snd)
  have cs : ∀ a : Fin 9, ContDiff ℝ ∞ fun z : (Fin 10 → ℝ) × ℝ × (Fin 9 → ℝ) => Real.cos (z.2.2 a) := fun a => Real.contDiff_cos.comp (x a)
  have sn : ∀ a : Fin 9, ContDiff ℝ ∞ fun z : (Fin 10 → ℝ) × ℝ × (Fin 9 → ℝ) => Real.sin (z.2.2 a) := fun a => Real.contDiff_sin.comp (x a)
  have dv : ∀ {F : (Fin 10 → ℝ) × ℝ × (Fin 9 → ℝ) → ℝ}, ContDiff ℝ ∞ F → ContDiffOn ℝ ∞ (fun z => F z / Real.cos (z.2.2 7)) {z | z.2.2 ∈ {x : Fin 9 → ℝ | Real.cos (x 7) ≠ 0}} :=
    fun hF => hF.contDiffOn.div (cs 7).contDiffOn fun z hz => hz
  have e2b : ∀ i j, ContDiff ℝ ∞ fun z : (Fin 10 → ℝ) × ℝ × (Fin 9 → ℝ) => Ex.attitudeE2b (anglesOf z.2.2) i j := by
    intro i j
    fin_cases i <;> fin_cases j
    · exact (cs 7).mul (cs 8)
    · exact (cs 7).mul (sn 8)
    · exact (sn 7).neg
    · exact ((cs 6).neg.mul (sn 8)).add (((sn 6).mul (sn 7)).mul (cs 8))
    · exact ((cs 6).mul (cs 8)).add (((sn 6).mul (sn 7)).mul (sn 8))
    · exact (sn 6).mul (cs 7)
    · exact ((sn 6).mul (sn 8)).add (((cs 6).mul (sn 7)).mul (cs 8))
    · exact ((sn 6).neg.mul (cs 8)).add (((cs 6).mul (sn 7)).mul (sn 8))
    · exact (cs 6).mul (cs 7)
  have mag : ∀ i : Fin 3, ContDiff ℝ ∞ fun z : (Fin 10 → ℝ) × ℝ × (Fin 9 → ℝ) => Ex.attitudeMag (anglesOf z.2.2) (z.1 0) (z.1 1) ![z.1 2, z.1 3, z.1 4] i := by
    intro i
    refine ((((e2b i 0).mul (q 0)).add ((e2b i 1).mul contDiff_const)).add ((e2b i 2).mul (q 1))).add ?_
    fin_cases i
    · exact q 2
    · exact q 3
    · exact q 4
  have acc : ∀ i : Fin 3, ContDiff ℝ ∞ fun z : (Fin 10 → ℝ) × ℝ × (Fin 9 → ℝ) => Ex.attitudeAccel (anglesOf z.2.2) ![z.2.2 0, z.2.2 1, z.2.2 2] c.g0 i := by
    intro i
    refine ContDiff.sub ?_ ((((e2b i 0).mul contDiff_const).add ((e2b i 1).mul contDiff_const)).add ((e2b i 2).mul contDiff_const))
    fin_cases i
    · exact x 0
    · exact x 1
    · exact x 2
  refine ⟨fun i => ?_, fun i j => ?_, fun i => ?_, fun i j => contDiff_const, fun i => contDiff_const, fun i j => contDiff_const, fun _ => diagonal_transpose _⟩
  · have tn : ContDiffOn ℝ ∞ (fun z : (Fin 10 → ℝ) × ℝ × (Fin 9 → ℝ) => Real.tan (z.2.2 7)) {z | z.2.2 ∈ {x : Fin 9 → ℝ | Real.cos (x 7) ≠ 0}} := by
      simp only [Real.tan_eq_sin_div_cos]
      exact dv (sn 7)
    fin_cases i
    · exact contDiffOn_const
    · exact contDiffOn_const
    · exact contDiffOn_const
    · exact contDiffOn_const
    · exact contDiffOn_const
    · exact contDiffOn_const
    · exact (x 3).contDiffOn.add (tn.mul (((sn 6).mul (x 4)).add ((cs 6).mul (x 5))).contDiffOn)
    · exact (((cs 6).mul (x 4)).sub ((sn 6).mul (x 5))).contDiffOn
    · exact ((dv (sn 6)).mul (x 4).contDiffOn).add ((dv (cs 6)).mul (x 5).contDiffOn)
  · have : ContDiff ℝ ∞ fun z : (Fin 10 → ℝ) × ℝ × (Fin 9 → ℝ) => if i.val = j.val then (if j.val < 3 then z.1 8 else z.1 9) else 0 := by
      split
      · split
        · exact q 8
        · exact q 9
      · exact contDiff_const
    exact this.contDiffOn
  · fin_cases i
    · exact acc 0
    · exact acc 1
    · exact acc 2
    · exact (x 3).add (q 5)
    · exact (x 4).add (q 6)
    · exact (x 5).add (q 7)
    · exact mag 0
    · exact mag 1
    · exact mag 2

/-- **C116** (sigma points). No coordinate of a sigma point is farther from the mean than `√(n + kappa)` standard deviations. -/
theorem C116_sigma {ut : UT nx} (hk : ut.kind = .cholesky) {x : Fin nx → ℝ} {P S : Matrix (Fin nx) (Fin nx) ℝ} {idev isigma : Fin ut.nsigma → Fin nx → ℝ}
    (h : ut.sigmaPoints x P = .ok (S, idev, isigma)) (k : Fin ut.nsigma) (i : Fin nx) : (isigma k i - x i) ^ 2 ≤ (nx + ut.kappa) * P i i := by
  unfold UT.sigmaPoints at h
  obtain ⟨S', hS, h⟩ := py_bind_eq_ok h
  rw [sqrt_cholesky hk] at hS
  have hc := cholU_isChol hS
  have hd : ∑ l, S' l i ^ 2 = (nx + ut.kappa) * P i i := by
    have := congrFun (congrFun hc.eq i) i
    simpa [lowerSym, Matrix.mul_apply, pow_two] using this
  have hle : ∀ l, S' l i ^ 2 ≤ (nx + ut.kappa) * P i i := fun l => hd ▸ Finset.single_le_sum (f := fun l => S' l i ^ 2) (fun _ _ => sq_nonneg _) (Finset.mem_univ l)
  have h0 : 0 ≤ (nx + ut.kappa) * P i i := hd ▸ Finset.sum_nonneg fun l _ => sq_nonneg _
  cases h
  simp only [Pi.add_apply, add_sub_cancel_right, UT.spread]
  split
  · exact hle _
  · split
    · rw [Pi.neg_apply, neg_sq]
      exact hle _
    · simpa using h0

/-- **C116** (margin). If the estimate of theta is three standard deviations away from the vertical, then so are the sigma points. -/
theorem C116_margin {ut : UT 9} (hut : UT.init 9 .cholesky (0 : ℝ) = .ok ut) {x : Fin 9 → ℝ} {P : Matrix (Fin 9) (Fin 9) ℝ} (h : |x 7| + 3 * Real.sqrt (P 7 7) < Real.pi / 2) :
    PointsIn ut {x | Real.cos (x 7) ≠ 0} x P := by
  have hc : ∀ θ : ℝ, |θ| < Real.pi / 2 → Real.cos θ ≠ 0 := fun θ hθ => (Real.cos_pos_of_mem_Ioo ⟨by linarith [neg_abs_le θ], by linarith [le_abs_self θ]⟩).ne'
  have h0 := Real.sqrt_nonneg (P 7 7)
  refine ⟨hc _ (by linarith), fun S idev isigma hs k => hc _ ?_⟩
  obtain ⟨-, hk, hkind, -⟩ := ut_init_ok hut
  have := C116_sigma hkind hs k 7
  rw [hk, add_zero] at this
  have h9 : |isigma k 7 - x 7| ≤ 3 * Real.sqrt (P 7 7) := by
    refine (Real.abs_le_sqrt this).trans (le_of_eq ?_)
    rw [Real.sqrt_mul (by norm_num), show ((9 : ℕ) : ℝ) = 3 ^ 2 by norm_num, Real.sqrt_sq (by norm_num)]
  have := abs_add_le (isigma k 7 - x 7) (x 7)
  rw [sub_add_cancel] at this
  linarith

/-- **C116** (attitude). With noise in states, measurements and initial state: if the filter of `merit` predicts from no vertical attitude, `merit` returns, also nearby, and `grad` and
`hess` return the derivatives of it. -/
theorem C116_attitude {dt : ℝ} (hdt : 0 < dt) (h1 : c.accel_mng ≠ 0) (h2 : c.omega_mng ≠ 0) (h3 : c.mag_mng ≠ 0) (h4 : ∀ i, c.x0_std i ≠ 0) (y : List (MaskedRow (Fin 9)))
    (q₀ : Fin 10 → ℝ) (h8 : q₀ 8 ≠ 0) (h9 : q₀ 9 ≠ 0) (hv : Visits (attitude c) dt y q₀ {x | Real.cos (x 7) ≠ 0}) :
    ∃ (ℓ : (Fin 10 → ℝ) → ℝ) (g : (Fin 10 → ℝ) → Fin 10 → ℝ) (H : Fin 10 → Fin 10 → ℝ),
      (∀ᶠ q in 𝓝 q₀, merit (attitude c) dt y q = .ok (ℓ q) ∧ grad (attitude c) dt y q = .ok (g q)) ∧
      (∀ r, hess (attitude c) dt y q₀ r = .ok ((trilIndices 10).map fun a => r * H a.1 a.2)) ∧ HasHess ℓ g H q₀ ∧ ∀ a b, H a b = H b a := by
  rcases C113_attitude c hdt h1 h2 h3 h4 y q₀ h8 h9 with ⟨L, h⟩ | ⟨ut, n, ms, s', hut, hn, hf, hcos⟩
  · exact C116_pem isOpen_slanted (attitude_smoothOn c) dt y q₀ h hv
  · exfalso
    obtain ⟨L, s'', h', e⟩ := C48_ukf_returns_partial ut ut _ (psd_symm (((C113_data c q₀).1.2 ⟨h1, h2, h3⟩).posSemidef)) _ _ _ _ hf
    have hne := (hv ut hut n L s'' hn h').1
    rw [e.1] at hne
    exact hne hcos

/-- The numbers of the script, with a first sample that is not measured, and any second one. -/
theorem visits_masked (q : Fin 10 → ℝ) (r : MaskedRow (Fin 9)) (d : Fin 9 → ℝ) :
    Visits (attitude ⟨9.80665, 0, ![1, 1, 1, 0.1, 0.1, 0.1, 0.1, 0.1, 0.1], 0.01, 1e-6, 0.5⟩) 0.05 [⟨d, fun _ => true⟩, r] q {x | Real.cos (x 7) ≠ 0} := by
  intro ut hut n L s' hn h
  obtain rfl : n = 0 := by simpa using hn
  have e : s'.x = 0 ∧ s'.Px 7 7 = 0.1 ^ 2 := by
    rw [pemMerit_eq] at h
    obtain ⟨t, ht, h⟩ := py_bind_eq_ok h
    cases h
    have hm := (meritG_map (put := ut) (cut := ut) (M := ito (attitude ⟨9.80665, 0, ![1, 1, 1, 0.1, 0.1, 0.1, 0.1, 0.1, 0.1], 0.01, 1e-6, 0.5⟩) 0.05 q) ⟨d, fun _ => true⟩
      ⟨start (attitude ⟨9.80665, 0, ![1, 1, 1, 0.1, 0.1, 0.1, 0.1, 0.1, 0.1], 0.01, 1e-6, 0.5⟩) q, none, .never⟩)
    rw [meritA_masked (fun _ => rfl)] at hm
    rw [show meritG _ _ _ = .ok s' from ht, py_bind_ok] at hm
    have hm := Except.ok.inj hm
    rw [← congrArg FilterAttrs.x hm, ← congrArg FilterAttrs.Px hm]
    exact ⟨rfl, by simp [start, attitude]⟩
  refine C116_margin hut ?_
  rw [e.1, e.2, Real.sqrt_sq (by norm_num)]
  have := Real.two_le_pi
  norm_num
  linarith

end Pem
end Ceacoest
