import Verif.Model.ExampleAttitude
import Verif.Props.ExamplePem
import Verif.Props.KalmanUnits

/-! # C113: attitude reconstruction (`examples/attitude.py`) -/

namespace Ceacoest.Pem
open SymSDE Matrix TestKalman Spec Filter Topology FilterClass

variable {nx nw ny nq : Nat} {S : SDE nx nw ny nq}

/-! ### Definiteness of the covariance of discretised models -/

/-- **C113** (noise). The covariance of a discretised model is positive definite exactly if the noise reaches all states in one step: no combination of the states is left unmoved both
by the noise and by what the drift makes of the noise. -/
theorem C113_controllable (S : SDE nx nw ny nq) {dt : ℝ} (hdt : 0 < dt) (q : Fin nq → ℝ) (k : ℤ) (x : Fin nx → ℝ) :
    ((ito S dt q).Q k x).PosDef ↔
      ∀ v : Fin nx → ℝ, v ᵥ* S.g q (k * dt) x = 0 → v ᵥ* (jacobian (S.f q) (k * dt) x * S.g q (k * dt) x) = 0 → v = 0 := by
  have hsym : ((ito S dt q).Q k x).IsHermitian := by
    have := (C54_psd (itoG (S.at q) dt k x)).2.1
    exact this
  have key : ∀ v : Fin nx → ℝ, v ⬝ᵥ ((ito S dt q).Q k x *ᵥ v) = ∑ j, dt * (((v ᵥ* S.g q (k * dt) x) j + dt / 2 * (v ᵥ* (jacobian (S.f q) (k * dt) x * S.g q (k * dt) x)) j) ^ 2 +
      dt ^ 2 / 12 * ((v ᵥ* (jacobian (S.f q) (k * dt) x * S.g q (k * dt) x)) j) ^ 2) := by
    intro v
    have h := ito_cov_of (S.at q) dt k hdt.le x
    have h : (ito S dt q).Q k x = dt • (S.g q (k * dt) x * (S.g q (k * dt) x)ᵀ) +
      (dt ^ 2 / 2) • (jacobian (S.f q) (k * dt) x * S.g q (k * dt) x * (S.g q (k * dt) x)ᵀ + S.g q (k * dt) x * (jacobian (S.f q) (k * dt) x * S.g q (k * dt) x)ᵀ) +
      (dt ^ 3 / 3) • (jacobian (S.f q) (k * dt) x * S.g q (k * dt) x * (jacobian (S.f q) (k * dt) x * S.g q (k * dt) x)ᵀ) := h
    rw [h]
    generalize jacobian (S.f q) (k * dt) x * S.g q (k * dt) x = L
    generalize S.g q (k * dt) x = G
    have e : ∀ A B : Matrix (Fin nx) (Fin nw) ℝ, v ⬝ᵥ ((A * Bᵀ) *ᵥ v) = ∑ j, (v ᵥ* A) j * (v ᵥ* B) j := fun A B => by
      rw [← mulVec_mulVec, dotProduct_mulVec, mulVec_transpose]
      rfl
    simp only [add_mulVec, smul_mulVec, dotProduct_add, dotProduct_smul, smul_eq_mul, e, Finset.mul_sum, ← Finset.sum_add_distrib]
    exact Finset.sum_congr rfl fun j _ => by ring
  constructor
  · intro h v h1 h2
    by_contra hv
    have := h.dotProduct_mulVec_pos hv
    rw [star_trivial, key, h1, h2] at this
    simp at this
  · intro h
    refine PosDef.of_dotProduct_mulVec_pos hsym fun v hv => ?_
    rw [star_trivial, key]
    have hn : ∀ j ∈ Finset.univ, 0 ≤ dt * (((v ᵥ* S.g q (k * dt) x) j + dt / 2 * (v ᵥ* (jacobian (S.f q) (k * dt) x * S.g q (k * dt) x)) j) ^ 2 +
      dt ^ 2 / 12 * ((v ᵥ* (jacobian (S.f q) (k * dt) x * S.g q (k * dt) x)) j) ^ 2) := fun j _ => by positivity
    refine lt_of_le_of_ne (Finset.sum_nonneg hn) fun e => hv ?_
    have hz := (Finset.sum_eq_zero_iff_of_nonneg hn).1 e.symm
    have hb : ∀ j, (v ᵥ* (jacobian (S.f q) (k * dt) x * S.g q (k * dt) x)) j = 0 := fun j => by
      have := (mul_eq_zero.1 (hz j (Finset.mem_univ j))).resolve_left hdt.ne'
      have := (add_eq_zero_iff_of_nonneg (by positivity) (by positivity)).1 this
      have := (mul_eq_zero.1 this.2).resolve_left (by positivity)
      exact pow_eq_zero_iff (two_ne_zero) |>.1 this
    refine h v (funext fun j => ?_) (funext hb)
    have := (mul_eq_zero.1 (hz j (Finset.mem_univ j))).resolve_left hdt.ne'
    rw [hb j] at this
    simpa using this

/-! ### When the merit returns -/

section
variable {Y M σ : Type} {c₁ : Y → σ → Py (M × σ)} {p₁ : σ → Py (M × σ)}

/-- A run returns, unless it comes to a state that is not good. -/
theorem schedule_unless (I good : σ → Prop) (hc : ∀ y s, I s → ∃ m s', c₁ y s = .ok (m, s') ∧ I s') (hp : ∀ s, I s → good s → ∃ m s', p₁ s = .ok (m, s') ∧ I s')
    (y : List Y) {s : σ} (hs : I s) :
    (∃ ms s', schedule c₁ p₁ y s = .ok (ms, s')) ∨ ∃ n ms s', n + 1 < y.length ∧ schedule c₁ p₁ (y.take (n + 1)) s = .ok (ms, s') ∧ ¬good s' := by
  induction y generalizing s with
  | nil => exact .inl ⟨[], s, rfl⟩
  | cons a y ih =>
    obtain ⟨m, s1, h1, hI1⟩ := hc a s hs
    cases y with
    | nil => exact .inl ⟨[m], s1, by simp only [schedule, h1]; rfl⟩
    | cons b y =>
      by_cases hg : good s1
      · obtain ⟨pr, s2, h2, hI2⟩ := hp s1 hI1 hg
        rcases ih hI2 with ⟨ms, s3, h3⟩ | ⟨n, ms, s3, hn, h3, h4⟩
        · exact .inl ⟨m :: ms, s3, by simp only [schedule, h1, h2, py_bind_ok, h3]; rfl⟩
        · refine .inr ⟨n + 1, m :: ms, s3, Nat.succ_lt_succ hn, ?_, h4⟩
          simp only [List.take_succ_cons] at h3 ⊢
          simp only [schedule, h1, h2, py_bind_ok, h3]
          rfl
      · exact .inr ⟨0, [m], s1, by simp, by simp only [List.take_succ_cons, List.take_zero, schedule, h1]; rfl, hg⟩

end

/-- **C113.** For any model with positive definite `R` and initial covariance: `merit` returns, unless the filter comes to a state where the covariance of the noise is singular. -/
theorem C113_returns (S : SDE nx nw ny nq) (hn : 0 < nx) (dt : ℝ) (y : List (MaskedRow (Fin ny))) (q : Fin nq → ℝ) (hR : (S.R q).PosDef) (hP : (S.Px0 q).PosDef) :
    (∃ L, merit S dt y q = .ok L) ∨ ∃ (ut : UT nx) (n : Nat) (ms : List (Moments nx)) (s' : UKF nx ut.nsigma ut.nsigma (Fin ny) (Fin nq)), UT.init nx .cholesky (0 : ℝ) = .ok ut ∧
      n + 1 < y.length ∧ (UKF.cls ut ut (ito S dt q)).filter (y.take (n + 1)) ⟨start S q, none, .never⟩ = .ok (ms, s') ∧ ¬((ito S dt q).Q s'.k s'.x).PosDef := by
  obtain ⟨ut, hut⟩ := exists_ut (nx := nx) hn
  have hpos : 0 < (nx : ℝ) + 0 := by rw [add_zero]; exact_mod_cast hn
  have hQ : ∀ k x, ((ito S dt q).Q k x).PosSemidef := fun k x => (C54_psd (itoG (S.at q) dt k x)).2
  rcases schedule_unless (c₁ := (UKF.cls ut ut (ito S dt q)).correct) (p₁ := (UKF.cls ut ut (ito S dt q)).predict)
    (fun s : UKF nx ut.nsigma ut.nsigma (Fin ny) (Fin nq) => s.Px.PosDef) (fun s => ((ito S dt q).Q s.k s.x).PosDef) (fun y s hs => by
      obtain ⟨s', h, h', -⟩ := C36_ukf_returns ut ut .cholesky .cholesky 0 0 hut hut le_rfl le_rfl { ito S dt q with Q := fun _ _ => 1 } (fun k x => ⟨PosDef.one, PosDef.one⟩) hR [some y] s ⟨hs, hs⟩
      obtain ⟨⟨m, s₁⟩, e, h⟩ := py_bind_eq_ok h
      obtain rfl : s₁ = s' := Except.ok.inj h
      exact ⟨m, s₁, e, h'⟩) (fun s hs hg => by
      obtain ⟨d, hd⟩ := transform_of hut hpos s.x ((ito S dt q).f s.k) (show RootDom .cholesky s.Px from hs)
      exact ⟨_, _, ukf_predict_of s hd, PosDef.posSemidef_add (ukf_Po_psd hut le_rfl hd) hg⟩) y (s := ⟨start S q, none, .never⟩) hP with ⟨ms, s', h⟩ | ⟨n, ms, s', h1, h2, h3⟩
  · left
    rw [← filter_eq] at h
    obtain ⟨L, s'', h', -⟩ := C48_ukf_returns_partial ut ut _ (psd_symm hR.posSemidef) y _ _ _ h
    refine ⟨L, ?_⟩
    unfold merit
    rw [hut, py_bind_ok, h']
    rfl
  · exact .inr ⟨ut, n, ms, s', hut, h1, by rw [filter_eq]; exact h2, h3⟩

/-! ### The origin of the state -/

theorem partialD_shift {n : Nat} (F : (Fin n → ℝ) → ℝ) (b : Fin n → ℝ) (p : Fin n) (x : Fin n → ℝ) : partialD F p (x + b) = partialD (fun z => F (z + b)) p x := by
  have e : (fun s => F (Function.update x p s + b)) = fun s => F (Function.update (x + b) p (s + b p)) := by
    funext s
    congr 1
    funext i
    by_cases h : i = p
    · subst h
      simp
    · simp [Function.update_of_ne h]
  unfold partialD
  rw [e, deriv_comp_add_const (fun s => F (Function.update (x + b) p s)) (b p)]
  rfl

section
variable {S' : SDE nx nw ny nq} {dt : ℝ} {q q' : Fin nq → ℝ} {b : Fin nx → ℝ}

/-- The new coordinates: the origin of the state is moved. -/
def moved (ny : Nat) (b : Fin nx → ℝ) : Units nx (Fin ny) := ⟨1, b, fun _ => 1, fun _ => 0⟩

theorem moved_state (x : Fin nx → ℝ) : (moved ny b).state x = x + b := by simp [moved, Units.state]

theorem moved_cov (P : Matrix (Fin nx) (Fin nx) ℝ) : (moved ny b).cov P = P := by simp [moved, Units.cov]

theorem moved_rows (y : List (MaskedRow (Fin ny))) : y.map (moved ny b).row = y := by
  conv_rhs => rw [← List.map_id y]
  refine List.map_congr_left fun r _ => ?_
  simp [moved, Units.row]

theorem moved_volume (y : List (MaskedRow (Fin ny))) : (y.map (moved ny b).logVolume).sum = 0 := by
  refine List.sum_eq_zero fun z hz => ?_
  obtain ⟨r, -, rfl⟩ := List.mem_map.1 hz
  simp [moved, Units.logVolume]

theorem moved_converts (hdt : 0 ≤ dt) (hf : ∀ t x, S'.f q' t (x + b) = S.f q t x)
    (hg : ∀ t x, S'.g q' t (x + b) = S.g q t x) (hh : ∀ t x, S'.h q' t (x + b) = S.h q t x) (hR : S'.R q' = S.R q) :
    (moved ny b).Converts (ito S dt q) (ito S' dt q') := by
  have hd1 : ∀ t x i p, partialD (fun z => S'.f q' t z i) p (x + b) = partialD (fun z => S.f q t z i) p x := fun t x i p => by
    rw [partialD_shift]
    simp only [hf]
  refine ⟨fun k x => funext fun i => ?_, fun k x j => ?_, fun k x => ?_, fun i j => ?_⟩
  · rw [moved_state, moved_state, Pi.add_apply, f_eq, f_eq, hf]
    unfold generator
    have h2 : ∀ p r, partialD (partialD (fun z => S'.f q' (k * dt) z i) r) p (x + b) = partialD (partialD (fun z => S.f q (k * dt) z i) r) p x := fun p r => by
      rw [partialD_shift]
      simp only [hd1]
    have h0 : (fun s => S'.f q' s (x + b) i) = fun s => S.f q s x i := funext fun s => by rw [hf]
    simp only [hf, hg, hd1, h2]
    rw [Pi.add_apply]
    ring
  · rw [moved_state]
    show S'.h q' _ (x + b) j = 1 * S.h q _ x j + 0
    rw [hh, one_mul, add_zero]
  · rw [moved_state, moved_cov, Q_eq S' hdt, Q_eq S hdt]
    have : jacobian (S'.f q') (k * dt) (x + b) = jacobian (S.f q) (k * dt) x := by
      ext i p
      exact hd1 _ x i p
    rw [this, hg]
  · show S'.R q' i j = 1 * S.R q i j * 1
    rw [hR, one_mul, mul_one]

theorem moved_merit (hdt : 0 ≤ dt) (hf : ∀ t x, S'.f q' t (x + b) = S.f q t x)
    (hg : ∀ t x, S'.g q' t (x + b) = S.g q t x) (hh : ∀ t x, S'.h q' t (x + b) = S.h q t x) (hR : S'.R q' = S.R q) (hx : S'.x0 q' = S.x0 q + b) (hP : S'.Px0 q' = S.Px0 q)
    (y : List (MaskedRow (Fin ny))) {ut : UT nx} (hut : UT.init nx .cholesky (0 : ℝ) = .ok ut) :
    SameOutcome (fun r r' => r'.1 = r.1) ((UKF.cls ut ut (ito S dt q)).pemMerit y ⟨start S q, none, .never⟩) ((UKF.cls ut ut (ito S' dt q')).pemMerit y ⟨start S' q', none, .never⟩) := by
  have hs : (moved ny b).Same (start S q) (start S' q') := by
    refine ⟨rfl, ?_, ?_⟩
    · rw [moved_state]
      exact hx
    · rw [moved_cov]
      exact hP
  have h := C90_ukf_merit (moved ny b) hut hut (moved_converts hdt hf hg hh hR) (d := fun _ => 1) diagonal_one.symm (fun _ => one_pos) (fun _ => one_pos) y
    ⟨start S q, none, .never⟩ ⟨start S' q', none, .never⟩ hs rfl
  rw [moved_rows, moved_volume] at h
  simpa only [sub_zero] using h

end

/-- **C113** (origin). If a model is another one with the origin of the states moved, it has the same merit. -/
theorem C113_shift {S' : SDE nx nw ny nq} {dt : ℝ} (hdt : 0 ≤ dt) {q q' : Fin nq → ℝ} (b : Fin nx → ℝ) (hf : ∀ t x, S'.f q' t (x + b) = S.f q t x)
    (hg : ∀ t x, S'.g q' t (x + b) = S.g q t x) (hh : ∀ t x, S'.h q' t (x + b) = S.h q t x) (hR : S'.R q' = S.R q) (hx : S'.x0 q' = S.x0 q + b) (hP : S'.Px0 q' = S.Px0 q)
    (y : List (MaskedRow (Fin ny))) : merit S' dt y q' = merit S dt y q := by
  have key : ∀ {A B : Type} {u : Py (ℝ × A)} {v : Py (ℝ × B)}, SameOutcome (fun r r' => r'.1 = r.1) u v →
      (v >>= fun r => (pure r.1 : Py ℝ)) = (u >>= fun r => (pure r.1 : Py ℝ)) := by
    intro A B u v h
    rcases u with e | r <;> rcases v with e' | r'
    · cases h
      rfl
    · exact h.elim
    · exact h.elim
    · have h : r'.1 = r.1 := h
      show Except.ok r'.1 = Except.ok r.1
      rw [h]
  unfold merit
  cases hut : UT.init nx .cholesky (0 : ℝ) with
  | error e => rw [py_bind_error, py_bind_error]
  | ok ut =>
    rw [py_bind_ok, py_bind_ok]
    exact key (moved_merit hdt hf hg hh hR hx hP y hut)

/-! ### The attitude example -/

variable (c : AttitudeConsts)

/-- **C113** (attitude, noise of measurements and initial state). -/
theorem C113_data (q : Fin 10 → ℝ) :
    (((attitude c).R q).PosDef ↔ c.accel_mng ≠ 0 ∧ c.omega_mng ≠ 0 ∧ c.mag_mng ≠ 0) ∧ (((attitude c).Px0 q).PosDef ↔ ∀ i, c.x0_std i ≠ 0) := by
  constructor
  · simp only [attitude, posDef_diagonal_iff]
    constructor
    · intro h
      have h0 : 0 < c.accel_mng ^ 2 := h 0
      have h3 : 0 < c.omega_mng ^ 2 := h 3
      have h6 : 0 < c.mag_mng ^ 2 := h 6
      exact ⟨fun e => by simp [e] at h0, fun e => by simp [e] at h3, fun e => by simp [e] at h6⟩
    · rintro ⟨h0, h3, h6⟩ i
      have e0 : 0 < c.accel_mng ^ 2 := by positivity
      have e3 : 0 < c.omega_mng ^ 2 := by positivity
      have e6 : 0 < c.mag_mng ^ 2 := by positivity
      fin_cases i <;> assumption
  · simp only [attitude, posDef_diagonal_iff]
    refine forall_congr' fun i => ⟨fun h e => by simp [e] at h, fun h => by positivity⟩

theorem attitude_row (q : Fin 10 → ℝ) (t : ℝ) (x : Fin 9 → ℝ) (i p : Fin 9) (hi : i.val < 6) : jacobian ((attitude c).f q) t x i p = 0 := by
  have : ∀ z, (attitude c).f q t z i = 0 := fun z => by
    match i, hi with
    | 0, _ => rfl
    | 1, _ => rfl
    | 2, _ => rfl
    | 3, _ => rfl
    | 4, _ => rfl
    | 5, _ => rfl
  simp only [jacobian, of_apply, partialD, this, deriv_const]

theorem deriv_affine {F : ℝ → ℝ} (a b s : ℝ) (h : ∀ s, F s = a + b * s) : deriv F s = b := by
  rw [show F = fun s => a + b * s from funext h]
  have := (((hasDerivAt_id' s).const_mul b).const_add a).deriv
  rwa [mul_one] at this

/-- The derivatives of the rates of the angles in the angular velocity. -/
noncomputable def euler (x : Fin 9 → ℝ) : Matrix (Fin 3) (Fin 3) ℝ :=
  !![1, Real.tan (x 7) * Real.sin (x 6), Real.tan (x 7) * Real.cos (x 6); 0, Real.cos (x 6), -Real.sin (x 6);
      0, Real.sin (x 6) / Real.cos (x 7), Real.cos (x 6) / Real.cos (x 7)]

theorem attitude_rates (q : Fin 10 → ℝ) (t : ℝ) (x : Fin 9 → ℝ) (i : Fin 3) :
    (attitude c).f q t x (Fin.natAdd 6 i) = euler x i 0 * x 3 + euler x i 1 * x 4 + euler x i 2 * x 5 := by
  match i with
  | 0 => 
    show x 3 + Real.tan (x 7) * (Real.sin (x 6) * x 4 + Real.cos (x 6) * x 5) = 1 * x 3 + Real.tan (x 7) * Real.sin (x 6) * x 4 + Real.tan (x 7) * Real.cos (x 6) * x 5
    ring
  | 1 => 
    show Real.cos (x 6) * x 4 - Real.sin (x 6) * x 5 = 0 * x 3 + Real.cos (x 6) * x 4 + -Real.sin (x 6) * x 5
    ring
  | 2 => 
    show Real.sin (x 6) / Real.cos (x 7) * x 4 + Real.cos (x 6) / Real.cos (x 7) * x 5 = 0 * x 3 + Real.sin (x 6) / Real.cos (x 7) * x 4 + Real.cos (x 6) / Real.cos (x 7) * x 5
    ring

theorem attitude_euler (q : Fin 10 → ℝ) (t : ℝ) (x : Fin 9 → ℝ) (i p : Fin 3) : jacobian ((attitude c).f q) t x (Fin.natAdd 6 i) ⟨3 + p.val, by omega⟩ = euler x i p := by
  have he : ∀ (r : Fin 9) (s : ℝ), r ≠ 6 → r ≠ 7 → euler (Function.update x r s) = euler x := fun r s h6 h7 => by
    unfold euler
    rw [Function.update_of_ne h6.symm, Function.update_of_ne h7.symm]
  have h6 : (⟨3 + p.val, by omega⟩ : Fin 9) ≠ 6 := by
    intro h
    have := congrArg Fin.val h
    simp only [Fin.val_ofNat] at this
    omega
  have h7 : (⟨3 + p.val, by omega⟩ : Fin 9) ≠ 7 := by
    intro h
    have := congrArg Fin.val h
    simp only [Fin.val_ofNat] at this
    omega
  simp only [jacobian, of_apply, partialD, attitude_rates, he _ _ h6 h7]
  match p with
  | 0 => 
    refine deriv_affine (euler x i 1 * x 4 + euler x i 2 * x 5) (euler x i 0) _ fun s => ?_
    show euler x i 0 * Function.update x 3 s 3 + euler x i 1 * Function.update x 3 s 4 + euler x i 2 * Function.update x 3 s 5 = _
    rw [Function.update_self, Function.update_of_ne (by decide), Function.update_of_ne (by decide)]
    ring
  | 1 => 
    refine deriv_affine (euler x i 0 * x 3 + euler x i 2 * x 5) (euler x i 1) _ fun s => ?_
    show euler x i 0 * Function.update x 4 s 3 + euler x i 1 * Function.update x 4 s 4 + euler x i 2 * Function.update x 4 s 5 = _
    rw [Function.update_self, Function.update_of_ne (by decide), Function.update_of_ne (by decide)]
    ring
  | 2 => 
    refine deriv_affine (euler x i 0 * x 3 + euler x i 1 * x 4) (euler x i 2) _ fun s => ?_
    show euler x i 0 * Function.update x 5 s 3 + euler x i 1 * Function.update x 5 s 4 + euler x i 2 * Function.update x 5 s 5 = _
    rw [Function.update_self, Function.update_of_ne (by decide), Function.update_of_ne (by decide)]

/-- The gains of the noises. -/
def gain (q : Fin 10 → ℝ) (j : Fin 6) : ℝ := if j.val < 3 then q 8 else q 9

theorem attitude_g (q : Fin 10 → ℝ) (t : ℝ) (x : Fin 9 → ℝ) (A : Fin 9 → ℝ) (j : Fin 6) : ∑ p, A p * (attitude c).g q t x p j = A (Fin.castLE (by omega) j) * gain q j := by
  rw [Finset.sum_eq_single (Fin.castLE (by omega) j)]
  · congr 1
    show (if j.val = j.val then _ else (0 : ℝ)) = _
    rw [if_pos rfl]
    rfl
  · intro b _ hb
    have : ¬b.val = j.val := fun h => hb (Fin.ext h)
    show A b * (if b.val = j.val then _ else (0 : ℝ)) = 0
    rw [if_neg this, mul_zero]
  · intro h
    exact absurd (Finset.mem_univ _) h

/-- **C113** (attitude, noise of the states). Outside the vertical, the covariance of the noise is positive definite exactly if both gains are not zero. -/
theorem C113_definite {dt : ℝ} (hdt : 0 < dt) (q : Fin 10 → ℝ) (k : ℤ) (x : Fin 9 → ℝ) (hx : Real.cos (x 7) ≠ 0) :
    ((ito (attitude c) dt q).Q k x).PosDef ↔ q 8 ≠ 0 ∧ q 9 ≠ 0 := by
  rw [C113_controllable _ hdt]
  have e1 : ∀ v : Fin 9 → ℝ, v ᵥ* (attitude c).g q (k * dt) x = fun j => v (Fin.castLE (by omega) j) * gain q j := fun v => funext fun j => attitude_g c q _ x v j
  have e2 : ∀ v : Fin 9 → ℝ, v ᵥ* (jacobian ((attitude c).f q) (k * dt) x * (attitude c).g q (k * dt) x) =
      fun j => (∑ i, v i * jacobian ((attitude c).f q) (k * dt) x i (Fin.castLE (by omega) j)) * gain q j := fun v => by
    funext j
    rw [← vecMul_vecMul]
    exact attitude_g c q _ x _ j
  constructor
  · intro h
    have key : ∀ i : Fin 6, gain q i = 0 → False := fun i hi => by
      have := h (Pi.single (Fin.castLE (by omega) i) 1) (by
        rw [e1]
        funext j
        show _ = (0 : ℝ)
        by_cases hij : j = i
        · rw [hij, hi, mul_zero]
        · have hne : (Fin.castLE (by omega) j : Fin 9) ≠ Fin.castLE (by omega) i := fun h => hij (Fin.castLE_injective _ h)
          rw [Pi.single_eq_of_ne hne, zero_mul]) (by
        rw [e2]
        funext j
        show _ * _ = (0 : ℝ)
        rw [Finset.sum_eq_zero, zero_mul]
        intro r _
        by_cases hr : r = Fin.castLE (by omega) i
        · rw [hr, attitude_row c q _ x _ _ i.2, mul_zero]
        · rw [Pi.single_eq_of_ne hr, zero_mul])
      have h1 := congrFun this (Fin.castLE (by omega) i)
      rw [Pi.single_eq_same] at h1
      exact one_ne_zero h1
    exact ⟨fun h8 => key 0 h8, fun h9 => key 3 h9⟩
  · rintro ⟨h8, h9⟩ v hv1 hv2
    have hgain : ∀ j, gain q j ≠ 0 := fun j => by
      unfold gain
      split_ifs
      · exact h8
      · exact h9
    have hlow : ∀ j : Fin 6, v (Fin.castLE (by omega) j) = 0 := fun j => by
      have := congrFun (e1 v ▸ hv1) j
      exact (mul_eq_zero.1 this).resolve_right (hgain j)
    have hup : ∀ p : Fin 3, ∑ i : Fin 3, v (Fin.natAdd 6 i) * euler x i p = 0 := fun p => by
      have := congrFun (e2 v ▸ hv2) (⟨3 + p.val, by omega⟩ : Fin 6)
      have := (mul_eq_zero.1 this).resolve_right (hgain _)
      have hs := Fin.sum_univ_add (a := 6) (b := 3) fun i => v i * jacobian ((attitude c).f q) (k * dt) x i ⟨3 + p.val, by omega⟩
      have hs' := hs.symm.trans this
      rw [Finset.sum_eq_zero (fun i _ => by rw [attitude_row c q _ x _ _ (by simp), mul_zero]), zero_add] at hs'
      simpa only [attitude_euler] using hs'
    have p0 := hup 0
    have p1 := hup 1
    have p2 := hup 2
    rw [Fin.sum_univ_three] at p0 p1 p2
    have p0 : v 6 * 1 + v 7 * 0 + v 8 * 0 = 0 := p0
    have h6 : v 6 = 0 := by linarith
    have p1 : v 6 * _ + v 7 * Real.cos (x 6) + v 8 * (Real.sin (x 6) / Real.cos (x 7)) = 0 := p1
    have p2 : v 6 * _ + v 7 * (-Real.sin (x 6)) + v 8 * (Real.cos (x 6) / Real.cos (x 7)) = 0 := p2
    rw [h6, zero_mul, zero_add] at p1 p2
    have hsc := Real.sin_sq_add_cos_sq (x 6)
    have h7 : v 7 = 0 := by linear_combination Real.cos (x 6) * p1 - Real.sin (x 6) * p2 - v 7 * hsc
    have h8' : v 8 / Real.cos (x 7) = 0 := by linear_combination Real.sin (x 6) * p1 + Real.cos (x 6) * p2 - v 8 / Real.cos (x 7) * hsc
    have h8 : v 8 = 0 := (div_eq_zero_iff.1 h8').resolve_right hx
    funext i
    match i with
    | 0 => exact hlow 0
    | 1 => exact hlow 1
    | 2 => exact hlow 2
    | 3 => exact hlow 3
    | 4 => exact hlow 4
    | 5 => exact hlow 5
    | 6 => exact h6
    | 7 => exact h7
    | 8 => exact h8

/-- **C113** (attitude). With noise in states, measurements and initial state, `merit` returns for whatever is measured and masked, unless the filter comes to a vertical attitude. -/
theorem C113_attitude {dt : ℝ} (hdt : 0 < dt) (h1 : c.accel_mng ≠ 0) (h2 : c.omega_mng ≠ 0) (h3 : c.mag_mng ≠ 0) (h4 : ∀ i, c.x0_std i ≠ 0) (y : List (MaskedRow (Fin 9)))
    (q : Fin 10 → ℝ) (h8 : q 8 ≠ 0) (h9 : q 9 ≠ 0) :
    (∃ L, merit (attitude c) dt y q = .ok L) ∨
      ∃ (ut : UT 9) (n : Nat) (ms : List (Moments 9)) (s' : UKF 9 ut.nsigma ut.nsigma (Fin 9) (Fin 10)), UT.init 9 .cholesky (0 : ℝ) = .ok ut ∧ n + 1 < y.length ∧
        (UKF.cls ut ut (ito (attitude c) dt q)).filter (y.take (n + 1)) ⟨start (attitude c) q, none, .never⟩ = .ok (ms, s') ∧ Real.cos (s'.x 7) = 0 := by
  rcases C113_returns (attitude c) (by norm_num) dt y q ((C113_data c q).1.2 ⟨h1, h2, h3⟩) ((C113_data c q).2.2 h4) with h | ⟨ut, n, ms, s', a, b, d, e⟩
  · exact .inl h
  · refine .inr ⟨ut, n, ms, s', a, b, d, ?_⟩
    by_contra hc
    exact e ((C113_definite c hdt q _ _ hc).2 ⟨h8, h9⟩)

/-- **C113** (attitude, signs). The merit does not tell the signs of the gains of the noises … -/
theorem C113_signs {dt : ℝ} (hdt : 0 ≤ dt) (y : List (MaskedRow (Fin 9))) (q q' : Fin 10 → ℝ) (h : ∀ i, i ≠ 8 → i ≠ 9 → q' i = q i) (h8 : q' 8 ^ 2 = q 8 ^ 2) (h9 : q' 9 ^ 2 = q 9 ^ 2)
    (L : ℝ) : merit (attitude c) dt y q' = .ok L ↔ merit (attitude c) dt y q = .ok L := by
  have eh : (attitude c).h q' = (attitude c).h q := by
    simp only [attitude, h 0 (by decide) (by decide), h 1 (by decide) (by decide), h 2 (by decide) (by decide), h 3 (by decide) (by decide), h 4 (by decide) (by decide),
      h 5 (by decide) (by decide), h 6 (by decide) (by decide), h 7 (by decide) (by decide)]
  have eg : ∀ (r : Fin 10 → ℝ) t x, (attitude c).g r t x * ((attitude c).g r t x)ᵀ = of fun i j => if i.val = j.val then (if i.val < 3 then r 8 ^ 2 else if i.val < 6 then r 9 ^ 2 else 0) else 0 := by
    intro r t x
    ext i j
    show ∑ p : Fin 6, (if i.val = p.val then (if p.val < 3 then r 8 else r 9) else 0) * (if j.val = p.val then (if p.val < 3 then r 8 else r 9) else 0) = _
    rw [of_apply]
    by_cases hi : i.val < 6
    · rw [Finset.sum_eq_single (⟨i.val, hi⟩ : Fin 6)]
      · by_cases hij : i.val = j.val
        · simp only [← hij, if_true, if_pos hi]
          split_ifs <;> ring
        · simp only [if_neg (Ne.symm hij), if_neg hij, mul_zero]
      · intro p _ hp
        rw [if_neg (fun h => hp (Fin.ext h.symm)), zero_mul]
      · exact fun h => absurd (Finset.mem_univ _) h
    · have h3 : ¬i.val < 3 := by omega
      rw [if_neg h3, if_neg hi, ite_self]
      refine Finset.sum_eq_zero fun p _ => ?_
      have hip : ¬i.val = p.val := by omega
      rw [if_neg hip, zero_mul]
  have ef : (attitude c).f q' = (attitude c).f q := by simp only [attitude]
  have eR : (attitude c).R q' = (attitude c).R q := by simp only [attitude]
  have ex : (attitude c).x0 q' = (attitude c).x0 q := by simp only [attitude]
  have eP : (attitude c).Px0 q' = (attitude c).Px0 q := by simp only [attitude]
  have eg' : ∀ t x, (attitude c).g q' t x * ((attitude c).g q' t x)ᵀ = (attitude c).g q t x * ((attitude c).g q t x)ᵀ := fun t x => by rw [eg, eg, h8, h9]
  exact C112_factor (S := attitude c) (S' := attitude c) hdt ef eg' eh eR ex eP y L

/-- … nor the sign of the horizontal magnetic field: with the opposite sign all headings are opposite. -/
theorem C113_heading {dt : ℝ} (hdt : 0 ≤ dt) (y : List (MaskedRow (Fin 9))) (q : Fin 10 → ℝ) :
    merit (attitude { c with x0 := c.x0 + Pi.single 8 Real.pi }) dt y (Function.update q 0 (-q 0)) = merit (attitude c) dt y q := by
  have eR : (attitude { c with x0 := c.x0 + Pi.single 8 Real.pi }).R (Function.update q 0 (-q 0)) = (attitude c).R q := by simp only [attitude]
  have ex : (attitude { c with x0 := c.x0 + Pi.single 8 Real.pi }).x0 (Function.update q 0 (-q 0)) = (attitude c).x0 q + Pi.single 8 Real.pi := by simp only [attitude]
  have eP : (attitude { c with x0 := c.x0 + Pi.single 8 Real.pi }).Px0 (Function.update q 0 (-q 0)) = (attitude c).Px0 q := by simp only [attitude]
  refine C113_shift (S := attitude c) (S' := attitude { c with x0 := c.x0 + Pi.single 8 Real.pi }) hdt (Pi.single 8 Real.pi) (fun t x => ?_) (fun t x => ?_) (fun t x => ?_) eR ex eP y
  all_goals obtain ⟨z, hz⟩ : ∃ z : Fin 9 → ℝ, z = x + Pi.single 8 Real.pi := ⟨_, rfl⟩
  all_goals have e8 : z 8 = x 8 + Real.pi := by rw [hz, Pi.add_apply, Pi.single_eq_same]
  all_goals have e : ∀ i : Fin 9, i ≠ 8 → z i = x i := fun i h => by rw [hz, Pi.add_apply, Pi.single_eq_of_ne h, add_zero]
  all_goals rw [← hz]
  · simp only [attitude, Ex.attitudeRates, anglesOf, cons_val, e _ (show (3 : Fin 9) ≠ 8 by decide), e _ (show (4 : Fin 9) ≠ 8 by decide), e _ (show (5 : Fin 9) ≠ 8 by decide),
      e _ (show (6 : Fin 9) ≠ 8 by decide), e _ (show (7 : Fin 9) ≠ 8 by decide)]
  · ext i j
    simp only [attitude, of_apply, Function.update_of_ne (show (8 : Fin 10) ≠ 0 by decide), Function.update_of_ne (show (9 : Fin 10) ≠ 0 by decide)]
  · have hE0 : ∀ i, Ex.attitudeE2b (anglesOf z) i 0 = -Ex.attitudeE2b (anglesOf x) i 0 := fun i => by
      match i with
      | 0 => 
        show Real.cos (z 7) * Real.cos (z 8) = -(Real.cos (x 7) * Real.cos (x 8))
        rw [e8, e 7 (by decide), Real.cos_add_pi]; ring
      | 1 => 
        show -Real.cos (z 6) * Real.sin (z 8) + Real.sin (z 6) * Real.sin (z 7) *
          Real.cos (z 8) = -(-Real.cos (x 6) * Real.sin (x 8) + Real.sin (x 6) * Real.sin (x 7) * Real.cos (x 8))
        rw [e8, e 6 (by decide), e 7 (by decide), Real.cos_add_pi, Real.sin_add_pi]; ring
      | 2 => 
        show Real.sin (z 6) * Real.sin (z 8) + Real.cos (z 6) * Real.sin (z 7) *
          Real.cos (z 8) = -(Real.sin (x 6) * Real.sin (x 8) + Real.cos (x 6) * Real.sin (x 7) * Real.cos (x 8))
        rw [e8, e 6 (by decide), e 7 (by decide), Real.cos_add_pi, Real.sin_add_pi]; ring
    have hE2 : ∀ i, Ex.attitudeE2b (anglesOf z) i 2 = Ex.attitudeE2b (anglesOf x) i 2 := fun i => by
      match i with
      | 0 => 
        show -Real.sin (z 7) = -Real.sin (x 7)
        rw [e 7 (by decide)]
      | 1 => 
        show Real.sin (z 6) * Real.cos (z 7) = Real.sin (x 6) * Real.cos (x 7)
        rw [e 6 (by decide), e 7 (by decide)]
      | 2 => 
        show Real.cos (z 6) * Real.cos (z 7) = Real.cos (x 6) * Real.cos (x 7)
        rw [e 6 (by decide), e 7 (by decide)]
    have hq : ∀ i : Fin 10, i ≠ 0 → Function.update q 0 (-q 0) i = q i := fun i h => Function.update_of_ne h _ _
    have hm : Ex.attitudeMag (anglesOf z) (-q 0) (q 1) ![q 2, q 3, q 4] = Ex.attitudeMag (anglesOf x) (q 0) (q 1) ![q 2, q 3, q 4] := by
      funext i
      unfold Ex.attitudeMag
      rw [hE0, hE2]
      ring
    have ha : ∀ a, Ex.attitudeAccel (anglesOf z) a c.g0 = Ex.attitudeAccel (anglesOf x) a c.g0 := fun a => by
      funext i
      unfold Ex.attitudeAccel
      rw [hE2]
      ring
    simp only [attitude, Function.update_self, hq 1 (by decide), hq 2 (by decide), hq 3 (by decide), hq 4 (by decide), hq 5 (by decide), hq 6 (by decide), hq 7 (by decide), hm, ha,
      e _ (show (0 : Fin 9) ≠ 8 by decide), e _ (show (1 : Fin 9) ≠ 8 by decide), e _ (show (2 : Fin 9) ≠ 8 by decide), e _ (show (3 : Fin 9) ≠ 8 by decide),
      e _ (show (4 : Fin 9) ≠ 8 by decide), e _ (show (5 : Fin 9) ≠ 8 by decide)]

/-- **C113** (attitude, measurements). With a horizontal magnetic field and gravity, the attitude follows from the measurements and the acceleration; … -/
theorem C113_observable (q : Fin 10 → ℝ) (h0 : q 0 ≠ 0) (hg : c.g0 ≠ 0) (t : ℝ) (x x' : Fin 9 → ℝ) (ha : ∀ i : Fin 9, i.val < 3 → x' i = x i)
    (h : (attitude c).h q t x' = (attitude c).h q t x) :
    (∀ i : Fin 9, i.val < 6 → x' i = x i) ∧ Ex.attitudeE2b (anglesOf x') = Ex.attitudeE2b (anglesOf x) := by
  have hacc : ∀ i : Fin 3, Ex.attitudeAccel (anglesOf x') ![x' 0, x' 1, x' 2] c.g0 i = Ex.attitudeAccel (anglesOf x) ![x 0, x 1, x 2] c.g0 i := fun i => by
    match i with
    | 0 => exact congrFun h 0
    | 1 => exact congrFun h 1
    | 2 => exact congrFun h 2
  have hmag : ∀ i : Fin 3, Ex.attitudeMag (anglesOf x') (q 0) (q 1) ![q 2, q 3, q 4] i = Ex.attitudeMag (anglesOf x) (q 0) (q 1) ![q 2, q 3, q 4] i := fun i => by
    match i with
    | 0 => exact congrFun h 6
    | 1 => exact congrFun h 7
    | 2 => exact congrFun h 8
  have h3 : x' 3 + q 5 = x 3 + q 5 := congrFun h 3
  have h4 : x' 4 + q 6 = x 4 + q 6 := congrFun h 4
  have h5 : x' 5 + q 7 = x 5 + q 7 := congrFun h 5
  have e2 : ∀ i, Ex.attitudeE2b (anglesOf x') i 2 = Ex.attitudeE2b (anglesOf x) i 2 := fun i => by
    have := hacc i
    unfold Ex.attitudeAccel at this
    rw [ha 0 (by decide), ha 1 (by decide), ha 2 (by decide)] at this
    exact mul_right_cancel₀ hg (by linarith)
  have e0 : ∀ i, Ex.attitudeE2b (anglesOf x') i 0 = Ex.attitudeE2b (anglesOf x) i 0 := fun i => by
    have := hmag i
    unfold Ex.attitudeMag at this
    rw [e2] at this
    exact mul_right_cancel₀ h0 (by linarith)
  have cross : ∀ a : Fin 3 → ℝ, Ex.attitudeE2b a 0 1 = Ex.attitudeE2b a 1 2 * Ex.attitudeE2b a 2 0 - Ex.attitudeE2b a 2 2 * Ex.attitudeE2b a 1 0 ∧
      Ex.attitudeE2b a 1 1 = Ex.attitudeE2b a 2 2 * Ex.attitudeE2b a 0 0 - Ex.attitudeE2b a 0 2 * Ex.attitudeE2b a 2 0 ∧
      Ex.attitudeE2b a 2 1 = Ex.attitudeE2b a 0 2 * Ex.attitudeE2b a 1 0 - Ex.attitudeE2b a 1 2 * Ex.attitudeE2b a 0 0 := fun a => by
    have s0 := Real.sin_sq_add_cos_sq (a 0)
    have s1 := Real.sin_sq_add_cos_sq (a 1)
    simp only [Ex.attitudeE2b, cons_val]
    refine ⟨?_, ?_, ?_⟩
    · linear_combination -(Real.cos (a 1) * Real.sin (a 2)) * s0
    · linear_combination -(Real.cos (a 0) * Real.cos (a 2)) * s1
    · linear_combination (Real.sin (a 0) * Real.cos (a 2)) * s1
  constructor
  · intro i hi
    match i, hi with
    | 0, _ => exact ha 0 (by decide)
    | 1, _ => exact ha 1 (by decide)
    | 2, _ => exact ha 2 (by decide)
    | 3, _ => exact add_right_cancel h3
    | 4, _ => exact add_right_cancel h4
    | 5, _ => exact add_right_cancel h5
  · funext i j
    match j with
    | 0 => exact e0 i
    | 2 => exact e2 i
    | 1 => 
      obtain ⟨c0, c1, c2⟩ := cross (anglesOf x')
      obtain ⟨d0, d1, d2⟩ := cross (anglesOf x)
      match i with
      | 0 => rw [c0, d0, e0, e2, e0, e2]
      | 1 => rw [c1, d1, e0, e2, e0, e2]
      | 2 => rw [c2, d2, e0, e2, e0, e2]

/-- … without a horizontal magnetic field no measurement depends on the heading. -/
theorem C113_unobservable (q : Fin 10 → ℝ) (h0 : q 0 = 0) (t : ℝ) (x : Fin 9 → ℝ) (psi : ℝ) : (attitude c).h q t (Function.update x 8 psi) = (attitude c).h q t x := by
  have e : ∀ i : Fin 9, i ≠ 8 → Function.update x 8 psi i = x i := fun i h => Function.update_of_ne h _ _
  have hE2 : ∀ i, Ex.attitudeE2b (anglesOf (Function.update x 8 psi)) i 2 = Ex.attitudeE2b (anglesOf x) i 2 := fun i => by
    match i with
    | 0 => 
      show -Real.sin (Function.update x 8 psi 7) = -Real.sin (x 7)
      rw [e 7 (by decide)]
    | 1 => 
      show Real.sin (Function.update x 8 psi 6) * Real.cos (Function.update x 8 psi 7) = Real.sin (x 6) * Real.cos (x 7)
      rw [e 6 (by decide), e 7 (by decide)]
    | 2 => 
      show Real.cos (Function.update x 8 psi 6) * Real.cos (Function.update x 8 psi 7) = Real.cos (x 6) * Real.cos (x 7)
      rw [e 6 (by decide), e 7 (by decide)]
  have hm : Ex.attitudeMag (anglesOf (Function.update x 8 psi)) 0 (q 1) ![q 2, q 3, q 4] = Ex.attitudeMag (anglesOf x) 0 (q 1) ![q 2, q 3, q 4] := by
    funext i
    unfold Ex.attitudeMag
    rw [hE2]
    ring
  have ha : ∀ a, Ex.attitudeAccel (anglesOf (Function.update x 8 psi)) a c.g0 = Ex.attitudeAccel (anglesOf x) a c.g0 := fun a => by
    funext i
    unfold Ex.attitudeAccel
    rw [hE2]
    ring
  simp only [attitude, h0, hm, ha, e _ (show (0 : Fin 9) ≠ 8 by decide), e _ (show (1 : Fin 9) ≠ 8 by decide), e _ (show (2 : Fin 9) ≠ 8 by decide),
    e _ (show (3 : Fin 9) ≠ 8 by decide), e _ (show (4 : Fin 9) ≠ 8 by decide), e _ (show (5 : Fin 9) ≠ 8 by decide)]

/-- The numbers of the script (attitude.py:205-214): the noise is definite when the wings are level, … -/
example (q : Fin 10 → ℝ) (h8 : q 8 = 0.1) (h9 : q 9 = 0.01) (k : ℤ) : ((ito (attitude ⟨9.80665, 0, ![1, 1, 1, 0.1, 0.1, 0.1, 0.1, 0.1, 0.1], 0.01, 1e-6, 0.5⟩) 0.05 q).Q k 0).PosDef :=
  (C113_definite _ (by norm_num) q k 0 (by simp)).2 ⟨by rw [h8]; norm_num, by rw [h9]; norm_num⟩

/-- … and the merit of one sample returns, however it is masked. -/
example (q : Fin 10 → ℝ) (h8 : q 8 = 0.1) (h9 : q 9 = 0.01) (r : MaskedRow (Fin 9)) :
    ∃ L, merit (attitude ⟨9.80665, 0, ![1, 1, 1, 0.1, 0.1, 0.1, 0.1, 0.1, 0.1], 0.01, 1e-6, 0.5⟩) 0.05 [r] q = .ok L := by
  rcases C113_attitude ⟨9.80665, 0, ![1, 1, 1, 0.1, 0.1, 0.1, 0.1, 0.1, 0.1], 0.01, 1e-6, 0.5⟩ (dt := 0.05) (by norm_num) (by norm_num) (by norm_num) (by norm_num)
    (fun i => by fin_cases i <;> norm_num) [r] q (by rw [h8]; norm_num) (by rw [h9]; norm_num) with h | ⟨_, n, _, _, _, h, _⟩
  · exact h
  · simp at h

end Ceacoest.Pem
