import Verif.Model.ExampleOld
import Verif.Spec.ExampleOld
import Verif.Props.ExamplePem

/-! # C115: the script of `examples/duffing_old.py` -/

namespace Ceacoest.Pem
open SymSDE Matrix Sim Spec FilterClass
variable {nx nw ny nq : Nat}

/-- **C115** (simulation). If there is time for a sample: as many samples as steps fit, states that follow from each other by the discretised model, a row of outputs for each, all
masked in all rows but each fourth; and each is that of its state with its noise, if the output function does not depend on the time otherwise. -/
theorem C115_sim (S : SDE nx nw ny nq) (q : Fin nq → ℝ) (tf dt : ℝ) (hdt : 0 < dt) (htf : dt ≤ tf) (x0 : Fin nx → ℝ) (w : Nat → Fin (nw + nw) → ℝ) (v : Nat → Fin ny → ℝ)
    (hh : ∀ t t' x, S.h q t x = S.h q t' x) :
    ∃ d, simOld S q tf dt x0 w v = .ok d ∧ IsSimulation (S.at q) dt x0 w d.x ∧ d.x.length = ⌊tf / dt⌋₊ ∧ d.t.length = ⌊tf / dt⌋₊ ∧ d.y.length = ⌊tf / dt⌋₊ ∧
      (∀ (k : Nat) t, d.t[k]? = some t → t = k * dt) ∧
      ∀ (k : Nat) t x r, d.t[k]? = some t → d.x[k]? = some x → d.y[k]? = some r → r.data = S.h q t x + v k ∧ ∀ j, (r.mask j = false ↔ 4 ∣ k) := by
  set n := ⌊tf / dt⌋₊ with hn
  have h0 : 0 ≤ tf / dt := div_nonneg (hdt.le.trans htf) hdt.le
  have hn1 : 1 ≤ n := by
    rw [hn, Nat.one_le_floor_iff, le_div_iff₀ hdt, one_mul]
    exact htf
  obtain ⟨hl, hs⟩ := states_spec (S.at q) dt x0 w (N := n) hn1
  have hN : pyInt ((⌊tf / dt⌋ : ℤ) : ℝ) = n := by
    rw [pyInt_nonneg (by exact_mod_cast Int.floor_nonneg.2 h0), ← Int.natCast_floor_eq_floor h0]
    simp [hn]
  have hsim : simOld S q tf dt x0 w v = .ok ⟨(List.range n).map fun k : Nat => (k : ℝ) * dt, states (S.at q) dt x0 w n,
      maskOld ((List.range n).map fun k => SymSDE.h (S.at q) dt (if (2 : ℤ) ≤ n then (n : ℤ) - 2 else 0) ((states (S.at q) dt x0 w n).getD k 0) + v k)⟩ := by
    unfold simOld floorDiv
    rw [if_neg hdt.ne', py_bind_ok, hN]
    have e1 : draws w ((n : ℤ) - 1) = .ok ((List.range ((n : ℤ) - 1).toNat).map w) := if_neg (by omega)
    have e2 : draws v (n : ℤ) = .ok ((List.range n).map v) := if_neg (by omega)
    dsimp only
    rw [e1, e2]
    simp only [py_bind_ok, Int.toNat_natCast]
    unfold addRows
    rw [if_pos (by simp [hl])]
    simp only [py_bind_ok, py_pure, times, Int.toNat_natCast]
    congr 3
    refine List.ext_getElem (by simp [hl]) fun j h1 h2 => ?_
    have hj : j < n := by simpa using h2
    simp [hl, hj]
  have hy : ∀ ys : List (Fin ny → ℝ), (maskOld ys).length = ys.length := fun ys => by simp [maskOld]
  refine ⟨_, hsim, hs, hl, by simp, by rw [hy]; simp, fun k t ht => (Sim.getElem?_map_range ht).2, fun k t x r ht hx hr => ?_⟩
  dsimp only at ht hx hr
  obtain ⟨hk, rfl⟩ := Sim.getElem?_map_range ht
  obtain ⟨-, rfl⟩ := Sim.getElem?_map_range hr
  have hx' : (states (S.at q) dt x0 w n).getD k 0 = x := by rw [List.getD_eq_getElem?_getD, hx]; rfl
  refine ⟨?_, fun j => ?_⟩
  · dsimp only
    rw [List.getD_eq_getElem?_getD, List.getElem?_map, List.getElem?_range hk]
    simp only [Option.map_some, Option.getD_some]
    rw [hx']
    unfold SymSDE.h
    exact congrArg (· + v k) (hh _ _ x)
  · simp [Nat.dvd_iff_mod_eq_zero]

/-- Otherwise it raises: at a step of zero by the division, and if no step fits, or the step is negative, by the array of less than no random numbers. -/
theorem C115_sim_raises (S : SDE nx nw ny nq) (q : Fin nq → ℝ) (tf dt : ℝ) (htf : 0 ≤ tf) (h : ¬(0 < dt ∧ dt ≤ tf)) (x0 : Fin nx → ℝ) (w : Nat → Fin (nw + nw) → ℝ)
    (v : Nat → Fin ny → ℝ) : simOld S q tf dt x0 w v = .error (if dt = 0 then .zeroDivisionError else .valueError) := by
  unfold simOld floorDiv
  by_cases hd : dt = 0
  · rw [if_pos hd, if_pos hd]
    rfl
  · rw [if_neg hd, if_neg hd, py_bind_ok]
    have hN : ⌊tf / dt⌋ ≤ 0 := by
      rw [← Int.lt_add_one_iff, Int.floor_lt]
      push_cast
      rcases lt_or_gt_of_ne hd with hlt | hgt
      · exact (div_nonpos_of_nonneg_of_nonpos htf hlt.le).trans_lt (by norm_num)
      · rw [div_lt_iff₀ hgt]
        have : tf < dt := not_le.1 fun hle => h ⟨hgt, hle⟩
        linarith
    have hp : pyInt ((⌊tf / dt⌋ : ℤ) : ℝ) - 1 < 0 := by
      unfold pyInt
      split <;> simp <;> omega
    have e : draws w (pyInt ((⌊tf / dt⌋ : ℤ) : ℝ) - 1) = .error .valueError := if_pos hp
    simp only [e]
    rfl

section
variable {σ Y p : Type} (F : FilterClass nx Y p σ)

/-- Measurements that the correction cannot tell apart. -/
theorem runs_congr {y y' : List Y} (h : List.Forall₂ (fun r r' => F.correct r = F.correct r') y y') :
    F.filter y = F.filter y' ∧ F.smooth y = F.smooth y' ∧ F.pemMerit y = F.pemMerit y' ∧ F.pemGradient y = F.pemGradient y' ∧ F.pemHessian y = F.pemHessian y' := by
  have hl := h.length_eq
  have hr : ∀ k, (FilterClass.row y k = .error .indexError ∧ FilterClass.row y' k = .error .indexError) ∨ ∃ r r', FilterClass.row y k = .ok r ∧ FilterClass.row y' k = .ok r' ∧ F.correct r = F.correct r' := fun k => by
    unfold FilterClass.row
    by_cases hk : k < y.length
    · refine Or.inr ⟨y[k], y'[k]'(hl ▸ hk), ?_, ?_, (List.forall₂_iff_get.1 h).2 k hk (hl ▸ hk)⟩
      · rw [List.getElem?_eq_getElem hk]
      · rw [List.getElem?_eq_getElem (hl ▸ hk)]
    · refine Or.inl ⟨?_, ?_⟩
      · rw [List.getElem?_eq_none (by omega)]
      · rw [List.getElem?_eq_none (by omega)]
  have e1 : F.filterStep y = F.filterStep y' := by
    funext acc k
    unfold filterStep
    rw [hl]
    rcases hr k with ⟨a, b⟩ | ⟨r, r', a, b, c⟩ <;> simp only [a, b, py_bind_ok, *]
  have e2 : F.smoothForward y = F.smoothForward y' := by
    funext acc k
    unfold smoothForward
    rw [hl]
    rcases hr k with ⟨a, b⟩ | ⟨r, r', a, b, c⟩ <;> simp only [a, b, py_bind_ok, *]
  have e3 : F.meritStep y = F.meritStep y' := by
    funext acc k
    unfold meritStep
    rw [hl]
    rcases hr k with ⟨a, b⟩ | ⟨r, r', a, b, c⟩ <;> simp only [a, b, py_bind_ok, *]
  have e4 : F.gradientStep y = F.gradientStep y' := by
    funext acc k
    unfold gradientStep
    rw [hl]
    rcases hr k with ⟨a, b⟩ | ⟨r, r', a, b, c⟩ <;> simp only [a, b, py_bind_ok, *]
  have e5 : F.hessianStep y = F.hessianStep y' := by
    funext acc k
    unfold hessianStep
    rw [hl]
    rcases hr k with ⟨a, b⟩ | ⟨r, r', a, b, c⟩ <;> simp only [a, b, py_bind_ok, *]
  refine ⟨?_, ?_, ?_, ?_, ?_⟩ <;> funext s
  · unfold FilterClass.filter; rw [e1, hl]
  · unfold smooth; rw [e2, hl]
  · unfold pemMerit; rw [e3, hl]
  · unfold pemGradient; rw [e4, hl]
  · unfold pemHessian; rw [e5, hl]

end

/-- **C115** (masked samples). The numbers of samples of which everything is masked are looked at by nothing. -/
theorem C115_masked (S : SDE nx nw ny nq) (dt : ℝ) {y y' : List (MaskedRow (Fin ny))} (h : List.Forall₂ SameRow y y') :
    merit S dt y = merit S dt y' ∧ grad S dt y = grad S dt y' ∧ hess S dt y = hess S dt y' ∧
      ∀ (put cut : UT nx) q, (UKF.cls put cut (ito S dt q)).smooth y = (UKF.cls put cut (ito S dt q)).smooth y' := by
  have key : ∀ (put cut : UT nx) q, List.Forall₂ (fun r r' => (UKF.cls put cut (ito S dt q)).correct r = (UKF.cls put cut (ito S dt q)).correct r') y y' := fun put cut q =>
    h.imp fun r r' hr => by
      rcases hr with rfl | ⟨h1, h2⟩
      · rfl
      · funext s
        exact (ukf_correct_masked (ito S dt q) h1 s).trans (ukf_correct_masked (ito S dt q) h2 s).symm
  refine ⟨?_, ?_, ?_, fun put cut q => (runs_congr _ (key put cut q)).2.1⟩
  · funext q
    unfold merit
    cases UT.init nx (.cholesky : SqrtKind (Fin nx)) 0 with
    | error e => rfl
    | ok ut => rw [py_bind_ok, py_bind_ok, (runs_congr _ (key ut ut q)).2.2.1]
  · funext q
    unfold grad
    cases UT.init nx (.cholesky : SqrtKind (Fin nx)) 0 with
    | error e => rfl
    | ok ut => rw [py_bind_ok, py_bind_ok, (runs_congr _ (key ut ut q)).2.2.2.1]
  · funext q c
    unfold hess
    cases UT.init nx (.cholesky : SqrtKind (Fin nx)) 0 with
    | error e => rfl
    | ok ut => rw [py_bind_ok, py_bind_ok, (runs_congr _ (key ut ut q)).2.2.2.2]

section
variable (gamma omega x0_std v0_std dt : ℝ)

/-- The smoother of the script, at parameters with noise in state and measurement. -/
theorem smooth_returns (hdt : 0 < dt) (hx : x0_std ≠ 0) (hv : v0_std ≠ 0) (y : List (MaskedRow (Fin 1))) (hy : y ≠ []) (q : Fin 7 → ℝ) (h3 : q 3 ≠ 0) (h4 : q 4 ≠ 0)
    {ut : UT 2} (hut : UT.init 2 .cholesky 0 = .ok ut) :
    let S := duffing gamma omega x0_std v0_std
    ∃ ms sm s' s'', (UKF.cls ut ut (ito S dt q)).filter y ⟨start S q, none, .never⟩ = .ok (ms, s'') ∧
      (UKF.cls ut ut (ito S dt q)).smooth y ⟨start S q, none, .never⟩ = .ok (sm, s') ∧ Smoothed y.length ms sm := by
  intro S
  have hR : (S.R q).PosDef := by
    have e : S.R q = diagonal fun _ => q 4 ^ 2 := by
      ext i j
      fin_cases i; fin_cases j
      rfl
    rw [e]
    exact PosDef.diagonal fun _ => by positivity
  have hP : (S.Px0 q).PosDef := PosDef.diagonal fun i => by
    fin_cases i
    · show 0 < x0_std ^ 2
      positivity
    · show 0 < v0_std ^ 2
      positivity
  have hQ := duffing_posDef gamma omega x0_std v0_std dt hdt q h3
  obtain ⟨⟨ms, s'', h1, -⟩, h2⟩ := C111_ukf_returns hut hut le_rfl le_rfl (ito S dt q) hQ hR y ⟨start S q, none, .never⟩ hP
  obtain ⟨sm, s', h2⟩ := h2 hy
  obtain ⟨a, b, c⟩ := C89_ukf ut ut .cholesky .cholesky 0 0 hut hut le_rfl le_rfl trivial trivial (ito S dt q) (fun k x => (hQ k x).posSemidef) hR.posSemidef y
    ⟨start S q, none, .never⟩ s' s'' hP.posSemidef ms sm h1 h2
  exact ⟨ms, sm, s', s'', h1, h2, a, b, fun k m mk hm hmk => ⟨(c k m mk hm hmk).1, (c k m mk hm hmk).2.1⟩⟩

/-- **C115** (script). Whatever the random numbers: the simulation returns; at all parameters strictly inside the bounds that the solver is given, the callbacks return the merit and its
derivatives; and whatever parameters inside them the solver returns, the script goes on to its end and leaves a smoothed state for each sample. -/
theorem C115_script (hdt : 0 < dt) (hx : x0_std ≠ 0) (hv : v0_std ≠ 0) (tf : ℝ) (htf : dt ≤ tf) (q : Fin 7 → ℝ) (x0 : Fin 2 → ℝ) (w : Nat → Fin (2 + 2) → ℝ) (v : Nat → Fin 1 → ℝ) :
    let S := duffing gamma omega x0_std v0_std
    let Inside := fun q : Fin 7 → ℝ => ∀ i : Fin 7, ∃ l u, qBounds.1[i.1]? = some l ∧ qBounds.2[i.1]? = some u ∧ l < q i ∧ q i < u
    ∃ d, simOld S q tf dt x0 w v = .ok d ∧ d.y.length = ⌊tf / dt⌋₊ ∧
      (∃ (ℓ : (Fin 7 → ℝ) → ℝ) (g : (Fin 7 → ℝ) → Fin 7 → ℝ) (H : (Fin 7 → ℝ) → Fin 7 → Fin 7 → ℝ), ∀ q, Inside q →
        merit S dt d.y q = .ok (ℓ q) ∧ grad S dt d.y q = .ok (g q) ∧ (∀ c, hess S dt d.y q c = .ok ((trilIndices 7).map fun r => c * H q r.1 r.2)) ∧ HasHess ℓ g (H q) q) ∧
      ∀ solve qopt, solve (merit S dt d.y) (grad S dt d.y) (hess S dt d.y) q = .ok qopt → Inside qopt →
        ∃ (r : OldResults 2 1 7) (ut : UT 2) (ms : List (Moments 2)) (s' : UKF 2 ut.nsigma ut.nsigma (Fin 1) (Fin 7)), mainOld solve S q tf dt x0 w v = .ok r ∧ r.data = d ∧ r.qopt = qopt ∧
          UT.init 2 .cholesky (0 : ℝ) = .ok ut ∧ (UKF.cls ut ut (ito S dt qopt)).filter d.y ⟨start S qopt, none, .never⟩ = .ok (ms, s') ∧ Smoothed ⌊tf / dt⌋₊ ms r.smoothed := by
  intro S Inside
  obtain ⟨d, h1, -, -, -, h5, -⟩ := C115_sim S q tf dt hdt htf x0 w v (fun _ _ _ => rfl)
  have hin : ∀ q, Inside q → q 3 ≠ 0 ∧ q 4 ≠ 0 := fun q hq => by
    obtain ⟨l, u, e1, -, e3, -⟩ := hq 3
    obtain ⟨l', u', e1', -, e3', -⟩ := hq 4
    have b3 : qBounds.1[(3 : Fin 7).1]? = some 0 := rfl
    have b4 : qBounds.1[(4 : Fin 7).1]? = some 0 := rfl
    obtain rfl := Option.some.inj (b3.symm.trans e1)
    obtain rfl := Option.some.inj (b4.symm.trans e1')
    exact ⟨(EReal.coe_pos.1 e3).ne', (EReal.coe_pos.1 e3').ne'⟩
  refine ⟨d, h1, h5, ?_, fun solve qopt hs hq => ?_⟩
  · obtain ⟨ℓ, g, H, hl⟩ := C112_duffing gamma omega x0_std v0_std dt hdt hx hv d.y
    refine ⟨ℓ, g, H, fun q hq => ?_⟩
    obtain ⟨a, b, c, e, -⟩ := hl q (hin q hq).1 (hin q hq).2
    exact ⟨a, b, c, e⟩
  · obtain ⟨ut, hut⟩ := exists_ut (nx := 2) (by norm_num)
    have hne : d.y ≠ [] := by
      intro h
      rw [h, List.length_nil, eq_comm, Nat.floor_eq_zero, div_lt_one hdt] at h5
      linarith
    obtain ⟨ms, sm, s', s'', e1, e2, e3⟩ := smooth_returns gamma omega x0_std v0_std dt hdt hx hv d.y hne qopt (hin _ hq).1 (hin _ hq).2 hut
    refine ⟨⟨d, qopt, sm⟩, ut, ms, s'', ?_, rfl, rfl, hut, e1, h5 ▸ e3⟩
    unfold mainOld
    rw [h1, py_bind_ok, hs, py_bind_ok, hut, py_bind_ok, e2]
    rfl

end

/-- **C115** (names). The entries of `q` are, in this order, what the functions of the model call by these names. -/
theorem C115_names (val : String → ℝ) (q : Fin 7 → ℝ) (hq : ∀ i : Fin 7, (qNames.map val)[i.1]? = some (q i)) (gamma omega x0_std v0_std t : ℝ) (x : Fin 2 → ℝ) :
    let S := duffing gamma omega x0_std v0_std
    S.f q t x = ![x 1, -val "delta" * x 1 - val "beta" * x 0 - val "alpha" * x 0 ^ 3 + gamma * Real.cos (t * omega)] ∧ S.g q t x 1 1 = val "g2" ∧
      S.R q 0 0 = val "x_meas_std" ^ 2 ∧ S.x0 q = ![val "x0", val "v0"] := by
  have h0 := Option.some.inj (hq 0)
  have h1 := Option.some.inj (hq 1)
  have h2 := Option.some.inj (hq 2)
  have h3 := Option.some.inj (hq 3)
  have h4 := Option.some.inj (hq 4)
  have h5 := Option.some.inj (hq 5)
  have h6 := Option.some.inj (hq 6)
  simp only [duffing]
  rw [← h0, ← h1, ← h2, ← h3, ← h4, ← h5, ← h6]
  exact ⟨rfl, rfl, rfl, rfl⟩

/-- **C115** (start). The parameters that the script packs, which the solver starts from, are strictly inside its bounds, and the constants leave some noise in the initial state. -/
theorem C115_start : pack qNames given 0 = [1, -1, 0.2, 0.1, 0.1, 1, 0] ∧ pack cNames given 0 = [0.3, 1, 0.1, 0.1] ∧ qBounds.1.length = 7 ∧ qBounds.2.length = 7 ∧
    ∀ (i : Nat) z l u, (pack qNames given 0)[i]? = some z → qBounds.1[i]? = some l → qBounds.2[i]? = some u → l < z ∧ z < u := by
  have e : pack qNames given 0 = [1, -1, 0.2, 0.1, 0.1, 1, 0] := rfl
  have b1 : qBounds.1 = [⊥, ⊥, ⊥, 0, 0, ⊥, ⊥] := rfl
  have b2 : qBounds.2 = [⊤, ⊤, ⊤, ⊤, ⊤, ⊤, ⊤] := rfl
  refine ⟨e, rfl, by rw [b1]; rfl, by rw [b2]; rfl, fun i z l u hz hl hu => ?_⟩
  rw [e] at hz
  rw [b1] at hl
  rw [b2] at hu
  have hp : (0 : EReal) < ((0.1 : ℝ) : EReal) := EReal.coe_pos.2 (by norm_num)
  match i with
  | 0 | 1 | 2 | 5 | 6 =>
    simp only [List.getElem?_cons_zero, List.getElem?_cons_succ, Option.some.injEq] at hz hl hu
    subst hz hl hu
    exact ⟨EReal.bot_lt_coe _, EReal.coe_lt_top _⟩
  | 3 | 4 =>
    simp only [List.getElem?_cons_zero, List.getElem?_cons_succ, Option.some.injEq] at hz hl hu
    subst hz hl hu
    exact ⟨hp, EReal.coe_lt_top _⟩
  | i + 7 => simp at hz

/-- Of the 600 samples of the script in exact arithmetic … -/
example (q : Fin 7 → ℝ) (x0 : Fin 2 → ℝ) (w : Nat → Fin (2 + 2) → ℝ) (v : Nat → Fin 1 → ℝ) :
    ∃ d, simOld (duffing 0.3 1 0.1 0.1) q 30 0.05 x0 w v = .ok d ∧ d.y.length = 600 := by
  obtain ⟨d, h1, h2, -⟩ := C115_script 0.3 1 0.1 0.1 0.05 (by norm_num) (by norm_num) (by norm_num) 30 (by norm_num) q x0 w v
  have hn : ⌊(30 : ℝ) / 0.05⌋₊ = 600 := by
    rw [Nat.floor_eq_iff (by norm_num)]
    norm_num
  exact ⟨d, h1, hn ▸ h2⟩

/-- … the last one is lost with the number that is stored for 0.05, which is a little greater. -/
example (q : Fin 7 → ℝ) (x0 : Fin 2 → ℝ) (w : Nat → Fin (2 + 2) → ℝ) (v : Nat → Fin 1 → ℝ) :
    ∃ d, simOld (duffing 0.3 1 0.1 0.1) q 30 (3602879701896397 / 2 ^ 56) x0 w v = .ok d ∧ d.y.length = 599 := by
  obtain ⟨d, h1, h2, -⟩ := C115_script 0.3 1 0.1 0.1 (3602879701896397 / 2 ^ 56) (by norm_num) (by norm_num) (by norm_num) 30 (by norm_num) q x0 w v
  have hn : ⌊(30 : ℝ) / (3602879701896397 / 2 ^ 56)⌋₊ = 599 := by
    rw [Nat.floor_eq_iff (by norm_num)]
    norm_num
  exact ⟨d, h1, hn ▸ h2⟩

/-- A masked sample may be anything. -/
example (a b c : ℝ) : merit (duffing 1 1 1 1) 1 [⟨fun _ => a, fun _ => false⟩, ⟨fun _ => b, fun _ => true⟩] =
    merit (duffing 1 1 1 1) 1 [⟨fun _ => a, fun _ => false⟩, ⟨fun _ => c, fun _ => true⟩] :=
  (C115_masked _ 1 (.cons (.inl rfl) (.cons (.inr ⟨fun _ => rfl, fun _ => rfl⟩) .nil))).1

end Ceacoest.Pem
