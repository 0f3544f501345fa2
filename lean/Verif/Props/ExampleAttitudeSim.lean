import Verif.Model.ExampleAttitudeSim
import Verif.Spec.ExampleAttitudeSim
import Verif.Props.ExampleOld
import Verif.Props.ExampleLocal

/-! # C117: the script of the attitude example -/

namespace Ceacoest.Pem
open SymSDE Matrix Sim TestKalman Spec Filter Topology FilterClass

/-! ### The filter of the noise -/

theorem lfilterFrom_length (c : Biquad) (xs : List ℝ) (z : ℝ × ℝ) : (lfilterFrom c z xs).length = xs.length := by
  induction xs generalizing z with
  | nil => rfl
  | cons x xs ih => simp only [lfilterFrom, List.length_cons, ih]

/-- The delays hold what earlier numbers contribute. -/
theorem lfilterFrom_eq (c : Biquad) (ha : c.a0 ≠ 0) (xs : List ℝ) (z : ℝ × ℝ) (k : Nat) (hk : k < xs.length) :
    c.a0 * past (lfilterFrom c z xs) k 0 + c.a1 * past (lfilterFrom c z xs) k 1 + c.a2 * past (lfilterFrom c z xs) k 2 =
      c.b0 * past xs k 0 + c.b1 * past xs k 1 + c.b2 * past xs k 2 + c.a0 * (if k = 0 then z.1 else if k = 1 then z.2 else 0) := by
  induction xs generalizing z k with
  | nil => simp at hk
  | cons x xs ih =>
    have e0 : ∀ (a : ℝ) (l : List ℝ) (k : Nat), past (a :: l) (k + 1) 0 = past l k 0 := fun a l k => by simp [past]
    have e1 : ∀ (a : ℝ) (l : List ℝ) (k : Nat), past (a :: l) (k + 1) 1 = if k = 0 then a else past l k 1 := fun a l k => by cases k <;> simp [past]
    have e2 : ∀ (a : ℝ) (l : List ℝ) (k : Nat), past (a :: l) (k + 1) 2 = if k = 0 then 0 else if k = 1 then a else past l k 2 := fun a l k => by
      match k with
      | 0 => simp [past]
      | 1 => simp [past]
      | k + 2 => simp [past]
    have p1 : ∀ l : List ℝ, past l 0 1 = 0 := fun l => by simp [past]
    have p2 : ∀ l : List ℝ, past l 0 2 = 0 := fun l => by simp [past]
    have p3 : ∀ l : List ℝ, past l 1 2 = 0 := fun l => by simp [past]
    cases k with
    | zero =>
      rw [p1, p1, p2, p2, if_pos rfl]
      have e : ∀ (a : ℝ) (l : List ℝ), past (a :: l) 0 0 = a := fun a l => by simp [past]
      rw [lfilterFrom, e, e]
      field_simp
      ring
    | succ k =>
      have hk' : k < xs.length := by simpa using hk
      have h := ih (c.b1 / c.a0 * x - c.a1 / c.a0 * (c.b0 / c.a0 * x + z.1) + z.2, c.b2 / c.a0 * x - c.a2 / c.a0 * (c.b0 / c.a0 * x + z.1)) k hk'
      rw [lfilterFrom]
      dsimp only at h ⊢
      rw [e0, e0, e1, e1, e2, e2]
      generalize lfilterFrom c _ xs = Y at h
      match k with
      | 0 =>
        simp only [p1, p2, if_true, if_pos, zero_add, one_ne_zero, if_false] at h ⊢
        generalize past Y 0 0 = y0 at h
        generalize past xs 0 0 = x0 at h
        have : c.a0 * y0 = c.b0 * x0 + c.b1 * x - c.a1 * (c.b0 / c.a0 * x + z.1) + c.a0 * z.2 := by
          field_simp at h ⊢
          linarith
        linarith
      | 1 =>
        simp only [p3, one_ne_zero, if_true, if_false] at h ⊢
        rw [if_neg (by omega), if_neg (by omega)]
        generalize past Y 1 0 = y0 at h
        generalize past Y 1 1 = y1 at h
        have : c.a0 * y0 + c.a1 * y1 = c.b0 * past xs 1 0 + c.b1 * past xs 1 1 + c.b2 * x - c.a2 * (c.b0 / c.a0 * x + z.1) := by
          field_simp at h ⊢
          linarith
        linarith
      | k + 2 =>
        simp only [if_neg (show ¬k + 2 = 0 by omega), if_neg (show ¬k + 2 = 1 by omega), if_neg (show ¬k + 2 + 1 = 0 by omega), if_neg (show ¬k + 2 + 1 = 1 by omega)] at h ⊢
        linarith

theorem getD_get {l : List ℝ} {k : Nat} (h : k < l.length) : l.getD k 0 = l[k] := by
  rw [List.getD_eq_getElem?_getD, List.getElem?_eq_getElem h, Option.getD_some]

/-- **C117** (filter). `lfilter` solves the difference equation, with zeros before the first number, and it is the only list that does. -/
theorem C117_lfilter (c : Biquad) (ha : c.a0 ≠ 0) (xs ys : List ℝ) : ys = lfilter c xs ↔ ys.length = xs.length ∧
    ∀ k < xs.length, c.a0 * past ys k 0 + c.a1 * past ys k 1 + c.a2 * past ys k 2 = c.b0 * past xs k 0 + c.b1 * past xs k 1 + c.b2 * past xs k 2 := by
  have h0 : ∀ k < xs.length, c.a0 * past (lfilter c xs) k 0 + c.a1 * past (lfilter c xs) k 1 + c.a2 * past (lfilter c xs) k 2 =
      c.b0 * past xs k 0 + c.b1 * past xs k 1 + c.b2 * past xs k 2 := fun k hk => by
    have := lfilterFrom_eq c ha xs (0, 0) k hk
    unfold lfilter
    rw [this]
    split <;> simp
  have hl : (lfilter c xs).length = xs.length := lfilterFrom_length c xs _
  constructor
  · rintro rfl
    exact ⟨hl, h0⟩
  · rintro ⟨hy, h⟩
    have key : ∀ k, k < xs.length → ys.getD k 0 = (lfilter c xs).getD k 0 := by
      intro k
      induction k using Nat.strong_induction_on with
      | _ k ih =>
        intro hk
        have hp : ∀ n, 0 < n → past ys k n = past (lfilter c xs) k n := fun n hn => by
          unfold past
          split
          · exact ih _ (by omega) (by omega)
          · rfl
        have h1 := h k hk
        have h2 := h0 k hk
        rw [hp 1 one_pos, hp 2 two_pos] at h1
        have h3 : c.a0 * past ys k 0 = c.a0 * past (lfilter c xs) k 0 := by linarith
        simpa [past] using mul_left_cancel₀ ha h3
    refine List.ext_getElem (hy.trans hl.symm) fun k h1 h2 => ?_
    have := key k (hy ▸ h1)
    rwa [getD_get h1, getD_get h2] at this

/-- **C117** (filter, linear). -/
theorem C117_linear (c : Biquad) (r s : ℝ) (n : Nat) (f g : Nat → ℝ) (k : Nat) (hk : k < n) :
    (lfilter c ((List.range n).map fun j => r * f j + s * g j)).getD k 0 = r * (lfilter c ((List.range n).map f)).getD k 0 + s * (lfilter c ((List.range n).map g)).getD k 0 := by
  have key : ∀ (l : List Nat) (z z' : ℝ × ℝ) (k : Nat), k < l.length → (lfilterFrom c (r * z.1 + s * z'.1, r * z.2 + s * z'.2) (l.map fun j => r * f j + s * g j)).getD k 0 =
      r * (lfilterFrom c z (l.map f)).getD k 0 + s * (lfilterFrom c z' (l.map g)).getD k 0 := by
    intro l
    induction l with
    | nil => intro z z' k hk; simp at hk
    | cons a l ih =>
      intro z z' k hk
      cases k with
      | zero =>
        simp only [List.map_cons, lfilterFrom, List.getD_cons_zero]
        ring
      | succ k =>
        simp only [List.map_cons, lfilterFrom, List.getD_cons_succ]
        rw [← ih _ _ k (by simpa using hk)]
        congr 3
        · ring
        · ring
  have := key (List.range n) (0, 0) (0, 0) k (by simpa using hk)
  simpa [lfilter] using this

/-- **C117** (noise). The accelerations and angular velocities are filtered random walks: the `k`th number into the filter is `√dt` and the gain times the sum of the first `k + 1` random
numbers. -/
theorem C117_noise (c : Biquad) (ha : c.a0 ≠ 0) (dt gain : ℝ) (r : Nat → ℝ) (n : Nat) (ys : List ℝ) : ys = smoothNoise c dt gain r n ↔ ys.length = n ∧ ∃ w : List ℝ, w.length = n ∧
    (∀ k < n, w[k]? = some (Real.sqrt dt * gain * ∑ j ∈ Finset.range (k + 1), r j)) ∧
    ∀ k < n, c.a0 * past ys k 0 + c.a1 * past ys k 1 + c.a2 * past ys k 2 = c.b0 * past w k 0 + c.b1 * past w k 1 + c.b2 * past w k 2 := by
  have hl : ((cumsum r n).map (Real.sqrt dt * gain * ·)).length = n := by simp [cumsum]
  have hw : ∀ k < n, ((cumsum r n).map (Real.sqrt dt * gain * ·))[k]? = some (Real.sqrt dt * gain * ∑ j ∈ Finset.range (k + 1), r j) := fun k hk => by
    rw [List.getElem?_eq_getElem (by rw [hl]; exact hk)]
    simp [cumsum]
  unfold smoothNoise
  rw [C117_lfilter c ha, hl]
  constructor
  · rintro ⟨h1, h2⟩
    exact ⟨h1, _, hl, hw, h2⟩
  · rintro ⟨h1, w, h2, h3, h4⟩
    have e : w = (cumsum r n).map (Real.sqrt dt * gain * ·) := by
      refine List.ext_getElem? fun k => ?_
      by_cases hk : k < n
      · rw [h3 k hk, hw k hk]
      · rw [List.getElem?_eq_none (by omega), List.getElem?_eq_none (by omega)]
    exact ⟨h1, e ▸ h4⟩

example : smoothNoise ⟨1, 0, 0, 1, -1, 0⟩ 4 3 (fun k => if k = 0 then 1 else 0) 3 = [6, 12, 18] := by
  rw [eq_comm, C117_noise _ one_ne_zero]
  have hs : Real.sqrt 4 = 2 := by rw [show (4 : ℝ) = 2 ^ 2 by norm_num, Real.sqrt_sq (by norm_num)]
  refine ⟨rfl, [6, 6, 6], rfl, fun k hk => ?_, fun k hk => ?_⟩ <;> interval_cases k
  · simp [Finset.sum_range_succ, hs]; norm_num
  · simp [Finset.sum_range_succ, hs]; norm_num
  · simp [Finset.sum_range_succ, hs]; norm_num
  · norm_num [past]
  · norm_num [past]
  · norm_num [past]

/-! ### The interpolation -/

theorem times_countP {N : ℤ} {dt : ℝ} (hdt : 0 < dt) (k : Nat) (hk : k < N.toNat) : (times N dt).countP (fun u => @decide (u < k * dt) (Classical.propDecidable _)) = k := by
  unfold times
  rw [List.countP_map]
  have : (List.range N.toNat).countP (fun j : Nat => decide (j < k)) = k := by
    rw [List.countP_eq_length_filter]
    have : (List.range N.toNat).filter (fun j : Nat => decide (j < k)) = List.range k := by
      rw [← Nat.add_sub_cancel' hk.le, List.range_add, List.filter_append, List.filter_eq_self.2, List.filter_eq_nil_iff.2, List.append_nil]
      · intro j hj
        obtain ⟨i, -, rfl⟩ := List.mem_map.1 hj
        simp
      · intro j hj
        simpa using hj
    rw [this, List.length_range]
  refine (List.countP_congr fun j _ => ?_).trans this
  simp [mul_lt_mul_iff_left₀ hdt]

/-- **C117** (interpolation). At the samples the interpolation is what was sampled. -/
theorem C117_interp {N : ℤ} {dt : ℝ} (hdt : 0 < dt) (hN : 2 ≤ N) (y : List ℝ) (k : Nat) (hk : k < N.toNat) : interp1d (times N dt) y (k * dt) = y.getD k 0 := by
  have hl : (times N dt).length = N.toNat := by simp [times]
  have ht : ∀ j, j < N.toNat → (times N dt).getD j 0 = j * dt := fun j hj => by
    rw [getD_get (by rw [hl]; exact hj)]
    simp [times]
  unfold interp1d
  dsimp only
  rw [times_countP hdt k hk, hl]
  cases k with
  | zero =>
    have e : min (max 0 1) (N.toNat - 1) = 1 := by omega
    rw [e, ht 0 (by omega)]
    simp
  | succ k =>
    have e : min (max (k + 1) 1) (N.toNat - 1) = k + 1 := by omega
    rw [e, Nat.add_sub_cancel, ht k (by omega), ht (k + 1) hk]
    have : ((k + 1 : Nat) : ℝ) * dt - k * dt = dt := by push_cast; ring
    rw [this, div_mul_cancel₀ _ hdt.ne', sub_add_cancel]

/-! ### The simulation -/

variable (odeint : Odeint) (b : Biquad) (c : AttitudeConsts)

/-- **C117** (simulation). If the step is positive, there is time for two samples, and the integrator returns a row for each time: the simulation returns; the accelerations and angular
velocities are the filtered random walks, and the angles what the integrator returned, starting from zero; at each sample the right hand side given to the integrator is the drift of the
model; the outputs are those of the model plus noise, and all of each odd row is masked. -/
theorem C117_sim (hode : ∀ F a ts, (odeint F a ts).length = ts.length) (q : Fin 10 → ℝ) (accel_png omega_png tf dt : ℝ) (hdt : 0 < dt) (htf : 2 * dt ≤ tf)
    (rw ra : Fin 3 → Nat → ℝ) (v : Nat → Fin 9 → ℝ) :
    ∃ (d : OldData 9 9) (F : (Fin 3 → ℝ) → ℝ → Fin 3 → ℝ), simAttitude odeint b c q accel_png omega_png tf dt rw ra v = .ok d ∧
      d.t.length = ⌊tf / dt⌋₊ ∧ d.x.length = ⌊tf / dt⌋₊ ∧ d.y.length = ⌊tf / dt⌋₊ ∧ (∀ (k : Nat) t, d.t[k]? = some t → t = k * dt) ∧
      (odeint F 0 d.t = d.x.map anglesOf) ∧
      (∀ (k : Nat) t x s, d.t[k]? = some t → d.x[k]? = some x → F (anglesOf x) t = anglesOf ((attitude c).f q s x)) ∧
      (∀ i : Fin 3, d.x.map (· (Fin.castLE (by norm_num) i)) = smoothNoise b dt accel_png (ra i) ⌊tf / dt⌋₊ ∧
        d.x.map (· ⟨3 + i, by omega⟩) = smoothNoise b dt omega_png (rw i) ⌊tf / dt⌋₊) ∧
      ∀ (k : Nat) t x r, d.t[k]? = some t → d.x[k]? = some x → d.y[k]? = some r → r.data = (attitude c).h q t x + v k ∧ ∀ j, (r.mask j = false ↔ 2 ∣ k) := by
  have hq : 2 ≤ tf / dt := (le_div_iff₀ hdt).2 htf
  have hN : pyInt (tf / dt) = (⌊tf / dt⌋₊ : ℤ) := by
    unfold pyInt
    rw [if_pos (by linarith), Int.natCast_floor_eq_floor (by linarith)]
  have hN2 : 2 ≤ ⌊tf / dt⌋₊ := Nat.le_floor (by exact_mod_cast hq)
  set n := ⌊tf / dt⌋₊ with hn
  set omega := fun i => smoothNoise b dt omega_png (rw i) n with homega
  set accel := fun i => smoothNoise b dt accel_png (ra i) n with haccel
  set t := times n dt with ht
  have hnl : ∀ gain r, (smoothNoise b dt gain r n).length = n := fun gain r => by
    unfold smoothNoise lfilter cumsum
    rw [lfilterFrom_length, List.length_map, List.length_map, List.length_range]
  have htl : t.length = n := by simp [ht, times]
  set angles := odeint (odefun t omega) 0 t with hangles
  have hal : angles.length = n := (hode _ _ _).trans htl
  set x : List (Fin 9 → ℝ) := (List.range n).map fun k => ![(accel 0).getD k 0, (accel 1).getD k 0, (accel 2).getD k 0, (omega 0).getD k 0, (omega 1).getD k 0, (omega 2).getD k 0,
    angles.getD k 0 0, angles.getD k 0 1, angles.getD k 0 2] with hx
  have hxl : x.length = n := by simp [hx]
  set y := List.zipWith (· + ·) ((List.range n).map fun k : Nat => SymSDE.h ((attitude c).at q) dt k (x.getD k 0)) ((List.range n).map v) with hy
  have hyl : y.length = n := by simp [hy]
  have hgo : simAttitude odeint b c q accel_png omega_png tf dt rw ra v = .ok ⟨t, x, maskOdd y⟩ := by
    unfold simAttitude
    rw [if_neg hdt.ne']
    simp only [hN, draws, addRows, Int.toNat_natCast, List.length_map, List.length_range]
    rw [if_neg (by omega), if_neg (by omega)]
    simp only [py_bind_ok, py_pure]
    rw [if_neg (by rw [not_not]; exact hal), if_neg (by omega)]
    simp only [py_bind_ok, List.length_map, List.length_range]
    rw [if_pos trivial]
    rfl
  have hxk : ∀ (k : Nat) z, x[k]? = some z → k < n ∧ z = ![(accel 0).getD k 0, (accel 1).getD k 0, (accel 2).getD k 0, (omega 0).getD k 0, (omega 1).getD k 0, (omega 2).getD k 0,
    angles.getD k 0 0, angles.getD k 0 1, angles.getD k 0 2] := fun k z h => by
    rw [hx] at h
    exact Sim.getElem?_map_range h
  have htk : ∀ (k : Nat) z, t[k]? = some z → z = k * dt := fun k z h => by
    rw [ht, times] at h
    exact (Sim.getElem?_map_range h).2
  have hrow : ∀ (l : List ℝ) (f : (Fin 9 → ℝ) → ℝ), l.length = n → (∀ k : Nat, f (![(accel 0).getD k 0, (accel 1).getD k 0, (accel 2).getD k 0, (omega 0).getD k 0, (omega 1).getD k 0,
      (omega 2).getD k 0, angles.getD k 0 0, angles.getD k 0 1, angles.getD k 0 2]) = l.getD k 0) → x.map f = l := fun l f hl hf => by
    refine List.ext_getElem (by simp [hxl, hl]) fun k h1 h2 => ?_
    simp only [List.getElem_map, hx, List.getElem_range]
    rw [hf, getD_get h2]
  refine ⟨⟨t, x, maskOdd y⟩, odefun t omega, hgo, htl, hxl, by simp [maskOdd, hyl], htk, ?_, ?_, ?_, ?_⟩
  · refine List.ext_getElem (by rw [List.length_map, hxl]; exact hal) fun k h1 h2 => ?_
    simp only [List.getElem_map, hx, List.getElem_range]
    have e : angles.getD k 0 = angles[k] := by rw [List.getD_eq_getElem?_getD, List.getElem?_eq_getElem h1, Option.getD_some]
    rw [e]
    funext i
    fin_cases i <;> rfl
  · intro k s z s' hs hz
    obtain ⟨hk, rfl⟩ := hxk k z hz
    rw [htk k s hs]
    have hi : ∀ i, interp1d t (omega i) (k * dt) = (omega i).getD k 0 := fun i => C117_interp hdt (by exact_mod_cast hN2) (omega i) k (by simpa using hk)
    unfold odefun
    dsimp only
    rw [hi, hi, hi]
    funext i
    fin_cases i <;> rfl
  · intro i
    refine ⟨hrow _ _ (hnl _ _) fun k => ?_, hrow _ _ (hnl _ _) fun k => ?_⟩ <;> fin_cases i <;> rfl
  · intro k s z r hs hz hr
    obtain ⟨hk, hz'⟩ := hxk k z hz
    rw [htk k s hs]
    have hr : (maskOdd y)[k]? = some r := hr
    rw [maskOdd] at hr
    obtain ⟨-, rfl⟩ := Sim.getElem?_map_range hr
    constructor
    · have hyk : y.getD k 0 = SymSDE.h ((attitude c).at q) dt k (x.getD k 0) + v k := by
        rw [List.getD_eq_getElem?_getD, List.getElem?_eq_getElem (hyl ▸ hk), Option.getD_some]
        simp [hy]
      have hxz : x.getD k 0 = z := by rw [List.getD_eq_getElem?_getD, hz, Option.getD_some]
      show y.getD k 0 = _
      rw [hyk, hxz]
      rfl
    · intro j
      simp [Nat.dvd_iff_mod_eq_zero]

/-- Otherwise it raises: with no step at all, with a negative one, and with too little time. -/
theorem C117_sim_raises (q : Fin 10 → ℝ) (accel_png omega_png tf dt : ℝ) (htf : 0 ≤ tf) (h : ¬(0 < dt ∧ 2 * dt ≤ tf)) (rw ra : Fin 3 → Nat → ℝ) (v : Nat → Fin 9 → ℝ) :
    simAttitude odeint b c q accel_png omega_png tf dt rw ra v = .error (if dt = 0 then .zeroDivisionError else .valueError) := by
  unfold simAttitude
  by_cases hd : dt = 0
  · rw [if_pos hd, if_pos hd]
    rfl
  · rw [if_neg hd, if_neg hd]
    have hN : pyInt (tf / dt) < 2 := by
      unfold pyInt
      split
      · rename_i h0
        refine Int.floor_lt.2 ?_
        by_contra hq
        have hq : (2 : ℝ) ≤ tf / dt := by push_cast at hq; exact not_lt.1 hq
        have hpos : 0 < dt := by
          rcases lt_or_gt_of_ne hd with h1 | h1
          · have := div_nonpos_of_nonneg_of_nonpos htf h1.le
            linarith
          · exact h1
        exact h ⟨hpos, (le_div_iff₀ hpos).1 hq⟩
      · rename_i h0
        have : ⌈tf / dt⌉ ≤ 0 := Int.ceil_le.2 (by push_cast; linarith [not_le.1 h0])
        omega
    simp only [draws]
    by_cases h0 : pyInt (tf / dt) < 0
    · rw [if_pos h0]
      rfl
    · rw [if_neg h0, if_pos hN]
      rfl

/-! ### The smoother -/

section
variable {Y M C σ : Type} {c₁ : Y → σ → Py (M × σ)} {p₁ : σ → Py (M × σ)} {x₁ : σ → Py C}

/-- As `scheduleWith_returns`, if all states that the run comes to are good. -/
theorem scheduleWith_good (I good : σ → Prop) (J : M → Prop) (hc : ∀ y s, I s → ∃ m s', c₁ y s = .ok (m, s') ∧ I s')
    (hp : ∀ s, I s → good s → ∃ m s' c, p₁ s = .ok (m, s') ∧ I s' ∧ J m ∧ x₁ s' = .ok c) (y : List Y) {s : σ} (hs : I s)
    (hg : ∀ n ms s', n + 1 < y.length → schedule c₁ p₁ (y.take (n + 1)) s = .ok (ms, s') → good s') :
    ∃ ms prs s', scheduleWith c₁ p₁ x₁ y s = .ok (ms, prs, s') ∧ I s' ∧ ∀ pr ∈ prs, J pr.1 := by
  induction y generalizing s with
  | nil => exact ⟨[], [], s, rfl, hs, by simp⟩
  | cons a y ih =>
    obtain ⟨m, s1, h1, hI1⟩ := hc a s hs
    cases y with
    | nil => exact ⟨[m], [], s1, by simp only [scheduleWith, h1]; rfl, hI1, by simp⟩
    | cons b y =>
      have hg1 : good s1 := hg 0 [m] s1 (by simp) (by simp only [List.take_succ_cons, List.take_zero, schedule, h1]; rfl)
      obtain ⟨pr, s2, c, h2, hI2, hJ, h3⟩ := hp s1 hI1 hg1
      obtain ⟨ms, prs, s3, h4, hI3, hJs⟩ := ih hI2 fun n ms s' hn h => hg (n + 1) (m :: ms) s' (Nat.succ_lt_succ hn) (by
        simp only [List.take_succ_cons] at h ⊢
        simp only [schedule, h1, h2, py_bind_ok, h]
        rfl)
      refine ⟨m :: ms, (pr, c) :: prs, s3, ?_, hI3, ?_⟩
      · simp only [scheduleWith, h1, py_bind_ok, h2, h3] at h4 ⊢
        rw [h4]
        rfl
      · intro q hq
        rcases List.mem_cons.1 hq with rfl | hq
        · exact hJ
        · exact hJs q hq

end

/-- **C117** (smoothing). With noise in states, measurements and initial state, the smoother returns if the filter predicts from no vertical attitude. -/
theorem C117_smooth {dt : ℝ} (hdt : 0 < dt) (h1 : c.accel_mng ≠ 0) (h2 : c.omega_mng ≠ 0) (h3 : c.mag_mng ≠ 0) (h4 : ∀ i, c.x0_std i ≠ 0) (y : List (MaskedRow (Fin 9))) (hy : y ≠ [])
    (q : Fin 10 → ℝ) (h8 : q 8 ≠ 0) (h9 : q 9 ≠ 0) (hv : Visits (attitude c) dt y q {x | Real.cos (x 7) ≠ 0}) {ut : UT 9} (hut : UT.init 9 .cholesky 0 = .ok ut) :
    let S := attitude c
    ∃ ms sm s' s'', (UKF.cls ut ut (ito S dt q)).filter y ⟨start S q, none, .never⟩ = .ok (ms, s'') ∧
      (UKF.cls ut ut (ito S dt q)).smooth y ⟨start S q, none, .never⟩ = .ok (sm, s') ∧ Smoothed y.length ms sm := by
  intro S
  have hR : (S.R q).PosDef := (C113_data c q).1.2 ⟨h1, h2, h3⟩
  have hP : (S.Px0 q).PosDef := (C113_data c q).2.2 h4
  have hQ0 : ∀ k x, ((ito S dt q).Q k x).PosSemidef := fun k x => (C54_psd (itoG (S.at q) dt k x)).2
  obtain ⟨ms, prs, s', e1, -, e3⟩ := scheduleWith_good (c₁ := (UKF.cls ut ut (ito S dt q)).correct) (p₁ := (UKF.cls ut ut (ito S dt q)).predict)
    (x₁ := (UKF.cls ut ut (ito S dt q)).predictionCrosscov) (fun s : UKF 9 ut.nsigma ut.nsigma (Fin 9) (Fin 10) => s.Px.PosDef) (fun s => Real.cos (s.x 7) ≠ 0) (fun m => m.2.PosDef)
    (fun y s hs => by
      obtain ⟨s', h, h', -⟩ := C36_ukf_returns ut ut .cholesky .cholesky 0 0 hut hut le_rfl le_rfl { ito S dt q with Q := fun _ _ => 1 } (fun k x => ⟨PosDef.one, PosDef.one⟩) hR [some y] s ⟨hs, hs⟩
      obtain ⟨⟨m, s₁⟩, e, h⟩ := py_bind_eq_ok h
      obtain rfl : s₁ = s' := Except.ok.inj h
      exact ⟨m, s₁, e, h'⟩)
    (fun s hs hg => by
      obtain ⟨d, hd⟩ := transform_of hut (by norm_num) s.x ((ito S dt q).f s.k) (show RootDom .cholesky s.Px from hs)
      have hPo := ukf_Po_psd hut le_rfl hd
      have hQ : ((ito S dt q).Q s.k s.x).PosDef := (C113_definite c hdt q _ _ hg).2 ⟨h8, h9⟩
      exact ⟨_, _, _, ukf_predict_of s hd, PosDef.posSemidef_add hPo hQ, PosDef.posSemidef_add hPo hQ, rfl⟩) y (s := ⟨start S q, none, .never⟩) hP
    (fun n ms s' hn h => by
      rw [← filter_eq] at h
      obtain ⟨L, s'', h', e, -⟩ := C48_ukf_returns_partial ut ut _ (psd_symm hR.posSemidef) _ _ _ _ h
      have := (hv ut hut n L s'' hn h').1
      rwa [e] at this)
  have hf : (UKF.cls ut ut (ito S dt q)).filter y ⟨start S q, none, .never⟩ = .ok (ms, s') := by
    rw [filter_eq]
    exact (scheduleWith_schedule e1).1
  obtain ⟨sm, hs⟩ := smooth_of (UKF.cls ut ut (ito S dt q)) hy e1 fun pr hpr => (e3 pr hpr).det_pos.ne'
  obtain ⟨a1, a2, a3⟩ := C89_ukf ut ut .cholesky .cholesky 0 0 hut hut le_rfl le_rfl trivial trivial (ito S dt q) hQ0 hR.posSemidef y
    ⟨start S q, none, .never⟩ s' s' hP.posSemidef ms sm hf hs
  exact ⟨ms, sm, s', s', hf, hs, a1, a2, fun k m mk hm hmk => ⟨(a3 k m mk hm hmk).1, (a3 k m mk hm hmk).2.1⟩⟩

/-! ### The script -/

/-- **C117** (start). The constants that the script packs, the parameters it simulates with, and its guess, which is inside the bounds for the solver. -/
theorem C117_start : AttitudeConsts.ofList (pack attitudeC nominal 0) = ⟨9.80665, 0, ![1, 1, 1, 0.1, 0.1, 0.1, 0.1, 0.1, 0.1], 0.01, 1e-6, 0.5⟩ ∧
    pack attitudeQ nominal 0 = [18.982e-6, -13.6305e-6, 1e-6, -1e-6, 0, 0.02, -0.02, 0, 0.1, 0.01] ∧
    pack attitudeQ attitudeGuess 0 = [18.982e-6, -13.6305e-6, 0, 0, 0, 0, 0, 0, 0.1, 0.01] ∧ attitudeBounds.1.length = 10 ∧ attitudeBounds.2.length = 10 ∧
    ∀ (i : Nat) z l u, (pack attitudeQ attitudeGuess 0)[i]? = some z → attitudeBounds.1[i]? = some l → attitudeBounds.2[i]? = some u → l < z ∧ z < u := by
  have e : pack attitudeQ attitudeGuess 0 = [18.982e-6, -13.6305e-6, 0, 0, 0, 0, 0, 0, 0.1, 0.01] := rfl
  have b1 : attitudeBounds.1 = [⊥, ⊥, ⊥, ⊥, ⊥, ⊥, ⊥, ⊥, ((1e-4 : ℝ) : EReal), ((1e-4 : ℝ) : EReal)] := rfl
  have b2 : attitudeBounds.2 = [⊤, ⊤, ⊤, ⊤, ⊤, ⊤, ⊤, ⊤, ⊤, ⊤] := rfl
  have hc : pack attitudeC nominal 0 = [9.80665, 0, 0, 0, 0, 0, 0, 0, 0, 0, 1, 1, 1, 0.1, 0.1, 0.1, 0.1, 0.1, 0.1, 0.01, 1e-6, 0.5] := rfl
  refine ⟨?_, rfl, rfl, by rw [b1]; rfl, by rw [b2]; rfl, fun i z l u hz hl hu => ?_⟩
  · rw [hc]
    unfold AttitudeConsts.ofList
    congr 1
    · funext i
      fin_cases i <;> rfl
    · funext i
      fin_cases i <;> rfl
  · rw [e] at hz
    rw [b1] at hl
    rw [b2] at hu
    match i with
    | 0 | 1 | 2 | 3 | 4 | 5 | 6 | 7 =>
      simp only [List.getElem?_cons_zero, List.getElem?_cons_succ, Option.some.injEq] at hz hl hu
      subst hz hl hu
      exact ⟨EReal.bot_lt_coe _, EReal.coe_lt_top _⟩
    | 8 | 9 =>
      simp only [List.getElem?_cons_zero, List.getElem?_cons_succ, Option.some.injEq] at hz hl hu
      subst hz hl hu
      exact ⟨EReal.coe_lt_coe_iff.2 (by norm_num), EReal.coe_lt_top _⟩
    | i + 10 => simp at hz

/-- **C117** (names). The entries of `q` and `c` are what the functions of the model call by these names. -/
theorem C117_names (val : String → ℝ) (q : Fin 10 → ℝ) (hq : ∀ i : Fin 10, (attitudeQ.map val)[i.1]? = some (q i)) (t : ℝ) (x : Fin 9 → ℝ) :
    let S := attitude (.ofList (attitudeC.map val))
    (∀ i : Fin 6, S.g q t x (Fin.castLE (by norm_num) i) i = val (if i.1 < 3 then "accel_png" else "omega_png")) ∧
    S.h q t x = ![x 0 - Ex.attitudeE2b ![x 6, x 7, x 8] 0 2 * val "g0", x 1 - Ex.attitudeE2b ![x 6, x 7, x 8] 1 2 * val "g0", x 2 - Ex.attitudeE2b ![x 6, x 7, x 8] 2 2 * val "g0",
      x 3 + val "pbias", x 4 + val "qbias", x 5 + val "rbias",
      Ex.attitudeE2b ![x 6, x 7, x 8] 0 0 * val "magex" + Ex.attitudeE2b ![x 6, x 7, x 8] 0 2 * val "magez" + val "maghx",
      Ex.attitudeE2b ![x 6, x 7, x 8] 1 0 * val "magex" + Ex.attitudeE2b ![x 6, x 7, x 8] 1 2 * val "magez" + val "maghy",
      Ex.attitudeE2b ![x 6, x 7, x 8] 2 0 * val "magex" + Ex.attitudeE2b ![x 6, x 7, x 8] 2 2 * val "magez" + val "maghz"] ∧
    S.R q = diagonal (fun i => val ((["accel_mng", "omega_mng", "mag_mng"] : List String).getD (i.1 / 3) "") ^ 2) ∧
    S.x0 q = ![val "ax0", val "ay0", val "az0", val "p0", val "q0", val "r0", val "phi0", val "theta0", val "psi0"] ∧
    S.Px0 q = diagonal (fun i => ![val "ax0_std", val "ay0_std", val "az0_std", val "p0_std", val "q0_std", val "r0_std", val "phi0_std", val "theta0_std", val "psi0_std"] i ^ 2) := by
  have h0 : val "magex" = q 0 := Option.some.inj (hq 0)
  have h1 : val "magez" = q 1 := Option.some.inj (hq 1)
  have h2 : val "maghx" = q 2 := Option.some.inj (hq 2)
  have h3 : val "maghy" = q 3 := Option.some.inj (hq 3)
  have h4 : val "maghz" = q 4 := Option.some.inj (hq 4)
  have h5 : val "pbias" = q 5 := Option.some.inj (hq 5)
  have h6 : val "qbias" = q 6 := Option.some.inj (hq 6)
  have h7 : val "rbias" = q 7 := Option.some.inj (hq 7)
  have h8 : val "accel_png" = q 8 := Option.some.inj (hq 8)
  have h9 : val "omega_png" = q 9 := Option.some.inj (hq 9)
  refine ⟨fun i => ?_, ?_, ?_, ?_, ?_⟩
  · fin_cases i <;> simp [attitude, h8, h9]
  · funext i
    rw [h0, h1, h2, h3, h4, h5, h6, h7]
    have e : (AttitudeConsts.ofList (attitudeC.map val)).g0 = val "g0" := rfl
    fin_cases i <;> simp [attitude, Ex.attitudeAccel, Ex.attitudeMag, anglesOf, e]
  · simp only [attitude]
    congr 1
    funext i
    fin_cases i <;> rfl
  · funext i
    fin_cases i <;> rfl
  · simp only [attitude]
    congr 1
    funext i
    fin_cases i <;> rfl

/-- **C117** (script). Whatever the random numbers: the simulation returns; at all parameters inside the bounds that the solver is given where the filter predicts from no vertical
attitude, the callbacks return the merit and its derivatives; and if the solver returns such parameters, the script goes on to its end and leaves a smoothed state for each sample. -/
theorem C117_script (hode : ∀ F a ts, (odeint F a ts).length = ts.length) (h1 : c.accel_mng ≠ 0) (h2 : c.omega_mng ≠ 0) (h3 : c.mag_mng ≠ 0) (h4 : ∀ i, c.x0_std i ≠ 0)
    (q q0 : Fin 10 → ℝ) (accel_png omega_png tf dt : ℝ) (hdt : 0 < dt) (htf : 2 * dt ≤ tf) (rw ra : Fin 3 → Nat → ℝ) (v : Nat → Fin 9 → ℝ) :
    let S := attitude c
    let Inside := fun q : Fin 10 → ℝ => ∀ i : Fin 10, ∃ l u, attitudeBounds.1[i.1]? = some l ∧ attitudeBounds.2[i.1]? = some u ∧ l ≤ q i ∧ q i ≤ u
    ∃ d, simAttitude odeint b c q accel_png omega_png tf dt rw ra v = .ok d ∧ d.y.length = ⌊tf / dt⌋₊ ∧
      (∀ q₀, Inside q₀ → Visits S dt d.y q₀ {x | Real.cos (x 7) ≠ 0} → ∃ (ℓ : (Fin 10 → ℝ) → ℝ) (g : (Fin 10 → ℝ) → Fin 10 → ℝ) (H : Fin 10 → Fin 10 → ℝ),
        (∀ᶠ q in 𝓝 q₀, merit S dt d.y q = .ok (ℓ q) ∧ grad S dt d.y q = .ok (g q)) ∧
        (∀ r, hess S dt d.y q₀ r = .ok ((trilIndices 10).map fun a => r * H a.1 a.2)) ∧ HasHess ℓ g H q₀ ∧ ∀ a b, H a b = H b a) ∧
      ∀ solve qopt, solve (merit S dt d.y) (grad S dt d.y) (hess S dt d.y) q0 = .ok qopt → Inside qopt → Visits S dt d.y qopt {x | Real.cos (x 7) ≠ 0} →
        ∃ (r : OldResults 9 9 10) (ut : UT 9) (ms : List (Moments 9)) (s' : UKF 9 ut.nsigma ut.nsigma (Fin 9) (Fin 10)),
          mainAttitude solve odeint b c q q0 accel_png omega_png tf dt rw ra v = .ok r ∧ r.data = d ∧ r.qopt = qopt ∧
          UT.init 9 .cholesky (0 : ℝ) = .ok ut ∧ (UKF.cls ut ut (ito S dt qopt)).filter d.y ⟨start S qopt, none, .never⟩ = .ok (ms, s') ∧ Smoothed ⌊tf / dt⌋₊ ms r.smoothed := by
  intro S Inside
  obtain ⟨d, F, e1, -, -, e4, -⟩ := C117_sim odeint b c hode q accel_png omega_png tf dt hdt htf rw ra v
  have hin : ∀ q, Inside q → q 8 ≠ 0 ∧ q 9 ≠ 0 := fun q hq => by
    obtain ⟨l, u, a1, -, a3, -⟩ := hq 8
    obtain ⟨l', u', a1', -, a3', -⟩ := hq 9
    have b3 : attitudeBounds.1[(8 : Fin 10).1]? = some ((1e-4 : ℝ) : EReal) := rfl
    have b4 : attitudeBounds.1[(9 : Fin 10).1]? = some ((1e-4 : ℝ) : EReal) := rfl
    obtain rfl := Option.some.inj (b3.symm.trans a1)
    obtain rfl := Option.some.inj (b4.symm.trans a1')
    have c1 := EReal.coe_le_coe_iff.1 a3
    have c2 := EReal.coe_le_coe_iff.1 a3'
    have : (0 : ℝ) < 1e-4 := by norm_num
    exact ⟨by linarith |> fun h : 0 < q 8 => h.ne', by linarith |> fun h : 0 < q 9 => h.ne'⟩
  refine ⟨d, e1, e4, fun q₀ hq hv => C116_attitude c hdt h1 h2 h3 h4 d.y q₀ (hin _ hq).1 (hin _ hq).2 hv, fun solve qopt hs hq hv => ?_⟩
  obtain ⟨ut, hut⟩ := exists_ut (nx := 9) (by norm_num)
  have hne : d.y ≠ [] := by
    intro h
    rw [h, List.length_nil, eq_comm, Nat.floor_eq_zero, div_lt_one hdt] at e4
    linarith
  obtain ⟨ms, sm, s', s'', f1, f2, f3⟩ := C117_smooth c hdt h1 h2 h3 h4 d.y hne qopt (hin _ hq).1 (hin _ hq).2 hv hut
  refine ⟨⟨d, qopt, sm⟩, ut, ms, s'', ?_, rfl, rfl, hut, f1, e4 ▸ f3⟩
  unfold mainAttitude
  rw [e1, py_bind_ok, hs, py_bind_ok, hut, py_bind_ok, f2]
  rfl

/-- A simulation for half a minute, as in the script, with an integrator that does not move. -/
example (b : Biquad) (q : Fin 10 → ℝ) (rw ra : Fin 3 → Nat → ℝ) (v : Nat → Fin 9 → ℝ) :
    ∃ d, simAttitude (fun _ a ts => ts.map fun _ => a) b (.ofList (pack attitudeC nominal 0)) q 0.1 0.01 30 0.05 rw ra v = .ok d ∧ d.y.length = 600 := by
  obtain ⟨d, F, h1, -, -, h4, -⟩ := C117_sim (fun _ a ts => ts.map fun _ => a) b (.ofList (pack attitudeC nominal 0)) (fun _ _ _ => List.length_map ..) q 0.1 0.01 30 0.05 (by norm_num)
    (by norm_num) rw ra v
  exact ⟨d, h1, h4.trans (by norm_num)⟩

/-- With the numbers of the script the smoother returns for two samples, if the first is masked. -/
example (r : MaskedRow (Fin 9)) (d : Fin 9 → ℝ) {ut : UT 9} (hut : UT.init 9 .cholesky 0 = .ok ut) :
    let S := attitude (.ofList (pack attitudeC nominal 0))
    let q : Fin 10 → ℝ := fun i => (pack attitudeQ nominal 0).getD i 0
    ∃ sm s', (UKF.cls ut ut (ito S 0.05 q)).smooth [⟨d, fun _ => true⟩, r] ⟨start S q, none, .never⟩ = .ok (sm, s') ∧ sm.length = 2 := by
  intro S q
  have hS : S = attitude ⟨9.80665, 0, ![1, 1, 1, 0.1, 0.1, 0.1, 0.1, 0.1, 0.1], 0.01, 1e-6, 0.5⟩ := congrArg attitude C117_start.1
  have h8 : q 8 = 0.1 := rfl
  have h9 : q 9 = 0.01 := rfl
  rw [hS]
  obtain ⟨ms, sm, s', s'', -, f2, f3⟩ := C117_smooth ⟨9.80665, 0, ![1, 1, 1, 0.1, 0.1, 0.1, 0.1, 0.1, 0.1], 0.01, 1e-6, 0.5⟩ (dt := 0.05) (by norm_num) (by norm_num) (by norm_num)
    (by norm_num) (fun i => by fin_cases i <;> norm_num) [⟨d, fun _ => true⟩, r] (by simp) q (by rw [h8]; norm_num) (by rw [h9]; norm_num) (visits_masked q r d) hut
  exact ⟨sm, s', f2, f3.2.1⟩

/-- A correction with the expected measurement does not move the mean. -/
theorem correct_expected {nx ny nq : Nat} {ut : UT nx} {M : KModel nx (Fin ny) (Fin nq)} (hR : M.Rᵀ = M.R) {y : MaskedRow (Fin ny)} {s s' : UKF nx ut.nsigma ut.nsigma (Fin ny) (Fin nq)}
    {m : Moments nx} {u : UTData ut.nsigma (Fin nx) (Fin ny)} (hu : ut.transform s.x s.Px (M.h s.k) = .ok u) (hy : y.data = u.mean) (h : UKF.correct ut M y s = .ok (m, s')) : m.1 = s.x := by
  rcases ukf_correct_cases h with ⟨-, rfl, rfl⟩ | ⟨-, d, hd, rfl⟩
  · rfl
  · obtain ⟨h1, h2, -⟩ := ukf_core_ok (by ext i j; exact congrFun (congrFun hR i.1) j.1) hd
    have e : (fun j : y.Active => y.data j.1) - d.ut.mean = 0 := by
      unfold UT.transform at h1 hu
      obtain ⟨⟨S, idev, isigma⟩, a1, a2⟩ := py_bind_eq_ok h1
      rw [a1] at hu
      have a2 := Except.ok.inj a2
      have a3 := Except.ok.inj hu
      rw [hy, ← a2, ← a3]
      funext j
      simp
    rw [h2.mean, e, mulVec_zero, add_zero]

/-- If of two samples the first is the expected measurement, the filter stays away from the vertical. -/
theorem visits_two (h1 : c.accel_mng ≠ 0) (h2 : c.omega_mng ≠ 0) (h3 : c.mag_mng ≠ 0) (h4 : ∀ i, c.x0_std i ≠ 0) (h5 : c.x0 7 = 0) (h6 : c.x0_std 7 = 0.1) (q : Fin 10 → ℝ) (dt : ℝ)
    {ut : UT 9} (hut : UT.init 9 .cholesky (0 : ℝ) = .ok ut) {u : UTData ut.nsigma (Fin 9) (Fin 9)}
    (hu : ut.transform ((attitude c).x0 q) ((attitude c).Px0 q) ((ito (attitude c) dt q).h 0) = .ok u) {r r' : MaskedRow (Fin 9)} (hr : r.data = u.mean) :
    Visits (attitude c) dt [r, r'] q {x | Real.cos (x 7) ≠ 0} := by
  have hP : ((attitude c).Px0 q).PosDef := (C113_data c q).2.2 h4
  have hR : ((attitude c).R q).PosDef := (C113_data c q).1.2 ⟨h1, h2, h3⟩
  have hx0 : (attitude c).x0 q 7 = 0 := h5
  have hP7 : (attitude c).Px0 q 7 7 = 0.1 ^ 2 := by simp [attitude, h6]
  generalize attitude c = S at *
  intro ut' hut' n L s' hn h
  obtain rfl := Except.ok.inj (hut.symm.trans hut')
  obtain rfl : n = 0 := by simpa using hn
  rw [List.take_succ_cons, List.take_zero] at h
  obtain ⟨sc, h', hp, -⟩ := C36_ukf_returns ut ut .cholesky .cholesky 0 0 hut hut le_rfl le_rfl { ito S dt q with Q := fun _ _ => 1 } (fun k x => ⟨PosDef.one, PosDef.one⟩) hR [some r]
    ⟨start S q, none, .never⟩ ⟨hP, hP⟩
  obtain ⟨⟨m, s₁⟩, e, h'⟩ := py_bind_eq_ok h'
  have e' : UKF.correct ut (ito S dt q) r ⟨start S q, none, .never⟩ = .ok (m, s₁) := e
  have hf : (UKF.cls ut ut (ito S dt q)).filter [r] ⟨start S q, none, .never⟩ = .ok ([m], s₁) := by
    rw [filter_eq]
    show schedule (UKF.correct ut (ito S dt q)) _ _ _ = _
    simp only [schedule, e', py_bind_ok]
    rfl
  have hRs := psd_symm hR.posSemidef
  obtain ⟨L', s'', g1, g2, g3, -⟩ := C48_ukf_returns_partial ut ut _ hRs _ _ _ _ hf
  obtain ⟨rfl, rfl⟩ := Prod.mk.inj (Except.ok.inj (h.symm.trans g1))
  obtain ⟨k1, k2, k3⟩ := C37_ukf ut _ hRs _ _ _ _ e'
  have k4 := correct_expected hRs hu hr e'
  refine C116_margin hut ?_
  have hx7 : s'.x 7 = 0 := by rw [g2, k3, k4]; exact hx0
  have hP7' : s'.Px 7 7 ≤ 0.1 ^ 2 := by
    have := k1.diag_nonneg (i := 7)
    rw [g3, k2, ← hP7]
    exact sub_nonneg.1 this
  have hs : Real.sqrt (s'.Px 7 7) ≤ 0.1 := Real.sqrt_le_iff.2 ⟨by norm_num, hP7'⟩
  rw [hx7, abs_zero]
  have := Real.two_le_pi
  norm_num at hs ⊢
  linarith

/-- The first state does not depend on the noise of the measurements. -/
theorem sim_first (q : Fin 10 → ℝ) (accel_png omega_png tf : ℝ) {dt : ℝ} (hdt : 0 < dt) (htf : 2 * dt ≤ tf) (rw ra : Fin 3 → Nat → ℝ) :
    ∃ x, ∀ v d, simAttitude (fun _ a ts => ts.map fun _ => a) b c q accel_png omega_png tf dt rw ra v = .ok d → d.x[0]? = some x := by
  have h2 : 2 ≤ ⌊tf / dt⌋₊ := Nat.le_floor (by exact_mod_cast (le_div_iff₀ hdt).2 htf)
  refine ⟨fun i => if h : i.1 < 3 then (smoothNoise b dt accel_png (ra ⟨i, h⟩) ⌊tf / dt⌋₊).getD 0 0 else if h : i.1 < 6 then
    (smoothNoise b dt omega_png (rw ⟨i - 3, by omega⟩) ⌊tf / dt⌋₊).getD 0 0 else 0, fun v d hd => ?_⟩
  obtain ⟨d', F, e1, e2, e3, -, -, e6, -, e8, -⟩ := C117_sim (fun _ a ts => ts.map fun _ => a) b c (fun _ _ _ => List.length_map ..) q accel_png omega_png tf dt hdt htf rw ra v
  obtain rfl := Except.ok.inj (hd.symm.trans e1)
  have hl : 0 < d.x.length := by omega
  rw [List.getElem?_eq_getElem hl]
  have ha : anglesOf d.x[0] = 0 := by
    have := congrArg (fun l => l[0]?) e6
    simp only [List.getElem?_map, List.getElem?_eq_getElem hl, List.getElem?_eq_getElem (show 0 < d.t.length by omega), Option.map_some, Option.some.injEq] at this
    exact this.symm
  have hc : ∀ (i : Fin 9) l, d.x.map (· i) = l → d.x[0] i = l.getD 0 0 := fun i l h => by
    rw [← h, getD_get (by simpa using hl)]
    simp
  congr 1
  funext i
  match i with
  | 0 => exact hc 0 _ (e8 0).1
  | 1 => exact hc 1 _ (e8 1).1
  | 2 => exact hc 2 _ (e8 2).1
  | 3 => exact hc 3 _ (e8 0).2
  | 4 => exact hc 4 _ (e8 1).2
  | 5 => exact hc 5 _ (e8 2).2
  | 6 => exact congrFun ha 0
  | 7 => exact congrFun ha 1
  | 8 => exact congrFun ha 2

/-- With noise that happens to give the expected measurement, and time for two samples, the filter stays away from the vertical. -/
theorem visits_expected (h1 : c.accel_mng ≠ 0) (h2 : c.omega_mng ≠ 0) (h3 : c.mag_mng ≠ 0) (h4 : ∀ i, c.x0_std i ≠ 0) (h5 : c.x0 7 = 0) (h6 : c.x0_std 7 = 0.1) (q : Fin 10 → ℝ)
    (accel_png omega_png : ℝ) {dt : ℝ} (hdt : 0 < dt) (rw ra : Fin 3 → Nat → ℝ) :
    ∃ v d, simAttitude (fun _ a ts => ts.map fun _ => a) b c q accel_png omega_png (2 * dt) dt rw ra v = .ok d ∧ d.y.length = 2 ∧
      Visits (attitude c) dt d.y q {x | Real.cos (x 7) ≠ 0} := by
  obtain ⟨ut, hut⟩ := exists_ut (nx := 9) (by norm_num)
  obtain ⟨u, hu⟩ := transform_of hut (by norm_num) ((attitude c).x0 q) ((ito (attitude c) dt q).h 0) (show RootDom .cholesky ((attitude c).Px0 q) from (C113_data c q).2.2 h4)
  obtain ⟨x, hx⟩ := sim_first b c q accel_png omega_png (2 * dt) hdt le_rfl rw ra
  obtain ⟨d, F, e1, e2, -, e4, e5, -, -, -, e9⟩ := C117_sim (fun _ a ts => ts.map fun _ => a) b c (fun _ _ _ => List.length_map ..) q accel_png omega_png (2 * dt) dt hdt le_rfl rw ra
    (fun _ => u.mean - (attitude c).h q 0 x)
  have hf : ⌊2 * dt / dt⌋₊ = 2 := by rw [mul_div_cancel_right₀ _ hdt.ne']; exact Nat.floor_ofNat 2
  rw [hf] at e2 e4
  refine ⟨_, d, e1, e4, ?_⟩
  obtain ⟨r, r', hy⟩ := List.length_eq_two.1 e4
  obtain ⟨t, t', ht⟩ := List.length_eq_two.1 e2
  have hr := (e9 0 t x r (by rw [ht]; rfl) (hx _ d e1) (by rw [hy]; rfl)).1
  rw [e5 0 t (by rw [ht]; rfl), Nat.cast_zero, zero_mul, add_sub_cancel] at hr
  rw [hy]
  exact visits_two c h1 h2 h3 h4 h5 h6 q dt hut hu hr

/-- The hypotheses of `C117_script` can be met, with the numbers of the script. -/
example (b : Biquad) (rw ra : Fin 3 → Nat → ℝ) (q : Fin 10 → ℝ) :
    ∃ v d, simAttitude (fun _ a ts => ts.map fun _ => a) b (.ofList (pack attitudeC nominal 0)) q 0.1 0.01 (2 * 0.05) 0.05 rw ra v = .ok d ∧ d.y.length = 2 ∧
      Visits (attitude (.ofList (pack attitudeC nominal 0))) 0.05 d.y q {x | Real.cos (x 7) ≠ 0} := by
  rw [C117_start.1]
  exact visits_expected b _ (by norm_num) (by norm_num) (by norm_num) (fun i => by fin_cases i <;> norm_num) rfl rfl q 0.1 0.01 (by norm_num) rw ra

end Ceacoest.Pem
