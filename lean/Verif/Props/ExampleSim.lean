import Verif.Lemmas.ExampleSim
import Verif.Props.SymSDE
import Mathlib.Algebra.Order.Floor.Semifield

/-! # C104: the simulations of the Duffing examples sample what they say, and their scripts prepare data that the estimation can use -/

namespace Ceacoest.Sim
open SymSDE Matrix Spec
variable {nx nw ny : Nat}

/-- The derivatives of the model of the examples are right. -/
theorem C104_duffing (gamma omega alpha beta delta g2 std : ℝ) : Derivs (duffing gamma omega alpha beta delta g2 std) where
  dt t x i := by
    fin_cases i
    · simpa [duffing, Ex.duffingF] using hasDerivAt_const t _
    · simp only [duffing, Ex.duffingF, Fin.mk_one, cons_val_one, cons_val_zero, cons_val_fin_one]
      have h : HasDerivAt (fun t : ℝ => Real.sin (t * omega)) (Real.cos (t * omega) * omega) t := by
        simpa using (((hasDerivAt_id t).mul_const omega).sin)
      exact ((h.const_mul gamma).const_add _).congr_deriv (by ring)
  dx t x p i := by
    fin_cases p <;> fin_cases i <;> simp [duffing, Ex.duffingF, Function.update]
    · exact hasDerivAt_const _ _
    · have h1 : HasDerivAt (fun r : ℝ => -(delta * x 1) - beta * r - alpha * r ^ 3) (-beta - alpha * (3 * x 0 ^ 2)) (x 0) :=
        (((hasDerivAt_const _ _).sub ((hasDerivAt_id' (x 0)).const_mul beta)).sub ((hasDerivAt_pow 3 (x 0)).const_mul alpha)).congr_deriv (by norm_num)
      exact h1
    · exact hasDerivAt_id' _
    · have h1 : HasDerivAt (fun r : ℝ => -(delta * r)) (-delta) (x 1) :=
        (((hasDerivAt_id' (x 1)).const_mul delta).neg).congr_deriv (by norm_num)
      exact h1
  dx2 t x p q i := by
    fin_cases p <;> fin_cases q <;> fin_cases i <;> simp [duffing, Function.update]
    all_goals first
      | exact hasDerivAt_const _ _
      | exact (((hasDerivAt_pow 2 (x 0)).const_mul 3).const_mul alpha).const_sub _ |>.congr_deriv (by ring)

/-- **C104** (time of the outputs). The output function is called with the last `k` of the loop, for all outputs. -/
theorem C104_stale (c : CtModel nx nw ny) (tf dt : ℝ) (m : Nat) (hdt : 0 < dt) (hm : 1 ≤ m) (htf : dt ≤ tf) (x0 : Fin nx → ℝ)
    (w : Nat → Fin (nw + nw) → ℝ) (v : Nat → Fin ny → ℝ) :
    ∃ d, sim c tf dt (m * dt) x0 w v = .ok d ∧ IsSimulation c dt x0 w d.xsim ∧ d.xsim.length = ⌊tf / dt⌋₊ + 1 ∧ d.tsim.length = d.xsim.length ∧
      (∀ (k : Nat) t, d.tsim[k]? = some t → t = k * dt ∧ t ≤ tf) ∧ d.test.length = ⌊tf / (m * dt)⌋₊ + 1 ∧ d.y.length = d.test.length ∧
      ∀ (j : Nat) t y, d.test[j]? = some t → d.y[j]? = some y → t = j * (m * dt) ∧ d.tsim[j * m]? = some t ∧
        ∃ x, d.xsim[j * m]? = some x ∧ y = c.h ((⌊tf / dt⌋₊ - 1) * dt) x + v j := by
  have hm0 : (0 : ℝ) < m := by exact_mod_cast hm
  have hme : 0 < m * dt := mul_pos hm0 hdt
  have htf0 : 0 ≤ tf := hdt.le.trans htf
  set n := ⌊tf / dt⌋₊ with hn
  have hn1 : 1 ≤ n := by
    rw [hn, Nat.one_le_floor_iff, le_div_iff₀ hdt, one_mul]
    exact htf
  have he : ⌊tf / (m * dt)⌋₊ = n / m := by
    rw [mul_comm, ← div_div, Nat.floor_div_natCast]
  have hi : pyInt (m * dt / dt) = m := by
    rw [mul_div_assoc, div_self hdt.ne', mul_one, pyInt_nonneg hm0.le, Nat.floor_natCast]
  obtain ⟨hl, hs⟩ := states_spec c dt x0 w (N := n + 1) (by omega)
  have hk : (n + 1 + m - 1) / m = n / m + 1 := by
    rw [show n + 1 + m - 1 = n + m by omega, Nat.add_div_right _ (by omega)]
  have hsim : sim c tf dt (m * dt) x0 w v = .ok ⟨times ((n : ℤ) + 1) dt, states c dt x0 w (n + 1), times (((n / m : ℕ) : ℤ) + 1) (m * dt),
      (List.range (n / m + 1)).map fun j => SymSDE.h c dt ((n : ℤ) + 1 - 2 : ℤ) ((states c dt x0 w (n + 1)).getD (j * m) 0) + v j⟩ := by
    unfold sim
    rw [count_pos hdt htf0, count_pos hme htf0, he, pyDiv_ok hdt.ne', ← hn]
    simp only [py_bind_ok]
    rw [hi]
    have e1 : draws w ((n : ℤ) + 1 - 1) = .ok ((List.range ((n : ℤ) + 1 - 1).toNat).map w) := if_neg (by omega)
    have e2 : draws v (((n / m : ℕ) : ℤ) + 1) = .ok ((List.range (n / m + 1)).map v) := if_neg (by omega)
    have e3 : lastK ((n : ℤ) + 1) = .ok ((n : ℤ) + 1 - 2) := if_neg (by omega)
    have e4 : ((n : ℤ) + 1).toNat = n + 1 := by omega
    rw [e1, e2, e3, e4, every_eq _ 0 m hm, hl, hk]
    simp only [py_bind_ok]
    unfold addRows
    rw [if_pos (by simp)]
    simp only [py_bind_ok, List.map_map, py_pure]
    congr 2
    refine List.ext_getElem (by simp) fun j h1 h2 => ?_
    simp
  refine ⟨_, hsim, hs, hl, ?_, ?_, ?_, ?_, ?_⟩
  · dsimp only
    rw [hl, times_len]
    simp
  · intro k t h
    dsimp only at h
    rw [times_len] at h
    obtain ⟨h1, rfl⟩ := getElem?_map_range h
    refine ⟨rfl, ?_⟩
    rw [← le_div_iff₀ hdt]
    exact (Nat.cast_le.2 (Nat.lt_succ_iff.1 h1)).trans (Nat.floor_le (div_nonneg htf0 hdt.le))
  · dsimp only
    rw [times_len, he]
    simp
  · dsimp only
    rw [times_len]
    simp
  · intro j t y ht hy
    dsimp only at ht hy ⊢
    rw [times_len] at ht
    obtain ⟨h1, rfl⟩ := getElem?_map_range ht
    obtain ⟨-, rfl⟩ := getElem?_map_range hy
    have hj : j * m < n + 1 := by
      have := Nat.mul_le_mul_right m (Nat.lt_succ_iff.1 h1)
      have := Nat.div_mul_le_self n m
      omega
    refine ⟨rfl, ?_, (states c dt x0 w (n + 1))[j * m]'(by omega), List.getElem?_eq_getElem _, ?_⟩
    · rw [times_len, List.getElem?_map, List.getElem?_range hj, Option.map_some]
      push_cast
      congr 1
      ring
    · rw [List.getD_eq_getElem?_getD, List.getElem?_eq_getElem (by omega), Option.getD_some]
      unfold SymSDE.h
      push_cast
      rw [show (n : ℝ) + 1 - 2 = n - 1 by ring]

/-- **C104** (simulation). With outputs at each `m`-th step, and an end after the first step: the states follow from each other by the
discretised model, there is one output for each time, and each is that of the state at its time, if the output function does not depend on the
time otherwise. -/
theorem C104_sim (c : CtModel nx nw ny) (tf dt : ℝ) (m : Nat) (hdt : 0 < dt) (hm : 1 ≤ m) (htf : dt ≤ tf) (x0 : Fin nx → ℝ)
    (w : Nat → Fin (nw + nw) → ℝ) (v : Nat → Fin ny → ℝ) (hh : ∀ t t' x, c.h t x = c.h t' x) :
    ∃ d, sim c tf dt (m * dt) x0 w v = .ok d ∧ IsSimulation c dt x0 w d.xsim ∧ d.xsim.length = ⌊tf / dt⌋₊ + 1 ∧ d.tsim.length = d.xsim.length ∧
      (∀ (k : Nat) t, d.tsim[k]? = some t → t = k * dt ∧ t ≤ tf) ∧ d.test.length = ⌊tf / (m * dt)⌋₊ + 1 ∧ d.y.length = d.test.length ∧
      ∀ (j : Nat) t y, d.test[j]? = some t → d.y[j]? = some y → t = j * (m * dt) ∧ d.tsim[j * m]? = some t ∧
        ∃ x, d.xsim[j * m]? = some x ∧ y = c.h t x + v j := by
  obtain ⟨d, h1, h2, h3, h4, h5, h6, h7, h8⟩ := C104_stale c tf dt m hdt hm htf x0 w v
  refine ⟨d, h1, h2, h3, h4, h5, h6, h7, fun j t y ht hy => ?_⟩
  obtain ⟨g1, g2, x, g3, g4⟩ := h8 j t y ht hy
  exact ⟨g1, g2, x, g3, by rw [g4, hh _ t]⟩

/-- The outputs of a system with an output function that is the time are not those of their times. -/
theorem C104_not_general : ¬∀ (c : CtModel 1 1 1) (x0 : Fin 1 → ℝ) (w : Nat → Fin (1 + 1) → ℝ) (d : Data 1 1), sim c 2 1 1 x0 w 0 = .ok d →
    ∀ (j : Nat) t y, d.test[j]? = some t → d.y[j]? = some y → ∃ x, d.xsim[j]? = some x ∧ y = c.h t x := by
  intro h
  let c : CtModel 1 1 1 := ⟨fun _ _ => 0, fun _ _ => 0, fun t _ => ![t], 0, fun _ _ => 0, fun _ _ => 0, fun _ _ _ _ => 0⟩
  obtain ⟨d, h1, -, -, -, -, h6, h7, h8⟩ := C104_stale c 2 1 1 one_pos le_rfl (by norm_num) 0 0 0
  rw [Nat.cast_one, mul_one] at h1
  have l0 : 0 < d.test.length := by rw [h6]; omega
  obtain ⟨e1, -, x, e3, e4⟩ := h8 0 _ _ (List.getElem?_eq_getElem l0) (List.getElem?_eq_getElem (h7 ▸ l0))
  obtain ⟨x', -, e6⟩ := h c 0 0 d h1 0 _ _ (List.getElem?_eq_getElem l0) (List.getElem?_eq_getElem (h7 ▸ l0))
  rw [e4, e1] at e6
  have := congrFun e6 0
  simp [c] at this
  norm_num at this

/-- **C104** (errors). With positive steps: an end before the first step leaves the variable of the loop unbound; and outputs more often than
states give a slice with step zero. -/
theorem C104_errors (c : CtModel nx nw ny) (tf dtSim dtEst : ℝ) (htf : 0 ≤ tf) (hs : 0 < dtSim) (he : 0 < dtEst) (x0 : Fin nx → ℝ)
    (w : Nat → Fin (nw + nw) → ℝ) (v : Nat → Fin ny → ℝ) :
    (tf < dtSim → sim c tf dtSim dtEst x0 w v = .error .nameError) ∧
      (dtSim ≤ tf → dtEst < dtSim → sim c tf dtSim dtEst x0 w v = .error .valueError) := by
  have e2 : draws v (((⌊tf / dtEst⌋₊ : ℕ) : ℤ) + 1) = .ok ((List.range (⌊tf / dtEst⌋₊ + 1)).map v) := if_neg (by omega)
  have e1 : draws w (((⌊tf / dtSim⌋₊ : ℕ) : ℤ) + 1 - 1) = .ok ((List.range (((⌊tf / dtSim⌋₊ : ℕ) : ℤ) + 1 - 1).toNat).map w) := if_neg (by omega)
  refine ⟨fun h => ?_, fun h h' => ?_⟩
  · have h0 : ⌊tf / dtSim⌋₊ = 0 := Nat.floor_eq_zero.2 ((div_lt_one hs).2 h)
    unfold sim
    rw [count_pos hs htf, count_pos he htf, pyDiv_ok hs.ne']
    simp only [py_bind_ok]
    rw [e1, e2, h0]
    rfl
  · have h0 : pyInt (dtEst / dtSim) = 0 := by
      rw [pyInt_nonneg (div_nonneg he.le hs.le), Nat.floor_eq_zero.2 ((div_lt_one hs).2 h')]
      rfl
    have h1 : 1 ≤ ⌊tf / dtSim⌋₊ := by
      rw [Nat.one_le_floor_iff, le_div_iff₀ hs, one_mul]
      exact h
    have e3 : lastK ((⌊tf / dtSim⌋₊ : ℤ) + 1) = .ok ((⌊tf / dtSim⌋₊ : ℤ) + 1 - 2) := if_neg (by omega)
    unfold sim
    rw [count_pos hs htf, count_pos he htf, pyDiv_ok hs.ne']
    simp only [py_bind_ok]
    rw [h0, e1, e2, e3]
    rfl

/-- **C104** (numbers). If the number of states at steps of `int(dt_est / dt_sim)` is not that of the times of the outputs there is a ValueError. -/
theorem C104_mismatch (c : CtModel nx nw ny) (tf dtSim dtEst : ℝ) (hs : 0 < dtSim) (he : dtSim ≤ dtEst) (htf : dtEst ≤ tf)
    (hne : ⌊tf / dtSim⌋₊ / ⌊dtEst / dtSim⌋₊ ≠ ⌊tf / dtEst⌋₊) (x0 : Fin nx → ℝ) (w : Nat → Fin (nw + nw) → ℝ) (v : Nat → Fin ny → ℝ) :
    sim c tf dtSim dtEst x0 w v = .error .valueError := by
  have he0 := hs.trans_le he
  have htf0 := (he0.trans_le htf).le
  have b1 : 1 ≤ ⌊tf / dtEst⌋₊ := by
    rw [Nat.one_le_floor_iff, le_div_iff₀ he0, one_mul]
    exact htf
  have m1 : 1 ≤ ⌊dtEst / dtSim⌋₊ := by
    rw [Nat.one_le_floor_iff, le_div_iff₀ hs, one_mul]
    exact he
  have a1 : ⌊dtEst / dtSim⌋₊ ≤ ⌊tf / dtSim⌋₊ := Nat.floor_le_floor (div_le_div_of_nonneg_right htf hs.le)
  generalize hm : ⌊dtEst / dtSim⌋₊ = m at hne m1 a1
  generalize hn : ⌊tf / dtSim⌋₊ = n at hne a1
  generalize hb : ⌊tf / dtEst⌋₊ = b at hne b1
  have a2 : 1 ≤ n / m := (Nat.le_div_iff_mul_le (by omega)).2 (by omega)
  have e1 : draws w ((n : ℤ) + 1 - 1) = .ok ((List.range ((n : ℤ) + 1 - 1).toNat).map w) := if_neg (by omega)
  have e2 : draws v ((b : ℤ) + 1) = .ok ((List.range (b + 1)).map v) := if_neg (by omega)
  have e3 : lastK ((n : ℤ) + 1) = .ok ((n : ℤ) + 1 - 2) := if_neg (by omega)
  have e4 : ((n : ℤ) + 1).toNat = n + 1 := by omega
  obtain ⟨hl, -⟩ := states_spec c dtSim x0 w (N := n + 1) (by omega)
  have hk : (n + 1 + m - 1) / m = n / m + 1 := by
    rw [show n + 1 + m - 1 = n + m by omega, Nat.add_div_right _ (by omega)]
  unfold sim
  rw [count_pos hs htf0, count_pos he0 htf0, pyDiv_ok hs.ne', hn, hb]
  simp only [py_bind_ok]
  rw [pyInt_nonneg (div_nonneg he0.le hs.le), hm, e1, e2, e3, e4, every_eq _ 0 m m1, hl, hk]
  simp only [py_bind_ok]
  have key : ∀ p q : List (Fin ny → ℝ), p.length = n / m + 1 → q.length = b + 1 → addRows p q = .error .valueError := fun p q hp hq => by
    unfold addRows
    rw [if_neg (by omega)]
    match p, q with
    | [], _ => simp at hp
    | _, [] => simp at hq
    | [_], _ => simp at hp; omega
    | _ :: _ :: _, [_] => simp at hq; omega
    | _ :: _ :: _, _ :: _ :: _ => rfl
  rw [key _ _ (by simp) (by simp)]
  rfl

/-- **C104** (alignment). The `j`-th output is taken from the state `j * int(dt_est / dt_sim)`. Its time is the time of the output for all `j`
if and only if the step of the outputs is a multiple of that of the states. -/
theorem C104_alignment (dtSim dtEst : ℝ) (hs : 0 < dtSim) (he : 0 < dtEst) :
    (∀ j : Nat, (j : ℝ) * dtEst = ((j * (pyInt (dtEst / dtSim)).toNat : ℕ) : ℝ) * dtSim) ↔ ∃ m : Nat, dtEst = m * dtSim := by
  rw [pyInt_nonneg (div_nonneg he.le hs.le), Int.toNat_natCast]
  constructor
  · intro h
    refine ⟨⌊dtEst / dtSim⌋₊, ?_⟩
    have := h 1
    simpa using this
  · rintro ⟨m, rfl⟩ j
    rw [mul_div_assoc, div_self hs.ne', mul_one, Nat.floor_natCast]
    push_cast
    ring

/-- **C104** (joint estimation). The simulation of duffing_jme.py: an output for each state. -/
theorem C104_jme (c : CtModel nx nw ny) (tf dt : ℝ) (hdt : 0 < dt) (htf : dt ≤ tf) (x0 : Fin nx → ℝ) (w : Nat → Fin (nw + nw) → ℝ)
    (v : Nat → Fin ny → ℝ) (hh : ∀ t t' x, c.h t x = c.h t' x) :
    ∃ ts xs ys, simJME c tf dt x0 w v = .ok (ts, xs, ys) ∧ IsSimulation c dt x0 w xs ∧ xs.length = ⌊tf / dt⌋₊ + 1 ∧ ts.length = xs.length ∧
      ys.length = xs.length ∧ (∀ (k : Nat) t, ts[k]? = some t → t = k * dt) ∧
      ∀ (k : Nat) t x y, ts[k]? = some t → xs[k]? = some x → ys[k]? = some y → y = c.h t x + v k := by
  have htf0 : 0 ≤ tf := hdt.le.trans htf
  set n := ⌊tf / dt⌋₊ with hn
  have hn1 : 1 ≤ n := by
    rw [hn, Nat.one_le_floor_iff, le_div_iff₀ hdt, one_mul]
    exact htf
  obtain ⟨hl, hs⟩ := states_spec c dt x0 w (N := n + 1) (by omega)
  have hsim : simJME c tf dt x0 w v = .ok (times ((n : ℤ) + 1) dt, states c dt x0 w (n + 1),
      List.zipWith (· + ·) ((states c dt x0 w (n + 1)).map (SymSDE.h c dt ((n : ℤ) + 1 - 2 : ℤ))) ((List.range (n + 1)).map v)) := by
    unfold simJME
    rw [count_pos hdt htf0, ← hn]
    simp only [py_bind_ok]
    have e1 : draws w ((n : ℤ) + 1 - 1) = .ok ((List.range ((n : ℤ) + 1 - 1).toNat).map w) := if_neg (by omega)
    have e2 : draws v ((n : ℤ) + 1) = .ok ((List.range (n + 1)).map v) := if_neg (by omega)
    have e3 : lastK ((n : ℤ) + 1) = .ok ((n : ℤ) + 1 - 2) := if_neg (by omega)
    have e4 : ((n : ℤ) + 1).toNat = n + 1 := by omega
    rw [e1, e2, e3, e4]
    simp only [py_bind_ok]
    unfold addRows
    rw [if_pos (by simp [hl])]
    rfl
  refine ⟨_, _, _, hsim, hs, hl, ?_, ?_, ?_, ?_⟩
  · rw [hl, times_len]
    simp
  · simp [hl]
  · intro k t h
    rw [times_len] at h
    exact (getElem?_map_range h).2
  · intro k t x y ht hx hy
    rw [List.getElem?_zipWith, List.getElem?_map, hx, Option.map_some] at hy
    have hk : k < n + 1 := by
      rw [← hl]
      exact (List.getElem?_eq_some_iff.1 hx).1
    rw [List.getElem?_map, List.getElem?_range hk] at hy
    cases hy
    unfold SymSDE.h
    rw [hh _ t]

theorem getD_set {α : Type} (l : List α) (i j : Nat) (a d : α) (hi : i < l.length) : (l.set i a).getD j d = if j = i then a else l.getD j d := by
  split
  · rename_i h
    subst h
    rw [List.getD_eq_getElem?_getD, List.getElem?_set_self hi, Option.getD_some]
  · rename_i h
    rw [List.getD_eq_getElem?_getD, List.getElem?_set_ne (Ne.symm h), ← List.getD_eq_getElem?_getD]

theorem cdiff_eq (mem : Nat → ℝ) (x : List ℝ) (T : ℝ) (hn : 2 ≤ x.length) : ∃ xd, cdiff mem x T = .ok xd ∧ xd.length = x.length ∧
    ∀ i, i < x.length → let b := fun i => if 1 ≤ i ∧ i + 1 < x.length then 0.5 / T * (x.getD (i + 1) 0 - x.getD (i - 1) 0) else mem i
      xd.getD i 0 = if i = x.length - 1 then (if x.length = 2 then b 1 else b (x.length - 2)) else if i = 0 then b 1 else b i := by
  have i0 : pyIndex x.length 0 = .ok 0 := if_pos (by omega)
  have i1 : pyIndex x.length 1 = .ok 1 := if_pos (by omega)
  have i2 : pyIndex x.length (-1) = .ok (x.length - 1) := by
    unfold pyIndex
    rw [if_neg (by omega), if_pos (by omega)]
    congr 1
    omega
  have i3 : pyIndex x.length (-2) = .ok (x.length - 2) := by
    unfold pyIndex
    rw [if_neg (by omega), if_pos (by omega)]
    congr 1
    omega
  unfold cdiff
  simp only [i0, i1, i2, i3, py_bind_ok, py_pure]
  refine ⟨_, rfl, by simp, fun i hi => ?_⟩
  have hb : ∀ j, j < x.length → ((List.range x.length).map fun i => if 1 ≤ i ∧ i + 1 < x.length then 0.5 / T * (x.getD (i + 1) 0 - x.getD (i - 1) 0) else mem i).getD j 0 =
      if 1 ≤ j ∧ j + 1 < x.length then 0.5 / T * (x.getD (j + 1) 0 - x.getD (j - 1) 0) else mem j := fun j hj => by
    rw [List.getD_eq_getElem?_getD, List.getElem?_map, List.getElem?_range hj]
    rfl
  rw [getD_set _ _ _ _ _ (by simp; omega), getD_set _ _ _ _ _ (by simp; omega), getD_set _ _ _ _ _ (by simp; omega)]
  rw [hb i hi, hb 1 (by omega), hb (x.length - 2) (by omega)]
  by_cases h2 : x.length = 2
  · simp [h2]
  · rw [if_neg (show ¬x.length - 2 = 0 by omega), if_neg h2]

/-- **C104** (differences). `cdiff` needs two numbers; with two it returns what was in memory; with more it gives central differences, and
repeats the first and the last of them. -/
theorem C104_cdiff (mem : Nat → ℝ) (x : List ℝ) (T : ℝ) :
    (x.length < 2 → cdiff mem x T = .error .indexError) ∧ (x.length = 2 → cdiff mem x T = .ok [mem 1, mem 1]) ∧
      (3 ≤ x.length → ∃ xd, cdiff mem x T = .ok xd ∧ xd.length = x.length ∧
        (∀ i, 1 ≤ i → i + 1 < x.length → xd.getD i 0 = (x.getD (i + 1) 0 - x.getD (i - 1) 0) / (2 * T)) ∧
        xd.getD 0 0 = xd.getD 1 0 ∧ xd.getD (x.length - 1) 0 = xd.getD (x.length - 2) 0) := by
  refine ⟨fun h => ?_, fun h => ?_, fun h => ?_⟩
  · match x, h with
    | [], _ => rfl
    | [a], _ => rfl
  · match x, h with
    | [a, b], _ => rfl
  · obtain ⟨xd, h1, h2, h3⟩ := cdiff_eq mem x T (by omega)
    dsimp only at h3
    refine ⟨xd, h1, h2, fun i hi hi' => ?_, ?_, ?_⟩
    · rw [h3 i (by omega), if_neg (by omega), if_neg (by omega), if_pos ⟨hi, hi'⟩, mul_comm 2 T, div_mul_eq_div_div, div_eq_mul_inv, div_eq_mul_inv (_ / T)]
      norm_num
      ring
    · rw [h3 0 (by omega), h3 1 (by omega), if_neg (show ¬0 = x.length - 1 by omega), if_pos rfl, if_neg (show ¬1 = x.length - 1 by omega), if_neg (show ¬1 = 0 by omega)]
    · rw [h3 (x.length - 1) (by omega), h3 (x.length - 2) (by omega), if_pos rfl, if_neg (show ¬x.length = 2 by omega), if_neg (show ¬x.length - 2 = x.length - 1 by omega),
        if_neg (show ¬x.length - 2 = 0 by omega)]

/-- **C104** (quadratics). The differences are derivatives of polynomials of degree two, but at the ends, where they are those of the
neighbours. -/
theorem C104_quadratic (mem : Nat → ℝ) (a b c t0 T : ℝ) (hT : T ≠ 0) (n : Nat) (hn : 3 ≤ n) :
    ∃ xd, cdiff mem ((List.range n).map fun i : Nat => a + b * (t0 + i * T) + c * (t0 + i * T) ^ 2) T = .ok xd ∧ xd.length = n ∧
      ∀ i, i < n → xd.getD i 0 = b + 2 * c * (t0 + (max 1 (min i (n - 2)) : ℕ) * T) := by
  have hl : ((List.range n).map fun i : Nat => a + b * (t0 + i * T) + c * (t0 + i * T) ^ 2).length = n := by simp
  obtain ⟨xd, h1, h2, h3, h4, h5⟩ := (C104_cdiff mem ((List.range n).map fun i : Nat => a + b * (t0 + i * T) + c * (t0 + i * T) ^ 2) T).2.2 (by rw [hl]; exact hn)
  rw [hl] at h2 h3 h5
  have hg : ∀ j, j < n → ((List.range n).map fun i : Nat => a + b * (t0 + i * T) + c * (t0 + i * T) ^ 2).getD j 0 = a + b * (t0 + j * T) + c * (t0 + j * T) ^ 2 := fun j hj => by
    rw [List.getD_eq_getElem?_getD, List.getElem?_map, List.getElem?_range hj]
    rfl
  have h6 : ∀ i, 1 ≤ i → i + 1 < n → xd.getD i 0 = b + 2 * c * (t0 + i * T) := fun i hi hi' => by
    rw [h3 i hi hi', hg _ hi', hg _ (by omega), Nat.cast_sub hi]
    push_cast
    field_simp
    ring
  refine ⟨xd, h1, h2, fun i hi => ?_⟩
  by_cases c0 : i = 0
  · subst c0
    rw [h4, h6 1 le_rfl (by omega), Nat.zero_min, Nat.max_eq_left (by omega)]
  · by_cases c1 : i = n - 1
    · subst c1
      rw [h5, h6 (n - 2) (by omega) (by omega), Nat.min_eq_right (by omega), Nat.max_eq_right (by omega)]
    · rw [h6 i (by omega) (by omega), Nat.min_eq_left (by omega), Nat.max_eq_right (by omega)]

/-- **C104** (data). Each fifth output is kept, and each third of these is not masked. The measured times and outputs correspond. -/
theorem C104_prepare (mem : Nat → ℝ) (lpf : List ℝ → Py (List ℝ)) (tsim : List ℝ) (ysim : List (Fin 1 → ℝ)) (hl : ysim.length = tsim.length) :
    let z := (List.range (((tsim.length + 4) / 5 + 2) / 3)).map fun i => ysim.getD (15 * i) 0 0
    (∀ e, lpf z = .error e → prepare mem lpf tsim ysim = .error e) ∧ ∀ f, lpf z = .ok f → f.length = z.length →
      (tsim.length ≤ 15 → prepare mem lpf tsim ysim = .error .indexError) ∧
      (16 ≤ tsim.length → ∃ d, prepare mem lpf tsim ysim = .ok d ∧ d.t.length = (tsim.length + 4) / 5 ∧ d.y.length = d.t.length ∧ d.mask.length = d.t.length ∧
        (∀ k, k < d.t.length → d.t[k]? = tsim[5 * k]? ∧ d.y[k]? = (ysim[5 * k]?).map (fun r => r 0) ∧ (d.mask[k]? = some false ↔ k % 3 = 0)) ∧
        d.tf.length = (d.t.length + 2) / 3 ∧ d.yf0 = f ∧ d.yf0.length = d.tf.length ∧ d.yf1.length = d.tf.length ∧
        (∀ i, i < d.tf.length → d.tf[i]? = d.t[3 * i]? ∧ z[i]? = d.y[3 * i]?) ∧ cdiff mem f (d.tf.getD 1 0 - d.tf.getD 0 0) = .ok d.yf1) := by
  intro z
  have hy := every_eq ysim 0 5 (by omega)
  have ht := every_eq tsim 0 5 (by omega)
  rw [show ((5 : ℕ) : ℤ) = 5 from rfl] at hy ht
  rw [hl, show tsim.length + 5 - 1 = tsim.length + 4 by omega] at hy
  rw [show tsim.length + 5 - 1 = tsim.length + 4 by omega] at ht
  generalize hn : (tsim.length + 4) / 5 = n at hy ht ⊢
  generalize hY : (List.range n).map (fun j => ysim.getD (j * 5) 0) = Y at hy
  generalize hT : (List.range n).map (fun j => tsim.getD (j * 5) 0) = T at ht
  have lY : (Y.map fun r => r 0).length = n := by rw [← hY]; simp
  have lT : T.length = n := by rw [← hT]; simp
  have cT := compress_eq T 0
  have cY := compress_eq (Y.map fun r => r 0) 0
  rw [lT] at cT
  rw [lY] at cY
  have hz : compress (mask n) (Y.map fun r => r 0) = z := by
    rw [cY]
    refine List.ext_getElem (by simp [z, hn]) fun i h1 h2 => ?_
    have hi : i < (n + 2) / 3 := by simpa using h1
    simp only [List.getElem_map, List.getElem_range, z]
    rw [List.getD_eq_getElem?_getD, ← hY, List.map_map, List.getElem?_map, List.getElem?_range (by omega), Option.map_some, Option.getD_some, Function.comp_apply,
      show i * 3 * 5 = 15 * i by omega]
  have lz : z.length = (n + 2) / 3 := by simp [z, hn]
  have hp : prepare mem lpf tsim ysim = (lpf z >>= fun yf0 => cdiff mem yf0 ((compress (mask n) T).getD 1 0 - (compress (mask n) T).getD 0 0) >>= fun yf1 =>
      .ok ⟨T, Y.map fun r => r 0, mask n, compress (mask n) T, yf0, yf1⟩) := by
    unfold prepare
    rw [hy, ht]
    simp only [py_bind_ok, lT, hz]
    rfl
  have hTk : ∀ k, k < n → T[k]? = tsim[5 * k]? := fun k hk => by
    rw [← hT, List.getElem?_map, List.getElem?_range hk, Option.map_some, List.getD_eq_getElem?_getD, Nat.mul_comm k 5,
      List.getElem?_eq_getElem (by omega), Option.getD_some]
  have hYk : ∀ k, k < n → (Y.map fun r => r 0)[k]? = (ysim[5 * k]?).map fun r => r 0 := fun k hk => by
    rw [← hY, List.map_map, List.getElem?_map, List.getElem?_range hk, Option.map_some, Function.comp_apply, List.getD_eq_getElem?_getD, Nat.mul_comm k 5,
      List.getElem?_eq_getElem (by omega), Option.getD_some, Option.map_some]
  refine ⟨fun e he => by rw [hp, he]; rfl, fun f hf lf => ⟨fun h => ?_, fun h => ?_⟩⟩
  · rw [hp, hf, py_bind_ok, (C104_cdiff _ _ _).1 (by rw [lf, lz]; omega)]
    rfl
  · obtain ⟨xd, h1, h2, -⟩ := cdiff_eq mem f ((compress (mask n) T).getD 1 0 - (compress (mask n) T).getD 0 0) (by rw [lf, lz]; omega)
    rw [hf, py_bind_ok, h1] at hp
    refine ⟨_, hp, lT, lY.trans lT.symm, ?_, ?_, ?_, rfl, ?_, ?_, ?_, h1⟩
    · dsimp only
      rw [mask_eq, lT]
      simp
    · intro k hk
      dsimp only at hk ⊢
      rw [lT] at hk
      refine ⟨hTk k hk, hYk k hk, ?_⟩
      rw [mask_eq, List.getElem?_map, List.getElem?_range hk, Option.map_some]
      simp
    · dsimp only
      rw [cT, lT]
      simp
    · dsimp only
      rw [lf, lz, cT]
      simp
    · dsimp only
      rw [h2, lf, lz, cT]
      simp
    · intro i hi
      dsimp only at hi ⊢
      rw [cT, List.length_map, List.length_range] at hi
      constructor
      · rw [cT, List.getElem?_map, List.getElem?_range hi, Option.map_some, List.getD_eq_getElem?_getD, Nat.mul_comm i 3, List.getElem?_eq_getElem (by omega),
          Option.getD_some]
      · rw [← hz, cY, List.getElem?_map, List.getElem?_range hi, Option.map_some, List.getD_eq_getElem?_getD, Nat.mul_comm i 3,
          List.getElem?_eq_getElem (by omega), Option.getD_some]

theorem countP_lt {xs : List ℝ} (h : xs.Pairwise (· < ·)) (q : ℝ) (i : Nat) (hi : i < xs.length) : xs[i] < q ↔ i < xs.countP (decide <| · < q) := by
  induction xs generalizing i with
  | nil => cases hi
  | cons a l ih =>
    rw [List.pairwise_cons] at h
    rw [List.countP_cons]
    by_cases ha : a < q
    · rw [if_pos (by simpa using ha)]
      cases i with
      | zero => simpa using ha
      | succ i =>
        rw [List.getElem_cons_succ, ih h.2 i (by simpa using hi)]
        omega
    · rw [if_neg (by simpa using ha)]
      have h0 : l.countP (decide <| · < q) = 0 := by
        rw [List.countP_eq_zero]
        intro b hb
        have := h.1 b hb
        simpa using (not_lt.1 ha).trans this.le
      rw [h0]
      cases i with
      | zero => simpa using not_lt.1 ha
      | succ i =>
        have := h.1 _ (List.getElem_mem (by simpa using hi : i < l.length))
        simpa using (not_lt.1 ha).trans this.le

/-- **C104** (interpolation). Within the range of increasing points the interpolation is on the line through the neighbours; outside of it
there is a ValueError. -/
theorem C104_interp {xs ys : List ℝ} (h2 : 2 ≤ xs.length) (hl : xs.length = ys.length) (hx : xs.Pairwise (· < ·)) (q : ℝ) :
    (q < xs[0] ∨ xs[xs.length - 1] < q → interp1d xs ys q = .error .valueError) ∧
      (xs[0] ≤ q → q ≤ xs[xs.length - 1] → ∃ r, interp1d xs ys q = .ok r ∧ OnLine xs ys q r) := by
  unfold interp1d
  rw [dif_pos ⟨h2, hl⟩]
  refine ⟨fun h => if_pos h, fun h0 h1 => ?_⟩
  rw [if_neg (by rw [not_or, not_lt, not_lt]; exact ⟨h0, h1⟩)]
  dsimp only
  generalize hc : xs.countP (decide <| · < q) = c
  have hlt := fun i hi => countP_lt hx q i hi
  rw [hc] at hlt
  generalize hh : min (max c 1) (xs.length - 1) = hi
  have hhi : 1 ≤ hi ∧ hi ≤ xs.length - 1 := by omega
  have g : ∀ (l : List ℝ) i (hi : i < l.length), l.getD i 0 = l[i] := fun l i hi => by rw [List.getD_eq_getElem?_getD, List.getElem?_eq_getElem hi, Option.getD_some]
  refine ⟨_, rfl, hi - 1, xs[hi - 1], xs[hi - 1 + 1], ys[hi - 1], ys[hi - 1 + 1], List.getElem?_eq_getElem _, List.getElem?_eq_getElem _, List.getElem?_eq_getElem _,
    List.getElem?_eq_getElem _, ?_, ?_, ?_⟩
  · by_cases hc0 : hi - 1 < c
    · exact ((hlt _ (by omega)).2 hc0).le
    · have : hi - 1 = 0 := by omega
      simpa only [this] using h0
  · by_cases hc0 : c ≤ hi - 1 + 1
    · exact not_lt.1 fun h => absurd ((hlt _ (by omega)).1 h) (by omega)
    · have : hi - 1 + 1 = xs.length - 1 := by omega
      simpa only [this] using h1
  · have e : hi = hi - 1 + 1 := by omega
    have hne : xs[hi - 1 + 1]'(by omega) - xs[hi - 1]'(by omega) ≠ 0 := sub_ne_zero.2 (List.pairwise_iff_getElem.1 hx _ _ _ _ (by omega)).ne'
    have gx : xs.getD hi 0 = xs[hi - 1 + 1]'(by omega) := by rw [← g xs (hi - 1 + 1) (by omega), ← e]
    have gy : ys.getD hi 0 = ys[hi - 1 + 1]'(by omega) := by rw [← g ys (hi - 1 + 1) (by omega), ← e]
    rw [g xs (hi - 1) (by omega), g ys (hi - 1) (by omega), gx, gy, add_sub_cancel_right]
    field_simp

theorem mapM_or {α β : Type} {f : α → Py β} {e : PyErr} {l : List α} (h : ∀ a ∈ l, f a = .error e ∨ ∃ b, f a = .ok b) (h' : ∃ a ∈ l, f a = .error e) :
    l.mapM f = .error e := by
  induction l with
  | nil =>
    obtain ⟨a, ha, -⟩ := h'
    cases ha
  | cons a l ih =>
    rw [List.mapM_cons]
    rcases h a List.mem_cons_self with ha | ⟨b, hb⟩
    · rw [ha]
      rfl
    · rw [hb, py_bind_ok, ih fun a ha => h a (List.mem_cons_of_mem _ ha)]
      · rfl
      · obtain ⟨c, hc, hc'⟩ := h'
        rcases List.mem_cons.1 hc with rfl | hc
        · rw [hb] at hc'
          cases hc'
        · exact ⟨c, hc, hc'⟩

theorem thirds_times (n : Nat) (hn : 4 ≤ n) (T : ℝ) (hT : 0 < T) {xs : List ℝ} (h : xs = (List.range ((n + 2) / 3)).map fun i : Nat => (3 * i : ℕ) * T) :
    ∃ h2 : 2 ≤ xs.length, xs.Pairwise (· < ·) ∧ xs[0] = 0 ∧ xs[xs.length - 1] = (3 * ((n + 2) / 3 - 1) : ℕ) * T := by
  have hl : xs.length = (n + 2) / 3 := by rw [h]; simp
  have hg : ∀ i (hi : i < xs.length), xs[i] = (3 * i : ℕ) * T := fun i hi => by
    subst h
    simp
  refine ⟨by omega, List.pairwise_iff_getElem.2 fun i j hi hj hij => ?_, ?_, ?_⟩
  · rw [hg, hg]
    exact mul_lt_mul_of_pos_right (by exact_mod_cast (by omega : 3 * i < 3 * j)) hT
  · rw [hg]
    simp
  · rw [hg, hl]

/-- **C104** (guess). With `n` kept samples with the period `T` the guess of the states is on the lines between the measured points, if the last
of the samples is measured, that is, 3 divides `n - 1`. If it is not then the last time is outside of the range of the interpolation: a ValueError. -/
theorem C104_guess (d : Prepared) (n : Nat) (hn : 4 ≤ n) (T : ℝ) (hT : 0 < T) (htf : d.tf = (List.range ((n + 2) / 3)).map fun i : Nat => (3 * i : ℕ) * T)
    (h0 : d.yf0.length = d.tf.length) (h1 : d.yf1.length = d.tf.length) (tc : List ℝ) (htc : ∀ q ∈ tc, 0 ≤ q ∧ q ≤ (n - 1 : ℕ) * T) :
    (3 ∣ n - 1 → ∃ x1 x2, guessX d tc = .ok (x1, x2) ∧ x1.length = tc.length ∧ x2.length = tc.length ∧
      ∀ (i : Nat) q a b, tc[i]? = some q → x1[i]? = some a → x2[i]? = some b → OnLine d.tf d.yf0 q a ∧ OnLine d.tf d.yf1 q b) ∧
    (¬3 ∣ n - 1 → ((n - 1 : ℕ) : ℝ) * T ∈ tc → guessX d tc = .error .valueError) := by
  obtain ⟨l2, hp, hf, hlast⟩ := thirds_times n hn T hT htf
  constructor
  · intro h3
    have key : ∀ ys : List ℝ, ys.length = d.tf.length → ∀ q ∈ tc, ∃ r, interp1d d.tf ys q = .ok r ∧ OnLine d.tf ys q r := fun ys hy q hq =>
      (C104_interp l2 hy.symm hp q).2 (by rw [hf]; exact (htc q hq).1)
        (by rw [hlast, show 3 * ((n + 2) / 3 - 1) = n - 1 by omega]; exact (htc q hq).2)
    have key2 : ∀ ys : List ℝ, ys.length = d.tf.length → ∃ x, tc.mapM (interp1d d.tf ys) = .ok x ∧ x.length = tc.length ∧
        ∀ (i : Nat) q a, tc[i]? = some q → x[i]? = some a → OnLine d.tf ys q a := fun ys hy => by
      have hk := key ys hy
      clear htc
      induction tc with
      | nil => exact ⟨[], rfl, rfl, fun i q a hq => by simp at hq⟩
      | cons q0 tc ih =>
        obtain ⟨r, hr, hr'⟩ := hk q0 List.mem_cons_self
        obtain ⟨x, hx, hxl, hx'⟩ := ih (fun ys hy q hq => key ys hy q (List.mem_cons_of_mem _ hq)) fun q hq => hk q (List.mem_cons_of_mem _ hq)
        refine ⟨r :: x, by rw [List.mapM_cons, hr, py_bind_ok, hx]; rfl, by simp [hxl], fun i q a hq ha => ?_⟩
        cases i with
        | zero =>
          simp only [List.getElem?_cons_zero, Option.some.injEq] at hq ha
          rw [← hq, ← ha]
          exact hr'
        | succ i => exact hx' i q a (by simpa using hq) (by simpa using ha)
    obtain ⟨x1, e1, l1, o1⟩ := key2 d.yf0 h0
    obtain ⟨x2, e2, l2, o2⟩ := key2 d.yf1 h1
    refine ⟨x1, x2, ?_, l1, l2, fun i q a b hq ha hb => ⟨o1 i q a hq ha, o2 i q b hq hb⟩⟩
    unfold guessX
    rw [e1, py_bind_ok, e2]
    rfl
  · intro h3 hm
    unfold guessX
    rw [mapM_or (e := .valueError)]
    · rfl
    · intro q hq
      by_cases hq' : q ≤ d.tf[d.tf.length - 1]
      · exact .inr (((C104_interp l2 h0.symm hp q).2 (by rw [hf]; exact (htc q hq).1) hq').imp fun _ h => h.1)
      · exact .inl ((C104_interp l2 h0.symm hp q).1 (.inr (not_le.1 hq')))
    · refine ⟨_, hm, (C104_interp l2 h0.symm hp _).1 (.inr ?_)⟩
      rw [hlast]
      exact mul_lt_mul_of_pos_right (by exact_mod_cast (by omega : 3 * ((n + 2) / 3 - 1) < n - 1)) hT

/-- **C104** (script of duffing.py). 6001 states, each 20th of which is measured: 301 outputs. -/
theorem C104_duffing_script (gamma omega alpha beta delta g2 std : ℝ) (x0 : Fin 2 → ℝ) (w : Nat → Fin (1 + 1) → ℝ) (v : Nat → Fin 1 → ℝ) :
    ∃ d, sim (duffing gamma omega alpha beta delta g2 std) 30 0.005 0.1 x0 w v = .ok d ∧ d.xsim.length = 6001 ∧ d.y.length = 301 ∧ d.test.length = 301 ∧
      IsSimulation (duffing gamma omega alpha beta delta g2 std) 0.005 x0 w d.xsim ∧
      ∀ (j : Nat) y, d.y[j]? = some y → ∃ x, d.xsim[20 * j]? = some x ∧ y = ![x 0] + v j := by
  obtain ⟨d, h1, h2, h3, h4, h5, h6, h7, h8⟩ := C104_sim (duffing gamma omega alpha beta delta g2 std) 30 0.005 20 (by norm_num) (by norm_num) (by norm_num) x0 w v
    fun _ _ _ => rfl
  rw [show ((20 : ℕ) : ℝ) * 0.005 = 0.1 by norm_num] at h1 h6
  have e1 : ⌊(30 : ℝ) / 0.005⌋₊ = 6000 := by norm_num
  have e2 : ⌊(30 : ℝ) / 0.1⌋₊ = 300 := by norm_num
  refine ⟨d, h1, by rw [h3, e1], by rw [h7, h6, e2], by rw [h6, e2], h2, fun j y hy => ?_⟩
  have hj : j < d.test.length := by
    rw [← h7]
    exact (List.getElem?_eq_some_iff.1 hy).1
  obtain ⟨-, -, x, hx, hxy⟩ := h8 j _ y (List.getElem?_eq_getElem hj) hy
  exact ⟨x, by rw [mul_comm]; exact hx, hxy⟩

/-- **C104** (script of duffing_jme.py). 180001 states, 36001 of which are kept, 12001 of these measured, the last one too; and the guess
returns for all times of the experiment. -/
theorem C104_jme_script (gamma omega alpha beta delta g2 std : ℝ) (x0 : Fin 2 → ℝ) (w : Nat → Fin (1 + 1) → ℝ) (v : Nat → Fin 1 → ℝ) (mem : Nat → ℝ)
    (lpf : List ℝ → Py (List ℝ)) (hlpf : ∀ z, 16 ≤ z.length → ∃ f, lpf z = .ok f ∧ f.length = z.length) :
    ∃ ts xs ys d, simJME (duffing gamma omega alpha beta delta g2 std) 900 0.005 x0 w v = .ok (ts, xs, ys) ∧ xs.length = 180001 ∧
      prepare mem lpf ts ys = .ok d ∧ d.t.length = 36001 ∧ d.tf.length = 12001 ∧ d.t[36000]? = some 900 ∧ d.mask[36000]? = some false ∧
      ∀ tc : List ℝ, (∀ q ∈ tc, 0 ≤ q ∧ q ≤ 900) → ∃ x1 x2, guessX d tc = .ok (x1, x2) ∧ x1.length = tc.length ∧ x2.length = tc.length := by
  obtain ⟨ts, xs, ys, h1, h2, h3, h4, h5, h6, -⟩ := C104_jme (duffing gamma omega alpha beta delta g2 std) 900 0.005 (by norm_num) (by norm_num) x0 w v fun _ _ _ => rfl
  have e1 : ⌊(900 : ℝ) / 0.005⌋₊ = 180000 := by norm_num
  rw [e1] at h3
  have l1 : ts.length = 180001 := by rw [h4, h3]
  obtain ⟨f, hf, hfl⟩ := hlpf ((List.range (((ts.length + 4) / 5 + 2) / 3)).map fun i => ys.getD (15 * i) 0 0) (by simp only [List.length_map, List.length_range, l1]; norm_num)
  obtain ⟨d, g1, g2, g3, g4, g5, g6, g7, g8, g9, g10, -⟩ := ((C104_prepare mem lpf ts ys (h5.trans h4.symm)).2 f hf hfl).2 (by omega)
  have l2 : d.t.length = 36001 := by rw [g2, l1]
  have l3 : d.tf.length = 12001 := by rw [g6, l2]
  have htf : d.tf = (List.range ((36001 + 2) / 3)).map fun i : Nat => ((3 * i : ℕ) : ℝ) * 0.025 := by
    refine List.ext_getElem (by rw [l3]; simp) fun i hi hi' => ?_
    have q1 := (g10 i hi).1
    rw [(g5 (3 * i) (by omega)).1, List.getElem?_eq_getElem hi] at q1
    rw [h6 _ _ q1.symm]
    simp only [List.getElem_map, List.getElem_range]
    push_cast
    ring
  have q0 := (g5 36000 (by omega))
  refine ⟨ts, xs, ys, d, h1, h3, g1, l2, l3, ?_, q0.2.2.2 (by norm_num), fun tc htc => ?_⟩
  · rw [q0.1, List.getElem?_eq_getElem (by omega), h6 _ _ (List.getElem?_eq_getElem (by omega : 5 * 36000 < ts.length))]
    norm_num
  · obtain ⟨x1, x2, r1, r2, r3, -⟩ := (C104_guess d 36001 (by norm_num) 0.025 (by norm_num) htf g8 g9 tc fun q hq => by
      have := htc q hq
      norm_num
      exact this).1 (by norm_num)
    exact ⟨x1, x2, r1, r2, r3⟩

/-- Ten seconds of states at each second, and outputs each one and a half: eleven rows and seven. -/
example (x0 : Fin 2 → ℝ) (w : Nat → Fin (1 + 1) → ℝ) (v : Nat → Fin 1 → ℝ) : sim (duffing 0.3 1 1 (-1) 0.2 0.1 0.1) 10 1 1.5 x0 w v = .error .valueError :=
  C104_mismatch _ _ _ _ one_pos (by norm_num) (by norm_num) (by norm_num) _ _ _

/-- Outputs each 0.15 s with states each 0.1 s are those of earlier states. -/
example : ¬∀ j : Nat, (j : ℝ) * 0.15 = ((j * (pyInt (0.15 / 0.1 : ℝ)).toNat : ℕ) : ℝ) * 0.1 := by
  rw [C104_alignment _ _ (by norm_num) (by norm_num)]
  rintro ⟨m, hm⟩
  have h2 : (2 * m : ℝ) = 3 := by linarith
  have : 2 * m = 3 := by exact_mod_cast h2
  omega

/-- The differences of 0, 1, 4, 9 are 2, 2, 4, 4. -/
example (mem : Nat → ℝ) : cdiff mem [0, 1, 4, 9] 1 = .ok [2, 2, 4, 4] := by
  unfold cdiff
  simp only [List.length, pyIndex, List.range, List.range.loop]
  norm_num [py_bind_ok, py_pure]
  rfl

/-- Seven samples, the last of which is measured, and eight, where it is not. -/
example : (∃ x, guessX ⟨[], [], [], [0, 3, 6], [0, 3, 3], [1, 0, 0], ⟩ [0, 1, 6] = .ok x) ∧
    guessX ⟨[], [], [], [0, 3, 6], [0, 3, 3], [1, 0, 0]⟩ [0, 1, 7] = .error .valueError := by
  have h : ([0, 3, 6] : List ℝ) = (List.range 3).map fun i : Nat => ((3 * i : ℕ) : ℝ) * 1 := by
    simp [List.range, List.range.loop]
    norm_num
  constructor
  · obtain ⟨x1, x2, h1, -⟩ := (C104_guess ⟨[], [], [], [0, 3, 6], [0, 3, 3], [1, 0, 0]⟩ 7 (by norm_num) 1 one_pos h rfl rfl [0, 1, 6] (by
      intro q hq
      simp only [List.mem_cons, List.not_mem_nil, or_false] at hq
      rcases hq with rfl | rfl | rfl <;> norm_num)).1 (by norm_num)
    exact ⟨_, h1⟩
  · exact (C104_guess ⟨[], [], [], [0, 3, 6], [0, 3, 3], [1, 0, 0]⟩ 8 (by norm_num) 1 one_pos h rfl rfl [0, 1, 7] (by
      intro q hq
      simp only [List.mem_cons, List.not_mem_nil, or_false] at hq
      rcases hq with rfl | rfl | rfl <;> norm_num)).2 (by norm_num) (by norm_num)

end Ceacoest.Sim
