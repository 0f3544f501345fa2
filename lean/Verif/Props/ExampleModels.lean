import Verif.Lemmas.ExampleModels

/-! # C109: the remaining optimal control examples as nonlinear programs -/

namespace Ceacoest
open Spec RK Ex

namespace ExModels
open SExpr

macro "ev_model" : tactic => `(tactic| simp only [List.map_cons, List.map_nil, ev_sy, ev_neg, ev_sub, ev_div, ev_sq, ev_cube, ev_rpow, ev_sqrt, ev_const, ev,
  map_ev_const])

theorem orbit_denotes (c : OrbitConsts) : OCDenotes ev (orbit c) (ofUser (orbit c)) 5 3 1 1 3 where
  lenf := fun _ _ _ _ _ _ => rfl
  leng := fun _ _ _ _ _ _ => rfl
  lenh := fun _ _ _ _ => rfl
  f := fun x u p env _ _ _ => by simp only [ofUser, orbit, orbitFE]; ev_model
  L := fun x u p env _ _ _ => by simp only [ofUser, orbit]; ev_model
  M := fun xe p env _ _ => rfl
  g := fun x u p env _ _ _ => by simp only [ofUser, orbit, orbitGE]; ev_model
  h := fun xe p env _ _ => by simp only [ofUser, orbit, orbitSpeedErrorE]; ev_model

theorem orbitFE_defined {c : OrbitConsts} (hc : c.ve ≠ 0) {x u p : List SExpr} {env : Env} (h : ArgsIn orbitRegion.f x u p env) :
    ∀ a ∈ orbitFE c x u p, a.Defined env := by
  obtain ⟨hd, hr, hm⟩ := h
  have hx := def_sy (l := x) (env := env) fun a ha => hd a (by simp [ha])
  have hu := def_sy (l := u) (env := env) fun a ha => hd a (by simp [ha])
  have hp := def_sy (l := p) (env := env) fun a ha => hd a (by simp [ha])
  simp only [orbitFE, List.map_cons, List.map_nil, List.forall_mem_cons, Defined, def_neg, def_div, def_sq, def_rpow, hx, hu, hp, ev_rpow, ev_sq, ev_sy, ev,
    true_and, and_true, List.not_mem_nil, false_imp_iff, implies_true, hr, hm, hc, ne_eq, not_false_eq_true, Real.exp_ne_zero]

theorem orbitSpeedErrorE_defined {c : OrbitConsts} {xe : List SExpr} {env : Env} (hd : ∀ a ∈ xe, a.Defined env)
    (h : orbitRegion.h (xe.map (ev · env))) : (orbitSpeedErrorE c xe).Defined env := by
  have hx := def_sy hd
  change 0 < _ at h
  simp only [orbitSpeedErrorE, Defined, def_sub, def_sqrt, def_sq, hx, ev, ev_sq, ev_sy, h, and_self]

theorem orbitGE_defined {u : List SExpr} {env : Env} (hd : ∀ a ∈ u, a.Defined env) : ∀ a ∈ orbitGE u, a.Defined env := by
  have hu := def_sy hd
  simp only [orbitGE, List.forall_mem_cons, Defined, def_sub, def_sq, hu, and_self, List.not_mem_nil, false_imp_iff, implies_true]

theorem orbit_defined {c : OrbitConsts} (hv : c.ve ≠ 0) (hR : c.Rfinal ≠ 0) : OCDefinedOn (orbit c) (domainOf orbitRegion) where
  f := fun x u p env h => orbitFE_defined hv h
  L := fun x u p env ⟨hd, _⟩ => by
    have hu := def_sy (l := u) (env := env) fun a ha => hd a (by simp [ha])
    have hp := def_sy (l := p) (env := env) fun a ha => hd a (by simp [ha])
    simp only [orbit, Defined, hu, hp, and_self]
  M := fun xe p env _ => trivial
  g := fun x u p env ⟨hd, _⟩ => orbitGE_defined fun a ha => hd a (by simp [ha])
  h := fun xe p env ⟨hd, h⟩ => by
    have hx := def_sy (l := xe) (env := env) fun a ha => hd a (by simp [ha])
    have hs := orbitSpeedErrorE_defined (c := c) (fun a ha => hd a (by simp [ha])) h
    simp only [orbit, List.forall_mem_cons, Defined, def_sub, def_div, def_sq, hx, hs, ev_sq, ev, ne_eq, pow_eq_zero_iff, hR, not_false_eq_true, OfNat.ofNat_ne_zero, and_self,
      List.not_mem_nil, false_imp_iff, implies_true]

theorem orbitFE_agrees (c : OrbitConsts) (x u p : List ℝ) (h : orbitRegion.f x u p) :
    (orbitFE c (x.map const) (u.map const) (p.map const)).map (ev · fun _ _ => 0) = List.ofFn (orbitF c (vec 5 x) (vec 3 u) (p.getD 0 0)) := by
  simp only [orbitFE]
  ev_model
  rw [exp_mul_log h.1]
  rfl

theorem orbit_agrees (c : OrbitConsts) : AgreesOn (orbit c) (orbitFunctions c) orbitRegion where
  f := fun x u p h => orbitFE_agrees c x u p h
  L := fun x u p => by simp only [ofUser, orbit]; ev_model; rfl
  M := fun xe p => rfl
  g := fun x u p _ => by simp only [ofUser, orbit, orbitGE]; ev_model; rfl
  h := fun xe p h => by
    simp only [ofUser, orbit, orbitSpeedErrorE]
    ev_model
    rw [exp_half_log h]
    rfl

theorem orbitVars_ok : ColVars orbitVars ["X", "Y", "vx", "vy", "m"] ["T", "Txn", "Tyn"] ["tf"] where
  keys := by decide
  x := rfl
  u := Or.inl rfl
  p := Or.inl rfl
  pieceLen := fun v h => by cases h

/-- **C109**, circular_orbit.py. -/
theorem C109_orbit {c : OrbitConsts} (hv : c.ve ≠ 0) (hR : c.Rfinal ≠ 0) : TranscribedOn (orbit c) orbitVars (orbitFunctions c) orbitRegion 1 5 3 1 :=
  isTranscription (xn := ["X", "Y", "vx", "vy", "m"]) (un := ["T", "Txn", "Tyn"]) (pn := ["tf"]) (orbit_denotes c) (orbit_defined hv hR) (orbit_agrees c) rfl (le_refl 1) orbitVars_ok

/-- **C109** (shuttle, heating). With the constants of the script, whose angles are in degrees: the heating at an angle of attack of `a` degrees, and it falls with the angle, whatever the
height and speed. -/
theorem C109_heating {d2r : ℝ} (hd : d2r ≠ 0) (c : Ex.ShuttleConsts) (h v : ℝ) :
    (∀ a, Ex.shuttleG c (heatConsts d2r) h v (a * d2r) =
      (1.0672181 - 0.019213774 * a + 0.00021286289 * a ^ 2 - 0.0000010117249 * a ^ 3) * (17700 * √(c.rho0 * Real.exp (-h / c.hr)) * (v / 10000) ^ (3.07 : ℝ)) / 70) ∧
    (0 < c.rho0 → 0 < v → StrictAnti fun a => Ex.shuttleG c (heatConsts d2r) h v (a * d2r)) := by
  have key : ∀ a, Ex.shuttleG c (heatConsts d2r) h v (a * d2r) =
      (1.0672181 - 0.019213774 * a + 0.00021286289 * a ^ 2 - 0.0000010117249 * a ^ 3) * (17700 * √(c.rho0 * Real.exp (-h / c.hr)) * (v / 10000) ^ (3.07 : ℝ)) / 70 := fun a => by
    have e1 : (1 / d2r) * (a * d2r) = a := by field_simp
    have e2 : (0.0001 : ℝ) * v = v / 10000 := by ring
    simp only [Ex.shuttleG, heatConsts]
    rw [e2]
    congr 2
    have e3 : ∀ r : ℝ, r * (1 / d2r) * (a * d2r) = r * a := fun r => by rw [mul_assoc, e1]
    have e4 : ∀ (r : ℝ) (n : Nat), r * (1 / d2r) ^ n * (a * d2r) ^ n = r * a ^ n := fun r n => by rw [mul_assoc, ← mul_pow, e1]
    rw [e3, e4, e4]
    norm_num
    ring
  refine ⟨key, fun hr hv a b hab => ?_⟩
  simp only [key]
  have hq : 0 < 17700 * √(c.rho0 * Real.exp (-h / c.hr)) * (v / 10000) ^ (3.07 : ℝ) := by positivity
  refine div_lt_div_of_pos_right (mul_lt_mul_of_pos_right ?_ hq) (by norm_num)
  have h1 : 0 < (0.019213774 : ℝ) - 0.00021286289 * (a + b) + 0.0000010117249 * (a ^ 2 + a * b + b ^ 2) := by
    nlinarith [sq_nonneg (a - b), sq_nonneg (a + b - 140)]
  nlinarith [mul_pos (sub_pos.2 hab) h1]

/-- **C109** (orbit, constants). The constants of the script are as the theorems above need them, and the final orbit is outside of the initial one. -/
theorem C109_orbit_constants : TranscribedOn (orbit orbitConsts) orbitVars (orbitFunctions orbitConsts) orbitRegion 1 5 3 1 ∧ 1 < orbitConsts.Rfinal ∧ 0 < orbitConsts.mu ∧
    0 < orbitConsts.Tmax :=
  ⟨C109_orbit (by norm_num [orbitConsts]) (by norm_num [orbitConsts]), by norm_num [orbitConsts], by norm_num [orbitConsts], by norm_num [orbitConsts]⟩

theorem orbitMinTime_denotes (c : OrbitConsts) : OCDenotes ev (orbitMinTime c) (ofUser (orbitMinTime c)) 5 3 1 1 3 where
  lenf := fun _ _ _ _ _ _ => rfl
  leng := fun _ _ _ _ _ _ => rfl
  lenh := fun _ _ _ _ => rfl
  f := fun x u p env _ _ _ => by simp only [ofUser, orbitMinTime, orbitFE]; ev_model
  L := fun x u p env _ _ _ => rfl
  M := fun xe p env _ _ => by simp only [ofUser, orbitMinTime]; ev_model
  g := fun x u p env _ _ _ => by simp only [ofUser, orbitMinTime, orbitGE]; ev_model
  h := fun xe p env _ _ => by simp only [ofUser, orbitMinTime, orbitSpeedErrorE]; ev_model

theorem orbitMinTime_defined {c : OrbitConsts} (hv : c.ve ≠ 0) (hR : c.Rfinal ≠ 0) : OCDefinedOn (orbitMinTime c) (domainOf orbitRegion) where
  f := fun x u p env h => orbitFE_defined hv h
  L := fun x u p env _ => trivial
  M := fun xe p env ⟨hd, _⟩ => def_sy (l := p) (env := env) (fun a ha => hd a (by simp [ha])) 0
  g := fun x u p env ⟨hd, _⟩ => orbitGE_defined fun a ha => hd a (by simp [ha])
  h := fun xe p env ⟨hd, h⟩ => by
    have hx := def_sy (l := xe) (env := env) fun a ha => hd a (by simp [ha])
    have hs := orbitSpeedErrorE_defined (c := c) (fun a ha => hd a (by simp [ha])) h
    simp only [orbitMinTime, List.forall_mem_cons, Defined, def_sub, def_div, def_sq, hx, hs, ev, ne_eq, hR, not_false_eq_true, and_self,
      List.not_mem_nil, false_imp_iff, implies_true]

theorem orbitMinTime_agrees (c : OrbitConsts) : AgreesOn (orbitMinTime c) (orbitMinTimeFunctions c) orbitRegion where
  f := fun x u p h => orbitFE_agrees c x u p h
  L := fun x u p => rfl
  M := fun xe p => by simp only [ofUser, orbitMinTime]; ev_model; rfl
  g := fun x u p _ => by simp only [ofUser, orbitMinTime, orbitGE]; ev_model; rfl
  h := fun xe p h => by
    simp only [ofUser, orbitMinTime, orbitSpeedErrorE]
    ev_model
    rw [exp_half_log h]
    rfl

/-- **C109**, circular_orbit_min_time.py. -/
theorem C109_orbit_min_time {c : OrbitConsts} (hv : c.ve ≠ 0) (hR : c.Rfinal ≠ 0) :
    TranscribedOn (orbitMinTime c) orbitVars (orbitMinTimeFunctions c) orbitRegion 1 5 3 1 :=
  isTranscription (xn := ["X", "Y", "vx", "vy", "m"]) (un := ["T", "Txn", "Tyn"]) (pn := ["tf"]) (orbitMinTime_denotes c) (orbitMinTime_defined hv hR)
    (orbitMinTime_agrees c) rfl (le_refl 1) orbitVars_ok

/-- The initial state of the two scripts is in the region; the orders of the arguments may be those of Pendulum. -/
example : orbitRegion.f [1, 0, 0, 1, 1] [1, 0, 1] [5] ∧ OrdersOK Pendulum.iter ocWrt := ⟨by norm_num [orbitRegion], Pendulum.iter_ok⟩

/-! ### The free flying robot -/

/-- Everything. -/
def everywhere : OCRegion := ⟨fun _ _ _ => True, fun _ _ _ => True, fun _ => True⟩

theorem robot_denotes : OCDenotes ev robot (ofUser robot) 6 4 0 2 0 where
  lenf := fun _ _ _ _ _ _ => rfl
  leng := fun _ _ _ _ _ _ => rfl
  lenh := fun _ _ _ _ => rfl
  f := fun x u p env _ _ _ => by simp only [ofUser, robot]; ev_model
  L := fun x u p env _ _ _ => by simp only [ofUser, robot]; ev_model
  M := fun xe p env _ _ => rfl
  g := fun x u p env _ _ _ => by simp only [ofUser, robot]; ev_model
  h := fun xe p env _ _ => rfl

theorem robot_defined : OCDefinedOn robot (domainOf everywhere) where
  f := fun x u p env ⟨hd, _⟩ => by
    have hx := def_sy (l := x) (env := env) fun a ha => hd a (by simp [ha])
    have hu := def_sy (l := u) (env := env) fun a ha => hd a (by simp [ha])
    simp only [robot, List.forall_mem_cons, Defined, def_sub, hx, hu, and_self, List.not_mem_nil, false_imp_iff, implies_true]
  L := fun x u p env ⟨hd, _⟩ => by
    have hu := def_sy (l := u) (env := env) fun a ha => hd a (by simp [ha])
    simp only [robot, Defined, hu, and_self]
  M := fun xe p env _ => trivial
  g := fun x u p env ⟨hd, _⟩ => by
    have hu := def_sy (l := u) (env := env) fun a ha => hd a (by simp [ha])
    simp only [robot, List.forall_mem_cons, Defined, hu, and_self, List.not_mem_nil, false_imp_iff, implies_true]
  h := fun xe p env _ a ha => by cases ha

theorem robot_agrees : AgreesOn robot robotFunctions everywhere where
  f := fun x u p _ => by simp only [ofUser, robot]; ev_model; rfl
  L := fun x u p => by simp only [ofUser, robot]; ev_model; rfl
  M := fun xe p => rfl
  g := fun x u p _ => by simp only [ofUser, robot]; ev_model; rfl
  h := fun xe p _ => rfl

theorem robotVars_ok : ColVars robotVars ["x1", "x2", "theta", "v1", "v2", "omega"] ["u1", "u2", "u3", "u4"] [] where
  keys := by decide
  x := rfl
  u := Or.inl rfl
  p := Or.inl rfl
  pieceLen := fun v h => by cases h

/-- **C109**, free_flying_robot.py: everywhere. -/
theorem C109_robot : TranscribedOn robot robotVars robotFunctions everywhere 1 6 4 0 :=
  isTranscription (xn := ["x1", "x2", "theta", "v1", "v2", "omega"]) (un := ["u1", "u2", "u3", "u4"]) (pn := []) robot_denotes robot_defined robot_agrees rfl (le_refl 1) robotVars_ok

/-! ### The hang glider -/

theorem glider_denotes (c : GliderConsts) : OCDenotes ev (glider c) (ofUser (glider c)) 4 1 1 1 0 where
  lenf := fun _ _ _ _ _ _ => rfl
  leng := fun _ _ _ _ _ _ => rfl
  lenh := fun _ _ _ _ => rfl
  f := fun x u p env _ _ _ => by simp only [ofUser, glider]; ev_model
  L := fun x u p env _ _ _ => rfl
  M := fun xe p env _ _ => by simp only [ofUser, glider]; ev_model
  g := fun x u p env _ _ _ => by simp only [ofUser, glider]; ev_model
  h := fun xe p env _ _ => rfl

theorem glider_defined {c : GliderConsts} (hm : c.m ≠ 0) (hR : c.R ≠ 0) : OCDefinedOn (glider c) (domainOf (gliderRegion c)) where
  f := fun x u p env ⟨hd, h⟩ => by
    have hx := def_sy (l := x) (env := env) fun a ha => hd a (by simp [ha])
    have hu := def_sy (l := u) (env := env) fun a ha => hd a (by simp [ha])
    have hp := def_sy (l := p) (env := env) fun a ha => hd a (by simp [ha])
    have h : 0 < (x.map (ev · env)).getD 2 0 ^ 2 + ((x.map (ev · env)).getD 3 0 - c.uM * (1 - ((x.map (ev · env)).getD 0 0 / c.R - 2.5) ^ 2) *
      Real.exp (-((x.map (ev · env)).getD 0 0 / c.R - 2.5) ^ 2)) := h
    simp only [glider, List.map_cons, List.map_nil, List.forall_mem_cons, Defined, def_neg, def_sub, def_div, def_sq, def_sqrt, hx, hu, hp, ev_sqrt, ev_sq, ev_sub, ev_neg, ev_div, ev_sy, ev,
      true_and, and_true, List.not_mem_nil, false_imp_iff, implies_true, hm, hR, ne_eq, not_false_eq_true, Real.exp_ne_zero, h]
  L := fun x u p env _ => trivial
  M := fun xe p env ⟨hd, _⟩ => def_sy (l := xe) (env := env) (fun a ha => hd a (by simp [ha])) 4
  g := fun x u p env ⟨hd, _⟩ => by
    have hx := def_sy (l := x) (env := env) fun a ha => hd a (by simp [ha])
    simp only [glider, List.forall_mem_cons, Defined, def_sq, hx, and_self, List.not_mem_nil, false_imp_iff, implies_true]
  h := fun xe p env _ a ha => by cases ha

theorem glider_agrees (c : GliderConsts) : AgreesOn (glider c) (gliderFunctions c) (gliderRegion c) where
  f := fun x u p h => by
    have h' : ¬ vec 4 x 2 ^ 2 + (vec 4 x 3 - gliderUa c (vec 4 x 0)) < 0 := not_lt.2 (le_of_lt h)
    simp only [ofUser, glider, gliderFunctions, gliderF, if_neg h', Option.getD_some]
    ev_model
    have h : 0 < x.getD 2 0 ^ 2 + (x.getD 3 0 - c.uM * (1 - (x.getD 0 0 / c.R - 2.5) ^ 2) * Real.exp (-(x.getD 0 0 / c.R - 2.5) ^ 2)) := h
    rw [exp_half_log h]
    rfl
  L := fun x u p => rfl
  M := fun xe p => by simp only [ofUser, glider]; ev_model; rfl
  g := fun x u p _ => by simp only [ofUser, glider]; ev_model; rfl
  h := fun xe p _ => rfl

theorem gliderVars_ok : ColVars gliderVars ["X", "y", "vx", "vy"] ["CL"] ["tf"] where
  keys := by decide
  x := rfl
  u := Or.inl rfl
  p := Or.inl rfl
  pieceLen := fun v h => by cases h

/-- **C109**, hang_glider.py. -/
theorem C109_glider {c : GliderConsts} (hm : c.m ≠ 0) (hR : c.R ≠ 0) : TranscribedOn (glider c) gliderVars (gliderFunctions c) (gliderRegion c) 2 4 1 1 :=
  isTranscription (xn := ["X", "y", "vx", "vy"]) (un := ["CL"]) (pn := ["tf"]) (glider_denotes c) (glider_defined hm hR) (glider_agrees c) rfl (by decide) gliderVars_ok

/-- The initial state of hang_glider.py:95-102 is in the region. -/
example : (gliderRegion gliderConsts).f [0, 1000, 13.2, -1.3] [1] [100] := by
  have h : gliderUa gliderConsts 0 ≤ 0 := by
    simp only [gliderUa, gliderConsts]
    exact mul_nonpos_of_nonpos_of_nonneg (by norm_num) (Real.exp_pos _).le
  simp only [gliderRegion, List.getD_cons_zero, List.getD_cons_succ]
  norm_num
  linarith

/-! ### The shuttle -/

theorem shuttle_denotes (c : ShuttleConsts) (k : HeatConsts) : OCDenotes ev (shuttle c k) (ofUser (shuttle c k)) 6 2 1 1 0 where
  lenf := fun _ _ _ _ _ _ => rfl
  leng := fun _ _ _ _ _ _ => rfl
  lenh := fun _ _ _ _ => rfl
  f := fun x u p env _ _ _ => by simp only [ofUser, shuttle]; ev_model
  L := fun x u p env _ _ _ => rfl
  M := fun xe p env _ _ => by simp only [ofUser, shuttle]; ev_model
  g := fun x u p env _ _ _ => by simp only [ofUser, shuttle]; ev_model
  h := fun xe p env _ _ => rfl

theorem shuttle_defined {c : ShuttleConsts} {k : HeatConsts} (hm : c.m ≠ 0) (hr : c.hr ≠ 0) (h0 : 0 < c.rho0) (hq : k.qU ≠ 0) :
    OCDefinedOn (shuttle c k) (domainOf (shuttleRegion c)) where
  f := fun x u p env ⟨hd, h1, h2, h3, h4⟩ => by
    have hx := def_sy (l := x) (env := env) fun a ha => hd a (by simp [ha])
    have hu := def_sy (l := u) (env := env) fun a ha => hd a (by simp [ha])
    have hp := def_sy (l := p) (env := env) fun a ha => hd a (by simp [ha])
    have h3 := ne_of_gt h3
    simp only [shuttle, List.map_cons, List.map_nil, List.forall_mem_cons, Defined, def_neg, def_sub, def_div, def_sq, hx, hu, hp, ev_sq, ev_sub, ev_neg, ev_div, ev_sy, ev,
      true_and, and_true, List.not_mem_nil, false_imp_iff, implies_true, hm, hr, ne_eq, not_false_eq_true, mul_eq_zero, pow_eq_zero_iff, OfNat.ofNat_ne_zero, h1, h2, h3, h4, or_self]
  L := fun x u p env _ => trivial
  M := fun xe p env ⟨hd, _⟩ => def_sy (l := xe) (env := env) (fun a ha => hd a (by simp [ha])) 8
  g := fun x u p env ⟨hd, h⟩ => by
    have hx := def_sy (l := x) (env := env) fun a ha => hd a (by simp [ha])
    have hu := def_sy (l := u) (env := env) fun a ha => hd a (by simp [ha])
    have h : 0 < (x.map (ev · env)).getD 3 0 := h
    have h1 : 0 < (0.0001 : ℝ) * (x.map (ev · env)).getD 3 0 := by positivity
    have h2 : 0 < c.rho0 * Real.exp (-(x.map (ev · env)).getD 0 0 / c.hr) := by positivity
    simp only [shuttle, List.forall_mem_cons, Defined, def_neg, def_div, def_sq, def_cube, def_sqrt, def_rpow, hx, hu, ev_neg, ev_div, ev_sy, ev, hr, hq, ne_eq, not_false_eq_true, h1, h2, and_self, List.not_mem_nil, false_imp_iff, implies_true]
  h := fun xe p env _ a ha => by cases ha

theorem shuttle_agrees {c : ShuttleConsts} {k : HeatConsts} (h0 : 0 < c.rho0) : AgreesOn (shuttle c k) (shuttleFunctions c k) (shuttleRegion c) where
  f := fun x u p _ => by
    simp only [ofUser, shuttle]
    ev_model
    rfl
  L := fun x u p => rfl
  M := fun xe p => by simp only [ofUser, shuttle]; ev_model; rfl
  g := fun x u p h => by
    simp only [ofUser, shuttle]
    ev_model
    have h : 0 < x.getD 3 0 := h
    rw [exp_mul_log (show 0 < (0.0001 : ℝ) * x.getD 3 0 by positivity), exp_half_log (by positivity)]
    rfl
  h := fun xe p _ => rfl

theorem shuttleVars_ok : ColVars shuttleVars ["h", "phi", "theta", "v", "gamma", "psi"] ["alpha", "beta"] ["tf"] where
  keys := by decide
  x := rfl
  u := Or.inl rfl
  p := Or.inl rfl
  pieceLen := fun v h => by cases h

/-- **C109**, shuttle_reentry.py. -/
theorem C109_shuttle {c : ShuttleConsts} {k : HeatConsts} (hm : c.m ≠ 0) (hr : c.hr ≠ 0) (h0 : 0 < c.rho0) (hq : k.qU ≠ 0) :
    TranscribedOn (shuttle c k) shuttleVars (shuttleFunctions c k) (shuttleRegion c) 2 6 2 1 :=
  isTranscription (xn := ["h", "phi", "theta", "v", "gamma", "psi"]) (un := ["alpha", "beta"]) (pn := ["tf"]) (shuttle_denotes c k) (shuttle_defined hm hr h0 hq)
    (shuttle_agrees h0) rfl (by decide) shuttleVars_ok

end ExModels
end Ceacoest
