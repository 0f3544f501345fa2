import Verif.Model.ExampleAttitude
import Verif.Model.ExampleOld

/-!
# The script of `examples/attitude.py`: simulate, estimate the parameters, smooth

The random numbers, the coefficients of the Butterworth filter, the integrator `odeint` and the solver are arguments. Simplifications: exact arithmetic; with fewer than two samples
`interp1d` is taken to raise ValueError (whether it does for one sample depends on the version of scipy).
-/

namespace Ceacoest.Pem
open SymSDE Matrix Sim

/-- `np.cumsum` of the first `n` numbers. -/
def cumsum (r : Nat → ℝ) (n : Nat) : List ℝ := (List.range n).map fun k => ∑ j ∈ Finset.range (k + 1), r j

/-- attitude.py:180 `[b, a] = signal.butter(2, 0.05)`: three coefficients each. -/
structure Biquad where
  b0 : ℝ
  b1 : ℝ
  b2 : ℝ
  a0 : ℝ
  a1 : ℝ
  a2 : ℝ

/-- `signal.lfilter(b, a, x)`, which scipy computes in transposed direct form with coefficients divided by `a[0]`, from the delays `z`. -/
noncomputable def lfilterFrom (c : Biquad) (z : ℝ × ℝ) : List ℝ → List ℝ
  | [] => []
  | x :: xs =>
    let y := c.b0 / c.a0 * x + z.1
    y :: lfilterFrom c (c.b1 / c.a0 * x - c.a1 / c.a0 * y + z.2, c.b2 / c.a0 * x - c.a2 / c.a0 * y) xs

/-- `signal.lfilter(b, a, x)`: the delays are zero in the beginning. -/
noncomputable def lfilter (c : Biquad) (x : List ℝ) : List ℝ := lfilterFrom c (0, 0) x

open Classical in
/-- `interpolate.interp1d(t, y, fill_value='extrapolate')(s)`: linear between the two samples around `s`, or between the first or last two. -/
noncomputable def interp1d (t y : List ℝ) (s : ℝ) : ℝ :=
  let i := min (max (t.countP (fun u => decide (u < s))) 1) (t.length - 1)
  let slope := (y.getD i 0 - y.getD (i - 1) 0) / (t.getD i 0 - t.getD (i - 1) 0)
  slope * (s - t.getD (i - 1) 0) + y.getD (i - 1) 0

/-- attitude.py:189-201 `odefun` (and `omega_int`). -/
noncomputable def odefun (t : List ℝ) (omega : Fin 3 → List ℝ) (angles : Fin 3 → ℝ) (s : ℝ) : Fin 3 → ℝ :=
  let phi := angles 0
  let theta := angles 1
  let p := interp1d t (omega 0) s
  let q := interp1d t (omega 1) s
  let r := interp1d t (omega 2) s
  let cphi := Real.cos phi
  let sphi := Real.sin phi
  let cth := Real.cos theta
  let tth := Real.tan theta
  ![p + tth * (sphi * q + cphi * r), cphi * q - sphi * r, sphi / cth * q + cphi / cth * r]

/-- attitude.py:222: all outputs of each row with an odd number are masked. -/
def maskOdd {ny : Nat} (y : List (Fin ny → ℝ)) : List (MaskedRow (Fin ny)) := (List.range y.length).map fun j => ⟨y.getD j 0, fun _ => decide (j % 2 ≠ 0)⟩

/-- The type of `integrate.odeint`: the derivative, the initial value and the times. -/
abbrev Odeint := ((Fin 3 → ℝ) → ℝ → Fin 3 → ℝ) → (Fin 3 → ℝ) → List ℝ → List (Fin 3 → ℝ)

/-- attitude.py:183-186: one row of `omega` or `accel`. -/
noncomputable def smoothNoise (c : Biquad) (dt gain : ℝ) (r : Nat → ℝ) (n : Nat) : List ℝ := lfilter c ((cumsum r n).map (Real.sqrt dt * gain * ·))

/-- attitude.py:170-224 `sim`; `rw` and `ra` are the random numbers of `omega_seed` and `accel_seed`. -/
noncomputable def simAttitude (odeint : Odeint) (b : Biquad) (c : AttitudeConsts) (q : Fin 10 → ℝ) (accel_png omega_png tf dt : ℝ) (rw ra : Fin 3 → Nat → ℝ) (v : Nat → Fin 9 → ℝ) :
    Py (OldData 9 9) := do
  if dt = 0 then throw .zeroDivisionError
  let N := pyInt (tf / dt)
  let t := times N dt
  let _ ← draws (fun _ => ()) N
  let omega := fun i => smoothNoise b dt omega_png (rw i) N.toNat
  let accel := fun i => smoothNoise b dt accel_png (ra i) N.toNat
  if N < 2 then throw .valueError
  let angles := odeint (odefun t omega) 0 t
  if angles.length ≠ N.toNat then throw .valueError
  let x := (List.range N.toNat).map fun k => ![(accel 0).getD k 0, (accel 1).getD k 0, (accel 2).getD k 0, (omega 0).getD k 0, (omega 1).getD k 0, (omega 2).getD k 0,
    angles.getD k 0 0, angles.getD k 0 1, angles.getD k 0 2]
  let v ← draws v N
  let y ← addRows ((List.range N.toNat).map fun k : Nat => SymSDE.h ((attitude c).at q) dt k (x.getD k 0)) v
  return ⟨t, x, maskOdd y⟩

/-- attitude.py:33-35 -/
def attitudeQ : List String := ["magex", "magez", "maghx", "maghy", "maghz", "pbias", "qbias", "rbias", "accel_png", "omega_png"]

/-- attitude.py:38-41 -/
def attitudeC : List String := ["g0", "ax0", "ay0", "az0", "p0", "q0", "r0", "phi0", "theta0", "psi0", "ax0_std", "ay0_std", "az0_std", "p0_std", "q0_std", "r0_std",
  "phi0_std", "theta0_std", "psi0_std", "omega_mng", "mag_mng", "accel_mng"]

/-- The constants of the model, from the vector `c` (attitude.py:97-125 for where they are used). -/
noncomputable def AttitudeConsts.ofList (c : List ℝ) : AttitudeConsts where
  g0 := c.getD 0 0
  x0 i := c.getD (1 + i) 0
  x0_std i := c.getD (10 + i) 0
  omega_mng := c.getD 19 0
  mag_mng := c.getD 20 0
  accel_mng := c.getD 21 0

/-- attitude.py:205-214 `nominal`, with 181-182. -/
noncomputable def nominal : List (String × ℝ) := [("g0", 9.80665), ("accel_png", 0.1), ("omega_png", 0.01), ("accel_mng", 0.5), ("omega_mng", 0.01), ("mag_mng", 1e-6),
  ("magex", 18.982e-6), ("magez", -13.6305e-6), ("maghx", 1e-6), ("maghy", -1e-6), ("maghz", 0), ("pbias", 0.02), ("qbias", -0.02), ("rbias", 0),
  ("ax0_std", 1), ("ay0_std", 1), ("az0_std", 1), ("p0_std", 0.1), ("q0_std", 0.1), ("r0_std", 0.1), ("phi0_std", 0.1), ("theta0_std", 0.1), ("psi0_std", 0.1)]

/-- attitude.py:259-261 `guess` -/
noncomputable def attitudeGuess : List (String × ℝ) := [("magex", 18.982e-6), ("magez", -13.6305e-6), ("accel_png", 0.1), ("omega_png", 0.01), ("accel_mng", 0.5), ("omega_mng", 0.01),
  ("mag_mng", 1e-6)]

/-- attitude.py:244-249 `q_bounds` -/
noncomputable def attitudeBounds : List EReal × List EReal :=
  let qLb : List (String × EReal) := [("accel_png", ((1e-4 : ℝ) : EReal)), ("omega_png", ((1e-4 : ℝ) : EReal)), ("accel_mng", 0), ("omega_mng", 0), ("mag_mng", 0)]
  (pack attitudeQ qLb ⊥, pack attitudeQ [] ⊤)

/-- attitude.py:227-269: `pem` and the script. -/
noncomputable def mainAttitude (solve : ((Fin 10 → ℝ) → Py ℝ) → ((Fin 10 → ℝ) → Py (Fin 10 → ℝ)) → ((Fin 10 → ℝ) → ℝ → Py (List ℝ)) → (Fin 10 → ℝ) → Py (Fin 10 → ℝ))
    (odeint : Odeint) (b : Biquad) (c : AttitudeConsts) (q q0 : Fin 10 → ℝ) (accel_png omega_png tf dt : ℝ) (rw ra : Fin 3 → Nat → ℝ) (v : Nat → Fin 9 → ℝ) : Py (OldResults 9 9 10) := do
  let d ← simAttitude odeint b c q accel_png omega_png tf dt rw ra v
  let qopt ← solve (merit (attitude c) dt d.y) (grad (attitude c) dt d.y) (hess (attitude c) dt d.y) q0
  let ut ← UT.init 9 .cholesky 0
  let (sm, _) ← (UKF.cls ut ut (ito (attitude c) dt qopt)).smooth d.y ⟨start (attitude c) qopt, none, .never⟩
  return ⟨d, qopt, sm⟩

end Ceacoest.Pem
