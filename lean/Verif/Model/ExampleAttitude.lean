import Verif.Model.ExamplePem
import Verif.Model.ExamplePhysics

/-!
# `examples/attitude.py`

States `ax ay az p q r phi theta psi`; measurements in the same order, with the magnetic field for the angles; parameters
`magex magez maghx maghy maghz pbias qbias rbias accel_png omega_png`. Simplification: division by zero gives zero, so that nothing is said here about vertical attitudes.
-/

namespace Ceacoest.Pem
open Matrix

/-- attitude.py:38-41, the constants `c`. -/
structure AttitudeConsts where
  g0 : ℝ
  x0 : Fin 9 → ℝ
  x0_std : Fin 9 → ℝ
  omega_mng : ℝ
  mag_mng : ℝ
  accel_mng : ℝ

/-- The angles `phi theta psi` of a state. -/
def anglesOf (x : Fin 9 → ℝ) : Fin 3 → ℝ := ![x 6, x 7, x 8]

/-- attitude.py:14-125 `SymbolicModel`. -/
noncomputable def attitude (c : AttitudeConsts) : SDE 9 6 9 10 where
  f _ _ x :=
    let r := Ex.attitudeRates (anglesOf x) ![x 3, x 4, x 5]
    ![0, 0, 0, 0, 0, 0, r 0, r 1, r 2]
  g q _ _ := of fun i j => if i.val = j.val then (if j.val < 3 then q 8 else q 9) else 0
  h q _ x :=
    let mag := Ex.attitudeMag (anglesOf x) (q 0) (q 1) ![q 2, q 3, q 4]
    let acc := Ex.attitudeAccel (anglesOf x) ![x 0, x 1, x 2] c.g0
    ![acc 0, acc 1, acc 2, x 3 + q 5, x 4 + q 6, x 5 + q 7, mag 0, mag 1, mag 2]
  R _ := diagonal ![c.accel_mng ^ 2, c.accel_mng ^ 2, c.accel_mng ^ 2, c.omega_mng ^ 2, c.omega_mng ^ 2, c.omega_mng ^ 2, c.mag_mng ^ 2, c.mag_mng ^ 2, c.mag_mng ^ 2]
  x0 _ := c.x0
  Px0 _ := diagonal fun i => c.x0_std i ^ 2

end Ceacoest.Pem
