import Verif.Model.ExampleModels
import Verif.Model.Examples

/-!
# `examples/hfb320_long_oem.py`

The output error model of the HFB-320 aircraft as symbolic methods in the language `SExpr`, as a class derived from `symoem.Model`, since the decorator
`symoem.collocate` does not exist at this commit. The constants that the example keeps in `self` are numbers here. The measurements are not masked.
-/

namespace Ceacoest
namespace ExModels
open Spec Spec.SExpr Ex

/-- hfb320_long_oem.py:61-65, 80-84: dynamic pressure and the coefficients of drag, lift and pitching moment. -/
noncomputable def hfbCoeffs (c : HFBConsts) (x u p : List SExpr) : SExpr × SExpr × SExpr × SExpr :=
  let V := sy x 0
  let alpha := sy x 1
  let q := sy x 3
  let qbar := mul (mul (const 0.5) (const c.rho)) (sq V)
  let qhat := div (mul (const c.cbarH) q) (const c.V0)
  let CD := add (add (sy p 0) (div (mul (sy p 1) V) (const c.V0))) (mul (sy p 2) alpha)
  let CL := add (add (sy p 3) (div (mul (sy p 4) V) (const c.V0))) (mul (sy p 5) alpha)
  let Cm := add (add (add (add (sy p 6) (div (mul (sy p 7) V) (const c.V0))) (mul (sy p 8) alpha)) (mul (sy p 9) qhat)) (mul (sy p 10) (sy u 0))
  (qbar, CD, CL, Cm)

/-- hfb320_long_oem.py:56-72 `f`. -/
noncomputable def hfbFE (c : HFBConsts) (x u p : List SExpr) : List SExpr :=
  let V := sy x 0
  let alpha := sy x 1
  let theta := sy x 2
  let q := sy x 3
  let T := sy u 1
  let (qbar, CD, CL, Cm) := hfbCoeffs c x u p
  let gamma := sub theta alpha
  let Vd := sub (add (mul (mul (neg (const c.Sbym)) qbar) CD) (div (mul T (cos (add alpha (const c.sigmaT)))) (const c.mass)))
    (mul (const c.g0) (sin gamma))
  let alphad := add (add (sub (mul (div (mul (neg (const c.Sbym)) qbar) V) CL) (div (mul T (sin (add alpha (const c.sigmaT)))) (mul (const c.mass) V)))
    (div (mul (const c.g0) (cos gamma)) V)) q
  let qd := add (mul (mul (const c.ScbyIy) qbar) Cm) (mul T (const c.FEIYLT))
  [Vd, alphad, q, qd]

/-- hfb320_long_oem.py:77-93: the means of the seven densities, in the order of lines 46-47. -/
noncomputable def hfbOutputsE (c : HFBConsts) (x u p : List SExpr) : List SExpr :=
  let T := sy u 1
  let (qbar, CD, CL, Cm) := hfbCoeffs c x u p
  let salpha := sin (sy x 1)
  let calpha := cos (sy x 1)
  let CX := sub (mul CL salpha) (mul CD calpha)
  let CZ := sub (mul (neg CL) calpha) (mul CD salpha)
  let qdot := add (add (mul (mul (const c.ScbyIy) qbar) Cm) (mul T (const c.FEIYLT))) (sy p 12)
  let ax := add (add (mul (mul (const c.Sbym) qbar) CX) (div (mul T (cos (const c.sigmaT))) (const c.mass))) (sy p 13)
  let az := add (sub (mul (mul (const c.Sbym) qbar) CZ) (div (mul T (sin (const c.sigmaT))) (const c.mass))) (sy p 14)
  [sy x 0, sy x 1, sy x 2, add (sy x 3) (sy p 11), qdot, ax, az]

/-- hfb320_long_oem.py:27-102 `HFB320Long`. -/
noncomputable def hfb (c : HFBConsts) : OEMUser SExpr where
  order := 3
  f := hfbFE c
  L y x u p :=
    let m := hfbOutputsE c x u p
    let term (j : Nat) := normalLogpdf1Expr (sy y j) (sy m j) (sy p (15 + j))
    add (add (add (add (add (add (term 0) (term 1)) (term 2)) (term 3)) (term 4)) (term 5)) (term 6)

/-- hfb320_long_oem.py:35-41, the parameters. -/
def hfbParams : List String :=
  ["CD0", "CDV", "CDa", "CL0", "CLV", "CLa", "Cm0", "CmV", "Cma", "Cmq", "Cmde", "q_bias", "qdot_bias", "ax_bias", "az_bias",
   "V_meas_std", "alpha_meas_std", "theta_meas_std", "q_meas_std", "qdot_meas_std", "ax_meas_std", "az_meas_std"]

/-- hfb320_long_oem.py:46-47, the measurements. -/
def hfbMeas : List String := ["V_meas", "alpha_meas", "theta_meas", "q_meas", "qdot_meas", "ax_meas", "az_meas"]

/-- hfb320_long_oem.py:49-54, the variables. -/
def hfbVars : Dict String SymVar :=
  [("x", .vec ["V", "alpha", "theta", "q"]), ("y", .vec hfbMeas), ("u", .vec ["de", "T"]), ("p", .vec hfbParams)]

end ExModels

namespace Ex

/-- hfb320_long_oem.py:106-108 `given`; the parameters are zero. -/
noncomputable def hfbGiven : HFBConsts :=
  { g0 := 9.80665, Sbym := 4.0280e-3, ScbyIy := 8.0027e-4, FEIYLT := -7.0153e-6, V0 := 104.67, mass := 7472, sigmaT := 0.0524, rho := 0.7920, cbarH := 1.215,
    CD0 := 0, CDV := 0, CDa := 0, CL0 := 0, CLV := 0, CLa := 0, Cm0 := 0, CmV := 0, Cma := 0, Cmq := 0, Cmde := 0,
    q_bias := 0, qdot_bias := 0, ax_bias := 0, az_bias := 0 }

/-- The constants `c` with the parameters `p`, in the order of hfb320_long_oem.py:35-38. -/
noncomputable def hfbWith (c : HFBConsts) (p : List ℝ) : HFBConsts :=
  { c with
    CD0 := p.getD 0 0, CDV := p.getD 1 0, CDa := p.getD 2 0, CL0 := p.getD 3 0, CLV := p.getD 4 0, CLa := p.getD 5 0, Cm0 := p.getD 6 0, CmV := p.getD 7 0,
    Cma := p.getD 8 0, Cmq := p.getD 9 0, Cmde := p.getD 10 0, q_bias := p.getD 11 0, qdot_bias := p.getD 12 0, ax_bias := p.getD 13 0, az_bias := p.getD 14 0 }

end Ex
end Ceacoest
