# Design of the formal model of ceacoest

The subject is the Python package in `/repo/ceacoest` at the pinned commit, read as text. Nothing is executed.
The language is Lean 4.33.0 with Mathlib. Build: `cd lean && lake build`.

## Layout

| directory | content |
|---|---|
| `lean/Verif/NumPy/` | the fragment of NumPy / Python the code uses: exceptions, dicts, slices, C-order arrays, broadcasting, views of buffers |
| `lean/Verif/Model/` | the model, one file per Python module, every definition citing file and lines |
| `lean/Verif/Spec/` | small independent specifications, in ordinary mathematics |
| `lean/Verif/Lemmas/` | helper lemmas |
| `lean/Verif/Props/` | the property theorems, named `Cnn_...`, with witnesses (`example`) next to them |
| `properties.jsonl` | the properties |
| `MANIFEST.json` | status and theorems of each property |
| `seeded/LOG.jsonl` | mutation tests: wrong programs and the theorems that rejected them |

## How Python is represented

* A call returns a value of `Py α = Except PyErr α`; the exception classes are the constructors of `PyErr`. Failed assertions are errors.
* Objects are structures; a mutating method takes the object and returns the new one. Loops are folds or structural recursion, in the
  order of the Python loop. An exception in the middle of a method keeps the state it had (where a property speaks about that state).
* `dict` is an association list with insertion order. `set` iteration order depends on the hash seed: it is an argument, and theorems hold
  for every order.
* Arrays are a shape and a C-order list (`NDArray`), with NumPy broadcasting on shapes; the flat order is the one the code relies on.
  In `Model/Aliasing.lean` the same functions work on views of buffers, so that sharing of memory is visible. In the matrix modules
  (Kalman filters, statistics, rotations, discretisation) arrays are functions on finite index types.
* Numbers are exact: reals, or any field where that is enough. **Rounding, overflow and NaN are not modelled** (exception: the 32 bit
  `np.intc` product of `Component.size`, C62).

## What is modelled, file by file

| file of `/repo/ceacoest` | modelled | left out |
|---|---|---|
| `optim.py` | all of `Problem`, `Component`, `Decision`, `OptimizationFunction`, `Constraint`, `Objective` (`Model/Component`, `Optim`, `VarSpec`, `Aliasing`, `IntC`) | `__repr__`, `name`; `ipopt` up to the functions and index arrays it passes to the solver (the solver itself is external) |
| `col.py`, `oc.py`, `oem.py`, `jme.py` | all (`Model/Col`, `OCVar`, `OEMVar`, `Problems`, `Aliasing`) | |
| `rk.py` | all (`Model/RK`) | how `legendre.legroots` finds roots: its result is taken as the sorted roots |
| `modelling/symoptim.py` | all (`Model/SymOptim`, `SymCalls`) | `sym2num.model.Base`, sympy |
| `modelling/symcol.py`, `symoc.py`, `symoem.py`, `symjme.py` | all: constructors and methods (`Model/SymClasses`), the defect, penalty and tube expressions once more on numbers (`Model/SymCol`), the order as an attribute of classes and objects (`Model/ClassOrder`) | simplifications at the head of `Model/SymClasses` |
| `modelling/genoptim.py` | the function classes, their index, count and value methods, and the lookup of attributes by the metaclasses (`Model/GenOptim`, `SymOptim`), calls with keyword arguments and signatures (`Model/GenCall`), shapes that are lists (`Model/ShapeKinds`), the classes that `optimization_meta` makes, their descriptors and derived classes (`Model/GenMeta`) | the displayed signature that `with_signature` gives its wrapper |
| `modelling/symquat.py`, `symstats.py`, `symsde.py` | all, evaluated at numbers (`Model/SymQuat`, `SymStats`, `SymSDE`); the constructors of `symsde.py` (`Model/SymSDEInit`) | |
| `modelling/gensde.py`, `stats.py` | all, for one state and batches of points with one axis (`Model/GenSDE`, `SymSDE`, `Stats`) | batches of more than one axis, NaN |
| `kalman/base.py`, `extended.py`, `unscented.py` | all methods (`Model/Kalman`, `KalmanInit`, `UT`); the methods without derivatives for stacks of states, too (`Model/KalmanBatch`), and those with derivatives for stacks in unscented filters (`Model/KalmanBatchDiff`); the arrays of derivatives in memory (`Model/KalmanHeap`); measurements of any shape (`Model/KalmanShapes`, `KalmanBatchShapes`) | derivative methods of extended filters of stacks; attributes that outlive their sample; see the module headers |
| `utils.py` | all but the imported `cached_property` (`Model/Utils`, `GenCall`) | |
| `testsupport/array_cmp.py` | all (`Model/ArrayCmp`) | the layout of the text of reports |
| `examples/` | the models of most: see "Examples" below | |
| `tests/` | `test_optim.py`: `sparse_fun_to_full` and the four tests of derivatives, given the methods they call (`Model/TestOptim`); `test_kalman.py`: the test model, `is_symmetric_positive_definite`, the tests of fixtures, the exact tests of transforms and `parametrized_ukf` (`Model/TestKalman`), the twelve tests of derivatives with their numerical differences (`Model/TestKalmanDiff`), unbatched; derivatives generated by sym2num are partial derivatives; the models and problems of `test_oc.py` and `test_oem.py` (`Model/TestModels`, C108) | the fixtures of `test_optim.py`; random numbers; the comparisons in `test_oc.py` and `test_oem.py` |

### Examples

`Model/Examples.lean` has the models of `examples/bryson_denham.py`, `brachistochrone.py`, `attas_sp.py` and `duffing_jme.py` (the estimation
model, not the simulation), their variables, and bounds and mesh where they matter; C73 proves what they compute.
`Model/ExampleScripts.lean` has the assignments of bounds of these four scripts, as writes through the views that `variables` returns, and the
guess of `attas_sp.py` (C99). What the reading of the others shows:

* `circular_orbit.py`, `circular_orbit_min_time.py`, `free_flying_robot.py`, `hang_glider.py`, `hfb320_long_oem.py`, `minimum_time_to_climb.py`,
  `shuttle_reentry.py` and the tests `test_oc.py`, `test_oem.py` use `symoc.collocate` / `symoem.collocate`, which no module of this commit
  defines, so they cannot run. `Model/ExamplePhysics.lean` has the functions `f`, `g`, `h`, `L` of these examples, of `attitude.py` and of
  `duffing.py` as functions of real numbers, apart from the transcription: C83, C84. `Model/ExampleModels.lean` has five of them
  as classes derived from `symoc.Model`, C109, and `Model/ExampleHFB.lean` has `hfb320_long_oem.py` as a class derived from `symoem.Model`, C110;
  `Model/TestModels.lean` has the models of the two tests in the same way, C108. Their scripts (scales,
  guesses) are not modelled, the bounds only where C109 and C110 use them: the scripts call `set_decision_item`, `set_decision`, `set_defect_scale` and `set_constraint`,
  which `oc.Problem` does not have.
* `Model/ExampleSim.lean` has the simulation of `duffing.py`, `duffing_jme.py` (C104), `Model/ExampleFilter.lean` the rest of the script of `duffing.py`: the
  discretised model and the runs of both filters and smoothers (C111). Random numbers are arguments.
* `Model/ExamplePem.lean` has the parameter estimation of `duffing_old.py` and `attitude.py` for any model, and the model of `duffing_old.py` (C112); `Model/ExampleAttitude.lean` has the model of `attitude.py` (C113). Both scripts import
  `ceacoest.sde`, which does not exist at this commit; the discretisation is that of `symsde.py`. `Model/ExampleOld.lean` has the simulation and the script of `duffing_old.py`, with the
  solver as an argument (C115). `Model/ExampleAttitudeSim.lean` has the simulation and script of `attitude.py`, with the coefficients of the filter and the integrator as further arguments (C117).
* `hang_glider.py` has `sqrt(vx**2 + Vy)` where `Vy**2` is meant (C84).
* `shuttle_reentry.py` has `b2 = 0.621408` per degree squared, which gives almost no lift for the drag (`C83_shuttle_glide`).
* The mesh of `bryson_denham.py`, `linspace(0, 1, 101)`, lacks the time 1/3 where the solution changes arcs; the minimum is therefore only
  within one percent of 4 (C73).

## Trusted base

1. Lean's kernel. Axioms: every theorem named in `MANIFEST.json` depends on at most `propext`, `Classical.choice` and `Quot.sound`
   (checked with `#print axioms` by the gate); no axiom is declared, and no `sorry`, `native_decide` or `bv_decide` is used.
2. The reading of `/repo`: that each definition in `Model/` says what the cited lines do. Nothing machine-checks this link; mutation
   tests only show that the theorems notice changes of the model.
3. The semantics of the NumPy operations in `NumPy/` and of the ones named in comments (`einsum` subscripts, `np.linalg.inv`,
   Cholesky factorisation: the unique lower triangular factor, `LinAlgError` if the matrix is not positive definite).
4. Contracts of external code. They are hypotheses of the theorems that need them, never axioms:

| external | contract | where |
|---|---|---|
| code generated by sym2num | evaluates the symbolic function elementwise over the broadcast leading axes (`CodegenOK`, from which `FunOK`, `GradOK`, `SparseOK` are proved) | C09-C13, C66, C67, C70 |
| sympy / sym2num derivatives | right values and shapes where the expression is defined (`DerivForm`, `SymRight1`, `SymRight2`, `ArithOK`); **discharged** for the expression language of `Spec/SymExpr.lean` | C66, C70 |
| user models of the filters | the derivative methods are the derivatives of `f`, `h`, `Q`, `R` | C46, C47 |
| `scipy.linalg.orth` | orthonormal columns spanning the range | C28 |
| `np.linalg.svd` | a singular value decomposition | C41-C43, C55, C56 |
| `np.random.randn` | an arbitrary array | C54 |

Known limits of the contracts: `FunOK` speaks about functions that are applied elementwise over broadcast axes, which is what sym2num
prints; a function with data-dependent control flow would not meet it.

## Reading the theorems

Every `Cnn_*` theorem has its hypotheses in the statement; structures that bundle hypotheses (`ProblemOK`, `OEMInput`, `ColVars`,
`OCDenotes`, `SmoothModel`, `SmoothAttrs`) are in `Spec/` and have an instance in an `example` beside the theorem. A claim that the code makes false
keeps its full statement visible: the negation is proved with a concrete witness, and what does hold is in a theorem ending in `_partial`.

### Claims that the code makes false (status `partial`)

| id | what fails |
|---|---|
| C33 | derivative names are not injective in general (`d2f_da_db` for functions starting with `2`, separators inside names); one derivative then overwrites another |
| C48 | `pem_merit` of the extended filter raises AttributeError as soon as one measurement is unmasked |
| C49 | the option `d2L_dq2` is ignored: the attribute is set from `dL_dq` |
| C55 | `multivariate_normal_pdf` does not marginalise partially masked rows |
| C56 | `svd_sqrt(a)` returns a root of `a aᵀ`, not of `a` |
| C62 | `Component.size` wraps around from 2³¹ elements |
| C74 | the noise coordinates span the range of `J.T`, which is orthogonal to the kernel of `J` in the plain inner product, while the objective weighs noise with `K`; from order 3 on the objective charges more than the least energy for given increments (order 3: 2/9 of the squared mean too much, on every mesh) |
| C84 | `hang_glider.py:37` takes the root of `vx**2 + Vy` |
| C85 | derivatives are updated in place in arrays that the caller passed: a second filter given the same array `dx_dq` starts from wrong derivatives |

### Other findings, each with a theorem

* One problem variable passed for two arguments drops a derivative block (C32).
* `XEVariable.add_to` is not the adjoint of `unpack_from` when there is a single point (C17).
* A grid with a single time raises IndexError in `oem` (C21); `lagrange_basis` of one point raises ValueError, of repeated points
  ZeroDivisionError (C23); `smooth([])` raises ValueError (C40).
* `EKF.prediction_diff` raises NameError; passing `w` to `trans_rvs` always raises TypeError (C54).
* `extract_subkeys` treats its prefix as a regular expression (C58).
* `A[-nw:]` with `nw = 0` takes the whole matrix; the tube term uses the divergence over the last `nw` states only (C64).
* Symbols of the user may coincide with derived ones, unnoticed (C69); the constructors of the symbolic classes change the caller's
  dictionary (C68).

## Properties and where they live

| id | title | status and files in `Props/` |
|---|---|---|
| C01 | Decision vector layout is a gap-free partition | proved: 1 theorems in `Layout` |
| C02 | Constraint vector layout is a gap-free partition | proved: 1 theorems in `Layout` |
| C03 | Variable names are unique and rejected registrations change nothing | proved: 4 theorems in `Layout` |
| C04 | variables() splits the decision vector losslessly | proved: 2 theorems in `Layout` |
| C05 | Writing through variables() views edits exactly the addressed decision entries | proved: 4 theorems in `Aliasing` |
| C06 | pack_into and add_to touch only their own range | proved: 4 theorems in `Layout` |
| C07 | constr() stacks the constraints and unpack_constraints undoes it | proved: 1 theorems in `Layout` |
| C08 | Sparse derivative arrays agree in length and stay in range | proved: 4 theorems in `Derivatives` |
| C09 | obj_grad is the gradient of obj | proved: 2 theorems in `DerivExample`, `Derivatives` |
| C10 | The assembled sparse Jacobian is the Jacobian of constr | proved: 1 theorems in `Derivatives` |
| C11 | The assembled sparse objective Hessian is the Hessian | proved: 2 theorems in `DerivExample`, `Derivatives` |
| C12 | The Lagrangian Hessian is sigma * Hess(obj) + sum lambda_c * Hess(constr_c) | proved: 2 theorems in `Derivatives` |
| C13 | The solver sees the Jacobian with constraint rows and decision columns | proved: 1 theorems in `Derivatives` |
| C14 | Piece-ravelled variables are the underlying points with shared endpoints | proved: 2 theorems in `Variables` |
| C15 | Piece-ravelled gradient accumulation is the adjoint of unpacking | proved: 3 theorems in `Variables` |
| C16 | Piece-ravelled index conversion agrees with unpacking and aliases only piece boundaries | proved: 3 theorems in `Variables` |
| C17 | Endpoint variable reads, accumulates and indexes the first and last state | proved: 4 theorems in `Variables` |
| C18 | Measured-state variable reads, accumulates and indexes the measured rows | proved: 5 theorems in `Variables` |
| C19 | Only fully masked measurement rows are dropped and measurements stay time-aligned | proved: 2 theorems in `Problems` |
| C20 | OEM inputs are piece-ravelled exactly like states | proved: 3 theorems in `Problems` |
| C21 | Problem classes register the documented layout | proved: 6 theorems in `Problems` |
| C22 | The collocation grid refines the coarse grid | proved: 3 theorems in `RK` |
| C23 | Lagrange basis polynomials are cardinal | proved: 2 theorems in `RK` |
| C24 | J and K integrate polynomials exactly | proved: 1 theorems in `RK` |
| C25 | LGL quadrature has degree of exactness 2n-3 | proved: 1 theorems in `LGL` |
| C26 | Collocation order below 2 is rejected; the end points are 0 and 1 | proved: 1 theorems in `LGL` |
| C27 | Zero defects characterise polynomial collocation solutions | proved: 2 theorems in `SymCol` |
| C28 | J has full row rank and the process-noise coordinates lose nothing | proved: 3 theorems in `SymCol` |
| C29 | Sparse derivatives of generated functions index every broadcast copy | proved: 2 theorems in `GenOptim` |
| C30 | Sparse extraction loses no derivative | proved: 3 theorems in `SymOptim` |
| C31 | Every unordered pair of arguments gets exactly one Hessian block | proved: 3 theorems in `SymOptim` |
| C32 | Renamed arguments route derivatives to the right problem variables | proved: 7 theorems in `Renaming` |
| C33 | Derivative names do not collide | partial: 4 theorems in `SymOptim` |
| C34 | A fully masked measurement is a no-op | proved: 2 theorems in `KalmanSteps` |
| C35 | Partially masked measurements equal correction with the reduced measurement model | proved: 3 theorems in `KalmanMask` |
| C36 | Covariances stay symmetric positive semidefinite | proved: 4 theorems in `KalmanSteps` |
| C37 | A correction never increases the covariance | proved: 2 theorems in `KalmanSteps` |
| C38 | The EKF correction is the Bayesian linear-Gaussian update | proved: 1 theorems in `KalmanBayes` |
| C39 | Filtering is a fixed schedule of N corrections and N-1 predictions | proved: 5 theorems in `KalmanLoops` |
| C40 | Smoothing agrees with filtering at the end and is the backward recursion before it | proved: 5 theorems in `KalmanLoops` |
| C41 | Unscented weights and sigma points match the input moments | proved: 4 theorems in `UT` |
| C42 | The unscented transform is exact for affine functions | proved: 1 theorems in `UT` |
| C43 | On affine models the unscented and extended filters coincide | proved: 5 theorems in `KalmanAffine` |
| C44 | Cholesky differentiation is right | proved: 4 theorems in `UTDiff` |
| C45 | Unscented transform derivatives are right | proved: 2 theorems in `UTDiff` |
| C46 | pem_gradient is the gradient of pem_merit | proved: 2 theorems in `KalmanGrad` |
| C47 | pem_hessian is the derivative of pem_gradient | proved: 2 theorems in `KalmanGrad` |
| C48 | pem_merit accumulates Gaussian innovation log-likelihoods | partial: 8 theorems in `KalmanAfter`, `KalmanMerit` |
| C49 | Filter options initialise the attribute of the same name | partial: 6 theorems in `KalmanInit` |
| C50 | Quaternion kinematics conserve the norm up to the renormalisation term | proved: 4 theorems in `SymQuat` |
| C51 | rotmat is a rotation and is consistent with the kinematics | proved: 5 theorems in `SymQuat` |
| C52 | toeuler inverts the Euler rotation sequence | proved: 3 theorems in `SymQuat` |
| C53 | Normal log-densities are logs of the densities and vanish when masked | proved: 6 theorems in `SymStats` |
| C54 | SDE discretisations have the stated drift and a valid covariance | proved: 7 theorems in `SymSDE` |
| C55 | multivariate_normal_pdf is the Gaussian density up to (2 pi)^(-n/2), marginalising masked entries | partial: 6 theorems in `Stats` |
| C56 | svd_sqrt returns a square root | partial: 4 theorems in `Stats` |
| C57 | Finite differences are exact on the polynomials they should be | proved: 4 theorems in `FiniteDiff` |
| C58 | extract_subkeys returns exactly the prefixed entries | proved: 2 theorems in `Utils` |
| C59 | flat_cat concatenates ravelled arguments | proved: 2 theorems in `Utils` |
| C60 | cached computes once and then always returns the same value | proved: 4 theorems in `Utils` |
| C61 | ArrayDiff comparison is elementwise, with strict tolerance | proved: 4 theorems in `ArrayCmp` |
| C62 | Component sizes are the number of elements | partial: 3 theorems in `IntC` |
| C63 | Gauss-Lobatto weights are positive, sum to one, and their exactness degree is sharp | proved: 2 theorems in `LGL` |
| C64 | Tube log-density and defect penalty have the right sign and zeros | proved: 3 theorems in `SymCol` |
| C65 | Prefixed options configure the two unscented transforms | proved: 2 theorems in `KalmanInit` |
| C66 | Functions generated from symbolic ones meet the derivative contracts, end to end | proved: 5 theorems in `SymContract`, `SymExpr` |
| C67 | Derivatives of optimal control, output error and joint MAP problems built from generated models | proved: 3 theorems in `Classes` |
| C68 | Constructors of the symbolic model classes register the documented variables, objectives and constraints | proved: 7 theorems in `SymInit` |
| C69 | Derived symbol names never collide with each other; exact condition for collision with user names | proved: 7 theorems in `SymbolNames` |
| C70 | Symbolic models become the intended nonlinear programs, with exact derivatives | proved: 9 theorems in `TranscriptionJME`, `TranscriptionJMEExpr`, `TranscriptionOC`, `TranscriptionOCExpr`, `TranscriptionOEM`, `TranscriptionOEMExpr` |
| C71 | Everything the generated class looks up has been generated | proved: 6 theorems in `SymClosed` |
| C72 | Feasible points of the nonlinear programs are collocation solutions; sampled solutions are feasible at their true cost | proved: 4 theorems in `Collocation` |
| C73 | The example models: Bryson-Denham, brachistochrone, ATTAS, Duffing | proved: 6 theorems in `BrysonDenham`, `Examples`, `ExamplesEstimation` |
| C74 | The noise coordinates lose nothing in the measure of the objective | partial: 5 theorems in `Noise` |
| C75 | Filter, smoother and likelihood are those of the posterior | proved: 6 theorems in `KalmanPosterior` |
| C76 | Points without defects exist, are unique, and converge to the solution of the differential equation | proved: 6 theorems in `Convergence`, `ConvergenceOEM` |
| C77 | The transition and measurement densities are those of the sampled transitions and measurements | proved: 9 theorems in `GenSDE` |
| C78 | The moments propagated on discretised models converge to those of the stochastic differential equation | proved: 3 theorems in `Moments` |
| C79 | Filters of a stack of states filter each state of the stack | proved: 10 theorems in `KalmanBatch` |
| C80 | pem_gradient and pem_hessian of a stack of states are those of each state | proved: 4 theorems in `KalmanBatchDiff` |
| C81 | Generated functions may be called with keyword arguments | proved: 8 theorems in `GenCall` |
| C82 | Degrees of exactness of the unscented transform for normal inputs | proved: 4 theorems in `UTMoments` |
| C83 | The equations of motion of the examples are Newton's law | proved: 16 theorems in `ExampleFlight`, `ExamplePhysics` |
| C84 | The hang glider moves by Newton's law with lift and drag of its airspeed | partial: 5 theorems in `HangGlider` |
| C85 | The gradient of a filter does not depend on what other filters computed before | partial: 11 theorems in `KalmanHeap` |
| C86 | For linear systems the states at the mesh times have errors of twice the order | proved: 3 theorems in `Superconvergence` |
| C87 | A piece of the transcription of a linear system is the diagonal Padé approximant of the exponential | proved: 4 theorems in `Pade` |
| C88 | For stable linear systems the transcription is stable and uniquely solvable on every mesh | proved: 5 theorems in `Dissipative` |
| C89 | Smoothing never makes an estimate less certain | proved: 2 theorems in `KalmanSmooth` |
| C90 | Filters and smoothers do not depend on the units and coordinates that are chosen | proved: 8 theorems in `KalmanUnits` |
| C91 | The transcription does not prefer a direction of time; the quadrature weights in closed form | proved: 4 theorems in `TimeReversal` |
| C92 | Stationary points of the nonlinear program satisfy the maximum principle in discrete form, and conversely | proved: 3 theorems in `MaximumPrinciple` |
| C93 | Finite differences are accurate to second (first) order, and the derivative tests accept exactly the derivatives that are right up to that error | proved: 9 theorems in `TestOptim` |
| C94 | The transcription does not depend on the coordinates, units and time scale in which a problem is written | proved: 6 theorems in `Coordinates` |
| C95 | The report of a failed comparison lists exactly the violations | proved: 5 theorems in `Report` |
| C96 | Discretised models complete the continuous-time model with the derivatives they need and change nothing else in it | proved: 6 theorems in `SymSDEInit` |
| C97 | The tests of unscented transforms hold for every draw, those of the test model not for every one | proved: 11 theorems in `TestKalman` |
| C98 | pem_hessian differentiates what pem_gradient returns for the filters that the tests build, which need not be the Hessian of pem_merit | proved: 4 theorems in `KalmanSeeded` |
| C99 | The bounds that the scripts of the examples write through problem.variables are the bounds of the intended problems, and within them the solver gets what it needs | proved: 9 theorems in `ExampleScripts` |
| C100 | Stationary points of output error and joint MAP problems satisfy the equations of smoothing in discrete form | proved: 2 theorems in `Smoothing` |
| C101 | Joint MAP estimation with zero noise is output error estimation, and noise never pays at the same states | proved: 1 theorems in `ZeroNoise` |
| C102 | The tests of derivatives in test_kalman.py accept right derivatives and reject wrong ones | proved: 21 theorems in `TestKalmanDiff`, `TestKalmanFixture` |
| C103 | The correction is the best linear one, and less noise or more measurements never make the filters less certain | proved: 8 theorems in `Certainty` |
| C104 | The simulations of the Duffing examples sample what they say, and the data of the estimation script cover its guess | proved: 15 theorems in `ExampleSim` |
| C105 | Measurements with uncorrelated noise may be corrected one part at a time, in any order | proved: 7 theorems in `Sequential` |
| C106 | Estimates do not depend on later samples, and masked samples at the end only add forecasts | proved: 4 theorems in `Tail` |
| C107 | In joint MAP problems the noise determines the states and the states determine the noise | proved: 1 theorems in `NoisePath` |
| C108 | The problems that the tests check have right derivatives for every order, number of pieces and decision vector | proved: 6 theorems in `TestModels`, `TestModelsPass` |
| C109 | The remaining optimal control examples give the nonlinear programs of their equations of motion, with right derivatives | proved: 10 theorems in `ExampleModels`, `ExampleModelsFeasible` |
| C110 | The flight identification example is the maximum likelihood problem of its equations, with right derivatives within its bounds | proved: 3 theorems in `ExampleHFB` |
| C111 | The script of the Duffing example runs to its end, whatever the random numbers | proved: 6 theorems in `ExampleFilter` |
| C112 | Parameter estimation with a discretised stochastic differential equation has the right derivatives | proved: 10 theorems in `ExamplePem` |
| C113 | The merit of the attitude example exists away from the vertical and does not tell the signs of noise gains and of the horizontal magnetic field | proved: 10 theorems in `ExampleAttitude` |
| C114 | Integrals taken with the Lobatto points are not amplified, whatever the order | proved: 4 theorems in `LGLNorm` |
| C115 | The old Duffing script runs to its end, and masked samples count for nothing | proved: 6 theorems in `ExampleOld` |
| C116 | The derivatives of the merit are right wherever the filter stays away from singularities of the model | proved: 5 theorems in `ExampleLocal` |
| C117 | The script of the attitude example runs to its end, on data of the model that it estimates | proved: 10 theorems in `ExampleAttitudeSim` |
| C118 | Filters accept series of measurements of one shape only, unless all is masked | proved: 4 theorems in `KalmanShapes` |
| C119 | The states of a stack are filtered against one series of measurements, never against different ones | proved: 4 theorems in `KalmanBatchShapes` |
| C120 | A generated class has the collocation order at generation, its defects the one at construction | proved: 5 theorems in `ClassOrder` |
| C121 | Objects of generated classes have the described functions; derived classes that redefine one lose its derivatives | proved: 7 theorems in `GenMeta` |
| C122 | Shapes given as lists stop the sparsity structure with AssertionError | proved: 2 theorems in `ShapeKinds` |
