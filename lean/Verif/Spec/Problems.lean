import Verif.Model.Problems

/-! # Specification of the problem classes (C19 – C21) -/

namespace Ceacoest.Spec

/-- Row `k` of a mask with `ny` columns has an entry that is not masked. -/
def HasMeasurement (mask : List Bool) (ny k : Nat) : Prop := ∃ j < ny, mask.getD (k * ny + j) true = false

/-- `rows` lists in increasing order the rows `k < n` that have a measurement. -/
def MeasuredRows (mask : List Bool) (n ny : Nat) (rows : List Nat) : Prop :=
  rows.Pairwise (· < ·) ∧ ∀ k, k ∈ rows ↔ k < n ∧ HasMeasurement mask ny k

/-- What a caller may pass: `P + 1` increasing times, a `(P + 1, ny)` masked array of measurements and a
`(P * N + 1, nu)` array of inputs, given directly or computed from the fine time grid. -/
structure OEMInput (m : OEMModel) (t : NDArray ℝ) (y : MaskedArray) (P : Nat) : Prop where
  order : 2 ≤ m.collocationOrder
  pieces : 1 ≤ P
  tshape : t.shape = [P + 1]
  twf : t.WF
  tinc : t.data.Pairwise (· < ·)
  yshape : y.arr.shape = [P + 1, m.ny]
  ywf : y.arr.WF
  ymask : y.mask.length = (P + 1) * m.ny

/-- The inputs that the argument `u` stands for fit the fine grid that the collocation method makes of `t`. -/
def InputsOK (m : OEMModel) (t : NDArray ℝ) (u : UArg) (ua : NDArray ℝ) : Prop :=
  ∀ col tc, RK.lglCollocation m.collocationOrder = .ok col → RK.grid col.points t.data = .ok tc →
    u.resolve tc = .ok (.array ua) ∧ ua.shape = [tc.length, m.nu] ∧ ua.WF

/-! ### What the constructors register -/

/-- The registration calls of an optimal control problem with `P` pieces of `N` intervals. -/
def ocCalls (m : OCModel) (P N : Nat) : List (Problem.Call ℝ) :=
  [.decision (.str "x") (.tuple [P * N + 1, m.nx]),
   .dependent (.str "xp") (.piece ⟨⟨[P * N + 1, m.nx], 0⟩, P, N + 1⟩),
   .constraint m.e (.tuple [P, N, m.nx]) none,
   .decision (.str "u") (.tuple [P * N + 1, m.nu]),
   .decision (.str "p") (.int m.np),
   .dependent (.str "up") (.piece ⟨⟨[P * N + 1, m.nu], 0 + [P * N + 1, m.nx].prod⟩, P, N + 1⟩),
   .dependent (.str "xe") (.xe ⟨⟨[P * N + 1, m.nx], 0⟩⟩),
   .objective m.IL (.int P) none,
   .objective m.M (.tuple []) none,
   .constraint m.g (.tuple [P * N + 1, m.ng]) none,
   .constraint m.h (.int m.nh) none]

/-- The registration calls of an output error problem. -/
def oemCalls (m : OEMModel) (P N : Nat) (kmeas : List Nat) : List (Problem.Call ℝ) :=
  [.decision (.str "x") (.tuple [P * N + 1, m.nx]),
   .dependent (.str "xp") (.piece ⟨⟨[P * N + 1, m.nx], 0⟩, P, N + 1⟩),
   .constraint m.e (.tuple [P, N, m.nx]) none,
   .decision (.str "p") (.int m.np),
   .dependent (.str "xm") (.xm ⟨⟨[P * N + 1, m.nx], 0⟩, kmeas⟩),
   .objective m.L (.int kmeas.length) (some ["y", "xm", "um", "p"])]

/-- The penalty objective, for models that use one. -/
def penaltyCalls (m : JMEModel) (P : Nat) : List (Problem.Call ℝ) :=
  match m.usePenalty.getD false, m.penalty with
  | true, some f => [.objective f (.int P) none]
  | _, _ => []

/-- The registration calls of a joint MAP problem. -/
def jmeCalls (m : JMEModel) (P N : Nat) (kmeas : List Nat) : List (Problem.Call ℝ) :=
  [.decision (.str "x") (.tuple [P * N + 1, m.nx]),
   .dependent (.str "xp") (.piece ⟨⟨[P * N + 1, m.nx], 0⟩, P, N + 1⟩),
   .decision (.str "wc") (.tuple [P, N, m.nw]),
   .constraint m.e (.tuple [P, N, m.nx]) none,
   .decision (.str "p") (.int m.np),
   .dependent (.str "xm") (.xm ⟨⟨[P * N + 1, m.nx], 0⟩, kmeas⟩),
   .objective m.L (.int kmeas.length) (some ["y", "xm", "um", "p"]),
   .objective m.tubeL (.int P) none] ++ penaltyCalls m P

/-! ### C19 -/

/-- Row `i` of the measurements that an output error or joint MAP problem keeps belongs to row `rows[i]` of the measurements
given, its time `t[rows[i]]` is the time of fine grid point `kmeas[i]`, and the state and the input it is compared with are
those at that point. -/
structure Aligned (q : OEMProblem) (m : OEMModel) (t : NDArray ℝ) (y : MaskedArray) (ua : NDArray ℝ) (rows : List Nat) : Prop where
  nmeas : q.nmeas = rows.length
  yshape : q.y.arr.shape = [rows.length, m.ny] ∧ q.y.arr.WF ∧ q.y.mask.length = rows.length * m.ny
  umshape : q.um.shape = [rows.length, m.nu] ∧ q.um.WF
  kmeas : q.kmeas.length = rows.length
  point : ∀ i < rows.length, q.kmeas.getD i 0 < q.npoints
  index : ∀ i < rows.length, q.kmeas.getD i 0 = rows.getD i 0 * q.collocation.ninterv
  time : ∀ i < rows.length, q.tc.getD (q.kmeas.getD i 0) 0 = t.data.getD (rows.getD i 0) 0
  meas : ∀ i < rows.length, ∀ j < m.ny, q.y.arr.data.getD (i * m.ny + j) 0 = y.arr.data.getD (rows.getD i 0 * m.ny + j) 0 ∧
    q.y.mask.getD (i * m.ny + j) true = y.mask.getD (rows.getD i 0 * m.ny + j) true
  input : ∀ i < rows.length, ∀ j < m.nu, q.um.data.getD (i * m.nu + j) 0 = ua.data.getD (q.kmeas.getD i 0 * m.nu + j) 0
  vars : ∀ dvec : List ℝ, dvec.length = q.prob.ndec → ∃ vs x xm, q.prob.variables dvec = .ok vs ∧
    Dict.get? vs "y" = some q.y.arr ∧ Dict.get? vs "um" = some q.um ∧ Dict.get? vs "u" = some ua ∧ Dict.get? vs "up" = some q.up ∧
    Dict.get? vs "x" = some x ∧ x.shape = [q.npoints, m.nx] ∧ Dict.get? vs "xm" = some xm ∧ xm.shape = [rows.length, m.nx] ∧
    ∀ i < rows.length, ∀ j < m.nx, xm.data.getD (i * m.nx + j) 0 = x.data.getD (q.kmeas.getD i 0 * m.nx + j) 0

end Ceacoest.Spec
