import Verif.Lemmas.OEM
import Verif.Props.Layout

/-! # C19 – C21: the problem classes -/

namespace Ceacoest
open Spec RK

/-- The layout of an optimal control problem: all that the constructor registers. -/
theorem C21_oc (m : OCModel) (hn : 2 ≤ m.collocationOrder) (t : NDArray ℝ) (P : Nat) (hs : t.shape = [P + 1]) (hw : t.WF)
    (hinc : t.data.Pairwise (· < ·)) :
    ∃ (q : ColProblem) (N : Nat), ocProblem m t = .ok q ∧ (N : Int) + 1 = m.collocationOrder ∧ q.collocation.ninterv = N ∧ q.npieces = P ∧
      q.npoints = P * N + 1 ∧ q.tc.length = q.npoints ∧ q.pieceLen = diff t.data ∧
      q.prob.decision = [("x", ⟨[q.npoints, m.nx], 0⟩), ("u", ⟨[q.npoints, m.nu], q.npoints * m.nx⟩),
        ("p", ⟨[m.np], q.npoints * (m.nx + m.nu)⟩)] ∧
      q.prob.ndec = q.npoints * (m.nx + m.nu) + m.np ∧
      q.prob.remapped = [("xp", .piece ⟨⟨[q.npoints, m.nx], 0⟩, P, N + 1⟩),
        ("up", .piece ⟨⟨[q.npoints, m.nu], q.npoints * m.nx⟩, P, N + 1⟩), ("xe", .xe ⟨⟨[q.npoints, m.nx], 0⟩⟩)] ∧
      q.prob.constraints = [⟨OptFun.mk' [P, N, m.nx] m.e none, 0⟩, ⟨OptFun.mk' [q.npoints, m.ng] m.g none, P * N * m.nx⟩,
        ⟨OptFun.mk' [m.nh] m.h none, P * N * m.nx + q.npoints * m.ng⟩] ∧
      q.prob.ncons = P * N * m.nx + q.npoints * m.ng + m.nh ∧
      q.prob.objectives = [OptFun.mk' [P] m.IL none, OptFun.mk' [] m.M none] ∧
      q.prob.extra = [("piece_len", ⟨[P], diff t.data⟩)] ∧
      (1 ≤ P → ProblemOK q.prob (ocCalls m P N)) := by
  obtain ⟨col, tc, hcol, hcn, hci, hci1, htc, htl, hco, htinc, hdl, hcr⟩ := create_eq m.toColModel hn t P hs hw hinc
  obtain ⟨⟨cn, cp, ci, cJ, cK⟩, rfl⟩ : ∃ c, col = c := ⟨col, rfl⟩
  simp only at hci hcn hci1 htl hco hcr
  subst hci
  have hq : ocProblem m t = .ok ⟨{ Problem.run (ocCalls m P ci) with extra := [("piece_len", ⟨[P], diff t.data⟩)] }, m.toColModel,
      ⟨ci + 1, cp, ci, cJ, cK⟩, diff t.data, P, tc, P * ci + 1⟩ := by
    unfold ocProblem
    rw [hcr]
    krfl
  have hdec : (Problem.run (ocCalls m P ci)).decision = [("x", ⟨[P * ci + 1, m.nx], 0⟩),
      ("u", ⟨[P * ci + 1, m.nu], 0 + [P * ci + 1, m.nx].prod⟩),
      ("p", ⟨[m.np], 0 + [P * ci + 1, m.nx].prod + [P * ci + 1, m.nu].prod⟩)] := by krfl
  have hnd : (Problem.run (ocCalls m P ci)).ndec =
      0 + [P * ci + 1, m.nx].prod + [P * ci + 1, m.nu].prod + [m.np].prod := by krfl
  have hrem : (Problem.run (ocCalls m P ci)).remapped = [("xp", .piece ⟨⟨[P * ci + 1, m.nx], 0⟩, P, ci + 1⟩),
        ("up", .piece ⟨⟨[P * ci + 1, m.nu], 0 + [P * ci + 1, m.nx].prod⟩, P, ci + 1⟩), ("xe", .xe ⟨⟨[P * ci + 1, m.nx], 0⟩⟩)] := by krfl
  have hcon : (Problem.run (ocCalls m P ci)).constraints = [⟨OptFun.mk' [P, ci, m.nx] m.e none, 0⟩,
      ⟨OptFun.mk' [P * ci + 1, m.ng] m.g none, 0 + [P, ci, m.nx].prod⟩,
        ⟨OptFun.mk' [m.nh] m.h none, 0 + [P, ci, m.nx].prod + [P * ci + 1, m.ng].prod⟩] := by krfl
  have hnc : (Problem.run (ocCalls m P ci)).ncons = 0 + [P, ci, m.nx].prod + [P * ci + 1, m.ng].prod + [m.nh].prod := by krfl
  refine ⟨_, ci, hq, by omega, rfl, rfl, rfl, htl, rfl, ?_, ?_, ?_, ?_, ?_, by krfl, rfl, fun hP => ⟨⟨_, rfl⟩, ?_⟩⟩
  · rw [hdec]
    simp [Nat.mul_add]
  · rw [hnd]
    simp [Nat.mul_add]
  · rw [hrem]
    simp
  · rw [hcon]
    simp [Nat.mul_assoc]
  · rw [hnc]
    simp [Nat.mul_assoc]
  · intro kv hkv
    simp only at hkv
    rw [hrem] at hkv
    have hpos : 0 < P * ci := Nat.mul_pos hP hci1
    simp only [List.mem_cons, List.not_mem_nil, or_false] at hkv
    rcases hkv with rfl | rfl | rfl
    · simp only [VarOK, hnd]
      refine ⟨hP, by omega, ⟨_, rfl⟩, ?_⟩
      simp
      omega
    · simp only [VarOK, hnd]
      refine ⟨hP, by omega, ⟨_, rfl⟩, ?_⟩
      simp
    · simp only [VarOK, hnd]
      refine ⟨⟨_, _, by omega, rfl⟩, ?_⟩
      simp
      omega

/-- When the constructors of the three classes reject the time grid, and with which exception (checked in this order). -/
theorem C21_rejects (init : ColProblem → Py ColProblem) (m : ColModel) (t : NDArray ℝ) :
    (m.collocationOrder < 2 → ColProblem.create init m t = .error .valueError) ∧
    (2 ≤ m.collocationOrder → t.shape.length ≠ 1 → ColProblem.create init m t = .error .assertionError) ∧
    (2 ≤ m.collocationOrder → t.shape.length = 1 → ¬ t.data.Pairwise (· < ·) →
      ColProblem.create init m t = .error .assertionError) ∧
    (2 ≤ m.collocationOrder → t.shape.length = 1 → t.data = [] → ColProblem.create init m t = .error .indexError) := by
  refine ⟨fun h => ?_, fun h hs => ?_, fun h hs hd => ?_, fun h hs hd => ?_⟩
  · have : lglCollocation m.collocationOrder = .error .valueError := by
      rw [lglCollocation, (C26_points _).1 h]
      rfl
    unfold ColProblem.create
    rw [this]
    rfl
  all_goals
    obtain ⟨col, hcol, -⟩ := lgl_ok m.collocationOrder h
    unfold ColProblem.create
    rw [hcol]
    simp only [py_bind_ok]
  · rw [pyAssert_false hs]
    rfl
  · rw [pyAssert_true hs]
    simp only [py_bind_ok]
    rw [pyAssert_false (by rw [diff_pos_iff]; exact hd)]
    rfl
  · rw [pyAssert_true hs]
    simp only [py_bind_ok]
    rw [pyAssert_true (by rw [hd]; simp [diff])]
    simp only [py_bind_ok]
    rw [hd, C22_empty]
    rfl

/-! ### Output error and joint MAP estimation -/

/-- The layout of an output error problem.  `P` is the number of pieces, `N` the number of collocation intervals of one. -/
theorem C21_oem (m : OEMModel) (t : NDArray ℝ) (y : MaskedArray) (u : UArg) (ua : NDArray ℝ) (P : Nat) (h : OEMInput m t y P)
    (hu : InputsOK m t u ua) :
    ∃ (q : OEMProblem) (N : Nat), oemProblem ColProblem.initVars m t y u = .ok q ∧ (N : Int) + 1 = m.collocationOrder ∧
      q.collocation.ninterv = N ∧ q.npieces = P ∧ q.npoints = P * N + 1 ∧ q.tc.length = q.npoints ∧ q.pieceLen = diff t.data ∧
      q.prob.decision = [("x", ⟨[q.npoints, m.nx], 0⟩), ("p", ⟨[m.np], q.npoints * m.nx⟩)] ∧
      q.prob.ndec = q.npoints * m.nx + m.np ∧
      q.prob.remapped = [("xp", .piece ⟨⟨[q.npoints, m.nx], 0⟩, P, N + 1⟩), ("xm", .xm ⟨⟨[q.npoints, m.nx], 0⟩, q.kmeas⟩)] ∧
      q.prob.constraints = [⟨OptFun.mk' [P, N, m.nx] m.e none, 0⟩] ∧ q.prob.ncons = P * N * m.nx ∧
      q.prob.objectives = [OptFun.mk' [q.nmeas] m.L (some ["y", "xm", "um", "p"])] ∧
      q.prob.extra = [("y", q.y.arr), ("um", q.um), ("u", ua), ("up", q.up), ("piece_len", ⟨[P], diff t.data⟩)] ∧
      ProblemOK q.prob (oemCalls m P N q.kmeas) := by
  obtain ⟨col, tc, up, -, h2, h3, -, h5, -, -, -, -, hq, -⟩ := oem_eq m t y u ua P h hu
  obtain ⟨hk1, hk2⟩ := kmeas_facts y.mask P col.ninterv m.ny h3
  refine ⟨_, col.ninterv, hq, h2, rfl, rfl, rfl, h5, rfl, ?_⟩
  simp only [oemObject]
  generalize hkm : (activeRows y.mask (P + 1) m.ny).map (· * col.ninterv) = kmeas at hk1 hk2 ⊢
  have hdec : (Problem.run (oemCalls m P col.ninterv kmeas)).decision = [("x", ⟨[P * col.ninterv + 1, m.nx], 0⟩),
      ("p", ⟨[m.np], 0 + [P * col.ninterv + 1, m.nx].prod⟩)] := by krfl
  have hnd : (Problem.run (oemCalls m P col.ninterv kmeas)).ndec = 0 + [P * col.ninterv + 1, m.nx].prod + [m.np].prod := by krfl
  have hnc : (Problem.run (oemCalls m P col.ninterv kmeas)).ncons = 0 + [P, col.ninterv, m.nx].prod := by krfl
  have hrem : (Problem.run (oemCalls m P col.ninterv kmeas)).remapped =
      [("xp", .piece ⟨⟨[P * col.ninterv + 1, m.nx], 0⟩, P, col.ninterv + 1⟩), ("xm", .xm ⟨⟨[P * col.ninterv + 1, m.nx], 0⟩, kmeas⟩)] := by
    krfl
  refine ⟨?_, ?_, hrem, by krfl, ?_, by krfl, by rw [← hkm]; rfl, ⟨⟨_, rfl⟩, ?_⟩⟩
  · rw [hdec]; simp
  · rw [hnd]; simp
  · rw [hnc]; simp [Nat.mul_assoc]
  · refine dep_ok _ P col.ninterv m.nx kmeas h.pieces h3 hk1 hk2 ?_ hrem
    rw [hnd]; simp

/-- The layout of a joint MAP problem. -/
theorem C21_jme (m : JMEModel) (t : NDArray ℝ) (y : MaskedArray) (u : UArg) (ua : NDArray ℝ) (P : Nat) (h : OEMInput m.toOEMModel t y P)
    (hu : InputsOK m.toOEMModel t u ua) (hpen : m.usePenalty = some true → m.penalty ≠ none) :
    ∃ (q : OEMProblem) (N : Nat), jmeProblem m t y u = .ok q ∧ (N : Int) + 1 = m.collocationOrder ∧
      q.collocation.ninterv = N ∧ q.npieces = P ∧ q.npoints = P * N + 1 ∧ q.tc.length = q.npoints ∧ q.pieceLen = diff t.data ∧
      q.prob.decision = [("x", ⟨[q.npoints, m.nx], 0⟩), ("wc", ⟨[P, N, m.nw], q.npoints * m.nx⟩),
        ("p", ⟨[m.np], q.npoints * m.nx + P * N * m.nw⟩)] ∧
      q.prob.ndec = q.npoints * m.nx + P * N * m.nw + m.np ∧
      q.prob.remapped = [("xp", .piece ⟨⟨[q.npoints, m.nx], 0⟩, P, N + 1⟩), ("xm", .xm ⟨⟨[q.npoints, m.nx], 0⟩, q.kmeas⟩)] ∧
      q.prob.constraints = [⟨OptFun.mk' [P, N, m.nx] m.e none, 0⟩] ∧ q.prob.ncons = P * N * m.nx ∧
      q.prob.objectives = [OptFun.mk' [q.nmeas] m.L (some ["y", "xm", "um", "p"]), OptFun.mk' [P] m.tubeL none] ++
        (match m.usePenalty, m.penalty with | some true, some f => [OptFun.mk' [P] f none] | _, _ => []) ∧
      q.prob.extra = (match m.penweight with | some w => [("penweight", w)] | none => []) ++
        [("G", m.G), ("y", q.y.arr), ("um", q.um), ("u", ua), ("up", q.up), ("piece_len", ⟨[P], diff t.data⟩)] ∧
      ProblemOK q.prob (jmeCalls m P N q.kmeas) := by
  obtain ⟨col, tc, up, -, h2, h3, -, h5, -, -, -, -, hq⟩ := jme_eq m t y u ua P h hu hpen
  obtain ⟨hk1, hk2⟩ := kmeas_facts y.mask P col.ninterv m.ny h3
  refine ⟨_, col.ninterv, hq, h2, rfl, rfl, rfl, h5, rfl, ?_⟩
  simp only [oemObject]
  have hext : jmeExtra m t y ua up P col.ninterv = (match m.penweight with | some w => [("penweight", w)] | none => []) ++
      ("G", m.G) :: oemExtra m.toOEMModel t y ua up P col.ninterv := by
    rw [jmeExtra, List.append_assoc]; rfl
  generalize hkm : (activeRows y.mask (P + 1) m.ny).map (· * col.ninterv) = kmeas at hk1 hk2 ⊢
  have hpc : penaltyCalls m P = [] ∨ ∃ f, penaltyCalls m P = [.objective f (.int P) none] := by
    unfold penaltyCalls
    split
    · exact Or.inr ⟨_, rfl⟩
    · exact Or.inl rfl
  have hdec : (Problem.run (jmeCalls m P col.ninterv kmeas)).decision = [("x", ⟨[P * col.ninterv + 1, m.nx], 0⟩),
      ("wc", ⟨[P, col.ninterv, m.nw], 0 + [P * col.ninterv + 1, m.nx].prod⟩),
      ("p", ⟨[m.np], 0 + [P * col.ninterv + 1, m.nx].prod + [P, col.ninterv, m.nw].prod⟩)] := by
    unfold jmeCalls
    rcases hpc with h | ⟨f, h⟩ <;> rw [h] <;> krfl
  have hnd : (Problem.run (jmeCalls m P col.ninterv kmeas)).ndec = 0 + [P * col.ninterv + 1, m.nx].prod +
      [P, col.ninterv, m.nw].prod + [m.np].prod := by
    unfold jmeCalls
    rcases hpc with h | ⟨f, h⟩ <;> rw [h] <;> krfl
  have hnc : (Problem.run (jmeCalls m P col.ninterv kmeas)).ncons = 0 + [P, col.ninterv, m.nx].prod := by
    unfold jmeCalls
    rcases hpc with h | ⟨f, h⟩ <;> rw [h] <;> krfl
  have hcon : (Problem.run (jmeCalls m P col.ninterv kmeas)).constraints = [⟨OptFun.mk' [P, col.ninterv, m.nx] m.e none, 0⟩] := by
    unfold jmeCalls
    rcases hpc with h | ⟨f, h⟩ <;> rw [h] <;> krfl
  have hrem : (Problem.run (jmeCalls m P col.ninterv kmeas)).remapped =
      [("xp", .piece ⟨⟨[P * col.ninterv + 1, m.nx], 0⟩, P, col.ninterv + 1⟩), ("xm", .xm ⟨⟨[P * col.ninterv + 1, m.nx], 0⟩, kmeas⟩)] := by
    unfold jmeCalls
    rcases hpc with h | ⟨f, h⟩ <;> rw [h] <;> krfl
  refine ⟨?_, ?_, hrem, hcon, ?_, ?_, ?_, ⟨⟨_, rfl⟩, ?_⟩⟩
  · rw [hdec]; simp [Nat.mul_assoc]
  · rw [hnd]; simp [Nat.mul_assoc]
  · rw [hnc]; simp [Nat.mul_assoc]
  · obtain ⟨m, nw, tubeL, G, uP, pen, pw⟩ := m
    rcases uP with _ | _ | _ <;> cases pen <;> krfl
  · rw [hext, ← hkm]; rfl
  · refine dep_ok _ P col.ninterv m.nx kmeas h.pieces h3 hk1 hk2 ?_ hrem
    rw [hnd]; simp [Nat.add_assoc]

/-- Wrong measurements or inputs are rejected with AssertionError by both classes (`init` is the initialisation of either). -/
theorem C21_oem_rejects (init : ColProblem → Py ColProblem) (m : OEMModel) (t : NDArray ℝ) (y : MaskedArray) (u : UArg) (q : ColProblem)
    (hq : ColProblem.create init m.toColModel t = .ok q) :
    (y.arr.shape ≠ [t.data.length, m.ny] → oemProblem init m t y u = .error .assertionError) ∧
    (y.arr.shape = [t.data.length, m.ny] → y.arr.WF → y.mask.length = t.data.length * m.ny →
      (u.resolve q.tc = .ok .other ∨ ∃ ua, u.resolve q.tc = .ok (.array ua) ∧ ua.shape ≠ [q.npoints, m.nu]) →
        oemProblem init m t y u = .error .assertionError) ∧
    (y.arr.shape = [t.data.length, m.ny] → y.arr.WF → y.mask.length = t.data.length * m.ny →
      ∀ e, u.resolve q.tc = .error e → oemProblem init m t y u = .error e) := by
  have hr := activeRows_lt y.mask t.data.length m.ny
  refine ⟨fun h => ?_, fun h hw hm hu => ?_, fun h hw hm e he => ?_⟩
  · unfold oemProblem
    rw [hq]
    simp only [py_bind_ok]
    rw [pyAssert_false h]
    rfl
  all_goals
    have hyl : y.arr.data.length = t.data.length * m.ny := by rw [hw, h]; simp
    unfold oemProblem
    rw [hq]
    simp only [py_bind_ok]
    rw [pyAssert_true h]
    simp only [py_bind_ok]
    rw [takeRows_eq 0 _ _ _ _ hr hyl, takeRows_eq true _ _ _ _ hr hm]
    simp only [py_bind_ok]
  · rcases hu with hu | ⟨ua, hu, hs⟩
    · rw [hu]
      rfl
    · rw [hu]
      simp only [py_bind_ok, UValue.asArray]
      rw [pyAssert_false hs]
      rfl
  · rw [he]
    rfl

/-- A time grid with a single time makes no piece, and the construction fails with IndexError (oem.py:45). -/
theorem C21_oem_single_time (m : OEMModel) (hn : 2 ≤ m.collocationOrder) (t : NDArray ℝ) (hs : t.shape = [1]) (hw : t.WF)
    (y : MaskedArray) (hys : y.arr.shape = [1, m.ny]) (hyw : y.arr.WF) (hym : y.mask.length = m.ny) (u : UArg) (ua : NDArray ℝ)
    (hu : InputsOK m t u ua) : oemProblem ColProblem.initVars m t y u = .error .indexError := by
  have htd : t.data.length = 1 := by rw [hw, hs]; rfl
  have hinc : t.data.Pairwise (· < ·) := by
    obtain ⟨a, ha⟩ := List.length_eq_one_iff.1 htd
    rw [ha]; simp
  obtain ⟨col, tc, hcol, hcn, hci, hci1, htc, htl, -, -, -, hcr⟩ := create_eq m.toColModel hn t 0 hs hw hinc
  obtain ⟨hu1, hu2, hu3⟩ := hu col tc hcol htc
  rw [Nat.zero_mul] at htl
  rw [htl] at hu2
  unfold oemProblem
  rw [hcr]
  have hr := activeRows_lt y.mask 1 m.ny
  have hyl : y.arr.data.length = 1 * m.ny := by rw [hyw, hys]; simp
  have hul : ua.data.length = 1 * m.nu := by rw [hu3, hu2]; simp
  obtain ⟨q, hq, hq1, hq2, hq3, hq4⟩ : ∃ q, (ColProblem.initVars ⟨Problem.empty, m.toColModel, col, diff t.data, 0, tc, 0 * col.ninterv + 1⟩)
      = .ok q ∧ q.tc = tc ∧ q.npoints = 0 * col.ninterv + 1 ∧ q.npieces = 0 ∧ q.collocation = col := by
    refine ⟨⟨Problem.run [.decision (.str "x") (.tuple [0 * col.ninterv + 1, m.nx]),
      .dependent (.str "xp") (.piece ⟨⟨[0 * col.ninterv + 1, m.nx], 0⟩, 0, col.n⟩)], m.toColModel, col, diff t.data, 0, tc,
      0 * col.ninterv + 1⟩, by krfl, rfl, rfl, rfl, rfl⟩
  rw [hq]
  simp only [py_bind_ok, py_pure, hq1, hq2, hq3, hq4, htd]
  rw [pyAssert_true hys]
  simp only [py_bind_ok]
  have hk := (kmeas_facts y.mask 0 col.ninterv m.ny hci1).1
  simp only [Nat.zero_mul, Nat.zero_add] at hk ⊢
  rw [takeRows_eq 0 _ _ _ _ hr hyl, takeRows_eq true _ _ _ _ hr (by rw [hym, Nat.one_mul])]
  simp only [py_bind_ok]
  rw [hu1]
  simp only [py_bind_ok, UValue.asArray]
  rw [pyAssert_true hu2]
  simp only [py_bind_ok]
  rw [takeRows_eq 0 _ _ _ _ hk hul]
  simp only [py_bind_ok]
  have := oemUp_eq ua 0 col.ninterv m.nu (by rw [hu2, Nat.zero_mul]) hu3
  rw [Nat.zero_mul, hci] at this
  rw [this, C14_no_pieces 0 col.ninterv [m.nu] hci1 ua.data (by simp [hul])]
  rfl

/-! ### C19 and C20 -/

/-- **C19** for output error problems. -/
theorem C19_oem (m : OEMModel) (t : NDArray ℝ) (y : MaskedArray) (u : UArg) (ua : NDArray ℝ) (P : Nat) (h : OEMInput m t y P)
    (hu : InputsOK m t u ua) :
    ∃ q rows, oemProblem ColProblem.initVars m t y u = .ok q ∧ MeasuredRows y.mask (P + 1) m.ny rows ∧ Aligned q m t y ua rows := by
  obtain ⟨col, tc, up, -, h2, h3, -, h5, h6, -, -, -, hq, -⟩ := oem_eq m t y u ua P h hu
  obtain ⟨hk1, hk2⟩ := kmeas_facts y.mask P col.ninterv m.ny h3
  refine ⟨_, _, hq, measured_activeRows _ _ _ h.ymask, ?_⟩
  have hnd : (Problem.run (oemCalls m P col.ninterv ((activeRows y.mask (P + 1) m.ny).map (· * col.ninterv)))).ndec =
      0 + [P * col.ninterv + 1, m.nx].prod + [m.np].prod := by krfl
  have hd : (P * col.ninterv + 1) * m.nx ≤
      (Problem.run (oemCalls m P col.ninterv ((activeRows y.mask (P + 1) m.ny).map (· * col.ninterv)))).ndec := by
    rw [hnd]; simp
  have hp : ProblemOK { Problem.run (oemCalls m P col.ninterv ((activeRows y.mask (P + 1) m.ny).map (· * col.ninterv))) with
      extra := oemExtra m t y ua up P col.ninterv } _ :=
    ⟨⟨_, rfl⟩, dep_ok _ P col.ninterv m.nx _ h.pieces h3 hk1 hk2 hd (by krfl)⟩
  refine oem_aligned m t y ua up P col.ninterv col tc _ _ hp h3 rfl h6 (by krfl) (by krfl) hd ?_ (fun s hs => rfl)
  intro s hs
  refine ⟨.valueError, ?_⟩
  simp only [List.mem_cons, List.not_mem_nil, or_false] at hs
  rcases hs with rfl | rfl | rfl | rfl <;> krfl

/-- **C19** for joint MAP problems. -/
theorem C19_jme (m : JMEModel) (t : NDArray ℝ) (y : MaskedArray) (u : UArg) (ua : NDArray ℝ) (P : Nat) (h : OEMInput m.toOEMModel t y P)
    (hu : InputsOK m.toOEMModel t u ua) (hpen : m.usePenalty = some true → m.penalty ≠ none) :
    ∃ q rows, jmeProblem m t y u = .ok q ∧ MeasuredRows y.mask (P + 1) m.ny rows ∧ Aligned q m.toOEMModel t y ua rows := by
  obtain ⟨col, tc, up, -, h2, h3, -, h5, h6, -, -, -, hq⟩ := jme_eq m t y u ua P h hu hpen
  obtain ⟨hk1, hk2⟩ := kmeas_facts y.mask P col.ninterv m.ny h3
  refine ⟨_, _, hq, measured_activeRows _ _ _ h.ymask, ?_⟩
  have hpc : penaltyCalls m P = [] ∨ ∃ f, penaltyCalls m P = [.objective f (.int P) none] := by
    unfold penaltyCalls
    split
    · exact Or.inr ⟨_, rfl⟩
    · exact Or.inl rfl
  have hnd : (Problem.run (jmeCalls m P col.ninterv ((activeRows y.mask (P + 1) m.ny).map (· * col.ninterv)))).ndec =
      0 + [P * col.ninterv + 1, m.nx].prod + [P, col.ninterv, m.nw].prod + [m.np].prod := by
    unfold jmeCalls
    rcases hpc with h | ⟨f, h⟩ <;> rw [h] <;> krfl
  have hd : (P * col.ninterv + 1) * m.nx ≤
      (Problem.run (jmeCalls m P col.ninterv ((activeRows y.mask (P + 1) m.ny).map (· * col.ninterv)))).ndec := by
    rw [hnd]; simp [Nat.add_assoc]
  have hp : ProblemOK { Problem.run (jmeCalls m P col.ninterv ((activeRows y.mask (P + 1) m.ny).map (· * col.ninterv))) with
      extra := jmeExtra m t y ua up P col.ninterv }
      (jmeCalls m P col.ninterv ((activeRows y.mask (P + 1) m.ny).map (· * col.ninterv))) := by
    refine ⟨⟨_, rfl⟩, dep_ok _ P col.ninterv m.nx _ h.pieces h3 hk1 hk2 hd ?_⟩
    unfold jmeCalls
    rcases hpc with h | ⟨f, h⟩ <;> rw [h] <;> krfl
  refine oem_aligned m.toOEMModel t y ua up P col.ninterv col tc _ _ hp h3 rfl h6 ?_ ?_ hd ?_ ?_
  · unfold jmeCalls
    rcases hpc with h | ⟨f, h⟩ <;> rw [h] <;> krfl
  · unfold jmeCalls
    rcases hpc with h | ⟨f, h⟩ <;> rw [h] <;> krfl
  · intro s hs
    refine ⟨.valueError, ?_⟩
    simp only [List.mem_cons, List.not_mem_nil, or_false] at hs
    unfold jmeCalls
    rcases hpc with h | ⟨f, h⟩ <;> rw [h] <;> rcases hs with rfl | rfl | rfl | rfl <;> krfl
  · intro s hs
    simp only [List.mem_cons, List.not_mem_nil, or_false] at hs
    simp only [jmeExtra]
    cases m.penweight <;> rcases hs with rfl | rfl | rfl | rfl <;> rfl

/-- Entry `(k, c)` of a piece-ravelled array is grid point `k * N + c`. -/
def PieceRavelledOf (up u : NDArray ℝ) (P N nu : Nat) : Prop :=
  up.shape = [P, N + 1, nu] ∧ up.WF ∧ ∀ k < P, ∀ c < N + 1, ∀ e < nu,
    up.data.getD ((k * (N + 1) + c) * nu + e) 0 = u.data.getD ((k * N + c) * nu + e) 0

theorem pieceRavelledOf (u : NDArray ℝ) (P N nu : Nat) (hP : 1 ≤ P) (hN : 1 ≤ N) (hs : u.shape = [P * N + 1, nu]) (hw : u.WF)
    (up : NDArray ℝ) (h : (pieceVar 0 P N [nu]).unpackFrom u.data = .ok up) : PieceRavelledOf up u P N nu := by
  have hl : u.data.length = (P * N + 1) * nu := by rw [hw, hs]; simp
  obtain ⟨out, h1, h2, h3, h4, -⟩ := C14_piece_unpack 0 P N [nu] hP hN u.data (by simp [hl])
  rw [h] at h1
  cases h1
  refine ⟨h2, h3, fun k hk c hc e he => ?_⟩
  have := (h4 k c e hk hc (by simpa using he)).1
  simp only [List.prod_cons, List.prod_nil, Nat.mul_one, Nat.zero_add] at this
  rw [List.getD_eq_getElem?_getD, List.getD_eq_getElem?_getD, this]

/-- **C20.** The stored piece-ravelled inputs hold at `(k, c)` the input at grid point `k * N + c`, and are what a
piece-ravelled variable of the inputs unpacks to. -/
theorem C20_up (m : OEMModel) (t : NDArray ℝ) (y : MaskedArray) (u : UArg) (ua : NDArray ℝ) (P : Nat) (h : OEMInput m t y P)
    (hu : InputsOK m t u ua) :
    ∃ q, oemProblem ColProblem.initVars m t y u = .ok q ∧ q.u = ua ∧ PieceRavelledOf q.up ua P q.collocation.ninterv m.nu ∧
      (pieceVar 0 P q.collocation.ninterv [m.nu]).unpackFrom ua.data = .ok q.up := by
  obtain ⟨col, tc, up, -, h2, h3, -, h5, h6, hup, hs, hw, hq, -⟩ := oem_eq m t y u ua P h hu
  exact ⟨_, hq, rfl, pieceRavelledOf ua P _ m.nu h.pieces h3 hs hw up hup, hup⟩

theorem C20_up_jme (m : JMEModel) (t : NDArray ℝ) (y : MaskedArray) (u : UArg) (ua : NDArray ℝ) (P : Nat) (h : OEMInput m.toOEMModel t y P)
    (hu : InputsOK m.toOEMModel t u ua) (hpen : m.usePenalty = some true → m.penalty ≠ none) :
    ∃ q, jmeProblem m t y u = .ok q ∧ q.u = ua ∧ PieceRavelledOf q.up ua P q.collocation.ninterv m.nu ∧
      (pieceVar 0 P q.collocation.ninterv [m.nu]).unpackFrom ua.data = .ok q.up := by
  obtain ⟨col, tc, up, -, h2, h3, -, h5, h6, hup, hs, hw, hq⟩ := jme_eq m t y u ua P h hu hpen
  exact ⟨_, hq, rfl, pieceRavelledOf ua P _ m.nu h.pieces h3 hs hw up hup, hup⟩

/-- The pieces of inputs and states line up: with a decision vector that holds the inputs in place of the states, `xp` and
`up` are the same array. -/
theorem C20_like_states (m : OEMModel) (t : NDArray ℝ) (y : MaskedArray) (u : UArg) (ua : NDArray ℝ) (P : Nat) (h : OEMInput m t y P)
    (hu : InputsOK m t u ua) (hx : m.nx = m.nu) :
    ∃ q, oemProblem ColProblem.initVars m t y u = .ok q ∧ ∀ par : List ℝ, par.length = m.np →
      ∃ vs, q.prob.variables (ua.data ++ par) = .ok vs ∧ Dict.get? vs "xp" = some q.up ∧ Dict.get? vs "up" = some q.up := by
  obtain ⟨col, tc, up, -, h2, h3, -, h5, h6, hup, hs, hw, hq, -⟩ := oem_eq m t y u ua P h hu
  obtain ⟨hk1, hk2⟩ := kmeas_facts y.mask P col.ninterv m.ny h3
  refine ⟨_, hq, fun par hpar => ?_⟩
  simp only [oemObject]
  generalize hkm : (activeRows y.mask (P + 1) m.ny).map (· * col.ninterv) = kmeas at hk1 hk2 ⊢
  have hnd : (Problem.run (oemCalls m P col.ninterv kmeas)).ndec =
      0 + [P * col.ninterv + 1, m.nx].prod + [m.np].prod := by krfl
  have hul : ua.data.length = (P * col.ninterv + 1) * m.nu := by rw [hw, hs]; simp
  have hd : (P * col.ninterv + 1) * m.nx ≤ (Problem.run (oemCalls m P col.ninterv kmeas)).ndec := by
    rw [hnd]; simp
  have hp : ProblemOK { Problem.run (oemCalls m P col.ninterv kmeas) with extra := oemExtra m t y ua up P col.ninterv }
      (oemCalls m P col.ninterv kmeas) := ⟨⟨_, rfl⟩, dep_ok _ P col.ninterv m.nx _ h.pieces h3 hk1 hk2 hd (by krfl)⟩
  have hlen : (ua.data ++ par).length = (Problem.run (oemCalls m P col.ninterv kmeas)).ndec := by
    rw [hnd, List.length_append, hul, hpar, hx]; simp
  obtain ⟨vs, hvs, h1, h2'⟩ := variables_eq hp (ua.data ++ par) hlen
  have hspec : ({ Problem.run (oemCalls m P col.ninterv kmeas) with extra := oemExtra m t y ua up P col.ninterv } : Problem ℝ).variableSpec
      "xp" = .ok (.piece ⟨⟨[P * col.ninterv + 1, m.nx], 0⟩, P, col.ninterv + 1⟩) := by krfl
  refine ⟨vs, hvs, ?_, by rw [h2' "up" .valueError (by krfl)]; rfl⟩
  have hgat := (spec_gathers hp hspec).unpack (ua.data ++ par) hlen
  rw [h1 _ _ hspec]
  congr 1
  have hpv : (pieceVar 0 P col.ninterv [m.nu]).unpackFrom (ua.data ++ par) = .ok up := by
    rw [← hup]
    obtain ⟨o1, g1, s1, w1, e1, -⟩ := C14_piece_unpack 0 P col.ninterv [m.nu] h.pieces h3 (ua.data ++ par) (by simp [hul])
    obtain ⟨o2, g2, s2, w2, e2, -⟩ := C14_piece_unpack 0 P col.ninterv [m.nu] h.pieces h3 ua.data (by simp [hul])
    rw [g1, g2]
    congr 1
    have hdd : o1.data = o2.data := by
      apply List.ext_getElem?
      intro i
      by_cases hi : i < P * (col.ninterv + 1) * m.nu
      · have hnu : 0 < m.nu := Nat.pos_of_ne_zero fun h => by simp [h] at hi
        have hi1 : i / m.nu < P * (col.ninterv + 1) := (Nat.div_lt_iff_lt_mul hnu).2 hi
        have hk : i / m.nu / (col.ninterv + 1) < P := (Nat.div_lt_iff_lt_mul (by omega)).2 hi1
        have hc : i / m.nu % (col.ninterv + 1) < col.ninterv + 1 := Nat.mod_lt _ (by omega)
        have he : i % m.nu < [m.nu].prod := by simpa using Nat.mod_lt i hnu
        have a1 := (e1 _ _ _ hk hc he).1
        have a2 := e2 _ _ _ hk hc he
        simp only [List.prod_cons, List.prod_nil, Nat.mul_one, Nat.div_add_mod'] at a1 a2
        rw [a1, a2.1, List.getElem?_append_left a2.2]
      · rw [List.getElem?_eq_none, List.getElem?_eq_none]
        · rw [w2, s2]; simp only [List.prod_cons, List.prod_nil, Nat.mul_one, ← Nat.mul_assoc]; omega
        · rw [w1, s1]; simp only [List.prod_cons, List.prod_nil, Nat.mul_one, ← Nat.mul_assoc]; omega
    have hss : o1.shape = o2.shape := by rw [s1, s2]
    cases o1; cases o2
    simp_all
  rw [hx] at hgat ⊢
  have : (VarSpec.piece ⟨⟨[P * col.ninterv + 1, m.nu], 0⟩, P, col.ninterv + 1⟩).unpackFrom (ua.data ++ par) =
      (pieceVar 0 P col.ninterv [m.nu]).unpackFrom (ua.data ++ par) := rfl
  rw [this, hpv] at hgat
  exact (Except.ok.inj hgat).symm

/-! ### The hypotheses are met: three times, the second measurement fully masked, second-order collocation. -/

section Examples

private def exProbFun (name : String) : GenFun ℝ := ⟨name, [], [], [], fun _ => ⟨[], [0]⟩, [], [], []⟩
private def exModel : OEMModel := ⟨⟨2, 2, exProbFun "e"⟩, 1, 1, 2, exProbFun "L"⟩
private def exT : NDArray ℝ := ⟨[3], [0, 1, 3]⟩
private def exY : MaskedArray := ⟨⟨[3, 2], [1, 2, 3, 4, 5, 6]⟩, [false, true, true, true, false, false]⟩
private def exU : NDArray ℝ := ⟨[3, 1], [7, 8, 9]⟩

private theorem exInput : OEMInput exModel exT exY 2 where
  order := by decide
  pieces := by omega
  tshape := rfl
  twf := rfl
  tinc := by norm_num [exT]
  yshape := rfl
  ywf := rfl
  ymask := rfl

private theorem exInputs : InputsOK exModel exT (.callable fun _ => .ok (.array exU)) exU := by
  intro col tc hcol htc
  obtain ⟨col', tc', h1, h2, h3, -, h5, h6, -⟩ := create_eq exModel.toColModel exInput.order exT 2 rfl rfl exInput.tinc
  have e1 : lglCollocation exModel.collocationOrder = .ok col' := h1
  rw [hcol] at e1
  cases e1
  rw [htc] at h5
  cases h5
  have hn : col.ninterv = 1 := by
    have : (col.n : Int) = 2 := h2
    omega
  refine ⟨rfl, ?_, rfl⟩
  rw [h6, hn]
  rfl

example : activeRows exY.mask 3 2 = [0, 2] := by decide

/-- The second of the two measurements kept is the third one given, at time 3. -/
example : ∃ q, oemProblem ColProblem.initVars exModel exT exY (.callable fun _ => .ok (.array exU)) = .ok q ∧ q.nmeas = 2 ∧
    q.tc.getD (q.kmeas.getD 1 0) 0 = 3 ∧ q.y.arr.data.getD (1 * 2 + 1) 0 = 6 ∧ q.y.mask.getD (0 * 2 + 1) false = true := by
  obtain ⟨q, rows, hq, hr, ha⟩ := C19_oem exModel exT exY _ exU 2 exInput exInputs
  have hrows : rows = [0, 2] := by
    have h2 : ∀ k, k ∈ rows ↔ k ∈ [0, 2] := by
      intro k
      rw [hr.2]
      constructor
      · rintro ⟨hk, j, hj, h⟩
        have hj : j < 2 := hj
        interval_cases k <;> interval_cases j <;> simp_all [exY, exModel]
      · intro hk
        simp only [List.mem_cons, List.not_mem_nil, or_false] at hk
        rcases hk with rfl | rfl
        · exact ⟨by omega, 0, by decide, rfl⟩
        · exact ⟨by omega, 0, by decide, rfl⟩
    have hp : rows.Perm [0, 2] := (List.perm_ext_iff_of_nodup (hr.1.imp fun h => h.ne) (by decide)).2 h2
    exact hp.eq_of_pairwise (le := (· < ·)) (fun a b _ _ h1 h2 => absurd h1 (by omega)) hr.1 (by decide)
  subst hrows
  refine ⟨q, hq, ha.nmeas, ?_, ?_, ?_⟩
  · rw [ha.time 1 (by decide)]; rfl
  · exact (ha.meas 1 (by decide) 1 (by decide)).1
  · have := (ha.meas 0 (by decide) 1 (by decide)).2
    have h2 := ha.yshape.2.2
    rw [List.getD_eq_getElem?_getD, List.getElem?_eq_getElem (by rw [h2]; decide)] at this ⊢
    exact this.trans rfl

example : ∃ (q : OEMProblem), oemProblem ColProblem.initVars exModel exT exY (.callable fun _ => .ok (.array exU)) = .ok q ∧ q.prob.ndec = 7 ∧
    q.prob.ncons = 4 := by
  obtain ⟨q, N, h1, h2, -, -, h3, -, -, -, h4, -, -, h5, -⟩ := C21_oem exModel exT exY _ exU 2 exInput exInputs
  have hN : N = 1 := by
    have : (N : Int) + 1 = 2 := h2
    omega
  subst hN
  exact ⟨q, h1, by rw [h4, h3]; rfl, by rw [h5]; rfl⟩

example : ∃ q, oemProblem ColProblem.initVars exModel exT exY (.callable fun _ => .ok (.array exU)) = .ok q ∧
    PieceRavelledOf q.up exU 2 q.collocation.ninterv 1 := by
  obtain ⟨q, h1, -, h2, -⟩ := C20_up exModel exT exY _ exU 2 exInput exInputs
  exact ⟨q, h1, h2⟩

private def exOC : OCModel := ⟨⟨3, 2, exProbFun "e"⟩, 1, 1, 2, 1, exProbFun "IL", exProbFun "M", exProbFun "g", exProbFun "h"⟩

/-- Two pieces of three points: five grid points, so 16 decision variables and 8 + 10 + 1 constraints. -/
example : ∃ (q : ColProblem), ocProblem exOC exT = .ok q ∧ q.prob.ndec = 16 ∧ q.prob.ncons = 19 := by
  obtain ⟨q, N, h1, h2, -, -, h3, -, -, -, h4, -, -, h5, -⟩ := C21_oc exOC (by decide) exT 2 rfl rfl exInput.tinc
  have hN : N = 2 := by
    have : (N : Int) + 1 = 3 := h2
    omega
  subst hN
  exact ⟨q, h1, by rw [h4, h3]; rfl, by rw [h5, h3]; rfl⟩

private def exJME : JMEModel := ⟨exModel, 1, exProbFun "tube_L", ⟨[2, 1], [0, 1]⟩, some true, some (exProbFun "penalty"), none⟩

example : ∃ (q : OEMProblem), jmeProblem exJME exT exY (.callable fun _ => .ok (.array exU)) = .ok q ∧ q.prob.ndec = 9 ∧
    q.prob.objectives.length = 3 := by
  obtain ⟨q, N, h1, h2, -, -, h3, -, -, -, h4, -, -, -, h5, -⟩ := C21_jme exJME exT exY _ exU 2 exInput exInputs (by simp [exJME])
  have hN : N = 1 := by
    have : (N : Int) + 1 = 2 := h2
    omega
  subst hN
  exact ⟨q, h1, by rw [h4, h3]; rfl, by rw [h5]; rfl⟩

/-- The rejections occur: a decreasing time grid, a flat measurement array, an input that is not an array. -/
example : ColProblem.create ColProblem.initVars exModel.toColModel ⟨[2], [1, 0]⟩ = .error .assertionError :=
  (C21_rejects _ _ _).2.2.1 (by decide) rfl (by norm_num)

example : ∃ q, ColProblem.create ColProblem.initVars exModel.toColModel exT = .ok q ∧
    oemProblem ColProblem.initVars exModel exT ⟨⟨[6], [1, 2, 3, 4, 5, 6]⟩, []⟩ (.value .other) = .error .assertionError ∧
    oemProblem ColProblem.initVars exModel exT exY (.value .other) = .error .assertionError := by
  obtain ⟨col, tc, -, -, -, -, -, -, -, -, -, hcr⟩ := create_eq exModel.toColModel exInput.order exT 2 rfl rfl exInput.tinc
  have h : ∃ q, ColProblem.create ColProblem.initVars exModel.toColModel exT = .ok q := by
    rw [hcr]
    exact ⟨⟨{ Problem.run [.decision (.str "x") (.tuple [2 * col.ninterv + 1, 2]),
           .dependent (.str "xp") (.piece ⟨⟨[2 * col.ninterv + 1, 2], 0⟩, 2, col.n⟩),
           .constraint exModel.e (.tuple [2, col.ninterv, 2]) none] with extra := [("piece_len", ⟨[2], diff exT.data⟩)] },
           exModel.toColModel, col, diff exT.data, 2, tc, 2 * col.ninterv + 1⟩, by krfl⟩
  obtain ⟨q, hq⟩ := h
  exact ⟨q, hq, (C21_oem_rejects _ exModel exT _ _ q hq).1 (by decide),
    (C21_oem_rejects _ exModel exT exY _ q hq).2.1 rfl rfl rfl (Or.inl rfl)⟩

end Examples

end Ceacoest
