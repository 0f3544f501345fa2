import Verif.Lemmas.Problems
import Verif.Lemmas.Registered
import Verif.Spec.Problems

/-! Helper lemmas: the objects that the constructors of the output error and joint MAP classes return. -/

namespace Ceacoest
open Spec RK

/-- The constants of an output error problem. -/
noncomputable def oemExtra (m : OEMModel) (t : NDArray ℝ) (y : MaskedArray) (ua up : NDArray ℝ) (P N : Nat) : Dict String (NDArray ℝ) :=
  let rows := activeRows y.mask (P + 1) m.ny
  let kmeas := rows.map (· * N)
  [("y", ⟨[kmeas.length, m.ny], (List.range (rows.length * m.ny)).map fun i => y.arr.data.getD (rowConv rows m.ny i) 0⟩),
   ("um", ⟨[kmeas.length, m.nu], (List.range (kmeas.length * m.nu)).map fun i => ua.data.getD (rowConv kmeas m.nu i) 0⟩),
   ("u", ua), ("up", up), ("piece_len", ⟨[P], diff t.data⟩)]

/-- The object that oem.py returns, given the problem with its registrations. -/
noncomputable def oemObject (m : OEMModel) (t : NDArray ℝ) (y : MaskedArray) (ua up : NDArray ℝ) (P N : Nat) (col : Collocation ℝ)
    (tc : List ℝ) (p : Problem ℝ) : OEMProblem :=
  let rows := activeRows y.mask (P + 1) m.ny
  let kmeas := rows.map (· * N)
  ⟨⟨p, m.toColModel, col, diff t.data, P, tc, P * N + 1⟩, kmeas,
    ⟨⟨[kmeas.length, m.ny], (List.range (rows.length * m.ny)).map fun i => y.arr.data.getD (rowConv rows m.ny i) 0⟩,
      (List.range (rows.length * m.ny)).map fun i => y.mask.getD (rowConv rows m.ny i) true⟩, kmeas.length, ua,
    ⟨[kmeas.length, m.nu], (List.range (kmeas.length * m.nu)).map fun i => ua.data.getD (rowConv kmeas m.nu i) 0⟩, up⟩

theorem oem_eq (m : OEMModel) (t : NDArray ℝ) (y : MaskedArray) (u : UArg) (ua : NDArray ℝ) (P : Nat) (h : OEMInput m t y P)
    (hu : InputsOK m t u ua) :
    ∃ col tc up, lglCollocation m.collocationOrder = .ok col ∧ (col.ninterv : Int) + 1 = m.collocationOrder ∧ 1 ≤ col.ninterv ∧
      grid col.points t.data = .ok tc ∧ tc.length = P * col.ninterv + 1 ∧
      (∀ k < P + 1, tc.getD (k * col.ninterv) 0 = t.data.getD k 0) ∧
      (pieceVar 0 P col.ninterv [m.nu]).unpackFrom ua.data = .ok up ∧ ua.shape = [P * col.ninterv + 1, m.nu] ∧ ua.WF ∧
      oemProblem ColProblem.initVars m t y u = .ok (oemObject m t y ua up P col.ninterv col tc
        { Problem.run (oemCalls m P col.ninterv ((activeRows y.mask (P + 1) m.ny).map (· * col.ninterv))) with
          extra := oemExtra m t y ua up P col.ninterv }) ∧
      ∀ nw, oemProblem (jmeInitVars nw) m t y u = .ok (oemObject m t y ua up P col.ninterv col tc
        { Problem.run ([.decision (.str "x") (.tuple [P * col.ninterv + 1, m.nx]),
           .dependent (.str "xp") (.piece ⟨⟨[P * col.ninterv + 1, m.nx], 0⟩, P, col.ninterv + 1⟩),
           .decision (.str "wc") (.tuple [P, col.ninterv, nw]),
           .constraint m.e (.tuple [P, col.ninterv, m.nx]) none,
           .decision (.str "p") (.int m.np),
           .dependent (.str "xm") (.xm ⟨⟨[P * col.ninterv + 1, m.nx], 0⟩, (activeRows y.mask (P + 1) m.ny).map (· * col.ninterv)⟩),
           .objective m.L (.int ((activeRows y.mask (P + 1) m.ny).map (· * col.ninterv)).length) (some ["y", "xm", "um", "p"])]) with
          extra := oemExtra m t y ua up P col.ninterv }) := by
  obtain ⟨col, tc, hcol, hcn, hci, hci1, htc, htl, hco, htinc, hdl, hcr⟩ :=
    create_eq m.toColModel h.order t P h.tshape h.twf h.tinc
  obtain ⟨hu1, hu2, hu3⟩ := hu col tc hcol htc
  obtain ⟨⟨cn, cp, ci, cJ, cK⟩, rfl⟩ : ∃ c, col = c := ⟨col, rfl⟩
  simp only at hci hcn hci1 htl hco hcr
  subst hci
  rw [htl] at hu2
  have htd : t.data.length = P + 1 := by rw [h.twf, h.tshape]; simp
  have h0 : ColProblem.create ColProblem.initVars m.toColModel t =
      .ok ⟨{ Problem.run [.decision (.str "x") (.tuple [P * ci + 1, m.nx]),
           .dependent (.str "xp") (.piece ⟨⟨[P * ci + 1, m.nx], 0⟩, P, ci + 1⟩),
           .constraint m.e (.tuple [P, ci, m.nx]) none] with extra := [("piece_len", ⟨[P], diff t.data⟩)] }, m.toColModel,
      ⟨ci + 1, cp, ci, cJ, cK⟩, diff t.data, P, tc, P * ci + 1⟩ := by
    rw [hcr]; krfl
  have h1 : ∀ nw, ColProblem.create (jmeInitVars nw) m.toColModel t =
      .ok ⟨{ Problem.run [.decision (.str "x") (.tuple [P * ci + 1, m.nx]),
           .dependent (.str "xp") (.piece ⟨⟨[P * ci + 1, m.nx], 0⟩, P, ci + 1⟩),
           .decision (.str "wc") (.tuple [P, ci, nw]),
           .constraint m.e (.tuple [P, ci, m.nx]) none] with extra := [("piece_len", ⟨[P], diff t.data⟩)] }, m.toColModel,
      ⟨ci + 1, cp, ci, cJ, cK⟩, diff t.data, P, tc, P * ci + 1⟩ := by
    intro nw; rw [hcr]; krfl
  obtain ⟨up, hup, hq⟩ := oem_tail ColProblem.initVars m t y u _ P ci h.pieces hci1 h0 rfl rfl rfl rfl htd h.yshape h.ywf h.ymask ua
    hu1 hu2 hu3
  refine ⟨_, tc, up, hcol, by push_cast at hcn; exact hcn, hci1, htc, htl, hco, hup, hu2, hu3, ?_, fun nw => ?_⟩
  · rw [hq]
    krfl
  · obtain ⟨up', hup', hq'⟩ := oem_tail (jmeInitVars nw) m t y u _ P ci h.pieces hci1 (h1 nw) rfl rfl rfl rfl htd h.yshape h.ywf h.ymask ua
      hu1 hu2 hu3
    rw [hup] at hup'
    cases hup'
    rw [hq']
    krfl

/-- The constants of a joint MAP problem. -/
noncomputable def jmeExtra (m : JMEModel) (t : NDArray ℝ) (y : MaskedArray) (ua up : NDArray ℝ) (P N : Nat) : Dict String (NDArray ℝ) :=
  (match m.penweight with | some w => [("penweight", w)] | none => []) ++ [("G", m.G)] ++ oemExtra m.toOEMModel t y ua up P N

theorem jme_eq (m : JMEModel) (t : NDArray ℝ) (y : MaskedArray) (u : UArg) (ua : NDArray ℝ) (P : Nat) (h : OEMInput m.toOEMModel t y P)
    (hu : InputsOK m.toOEMModel t u ua) (hpen : m.usePenalty = some true → m.penalty ≠ none) :
    ∃ col tc up, lglCollocation m.collocationOrder = .ok col ∧ (col.ninterv : Int) + 1 = m.collocationOrder ∧ 1 ≤ col.ninterv ∧
      grid col.points t.data = .ok tc ∧ tc.length = P * col.ninterv + 1 ∧
      (∀ k < P + 1, tc.getD (k * col.ninterv) 0 = t.data.getD k 0) ∧
      (pieceVar 0 P col.ninterv [m.nu]).unpackFrom ua.data = .ok up ∧ ua.shape = [P * col.ninterv + 1, m.nu] ∧ ua.WF ∧
      jmeProblem m t y u = .ok (oemObject m.toOEMModel t y ua up P col.ninterv col tc
        { Problem.run (jmeCalls m P col.ninterv ((activeRows y.mask (P + 1) m.ny).map (· * col.ninterv))) with
          extra := jmeExtra m t y ua up P col.ninterv }) := by
  obtain ⟨col, tc, up, h1, h2, h3, h4, h5, h6, h7, h8, h9, -, hj⟩ := oem_eq m.toOEMModel t y u ua P h hu
  refine ⟨col, tc, up, h1, h2, h3, h4, h5, h6, h7, h8, h9, ?_⟩
  have hj := hj m.nw
  unfold jmeProblem
  rw [hj]
  simp only [py_bind_ok]
  obtain ⟨m, nw, tubeL, G, uP, pen, pw⟩ := m
  rcases uP with _ | _ | _
  · cases pw <;> krfl
  · cases pw <;> krfl
  · cases pen with
    | none => exact absurd rfl (hpen rfl)
    | some f => cases pw <;> krfl

theorem kmeas_facts (mask : List Bool) (P N ny : Nat) (hN : 1 ≤ N) :
    (∀ k ∈ (activeRows mask (P + 1) ny).map (· * N), k < P * N + 1) ∧ ((activeRows mask (P + 1) ny).map (· * N)).Nodup := by
  constructor
  · intro k hk
    obtain ⟨a, ha, rfl⟩ := List.mem_map.1 hk
    have := Nat.mul_le_mul_right N (Nat.lt_succ_iff.1 (activeRows_lt mask (P + 1) ny a ha))
    omega
  · refine List.Pairwise.map _ ?_ (activeRows_pairwise mask (P + 1) ny)
    intro a b hab h
    exact absurd (Nat.eq_of_mul_eq_mul_right hN h) (by omega)

theorem measured_activeRows (mask : List Bool) (n ny : Nat) (hl : mask.length = n * ny) :
    MeasuredRows mask n ny (activeRows mask n ny) := by
  refine ⟨activeRows_pairwise mask n ny, fun k => ?_⟩
  simp only [activeRows, List.mem_filter, List.mem_range, List.any_eq_true, HasMeasurement]
  refine and_congr_right fun hk => exists_congr fun j => and_congr_right fun hj => ?_
  have : k * ny + j < mask.length := by rw [hl]; exact mul_add_lt hk hj
  simp [List.getD_eq_getElem?_getD, this]

theorem dep_ok (p : Problem ℝ) (P N nx : Nat) (kmeas : List Nat) (hP : 1 ≤ P) (hN : 1 ≤ N)
    (hk : ∀ k ∈ kmeas, k < P * N + 1) (hkn : kmeas.Nodup) (hd : (P * N + 1) * nx ≤ p.ndec)
    (hr : p.remapped = [("xp", .piece ⟨⟨[P * N + 1, nx], 0⟩, P, N + 1⟩), ("xm", .xm ⟨⟨[P * N + 1, nx], 0⟩, kmeas⟩)]) :
    ∀ kv ∈ p.remapped, VarOK p.ndec kv.2 := by
  intro kv hkv
  rw [hr] at hkv
  simp only [List.mem_cons, List.not_mem_nil, or_false] at hkv
  rcases hkv with rfl | rfl
  · simp only [VarOK]
    refine ⟨hP, by omega, ⟨_, rfl⟩, ?_⟩
    simpa using hd
  · simp only [VarOK]
    refine ⟨⟨_, _, rfl, hk⟩, hkn, ?_⟩
    simpa using hd

theorem rowConv_at (k : List Nat) (w i j : Nat) (hj : j < w) : rowConv k w (i * w + j) = k.getD i 0 * w + j := by
  unfold rowConv
  rw [mul_add_div' hj, mul_add_mod'' hj]

theorem oem_aligned (m : OEMModel) (t : NDArray ℝ) (y : MaskedArray) (ua up : NDArray ℝ) (P N : Nat) (col : Collocation ℝ)
    (tc : List ℝ) (p : Problem ℝ) (calls) (hp : ProblemOK p calls) (hN : 1 ≤ N) (hci : col.ninterv = N)
    (hco : ∀ k < P + 1, tc.getD (k * N) 0 = t.data.getD k 0)
    (hx : p.variableSpec "x" = .ok (.comp ⟨[P * N + 1, m.nx], 0⟩))
    (hxm : p.variableSpec "xm" = .ok (.xm ⟨⟨[P * N + 1, m.nx], 0⟩, (activeRows y.mask (P + 1) m.ny).map (· * N)⟩))
    (hd : (P * N + 1) * m.nx ≤ p.ndec)
    (hno : ∀ s ∈ ["y", "um", "u", "up"], ∃ e, p.variableSpec s = .error e)
    (hex : ∀ s ∈ ["y", "um", "u", "up"], Dict.get? p.extra s = Dict.get? (oemExtra m t y ua up P N) s) :
    Aligned (oemObject m t y ua up P N col tc p) m t y ua (activeRows y.mask (P + 1) m.ny) := by
  obtain ⟨hk1, hk2⟩ := kmeas_facts y.mask P N m.ny hN
  have hkl : ∀ i < (activeRows y.mask (P + 1) m.ny).length,
      ((activeRows y.mask (P + 1) m.ny).map (· * N)).getD i 0 = (activeRows y.mask (P + 1) m.ny).getD i 0 * N := by
    intro i hi
    simp [List.getD_eq_getElem?_getD, hi]
  have hrl : ∀ i < (activeRows y.mask (P + 1) m.ny).length, (activeRows y.mask (P + 1) m.ny).getD i 0 < P + 1 := by
    intro i hi
    apply activeRows_lt y.mask (P + 1) m.ny
    simp [List.getD_eq_getElem?_getD, hi]
  have hkp : ∀ i < (activeRows y.mask (P + 1) m.ny).length, ((activeRows y.mask (P + 1) m.ny).map (· * N)).getD i 0 < P * N + 1 := by
    intro i hi
    rw [hkl i hi]
    exact hk1 _ (List.mem_map.2 ⟨_, by simp [List.getD_eq_getElem?_getD, hi], rfl⟩)
  refine ⟨by simp [oemObject], ⟨by simp [oemObject], by simp [oemObject, NDArray.WF], by simp [oemObject]⟩,
    ⟨by simp [oemObject], by simp [oemObject, NDArray.WF]⟩, by simp [oemObject], hkp, fun i hi => (hkl i hi).trans (by rw [← hci]; rfl), ?_, ?_, ?_, ?_⟩
  · intro i hi
    show tc.getD (((activeRows y.mask (P + 1) m.ny).map (· * N)).getD i 0) 0 = _
    rw [hkl i hi, hco _ (hrl i hi)]
  · intro i hi j hj
    have := mul_add_lt hi hj
    constructor
    · simp only [oemObject]
      rw [getD_map_range 0 _ this, rowConv_at _ _ _ _ hj]
    · simp only [oemObject]
      rw [getD_map_range true _ this, rowConv_at _ _ _ _ hj]
  · intro i hi j hj
    have hi' : i < ((activeRows y.mask (P + 1) m.ny).map (· * N)).length := by simpa using hi
    simp only [oemObject]
    rw [getD_map_range 0 _ (mul_add_lt hi' hj), rowConv_at _ _ _ _ hj]
  · intro dvec hl
    obtain ⟨vs, hvs, h1, h2⟩ := variables_eq hp dvec hl
    have hg : ∀ s ∈ ["y", "um", "u", "up"], Dict.get? vs s = Dict.get? (oemExtra m t y ua up P N) s := by
      intro s hs
      obtain ⟨e, he⟩ := hno s hs
      rw [h2 s e he, hex s hs]
    refine ⟨vs, _, _, hvs, by rw [hg _ (by simp)]; rfl, by rw [hg _ (by simp)]; rfl, by rw [hg _ (by simp)]; rfl,
      by rw [hg _ (by simp)]; rfl, h1 _ _ hx, rfl, h1 _ _ hxm, by simp [VarSpec.shape, XMVar.shape], ?_⟩
    intro i hi j hj
    have hi' : i < ((activeRows y.mask (P + 1) m.ny).map (· * N)).length := by simpa using hi
    have e1 : (VarSpec.xm ⟨⟨[P * N + 1, m.nx], 0⟩, (activeRows y.mask (P + 1) m.ny).map (· * N)⟩).shape.prod =
        ((activeRows y.mask (P + 1) m.ny).map (· * N)).length * m.nx := by simp [VarSpec.shape, XMVar.shape]
    have e2 : (VarSpec.comp ⟨[P * N + 1, m.nx], 0⟩).shape.prod = (P * N + 1) * m.nx := by simp [VarSpec.shape]
    simp only
    rw [getD_map_range 0 _ (by rw [e1]; exact mul_add_lt hi' hj), getD_map_range 0 _ (by rw [e2]; exact mul_add_lt (hkp i hi) hj)]
    congr 1
    have hc1 : (VarSpec.xm ⟨⟨[P * N + 1, m.nx], 0⟩, (activeRows y.mask (P + 1) m.ny).map (· * N)⟩).convertInd (i * m.nx + j) =
        .ok (0 + (((activeRows y.mask (P + 1) m.ny).map (· * N))[i] * m.nx + j)) :=
      C18_xm_convertInd 0 (P * N + 1) m.nx _ hk1 i hi' j hj
    have hc2 : (VarSpec.comp ⟨[P * N + 1, m.nx], 0⟩).convertInd
        ((oemObject m t y ua up P N col tc p).kmeas.getD i 0 * m.nx + j) =
        .ok (0 + ((oemObject m t y ua up P N col tc p).kmeas.getD i 0 * m.nx + j)) := by
      simp [VarSpec.convertInd, Component.convertInd]
    unfold convOf
    rw [hc1, hc2]
    simp [oemObject, List.getD_eq_getElem?_getD, hi]


end Ceacoest
