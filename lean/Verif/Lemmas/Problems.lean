import Verif.Model.Problems
import Verif.Props.LGL
import Verif.Props.Variables
import Verif.Spec.Contract
import Verif.Tactic.KernelRfl

/-! Helper lemmas: what the constructors of the problem classes compute. -/

namespace Ceacoest
open Spec RK

/-- What the collocation object of order `n ≥ 2` looks like. -/
theorem lgl_ok (n : Int) (hn : 2 ≤ n) :
    ∃ col, lglCollocation n = .ok col ∧ (col.n : Int) = n ∧ col.ninterv + 1 = col.n ∧ 1 ≤ col.ninterv ∧ col.points.length = col.n ∧
      lglPoints n = .ok col.points ∧ col.points.getD 0 0 = 0 ∧ col.points.getD (col.points.length - 1) 0 = 1 ∧
      col.points.Pairwise (· < ·) := by
  obtain ⟨interior, hpts, hlen, hinc, -⟩ := (C26_points n).2 hn
  have hnd : (0 :: interior ++ [1]).Nodup := hinc.imp fun h => h.ne
  obtain ⟨l, -, hl, -⟩ := C23_basis (0 :: interior ++ [1]) hnd (by omega)
  obtain ⟨col, hcol, hcn, hcp, hci, -⟩ := collocation_ok (0 :: interior ++ [1]) hnd (by omega) l hl
  have hf := lgl_points_facts n hn _ hpts
  have hlc : lglCollocation n = .ok col := by rw [lglCollocation, hpts]; exact hcol
  refine ⟨col, hlc, by omega, by omega, by omega, by rw [hcp, hcn], by rw [hcp]; exact hpts, by rw [hcp]; exact hf.2.1,
    by rw [hcp]; exact hf.2.2.1, by rw [hcp]; exact hinc⟩

theorem diff_pos_iff (t : List ℝ) : (∀ d ∈ diff t, d > 0) ↔ t.Pairwise (· < ·) := by
  induction t with
  | nil => simp [diff]
  | cons a t ih =>
    cases t with
    | nil => simp [diff]
    | cons b t =>
      have e : diff (a :: b :: t) = (b - a) :: diff (b :: t) := by simp [diff]
      rw [e, List.forall_mem_cons, ih, List.pairwise_cons (a := a)]
      constructor
      · rintro ⟨h1, h2⟩
        refine ⟨fun x hx => ?_, h2⟩
        rcases List.mem_cons.1 hx with rfl | hx
        · linarith
        · have := (List.pairwise_cons.1 h2).1 x hx
          linarith
      · rintro ⟨h1, h2⟩
        have := h1 b (by simp)
        exact ⟨by linarith, h2⟩

/-- The constructor of the base class up to `_init_collocation_variables`. -/
theorem create_eq (model : ColModel) (hn : 2 ≤ model.collocationOrder) (t : NDArray ℝ) (P : Nat) (hs : t.shape = [P + 1]) (hw : t.WF)
    (hinc : t.data.Pairwise (· < ·)) :
    ∃ col tc, lglCollocation model.collocationOrder = .ok col ∧ (col.n : Int) = model.collocationOrder ∧ col.ninterv + 1 = col.n ∧
      1 ≤ col.ninterv ∧ grid col.points t.data = .ok tc ∧ tc.length = P * col.ninterv + 1 ∧
      (∀ k < P + 1, tc.getD (k * col.ninterv) 0 = t.data.getD k 0) ∧ tc.Pairwise (· < ·) ∧
      (diff t.data).length = P ∧
      ∀ init, ColProblem.create init model t = do
        let q ← init ⟨Problem.empty, model, col, diff t.data, P, tc, P * col.ninterv + 1⟩
        return { q with prob := { q.prob.addConstraint model.e (.tuple [P, col.ninterv, model.nx]) none with
          extra := [("piece_len", ⟨[P], diff t.data⟩)] } } := by
  obtain ⟨col, hcol, hcn, hci, hci1, hpl, -, h0, h1, hpinc⟩ := lgl_ok model.collocationOrder hn
  have hlen : t.data.length = P + 1 := by rw [hw, hs]; simp
  have hne : t.data ≠ [] := by intro h; simp [h] at hlen
  obtain ⟨tc, htc, htl, -, hco, -, -⟩ := C22_grid col.points t.data (by omega) h0 hne
  obtain ⟨tc', htc', htinc⟩ := C22_increasing col.points t.data (by omega) h0 h1 hpinc hne hinc
  rw [htc] at htc'
  cases htc'
  have hN : col.points.length - 1 = col.ninterv := by omega
  rw [hN] at htl hco
  have htl' : tc.length = P * col.ninterv + 1 := by rw [htl, hlen]; rfl
  have hdl : (diff t.data).length = P := by rw [diff_length, hlen]; rfl
  refine ⟨col, tc, hcol, hcn, hci, hci1, htc, htl', fun k hk => hco k (by omega), htinc, hdl, fun init => ?_⟩
  unfold ColProblem.create
  rw [hcol]
  simp only [py_bind_ok]
  rw [pyAssert_true (by rw [hs]; rfl)]
  simp only [py_bind_ok]
  rw [pyAssert_true ((diff_pos_iff _).2 hinc)]
  simp only [py_bind_ok]
  rw [htc]
  simp only [py_bind_ok, hdl, htl']

/-- `a[rows]` for rows in range. -/
theorem takeRows_eq {α : Type} (d : α) (a : List α) (n w : Nat) (rows : List Nat) (hr : ∀ k ∈ rows, k < n) (ha : a.length = n * w) :
    takeRows a [n, w] rows = .ok ((List.range (rows.length * w)).map fun i => a.getD (rowConv rows w i) d) := by
  unfold takeRows
  simp only [py_pure, py_bind_ok]
  rw [XMVar.mapM_pyIndex hr]
  simp only [py_bind_ok]
  rw [selPos_list, readAt_eq d (by
    intro p hp
    simp only [List.mem_map, List.mem_range] at hp
    obtain ⟨q, hq, rfl⟩ := hp
    rw [ha]
    exact rowConv_lt hr hq), List.map_map]
  rfl

theorem activeRows_lt (mask : List Bool) (n w : Nat) : ∀ k ∈ activeRows mask n w, k < n := by
  intro k hk
  simp only [activeRows, List.mem_filter, List.mem_range] at hk
  exact hk.1

theorem activeRows_pairwise (mask : List Bool) (n w : Nat) : (activeRows mask n w).Pairwise (· < ·) :=
  List.Pairwise.filter _ List.pairwise_lt_range

/-- oem.py's own piece-ravelling does what the piece-ravelled variable does. -/
theorem oemUp_eq (u : NDArray ℝ) (P N nu : Nat) (hs : u.shape = [P * N + 1, nu]) (hw : u.WF) :
    oemUp u P (N + 1) (P * N + 1) nu = (pieceVar 0 P N [nu]).unpackFrom u.data := by
  have hl : u.data.length = (P * N + 1) * nu := by rw [hw, hs]; simp
  have hsel : selPos [P * N + 1, nu] [sliceIdx (P * N + 1) none (some (-1)) 1, sliceIdx nu none none 1] =
      selPos [P * N + 1, nu] [sliceIdx (P * N + 1) none (some (-1)) 1] := by
    rw [sliceIdx_init, sliceIdx_all, selPos_block, selPos_rows]
    simp only [List.prod_nil, Nat.mul_one, List.prod_cons, Nat.add_sub_cancel]
    conv_rhs => rw [← List.map_id (List.range (P * N * nu))]
    exact List.map_congr_left fun q _ => Nat.div_add_mod' q nu
  unfold oemUp PieceRavelled.unpackFrom
  rw [Component.unpackFrom_eq 0 _ u.data (by simp [Component.size, hl])]
  simp only [py_bind_ok, py_pure, PieceRavelled.shape, List.tail_cons, Component.size, List.prod_cons, List.prod_nil, Nat.mul_one,
    Nat.zero_add]
  rw [hs, hsel, ← eq_map_range_getD 0 u.data hl]

/-- The part of oem.py that follows the base class constructor, when the arguments have the right shapes. -/
theorem oem_tail (init : ColProblem → Py ColProblem) (m : OEMModel) (t : NDArray ℝ) (y : MaskedArray) (u : UArg) (q : ColProblem)
    (P N : Nat) (hP : 1 ≤ P) (hN : 1 ≤ N) (hq : ColProblem.create init m.toColModel t = .ok q) (hcn : q.collocation.n = N + 1)
    (hci : q.collocation.ninterv = N) (hp : q.npieces = P) (hpt : q.npoints = P * N + 1) (htl : t.data.length = P + 1)
    (hys : y.arr.shape = [P + 1, m.ny]) (hyw : y.arr.WF) (hym : y.mask.length = (P + 1) * m.ny) (ua : NDArray ℝ)
    (hu : u.resolve q.tc = .ok (.array ua)) (hus : ua.shape = [P * N + 1, m.nu]) (huw : ua.WF) :
    ∃ up, (pieceVar 0 P N [m.nu]).unpackFrom ua.data = .ok up ∧ oemProblem init m t y u = (do
      let rows := activeRows y.mask (P + 1) m.ny
      let kmeas := rows.map (· * N)
      let (p, _) ← q.prob.addDecision' "p" (.int m.np)
      let x ← Dict.getItem p.decision "x"
      let p ← p.addDependent' "xm" (.xm ⟨x, kmeas⟩)
      let p := p.addObjective m.L (.int kmeas.length) (some ["y", "xm", "um", "p"])
      let ya : NDArray ℝ := ⟨[kmeas.length, m.ny], (List.range (rows.length * m.ny)).map fun i => y.arr.data.getD (rowConv rows m.ny i) 0⟩
      let uma : NDArray ℝ := ⟨[kmeas.length, m.nu], (List.range (kmeas.length * m.nu)).map fun i => ua.data.getD (rowConv kmeas m.nu i) 0⟩
      let extra := Dict.update [("y", ya), ("um", uma), ("u", ua), ("up", up)] p.extra
      let q := { q with prob := { p with extra := extra } }
      return ⟨q, kmeas, ⟨ya, (List.range (rows.length * m.ny)).map fun i => y.mask.getD (rowConv rows m.ny i) true⟩, kmeas.length, ua, uma,
        up⟩) := by
  have hul : ua.data.length = (P * N + 1) * m.nu := by rw [huw, hus]; simp
  have hyl : y.arr.data.length = (P + 1) * m.ny := by rw [hyw, hys]; simp
  obtain ⟨up, hup, -⟩ := C14_piece_unpack 0 P N [m.nu] hP hN ua.data (by simp [hul])
  refine ⟨up, hup, ?_⟩
  unfold oemProblem
  rw [hq]
  simp only [py_bind_ok, htl, hcn, hci, hp, hpt]
  rw [pyAssert_true hys]
  simp only [py_bind_ok]
  have hr := activeRows_lt y.mask (P + 1) m.ny
  have hk : ∀ k ∈ (activeRows y.mask (P + 1) m.ny).map (· * N), k < P * N + 1 := by
    intro k hk
    obtain ⟨a, ha, rfl⟩ := List.mem_map.1 hk
    have := Nat.mul_le_mul_right N (Nat.lt_succ_iff.1 (hr a ha))
    omega
  rw [takeRows_eq 0 _ _ _ _ hr hyl, takeRows_eq true _ _ _ _ hr hym]
  simp only [py_bind_ok]
  rw [hu]
  simp only [py_bind_ok, UValue.asArray]
  rw [pyAssert_true hus]
  simp only [py_bind_ok]
  rw [takeRows_eq 0 _ _ _ _ hk hul, oemUp_eq ua P N m.nu hus huw, hup]
  simp only [py_bind_ok]

end Ceacoest
