import Verif.Lemmas.RowSel

/-!
# C14 – C18: piece-ravelled, endpoint and measured-state variables

Positions are written with explicit multi-indices: entry `(k, c, e)` of the piece-ravelled array (piece `k`, collocation
point `c`, trailing C-order index `e` below `m = prod rest`) has flat position `(k*(N+1)+c)*m + e`, and entry `e` of grid
point `g` of the underlying variable has decision index `off + g*m + e`.
`ncol = N+1`, so `N = ninterv`; the underlying variable has `P*N+1` points.
-/

namespace Ceacoest
variable {α : Type}

/-- The piece-ravelled view of a variable with `P*N+1` points of shape `rest` at offset `off`. -/
abbrev pieceVar (off P N : Nat) (rest : List Nat) : PieceRavelled :=
  ⟨⟨(P * N + 1) :: rest, off⟩, P, N + 1⟩

section C14

theorem flat3 {C m c e : Nat} (k : Nat) (hc : c < C) (he : e < m) :
    (k * C + c) * m + e = k * (C * m) + (c * m + e) ∧ c * m + e < C * m :=
  ⟨by ring, mul_add_lt hc he⟩

theorem conv3 {N m c e : Nat} (k : Nat) (hc : c < N + 1) (he : e < m) :
    pieceConv (N + 1) m ((k * (N + 1) + c) * m + e) = (k * N + c) * m + e := by
  obtain ⟨h1, h2⟩ := flat3 k hc he
  rw [h1, pieceConv_eq h2]
  simp only [Nat.add_sub_cancel]
  ring

/-- **C14.** Entry `(k, c)` of the piece-ravelled array is point `k*(ncol-1)+c` of the underlying variable (first
conjuncts); hence the last point of a piece is the first of the next, and every point appears. -/
theorem C14_piece_unpack [Zero α] (off P N : Nat) (rest : List Nat) (hP : 1 ≤ P) (hN : 1 ≤ N) (vec : List α)
    (hv : off + (P * N + 1) * rest.prod ≤ vec.length) :
    ∃ out, (pieceVar off P N rest).unpackFrom vec = .ok out ∧ out.shape = P :: (N + 1) :: rest ∧ out.WF ∧
      (∀ k c e, k < P → c < N + 1 → e < rest.prod →
        out.data[(k * (N + 1) + c) * rest.prod + e]? = vec[off + ((k * N + c) * rest.prod + e)]? ∧
        off + ((k * N + c) * rest.prod + e) < vec.length) ∧
      (∀ k e, k + 1 < P → e < rest.prod →
        out.data[(k * (N + 1) + N) * rest.prod + e]? = out.data[((k + 1) * (N + 1)) * rest.prod + e]?) ∧
      (∀ g e, g < P * N + 1 → e < rest.prod →
        ∃ k c, k < P ∧ c < N + 1 ∧ g = k * N + c ∧
          out.data[(k * (N + 1) + c) * rest.prod + e]? = vec[off + (g * rest.prod + e)]?) := by
  have hu := PieceRavelled.std_unpack (rest := rest) hP hN vec hv
  refine ⟨_, hu, rfl, by simp [NDArray.WF], ?_⟩
  have hsz : (PieceRavelled.std off P N rest).shape.prod = P * ((N + 1) * rest.prod) := by
    simp [PieceRavelled.std, PieceRavelled.shape]
  have main : ∀ k c e, k < P → c < N + 1 → e < rest.prod →
      ((List.range (PieceRavelled.std off P N rest).shape.prod).map fun i =>
        vec.getD (off + pieceConv (N + 1) rest.prod i) 0)[(k * (N + 1) + c) * rest.prod + e]? =
          vec[off + ((k * N + c) * rest.prod + e)]? ∧ off + ((k * N + c) * rest.prod + e) < vec.length := by
    intro k c e hk hc he
    obtain ⟨h1, h2⟩ := flat3 k hc he
    have hlt : (k * (N + 1) + c) * rest.prod + e < P * ((N + 1) * rest.prod) := by
      rw [h1]; exact mul_add_lt hk h2
    have hlt2 := PieceRavelled.std_conv_lt (m := rest.prod) hlt
    rw [conv3 k hc he] at hlt2
    rw [hsz, getElem?_map_range _ hlt, conv3 k hc he, some_getD 0 (by omega)]
    exact ⟨rfl, by omega⟩
  refine ⟨main, ?_, ?_⟩
  · intro k e hk he
    rw [(main k N e (by omega) (by omega) he).1]
    have := (main (k + 1) 0 e hk (by omega) he).1
    simp only [Nat.add_zero] at this
    refine Eq.trans ?_ this.symm
    congr 1
    ring
  · intro g e hg he
    by_cases hlast : g = P * N
    · refine ⟨P - 1, N, by omega, by omega, ?_, ?_⟩
      · obtain ⟨P', rfl⟩ : ∃ P', P = P' + 1 := ⟨P - 1, by omega⟩
        rw [hlast]; simp only [Nat.add_sub_cancel]; ring
      · rw [(main (P - 1) N e (by omega) (by omega) he).1]
        congr 1
        obtain ⟨P', rfl⟩ : ∃ P', P = P' + 1 := ⟨P - 1, by omega⟩
        rw [hlast]; simp only [Nat.add_sub_cancel]; ring
    · have hg' : g < P * N := by omega
      have hk : g / N < P := Nat.div_lt_of_lt_mul (by rw [Nat.mul_comm]; exact hg')
      have hc := Nat.mod_lt g (show 0 < N by omega)
      refine ⟨g / N, g % N, hk, by omega, (Nat.div_add_mod' g N).symm, ?_⟩
      rw [(main (g / N) (g % N) e hk (by omega) he).1, Nat.div_add_mod']

/-- Hypotheses of C14 are met: two pieces of three points, vector-valued variable, at an offset. -/
example : (pieceVar 1 2 2 [2]).unpackFrom [9, 0, 1, 2, 3, 4, 5, 6, 7, 8, 9] =
    .ok ⟨[2, 3, 2], [0, 1, 2, 3, 4, 5, 4, 5, 6, 7, 8, 9]⟩ := by decide

/-- With no pieces the code raises (the last assignment of `unpack_from` is out of range). -/
theorem C14_no_pieces [Zero α] (off N : Nat) (rest : List Nat) (hN : 1 ≤ N) (vec : List α)
    (hv : off + rest.prod ≤ vec.length) : (pieceVar off 0 N rest).unpackFrom vec = .error .indexError := by
  unfold PieceRavelled.unpackFrom
  rw [Component.unpackFrom_eq 0 _ vec (by simpa [Component.size] using hv)]
  simp only [py_bind_ok, py_pure, PieceRavelled.shape, Component.size, NDArray.zeros, List.tail_cons,
    List.prod_cons, Nat.zero_mul]
  rw [pyIndex_last (by omega), pyIndex_zero (by omega), pyIndex_empty]
  simp [sliceIdx_init, sliceIdx_all, selPos, readAt, flatAssign, sliceIdx_tail]

end C14

section C15

/-- **C15.** `add_to(dest, v)` adds to entry `j` the sum of `v` over all ravelled positions `(k, c, e)` that read it, … -/
theorem C15_piece_addTo [AddCommMonoid α] (off P N : Nat) (rest : List Nat) (hP : 1 ≤ P) (hN : 1 ≤ N)
    (dest : List α) (v : NDArray α) (hd : off + (P * N + 1) * rest.prod ≤ dest.length)
    (hs : v.shape = P :: (N + 1) :: rest) (hw : v.WF) :
    ∃ r, (pieceVar off P N rest).addTo dest v = .ok r ∧ r.length = dest.length ∧
      ∀ j < dest.length, r.getD j 0 = dest.getD j 0 +
        ∑ k ∈ Finset.range P, ∑ c ∈ Finset.range (N + 1), ∑ e ∈ Finset.range rest.prod,
          if off + ((k * N + c) * rest.prod + e) = j then v.data.getD ((k * (N + 1) + c) * rest.prod + e) 0
          else 0 := by
  refine ⟨_, PieceRavelled.std_addTo hP hN dest v hd hs hw, by simp, fun j hj => ?_⟩
  rw [getD_map_range 0 _ hj]
  congr 1
  have hsz : (PieceRavelled.std off P N rest).shape.prod = P * ((N + 1) * rest.prod) := by
    simp [PieceRavelled.std, PieceRavelled.shape]
  rw [hsz, scat_mul]
  refine Finset.sum_congr rfl fun k _ => ?_
  rw [scat_mul]
  refine Finset.sum_congr rfl fun c hc => ?_
  refine Finset.sum_congr rfl fun e he => ?_
  have h := conv3 k (Finset.mem_range.1 hc) (Finset.mem_range.1 he)
  rw [(flat3 k (Finset.mem_range.1 hc) (Finset.mem_range.1 he)).1] at h
  simp only [h]
  rw [(flat3 k (Finset.mem_range.1 hc) (Finset.mem_range.1 he)).1]

/-- … so that `⟨add_to(0, v), d⟩ = ⟨v, unpack_from(d)⟩`. -/
theorem C15_piece_adjoint {R : Type} [CommSemiring R] (off P N : Nat) (rest : List Nat) (hP : 1 ≤ P) (hN : 1 ≤ N)
    (n : Nat) (hn : off + (P * N + 1) * rest.prod ≤ n) (v : NDArray R) (hs : v.shape = P :: (N + 1) :: rest)
    (hw : v.WF) (d : List R) (hd : d.length = n) :
    ∃ g u, (pieceVar off P N rest).addTo (List.replicate n 0) v = .ok g ∧
      (pieceVar off P N rest).unpackFrom d = .ok u ∧
      ∑ j ∈ Finset.range n, g.getD j 0 * d.getD j 0 =
        ∑ i ∈ Finset.range v.data.length, v.data.getD i 0 * u.data.getD i 0 := by
  have G := PieceRavelled.gathers (α := R) off P N rest hP hN n hn
  refine ⟨_, _, G.add _ v (by simp) hs hw, G.unpack d hd, ?_⟩
  have hl : v.data.length = (VarSpec.piece (PieceRavelled.std off P N rest)).shape.prod := by
    rw [hw, hs]; rfl
  rw [hl]
  rw [Finset.sum_congr rfl (g := fun j => scat (VarSpec.piece (PieceRavelled.std off P N rest)).shape.prod
      (fun i => off + pieceConv (N + 1) rest.prod i) (fun i => v.data.getD i 0) j * d.getD j 0)]
  · rw [scat_adjoint n _ _ G.lt]
    refine Finset.sum_congr rfl fun i hi => ?_
    rw [getD_map_range 0 _ (Finset.mem_range.1 hi)]
  · intro j hj
    rw [getD_map_range 0 _ (Finset.mem_range.1 hj)]
    simp [List.getD_eq_getElem?_getD, Finset.mem_range.1 hj]

/-- Hypotheses of C15 are met; the shared point (`1` and `10` below) collects two terms. -/
example : (pieceVar 1 2 1 []).addTo [100, 0, 0, 0] ⟨[2, 2], [7, 1, 10, 5]⟩ = .ok [100, 7, 11, 5] := by decide

/-- A value of another shape is rejected. -/
theorem C15_piece_wrong_shape [AddCommMonoid α] (off P N : Nat) (rest : List Nat) (dest : List α) (v : NDArray α)
    (h : v.shape ≠ P :: (N + 1) :: rest) : (pieceVar off P N rest).addTo dest v = .error .assertionError := by
  unfold PieceRavelled.addTo
  rw [pyAssert_false (by simpa [PieceRavelled.shape] using h)]
  rfl

end C15

section C16

/-- **C16.** `convert_ind` of ravelled position `(k, c, e)` is the decision index it is read from (C14), inside the
variable's own range. -/
theorem C16_piece_convertInd (off P N : Nat) (rest : List Nat) (k c e : Nat) (hk : k < P) (hc : c < N + 1)
    (he : e < rest.prod) :
    (pieceVar off P N rest).convertInd ((k * (N + 1) + c) * rest.prod + e) =
      off + ((k * N + c) * rest.prod + e) ∧
    off ≤ off + ((k * N + c) * rest.prod + e) ∧
    off + ((k * N + c) * rest.prod + e) < off + (P * N + 1) * rest.prod := by
  refine ⟨?_, by omega, ?_⟩
  · have := conv3 k hc he
    unfold pieceConv at this
    simp only [PieceRavelled.convertInd, PieceRavelled.shape, Component.convertInd, List.drop_succ_cons, List.drop_zero,
      List.prod_cons, List.tail_cons]
    rw [this]; ring
  · have hlt : (k * (N + 1) + c) * rest.prod + e < P * ((N + 1) * rest.prod) := by
      rw [(flat3 k hc he).1]; exact mul_add_lt hk (flat3 k hc he).2
    have := PieceRavelled.std_conv_lt (m := rest.prod) hlt
    rw [conv3 k hc he] at this
    omega

/-- Every ravelled position has such a multi-index, so the previous theorem covers all of them. -/
theorem C16_positions (P N : Nat) (rest : List Nat) (i : Nat) (hi : i < (pieceVar 0 P N rest).shape.prod) :
    ∃ k c e, k < P ∧ c < N + 1 ∧ e < rest.prod ∧ i = (k * (N + 1) + c) * rest.prod + e := by
  have hsz : (pieceVar 0 P N rest).shape.prod = P * (N + 1) * rest.prod := by
    simp [PieceRavelled.shape, Nat.mul_assoc]
  rw [hsz] at hi
  have hm : 0 < rest.prod := Nat.pos_of_ne_zero fun h => by simp [h] at hi
  have h1 : i / rest.prod < P * (N + 1) := Nat.div_lt_of_lt_mul (by rw [Nat.mul_comm]; exact hi)
  refine ⟨i / rest.prod / (N + 1), i / rest.prod % (N + 1), i % rest.prod,
    Nat.div_lt_of_lt_mul (by rw [Nat.mul_comm]; exact h1), Nat.mod_lt _ (by omega), Nat.mod_lt _ hm, ?_⟩
  rw [Nat.div_add_mod', Nat.div_add_mod']

/-- Two distinct ravelled positions alias iff they are the end of a piece and the start of the next (same trailing
index); in particular never within a piece. -/
theorem C16_piece_alias (off P N : Nat) (rest : List Nat) (hN : 1 ≤ N) (k c e k' c' e' : Nat)
    (hk : k < P) (hk' : k' < P) (hc : c < N + 1) (hc' : c' < N + 1) (he : e < rest.prod) (he' : e' < rest.prod) :
    (pieceVar off P N rest).convertInd ((k * (N + 1) + c) * rest.prod + e) =
      (pieceVar off P N rest).convertInd ((k' * (N + 1) + c') * rest.prod + e') ↔
    e = e' ∧ ((k = k' ∧ c = c') ∨ (k' = k + 1 ∧ c = N ∧ c' = 0) ∨ (k = k' + 1 ∧ c' = N ∧ c = 0)) := by
  rw [(C16_piece_convertInd off P N rest k c e hk hc he).1,
    (C16_piece_convertInd off P N rest k' c' e' hk' hc' he').1]
  constructor
  · intro h
    obtain ⟨h1, h2⟩ := divmod_unique (Nat.add_left_cancel h) he he'
    refine ⟨h2, ?_⟩
    rcases Nat.lt_trichotomy k k' with hlt | heq | hlt
    · right; left
      obtain ⟨d, rfl⟩ : ∃ d, k' = k + 1 + d := ⟨k' - k - 1, by omega⟩
      have e1 : (k + 1 + d) * N = k * N + N + d * N := by ring
      have e2 : d ≤ d * N := Nat.le_mul_of_pos_right d (by omega)
      omega
    · left; subst heq; exact ⟨rfl, by omega⟩
    · right; right
      obtain ⟨d, rfl⟩ : ∃ d, k = k' + 1 + d := ⟨k - k' - 1, by omega⟩
      have e1 : (k' + 1 + d) * N = k' * N + N + d * N := by ring
      have e2 : d ≤ d * N := Nat.le_mul_of_pos_right d (by omega)
      omega
  · rintro ⟨rfl, h⟩
    congr 3
    rcases h with ⟨rfl, rfl⟩ | ⟨rfl, rfl, rfl⟩ | ⟨rfl, rfl, rfl⟩ <;> ring

/-- Hypotheses are met and both sides occur: positions 2 and 3 alias, 1 and 2 do not. -/
example : (pieceVar 5 2 2 []).convertInd 2 = 7 ∧ (pieceVar 5 2 2 []).convertInd 3 = 7 ∧
    (pieceVar 5 2 2 []).convertInd 1 = 6 := by decide

end C16

section C17

/-- **C17.** Endpoint variable, `npoints ≥ 2`: rows first and last of the state are read. -/
theorem C17_xe_unpack [Zero α] (off npoints nx : Nat) (hp : 2 ≤ npoints) (vec : List α)
    (hv : off + npoints * nx ≤ vec.length) :
    ∃ out, (⟨⟨[npoints, nx], off⟩⟩ : XEVar).unpackFrom vec = .ok out ∧ out.shape = [2, nx] ∧ out.WF ∧
      ∀ e < nx, out.data[e]? = vec[off + e]? ∧ out.data[nx + e]? = vec[off + ((npoints - 1) * nx + e)]? := by
  refine ⟨_, XEVar.unpack_eq off npoints nx (by omega) vec hv, rfl, by simp [NDArray.WF], fun e he => ?_⟩
  have hle : 2 * nx ≤ npoints * nx := Nat.mul_le_mul_right nx hp
  have e1 : (npoints - 1) * nx + nx = npoints * nx := by
    obtain ⟨q, rfl⟩ : ∃ q, npoints = q + 1 := ⟨npoints - 1, by omega⟩
    simp only [Nat.add_sub_cancel]; ring
  have e2 : (npoints - 2) * nx + nx = (npoints - 1) * nx := by
    obtain ⟨q, rfl⟩ : ∃ q, npoints = q + 2 := ⟨npoints - 2, by omega⟩
    simp only [Nat.add_sub_cancel]
    rw [show q + 2 - 1 = q + 1 by omega]; ring
  constructor
  · rw [getElem?_map_range _ (by omega), XEVar.rowConv_xe hp (by omega), if_pos he, some_getD 0 (by omega)]
  · rw [getElem?_map_range _ (by omega), XEVar.rowConv_xe hp (by omega), if_neg (by omega), some_getD 0 (by omega)]
    congr 1; omega

/-- `add_to` adds row 0 of the value to the first state row, row 1 to the last one, and touches nothing else. -/
theorem C17_xe_addTo [AddCommMonoid α] (off npoints nx : Nat) (hp : 2 ≤ npoints) (dest : List α) (v : NDArray α)
    (hd : off + npoints * nx ≤ dest.length) (hs : v.shape = [2, nx]) (hw : v.WF) :
    ∃ r, (⟨⟨[npoints, nx], off⟩⟩ : XEVar).addTo dest v = .ok r ∧ r.length = dest.length ∧
      (∀ e < nx, r.getD (off + e) 0 = dest.getD (off + e) 0 + v.data.getD e 0) ∧
      (∀ e < nx, r.getD (off + ((npoints - 1) * nx + e)) 0 =
        dest.getD (off + ((npoints - 1) * nx + e)) 0 + v.data.getD (nx + e) 0) ∧
      ∀ j < dest.length, (∀ e < nx, j ≠ off + e ∧ j ≠ off + ((npoints - 1) * nx + e)) →
        r.getD j 0 = dest.getD j 0 := by
  refine ⟨_, XEVar.addTo_eq off npoints nx hp dest v hd hs hw, by simp, ?_⟩
  have hle : 2 * nx ≤ npoints * nx := Nat.mul_le_mul_right nx hp
  have e1 : (npoints - 1) * nx + nx = npoints * nx := by
    obtain ⟨q, rfl⟩ : ∃ q, npoints = q + 1 := ⟨npoints - 1, by omega⟩
    simp only [Nat.add_sub_cancel]; ring
  have e2 : (npoints - 2) * nx + nx = (npoints - 1) * nx := by
    obtain ⟨q, rfl⟩ : ∃ q, npoints = q + 2 := ⟨npoints - 2, by omega⟩
    simp only [Nat.add_sub_cancel]
    rw [show q + 2 - 1 = q + 1 by omega]; ring
  have hinj : ∀ a < 2 * nx, ∀ b < 2 * nx, off + rowConv [0, npoints - 1] nx a = off + rowConv [0, npoints - 1] nx b →
      a = b := fun a ha b hb h =>
    rowConv_inj (k := [0, npoints - 1]) (nx := nx) (by simp; omega) a ha b hb (by omega)
  refine ⟨fun e he => ?_, fun e he => ?_, fun j hj h => ?_⟩
  · have h0 : rowConv [0, npoints - 1] nx e = e := by rw [XEVar.rowConv_xe hp (by omega), if_pos he]
    have h1 := scat_hit (fun i => v.data.getD i 0) hinj (q := e) (by omega)
    rw [h0] at h1
    rw [getD_map_range 0 _ (by omega), h1]
  · have h0 : rowConv [0, npoints - 1] nx (nx + e) = (npoints - 1) * nx + e := by
      rw [XEVar.rowConv_xe hp (by omega), if_neg (by omega)]; omega
    have h1 := scat_hit (fun i => v.data.getD i 0) hinj (q := nx + e) (by omega)
    rw [h0] at h1
    rw [getD_map_range 0 _ (by omega), h1]
  · rw [getD_map_range 0 _ hj, scat_miss, add_zero]
    intro q hq
    rw [XEVar.rowConv_xe hp hq]
    split
    · next hlt => exact fun h' => (h q hlt).1 h'.symm
    · next hge =>
      intro h'
      refine (h (q - nx) (by omega)).2 ?_
      omega

/-- `convert_ind` is the decision index each entry is read from. -/
theorem C17_xe_convertInd (off npoints nx : Nat) (hp : 2 ≤ npoints) (e : Nat) (he : e < nx) :
    (⟨⟨[npoints, nx], off⟩⟩ : XEVar).convertInd e = .ok (off + e) ∧
    (⟨⟨[npoints, nx], off⟩⟩ : XEVar).convertInd (nx + e) = .ok (off + ((npoints - 1) * nx + e)) := by
  have e2 : (npoints - 2) * nx + nx = (npoints - 1) * nx := by
    obtain ⟨q, rfl⟩ : ∃ q, npoints = q + 2 := ⟨npoints - 2, by omega⟩
    simp only [Nat.add_sub_cancel]
    rw [show q + 2 - 1 = q + 1 by omega]; ring
  constructor
  · rw [XEVar.convertInd_eq off npoints nx hp (by omega), XEVar.rowConv_xe hp (by omega), if_pos he]
  · rw [XEVar.convertInd_eq off npoints nx hp (by omega), XEVar.rowConv_xe hp (by omega), if_neg (by omega)]
    congr 2; omega

/-- Hypotheses of C17 are met: 3 points of dimension 2 at offset 1. -/
example : (⟨⟨[3, 2], 1⟩⟩ : XEVar).unpackFrom [9, 0, 1, 2, 3, 4, 5] = .ok ⟨[2, 2], [0, 1, 4, 5]⟩ ∧
    (⟨⟨[3, 2], 1⟩⟩ : XEVar).addTo [9, 0, 1, 2, 3, 4, 5] ⟨[2, 2], [10, 20, 30, 40]⟩ = .ok [9, 10, 21, 2, 3, 34, 45] ∧
    (⟨⟨[3, 2], 1⟩⟩ : XEVar).convertInd 3 = .ok 6 := by decide

/-- The hypothesis `npoints ≥ 2` is needed: with a single point `add_to` keeps only the second row of the value
(`2` instead of `1 + 2`), although both rows are read from that point. -/
theorem C17_single_point_loses_a_row :
    (⟨⟨[1, 1], 0⟩⟩ : XEVar).unpackFrom [5] = .ok ⟨[2, 1], [5, 5]⟩ ∧
    (⟨⟨[1, 1], 0⟩⟩ : XEVar).addTo [0] ⟨[2, 1], [1, 2]⟩ = .ok [2] := by decide

end C17

section C18

/-- **C18.** Measured-state variable: row `i` of the array is state row `kmeas[i]`. -/
theorem C18_xm_unpack [Zero α] (off npoints nx : Nat) (k : List Nat) (hk : ∀ a ∈ k, a < npoints) (vec : List α)
    (hv : off + npoints * nx ≤ vec.length) :
    ∃ out, (⟨⟨[npoints, nx], off⟩, k⟩ : XMVar).unpackFrom vec = .ok out ∧ out.shape = [k.length, nx] ∧ out.WF ∧
      ∀ i (hi : i < k.length), ∀ e < nx, out.data[i * nx + e]? = vec[off + (k[i] * nx + e)]? := by
  refine ⟨_, XMVar.unpack_eq off npoints nx k hk vec hv, rfl, by simp [NDArray.WF], fun i hi e he => ?_⟩
  have hlt := mul_add_lt hi he
  have h2 := rowConv_lt hk hlt
  have h3 : rowConv k nx (i * nx + e) = k[i] * nx + e := by
    unfold rowConv
    rw [mul_add_div' he, mul_add_mod'' he]
    simp [List.getD_eq_getElem?_getD, hi]
  rw [h3] at h2
  rw [getElem?_map_range _ hlt, h3, some_getD 0 (by omega)]

/-- `add_to` adds row `i` of the value to state row `kmeas[i]` and touches nothing else. -/
theorem C18_xm_addTo [AddCommMonoid α] (off npoints nx : Nat) (k : List Nat) (hk : ∀ a ∈ k, a < npoints)
    (hnd : k.Nodup) (dest : List α) (v : NDArray α) (hd : off + npoints * nx ≤ dest.length)
    (hs : v.shape = [k.length, nx]) (hw : v.WF) :
    ∃ r, (⟨⟨[npoints, nx], off⟩, k⟩ : XMVar).addTo dest v = .ok r ∧ r.length = dest.length ∧
      (∀ i (hi : i < k.length), ∀ e < nx, r.getD (off + (k[i] * nx + e)) 0 =
        dest.getD (off + (k[i] * nx + e)) 0 + v.data.getD (i * nx + e) 0) ∧
      ∀ j < dest.length, (∀ a ∈ k, ∀ e < nx, j ≠ off + (a * nx + e)) → r.getD j 0 = dest.getD j 0 := by
  refine ⟨_, XMVar.addTo_eq off npoints nx k hk hnd dest v hd hs hw, by simp, fun i hi e he => ?_, fun j hj h => ?_⟩
  · have hlt := mul_add_lt hi he
    have h2 := rowConv_lt hk hlt
    have h3 : rowConv k nx (i * nx + e) = k[i] * nx + e := by
      unfold rowConv
      rw [mul_add_div' he, mul_add_mod'' he]
      simp [List.getD_eq_getElem?_getD, hi]
    have h1 := scat_hit (f := fun i => off + rowConv k nx i) (fun i => v.data.getD i 0)
      (fun a ha b hb h => rowConv_inj hnd a ha b hb (by omega)) hlt
    simp only [h3] at h1 h2
    rw [getD_map_range 0 _ (by omega), h1]
  · rw [getD_map_range 0 _ hj, scat_miss, add_zero]
    intro q hq
    have hn : 0 < nx := Nat.pos_of_ne_zero fun h => by simp [h] at hq
    have h1 : q / nx < k.length := Nat.div_lt_of_lt_mul (by rw [Nat.mul_comm]; exact hq)
    have := h (k[q / nx]) (List.getElem_mem h1) (q % nx) (Nat.mod_lt _ hn)
    simp only [rowConv, List.getD_eq_getElem?_getD, List.getElem?_eq_getElem h1, Option.getD_some]
    omega

/-- `convert_ind` is the decision index each entry is read from. -/
theorem C18_xm_convertInd (off npoints nx : Nat) (k : List Nat) (hk : ∀ a ∈ k, a < npoints) (i : Nat)
    (hi : i < k.length) (e : Nat) (he : e < nx) :
    (⟨⟨[npoints, nx], off⟩, k⟩ : XMVar).convertInd (i * nx + e) = .ok (off + (k[i] * nx + e)) := by
  rw [XMVar.convertInd_eq off npoints nx k hk (mul_add_lt hi he)]
  unfold rowConv
  rw [mul_add_div' he, mul_add_mod'' he]
  simp [List.getD_eq_getElem?_getD, hi]

/-- Entries out of range are rejected with ValueError. -/
theorem C18_xm_convertInd_out_of_range (off npoints nx : Nat) (k : List Nat) (i : Nat) (hi : k.length * nx ≤ i) :
    (⟨⟨[npoints, nx], off⟩, k⟩ : XMVar).convertInd i = .error .valueError := by
  unfold XMVar.convertInd
  simp only
  rw [if_neg (by omega)]

/-- A measurement index past the last point is rejected with IndexError by unpacking and by accumulating. -/
theorem C18_xm_kmeas_out_of_range [AddCommMonoid α] (off npoints nx : Nat) (k : List Nat) (a : Nat) (ha : a ∈ k)
    (hna : npoints ≤ a) (vec : List α) (hv : off + npoints * nx ≤ vec.length) (v : NDArray α)
    (hs : v.shape = [k.length, nx]) :
    (⟨⟨[npoints, nx], off⟩, k⟩ : XMVar).unpackFrom vec = .error .indexError ∧
    (⟨⟨[npoints, nx], off⟩, k⟩ : XMVar).addTo vec v = .error .indexError := by
  have hm := XMVar.mapM_pyIndex_err ha hna
  constructor
  · unfold XMVar.unpackFrom
    rw [Component.unpackFrom_eq 0 _ vec (by simpa [Component.size] using hv)]
    simp only [py_bind_ok, py_pure]
    rw [hm]; rfl
  · unfold XMVar.addTo
    rw [pyAssert_true (by simpa [XMVar.shape] using hs)]
    simp only [py_bind_ok]
    rw [hm]; rfl

/-- Hypotheses of C18 are met: rows 2 and 0 of 3 points of dimension 2. -/
example : (⟨⟨[3, 2], 1⟩, [2, 0]⟩ : XMVar).unpackFrom [9, 0, 1, 2, 3, 4, 5] = .ok ⟨[2, 2], [4, 5, 0, 1]⟩ ∧
    (⟨⟨[3, 2], 1⟩, [2, 0]⟩ : XMVar).addTo [9, 0, 1, 2, 3, 4, 5] ⟨[2, 2], [10, 20, 30, 40]⟩ =
      .ok [9, 30, 41, 2, 3, 14, 25] ∧
    (⟨⟨[3, 2], 1⟩, [2, 0]⟩ : XMVar).convertInd 1 = .ok 6 := by decide

end C18
end Ceacoest
