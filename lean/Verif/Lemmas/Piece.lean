import Verif.Lemmas.Gather

/-! Helper lemmas: `PieceRavelled` gathers `i ↦ offset + (i - (i / (ncol*m)) * m)`. -/

namespace Ceacoest
variable {α : Type _}

theorem selPos_one (n : Nat) (rest : List Nat) (idx : Nat → Nat) (N : Nat) :
    selPos (n :: rest) [(List.range N).map idx] =
      (List.range (N * rest.prod)).map fun q => idx (q / rest.prod) * rest.prod + q % rest.prod := by
  simp only [selPos, List.flatMap_map]
  rw [range_flatMap_map N rest.prod fun i k => idx i * rest.prod + k]

theorem selPos_rows (n : Nat) (rest : List Nat) (N : Nat) :
    selPos (n :: rest) [List.range N] = List.range (N * rest.prod) := by
  have := selPos_one n rest id N
  simp only [List.map_id, id_eq] at this
  rw [this]
  conv_rhs => rw [← List.map_id (List.range (N * rest.prod))]
  refine List.map_congr_left fun q _ => Nat.div_add_mod' q rest.prod

theorem selPos_two (P C : Nat) (rest : List Nat) (idx : Nat → Nat) (N K : Nat) (jdx : Nat → Nat) :
    selPos (P :: C :: rest) [(List.range N).map idx, (List.range K).map jdx] =
      (List.range (N * (K * rest.prod))).map fun q =>
        idx (q / (K * rest.prod)) * (C * rest.prod) +
          (jdx (q % (K * rest.prod) / rest.prod) * rest.prod + q % (K * rest.prod) % rest.prod) := by
  rw [selPos, selPos_one]
  simp only [List.flatMap_map, List.map_map, List.prod_cons]
  rw [← range_flatMap_map N (K * rest.prod) fun i k =>
    idx i * (C * rest.prod) + (jdx (k / rest.prod) * rest.prod + k % rest.prod)]
  rfl

/-- Gather map of `[:, :K]`-like selections: all pieces, first `K` columns. -/
theorem selPos_block (P C : Nat) (rest : List Nat) (N K : Nat) :
    selPos (P :: C :: rest) [List.range N, List.range K] =
      (List.range (N * (K * rest.prod))).map fun q =>
        q / (K * rest.prod) * (C * rest.prod) + q % (K * rest.prod) := by
  have := selPos_two P C rest id N K id
  simp only [List.map_id, id_eq] at this
  rw [this]
  refine List.map_congr_left fun q _ => ?_
  rw [Nat.div_add_mod']

/-- All given pieces, one column. -/
theorem selPos_col (P C : Nat) (rest : List Nat) (idx : Nat → Nat) (N c : Nat) :
    selPos (P :: C :: rest) [(List.range N).map idx, [c]] =
      (List.range (N * rest.prod)).map fun q =>
        idx (q / rest.prod) * (C * rest.prod) + (c * rest.prod + q % rest.prod) := by
  have := selPos_two P C rest idx N 1 (fun _ => c)
  simp only [Nat.one_mul] at this
  rw [show (List.range 1).map (fun _ => c) = [c] by rfl] at this
  rw [this]
  refine List.map_congr_left fun q _ => ?_
  rw [Nat.mod_mod]

/-- Uniqueness of quotient and remainder. -/
theorem divmod_unique {b p q r s : Nat} (h : p * b + r = q * b + s) (hr : r < b) (hs : s < b) :
    p = q ∧ r = s := by
  have hb : 0 < b := by omega
  have h1 : (p * b + r) / b = p := by
    rw [Nat.add_comm, Nat.add_mul_div_right _ _ hb, Nat.div_eq_of_lt hr, Nat.zero_add]
  have h2 : (q * b + s) / b = q := by
    rw [Nat.add_comm, Nat.add_mul_div_right _ _ hb, Nat.div_eq_of_lt hs, Nat.zero_add]
  have h3 : p = q := by rw [← h1, ← h2, h]
  subst h3
  exact ⟨rfl, by omega⟩

theorem mul_add_div' {b p r : Nat} (hr : r < b) : (p * b + r) / b = p := by
  rw [Nat.add_comm, Nat.add_mul_div_right _ _ (by omega), Nat.div_eq_of_lt hr, Nat.zero_add]

theorem mul_add_mod'' {b p r : Nat} (hr : r < b) : (p * b + r) % b = r := by
  rw [Nat.mul_comm, Nat.mul_add_mod, Nat.mod_eq_of_lt hr]

theorem mul_add_lt {b p r P : Nat} (hp : p < P) (hr : r < b) : p * b + r < P * b := by
  have : (p + 1) * b ≤ P * b := Nat.mul_le_mul_right b hp
  rw [Nat.succ_mul] at this
  omega

/-- The point-space index read by ravelled position `i`; `m` is the trailing size. -/
def pieceConv (C m i : Nat) : Nat := i - i / (C * m) * m

theorem pieceConv_eq {C m p r : Nat} (hr : r < C * m) :
    pieceConv C m (p * (C * m) + r) = p * ((C - 1) * m) + r := by
  unfold pieceConv
  rw [mul_add_div' hr]
  have hC : 0 < C := Nat.pos_of_ne_zero fun h => by simp [h] at hr
  obtain ⟨N, rfl⟩ : ∃ N, C = N + 1 := ⟨C - 1, by omega⟩
  have : p * ((N + 1) * m) = p * (N * m) + p * m := by ring
  simp only [Nat.add_sub_cancel]
  omega

namespace PieceRavelled

variable (off P N : Nat) (rest : List Nat)

/-- The specification with `P` pieces of `N` intervals over a variable of shape `(P*N+1, *rest)`. -/
def std : PieceRavelled := ⟨⟨(P * N + 1) :: rest, off⟩, P, N + 1⟩

variable {off P N rest}

theorem std_unpack [Zero α] (hP : 0 < P) (_hN : 0 < N) (vec : List α)
    (hv : off + (P * N + 1) * rest.prod ≤ vec.length) :
    (std off P N rest).unpackFrom vec = .ok ⟨(std off P N rest).shape,
      (List.range (std off P N rest).shape.prod).map fun i =>
        vec.getD (off + pieceConv (N + 1) rest.prod i) 0⟩ := by
  set m := rest.prod with hm
  have hsh : (std off P N rest).shape = P :: (N + 1) :: rest := rfl
  have hprod : (P :: (N + 1) :: rest).prod = P * ((N + 1) * m) := by simp [hm]
  unfold unpackFrom
  rw [Component.unpackFrom_eq 0 _ vec (by simpa [std, Component.size, ← hm] using hv)]
  simp only [py_bind_ok, shape, std, py_pure, Component.size, NDArray.zeros, List.prod_cons, List.tail_cons, ← hm]
  rw [sliceIdx_init, selPos_rows, sliceIdx_all, sliceIdx_init, selPos_block, ← hm]
  simp only [Nat.add_sub_cancel]
  have hle : P * N * m ≤ (P * N + 1) * m := Nat.mul_le_mul_right m (by omega)
  rw [readAt_eq 0 (by simp; intro p hp; omega)]
  simp only [py_bind_ok]
  rw [flatAssign_eq _ _ _ (by simp; ring)]
  rw [pyIndex_last (by omega), pyIndex_zero (by omega)]
  simp only [py_bind_ok, Nat.add_sub_cancel]
  rw [sliceIdx_tail, selPos_col, ← hm]
  have hS : P * (N * m) ≤ P * ((N + 1) * m) := Nat.mul_le_mul_left P (Nat.mul_le_mul_right m (by omega))
  -- size facts
  have hlen1 : ∀ vals : List α, (writeAt (List.replicate (P * ((N + 1) * m)) (0:α))
      ((List.range (P * (N * m))).map fun q => q / (N * m) * ((N + 1) * m) + q % (N * m)) vals).length
      = P * ((N + 1) * m) := by intro vals; simp [writeAt_length]
  have hNm : N * m ≤ (N + 1) * m := Nat.mul_le_mul_right m (by omega)
  have hN1 : (N + 1) * m = N * m + m := by ring
  rw [readAt_eq 0 (by
    intro p hp
    rw [hlen1]
    simp only [List.mem_map, List.mem_range] at hp
    obtain ⟨q, hq, rfl⟩ := hp
    have hm0 : 0 < m := Nat.pos_of_ne_zero fun h => by simp [h] at hq
    have h1 : q / m < P - 1 := Nat.div_lt_of_lt_mul (by rw [Nat.mul_comm]; exact hq)
    have h2 := Nat.mod_lt q hm0
    exact mul_add_lt (by omega) (by omega))]
  simp only [py_bind_ok]
  rw [sliceIdx_init]
  rw [show List.range (P - 1) = (List.range (P - 1)).map (fun i => i) by simp, selPos_col, ← hm]
  rw [pyIndex_last (by omega), pyIndex_last (by omega)]
  simp only [py_bind_ok]
  rw [show ([P * N + 1 - 1] : List Nat) = (List.range 1).map (fun _ => P * N) by rfl, selPos_one, ← hm]
  rw [readAt_eq 0 (by
    intro p hp
    simp only [List.mem_map, List.mem_range, Nat.one_mul] at hp
    obtain ⟨q, hq, rfl⟩ := hp
    have h2 := Nat.mod_lt q (show 0 < m by omega)
    simp only [List.length_map, List.length_range]
    exact mul_add_lt (by omega) h2)]
  simp only [py_bind_ok]
  rw [show ([P - 1] : List Nat) = (List.range 1).map (fun _ => P - 1) by rfl, selPos_col, ← hm]
  congr 2
  refine list_ext_getD 0 (by simp [writeAt_length]) fun i hi => ?_
  simp only [writeAt_length, List.length_replicate] at hi
  rw [getD_map_range 0 _ hi]
  have hCm : 0 < (N + 1) * m := Nat.pos_of_ne_zero fun h => by simp [h] at hi
  have hm0 : 0 < m := Nat.pos_of_ne_zero fun h => by simp [h] at hCm
  obtain ⟨p, r, hp, hr, rfl⟩ : ∃ p r, p < P ∧ r < (N + 1) * m ∧ i = p * ((N + 1) * m) + r :=
    ⟨i / ((N + 1) * m), i % ((N + 1) * m), Nat.div_lt_of_lt_mul (by rw [Nat.mul_comm]; exact hi),
      Nat.mod_lt _ hCm, (Nat.div_add_mod' _ _).symm⟩
  rw [pieceConv_eq hr]
  simp only [Nat.add_sub_cancel]
  -- the value stored by the first assignment
  have first : ∀ p' r', p' < P → r' < N * m →
      (writeAt (List.replicate (P * ((N + 1) * m)) (0:α))
        ((List.range (P * (N * m))).map fun q => q / (N * m) * ((N + 1) * m) + q % (N * m))
        ((List.range (P * N * m)).map fun p =>
          ((List.range ((P * N + 1) * m)).map fun i => vec.getD (off + i) 0).getD p 0)).getD
        (p' * ((N + 1) * m) + r') 0 = vec.getD (off + (p' * (N * m) + r')) 0 := by
    intro p' r' hp' hr'
    have hq : p' * (N * m) + r' < P * (N * m) := mul_add_lt hp' hr'
    have hq2 : p' * (N * m) + r' < P * N * m := by rw [Nat.mul_assoc]; exact hq
    have := writeAt_map_hit (0:α) (List.replicate (P * ((N + 1) * m)) 0) (P * (N * m))
      (fun q => q / (N * m) * ((N + 1) * m) + q % (N * m))
      ((List.range (P * N * m)).map fun p =>
          ((List.range ((P * N + 1) * m)).map fun i => vec.getD (off + i) 0).getD p 0)
      (by
        intro a ha b hb hab
        have hNm0 : 0 < N * m := by omega
        have h1 := Nat.mod_lt a hNm0
        have h2 := Nat.mod_lt b hNm0
        obtain ⟨h3, h4⟩ := divmod_unique hab (by omega) (by omega)
        rw [← Nat.div_add_mod' a (N * m), ← Nat.div_add_mod' b (N * m), h3, h4])
      (by simp [Nat.mul_assoc]) hq (by
        rw [mul_add_div' hr', mul_add_mod'' hr']
        simp only [List.length_replicate]
        exact mul_add_lt hp' (by omega))
    rw [mul_add_div' hr', mul_add_mod'' hr'] at this
    rw [this, getD_map_range 0 _ hq2, getD_map_range 0 _ (by omega)]
  by_cases hlast : p = P - 1 ∧ N * m ≤ r
  · -- last column of last piece: third assignment
    obtain ⟨rfl, hr2⟩ := hlast
    obtain ⟨k, hk, rfl⟩ : ∃ k, k < m ∧ r = N * m + k := ⟨r - N * m, by omega, by omega⟩
    have := writeAt_map_hit (0:α)
      (writeAt (writeAt (List.replicate (P * ((N + 1) * m)) (0:α))
        ((List.range (P * (N * m))).map fun q => q / (N * m) * ((N + 1) * m) + q % (N * m))
        ((List.range (P * N * m)).map fun p =>
          ((List.range ((P * N + 1) * m)).map fun i => vec.getD (off + i) 0).getD p 0))
        ((List.range ((P - 1) * m)).map fun q => q / m * ((N + 1) * m) + (N * m + q % m))
        (((List.range ((P - 1) * m)).map fun q => (q / m + 1) * ((N + 1) * m) + (0 * m + q % m)).map
          fun p => (writeAt (List.replicate (P * ((N + 1) * m)) (0:α))
        ((List.range (P * (N * m))).map fun q => q / (N * m) * ((N + 1) * m) + q % (N * m))
        ((List.range (P * N * m)).map fun p =>
          ((List.range ((P * N + 1) * m)).map fun i => vec.getD (off + i) 0).getD p 0)).getD p 0))
      (1 * m) (fun q => (P - 1) * ((N + 1) * m) + (N * m + q % m))
      (((List.range (1 * m)).map fun q => P * N * m + q % m).map fun p =>
        ((List.range ((P * N + 1) * m)).map fun i => vec.getD (off + i) 0).getD p 0)
      (by
        intro a ha b hb hab
        rw [Nat.mod_eq_of_lt (by omega), Nat.mod_eq_of_lt (by omega)] at hab
        omega)
      (by simp) (show k < 1 * m by omega) (by
        simp only [writeAt_length, List.length_replicate]
        rw [Nat.mod_eq_of_lt hk]
        exact mul_add_lt hp (by omega))
    simp only [Nat.mod_eq_of_lt hk] at this
    rw [this, List.map_map, getD_map_range 0 _ (by omega)]
    simp only [Function.comp, Nat.mod_eq_of_lt hk]
    have e : P * N * m = (P - 1) * (N * m) + N * m := by
      obtain ⟨P', rfl⟩ : ∃ P', P = P' + 1 := ⟨P - 1, by omega⟩
      simp only [Nat.add_sub_cancel]; ring
    have e2 : (P * N + 1) * m = P * N * m + m := by ring
    rw [getD_map_range 0 _ (by omega)]
    congr 1
    omega
  · rw [writeAt_map_miss 0 _ (1 * m) _ _ (by
      intro q hq he
      have h2 := Nat.mod_lt q hm0
      obtain ⟨h3, h4⟩ := divmod_unique he (by omega) hr
      exact hlast ⟨h3.symm, by omega⟩)]
    by_cases hr2 : N * m ≤ r
    · -- last column of another piece: second assignment
      have hp2 : p < P - 1 := by omega
      obtain ⟨k, hk, rfl⟩ : ∃ k, k < m ∧ r = N * m + k := ⟨r - N * m, by omega, by omega⟩
      have hq : p * m + k < (P - 1) * m := mul_add_lt hp2 hk
      have := writeAt_map_hit (0:α)
        (writeAt (List.replicate (P * ((N + 1) * m)) (0:α))
        ((List.range (P * (N * m))).map fun q => q / (N * m) * ((N + 1) * m) + q % (N * m))
        ((List.range (P * N * m)).map fun p =>
          ((List.range ((P * N + 1) * m)).map fun i => vec.getD (off + i) 0).getD p 0))
        ((P - 1) * m) (fun q => q / m * ((N + 1) * m) + (N * m + q % m))
        (((List.range ((P - 1) * m)).map fun q => (q / m + 1) * ((N + 1) * m) + (0 * m + q % m)).map
          fun p => (writeAt (List.replicate (P * ((N + 1) * m)) (0:α))
        ((List.range (P * (N * m))).map fun q => q / (N * m) * ((N + 1) * m) + q % (N * m))
        ((List.range (P * N * m)).map fun p =>
          ((List.range ((P * N + 1) * m)).map fun i => vec.getD (off + i) 0).getD p 0)).getD p 0)
        (by
          intro a ha b hb hab
          have h1 := Nat.mod_lt a hm0
          have h2 := Nat.mod_lt b hm0
          obtain ⟨h3, h4⟩ := divmod_unique hab (by omega) (by omega)
          rw [← Nat.div_add_mod' a m, ← Nat.div_add_mod' b m, h3]
          omega)
        (by simp) hq (by
          rw [mul_add_div' hk, mul_add_mod'' hk, hlen1]
          exact mul_add_lt hp (by omega))
      simp only [mul_add_div' hk, mul_add_mod'' hk] at this
      rw [this, List.map_map, getD_map_range 0 _ hq]
      simp only [Function.comp, mul_add_div' hk, mul_add_mod'' hk, Nat.zero_mul, Nat.zero_add]
      have hkN : k < N * m := by
        have := Nat.le_mul_of_pos_left m _hN
        omega
      rw [first (p + 1) k (by omega) hkN]
      congr 1
      ring
    · -- first assignment
      rw [writeAt_map_miss 0 _ ((P - 1) * m) _ _ (by
        intro q hq he
        have h2 := Nat.mod_lt q hm0
        obtain ⟨h3, h4⟩ := divmod_unique he (by omega) hr
        omega)]
      exact first p r hp (by omega)

theorem std_conv_lt (hr : i < P * ((N + 1) * m)) : pieceConv (N + 1) m i < (P * N + 1) * m := by
  have hCm : 0 < (N + 1) * m := Nat.pos_of_ne_zero fun h => by simp [h] at hr
  rw [← Nat.div_add_mod' i ((N + 1) * m), pieceConv_eq (Nat.mod_lt _ hCm)]
  have h1 : i / ((N + 1) * m) < P := Nat.div_lt_of_lt_mul (by rw [Nat.mul_comm]; exact hr)
  have h2 := Nat.mod_lt i hCm
  generalize i / ((N + 1) * m) = p at *
  generalize i % ((N + 1) * m) = r at *
  simp only [Nat.add_sub_cancel]
  have h3 : (p + 1) * (N * m) ≤ P * (N * m) := Nat.mul_le_mul_right _ h1
  have e1 : (p + 1) * (N * m) = p * (N * m) + N * m := by ring
  have e2 : (P * N + 1) * m = P * (N * m) + m := by ring
  have e3 : (N + 1) * m = N * m + m := by ring
  omega

theorem std_addTo [AddCommMonoid α] (hP : 0 < P) (hN : 0 < N) (dest : List α) (v : NDArray α)
    (hd : off + (P * N + 1) * rest.prod ≤ dest.length) (hs : v.shape = (std off P N rest).shape) (hw : v.WF) :
    (std off P N rest).addTo dest v = .ok ((List.range dest.length).map fun j =>
      dest.getD j 0 + scat (std off P N rest).shape.prod (fun i => off + pieceConv (N + 1) rest.prod i)
        (fun i => v.data.getD i 0) j) := by
  set m := rest.prod with hm
  have hsh : (std off P N rest).shape = P :: (N + 1) :: rest := rfl
  have hprod : (P :: (N + 1) :: rest).prod = P * ((N + 1) * m) := by simp [hm]
  have hvl : v.data.length = P * ((N + 1) * m) := by rw [hw, hs, hsh, hprod]
  have hN1 : (N + 1) * m = N * m + m := by ring
  have hPN : (P * N + 1) * m = P * (N * m) + m := by ring
  unfold addTo
  rw [pyAssert_true hs]
  simp only [py_bind_ok, shape, std, py_pure, NDArray.zeros, List.prod_cons, Nat.add_sub_cancel,
    List.tail_cons, ← hm]
  rw [sliceIdx_all, sliceIdx_init, selPos_block, sliceIdx_init, selPos_rows, ← hm]
  simp only [Nat.add_sub_cancel]
  have hblock : ∀ q < P * (N * m), q / (N * m) * ((N + 1) * m) + q % (N * m) < P * ((N + 1) * m) := by
    intro q hq
    have h0 : 0 < N * m := Nat.pos_of_ne_zero fun h => by simp [h] at hq
    have h1 : q / (N * m) < P := Nat.div_lt_of_lt_mul (by rw [Nat.mul_comm]; exact hq)
    have h2 := Nat.mod_lt q h0
    exact mul_add_lt h1 (by omega)
  rw [readAt_eq 0 (by
    intro p hp
    simp only [List.mem_map, List.mem_range] at hp
    obtain ⟨q, hq, rfl⟩ := hp
    rw [hvl]; exact hblock q hq)]
  simp only [py_bind_ok]
  rw [flatAssign_eq _ _ _ (by simp [Nat.mul_assoc])]
  rw [show List.range (P * N * m) = (List.range (P * N * m)).map (fun q => q) by simp,
    writeAt_zeros _ _ (fun q => q) _ (fun _ _ _ _ h => h) (by simp [Nat.mul_assoc])
      (fun q hq => by rw [Nat.mul_assoc] at hq; omega)]
  simp only [py_bind_ok]
  rw [if_neg (by omega), sliceIdx_step P N hP hN, pyIndex_last (by omega)]
  simp only [py_bind_ok, Nat.add_sub_cancel, List.length_map, List.length_range]
  rw [show List.range P = (List.range P).map (fun i => i) by simp, selPos_col, ← hm]
  have hcol : ∀ q < P * m, q / m * ((N + 1) * m) + (N * m + q % m) < P * ((N + 1) * m) := by
    intro q hq
    have h0 : 0 < m := Nat.pos_of_ne_zero fun h => by simp [h] at hq
    have h1 : q / m < P := Nat.div_lt_of_lt_mul (by rw [Nat.mul_comm]; exact hq)
    have h2 := Nat.mod_lt q h0
    exact mul_add_lt h1 (by omega)
  rw [readAt_eq 0 (by
    intro p hp
    simp only [List.mem_map, List.mem_range] at hp
    obtain ⟨q, hq, rfl⟩ := hp
    rw [hvl]; exact hcol q hq)]
  simp only [py_bind_ok]
  rw [broadcastTo_self' _ rfl (by simp [hm])]
  simp only [py_bind_ok, List.map_map]
  rw [show ((fun p => (p + 1) * N) ∘ fun i : Nat => i) = fun p => (p + 1) * N from rfl, selPos_one, ← hm]
  have hrow : ∀ q < P * m, (q / m + 1) * N * m + q % m < (P * N + 1) * m := by
    intro q hq
    have h0 : 0 < m := Nat.pos_of_ne_zero fun h => by simp [h] at hq
    have h1 : q / m < P := Nat.div_lt_of_lt_mul (by rw [Nat.mul_comm]; exact hq)
    have h2 := Nat.mod_lt q h0
    refine mul_add_lt ?_ h2
    have : (q / m + 1) * N ≤ P * N := Nat.mul_le_mul_right N h1
    omega
  rw [readAt_eq 0 (by
    intro p hp
    simp only [List.mem_map, List.mem_range] at hp
    obtain ⟨q, hq, rfl⟩ := hp
    simpa using hrow q hq)]
  simp only [py_bind_ok]
  rw [writeAt_incr _ (P * m) (fun q => (q / m + 1) * N * m + q % m) _ (by
      intro a ha b hb hab
      have hm0 : 0 < m := Nat.pos_of_ne_zero fun h => by simp [h] at ha
      have h1 := Nat.mod_lt a hm0
      have h2 := Nat.mod_lt b hm0
      obtain ⟨h3, h4⟩ := divmod_unique hab h1 h2
      have h5 : a / m = b / m := by
        have := Nat.eq_of_mul_eq_mul_right hN h3
        omega
      rw [← Nat.div_add_mod' a m, ← Nat.div_add_mod' b m, h5, h4])
    (by intro q hq; simpa using hrow q hq)]
  have hsz : Component.size ⟨(P * N + 1) :: rest, off⟩ = (P * N + 1) * m := by simp [Component.size, hm]
  rw [Component.addTo_eq _ _ _ (by rw [hsz]; simpa using hd) rfl (by simp [NDArray.WF, hm])]
  congr 1
  refine List.map_congr_left fun j hj => ?_
  congr 1
  rw [hsz]
  simp only [List.length_map, List.length_range]
  -- reduce to point space
  rw [scat_shift (f := fun i => i), scat_shift (f := pieceConv (N + 1) m)]
  split
  · next hoj =>
    generalize j - off = j'
    by_cases hj' : j' < (P * N + 1) * m
    · rw [scat_hit (f := fun i => i) _ (fun _ _ _ _ h => h) hj', getD_map_range 0 _ hj', getD_map_range 0 _ hj']
      rw [scat_mul P ((N + 1) * m)]
      have step : ∀ p ∈ Finset.range P,
          scat ((N + 1) * m) (fun b => pieceConv (N + 1) m (p * ((N + 1) * m) + b))
            (fun b => v.data.getD (p * ((N + 1) * m) + b) 0) j' =
          scat (N * m) (fun b => p * (N * m) + b) (fun b => v.data.getD (p * ((N + 1) * m) + b) 0) j' +
          scat m (fun b => (p + 1) * N * m + b) (fun b => v.data.getD (p * ((N + 1) * m) + (N * m + b)) 0) j' := by
        intro p _
        rw [scat_congr (g := fun b => p * (N * m) + b) (w := fun b => v.data.getD (p * ((N + 1) * m) + b) 0)
          (fun q hq => by rw [pieceConv_eq hq]; rfl) (fun _ _ => rfl)]
        rw [hN1, scat_add]
        congr 1
        refine scat_congr (fun q _ => by ring) (fun q _ => rfl) _
      rw [Finset.sum_congr rfl step, Finset.sum_add_distrib]
      congr 1
      · rw [Nat.mul_assoc, scat_mul P (N * m)]
        refine Finset.sum_congr rfl fun p hp => ?_
        refine scat_congr (fun q _ => rfl) (fun q hq => ?_) _
        have hlt := mul_add_lt (Finset.mem_range.1 hp) hq
        rw [getD_map_range 0 _ hlt]
        simp only [Function.comp, mul_add_div' hq, mul_add_mod'' hq]
      · rw [scat_mul P m]
        refine Finset.sum_congr rfl fun p hp => ?_
        refine scat_congr (fun q hq => ?_) (fun q hq => ?_) _
        · simp only [mul_add_div' hq, mul_add_mod'' hq]
        · simp only [Function.comp, mul_add_div' hq, mul_add_mod'' hq]
    · rw [scat_miss _ (fun q hq => by omega), scat_miss]
      intro q hq
      have := std_conv_lt (m := m) hq
      omega
  · rfl

theorem gathers [AddCommMonoid α] (off P N : Nat) (rest : List Nat) (hP : 0 < P) (hN : 0 < N) (n : Nat)
    (hn : off + (P * N + 1) * rest.prod ≤ n) :
    Gathers α (.piece (std off P N rest)) n fun i => off + pieceConv (N + 1) rest.prod i where
  unpack vec hv := std_unpack hP hN vec (by omega)
  lt i hi := by
    have : (std off P N rest).shape.prod = P * ((N + 1) * rest.prod) := by
      simp [std, shape]
    have h := std_conv_lt (m := rest.prod) (P := P) (N := N) (i := i) (by rw [← this]; exact hi)
    omega
  ind i _ := by
    simp [VarSpec.convertInd, convertInd, std, shape, Component.convertInd, pieceConv, Nat.add_comm]
  add dest v hd hs hw := by
    subst hd
    exact std_addTo hP hN dest v hn hs hw

end PieceRavelled
end Ceacoest
