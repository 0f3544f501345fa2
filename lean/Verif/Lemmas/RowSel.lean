import Verif.Lemmas.Piece

/-! Helper lemmas: the endpoint and measured-state variables gather rows. -/

namespace Ceacoest
variable {α : Type _}

theorem writeAt_append (a : List α) (p1 p2 : List Nat) (v1 v2 : List α) (h : p1.length = v1.length) :
    writeAt a (p1 ++ p2) (v1 ++ v2) = writeAt (writeAt a p1 v1) p2 v2 := by
  induction p1 generalizing a v1 with
  | nil =>
    cases v1 with
    | nil => cases p2 <;> cases v2 <;> simp [writeAt]
    | cons => simp at h
  | cons p ps ih =>
    cases v1 with
    | nil => simp at h
    | cons v vs => simp [writeAt, ih _ vs (by simpa using h)]

/-- Row-major position read by position `i` of a selection of rows `k` of width `nx`. -/
def rowConv (k : List Nat) (nx i : Nat) : Nat := k.getD (i / nx) 0 * nx + i % nx

theorem selPos_list (npoints nx : Nat) (k : List Nat) :
    selPos [npoints, nx] [k] = (List.range (k.length * nx)).map (rowConv k nx) := by
  have := selPos_one npoints [nx] (fun i => k.getD i 0) k.length
  rw [← eq_map_range_getD 0 k rfl] at this
  rw [this]
  simp [rowConv]

theorem rowConv_lt {k : List Nat} {nx npoints i : Nat} (hk : ∀ a ∈ k, a < npoints)
    (hi : i < k.length * nx) : rowConv k nx i < npoints * nx := by
  have hn : 0 < nx := Nat.pos_of_ne_zero fun h => by simp [h] at hi
  have h1 : i / nx < k.length := Nat.div_lt_of_lt_mul (by rw [Nat.mul_comm]; exact hi)
  refine mul_add_lt (hk _ ?_) (Nat.mod_lt _ hn)
  rw [List.getD_eq_getElem?_getD, List.getElem?_eq_getElem h1]
  simp

theorem rowConv_inj {k : List Nat} {nx : Nat} (hk : k.Nodup) :
    ∀ a < k.length * nx, ∀ b < k.length * nx, rowConv k nx a = rowConv k nx b → a = b := by
  intro a ha b hb hab
  have hn : 0 < nx := Nat.pos_of_ne_zero fun h => by simp [h] at ha
  have h1 : a / nx < k.length := Nat.div_lt_of_lt_mul (by rw [Nat.mul_comm]; exact ha)
  have h2 : b / nx < k.length := Nat.div_lt_of_lt_mul (by rw [Nat.mul_comm]; exact hb)
  obtain ⟨h3, h4⟩ := divmod_unique hab (Nat.mod_lt _ hn) (Nat.mod_lt _ hn)
  simp only [List.getD_eq_getElem?_getD, List.getElem?_eq_getElem h1, List.getElem?_eq_getElem h2,
    Option.getD_some] at h3
  have h5 : a / nx = b / nx := (List.Nodup.getElem_inj_iff hk).1 h3
  rw [← Nat.div_add_mod' a nx, ← Nat.div_add_mod' b nx, h5, h4]

namespace XMVar

theorem mapM_pyIndex {npoints : Nat} {k : List Nat} (hk : ∀ a ∈ k, a < npoints) :
    (k.mapM fun (a : Nat) => pyIndex npoints (a : Int)) = .ok k := by
  have := mapM_ok (f := fun (a : Nat) => pyIndex npoints (a : Int)) (g := fun a => a) (l := k)
    (fun a ha => pyIndex_nat (hk a ha))
  simpa using this

theorem mapM_pyIndex_err {npoints a : Nat} {k : List Nat} (ha : a ∈ k) (hna : npoints ≤ a) :
    (k.mapM fun (a : Nat) => pyIndex npoints (a : Int)) = .error .indexError := by
  induction k with
  | nil => simp at ha
  | cons b k ih =>
    rw [List.mapM_cons]
    by_cases hb : b < npoints
    · rw [pyIndex_nat hb]
      rcases List.mem_cons.1 ha with rfl | h
      · omega
      · simp [ih h]
    · rw [pyIndex_nat_ge (by omega)]; rfl

theorem unpack_eq [Zero α] (off npoints nx : Nat) (k : List Nat) (hk : ∀ a ∈ k, a < npoints) (vec : List α)
    (hv : off + npoints * nx ≤ vec.length) :
    (⟨⟨[npoints, nx], off⟩, k⟩ : XMVar).unpackFrom vec =
      .ok ⟨[k.length, nx], (List.range (k.length * nx)).map fun i => vec.getD (off + rowConv k nx i) 0⟩ := by
  unfold unpackFrom
  rw [Component.unpackFrom_eq 0 _ vec (by simpa [Component.size] using hv)]
  simp only [py_bind_ok, py_pure, List.tail_cons]
  rw [mapM_pyIndex hk]
  simp only [py_bind_ok, Component.size, List.prod_cons, List.prod_nil, Nat.mul_one]
  rw [selPos_list, readAt_eq 0 (by
    intro p hp
    simp only [List.mem_map, List.mem_range] at hp
    obtain ⟨q, hq, rfl⟩ := hp
    simpa using rowConv_lt hk hq)]
  simp only [py_bind_ok, List.map_map]
  congr 2
  refine List.map_congr_left fun i hi => ?_
  simp only [Function.comp]
  rw [getD_map_range 0 _ (rowConv_lt hk (List.mem_range.1 hi))]

theorem addTo_eq [AddCommMonoid α] (off npoints nx : Nat) (k : List Nat) (hk : ∀ a ∈ k, a < npoints)
    (hnd : k.Nodup) (dest : List α) (v : NDArray α) (hd : off + npoints * nx ≤ dest.length)
    (hs : v.shape = [k.length, nx]) (hw : v.WF) :
    (⟨⟨[npoints, nx], off⟩, k⟩ : XMVar).addTo dest v = .ok ((List.range dest.length).map fun j =>
      dest.getD j 0 + scat (k.length * nx) (fun i => off + rowConv k nx i) (fun i => v.data.getD i 0) j) := by
  have hvl : v.data.length = k.length * nx := by rw [hw, hs]; simp
  unfold addTo
  rw [pyAssert_true (by simpa [shape] using hs)]
  simp only [py_bind_ok]
  rw [mapM_pyIndex hk]
  simp only [py_bind_ok, NDArray.zeros, List.prod_cons, List.prod_nil, Nat.mul_one]
  rw [selPos_list, writeAt_zeros _ _ _ _ (rowConv_inj hnd) (by omega) (fun q hq => rowConv_lt hk hq)]
  have hsz : Component.size ⟨[npoints, nx], off⟩ = npoints * nx := by simp [Component.size]
  rw [Component.addTo_eq _ _ _ (by rw [hsz]; simpa using hd) rfl (by simp [NDArray.WF])]
  congr 1
  refine List.map_congr_left fun j hj => ?_
  congr 1
  rw [hsz]
  simp only
  rw [scat_shift (f := fun i => i), scat_shift (f := rowConv k nx)]
  split
  · generalize j - off = j'
    by_cases hj' : j' < npoints * nx
    · rw [scat_hit (f := fun i => i) _ (fun _ _ _ _ h => h) hj', getD_map_range 0 _ hj']
    · rw [scat_miss _ (fun q hq => by omega), scat_miss _ (fun q hq => by
        have := rowConv_lt hk hq; omega)]
  · rfl

theorem convertInd_eq (off npoints nx : Nat) (k : List Nat) (hk : ∀ a ∈ k, a < npoints) {i : Nat}
    (hi : i < k.length * nx) :
    (⟨⟨[npoints, nx], off⟩, k⟩ : XMVar).convertInd i = .ok (off + rowConv k nx i) := by
  have hn : 0 < nx := Nat.pos_of_ne_zero fun h => by simp [h] at hi
  have h1 : i / nx < k.length := Nat.div_lt_of_lt_mul (by rw [Nat.mul_comm]; exact hi)
  unfold convertInd
  simp only [if_pos hi, List.getElem?_eq_getElem h1]
  rw [if_pos (hk _ (List.getElem_mem h1))]
  simp [Component.convertInd, rowConv, List.getD_eq_getElem?_getD, h1, Nat.add_comm]

theorem gathers [AddCommMonoid α] (off npoints nx : Nat) (k : List Nat) (hk : ∀ a ∈ k, a < npoints)
    (hnd : k.Nodup) (n : Nat) (hn : off + npoints * nx ≤ n) :
    Gathers α (.xm ⟨⟨[npoints, nx], off⟩, k⟩) n fun i => off + rowConv k nx i where
  unpack vec hv := by
    have := unpack_eq off npoints nx k hk vec (by omega)
    simpa [VarSpec.unpackFrom, VarSpec.shape, shape] using this
  lt i hi := by
    have := rowConv_lt (nx := nx) (i := i) hk (by simpa [VarSpec.shape, shape] using hi)
    omega
  ind i hi := convertInd_eq off npoints nx k hk (by simpa [VarSpec.shape, shape] using hi)
  add dest v hd hs hw := by
    subst hd
    have := addTo_eq off npoints nx k hk hnd dest v hn (by simpa [VarSpec.shape, shape] using hs) hw
    simpa [VarSpec.addTo, VarSpec.shape, shape] using this

end XMVar

namespace XEVar

theorem unpack_eq [Zero α] (off npoints nx : Nat) (hp : 0 < npoints) (vec : List α)
    (hv : off + npoints * nx ≤ vec.length) :
    (⟨⟨[npoints, nx], off⟩⟩ : XEVar).unpackFrom vec =
      .ok ⟨[2, nx], (List.range (2 * nx)).map fun i => vec.getD (off + rowConv [0, npoints - 1] nx i) 0⟩ := by
  have hk : ∀ a ∈ [0, npoints - 1], a < npoints := by
    intro a ha; simp at ha; omega
  unfold unpackFrom
  rw [Component.unpackFrom_eq 0 _ vec (by simpa [Component.size] using hv)]
  simp only [py_bind_ok, py_pure, List.tail_cons]
  rw [pyIndex_zero hp, pyIndex_last hp]
  simp only [py_bind_ok, Component.size, List.prod_cons, List.prod_nil, Nat.mul_one]
  rw [selPos_list, readAt_eq 0 (by
    intro p hp
    simp only [List.mem_map, List.mem_range] at hp
    obtain ⟨q, hq, rfl⟩ := hp
    simpa using rowConv_lt hk hq)]
  simp only [py_bind_ok, List.map_map]
  congr 2
  refine List.map_congr_left fun i hi => ?_
  simp only [Function.comp]
  rw [getD_map_range 0 _ (rowConv_lt hk (List.mem_range.1 hi))]

theorem rowConv_xe {npoints nx i : Nat} (hp : 2 ≤ npoints) (hi : i < 2 * nx) :
    rowConv [0, npoints - 1] nx i = if i < nx then i else i + (npoints - 2) * nx := by
  have hn : 0 < nx := by omega
  unfold rowConv
  split
  · next h => simp [Nat.div_eq_of_lt h, Nat.mod_eq_of_lt h]
  · next h =>
    obtain ⟨r, rfl⟩ : ∃ r, i = 1 * nx + r := ⟨i - nx, by omega⟩
    have hr : r < nx := by omega
    rw [mul_add_div' hr, mul_add_mod'' hr]
    obtain ⟨q, rfl⟩ : ∃ q, npoints = q + 2 := ⟨npoints - 2, by omega⟩
    simp
    ring

theorem addTo_eq [AddCommMonoid α] (off npoints nx : Nat) (hp : 2 ≤ npoints) (dest : List α) (v : NDArray α)
    (hd : off + npoints * nx ≤ dest.length) (hs : v.shape = [2, nx]) (hw : v.WF) :
    (⟨⟨[npoints, nx], off⟩⟩ : XEVar).addTo dest v = .ok ((List.range dest.length).map fun j =>
      dest.getD j 0 + scat (2 * nx) (fun i => off + rowConv [0, npoints - 1] nx i)
        (fun i => v.data.getD i 0) j) := by
  have hvl : v.data.length = 2 * nx := by rw [hw, hs]; simp
  have hk : ∀ a ∈ [0, npoints - 1], a < npoints := by
    intro a ha; simp at ha; omega
  have hnd : [0, npoints - 1].Nodup := by simp; omega
  unfold addTo
  rw [pyAssert_true (by simpa [shape] using hs)]
  have hpos : ∀ b c, selPos [b, nx] [[c]] = (List.range nx).map (fun i => c * nx + i) := by
    intro b c; simp [selPos]
  simp only [py_bind_ok, NDArray.zeros, List.prod_cons, List.prod_nil, Nat.mul_one, shape, List.getLastD_cons,
    List.getLastD_nil]
  rw [pyIndex_zero (by omega), pyIndex_last (by omega)]
  simp only [py_bind_ok]
  rw [hpos 2 0, hpos 2 1, hpos npoints 0, hpos npoints (npoints - 1)]
  rw [readAt_eq 0 (by
    intro p hp
    simp only [List.mem_map, List.mem_range] at hp
    obtain ⟨q, hq, rfl⟩ := hp
    omega)]
  simp only [py_bind_ok]
  rw [readAt_eq 0 (by
    intro p hp
    simp only [List.mem_map, List.mem_range] at hp
    obtain ⟨q, hq, rfl⟩ := hp
    omega)]
  simp only [py_bind_ok]
  rw [← writeAt_append _ _ _ _ _ (by simp)]
  have e1 : (List.range nx).map (fun i => 0 * nx + i) ++ (List.range nx).map (fun i => (npoints - 1) * nx + i) =
      (List.range (2 * nx)).map (rowConv [0, npoints - 1] nx) := by
    have := selPos_list npoints nx [0, npoints - 1]
    simp [selPos] at this
    simpa using this
  have e2 : ((List.range nx).map fun i => 0 * nx + i).map (fun p => v.data.getD p 0) ++
      ((List.range nx).map fun i => 1 * nx + i).map (fun p => v.data.getD p 0) = v.data := by
    rw [← List.map_append]
    conv_rhs => rw [eq_map_range_getD 0 v.data hvl]
    congr 1
    rw [two_mul, List.range_add]
    simp
  rw [e1, e2]
  rw [writeAt_zeros _ _ _ _ (by simpa using rowConv_inj (nx := nx) hnd) (by omega)
    (fun q hq => rowConv_lt hk (by simpa using hq))]
  have hsz : Component.size ⟨[npoints, nx], off⟩ = npoints * nx := by simp [Component.size]
  rw [Component.addTo_eq _ _ _ (by rw [hsz]; simpa using hd) rfl (by simp [NDArray.WF])]
  congr 1
  refine List.map_congr_left fun j hj => ?_
  congr 1
  rw [hsz]
  simp only
  rw [scat_shift (f := fun i => i), scat_shift (f := rowConv [0, npoints - 1] nx)]
  split
  · generalize j - off = j'
    by_cases hj' : j' < npoints * nx
    · rw [scat_hit (f := fun i => i) _ (fun _ _ _ _ h => h) hj', getD_map_range 0 _ hj']
    · rw [scat_miss _ (fun q hq => by omega), scat_miss _ (fun q hq => by
        have := rowConv_lt (nx := nx) (i := q) hk (by simpa using hq); omega)]
  · rfl

theorem convertInd_eq (off npoints nx : Nat) (hp : 2 ≤ npoints) {i : Nat} (hi : i < 2 * nx) :
    (⟨⟨[npoints, nx], off⟩⟩ : XEVar).convertInd i = .ok (off + rowConv [0, npoints - 1] nx i) := by
  rw [rowConv_xe hp hi]
  unfold convertInd
  simp only [Component.convertInd]
  congr 1
  obtain ⟨q, rfl⟩ : ∃ q, npoints = q + 2 := ⟨npoints - 2, by omega⟩
  split
  · next h =>
    rw [if_neg (by omega)]
    have : ((i : Int) + 1 * (((q + 2 : Nat) : Int) - 2) * (nx : Int)) = ((i + q * nx : Nat) : Int) := by
      push_cast; ring
    rw [this, Int.toNat_natCast]
    simp [Nat.add_comm]
  · next h => rw [if_pos (by omega)]; simp [Nat.add_comm]

theorem gathers [AddCommMonoid α] (off npoints nx : Nat) (hp : 2 ≤ npoints) (n : Nat)
    (hn : off + npoints * nx ≤ n) :
    Gathers α (.xe ⟨⟨[npoints, nx], off⟩⟩) n fun i => off + rowConv [0, npoints - 1] nx i where
  unpack vec hv := by
    have := unpack_eq off npoints nx (by omega) vec (by omega)
    simpa [VarSpec.unpackFrom, VarSpec.shape, shape] using this
  lt i hi := by
    have := rowConv_lt (k := [0, npoints - 1]) (npoints := npoints) (nx := nx) (i := i)
      (by intro a ha; simp at ha; omega) (by simpa [VarSpec.shape, shape] using hi)
    omega
  ind i hi := convertInd_eq off npoints nx hp (by simpa [VarSpec.shape, shape] using hi)
  add dest v hd hs hw := by
    subst hd
    have := addTo_eq off npoints nx hp dest v hn (by simpa [VarSpec.shape, shape] using hs) hw
    simpa [VarSpec.addTo, VarSpec.shape, shape] using this

end XEVar
end Ceacoest
