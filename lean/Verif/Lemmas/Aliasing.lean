import Verif.Spec.Aliasing
import Verif.Lemmas.Layout
import Verif.Lemmas.KalmanLoops

/-! # Memory: helper lemmas for C05 -/

namespace Ceacoest
open Spec
variable {α : Type}

theorem readAt_cons (a : List α) (p : Nat) (pos : List Nat) :
    readAt a (p :: pos) = (match a[p]? with | some v => Except.ok v | none => .error .indexError) >>= fun v => readAt a pos >>= fun r => .ok (v :: r) := by
  unfold readAt
  rw [List.mapM_cons]
  rfl

theorem readAt_inv {a : List α} {pos : List Nat} {r : List α} (h : readAt a pos = .ok r) :
    r.length = pos.length ∧ ∀ i (hi : i < pos.length), a[pos[i]]? = r[i]? ∧ pos[i] < a.length := by
  have h := mapM_ok_iff.1 h
  refine ⟨h.length_eq.symm, fun i hi => ?_⟩
  have h2 := (List.forall₂_iff_get.1 h).2 i hi (h.length_eq ▸ hi)
  simp only [List.get_eq_getElem] at h2
  have hi' : i < r.length := h.length_eq ▸ hi
  split at h2
  · next v hv =>
    cases h2
    exact ⟨by rw [hv, List.getElem?_eq_getElem hi'], (List.getElem?_eq_some_iff.1 hv).1⟩
  · cases h2

theorem readAt_of {a : List α} {pos : List Nat} {r : List α} (hl : r.length = pos.length)
    (h : ∀ i (hi : i < pos.length), a[pos[i]]? = r[i]?) : readAt a pos = .ok r := by
  refine mapM_ok_iff.2 (List.forall₂_iff_get.2 ⟨hl.symm, fun i h1 h2 => ?_⟩)
  have := h i h1
  rw [List.getElem?_eq_getElem h2] at this
  simp only [List.get_eq_getElem, this]

/-- Reading through a view. -/
theorem readAt_readAt {b : List α} {pos : List Nat} {data : List α} (h : readAt b pos = .ok data) (q : List Nat) :
    (readAt pos q >>= fun ps => readAt b ps) = readAt data q := by
  obtain ⟨hl, hi⟩ := readAt_inv h
  induction q with
  | nil => rfl
  | cons i q ih =>
    rw [readAt_cons, readAt_cons]
    by_cases hlt : i < pos.length
    · have hd : i < data.length := hl ▸ hlt
      rw [List.getElem?_eq_getElem hlt, List.getElem?_eq_getElem hd]
      simp only [py_bind_ok]
      rw [← ih]
      cases hq : readAt pos q with
      | error e => rfl
      | ok ps =>
        simp only [py_bind_ok]
        rw [readAt_cons, (hi i hlt).1, List.getElem?_eq_getElem hd]
        rfl
    · rw [List.getElem?_eq_none (by omega), List.getElem?_eq_none (by omega)]
      rfl

theorem readAt_range {n : Nat} {q : List Nat} (h : ∀ p ∈ q, p < n) : readAt (List.range n) q = .ok q := by
  refine readAt_of rfl fun i hi => ?_
  have := h _ (List.getElem_mem hi)
  rw [List.getElem?_eq_getElem (by simpa using this), List.getElem?_eq_getElem hi]
  simp

/-! ### Positions of a selection -/

/-- The selectors are in range. -/
def SelOK : List Nat → List (List Nat) → Prop
  | _, [] => True
  | [], _ :: _ => False
  | n :: sh, is :: rest => (∀ i ∈ is, i < n) ∧ SelOK sh rest

theorem selPos_lt {sh : List Nat} {sel : List (List Nat)} (h : SelOK sh sel) : ∀ p ∈ selPos sh sel, p < sh.prod := by
  induction sel generalizing sh with
  | nil => intro p hp; cases sh <;> simpa [selPos] using hp
  | cons is rest ih =>
    cases sh with
    | nil => exact absurd h id
    | cons n sh =>
      intro p hp
      simp only [selPos, List.mem_flatMap, List.mem_map] at hp
      obtain ⟨i, hi, q, hq, rfl⟩ := hp
      have h1 := h.1 i hi
      have h2 := ih h.2 q hq
      rw [List.prod_cons]
      calc i * sh.prod + q < i * sh.prod + sh.prod := by omega
        _ = (i + 1) * sh.prod := by ring
        _ ≤ n * sh.prod := Nat.mul_le_mul_right _ h1

theorem clampIdx_le (n : Nat) (i : Int) : clampIdx n i ≤ n := by
  unfold clampIdx
  split <;> omega

theorem sliceIdx_lt {n : Nat} {start stop : Option Int} : ∀ i ∈ sliceIdx n start stop 1, i < n := by
  intro i hi
  rcases start with _ | a <;> rcases stop with _ | b <;>
    simp only [sliceIdx, List.mem_range'_1, Nat.sub_self, Nat.add_zero, Nat.div_one] at hi
  · omega
  · have := clampIdx_le n b; omega
  · omega
  · have := clampIdx_le n b; omega

theorem pyIndex_lt {n : Nat} {i : Int} {k : Nat} (h : pyIndex n i = .ok k) : k < n := by
  unfold pyIndex at h
  split at h
  · cases h; omega
  · split at h
    · cases h; omega
    · cases h

/-! ### The heap -/

theorem Heap.get_append {h : Heap α} {b : Nat} (hb : b < h.length) (x : List (List α)) (pos : List Nat) :
    Heap.get (h ++ x) b pos = h.get b pos := by
  unfold Heap.get
  rw [List.getElem?_append_left hb]

theorem Heap.get_last {h : Heap α} (x : List α) (pos : List Nat) : Heap.get (h ++ [x]) h.length pos = readAt x pos := by
  unfold Heap.get
  rw [List.getElem?_append_right le_rfl]
  simp

theorem Heap.putFlat_last {h : Heap α} (x : List α) (pos : List Nat) (vals : List α) :
    Heap.putFlat (h ++ [x]) h.length pos vals = (flatAssign x pos vals >>= fun y => .ok (h ++ [y])) := by
  unfold Heap.putFlat
  rw [List.getElem?_append_right le_rfl]
  simp

theorem Heap.put_last {h : Heap α} (x : List α) (pos : List Nat) (vals : List α) :
    Heap.put (h ++ [x]) h.length pos vals = h ++ [writeAt x pos vals] := by
  unfold Heap.put
  simp [List.modify_eq_set_getElem?]

/-- The array `v` holds `a`. -/
structure Holds (h : Heap α) (v : View) (a : NDArray α) : Prop where
  buf : v.buf < h.length
  shape : v.shape = a.shape
  data : h.get v.buf v.pos = .ok a.data

theorem Holds.read {h : Heap α} {v : View} {a : NDArray α} (hv : Holds h v a) : v.read h = .ok a := by
  unfold View.read
  rw [hv.data, hv.shape]
  rfl

theorem Holds.of_read {h : Heap α} {v : View} {a : NDArray α} (hv : v.read h = .ok a) : Holds h v a := by
  unfold View.read at hv
  obtain ⟨d, hd, e⟩ := py_bind_eq_ok hv
  cases e
  refine ⟨?_, rfl, hd⟩
  unfold Heap.get at hd
  split at hd
  · next b hb => exact (List.getElem?_eq_some_iff.1 hb).1
  · cases hd

theorem Holds.append {h : Heap α} {v : View} {a : NDArray α} (hv : Holds h v a) (x : List (List α)) : Holds (h ++ x) v a :=
  ⟨by rw [List.length_append]; have := hv.buf; omega, hv.shape, by rw [Heap.get_append hv.buf]; exact hv.data⟩

theorem Holds.get_at {h : Heap α} {v : View} {a : NDArray α} (hv : Holds h v a) (sel : List (List Nat)) :
    (v.at_ sel >>= fun ps => h.get v.buf ps) = readAt a.data (selPos a.shape sel) := by
  have hd := hv.data
  unfold Heap.get at hd ⊢
  cases hb : h[v.buf]? with
  | none => rw [hb] at hd; cases hd
  | some b =>
    rw [hb] at hd
    unfold View.at_
    rw [← readAt_readAt hd, hv.shape]

/-! ### `unpack_from` -/

/-- The array of a decision variable. -/
def decisionView (c : Component) (vec : View) : View := ⟨vec.buf, (vec.pos.take (c.offset + c.size)).drop c.offset, c.shape⟩

theorem unpackView_eq (c : Component) (vec : View) (d : List α) (h : Heap α) (hv : h.get vec.buf vec.pos = .ok d) :
    c.unpackView vec = (c.unpackFrom d >>= fun _ => .ok (decisionView c vec)) := by
  have hl : d.length = vec.pos.length := by
    unfold Heap.get at hv
    split at hv
    · exact (readAt_inv hv).1
    · cases hv
  unfold Component.unpackView Component.unpackFrom View.reshape View.slice NDArray.reshape decisionView
  simp only [List.length_drop, List.length_take, hl]
  split <;> rfl

theorem Heap.get_slice {h : Heap α} {b : Nat} {pos : List Nat} {d : List α} (hv : h.get b pos = .ok d) (lo hi : Nat) :
    h.get b ((pos.take hi).drop lo) = .ok ((d.take hi).drop lo) := by
  unfold Heap.get at hv ⊢
  split at hv
  · next x hx =>
    obtain ⟨hl, hi'⟩ := readAt_inv hv
    refine readAt_of (by simp [hl]) fun i hi2 => ?_
    simp only [List.length_drop, List.length_take] at hi2
    simp only [List.getElem_drop, List.getElem_take, List.getElem?_drop]
    rw [List.getElem?_take_of_lt (by omega)]
    exact (hi' _ (by omega)).1
  · cases hv

theorem holds_decisionView {c : Component} {vec : View} {d : List α} {h : Heap α} (hb : vec.buf < h.length)
    (hv : h.get vec.buf vec.pos = .ok d) {a : NDArray α} (ha : c.unpackFrom d = .ok a) : Holds h (decisionView c vec) a := by
  unfold Component.unpackFrom NDArray.reshape at ha
  dsimp only at ha
  split at ha
  · cases ha
    exact ⟨hb, rfl, Heap.get_slice hv _ _⟩
  · cases ha

theorem XEVar.unpackMem_eq (v : XEVar) {vec : View} {d : List α} {h : Heap α} (hb : vec.buf < h.length)
    (hv : h.get vec.buf vec.pos = .ok d) : v.unpackMem vec h = (v.unpackFrom d >>= fun a => .ok (h.alloc a)) := by
  unfold XEVar.unpackMem XEVar.unpackFrom
  rw [unpackView_eq _ _ _ _ hv]
  cases ha : v.x.unpackFrom d with
  | error e => rfl
  | ok a =>
    have H := holds_decisionView hb hv ha
    obtain ⟨sh, data⟩ := a
    simp only [py_bind_ok]
    rw [H.shape]
    cases sh with
    | nil => rfl
    | cons n sh =>
    simp only [py_bind_ok, py_bind_assoc, py_pure]
    refine py_bind_congr fun i0 _ => py_bind_congr fun i1 _ => ?_
    rw [← py_bind_assoc, H.get_at]

theorem XMVar.unpackMem_eq (v : XMVar) {vec : View} {d : List α} {h : Heap α} (hb : vec.buf < h.length)
    (hv : h.get vec.buf vec.pos = .ok d) : v.unpackMem vec h = (v.unpackFrom d >>= fun a => .ok (h.alloc a)) := by
  unfold XMVar.unpackMem XMVar.unpackFrom
  rw [unpackView_eq _ _ _ _ hv]
  cases ha : v.x.unpackFrom d with
  | error e => rfl
  | ok a =>
    have H := holds_decisionView hb hv ha
    obtain ⟨sh, data⟩ := a
    simp only [py_bind_ok]
    rw [H.shape]
    cases sh with
    | nil => rfl
    | cons n sh =>
    simp only [py_bind_ok, py_bind_assoc, py_pure]
    refine py_bind_congr fun rows _ => ?_
    rw [← py_bind_assoc, H.get_at]

theorem sel2 (v : PieceRavelled) {a b : List Nat} (ha : ∀ i ∈ a, i < v.npieces) (hb : ∀ i ∈ b, i < v.ncol) : SelOK v.shape [a, b] :=
  ⟨ha, hb, by unfold SelOK; trivial⟩

theorem PieceRavelled.unpackMem_eq [Zero α] (v : PieceRavelled) {vec : View} {d : List α} {h : Heap α} (hb : vec.buf < h.length)
    (hv : h.get vec.buf vec.pos = .ok d) : v.unpackMem vec h = (v.unpackFrom d >>= fun a => .ok (h.alloc a)) := by
  unfold PieceRavelled.unpackMem PieceRavelled.unpackFrom
  rw [unpackView_eq _ _ _ _ hv]
  cases ha : v.unravelled.unpackFrom d with
  | error e => rfl
  | ok a =>
    have H := holds_decisionView hb hv ha
    generalize hur : decisionView v.unravelled vec = ur at H
    have hout : ∀ sel, SelOK v.shape sel → (⟨h.length, List.range (NDArray.zeros v.shape : NDArray α).data.length, (NDArray.zeros v.shape : NDArray α).shape⟩ : View).at_ sel =
        .ok (selPos v.shape sel) := fun sel hs => by
      refine readAt_range fun p hp => ?_
      simpa [NDArray.zeros] using selPos_lt hs p hp
    have Hx : ∀ (x : List α) sel, (ur.at_ sel >>= fun ps => Heap.get (h ++ [x]) ur.buf ps) = readAt a.data (selPos a.shape sel) :=
      fun x sel => (H.append [x]).get_at sel
    obtain ⟨sh, data⟩ := a
    simp only [py_bind_ok]
    rw [H.shape]
    cases sh with
    | nil => rfl
    | cons n sh =>
    simp only [py_bind_ok, py_bind_assoc, Heap.alloc, py_pure]
    rw [← py_bind_assoc, Hx]
    refine py_bind_congr fun src _ => ?_
    rw [hout _ (sel2 v sliceIdx_lt sliceIdx_lt), py_bind_ok]
    rw [Heap.putFlat_last, py_bind_assoc]
    refine py_bind_congr fun out hfa => ?_
    rw [py_bind_ok]
    refine py_bind_congr fun last hlast => py_bind_congr fun first hfirst => ?_
    rw [hout _ (sel2 v sliceIdx_lt (by simpa using pyIndex_lt hfirst)), py_bind_ok, Heap.get_last]
    refine py_bind_congr fun src2 _ => ?_
    rw [hout _ (sel2 v sliceIdx_lt (by simpa using pyIndex_lt hlast)), py_bind_ok, Heap.put_last]
    refine py_bind_congr fun lastPiece hlp => py_bind_congr fun lastPoint _ => ?_
    rw [← py_bind_assoc, Hx]
    refine py_bind_congr fun src3 _ => ?_
    rw [hout _ (sel2 v (by simpa using pyIndex_lt hlp) (by simpa using pyIndex_lt hlast)), py_bind_ok, Heap.put_last]
    have hl : out.length = v.shape.prod := by
      unfold flatAssign at hfa
      split at hfa
      · cases hfa; simp [NDArray.zeros]
      · split at hfa
        · cases hfa
        · cases hfa; simp [writeAt_length, NDArray.zeros]
    simp [writeAt_length, hl, NDArray.zeros]

end Ceacoest
