import Verif.Lemmas.Lists
import Verif.Model.VarSpec
import Mathlib.Algebra.BigOperators.Group.Finset.Piecewise
import Mathlib.Algebra.BigOperators.Ring.Finset

/-! Helper lemmas: every variable specification is a "gather" of entries of the parent vector. -/

namespace Ceacoest
variable {α : Type _}

/-! ### Scatter-add -/

/-- Sum of `v q` over the `q < N` with `f q = j`. -/
def scat [AddCommMonoid α] (N : Nat) (f : Nat → Nat) (v : Nat → α) (j : Nat) : α :=
  ∑ q ∈ Finset.range N, if f q = j then v q else 0

section scat
variable [AddCommMonoid α]

theorem scat_hit {N : Nat} {f : Nat → Nat} (v : Nat → α)
    (hf : ∀ p < N, ∀ q < N, f p = f q → p = q) {q : Nat} (hq : q < N) : scat N f v (f q) = v q := by
  unfold scat
  rw [Finset.sum_eq_single q]
  · simp
  · intro b hb hbq
    rw [if_neg fun h => hbq (hf b (Finset.mem_range.1 hb) q hq h)]
  · intro h; exact absurd (Finset.mem_range.2 hq) h

theorem scat_miss {N : Nat} {f : Nat → Nat} (v : Nat → α) {j : Nat} (h : ∀ q < N, f q ≠ j) :
    scat N f v j = 0 :=
  Finset.sum_eq_zero fun q hq => if_neg (h q (Finset.mem_range.1 hq))

theorem scat_congr {N : Nat} {f g : Nat → Nat} {v w : Nat → α} (hfg : ∀ q < N, f q = g q)
    (h : ∀ q < N, v q = w q) (j : Nat) :
    scat N f v j = scat N g w j :=
  Finset.sum_congr rfl fun q hq => by
    rw [h q (Finset.mem_range.1 hq), hfg q (Finset.mem_range.1 hq)]

theorem scat_add (N M : Nat) (f : Nat → Nat) (v : Nat → α) (j : Nat) :
    scat (N + M) f v j = scat N f v j + scat M (fun q => f (N + q)) (fun q => v (N + q)) j :=
  Finset.sum_range_add _ N M

theorem scat_mul (A B : Nat) (f : Nat → Nat) (v : Nat → α) (j : Nat) :
    scat (A * B) f v j =
      ∑ a ∈ Finset.range A, scat B (fun b => f (a * B + b)) (fun b => v (a * B + b)) j := by
  induction A with
  | zero => simp [scat]
  | succ A ih => rw [Nat.succ_mul, scat_add, ih, Finset.sum_range_succ]

theorem scat_shift {N : Nat} {f : Nat → Nat} (v : Nat → α) (o j : Nat) :
    scat N (fun q => o + f q) v j = if o ≤ j then scat N f v (j - o) else 0 := by
  split
  · next h =>
    refine Finset.sum_congr rfl fun q _ => ?_
    congr 1
    exact propext ⟨fun (h : o + f q = j) => by omega, fun h => show o + f q = j by omega⟩
  · next h => exact scat_miss _ fun q _ => by omega

/-- Writing values at distinct positions of zeros is scatter-add. -/
theorem writeAt_zeros (M N : Nat) (f : Nat → Nat) (vals : List α)
    (hf : ∀ p < N, ∀ q < N, f p = f q → p = q) (hl : N ≤ vals.length) (hM : ∀ q < N, f q < M) :
    writeAt (List.replicate M 0) ((List.range N).map f) vals =
      (List.range M).map (scat N f fun q => vals.getD q 0) := by
  refine list_ext_getD 0 (by simp [writeAt_length]) fun j hj => ?_
  rw [writeAt_length, List.length_replicate] at hj
  rw [getD_map_range 0 _ hj]
  by_cases h : ∃ q < N, f q = j
  · obtain ⟨q, hq, rfl⟩ := h
    rw [writeAt_map_hit 0 _ N f vals hf hl hq (by simpa using hM q hq), scat_hit _ hf hq]
  · push Not at h
    rw [writeAt_map_miss 0 _ N f vals h, scat_miss _ h]
    simp [List.getD_eq_getElem?_getD, hj]

/-- Incrementing distinct positions is scatter-add. -/
theorem writeAt_incr (a : List α) (N : Nat) (f : Nat → Nat) (inc : Nat → α)
    (hf : ∀ p < N, ∀ q < N, f p = f q → p = q) (hM : ∀ q < N, f q < a.length) :
    writeAt a ((List.range N).map f)
        (List.zipWith (· + ·) (((List.range N).map f).map fun p => a.getD p 0) ((List.range N).map inc)) =
      (List.range a.length).map fun j => a.getD j 0 + scat N f inc j := by
  refine list_ext_getD 0 (by simp [writeAt_length]) fun j hj => ?_
  rw [writeAt_length] at hj
  rw [getD_map_range 0 _ hj]
  by_cases h : ∃ q < N, f q = j
  · obtain ⟨q, hq, rfl⟩ := h
    rw [writeAt_map_hit 0 _ N f _ hf (by simp) hq (hM q hq), scat_hit _ hf hq]
    simp [List.getD_eq_getElem?_getD, hq]
  · push Not at h
    rw [writeAt_map_miss 0 _ N f _ h, scat_miss _ h, add_zero]

end scat

/-! ### Components -/

namespace Component

theorem unpackFrom_eq (d : α) (c : Component) (vec : List α) (h : c.offset + c.size ≤ vec.length) :
    c.unpackFrom vec = .ok ⟨c.shape, (List.range c.size).map fun i => vec.getD (c.offset + i) d⟩ := by
  unfold unpackFrom NDArray.reshape
  have hl : ((vec.take (c.offset + c.size)).drop c.offset).length = c.shape.prod := by
    simp only [List.length_drop, List.length_take]
    change _ = c.size
    omega
  rw [if_pos hl]
  congr 2
  refine list_ext_getD d (by simpa [size] using hl) fun i hi => ?_
  have hi' : i < c.size := by rw [hl] at hi; exact hi
  rw [getD_map_range d _ hi']
  simp only [List.getD_eq_getElem?_getD, List.getElem?_drop]
  rw [List.getElem?_take_of_lt (by omega)]

theorem unpackFrom_short (c : Component) (vec : List α) (h : vec.length < c.offset + c.size) :
    c.unpackFrom vec = .error .valueError ∨ c.size = 0 := by
  by_cases h0 : c.size = 0
  · exact .inr h0
  · left
    unfold unpackFrom NDArray.reshape
    rw [if_neg]
    simp only [List.length_drop, List.length_take]
    change ¬ (_ = c.size)
    omega

theorem addTo_eq [AddCommMonoid α] (c : Component) (dest : List α) (value : NDArray α)
    (h : c.offset + c.size ≤ dest.length) (hs : value.shape = c.shape) (hw : value.WF) :
    c.addTo dest value = .ok ((List.range dest.length).map fun j =>
      dest.getD j 0 + scat c.size (fun i => c.offset + i) (fun i => value.data.getD i 0) j) := by
  have hvl : value.data.length = c.size := by rw [hw, hs]; rfl
  unfold addTo
  rw [pyAssert_true (by omega)]
  rw [broadcastTo_self' value hs (by rw [hvl]; rfl)]
  simp only [py_bind_ok, py_pure]
  congr 1
  refine list_ext_getD 0 (by simp [hvl]; omega) fun j hj => ?_
  have hj' : j < dest.length := by
    simp [hvl] at hj; omega
  rw [getD_map_range 0 _ hj']
  simp only [List.getD_eq_getElem?_getD, List.append_assoc]
  by_cases h1 : j < c.offset
  · rw [scat_miss _ (fun q _ => by omega), List.getElem?_append_left (by simp; omega),
      List.getElem?_take_of_lt h1, add_zero]
  · rw [List.getElem?_append_right (by simp; omega)]
    simp only [List.length_take, Nat.min_eq_left (show c.offset ≤ dest.length by omega)]
    by_cases h2 : j < c.offset + c.size
    · obtain ⟨i, rfl⟩ : ∃ i, j = c.offset + i := ⟨j - c.offset, by omega⟩
      rw [scat_hit (f := fun i => c.offset + i) _ (fun _ _ _ _ h => by omega) (by omega)]
      rw [List.getElem?_append_left (by simp [hvl]; omega)]
      have hi : i < value.data.length := by omega
      simp [List.getElem?_zipWith, hi, hj']
      rw [List.getElem?_eq_getElem (by simp; omega)]
      simp
    · rw [scat_miss _ (fun q hq => by omega), List.getElem?_append_right (by simp [hvl]; omega), add_zero]
      simp only [List.length_zipWith, List.length_drop, List.length_take, hvl, List.getElem?_drop]
      congr 2
      omega

end Component

/-- `s` gathers the entries `conv 0, conv 1, …` of parent vectors of length `n`: unpacking reads them, `convert_ind`
returns them and `add_to` is the adjoint scatter. -/
structure Gathers (α : Type _) [AddCommMonoid α] (s : VarSpec) (n : Nat) (conv : Nat → Nat) : Prop where
  unpack : ∀ vec : List α, vec.length = n →
    s.unpackFrom vec = .ok ⟨s.shape, (List.range s.shape.prod).map fun i => vec.getD (conv i) 0⟩
  lt : ∀ i < s.shape.prod, conv i < n
  ind : ∀ i < s.shape.prod, s.convertInd i = .ok (conv i)
  add : ∀ (dest : List α) (v : NDArray α), dest.length = n → v.shape = s.shape → v.WF →
    s.addTo dest v = .ok ((List.range n).map fun j =>
      dest.getD j 0 + scat s.shape.prod conv (fun i => v.data.getD i 0) j)

theorem Gathers.comp [AddCommMonoid α] (c : Component) (n : Nat) (h : c.offset + c.size ≤ n) :
    Gathers α (.comp c) n fun i => c.offset + i where
  unpack vec hv := c.unpackFrom_eq 0 vec (by omega)
  lt i hi := by
    change i < c.size at hi
    omega
  ind i _ := by simp [VarSpec.convertInd, Component.convertInd, Nat.add_comm]
  add dest v hd hs hw := by
    subst hd
    exact c.addTo_eq dest v h hs hw

end Ceacoest

namespace Ceacoest

/-- Scatter-add is adjoint to gather. -/
theorem scat_adjoint {R : Type} [CommSemiring R] (n N : Nat) (f : Nat → Nat) (hf : ∀ i < N, f i < n)
    (v d : Nat → R) :
    ∑ j ∈ Finset.range n, scat N f v j * d j = ∑ i ∈ Finset.range N, v i * d (f i) := by
  simp only [scat, Finset.sum_mul]
  rw [Finset.sum_comm]
  refine Finset.sum_congr rfl fun i hi => ?_
  rw [Finset.sum_eq_single (f i)]
  · simp
  · intro b _ hb; rw [if_neg (Ne.symm hb), zero_mul]
  · intro h; exact absurd (Finset.mem_range.2 (hf i (Finset.mem_range.1 hi))) h

theorem getElem?_map_range {β : Type _} (f : Nat → β) {n i : Nat} (h : i < n) :
    ((List.range n).map f)[i]? = some (f i) := by simp [h]

theorem some_getD {α : Type _} (d : α) {l : List α} {i : Nat} (h : i < l.length) :
    some (l.getD i d) = l[i]? := by simp [h]

end Ceacoest
