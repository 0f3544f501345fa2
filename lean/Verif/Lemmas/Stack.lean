import Verif.Model.KalmanBatch
import Verif.Lemmas.Broadcast
import Verif.Lemmas.KalmanLoops
import Verif.Lemmas.Gradient
import Verif.Lemmas.RK

/-! # Stacks as families, and programs that work on each entry of a stack -/

namespace Ceacoest
open Stack
variable {α β γ : Type}

/-- The stack of shape `s` with the given entries, in C order. -/
def arr (s : List Nat) (g : Fin s.prod → α) : NDArray α := ⟨s, List.ofFn g⟩

/-- The stack with a further first axis. -/
def arr2 (n : Nat) (s : List Nat) (g : Fin n → Fin s.prod → α) : NDArray α :=
  ⟨n :: s, List.ofFn fun i : Fin (n * s.prod) => g i.divNat i.modNat⟩

variable {s : List Nat}

theorem arr_wf (g : Fin s.prod → α) : (arr s g).WF := by simp [NDArray.WF, arr]

theorem arr2_wf {n : Nat} (g : Fin n → Fin s.prod → α) : (arr2 n s g).WF := by simp [NDArray.WF, arr2]

theorem map_arr (f : α → β) (g : Fin s.prod → α) : map f (arr s g) = arr s fun b => f (g b) := by
  simp [Stack.map, arr, List.map_ofFn, Function.comp_def]

theorem map_arr2 {n : Nat} (f : α → β) (g : Fin n → Fin s.prod → α) : map f (arr2 n s g) = arr2 n s fun k b => f (g k b) := by
  simp [Stack.map, arr2, List.map_ofFn, Function.comp_def]

theorem zipWith_ofFn (f : α → β → γ) {n : Nat} (g : Fin n → α) (h : Fin n → β) :
    List.zipWith f (List.ofFn g) (List.ofFn h) = List.ofFn fun b => f (g b) (h b) := by
  apply List.ext_getElem <;> simp

theorem binop_arr (f : α → β → γ) (g : Fin s.prod → α) (h : Fin s.prod → β) :
    binop f (arr s g) (arr s h) = .ok (arr s fun b => f (g b) (h b)) := by
  rw [binop_self f (arr_wf g) (arr_wf h) rfl]
  simp only [arr, zipWith_ofFn]

theorem binop_arr2 {n : Nat} (f : α → β → γ) (g : Fin n → Fin s.prod → α) (h : Fin n → Fin s.prod → β) :
    binop f (arr2 n s g) (arr2 n s h) = .ok (arr2 n s fun k b => f (g k b) (h k b)) := by
  rw [binop_self f (arr2_wf g) (arr2_wf h) rfl]
  simp only [arr2, zipWith_ofFn]

theorem bcIdx_scalar {e : Nat} (he : e < s.prod) : bcIdx [] s e = 0 := by
  have := bcIdx_suffix (ext := []) (pre := s) (suf := []) (k := 0) rfl (by simp) (by simp) he
  simpa [Nat.mod_one] using this

theorem bcShape2_nil (s : List Nat) : bcShape2 s [] = some s := by
  have h : ∀ s : List Nat, bcShapePadded s (List.replicate s.length 1) = some s := by
    intro s
    induction s with
    | nil => rfl
    | cons n s ih => simp only [List.length_cons, List.replicate_succ, bcShapePadded, ih]; split_ifs <;> simp_all
  simpa [bcShape2, padShape] using h s

theorem nil_bcShape2 (s : List Nat) : bcShape2 [] s = some s := by
  have h : ∀ s : List Nat, bcShapePadded (List.replicate s.length 1) s = some s := by
    intro s
    induction s with
    | nil => rfl
    | cons n s ih => simp only [List.length_cons, List.replicate_succ, bcShapePadded, ih]; split_ifs <;> simp_all
  simpa [bcShape2, padShape] using h s

theorem bcOK_ones (s : List Nat) : bcOK (List.replicate s.length 1) s = true := by
  induction s with
  | nil => rfl
  | cons n s ih => simp [List.replicate_succ, bcOK, ih]

theorem broadcastTo_one (v : α) : broadcastTo (one v) s = .ok (arr s fun _ => v) := by
  rw [broadcastTo_ok v (one v) (by simp [NDArray.WF, one]) (by simp [one, canBroadcast, padShape, bcOK_ones])]
  congr 2
  refine List.ext_getElem (by simp) fun i hi _ => ?_
  have hi : i < s.prod := by simpa using hi
  simp [one, bcIdx_scalar hi]

theorem broadcastTo_arr (g : Fin s.prod → α) : broadcastTo (arr s g) s = .ok (arr s g) := broadcastTo_self _ (arr_wf g)

theorem binop_arr_one (f : α → β → γ) (g : Fin s.prod → α) (v : β) :
    binop f (arr s g) (one v) = .ok (arr s fun b => f (g b) v) := by
  unfold binop
  simp only [arr, one, bcShape2_nil]
  have h1 := broadcastTo_one (s := s) v
  have h2 := broadcastTo_arr g
  simp only [arr, one] at h1 h2
  simp only [h1, h2, py_bind_ok, zipWith_ofFn, py_pure]

theorem binop_one_arr (f : α → β → γ) (v : α) (g : Fin s.prod → β) :
    binop f (one v) (arr s g) = .ok (arr s fun b => f v (g b)) := by
  unfold binop
  simp only [arr, one, nil_bcShape2]
  have h1 := broadcastTo_one (s := s) v
  have h2 := broadcastTo_arr g
  simp only [arr, one] at h1 h2
  simp only [h1, h2, py_bind_ok, zipWith_ofFn, py_pure]

/-- The entries of a stack of shape `s`, or the one entry of what is not a stack, are those of the family. -/
def Rep (s : List Nat) (a : NDArray α) (g : Fin s.prod → α) : Prop := a = arr s g ∨ ∃ v, a = one v ∧ ∀ b, g b = v

theorem Rep.arr (g : Fin s.prod → α) : Rep s (arr s g) g := .inl rfl

theorem Rep.binop_left {a : NDArray α} {g : Fin s.prod → α} (h : Rep s a g) (f : α → β → γ) (k : Fin s.prod → β) :
    binop f a (Ceacoest.arr s k) = .ok (Ceacoest.arr s fun b => f (g b) (k b)) := by
  rcases h with rfl | ⟨v, rfl, hv⟩
  · exact binop_arr f g k
  · rw [binop_one_arr]; simp only [hv]

theorem Rep.binop_right {a : NDArray β} {g : Fin s.prod → β} (h : Rep s a g) (f : α → β → γ) (k : Fin s.prod → α) :
    binop f (Ceacoest.arr s k) a = .ok (Ceacoest.arr s fun b => f (k b) (g b)) := by
  rcases h with rfl | ⟨v, rfl, hv⟩
  · exact binop_arr f k g
  · rw [binop_arr_one]; simp only [hv]

theorem stripOnes_self (s : List Nat) : stripOnes s.length s = s := by
  cases s with
  | nil => rfl
  | cons n s =>
    by_cases h : n = 1
    · subst h; simp [stripOnes]
    · rw [stripOnes]; rintro t ⟨⟩; exact h rfl

theorem Rep.assigned {a : NDArray α} {g : Fin s.prod → α} (h : Rep s a g) : assigned a s = .ok (Ceacoest.arr s g) := by
  unfold Stack.assigned
  rcases h with rfl | ⟨v, rfl, hv⟩
  · have : (Ceacoest.arr s g).shape = s := rfl
    rw [this, stripOnes_self]
    exact broadcastTo_arr g
  · have : stripOnes s.length (one v).shape = [] := by simp [one, stripOnes]
    rw [this]
    have h1 := broadcastTo_one (s := s) v
    simp only [one] at h1
    simp only [one, h1]
    rw [show g = fun _ => v from funext hv]

theorem iadd_arr [Add α] (g h : Fin s.prod → α) : iadd (arr s g) (arr s h) = .ok (arr s fun b => g b + h b) := by
  unfold iadd
  rw [binop_arr]
  simp [arr]

theorem bcShape2_cons (n : Nat) (s : List Nat) : bcShape2 (n :: s) s = some (n :: s) := by
  have h : padShape (n :: s).length s = 1 :: s := by simp [padShape]
  have hm : max (n :: s).length s.length = (n :: s).length := by simp
  rw [bcShape2]
  simp only [hm, h, padShape_self]
  rw [bcShapePadded, bcShapePadded_self]
  dsimp only
  split_ifs <;> simp_all

theorem canBroadcast_cons (n : Nat) (s : List Nat) : canBroadcast s (n :: s) = true := by
  have h : padShape (n :: s).length s = 1 :: s := by simp [padShape]
  have := canBroadcast_self s
  simp only [canBroadcast, padShape_self, Bool.and_eq_true] at this
  simp only [canBroadcast, h, bcOK, Bool.and_eq_true]
  exact ⟨by simp, by simp, this.2⟩

theorem bcIdx_cons {n : Nat} {e : Nat} (he : e < (n :: s).prod) : bcIdx s (n :: s) e = e % s.prod :=
  bcIdx_suffix (ext := s) (pre := [n]) (suf := s) (k := 0) (by simp) (by simp) (by simp) he

theorem broadcastTo_arr_cons (n : Nat) (h : Fin s.prod → α) : broadcastTo (arr s h) (n :: s) = .ok (arr2 n s fun _ b => h b) := by
  rcases isEmpty_or_nonempty α with he | ⟨⟨d⟩⟩
  · have hs : s.prod = 0 := by
      by_contra h0
      exact he.elim (h ⟨0, Nat.pos_of_ne_zero h0⟩)
    unfold broadcastTo
    rw [show (arr s h).shape = s from rfl, if_pos (canBroadcast_cons n s), show (n :: s).prod = 0 by simp [hs]]
    simp only [List.range_zero, List.mapM_nil, arr2]
    have : (List.ofFn fun i : Fin (n * s.prod) => h i.modNat) = [] := by
      rw [List.eq_nil_iff_length_eq_zero]
      simp [hs]
    rw [this]
    rfl
  rw [broadcastTo_ok d (arr s h) (arr_wf h) (canBroadcast_cons n s)]
  congr 1
  unfold arr2
  congr 1
  refine List.ext_getElem (by simp) fun i hi hi' => ?_
  have hi : i < (n :: s).prod := by simpa using hi
  have hp : i < n * s.prod := by simpa using hi
  have hs : 0 < s.prod := Nat.pos_of_ne_zero fun h0 => by simp [h0] at hp
  simp only [List.getElem_map, List.getElem_range, List.getElem_ofFn, arr, bcIdx_cons hi]
  rw [RK.getD_of_lt _ _ (by simpa using Nat.mod_lt _ hs)]
  simp only [List.getElem_ofFn]
  rfl

theorem broadcastTo_arr2 {n : Nat} (g : Fin n → Fin s.prod → α) : broadcastTo (arr2 n s g) (n :: s) = .ok (arr2 n s g) :=
  broadcastTo_self _ (arr2_wf g)

theorem binop_arr2_arr {n : Nat} (f : α → β → γ) (g : Fin n → Fin s.prod → α) (h : Fin s.prod → β) :
    binop f (arr2 n s g) (arr s h) = .ok (arr2 n s fun k b => f (g k b) (h b)) := by
  unfold binop
  rw [show (arr2 n s g).shape = n :: s from rfl, show (arr s h).shape = s from rfl, bcShape2_cons]
  dsimp only
  rw [broadcastTo_arr_cons, broadcastTo_arr2]
  simp only [py_bind_ok, py_pure, arr2, zipWith_ofFn]

theorem getElem_arr2 {n : Nat} (g : Fin n → Fin s.prod → α) (k : Fin n) (b : Fin s.prod) (h : k.1 * s.prod + b.1 < (arr2 n s g).data.length) :
    (arr2 n s g).data[k.1 * s.prod + b.1] = g k b := by
  have hs : 0 < s.prod := b.pos
  simp only [arr2, List.getElem_ofFn]
  congr 1
  · rw [Fin.ext_iff]
    simp only [Fin.divNat]
    rw [Nat.mul_comm, Nat.mul_add_div hs, Nat.div_eq_of_lt b.2, Nat.add_zero]
  · rw [Fin.ext_iff]
    simp only [Fin.modNat]
    rw [Nat.mul_comm, Nat.mul_add_mod, Nat.mod_eq_of_lt b.2]

theorem sumRows_arr2 {n : Nat} [Inhabited α] [AddCommMonoid γ] (g : Fin n → Fin s.prod → α) (w : Fin n → α → γ) :
    sumRows n (arr2 n s g) w = .ok (arr s fun b => ∑ k, w k (g k b)) := by
  unfold sumRows
  rw [show (arr2 n s g).shape = n :: s from rfl]
  simp only [if_true]
  congr 1
  unfold arr
  congr 1
  refine List.ext_getElem (by simp) fun i hi hi' => ?_
  have hi : i < s.prod := by simpa using hi
  simp only [List.getElem_map, List.getElem_range, List.getElem_ofFn]
  refine Finset.sum_congr rfl fun k _ => ?_
  have hl : k.1 * s.prod + i < (arr2 n s g).data.length := by
    simp only [arr2, List.length_ofFn]
    calc k.1 * s.prod + i < k.1 * s.prod + s.prod := by omega
      _ = (k.1 + 1) * s.prod := by ring
      _ ≤ n * s.prod := Nat.mul_le_mul_right _ k.2
  rw [RK.getD_of_lt _ _ hl]
  congr 1
  exact getElem_arr2 g k ⟨i, hi⟩ hl

theorem zeros_arr [Zero α] : (NDArray.zeros s : NDArray α) = arr s fun _ => 0 := by
  unfold NDArray.zeros arr
  congr 1
  refine List.ext_getElem (by simp) fun i hi hi' => ?_
  simp

theorem zeros_arr2 [Zero α] (n : Nat) : (NDArray.zeros (n :: s) : NDArray α) = arr2 n s fun _ _ => 0 := by
  unfold NDArray.zeros arr2
  congr 1
  refine List.ext_getElem (by simp) fun i hi hi' => ?_
  simp

theorem isub_arr [Sub α] (g h : Fin s.prod → α) : isub (arr s g) (arr s h) = .ok (arr s fun b => g b - h b) := by
  unfold isub
  rw [binop_arr]
  simp [arr]

theorem iadd_arr2 [Add α] {n : Nat} (g h : Fin n → Fin s.prod → α) :
    iadd (arr2 n s g) (arr2 n s h) = .ok (arr2 n s fun k b => g k b + h k b) := by
  unfold iadd
  rw [binop_arr2]
  simp [arr2]

theorem takeRows_arr2 {n m : Nat} (h : m ≤ n) (g : Fin n → Fin s.prod → α) :
    takeRows m (arr2 n s g) = arr2 m s fun k b => g ⟨k.1, by omega⟩ b := by
  unfold takeRows arr2
  simp only [List.tail_cons]
  congr 1
  refine List.ext_getElem ?_ fun i hi hi' => ?_
  · simp only [List.length_take, List.length_ofFn]
    exact Nat.min_eq_left (Nat.mul_le_mul_right _ h)
  · simp only [List.getElem_take, List.getElem_ofFn]
    rfl

theorem rollRows_arr {n : Nat} {β : Type} (S : Fin s.prod → Fin n → β) : rollRows (arr s S) = arr2 n s fun r b => S b r := by
  unfold rollRows arr2
  rw [show (arr s S).shape = s from rfl]
  congr 1
  rw [List.ofFn_mul, List.flatMap_def, ← List.ofFn_id, List.map_ofFn]
  congr 2
  funext r
  simp only [arr, List.map_ofFn, Function.comp_def]
  congr 1
  funext b
  have hs : 0 < s.prod := b.pos
  congr 1
  · congr 1
    rw [Fin.ext_iff]
    simp only [Fin.modNat]
    rw [Nat.mul_comm, Nat.mul_add_mod, Nat.mod_eq_of_lt b.2]
  · rw [Fin.ext_iff]
    simp only [Fin.divNat]
    rw [Nat.mul_comm, Nat.mul_add_div hs, Nat.div_eq_of_lt b.2, Nat.add_zero]
    rfl

theorem setRows_arr2 {n start m : Nat} (h : start + m ≤ n) (g : Fin n → Fin s.prod → α) (v : Fin m → Fin s.prod → α) :
    setRows (arr2 n s g) start m (arr2 m s v) = .ok (arr2 n s fun k b =>
      if hk : start ≤ k.1 ∧ k.1 < start + m then v ⟨k.1 - start, by omega⟩ b else g k b) := by
  unfold setRows Stack.assigned
  rw [show (arr2 n s g).shape = n :: s from rfl, show (arr2 m s v).shape = m :: s from rfl]
  simp only [List.tail_cons, stripOnes_self]
  have : broadcastTo (⟨m :: s, (arr2 m s v).data⟩ : NDArray α) (m :: s) = .ok (arr2 m s v) := broadcastTo_arr2 v
  rw [this, py_bind_ok, py_pure]
  congr 1
  unfold arr2
  congr 1
  have e1 : start * s.prod + m * s.prod = (start + m) * s.prod := by ring
  have e2 : (start + m) * s.prod ≤ n * s.prod := Nat.mul_le_mul_right _ h
  refine List.ext_getElem ?_ fun i hi hi' => ?_
  · simp only [List.length_append, List.length_take, List.length_drop, List.length_ofFn]; omega
  have hi : i < n * s.prod := by simpa using hi'
  have hs : 0 < s.prod := Nat.pos_of_ne_zero fun h0 => by simp [h0] at hi
  have hd : (Fin.divNat ⟨i, hi⟩ : Fin n).1 = i / s.prod := rfl
  have hl : start ≤ i / s.prod ↔ start * s.prod ≤ i := Nat.le_div_iff_mul_le hs
  have hr : i / s.prod < start + m ↔ i < (start + m) * s.prod := Nat.div_lt_iff_lt_mul hs
  simp only [List.getElem_ofFn]
  by_cases h1 : start * s.prod ≤ i
  · by_cases h2 : i < (start + m) * s.prod
    · rw [dif_pos (show start ≤ (Fin.divNat ⟨i, hi⟩ : Fin n).1 ∧ (Fin.divNat ⟨i, hi⟩ : Fin n).1 < start + m from
        ⟨hl.2 h1, hr.2 h2⟩)]
      rw [List.getElem_append_left (by simp only [List.length_append, List.length_take, List.length_drop, List.length_ofFn]; omega), List.getElem_append_right (by simp only [List.length_append, List.length_take, List.length_drop, List.length_ofFn]; omega)]
      simp only [List.getElem_ofFn, List.length_take, List.length_ofFn]
      have e : min (start * s.prod) (n * s.prod) = start * s.prod := by omega
      congr 1
      · rw [Fin.ext_iff]
        simp only [Fin.divNat, e]
        rw [Nat.mul_comm, Nat.sub_mul_div]
      · rw [Fin.ext_iff]
        simp only [Fin.modNat, e]
        obtain ⟨t, rfl⟩ := Nat.exists_eq_add_of_le h1
        rw [Nat.add_sub_cancel_left, Nat.mul_comm, Nat.mul_add_mod]
    · rw [dif_neg (fun hc => h2 (hr.1 hc.2)), List.getElem_append_right (by simp only [List.length_append, List.length_take, List.length_drop, List.length_ofFn]; omega)]
      simp only [List.getElem_drop, List.getElem_ofFn, List.length_append, List.length_take, List.length_ofFn]
      have e : (start + m) * s.prod + (i - (min (start * s.prod) (n * s.prod) + m * s.prod)) = i := by omega
      simp only [e]
  · rw [dif_neg (fun hc => h1 (hl.1 hc.1)), List.getElem_append_left (by simp only [List.length_append, List.length_take, List.length_drop, List.length_ofFn]; omega), List.getElem_append_left (by simp only [List.length_append, List.length_take, List.length_drop, List.length_ofFn]; omega)]
    simp

/-! ### Programs that follow a family of programs -/

/-- If `a` returns, then all members of the family return and the results correspond; if all members return, so does `a`. -/
def Sim {ι A C : Type} (R : A → (ι → C) → Prop) (a : Py A) (f : ι → Py C) : Prop :=
  (∀ v, a = .ok v → ∃ w : ι → C, (∀ b, f b = .ok (w b)) ∧ R v w) ∧ ((∀ b, ∃ w, f b = .ok w) → ∃ v, a = .ok v)

variable {ι A C A' C' : Type}

theorem Sim.pure {R : A → (ι → C) → Prop} {v : A} {w : ι → C} (h : R v w) : Sim R (.ok v) fun b => .ok (w b) :=
  ⟨fun _ hv => ⟨w, fun _ => rfl, by cases hv; exact h⟩, fun _ => ⟨v, rfl⟩⟩

theorem Sim.bind {R : A → (ι → C) → Prop} {R' : A' → (ι → C') → Prop} {a : Py A} {f : ι → Py C} {g : A → Py A'} {h : ι → C → Py C'}
    (ha : Sim R a f) (hg : ∀ v w, R v w → Sim R' (g v) fun b => h b (w b)) : Sim R' (a >>= g) fun b => f b >>= h b := by
  constructor
  · intro v hv
    obtain ⟨u, hu, hv⟩ := py_bind_eq_ok hv
    obtain ⟨w, hw, hr⟩ := ha.1 u hu
    obtain ⟨w', hw', hr'⟩ := (hg u w hr).1 v hv
    exact ⟨w', fun b => by dsimp only; rw [hw b]; exact hw' b, hr'⟩
  · intro hall
    obtain ⟨u, hu⟩ := ha.2 fun b => by
      obtain ⟨w, hw⟩ := hall b
      obtain ⟨c, hc, _⟩ := py_bind_eq_ok hw
      exact ⟨c, hc⟩
    obtain ⟨w, hw, hr⟩ := ha.1 u hu
    obtain ⟨v, hv⟩ := (hg u w hr).2 fun b => by
      obtain ⟨w', hw'⟩ := hall b
      dsimp only at hw'
      rw [hw b] at hw'
      exact ⟨w', hw'⟩
    exact ⟨v, by rw [hu]; exact hv⟩

theorem Sim.mono {R R' : A → (ι → C) → Prop} {a : Py A} {f : ι → Py C} (h : Sim R a f) (hr : ∀ v w, R v w → R' v w) : Sim R' a f :=
  ⟨fun v hv => by obtain ⟨w, h1, h2⟩ := h.1 v hv; exact ⟨w, h1, hr v w h2⟩, h.2⟩

theorem Sim.foldlM {K : Type} {R : A → (ι → C) → Prop} {g : A → K → Py A} {h : ι → C → K → Py C} (l : List K)
    (hs : ∀ k ∈ l, ∀ v w, R v w → Sim R (g v k) fun b => h b (w b) k) {v : A} {w : ι → C} (hv : R v w) :
    Sim R (l.foldlM g v) fun b => l.foldlM (h b) (w b) := by
  induction l generalizing v w with
  | nil => exact Sim.pure hv
  | cons k l ih =>
    simp only [List.foldlM_cons]
    exact (hs k (by simp) v w hv).bind fun v w hv => ih (fun k hk => hs k (List.mem_cons_of_mem _ hk)) hv

theorem sim_mapM (f : α → Py β) (g : Fin s.prod → α) : Sim (fun a w => a = arr s w) (mapM f (arr s g)) fun b => f (g b) := by
  constructor
  · intro v hv
    obtain ⟨l, hl, hv⟩ := py_bind_eq_ok hv
    obtain ⟨e, he⟩ := RK.mapM_getElem _ _ _ hl
    have e' : l.length = s.prod := by rw [e]; simp [arr]
    refine ⟨fun b => l[b.1]'(by rw [e']; exact b.2), fun b => ?_, ?_⟩
    · have := he b.1 (by simp [arr])
      simpa [arr] using this
    · cases hv
      unfold arr
      congr 1
      refine List.ext_getElem (by simp [e']) fun i _ _ => ?_
      simp
  · intro h
    choose w hw using h
    refine ⟨arr s w, ?_⟩
    unfold Stack.mapM
    have : (arr s g).data.mapM f = .ok (arr s w).data := by
      rw [mapM_ok_iff]
      rw [List.forall₂_iff_get]
      refine ⟨by simp [arr], fun i hi _ => ?_⟩
      simp only [arr, List.get_eq_getElem, List.getElem_ofFn]
      exact hw _
    rw [this]
    rfl

end Ceacoest
