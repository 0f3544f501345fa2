import Verif.NumPy.Broadcast
import Verif.Lemmas.Layout

namespace Ceacoest
variable {α β γ : Type}

theorem bcShapePadded_self (s : List Nat) : bcShapePadded s s = some s := by
  induction s with
  | nil => rfl
  | cons n s ih => simp [bcShapePadded, ih]

theorem bcShape2_self (s : List Nat) : bcShape2 s s = some s := by
  simp [bcShape2, padShape, bcShapePadded_self]

theorem binop_self (f : α → β → γ) {a : NDArray α} {b : NDArray β} (ha : a.WF) (hb : b.WF) (h : b.shape = a.shape) :
    binop f a b = .ok ⟨a.shape, List.zipWith f a.data b.data⟩ := by
  unfold binop
  rw [h, bcShape2_self]
  simp only
  rw [broadcastTo_self a ha, broadcastTo_self' b h (by rw [← h]; exact hb)]
  rfl

open Spec

theorem bcShapePadded_iff (s t sh : List Nat) : bcShapePadded s t = some sh ↔
    s.length = t.length ∧ sh.length = s.length ∧ ∀ k < s.length,
      (s.getD k 1 = t.getD k 1 ∨ s.getD k 1 = 1 ∨ t.getD k 1 = 1) ∧
      sh.getD k 1 = if s.getD k 1 = 1 then t.getD k 1 else s.getD k 1 := by
  induction s generalizing t sh with
  | nil =>
    cases t with
    | nil => cases sh <;> simp [bcShapePadded]
    | cons b t => simp [bcShapePadded]
  | cons a s ih =>
    cases t with
    | nil => simp [bcShapePadded]
    | cons b t =>
      rw [bcShapePadded]
      constructor
      · intro h
        cases hr : bcShapePadded s t with
        | none => rw [hr] at h; cases h
        | some r =>
          rw [hr] at h
          simp only at h
          obtain ⟨h1, h2, h3⟩ := (ih t r).1 hr
          have hsh : (a = b ∨ a = 1 ∨ b = 1) ∧ sh = (if a = 1 then b else a) :: r := by
            clear ih hr h3
            split_ifs at h with h5 h6 h7
            · cases h
              refine ⟨.inl h5, ?_⟩
              split_ifs with h6
              · rw [← h5]
              · rfl
            · cases h; exact ⟨.inr (.inl h6), by rw [if_pos h6]⟩
            · cases h; exact ⟨.inr (.inr h7), by rw [if_neg h6]⟩
          obtain ⟨h4, rfl⟩ := hsh
          refine ⟨by simp [h1], by simp [h2], fun k hk => ?_⟩
          cases k with
          | zero => simpa using h4
          | succ k => simpa using h3 k (by simpa using hk)
      · rintro ⟨h1, h2, h3⟩
        cases sh with
        | nil => simp at h2
        | cons c sh =>
          have hr := (ih t sh).2 ⟨by simpa using h1, by simpa using h2, fun k hk => by
            simpa using h3 (k + 1) (by simpa using hk)⟩
          rw [hr]
          have h0 := h3 0 (by simp)
          simp only [List.getD_cons_zero] at h0
          obtain ⟨h4, h5⟩ := h0
          subst h5
          simp only
          split_ifs <;> simp_all

theorem padShape_length {n : Nat} {s : List Nat} (h : s.length ≤ n) : (padShape n s).length = n := by
  simp [padShape]; omega

theorem padShape_getD {n : Nat} {s : List Nat} (h : s.length ≤ n) {k : Nat} (hk : k < n) :
    (padShape n s).getD k 1 = s.reverse.getD (n - 1 - k) 1 := by
  unfold padShape
  by_cases h1 : k < n - s.length
  · rw [List.getD_eq_getElem?_getD, List.getElem?_append_left (by simpa using h1), List.getD_eq_getElem?_getD,
      List.getElem?_eq_none (by simp; omega : s.reverse.length ≤ _)]
    simp [h1]
  · rw [List.getD_eq_getElem?_getD, List.getElem?_append_right (by simp; omega), List.getD_eq_getElem?_getD,
      List.getElem?_reverse (by omega)]
    congr 2
    simp
    omega

theorem bcShape2_iff (s t sh : List Nat) : bcShape2 s t = some sh ↔ BroadcastShape s t sh := by
  unfold bcShape2 BroadcastShape
  simp only
  rw [bcShapePadded_iff, padShape_length (le_max_left _ _), padShape_length (le_max_right _ _)]
  set n := max s.length t.length with hn
  have hs : s.length ≤ n := le_max_left _ _
  have ht : t.length ≤ n := le_max_right _ _
  have hsh : ∀ k < n, sh.length = n → sh.getD k 1 = sh.reverse.getD (n - 1 - k) 1 := by
    intro k hk hl
    rw [List.getD_eq_getElem?_getD, List.getD_eq_getElem?_getD, List.getElem?_reverse (by omega)]
    congr 2
    omega
  constructor
  · rintro ⟨-, h1, h2⟩
    refine ⟨h1, fun k hk => ?_⟩
    have := h2 (n - 1 - k) (by omega)
    rw [padShape_getD hs (by omega), padShape_getD ht (by omega), hsh _ (by omega) h1,
      show n - 1 - (n - 1 - k) = k by omega] at this
    exact this
  · rintro ⟨h1, h2⟩
    refine ⟨rfl, h1, fun k hk => ?_⟩
    have := h2 (n - 1 - k) (by omega)
    rwa [padShape_getD hs hk, padShape_getD ht hk, hsh k hk h1]

theorem bcOK_iff_getD (s t : List Nat) : bcOK s t = true ↔
    s.length = t.length ∧ ∀ k < s.length, s.getD k 1 = 1 ∨ s.getD k 1 = t.getD k 1 := by
  induction s generalizing t with
  | nil => cases t <;> simp [bcOK]
  | cons a s ih =>
    cases t with
    | nil => simp [bcOK]
    | cons b t =>
      simp only [bcOK, Bool.and_eq_true, Bool.or_eq_true, beq_iff_eq, ih]
      constructor
      · rintro ⟨h1, h2, h3⟩
        refine ⟨by simp [h2], fun k hk => ?_⟩
        cases k with
        | zero => simpa using h1
        | succ k => simpa using h3 k (by simpa using hk)
      · rintro ⟨h1, h2⟩
        exact ⟨by simpa using h2 0 (by simp), by simpa using h1, fun k hk => by simpa using h2 (k + 1) (by simpa using hk)⟩

theorem canBroadcast_of {s sh : List Nat} (hl : s.length ≤ sh.length)
    (h : ∀ k < sh.length, s.reverse.getD k 1 = 1 ∨ s.reverse.getD k 1 = sh.reverse.getD k 1) : canBroadcast s sh = true := by
  unfold canBroadcast
  rw [Bool.and_eq_true, bcOK_iff_getD, padShape_length hl]
  refine ⟨by simpa using hl, rfl, fun k hk => ?_⟩
  have e : sh.getD k 1 = sh.reverse.getD (sh.length - 1 - k) 1 := by
    rw [List.getD_eq_getElem?_getD, List.getD_eq_getElem?_getD, List.getElem?_reverse (by omega)]
    congr 2
    omega
  rw [padShape_getD hl hk, e]
  exact h _ (by omega)

theorem Spec.BroadcastShape.left {s t sh : List Nat} (h : BroadcastShape s t sh) : canBroadcast s sh = true := by
  refine canBroadcast_of (by rw [h.1]; exact le_max_left _ _) fun k hk => ?_
  have := (h.2 k hk).2
  by_cases h1 : s.reverse.getD k 1 = 1
  · exact .inl h1
  · rw [if_neg h1] at this; exact .inr this.symm

theorem Spec.BroadcastShape.right {s t sh : List Nat} (h : BroadcastShape s t sh) : canBroadcast t sh = true := by
  refine canBroadcast_of (by rw [h.1]; exact le_max_right _ _) fun k hk => ?_
  obtain ⟨h0, h1⟩ := h.2 k hk
  split_ifs at h1 with h2
  · exact .inr h1.symm
  · rcases h0 with h0 | h0 | h0
    · exact .inr (by rw [h1, h0])
    · exact absurd h0 h2
    · exact .inl h0

theorem Spec.BroadcastShape.again {s t sh : List Nat} (h : BroadcastShape s t sh) : BroadcastShape sh t sh := by
  have hl : t.length ≤ sh.length := by rw [h.1]; exact le_max_right _ _
  refine ⟨(max_eq_left hl).symm, fun k hk => ?_⟩
  obtain ⟨h0, h1⟩ := h.2 k hk
  split_ifs at h1 with h2
  · rw [h1]; simp
  · rw [h1, if_neg h2]; exact ⟨h0, rfl⟩

/-- Every flat position is the C-order position of a multi-index. -/
theorem exists_idx (sh : List Nat) (n : Nat) (h : n < sh.prod) : ∃ idx, InBounds sh idx ∧ cOrder sh idx = n := by
  induction sh generalizing n with
  | nil => exact ⟨[], trivial, by simp at h; simp [cOrder, h]⟩
  | cons d sh ih =>
    rw [List.prod_cons] at h
    have hp : 0 < sh.prod := Nat.pos_of_ne_zero fun h0 => by simp [h0] at h
    obtain ⟨idx, h1, h2⟩ := ih (n % sh.prod) (Nat.mod_lt _ hp)
    refine ⟨n / sh.prod :: idx, ⟨Nat.div_lt_of_lt_mul (by rw [Nat.mul_comm]; exact h), h1⟩, ?_⟩
    rw [cOrder, h2]
    exact Nat.div_add_mod' n sh.prod

theorem binop_ok (f : α → β → γ) (da : α) (db : β) {a : NDArray α} {b : NDArray β} (ha : a.WF) (hb : b.WF)
    {sh : List Nat} (h : BroadcastShape a.shape b.shape sh) :
    binop f a b = .ok ⟨sh, (List.range sh.prod).map fun i =>
      f (a.data.getD (bcIdx a.shape sh i) da) (b.data.getD (bcIdx b.shape sh i) db)⟩ := by
  unfold binop
  rw [(bcShape2_iff _ _ _).2 h]
  simp only
  rw [broadcastTo_ok da a ha h.left, broadcastTo_ok db b hb h.right]
  simp only [py_bind_ok, py_pure, List.zipWith_map, List.zipWith_self]

end Ceacoest
