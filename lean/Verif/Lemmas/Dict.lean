import Verif.NumPy.Basic
import Mathlib.Data.List.Nodup
import Mathlib.Tactic.Basic

/-! Helper lemmas on association-list dictionaries. -/

namespace Ceacoest.Dict
variable {κ α β : Type _} [DecidableEq κ]

@[simp] theorem get?_nil (k : κ) : get? ([] : Dict κ α) k = none := rfl

theorem get?_cons (k' : κ) (v : α) (d : Dict κ α) (k : κ) :
    get? ((k', v) :: d) k = if k' = k then some v else get? d k := rfl

theorem get?_set (d : Dict κ α) (k : κ) (v : α) (k' : κ) :
    get? (set d k v) k' = if k = k' then some v else get? d k' := by
  induction d with
  | nil => simp [set, get?]
  | cons a d ih =>
    obtain ⟨ka, va⟩ := a
    by_cases h : ka = k
    · subst h; simp only [set, if_pos, get?_cons]
      split <;> simp
    · simp only [set, if_neg h, get?_cons, ih]
      by_cases h2 : ka = k'
      · subst h2; simp [Ne.symm h]
      · simp [h2]

theorem get?_eq_none_iff {d : Dict κ α} {k : κ} : get? d k = none ↔ k ∉ keys d := by
  induction d with
  | nil => simp [keys]
  | cons a d ih =>
    obtain ⟨ka, va⟩ := a
    rw [get?_cons]
    by_cases h : ka = k
    · simp [h, keys]
    · simp only [h, if_false, ih, keys, List.map_cons, List.mem_cons, not_or]
      exact ⟨fun h' => ⟨Ne.symm h, h'⟩, fun h' => h'.2⟩

theorem contains_iff {d : Dict κ α} {k : κ} : contains d k = true ↔ k ∈ keys d := by
  unfold contains
  rw [Option.isSome_iff_ne_none, Ne, get?_eq_none_iff, not_not]

theorem set_of_not_mem {d : Dict κ α} {k : κ} (v : α) (h : k ∉ keys d) : set d k v = d ++ [(k, v)] := by
  induction d with
  | nil => rfl
  | cons a d ih =>
    obtain ⟨ka, va⟩ := a
    simp only [keys, List.map_cons, List.mem_cons, not_or] at h
    simp only [set, if_neg (Ne.symm h.1), List.cons_append]
    rw [ih h.2]

theorem mem_of_get? {d : Dict κ α} {k : κ} {v : α} (h : get? d k = some v) : (k, v) ∈ d := by
  induction d with
  | nil => simp at h
  | cons a d ih =>
    obtain ⟨ka, va⟩ := a
    rw [get?_cons] at h
    split at h
    · next h' => subst h'; simp at h; subst h; simp
    · exact List.mem_cons_of_mem _ (ih h)

theorem get?_of_mem {d : Dict κ α} (hn : (keys d).Nodup) {k : κ} {v : α} (h : (k, v) ∈ d) : get? d k = some v := by
  induction d with
  | nil => simp at h
  | cons a d ih =>
    obtain ⟨ka, va⟩ := a
    simp only [keys, List.map_cons, List.nodup_cons] at hn
    rcases List.mem_cons.1 h with h | h
    · cases h; simp [get?_cons]
    · rw [get?_cons, if_neg, ih hn.2 h]
      rintro rfl
      exact hn.1 (List.mem_map_of_mem (f := Prod.fst) h)

theorem get?_append (d e : Dict κ α) (k : κ) : get? (d ++ e) k = (get? d k).or (get? e k) := by
  induction d with
  | nil => simp
  | cons a d ih =>
    obtain ⟨ka, va⟩ := a
    rw [List.cons_append, get?_cons, get?_cons, ih]
    split <;> simp

theorem get?_map (d : Dict κ α) (f : α → β) (k : κ) :
    get? (d.map fun kv => (kv.1, f kv.2)) k = (get? d k).map f := by
  induction d with
  | nil => rfl
  | cons a d ih =>
    obtain ⟨ka, va⟩ := a
    rw [List.map_cons, get?_cons, get?_cons, ih]
    split <;> simp

theorem update_nil (d : Dict κ α) : update d [] = d := rfl

theorem update_cons (d : Dict κ α) (kv : κ × α) (e : Dict κ α) : update d (kv :: e) = update (set d kv.1 kv.2) e := rfl

theorem update_append (d e f : Dict κ α) : update d (e ++ f) = update (update d e) f := by
  simp [update, List.foldl_append]

omit [DecidableEq κ] in
theorem keys_append (d e : Dict κ α) : keys (d ++ e) = keys d ++ keys e := by simp [keys]

/-- A dict display with distinct new keys lists them in order. -/
theorem update_of_nodup {d e : Dict κ α} (h : (keys d ++ keys e).Nodup) : update d e = d ++ e := by
  induction e generalizing d with
  | nil => simp [update]
  | cons a e ih =>
    obtain ⟨ka, va⟩ := a
    have hka : ka ∉ keys d := by
      intro hm
      have := (List.nodup_append.1 h).2.2 ka hm ka (by simp [keys])
      exact this rfl
    rw [update_cons, set_of_not_mem va hka, ih]
    · simp
    · simpa [keys] using h

theorem update_nil_of_nodup {e : Dict κ α} (h : (keys e).Nodup) : update [] e = e := by
  simpa using update_of_nodup (d := []) (e := e) (by simpa [keys] using h)

theorem get?_update_of_not_mem {d e : Dict κ α} {k : κ} (h : k ∉ keys e) : get? (update d e) k = get? d k := by
  induction e generalizing d with
  | nil => rfl
  | cons a e ih =>
    obtain ⟨ka, va⟩ := a
    simp only [keys, List.map_cons, List.mem_cons, not_or] at h
    rw [update_cons, ih h.2, get?_set, if_neg (Ne.symm h.1)]

/-- Later entries win. -/
theorem get?_update {d e : Dict κ α} {k : κ} (h : (keys e).Nodup) :
    get? (update d e) k = (get? e k).or (get? d k) := by
  induction e generalizing d with
  | nil => simp [update]
  | cons a e ih =>
    obtain ⟨ka, va⟩ := a
    simp only [keys, List.map_cons, List.nodup_cons] at h
    rw [update_cons, ih h.2, get?_set, get?_cons]
    by_cases hk : ka = k
    · subst hk
      have : get? e ka = none := get?_eq_none_iff.2 h.1
      simp [this]
    · simp [hk]

end Ceacoest.Dict
