import Std.Data.String.ToNat
import Verif.Spec.SymInit

/-! # The symbols the constructors derive from those of the user -/

namespace Ceacoest

theorem digits_toList (k : Nat) : (toString k).toList = Nat.toDigits 10 k := by
  show (Nat.repr k).toList = _
  simp [Nat.repr]

theorem digits_isDigit {k : Nat} {c : Char} (h : c ∈ (toString k).toList) : c.isDigit = true := by
  rw [digits_toList] at h
  exact Nat.isDigit_of_mem_toDigits (by decide) (by decide) h

theorem digits_inj {k k' : Nat} (h : (toString k).toList = (toString k').toList) : k = k' :=
  Nat.repr_inj.1 (String.toList_inj.1 h)

theorem digits_ne_nil (k : Nat) : (toString k).toList ≠ [] := by
  rw [digits_toList]
  exact Nat.toDigits_ne_nil

/-- The last character that is no digit determines the rest. -/
theorem last_nondigit {l l' d d' : List Char} {c c' : Char} (hc : c.isDigit = false) (hc' : c'.isDigit = false)
    (hd : ∀ a ∈ d, a.isDigit = true) (hd' : ∀ a ∈ d', a.isDigit = true) (h : l ++ c :: d = l' ++ c' :: d') : l = l' ∧ c = c' ∧ d = d' := by
  rcases List.append_eq_append_iff.1 h with ⟨a, h1, h2⟩ | ⟨a, h1, h2⟩
  · match a with
    | [] =>
      simp only [List.append_nil, List.nil_append, List.cons.injEq] at h1 h2
      exact ⟨h1.symm, h2⟩
    | b :: a =>
      exfalso
      simp only [List.cons_append, List.cons.injEq] at h2
      have := hd c' (by rw [h2.2]; simp)
      rw [hc'] at this
      cases this
  · match a with
    | [] =>
      simp only [List.append_nil, List.nil_append, List.cons.injEq] at h1 h2
      exact ⟨h1, h2.1.symm, h2.2.symm⟩
    | b :: a =>
      exfalso
      simp only [List.cons_append, List.cons.injEq] at h2
      have := hd' c (by rw [h2.2]; simp)
      rw [hc] at this
      cases this

/-- What the constructors make symbols of. -/
inductive Derived
  | piece (s : String) (k : Nat)
  | initial (s : String)
  | final (s : String)
  | noise (j i : Nat)
  | weight (i : Nat)

namespace Derived

/-- The symbol. -/
def render : Derived → String
  | piece s k => s ++ "_piece_" ++ toString k
  | initial s => s ++ "_initial"
  | final s => s ++ "_final"
  | noise j i => "wc" ++ toString j ++ "_interv_" ++ toString i
  | weight i => "penweight" ++ toString i

/-- The symbol without the final digits, the character before them and the digits. -/
def parts : Derived → List Char × Char × List Char
  | piece s k => (s.toList ++ ['_', 'p', 'i', 'e', 'c', 'e'], '_', (toString k).toList)
  | initial s => (s.toList ++ ['_', 'i', 'n', 'i', 't', 'i', 'a'], 'l', [])
  | final s => (s.toList ++ ['_', 'f', 'i', 'n', 'a'], 'l', [])
  | noise j i => (['w', 'c'] ++ (toString j).toList ++ ['_', 'i', 'n', 't', 'e', 'r', 'v'], '_', (toString i).toList)
  | weight i => (['p', 'e', 'n', 'w', 'e', 'i', 'g', 'h'], 't', (toString i).toList)

theorem render_parts (σ : Derived) : σ.render.toList = σ.parts.1 ++ σ.parts.2.1 :: σ.parts.2.2 := by
  match σ with
  | piece s k => rw [render, parts, String.toList_append, String.toList_append]; simp
  | initial s => rw [render, parts, String.toList_append]; simp
  | final s => rw [render, parts, String.toList_append]; simp
  | noise j i => rw [render, parts, String.toList_append, String.toList_append, String.toList_append]; simp
  | weight i => rw [render, parts, String.toList_append]; simp

theorem parts_nondigit (σ : Derived) : σ.parts.2.1.isDigit = false := by cases σ <;> rfl

theorem parts_digit (σ : Derived) : ∀ a ∈ σ.parts.2.2, a.isDigit = true := by
  match σ with
  | piece s k => exact fun a ha => digits_isDigit ha
  | initial s => exact fun a ha => by cases ha
  | final s => exact fun a ha => by cases ha
  | noise j i => exact fun a ha => digits_isDigit ha
  | weight i => exact fun a ha => digits_isDigit ha

theorem parts_eq {σ τ : Derived} (h : σ.render = τ.render) : σ.parts = τ.parts := by
  have h := congrArg String.toList h
  rw [render_parts, render_parts] at h
  obtain ⟨h1, h2, h3⟩ := last_nondigit (parts_nondigit σ) (parts_nondigit τ) (parts_digit σ) (parts_digit τ) h
  exact Prod.ext h1 (Prod.ext h2 h3)

theorem last_ne {l l' m m' : List Char} {c c' : Char} (hc : c ≠ c') (h : l ++ (m ++ [c]) = l' ++ (m' ++ [c'])) : False := by
  rw [← List.append_assoc, ← List.append_assoc] at h
  exact hc (by simpa using (List.append_inj' h rfl).2)

/-- Different things have different symbols. -/
theorem render_inj {σ τ : Derived} (h : σ.render = τ.render) : σ = τ := by
  replace h := parts_eq h
  cases σ <;> cases τ <;> simp only [parts, Prod.mk.injEq, reduceCtorEq, false_and, and_false] at h
  case piece.piece s k s' k' =>
    rw [String.toList_inj.1 (List.append_cancel_right h.1), digits_inj h.2.2]
  case piece.noise s k j i =>
    exact (last_ne (l := s.toList) (l' := ['w', 'c'] ++ (toString j).toList) (m := ['_', 'p', 'i', 'e', 'c']) (m' := ['_', 'i', 'n', 't', 'e', 'r']) (c := 'e') (c' := 'v')
      (by decide) h.1).elim
  case noise.piece j i s k =>
    exact (last_ne (l' := s.toList) (l := ['w', 'c'] ++ (toString j).toList) (m' := ['_', 'p', 'i', 'e', 'c']) (m := ['_', 'i', 'n', 't', 'e', 'r']) (c' := 'e') (c := 'v')
      (by decide) h.1).elim
  case initial.initial s s' => rw [String.toList_inj.1 (List.append_cancel_right h.1)]
  case final.final s s' => rw [String.toList_inj.1 (List.append_cancel_right h.1)]
  case initial.final s s' =>
    refine (?_ : False).elim
    have : (s.toList ++ ['_', 'i', 'n', 'i', 't'] ++ ['i']) ++ ['a'] = (s'.toList ++ ['_', 'f', 'i'] ++ ['n']) ++ ['a'] := by simpa using h.1
    have := (List.append_inj' this rfl).1
    have := (List.append_inj' this rfl).2
    simp at this
  case final.initial s s' =>
    refine (?_ : False).elim
    have : (s'.toList ++ ['_', 'i', 'n', 'i', 't'] ++ ['i']) ++ ['a'] = (s.toList ++ ['_', 'f', 'i'] ++ ['n']) ++ ['a'] := by simpa using h.1.symm
    have := (List.append_inj' this rfl).1
    have := (List.append_inj' this rfl).2
    simp at this
  case noise.noise j i j' i' =>
    rw [digits_inj h.2.2, digits_inj (List.append_cancel_left (List.append_cancel_right h.1))]
  case weight.weight i i' => rw [digits_inj h.2.2]
  all_goals simp at h

end Derived
end Ceacoest
