import Verif.Lemmas.SymOptim

/-! # Generated names -/

namespace Ceacoest

/-- The separator `_d` does not occur. -/
def SepFree (l : List Char) : Prop := ¬ ['_', 'd'] <:+: l

theorem SepFree.of_infix {l l' : List Char} (h : SepFree l) (hi : l' <:+: l) : SepFree l' := fun h' => h (h'.trans hi)

/-- What stands before the first separator is determined. -/
theorem sep_split {f f' x x' : List Char} (hf : SepFree f) (hf' : SepFree f') (h : f ++ (['_', 'd'] ++ x) = f' ++ (['_', 'd'] ++ x')) :
    f = f' ∧ x = x' := by
  rcases List.append_eq_append_iff.1 h with ⟨a, h1, h2⟩ | ⟨a, h1, h2⟩
  · match a, h1, h2 with
    | [], h1, h2 => simpa [eq_comm] using And.intro h1 h2
    | [c], h1, h2 => simp at h2
    | c :: d :: a, h1, h2 =>
      exfalso
      simp at h2
      obtain ⟨rfl, rfl, -⟩ := h2
      exact hf' ⟨f, a, by rw [h1]; simp⟩
  · match a, h1, h2 with
    | [], h1, h2 => simpa [eq_comm] using And.intro h1 h2
    | [c], h1, h2 => simp at h2
    | c :: d :: a, h1, h2 =>
      exfalso
      simp at h2
      obtain ⟨rfl, rfl, -⟩ := h2
      exact hf ⟨f', a, by rw [h1]; simp⟩

theorem SepFree.append_char {l : List Char} (h : SepFree l) (c : Char) (hc : c ≠ 'd') : SepFree (l ++ [c]) := by
  rintro ⟨s, t, e⟩
  rcases List.eq_nil_or_concat t with rfl | ⟨t', b, rfl⟩
  · have := congrArg List.getLast? e
    simp at this
    exact hc this.symm
  · have e' : (s ++ ['_', 'd'] ++ t') ++ [b] = l ++ [c] := by rw [← e]; simp
    exact h ⟨s, t', (List.append_inj' e' rfl).1⟩

end Ceacoest
