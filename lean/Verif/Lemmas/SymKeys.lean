import Verif.Lemmas.SymClosed

/-! # Which objectives and constraints a model has -/

namespace Ceacoest
open Spec RK SymModel
variable {X : Type}

theorem Dict.has_set {κ α : Type _} [DecidableEq κ] (d : Dict κ α) (k : κ) (v : α) (n : κ) :
    Dict.has (Dict.set d k v) n ↔ Dict.has d n ∨ k = n := by
  unfold Dict.has
  rw [Dict.get?_set]
  by_cases h : k = n <;> simp [h]

theorem add_keys {S : Sym2Num X} {m m' : SymModel X} {c : SymCall} (he : m.add S c = .ok m') (n : String) :
    (Dict.has m'.objectives n ↔ Dict.has m.objectives n ∨ c.objective = true ∧ c.fname = n) ∧
    (Dict.has m'.constraints n ↔ Dict.has m.constraints n ∨ c.objective = false ∧ c.fname = n) ∧
    (n ∈ m.generate ∨ c.fname = n → n ∈ m'.generate) := by
  unfold SymModel.add at he
  split at he
  · next hc =>
    unfold addObjective at he
    dsimp only at he
    rw [if_neg (by decide)] at he
    obtain ⟨⟨m1, grad⟩, h1, he⟩ := py_bind_eq_ok he
    obtain ⟨g1, -⟩ := addGrad_grows h1
    dsimp only at he
    rw [if_pos (by decide)] at he
    obtain ⟨⟨m2, hess⟩, h2, he⟩ := py_bind_eq_ok he
    obtain rfl := Except.ok.inj he
    obtain ⟨g3, -⟩ := addHess_grows h2
    have g := g1.trans g3
    refine ⟨?_, ?_, fun hn => g.generate n (by rcases hn with h | h <;> simp [h])⟩
    · rw [Dict.has_set, g.objectives, Dict.has_set]
      simp only [hc, true_and]
      tauto
    · rw [g.constraints]
      simp [hc]
  · next hc =>
    unfold addConstraint at he
    obtain ⟨f, -, he⟩ := py_bind_eq_ok he
    dsimp only at he
    rw [if_neg (by decide)] at he
    obtain ⟨⟨m1, grad⟩, h1, he⟩ := py_bind_eq_ok he
    obtain ⟨g1, -⟩ := addJac_grows h1
    dsimp only at he
    rw [if_pos (by decide)] at he
    obtain ⟨⟨m2, hess⟩, h2, he⟩ := py_bind_eq_ok he
    obtain rfl := Except.ok.inj he
    obtain ⟨g3, -⟩ := addHess_grows h2
    have g := g1.trans g3
    have hc : c.objective = false := by simpa using hc
    refine ⟨?_, ?_, fun hn => g.generate n (by rcases hn with h | h <;> simp [h])⟩
    · rw [g.objectives]
      simp [hc]
    · rw [Dict.has_set, g.constraints, Dict.has_set]
      simp only [hc, true_and]
      tauto

theorem addAll_keys {S : Sym2Num X} (n : String) {calls : List SymCall} : ∀ {m m' : SymModel X}, m.addAll S calls = .ok m' →
    (Dict.has m'.objectives n ↔ Dict.has m.objectives n ∨ ∃ c ∈ calls, c.objective = true ∧ c.fname = n) ∧
    (Dict.has m'.constraints n ↔ Dict.has m.constraints n ∨ ∃ c ∈ calls, c.objective = false ∧ c.fname = n) ∧
    (n ∈ m.generate ∨ n ∈ calls.map SymCall.fname → n ∈ m'.generate) := by
  induction calls with
  | nil =>
    intro m m' he
    obtain rfl := Except.ok.inj he
    simp
  | cons c calls ih =>
    intro m m' he
    unfold addAll at he
    rw [List.foldlM_cons] at he
    obtain ⟨m1, h1, he⟩ := py_bind_eq_ok he
    obtain ⟨a1, a2, a3⟩ := add_keys h1 n
    obtain ⟨b1, b2, b3⟩ := ih he
    refine ⟨?_, ?_, fun h => b3 ?_⟩
    · rw [b1, a1, or_assoc]; simp only [List.mem_cons, exists_eq_or_imp]
    · rw [b2, a2, or_assoc]; simp only [List.mem_cons, exists_eq_or_imp]
    · rcases h with h | h
      · exact Or.inl (a3 (Or.inl h))
      · rw [List.map_cons, List.mem_cons] at h
        rcases h with h | h
        · exact Or.inl (a3 (Or.inr h.symm))
        · exact Or.inr h

theorem symcolInit_builtBy {A : SymArith X} {order : Int} {methods : SymMethods X} {iter : String → List String} {vars : Dict String SymVar}
    {decision : List String} {late : Dict String SymVar → Py (Dict String SymVar)} {c : SymClass X}
    (h : symcolInit A order methods iter vars decision late = .ok c) : BuiltBy c.model [] ["e"] := by
  unfold symcolInit at h
  obtain ⟨col, -, h⟩ := py_bind_eq_ok h
  obtain ⟨v0, -, h⟩ := py_bind_eq_ok h
  obtain ⟨v, -, h⟩ := py_bind_eq_ok h
  obtain ⟨fs, h1, h⟩ := py_bind_eq_ok h
  obtain ⟨m, h2, h⟩ := py_bind_eq_ok h
  obtain rfl := Except.ok.inj h
  have h0 : ∀ {α : Type} (n : String), ¬Dict.has ([] : Dict String α) n := fun n ⟨_, h⟩ => by cases h
  refine ⟨fun n => ?_, fun n => ?_, fun n hn => ?_⟩
  · rw [(add_keys h2 n).1]; simp [h0]
  · rw [(add_keys h2 n).2.1]; simp [h0, eq_comm]
  · refine (add_keys h2 n).2.2 ?_
    simpa [eq_comm] using hn

theorem SymModel.BuiltBy.addAll {S : Sym2Num X} {m m' : SymModel X} {os cs : List String} (h : BuiltBy m os cs) {calls : List SymCall}
    (he : m.addAll S calls = .ok m') : BuiltBy m' (os ++ (calls.filter fun c => c.objective).map SymCall.fname)
      (cs ++ (calls.filter fun c => !c.objective).map SymCall.fname) := by
  refine ⟨fun n => ?_, fun n => ?_, fun n hn => (addAll_keys n he).2.2 ?_⟩
  · rw [(addAll_keys n he).1, h.objectives]; simp [List.mem_filter, and_assoc]
  · rw [(addAll_keys n he).2.1, h.constraints]; simp [List.mem_filter, and_assoc]
  · have hg := h.generate n
    simp only [List.cons_append, List.mem_cons, List.mem_append, List.mem_map, List.mem_filter] at hn hg ⊢
    rcases hn with h | ((h | ⟨c, hc, rfl⟩) | (h | ⟨c, hc, rfl⟩))
    · exact Or.inl (hg (Or.inl h))
    · exact Or.inl (hg (Or.inr (Or.inl h)))
    · exact Or.inr ⟨c, hc.1, rfl⟩
    · exact Or.inl (hg (Or.inr (Or.inr h)))
    · exact Or.inr ⟨c, hc.1, rfl⟩

theorem symoemInit_builtBy {A : SymArith X} {order : Int} {methods : SymMethods X} {iter : String → List String} {vars : Dict String SymVar}
    {decision : List String} {late : Dict String SymVar → Py (Dict String SymVar)} {c : SymClass X}
    (h : symoemInit A order methods iter vars decision late = .ok c) : BuiltBy c.model ["L"] ["e"] := by
  unfold symoemInit at h
  obtain ⟨c0, h0, h⟩ := py_bind_eq_ok h
  obtain ⟨m, h1, h⟩ := py_bind_eq_ok h
  obtain rfl := Except.ok.inj h
  exact (symcolInit_builtBy h0).addAll (calls := [⟨true, "L", iter "L"⟩]) (by
    unfold addAll
    rw [List.foldlM_cons, h1]
    rfl)

end Ceacoest
