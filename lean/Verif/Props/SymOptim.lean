import Verif.Lemmas.SymOptim
import Verif.Lemmas.Names

/-! # C30, C31, C33: symbolic optimization models -/

namespace Ceacoest
open Spec
variable {X : Type}

/-! ### C30 -/

/-- **C30.** `add_sparse_derivative` stores an index array, a number of entries and a value function that list, each once, the
non-zero entries of the dense derivative (the upper triangle, for a second derivative with respect to one argument), and
returns their number. -/
theorem C30_extract (S : Sym2Num X) (m : SymModel X) (fname dname : String) (wrt : List String) (f : SymFn X)
    (hf : Dict.get? m.funcs fname = some f) (shapes : List (List Nat))
    (hs : List.Forall₂ (fun w sh => Dict.get? m.shapes w = some sh) wrt shapes)
    (hl : (S.deriv f wrt).out.length = (shapes.map List.prod ++ [f.outShape.prod]).prod) (tril gen : Bool) :
    ∃ m' n ind vals, m.addSparseDerivative S fname wrt dname tril gen = .ok (m', n) ∧
      Dict.get? m'.sparseNzind dname = some ind ∧ Dict.get? m'.sparseNnz dname = some n ∧
      Dict.get? m'.funcs (dname ++ "_val") = some ⟨f.args, [n], vals⟩ ∧
      Lists S.isZero (shapes.map List.prod ++ [f.outShape.prod]) (wrt.length = 2 ∧ wrt.getD 0 "" = wrt.getD 1 "" ∧ tril = true)
        (S.deriv f wrt).out ind vals n ∧
      (∀ d, d ≠ dname → Dict.get? m'.sparseNzind d = Dict.get? m.sparseNzind d ∧ Dict.get? m'.sparseNnz d = Dict.get? m.sparseNnz d) ∧
      (∀ d, d ≠ dname → d ≠ dname ++ "_val" → Dict.get? m'.funcs d = Dict.get? m.funcs d) ∧
      m'.shapes = m.shapes ∧ m'.decision = m.decision ∧ m'.constraints = m.constraints ∧ m'.objectives = m.objectives := by
  refine ⟨_, _, _, _, addSparse_eq S m fname dname wrt f hf shapes hs hl tril gen, ?_, ?_, ?_,
    nonzeros_lists S.isZero wrt _ _ tril (by simp [hs.length_eq]), fun d hd => ⟨?_, ?_⟩, fun d h1 h2 => ?_, rfl, rfl, rfl, rfl⟩
  · simp [Dict.get?_set]
  · simp [Dict.get?_set]
  · simp [Dict.get?_set]
  · simp [Dict.get?_set, hd.symm]
  · simp [Dict.get?_set, hd.symm]
  · simp [Dict.get?_set, h1.symm, h2.symm]

/-- The listed values put back at their places give the dense tensor, … -/
theorem C30_reconstruct (isZero : X → Bool) (ev : X → ℝ) (hev : ∀ v, isZero v = true → ev v = 0) (shape : List Nat) (T : List X)
    (ind : List (List Nat)) (vals : List X) (n : Nat) (h : Lists isZero shape False T ind vals n)
    (idx : List Nat) (hi : InBounds shape idx) (v : X) (hv : T[cOrder shape idx]? = some v) :
    (∑ c ∈ Finset.range n, if column ind c = idx then (vals[c]?.map ev).getD 0 else 0) = ev v :=
  lists_sum isZero ev hev h idx hi (fun h => h.elim) v hv

/-- … and for the upper triangle of a tensor that is symmetric in its first two axes, the listed values and their mirror
images do. -/
theorem C30_reconstruct_sym (isZero : X → Bool) (ev : X → ℝ) (hev : ∀ v, isZero v = true → ev v = 0) (a r : Nat) (T : List X)
    (hT : T.length = [a, a, r].prod)
    (hsym : ∀ i < a, ∀ j < a, ∀ k < r, (T[cOrder [a, a, r] [i, j, k]]?).map ev = (T[cOrder [a, a, r] [j, i, k]]?).map ev)
    (ind : List (List Nat)) (vals : List X) (n : Nat) (h : Lists isZero [a, a, r] True T ind vals n)
    (i j k : Nat) (hi : i < a) (hj : j < a) (hk : k < r) (v : X) (hv : T[cOrder [a, a, r] [i, j, k]]? = some v) :
    (∑ c ∈ Finset.range n, if column ind c = [i, j, k] ∨ column ind c = [j, i, k] then (vals[c]?.map ev).getD 0 else 0) = ev v := by
  have hb : InBounds [a, a, r] [j, i, k] := ⟨hj, hi, hk, trivial⟩
  have hlt : cOrder [a, a, r] [j, i, k] < T.length := by rw [hT]; exact cOrder_lt hb
  have hsw := hsym i hi j hj k hk
  rw [hv, List.getElem?_eq_getElem hlt] at hsw
  rcases Nat.le_total i j with hij | hij
  · rw [← lists_sum isZero ev hev h [i, j, k] ⟨hi, hj, hk, trivial⟩ (fun _ => hij) v hv]
    refine Finset.sum_congr rfl fun c hc => ?_
    by_cases h1 : column ind c = [i, j, k]
    · simp [h1]
    · by_cases h2 : column ind c = [j, i, k]
      · have := (h.sound c (Finset.mem_range.1 hc)).2.1 trivial
        rw [h2] at this
        have hji : j ≤ i := by simpa using this
        have : i = j := by omega
        subst this
        exact absurd h2 h1
      · simp [h1, h2]
  · have e := Option.some.inj hsw
    rw [e, ← lists_sum isZero ev hev h [j, i, k] hb (fun _ => hij) _ (List.getElem?_eq_getElem hlt)]
    refine Finset.sum_congr rfl fun c hc => ?_
    by_cases h2 : column ind c = [j, i, k]
    · simp [h2]
    · by_cases h1 : column ind c = [i, j, k]
      · have := (h.sound c (Finset.mem_range.1 hc)).2.1 trivial
        rw [h1] at this
        have hji : i ≤ j := by simpa using this
        have : i = j := by omega
        subst this
        exact absurd h1 h2
      · simp [h1, h2]

/-! ### C31 -/

/-- **C31.** In whatever order the arguments are visited, exactly one of `(a, b)` and `(b, a)` is visited, and it is visited
once. -/
theorem C31_pairs {A : Type} (order : List A) (hn : order.Nodup) :
    (pairs order).Nodup ∧ (∀ p ∈ pairs order, p.1 ∈ order ∧ p.2 ∈ order) ∧
    ∀ a ∈ order, ∀ b ∈ order, ∃! p, p ∈ pairs order ∧ (p = (a, b) ∨ p = (b, a)) := by
  refine ⟨pairs_nodup hn, fun p hp => pairs_mem hp, fun a ha b hb => ?_⟩
  rcases pairs_exists ha hb with h | h
  · refine ⟨(a, b), ⟨h, Or.inl rfl⟩, ?_⟩
    rintro p ⟨hp, rfl | rfl⟩
    · rfl
    · rw [pairs_antisymm hn h hp]
  · refine ⟨(b, a), ⟨h, Or.inr rfl⟩, ?_⟩
    rintro p ⟨hp, rfl | rfl⟩
    · rw [pairs_antisymm hn h hp]
    · rfl

/-- The dense derivative of `f` with respect to `wrt`, of the size that the shapes of the arguments say, has only zeros. -/
def ZeroDeriv (S : Sym2Num X) (m : SymModel X) (f : SymFn X) (wrt : List String) : Prop :=
  ∃ shapes : List (List Nat), List.Forall₂ (fun w sh => Dict.get? m.shapes w = some sh) wrt shapes ∧
    Vanishes S.isZero (shapes.map List.prod ++ [f.outShape.prod]) (wrt.length = 2 ∧ wrt.getD 0 "" = wrt.getD 1 "" ∧ true = true)
      (S.deriv f wrt).out

theorem found_zero {S : Sym2Num X} {m : SymModel X} {f : SymFn X} {wrt : List String} (hd : DenseOK S m f wrt)
    (h : (found S m f wrt).length = 0) : ZeroDeriv S m f wrt := by
  obtain ⟨shape, hs, hl⟩ := hd
  have hfa : List.Forall₂ (fun w sh => Dict.get? m.shapes w = some sh) wrt (wrt.map shape) := by
    rw [List.forall₂_map_right_iff, List.forall₂_same]
    exact hs
  refine ⟨wrt.map shape, hfa, ?_⟩
  have hfo : SymModel.nonzeros S.isZero wrt ((wrt.map shape).map List.prod ++ [f.outShape.prod]) (S.deriv f wrt).out true = found S m f wrt := by
    unfold found
    congr 2
    rw [List.map_map]
    refine List.map_congr_left fun w hw => ?_
    simp [hs w hw]
  have hL := nonzeros_lists S.isZero wrt ((wrt.map shape).map List.prod ++ [f.outShape.prod]) (S.deriv f wrt).out true (by simp)
  intro idx hi ht v hv
  by_contra hz
  obtain ⟨c, hc, -⟩ := hL.complete idx hi ht v hv (by simpa using hz)
  rw [hfo, h] at hc
  exact absurd hc (Nat.not_lt_zero _)

theorem hess_pairsOnce (S : Sym2Num X) (m : SymModel X) (f : SymFn X) (fname : String) {order : List String} (hn : order.Nodup)
    (hd : DerivsOK S m f order) :
    PairsOnce order (fun a b => ZeroDeriv S m f [a, b]) (kept S m f (hessItems fname order)) := by
  have hkey : ∀ a b, [a, b] ∈ Dict.keys (kept S m f (hessItems fname order)) → (a, b) ∈ pairs order := by
    intro a b h
    obtain ⟨it, hit, he⟩ := List.mem_map.1 h
    obtain ⟨p, hp, rfl⟩ := List.mem_map.1 (List.mem_filter.1 hit).1
    simp at he
    obtain ⟨rfl, rfl⟩ := he
    exact hp
  have hin : ∀ a b, (a, b) ∈ pairs order → [a, b] ∈ Dict.keys (kept S m f (hessItems fname order)) ∨ ZeroDeriv S m f [a, b] := by
    intro a b h
    have hit : ([a, b], secondName fname a b) ∈ hessItems fname order := List.mem_map.2 ⟨(a, b), h, rfl⟩
    by_cases hz : (found S m f [a, b]).length = 0
    · exact Or.inr (found_zero (hd.second fname _ hit) hz)
    · exact Or.inl (List.mem_map.2 ⟨_, List.mem_filter.2 ⟨hit, by simpa using hz⟩, rfl⟩)
  refine ⟨?_, ?_, fun a b h1 h2 => pairs_antisymm hn (hkey _ _ h1) (hkey _ _ h2), fun a ha b hb => ?_⟩
  · exact ((List.filter_sublist).map _).nodup (hessItems_nodup fname hn)
  · intro k hk
    obtain ⟨it, hit, rfl⟩ := List.mem_map.1 hk
    obtain ⟨p, hp, rfl⟩ := List.mem_map.1 (List.mem_filter.1 hit).1
    exact ⟨p.1, (pairs_mem hp).1, p.2, (pairs_mem hp).2, rfl⟩
  · rcases pairs_exists ha hb with h | h
    · rcases hin _ _ h with h | h
      · exact Or.inl h
      · exact Or.inr (Or.inr (Or.inl h))
    · rcases hin _ _ h with h | h
      · exact Or.inr (Or.inl h)
      · exact Or.inr (Or.inr (Or.inr h))

/-- `add_objective`: one first derivative per decision argument, each unordered pair at most once, and only pairs without
non-zero second derivative are left out. -/
theorem C31_objective (S : Sym2Num X) (m : SymModel X) (fname : String) (f : SymFn X) (order : List String)
    (hf : Dict.get? m.funcs fname = some f) (ho : m.IsWrt f order) (hd : DerivsOK S m f order) :
    ∃ m' desc, m.addObjective S fname order = .ok m' ∧ Dict.get? m'.objectives fname = some desc ∧
      (Dict.keys desc.grad).Nodup ∧ (∀ a, a ∈ Dict.keys desc.grad ↔ a ∈ f.args ∧ a ∈ m.decision) ∧
      PairsOnce order (fun a b => ZeroDeriv S m f [a, b]) desc.hess := by
  obtain ⟨m', e, -, -, hobj, -⟩ := addObjective_ok S m fname f order hf ho.1 hd
  have hk : Dict.keys (order.map fun a => (a, firstDerivName fname a)) = order := by
    simp [Dict.keys, List.map_map, Function.comp_def]
  refine ⟨m', _, e, by rw [hobj, Dict.get?_set, if_pos rfl], ?_, ?_, hess_pairsOnce S m f fname ho.1 hd⟩
  · simp only [hk]; exact ho.1
  · simp only [hk]; exact ho.2

/-- `add_constraint`: likewise, and a first derivative is left out if it has no non-zero entry. -/
theorem C31_constraint (S : Sym2Num X) (m : SymModel X) (fname : String) (f : SymFn X) (order : List String)
    (hf : Dict.get? m.funcs fname = some f) (ho : m.IsWrt f order) (hd : DerivsOK S m f order) :
    ∃ m' desc, m.addConstraint S fname order = .ok m' ∧ Dict.get? m'.constraints fname = some desc ∧ desc.shape = f.outShape ∧
      (Dict.keys desc.jac).Nodup ∧ (∀ k ∈ Dict.keys desc.jac, ∃ a ∈ f.args, a ∈ m.decision ∧ k = [a]) ∧
      (∀ a ∈ f.args, a ∈ m.decision → [a] ∈ Dict.keys desc.jac ∨ ZeroDeriv S m f [a]) ∧
      PairsOnce order (fun a b => ZeroDeriv S m f [a, b]) desc.hess := by
  obtain ⟨m', e, -, -, hcon, -⟩ := addConstraint_ok S m fname f order hf ho.1 hd
  refine ⟨m', _, e, by rw [hcon, Dict.get?_set, if_pos rfl], rfl, ?_, ?_, ?_, hess_pairsOnce S m f fname ho.1 hd⟩
  · exact ((List.filter_sublist).map _).nodup (jacItems_nodup fname ho.1)
  · intro k hk
    obtain ⟨it, hit, rfl⟩ := List.mem_map.1 hk
    obtain ⟨a, ha, rfl⟩ := List.mem_map.1 (List.mem_filter.1 hit).1
    exact ⟨a, ((ho.2 a).1 ha).1, ((ho.2 a).1 ha).2, rfl⟩
  · intro a h1 h2
    have hit : ([a], firstDerivName fname a) ∈ jacItems fname order := List.mem_map.2 ⟨a, (ho.2 a).2 ⟨h1, h2⟩, rfl⟩
    by_cases hz : (found S m f [a]).length = 0
    · exact Or.inr (found_zero (hd.first fname _ hit) hz)
    · exact Or.inl (List.mem_map.2 ⟨_, List.mem_filter.2 ⟨hit, by simpa using hz⟩, rfl⟩)

/-! ### C33 -/

/-- A derivative that is created for a function. -/
inductive DerivId where
  | first (f x : String)
  | second (f a b : String)
  deriving DecidableEq

/-- Its name (symoptim.py:163-175). -/
def DerivId.name : DerivId → String
  | .first f x => firstDerivName f x
  | .second f a b => secondName f a b

/-- The attributes that belong to a derivative: the dense function, the value function, the indices, the number of entries. -/
def attrSuffixes : List String := ["", "_val", "_ind", "_nnz"]

/-- Names that the naming scheme can tell apart: without the separator `_d`, functions not starting with the digit `2`, and
arguments not ending like an attribute. -/
def DerivId.Plain : DerivId → Prop
  | .first f x => PlainFn f ∧ PlainVar x
  | .second f a b => PlainFn f ∧ PlainVar a ∧ PlainVar b
where
  /-- See `Plain`. -/
  PlainFn (f : String) : Prop := SepFree f.toList ∧ f.toList.head? ≠ some '2'
  /-- See `Plain`. -/
  PlainVar (x : String) : Prop := SepFree x.toList ∧ ∀ s ∈ attrSuffixes, s ≠ "" → ¬ s.toList <:+ x.toList

/-- `second_derivative_name` and `utils.double_deriv_name` give the same names, and raise for anything but a pair. -/
theorem C33_same_scheme (f : String) (wrt : List String) :
    (∀ a b, wrt = [a, b] → secondDerivName f wrt = .ok (DerivId.second f a b).name ∧ doubleDerivName f wrt = .ok (DerivId.second f a b).name) ∧
    (wrt.length ≠ 2 → secondDerivName f wrt = .error .valueError ∧ doubleDerivName f wrt = .error .assertionError) := by
  refine ⟨?_, ?_⟩
  · rintro a b rfl
    exact ⟨rfl, rfl⟩
  · intro h
    match wrt, h with
    | [], _ => exact ⟨rfl, rfl⟩
    | [_], _ => exact ⟨rfl, rfl⟩
    | [_, _], h => simp at h
    | _ :: _ :: _ :: _, _ => exact ⟨rfl, rfl⟩

theorem DerivId.Plain.name_inj {d d' : DerivId} (h : d.Plain) (h' : d'.Plain) (e : d.name = d'.name) : d = d' := by
  have e := congrArg String.toList e
  have hcons : ∀ {f g : String} {r : List Char}, f.toList.head? ≠ some '2' → f.toList ++ (['_', 'd'] ++ r) ≠ '2' :: g.toList := by
    intro f g r hf h
    cases hl : f.toList with
    | nil => rw [hl] at h; simp at h
    | cons c t => rw [hl] at h; simp at h; rw [hl] at hf; simp [h.1] at hf
  have hsec : ∀ f a b : String, ∃ r : List Char, (secondName f a b).toList = 'd' :: '2' :: (f.toList ++ (['_', 'd'] ++ r)) ∧
      (a = b → r = a.toList ++ ['2']) ∧ (a ≠ b → r = a.toList ++ (['_', 'd'] ++ b.toList)) := by
    intro f a b
    unfold secondName
    by_cases hab : a = b
    · exact ⟨a.toList ++ ['2'], by rw [if_pos hab]; simp [String.toList_append], fun _ => rfl, fun h => absurd hab h⟩
    · exact ⟨a.toList ++ (['_', 'd'] ++ b.toList), by rw [if_neg hab]; simp [String.toList_append], fun h => absurd h hab, fun _ => rfl⟩
  have hfirst : ∀ f x : String, (firstDerivName f x).toList = 'd' :: (f.toList ++ (['_', 'd'] ++ x.toList)) := by
    intro f x
    simp [firstDerivName, String.toList_append]
  have hmix : ∀ f x g a b : String, f.toList.head? ≠ some '2' → (firstDerivName f x).toList ≠ (secondName g a b).toList := by
    intro f x g a b hf h
    obtain ⟨r, hr, -⟩ := hsec g a b
    rw [hfirst, hr] at h
    have := (List.cons.inj h).2
    have hh := congrArg List.head? this
    cases hl : f.toList with
    | nil => rw [hl] at hh; simp at hh
    | cons c t => rw [hl] at hh hf; simp at hh hf; exact hf hh
  match d, d', h, h' with
  | .first f x, .first f' x', h, h' =>
    simp only [name, hfirst] at e
    obtain ⟨h1, h2⟩ := sep_split h.1.1 h'.1.1 (List.cons.inj e).2
    rw [String.toList_inj.1 h1, String.toList_inj.1 h2]
  | .first f x, .second g a b, h, h' => exact absurd e (hmix f x g a b h.1.2)
  | .second g a b, .first f x, h, h' => exact absurd e.symm (hmix f x g a b h'.1.2)
  | .second f a b, .second f' a' b', h, h' =>
    simp only [name] at e
    obtain ⟨r, hr, r1, r2⟩ := hsec f a b
    obtain ⟨r', hr', r1', r2'⟩ := hsec f' a' b'
    rw [hr, hr'] at e
    obtain ⟨h1, h2⟩ := sep_split h.1.1 h'.1.1 (List.cons.inj (List.cons.inj e).2).2
    have hf := String.toList_inj.1 h1
    subst hf h2
    have hdiag : ∀ {l l' m' : List Char}, SepFree l → l ++ ['2'] ≠ l' ++ (['_', 'd'] ++ m') := by
      intro l l' m' hl he
      exact hl.append_char '2' (by decide) ⟨l', m', by rw [he]; simp⟩
    by_cases hab : a = b
    · by_cases hab' : a' = b'
      · have := (r1 hab).symm.trans (r1' hab')
        have := String.toList_inj.1 (List.append_cancel_right this)
        subst this hab hab'
        rfl
      · exact absurd ((r1 hab).symm.trans (r2' hab')) (hdiag h.2.1.1)
    · by_cases hab' : a' = b'
      · exact absurd ((r1' hab').symm.trans (r2 hab)) (hdiag h'.2.1.1)
      · obtain ⟨h3, h4⟩ := sep_split h.2.1.1 h'.2.1.1 ((r2 hab).symm.trans (r2' hab'))
        rw [String.toList_inj.1 h3, String.toList_inj.1 h4]

/-- No plain name ends like an attribute. -/
theorem DerivId.Plain.no_suffix {d : DerivId} (h : d.Plain) {s : String} (hs : s ∈ attrSuffixes) (hne : s ≠ "") :
    ¬ s.toList <:+ d.name.toList := by
  -- a name ends in `_d` and an argument, or in an argument and `2`
  have hvar : ∀ (P : List Char) (x : String), PlainVar x → ¬ s.toList <:+ P ++ (['_', 'd'] ++ x.toList) := by
    intro P x hx hsuf
    have hx2 : x.toList <:+ P ++ (['_', 'd'] ++ x.toList) := ⟨P ++ ['_', 'd'], by simp⟩
    rcases List.suffix_or_suffix_of_suffix hsuf hx2 with h1 | ⟨t, ht⟩
    · exact hx.2 s hs hne h1
    · obtain ⟨q, hq⟩ := hsuf
      rw [← ht, ← List.append_assoc, ← List.append_assoc] at hq
      have hq := List.append_cancel_right hq
      have hxs : t ≠ [] := by
        rintro rfl
        exact hx.2 s hs hne (by rw [← ht]; exact List.suffix_refl _)
      simp only [attrSuffixes, List.mem_cons, List.not_mem_nil, or_false] at hs
      have hm : t ∈ List.inits s.toList := (List.mem_inits _ _).2 ⟨x.toList, ht⟩
      rcases hs with rfl | rfl | rfl | rfl
      · exact hne rfl
      all_goals
        have hl := congrArg List.reverse hq
        simp only [List.reverse_append, List.reverse_cons, List.reverse_nil, List.nil_append, List.cons_append] at hl
        simp [List.inits] at hm
        rcases hm with rfl | rfl | rfl | rfl | rfl <;> simp_all
  have hdig : ∀ (P : List Char), ¬ s.toList <:+ P ++ ['2'] := by
    rintro P ⟨q, hq⟩
    have := congrArg List.getLast? hq
    simp only [attrSuffixes, List.mem_cons, List.not_mem_nil, or_false] at hs
    rcases hs with rfl | rfl | rfl | rfl
    · exact hne rfl
    all_goals simp at this
  match d, h with
  | .first f x, h =>
    have := hvar ('d' :: f.toList) x h.2
    simpa [name, firstDerivName, String.toList_append] using this
  | .second f a b, h =>
    simp only [name, secondName]
    split
    · have := hdig ('d' :: '2' :: (f.toList ++ ['_', 'd'] ++ a.toList))
      simpa [String.toList_append] using this
    · have := hvar ('d' :: '2' :: (f.toList ++ ['_', 'd'] ++ a.toList)) b h.2.2
      simpa [String.toList_append] using this

/-- **C33** (partial: `C33_collisions` shows that the unrestricted claim, injectivity of `(d, s) ↦ d.name ++ s` for all `d` and
all `s ∈ attrSuffixes`, is false).  For plain names, the attributes of distinct derivatives have distinct names, and none is
the name of a function. -/
theorem C33_partial (d d' : DerivId) (h : d.Plain) (h' : d'.Plain) (s s' : String) (hs : s ∈ attrSuffixes) (hs' : s' ∈ attrSuffixes) :
    (d.name ++ s = d'.name ++ s' → d = d' ∧ s = s') ∧ ∀ f : String, SepFree f.toList → d.name ++ s ≠ f := by
  constructor
  · intro e
    by_cases hss : s = s'
    · subst hss
      have := congrArg String.toList e
      rw [String.toList_append, String.toList_append] at this
      exact ⟨h.name_inj h' (String.toList_inj.1 (List.append_cancel_right this)), rfl⟩
    · exfalso
      have e := congrArg String.toList e
      rw [String.toList_append, String.toList_append] at e
      by_cases h0 : s = ""
      · subst h0
        refine h.no_suffix hs' (Ne.symm hss) ⟨d'.name.toList, ?_⟩
        rw [← e]; simp
      · by_cases h0' : s' = ""
        · subst h0'
          refine h'.no_suffix hs h0 ⟨d.name.toList, ?_⟩
          rw [e]; simp
        · have hlen : s.toList.length = s'.toList.length := by
            simp only [attrSuffixes, List.mem_cons, List.not_mem_nil, or_false] at hs hs'
            rcases hs with rfl | rfl | rfl | rfl <;> rcases hs' with rfl | rfl | rfl | rfl <;> first | rfl | exact absurd rfl h0 | exact absurd rfl h0'
          exact hss (String.toList_inj.1 (List.append_inj' e hlen).2)
  · rintro f hf rfl
    refine hf ?_
    match d with
    | .first f x => exact ⟨'d' :: f.toList, x.toList ++ s.toList, by simp [DerivId.name, firstDerivName, String.toList_append]⟩
    | .second f a b =>
      simp only [DerivId.name, secondName]
      split
      · exact ⟨'d' :: '2' :: f.toList, a.toList ++ '2' :: s.toList, by simp [String.toList_append]⟩
      · exact ⟨'d' :: '2' :: f.toList, a.toList ++ '_' :: 'd' :: (b.toList ++ s.toList), by simp [String.toList_append]⟩

/-- **C33**, collisions: without the restriction distinct derivatives do get the same name. -/
theorem C33_collisions :
    (DerivId.first "a" "b_dc").name = (DerivId.first "a_db" "c").name ∧
    (DerivId.second "f" "a_db" "a_db").name = (DerivId.second "f" "a" "b2").name ∧
    (DerivId.second "f" "x" "y").name ++ "_val" = (DerivId.second "f" "x" "y_val").name := by
  decide

example : DerivId.Plain (.second "penalty" "wc" "xp") := by
  unfold DerivId.Plain DerivId.Plain.PlainFn DerivId.Plain.PlainVar SepFree
  decide

/-! ### A concrete model -/

/-- Derivatives of `c(x, u, t) = x₀ + 3 x₀ x₁ + x₁ u` at a point, as numbers; the dependence on `t` is not differentiated. -/
private def exSym : Sym2Num Int where
  isZero v := v == 0
  deriv f wrt := ⟨f.args, [], match wrt with
    | ["x"] => [7, 5] | ["u"] => [0] | ["x", "x"] => [0, 3, 3, 0] | ["x", "u"] => [0, 1] | ["u", "x"] => [0, 1] | _ => [0]⟩

private def exSymModel : SymModel Int :=
  ⟨[("x", [2]), ("u", []), ("t", [])], ["x", "u"], [("c", ⟨["x", "u", "t"], [], [4]⟩)], [], [], [], [], []⟩

/-- The hypotheses of the C31 theorems hold for it, … -/
private theorem exSym_ok : exSymModel.IsWrt ⟨["x", "u", "t"], [], [4]⟩ ["u", "x"] ∧ DerivsOK exSym exSymModel ⟨["x", "u", "t"], [], [4]⟩ ["u", "x"] := by
  refine ⟨⟨by decide, ?_⟩, fun w => if w = "x" then [2] else [], by decide, by decide, by decide⟩
  intro a
  simp [exSymModel]
  constructor
  · rintro (rfl | rfl) <;> simp
  · rintro ⟨-, rfl | rfl⟩ <;> simp

/-- … and the code builds this description and these index arrays. -/
example : (exSymModel.addConstraint exSym "c" ["u", "x"]).map (fun m => (m.constraints, m.sparseNzind)) =
    .ok ([("c", ⟨[], [(["x"], "dc_dx")], [(["u", "x"], "d2c_du_dx"), (["x", "x"], "d2c_dx2")]⟩)],
      [("dc_du", [[], []]), ("dc_dx", [[0, 1], [0, 0]]), ("d2c_du2", [[], [], []]), ("d2c_du_dx", [[0], [1], [0]]),
        ("d2c_dx2", [[0], [1], [0]])]) := by
  decide +kernel

/-- Lists the upper triangle of `[[0, 3], [3, 0]]`. -/
example : Lists (fun v : Int => v == 0) [2, 2, 1] True [0, 3, 3, 0] [[0], [1], [0]] [3] 1 := by
  have h := nonzeros_lists (fun v : Int => v == 0) ["x", "x"] [2, 2, 1] [0, 3, 3, 0] true rfl
  have e : SymModel.nonzeros (fun v : Int => v == 0) ["x", "x"] [2, 2, 1] [0, 3, 3, 0] true = [([0, 1, 0], 3)] := by decide
  rw [e] at h
  have ht : (["x", "x"].length = 2 ∧ ["x", "x"].getD 0 "" = ["x", "x"].getD 1 "" ∧ true = true) = True := by simp
  rw [ht] at h
  exact h

/-- A clash at work: `a(b_dc)` with derivative 1 and `a_db(c)` with derivative 2 are both given the derivative name `da_db_dc`, and after
both have been added the sparse derivative of the first is that of the second. -/
theorem C33_overwrite : ∃ (S : Sym2Num Int) (m : SymModel Int),
    (do let m ← m.addConstraint S "a" ["b_dc"]; let m ← m.addConstraint S "a_db" ["c"]
        return (Dict.get? m.constraints "a", (Dict.get? m.funcs "da_db_dc_val").map SymFn.out)) =
      .ok (some ⟨[], [(["b_dc"], "da_db_dc")], []⟩, some [2]) ∧
    (do let m ← m.addConstraint S "a" ["b_dc"]
        return (Dict.get? m.constraints "a", (Dict.get? m.funcs "da_db_dc_val").map SymFn.out)) =
      .ok (some ⟨[], [(["b_dc"], "da_db_dc")], []⟩, some [1]) :=
  ⟨⟨fun v => v == 0, fun f wrt => ⟨f.args, [], match wrt with | ["b_dc"] => [1] | ["c"] => [2] | _ => [0]⟩⟩,
    ⟨[("b_dc", []), ("c", [])], ["b_dc", "c"], [("a", ⟨["b_dc"], [], [0]⟩), ("a_db", ⟨["c"], [], [0]⟩)], [], [], [], [], []⟩,
    by decide +kernel, by decide +kernel⟩

end Ceacoest
