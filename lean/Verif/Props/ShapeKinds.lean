import Verif.Model.ShapeKinds
import Verif.Lemmas.KalmanLoops
import Verif.Lemmas.Dict

/-! # C122: shapes given as lists -/

namespace Ceacoest
variable {α : Type}

theorem mapM_cases {A B : Type} {f g : A → Py B} {P : A → Prop} {e : PyErr} {l : List A} {r : List B} (h : l.mapM g = .ok r)
    (hf : ∀ a ∈ l, ∀ b, g a = .ok b → (P a → f a = .ok b) ∧ (¬ P a → f a = .error e)) :
    ((∀ a ∈ l, P a) → l.mapM f = .ok r) ∧ ((∃ a ∈ l, ¬ P a) → l.mapM f = .error e) := by
  induction l generalizing r with
  | nil =>
    cases h
    exact ⟨fun _ => rfl, by simp⟩
  | cons a l ih =>
    rw [List.mapM_cons] at h
    obtain ⟨b, hb, h⟩ := py_bind_eq_ok h
    obtain ⟨r', hr', h⟩ := py_bind_eq_ok h
    cases h
    obtain ⟨i1, i2⟩ := ih hr' fun x hx => hf x (by simp [hx])
    obtain ⟨f1, f2⟩ := hf a (by simp) b hb
    refine ⟨fun hP => ?_, fun hP => ?_⟩
    · rw [List.mapM_cons, f1 (hP a (by simp)), py_bind_ok, i1 fun x hx => hP x (by simp [hx])]
      rfl
    · rw [List.mapM_cons]
      by_cases ha : P a
      · rw [f1 ha, py_bind_ok, i2]
        · rfl
        · obtain ⟨x, hx, hx'⟩ := hP
          rcases List.mem_cons.1 hx with rfl | hx
          · exact absurd ha hx'
          · exact ⟨x, hx, hx'⟩
      · rw [f2 ha]
        rfl

/-- The shapes as numbers. -/
def dimsOf (s : Dict String PyShape) : Dict String (List Nat) := s.map fun kv => (kv.1, kv.2.dims)

theorem get?_dimsOf (s : Dict String PyShape) (k : String) : Dict.get? (dimsOf s) k = (Dict.get? s k).map PyShape.dims := by
  induction s with
  | nil => rfl
  | cons a s ih =>
    obtain ⟨n, v⟩ := a
    rw [dimsOf, List.map_cons, Dict.get?_cons, Dict.get?_cons]
    split
    · rfl
    · exact ih

theorem shapeExtK_tuple (l base : List Nat) : shapeExtK (some (.tuple l)) base = (do return .tuple (← shapeExt (some l) base)) := by
  unfold shapeExtK shapeExt pyAssert
  dsimp only
  split
  · rfl
  · split <;> rfl

/-- What a variable whose shape fits has as extension. -/
theorem extVarK_of {f : GenFun α} {s : Dict String PyShape} {n : String} {e : List Nat} (h : f.extVar (Dict.get? (dimsOf s) n) n = .ok e) :
    ((∀ l, Dict.get? s n ≠ some (.list l)) → f.extVarK (Dict.get? s n) n = .ok (.tuple e)) ∧
    (∀ l, Dict.get? s n = some (.list l) → f.extVarK (Dict.get? s n) n = .error .assertionError ∨ f.extVarK (Dict.get? s n) n = .ok (.list l)) := by
  rw [get?_dimsOf] at h
  unfold GenFun.extVar at h
  unfold GenFun.extVarK
  refine ⟨fun hl => ?_, fun l hl => ?_⟩
  · cases hs : Dict.get? s n with
    | none =>
      rw [hs] at h
      cases h
      rfl
    | some sh =>
      cases sh with
      | list l => exact absurd hs (hl l)
      | tuple l =>
        rw [hs] at h
        dsimp only [Option.map_some, PyShape.dims] at h ⊢
        obtain ⟨b, hb, h⟩ := py_bind_eq_ok h
        rw [hb, py_bind_ok, shapeExtK_tuple, h]
        rfl
  · rw [hl] at h ⊢
    dsimp only [Option.map_some, PyShape.dims] at h ⊢
    obtain ⟨b, hb, h⟩ := py_bind_eq_ok h
    rw [hb, py_bind_ok]
    unfold shapeExtK
    dsimp only
    split
    · exact Or.inr rfl
    · exact Or.inl rfl

theorem ndimRangeK_tuple (l : List Nat) : ndimRangeK (.tuple l) = .ok (ndimRange l) := rfl
theorem ndimRangeK_list (l : List Nat) : ndimRangeK (.list l) = .error .assertionError := rfl

/-- **C122** (counts). The number of non-zeros is that for the tuple; for a list it raises AssertionError unless the output of the function is scalar. -/
theorem C122_nnz (f : GenFun α) (deriv : Dict (List String) (SparseDeriv α)) (l : List Nat) (n : Nat) :
    f.sparseNnzK deriv (ShapeGiven.tuple l).stored = f.sparseNnz deriv l ∧ f.sparseNnzK deriv (ShapeGiven.int n).stored = f.sparseNnz deriv [n] ∧
    (f.outShape = [] → f.sparseNnzK deriv (ShapeGiven.list l).stored = f.sparseNnz deriv l) ∧
    (f.outShape ≠ [] → f.sparseNnzK deriv (ShapeGiven.list l).stored = .error .assertionError) := by
  have key : ∀ l, f.sparseNnzK deriv (.tuple l) = f.sparseNnz deriv l := fun l => by
    unfold GenFun.sparseNnzK GenFun.sparseNnz GenFun.extOut
    rw [shapeExtK_tuple]
    cases shapeExt (some l) f.outShape <;> rfl
  refine ⟨key l, key [n], fun h => ?_, fun h => ?_⟩
  · unfold GenFun.sparseNnzK GenFun.sparseNnz GenFun.extOut shapeExtK shapeExt
    rw [h]
    rfl
  · unfold GenFun.sparseNnzK shapeExtK ShapeGiven.stored
    dsimp only
    rw [if_neg h]
    rfl

/-- What is asked of shapes for the indices of a derivative. -/
def TuplesFor (s : Dict String PyShape) (out : PyShape) (wd : List String × SparseDeriv α) : Prop :=
  out.isTuple = true ∧ ∀ wi ∈ wd.1.zip wd.2.ind, ∀ l, Dict.get? s wi.1 ≠ some (.list l)

theorem derivIndK_of {f : GenFun α} {s : Dict String PyShape} {out : PyShape} {wrt : List String} {d : SparseDeriv α} {r : List (List Nat)}
    (h : f.derivInd (dimsOf s) out.dims wrt d = .ok r) :
    (TuplesFor s out (wrt, d) → f.derivIndK s out wrt d = .ok r) ∧ (¬ TuplesFor s out (wrt, d) → f.derivIndK s out wrt d = .error .assertionError) := by
  unfold GenFun.derivInd at h
  obtain ⟨rows, h1, h⟩ := py_bind_eq_ok h
  have hz : wrt.zip d.ind ≠ [] := by
    intro hz
    rw [if_pos hz] at h
    cases h
  rw [if_neg hz] at h
  obtain ⟨oe, h2, h⟩ := py_bind_eq_ok h
  obtain ⟨oi, h3⟩ : ∃ oi, d.ind.getLast? = some oi := by
    cases h3 : d.ind.getLast? with
    | some oi => exact ⟨oi, rfl⟩
    | none =>
      rw [h3] at h
      cases h
  rw [h3] at h
  cases h
  unfold GenFun.extOut at h2
  -- the extension of the output
  have hout : (out.isTuple = true → shapeExtK (some out) f.outShape = .ok (.tuple oe)) ∧
      (out.isTuple = false → shapeExtK (some out) f.outShape = .error .assertionError ∨ shapeExtK (some out) f.outShape = .ok (.list oe)) := by
    cases out with
    | tuple l =>
      refine ⟨fun _ => ?_, fun h => by cases h⟩
      rw [shapeExtK_tuple, show shapeExt (some l) f.outShape = .ok oe from h2]
      rfl
    | list l =>
      refine ⟨fun h => (by cases h), fun _ => ?_⟩
      unfold shapeExtK
      dsimp only
      by_cases hb : f.outShape = []
      · rw [if_pos hb]
        unfold shapeExt at h2
        dsimp only at h2
        rw [if_pos hb] at h2
        cases h2
        exact Or.inr rfl
      · rw [if_neg hb]
        exact Or.inl rfl
  -- one row
  have row : ∀ wi ∈ wrt.zip d.ind, ∀ b, f.wrtRow (dimsOf s) out.dims wi.1 wi.2 = .ok b →
      ((∀ l, Dict.get? s wi.1 ≠ some (.list l)) ∧ shapeExtK (some out) f.outShape ≠ .error .assertionError → f.wrtRowK s out wi.1 wi.2 = .ok b) ∧
      (¬ ((∀ l, Dict.get? s wi.1 ≠ some (.list l)) ∧ shapeExtK (some out) f.outShape ≠ .error .assertionError) → f.wrtRowK s out wi.1 wi.2 = .error .assertionError) := by
    intro wi hwi b hb
    unfold GenFun.wrtRow at hb
    obtain ⟨e, g1, hb⟩ := py_bind_eq_ok hb
    obtain ⟨bs, g2, hb⟩ := py_bind_eq_ok hb
    obtain ⟨oe', g3, hb⟩ := py_bind_eq_ok hb
    obtain rfl : oe' = oe := Except.ok.inj (g3.symm.trans h2)
    obtain ⟨offs, g4, hb⟩ := py_bind_eq_ok hb
    cases hb
    obtain ⟨v1, v2⟩ := extVarK_of g1
    have ho : shapeExtK (some out) f.outShape = .error .assertionError ∨ ∃ sh : PyShape, shapeExtK (some out) f.outShape = .ok sh ∧ sh.dims = oe' := by
      cases ht : out.isTuple with
      | true => exact Or.inr ⟨_, hout.1 ht, rfl⟩
      | false => exact (hout.2 ht).imp id fun h => ⟨_, h, rfl⟩
    unfold GenFun.wrtRowK
    refine ⟨fun ⟨hl, hne⟩ => ?_, fun hn => ?_⟩
    · rcases ho with ho | ⟨sh, ho, rfl⟩
      · exact absurd ho hne
      · rw [v1 hl, py_bind_ok, g2, py_bind_ok, ho, py_bind_ok, ndimRangeK_tuple, py_bind_ok, g4]
        rfl
    · by_cases hl : ∀ l, Dict.get? s wi.1 ≠ some (.list l)
      · have ho' : shapeExtK (some out) f.outShape = .error .assertionError := by
          by_contra hc
          exact hn ⟨hl, hc⟩
        rw [v1 hl, py_bind_ok, g2, py_bind_ok, ho']
        rfl
      · simp only [ne_eq, not_forall, not_not] at hl
        obtain ⟨l, hl⟩ := hl
        rcases v2 l hl with v | v
        · rw [v]
          rfl
        · rw [v, py_bind_ok, g2, py_bind_ok]
          rcases ho with ho | ⟨sh, ho, -⟩
          · rw [ho]
            rfl
          · rw [ho, py_bind_ok, ndimRangeK_list]
            rfl
  obtain ⟨m1, m2⟩ := mapM_cases (f := fun wi : String × List Nat => f.wrtRowK s out wi.1 wi.2) h1 row
  unfold GenFun.derivIndK
  refine ⟨fun ⟨ht, hv⟩ => ?_, fun hn => ?_⟩
  · rw [m1 fun wi hwi => ⟨hv wi hwi, by rw [hout.1 ht]; exact fun h => by cases h⟩, py_bind_ok, if_neg hz, hout.1 ht, py_bind_ok, h3]
    rfl
  · by_cases hall : ∀ wi ∈ wrt.zip d.ind, (∀ l, Dict.get? s wi.1 ≠ some (.list l)) ∧ shapeExtK (some out) f.outShape ≠ .error .assertionError
    · have ht : out.isTuple = false := by
        by_contra ht
        exact hn ⟨by simpa using ht, fun wi hwi => (hall wi hwi).1⟩
      obtain ⟨wi, hwi⟩ := List.exists_mem_of_ne_nil _ hz
      rcases hout.2 ht with ho | ho
      · exact absurd ho (hall wi hwi).2
      · rw [m1 hall, py_bind_ok, if_neg hz, ho, py_bind_ok, h3]
        rfl
    · rw [m2 (by simpa only [not_forall, exists_prop] using hall)]
      rfl

/-- **C122** (indices). Where the indices of derivatives exist for shapes that are tuples, they are the same if the shapes involved, those of the output and of the differentiated variables, are given as
tuples, and raise AssertionError if one of them is given as a list. -/
theorem C122_ind {f : GenFun α} {deriv : Dict (List String) (SparseDeriv α)} {s : Dict String PyShape} {out : PyShape} {r : Dict (List String) (List (List Nat))}
    (h : f.sparseInd deriv (dimsOf s) out.dims = .ok r) :
    ((∀ wd ∈ deriv, TuplesFor s out wd) → f.sparseIndK deriv s out = .ok r) ∧ ((∃ wd ∈ deriv, ¬ TuplesFor s out wd) → f.sparseIndK deriv s out = .error .assertionError) := by
  refine mapM_cases h fun wd _ b hb => ?_
  obtain ⟨c, hc, hb⟩ := py_bind_eq_ok hb
  cases hb
  obtain ⟨d1, d2⟩ := derivIndK_of hc
  exact ⟨fun hP => by rw [d1 hP]; rfl, fun hP => by rw [d2 hP]; rfl⟩

/-! ### Examples -/

private def exF : GenFun Int := ⟨"e", ["x"], [2], [("x", [2])], fun _ => ⟨[2], [0, 0]⟩, [], [(["x"], ⟨2, [[0, 1], [0, 1]], fun _ => ⟨[2], [1, 1]⟩⟩)], []⟩

/-- The shape `(3, 2)` of output and variable, and the same as lists. -/
example : exF.sparseNnzK exF.jac (ShapeGiven.tuple [3, 2]).stored = .ok 6 ∧ exF.sparseNnzK exF.jac (ShapeGiven.list [3, 2]).stored = .error .assertionError ∧
    exF.sparseIndK exF.jac [("x", .tuple [3, 2])] (.tuple [3, 2]) = .ok [(["x"], [[0, 1, 2, 3, 4, 5], [0, 1, 2, 3, 4, 5]])] ∧
    exF.sparseIndK exF.jac [("x", .list [3, 2])] (.tuple [3, 2]) = .error .assertionError := by
  refine ⟨rfl, (C122_nnz exF exF.jac [3, 2] 0).2.2.2 (by decide), ?_, ?_⟩
  · refine (C122_ind (s := [("x", .tuple [3, 2])]) (out := .tuple [3, 2]) rfl).1 fun wd hwd => ⟨rfl, fun wi hwi l => ?_⟩
    obtain rfl := List.mem_singleton.1 hwd
    obtain rfl := List.mem_singleton.1 hwi
    exact fun h => by cases h
  · exact (C122_ind (s := [("x", .list [3, 2])]) (out := .tuple [3, 2]) rfl).2 ⟨_, List.mem_singleton.2 rfl, fun h => h.2 ("x", [0, 1]) (List.mem_singleton.2 rfl) [3, 2] rfl⟩

end Ceacoest
