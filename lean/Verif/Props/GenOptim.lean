import Verif.Lemmas.GenOptim
import Verif.Props.Layout

/-! # C29: index arrays of generated functions vectorised over an extension shape -/

namespace Ceacoest
open Spec
variable {α : Type}

theorem bcIdx_multi {src dst idx : List Nat} (hc : canBroadcast src dst = true) (hi : InBounds dst idx) :
    bcIdx src dst (cOrder dst idx) = cOrder src (bcMulti src idx) := by
  simp only [canBroadcast, Bool.and_eq_true, decide_eq_true_eq] at hc
  have hlen := InBounds.length hi
  unfold bcIdx bcMulti
  rw [bcIdxPadded_multi _ _ _ (by simp [padShape]; omega) hi]
  unfold padShape
  rw [cOrder_zip_pad _ _ _ (by omega), hlen]

/-- Canonical form of the index rows. -/
theorem derivInd_eq (f : GenFun α) (dec : Dict String (List Nat)) (E : List Nat) (wrt : List String)
    (d : SparseDeriv α) (rows : List (List Nat)) (out : List Nat) (ext bs : String → List Nat)
    (hne : wrt ≠ []) (hrows : rows.length = wrt.length) (hind : d.ind = rows ++ [out])
    (hw : ∀ a ∈ wrt, (Dict.get? dec a).getD (bs a) = ext a ++ bs a ∧ Dict.get? f.baseShapes a = some (bs a) ∧
      canBroadcast (ext a) E = true) :
    f.derivInd dec (E ++ f.outShape) wrt d = .ok
      (((wrt.zip rows).map fun wr => (List.range E.prod).flatMap fun e =>
        wr.2.map fun i => i + bcIdx (ext wr.1) E e * (bs wr.1).prod) ++
       [(List.range E.prod).flatMap fun e => out.map fun r => r + e * f.outShape.prod]) := by
  have hz : wrt.zip d.ind = wrt.zip rows := by
    have := List.zip_append (l₁ := wrt) (r₁ := []) (l₂ := rows) (r₂ := [out]) hrows.symm
    simpa [hind] using this
  have hz0 : wrt.zip rows ≠ [] := by
    intro h
    have := congrArg List.length h
    simp [hrows] at this
    exact hne this
  unfold GenFun.derivInd
  rw [hz, mapM_ok (g := fun wr => (List.range E.prod).flatMap fun e =>
        wr.2.map fun i => i + bcIdx (ext wr.1) E e * (bs wr.1).prod)]
  · simp only [py_bind_ok, if_neg hz0]
    rw [extOut_append]
    simp only [py_bind_ok, hind, List.getLast?_concat, py_pure]
    rfl
  · rintro ⟨a, r⟩ h
    obtain ⟨h1, h2, h3⟩ := hw a (List.of_mem_zip h).1
    exact wrtRow_eq f dec E (ext a) (bs a) a r h1 h2 h3

/-- **C29.** For a function with output shape `E ++ outShape` and differentiated arguments of shapes `ext a ++ bs a`, the
index array has one column per extension element and base nonzero, ordered like the values (extension element first); the
column of element `idxE` and nonzero `n` holds the flat index of that element's own copy of the base entry in each argument
(a broadcast axis keeps its single copy) and in the output.  An argument without shape in `dec`, one that is no decision
variable, is taken with its base shape. -/
theorem C29_sparse_ind (f : GenFun α) (dec : Dict String (List Nat)) (E : List Nat) (wrt : List String)
    (d : SparseDeriv α) (rows : List (List Nat)) (out : List Nat) (ext bs : String → List Nat)
    (hne : wrt ≠ []) (hrows : rows.length = wrt.length) (hind : d.ind = rows ++ [out])
    (hnnz : ∀ r ∈ d.ind, r.length = d.nnz)
    (hw : ∀ a ∈ wrt, (Dict.get? dec a).getD (bs a) = ext a ++ bs a ∧ Dict.get? f.baseShapes a = some (bs a) ∧
      canBroadcast (ext a) E = true) :
    ∃ R, f.derivInd dec (E ++ f.outShape) wrt d = .ok R ∧ R.length = wrt.length + 1 ∧
      (∀ row ∈ R, row.length = E.prod * d.nnz) ∧
      (∀ i (hi : i < wrt.length) idxE, InBounds E idxE → ∀ n < d.nnz, ∀ idxB,
        (rows[i]?).bind (·[n]?) = some (cOrder (bs wrt[i]) idxB) →
        (R[i]?).bind (·[cOrder E idxE * d.nnz + n]?) =
          some (cOrder (ext wrt[i] ++ bs wrt[i]) (bcMulti (ext wrt[i]) idxE ++ idxB))) ∧
      (∀ idxE, InBounds E idxE → ∀ n < d.nnz, ∀ idxO, out[n]? = some (cOrder f.outShape idxO) →
        (R[wrt.length]?).bind (·[cOrder E idxE * d.nnz + n]?) = some (cOrder (E ++ f.outShape) (idxE ++ idxO))) := by
  have hrl : ∀ r ∈ rows, r.length = d.nnz := fun r hr => hnnz r (by simp [hind, hr])
  have hol : out.length = d.nnz := hnnz out (by simp [hind])
  refine ⟨_, derivInd_eq f dec E wrt d rows out ext bs hne hrows hind hw, by simp [hrows], ?_, ?_, ?_⟩
  · intro row hrow
    rcases List.mem_append.1 hrow with h | h
    · obtain ⟨⟨a, r⟩, har, rfl⟩ := List.mem_map.1 h
      exact (blocks_getElem? E.prod d.nnz r (hrl r (List.of_mem_zip har).2) _).1
    · simp only [List.mem_singleton] at h
      subst h
      exact (blocks_getElem? E.prod d.nnz out hol _).1
  · intro i hi idxE hE n hn idxB hB
    have hir : i < rows.length := by omega
    rw [List.getElem?_eq_getElem hir, Option.bind_some] at hB
    have hnr : n < rows[i].length := by rw [hrl _ (List.getElem_mem hir)]; exact hn
    rw [List.getElem?_eq_getElem hnr] at hB
    have hB := Option.some.inj hB
    rw [List.getElem?_append_left (by simp [hrows, hi]), List.getElem?_map]
    have hz : i < (wrt.zip rows).length := by simp [hrows, hi]
    rw [List.getElem?_eq_getElem hz]
    simp only [List.getElem_zip, Option.map_some, Option.bind_some]
    obtain ⟨-, -, hc⟩ := hw wrt[i] (List.getElem_mem hi)
    rw [(blocks_getElem? E.prod d.nnz rows[i] (hrl _ (List.getElem_mem hir)) _).2 _ (cOrder_lt hE) n hnr, hB,
      bcIdx_multi hc hE, cOrder_append, Nat.add_comm]
    have hlen := InBounds.length hE
    simp only [canBroadcast, Bool.and_eq_true, decide_eq_true_eq] at hc
    simp [bcMulti]
    omega
  · intro idxE hE n hn idxO hO
    have hno : n < out.length := by omega
    rw [List.getElem?_eq_getElem hno] at hO
    have hO := Option.some.inj hO
    rw [List.getElem?_append_right (by simp [hrows])]
    simp only [List.length_map, List.length_zip, hrows, Nat.min_self, Nat.sub_self, List.getElem?_cons_zero,
      Option.bind_some]
    rw [(blocks_getElem? E.prod d.nnz out hol _).2 _ (cOrder_lt hE) n hno, hO, cOrder_append _ _ _ _ (InBounds.length hE),
      Nat.add_comm]

/-- **C29** (count). The number of nonzeros announced is the number of columns: base nonzeros times extension size. -/
theorem C29_nnz (f : GenFun α) (E : List Nat) (deriv : Dict (List String) (SparseDeriv α)) :
    f.sparseNnz deriv (E ++ f.outShape) = .ok ((deriv.map fun wd => E.prod * wd.2.nnz).sum) := by
  unfold GenFun.sparseNnz
  rw [extOut_append]
  simp only [py_bind_ok, py_pure]
  congr 1
  have : ∀ (l : Dict (List String) (SparseDeriv α)) (a : Nat), l.foldl (fun nnz d => nnz + d.2.nnz * E.prod) a =
      a + (l.map fun wd => E.prod * wd.2.nnz).sum := by
    intro l
    induction l with
    | nil => simp
    | cons x l ih => intro a; rw [List.foldl_cons, ih, List.map_cons, List.sum_cons, Nat.mul_comm]; omega
  rw [this, Nat.zero_add]

/-- A function of `x` (base shape 2, extension (3, 1)) and `p` (base shape (), no extension) with output extension (3, 2):
the columns of each extension element point to its own copy of `x` and to the one `p`. -/
example : let f : GenFun Int := ⟨"f", ["x", "p"], [], [("x", [2]), ("p", [])], fun a => a.headD ⟨[], []⟩, [], [], []⟩
    f.derivInd [("x", [3, 1, 2]), ("p", [])] [3, 2] ["x", "p"] ⟨2, [[0, 1], [0, 0], [0, 0]], fun a => a.headD ⟨[], []⟩⟩ =
      .ok [[0, 1, 0, 1, 2, 3, 2, 3, 4, 5, 4, 5], [0, 0, 0, 0, 0, 0, 0, 0, 0, 0, 0, 0],
        [0, 0, 1, 1, 2, 2, 3, 3, 4, 4, 5, 5]] := by decide

/-- The same with `p` not a decision variable. -/
example : let f : GenFun Int := ⟨"f", ["x", "p"], [], [("x", [2]), ("p", [])], fun a => a.headD ⟨[], []⟩, [], [], []⟩
    f.derivInd [("x", [3, 1, 2])] [3, 2] ["x", "p"] ⟨2, [[0, 1], [0, 0], [0, 0]], fun a => a.headD ⟨[], []⟩⟩ =
      .ok [[0, 1, 0, 1, 2, 3, 2, 3, 4, 5, 4, 5], [0, 0, 0, 0, 0, 0, 0, 0, 0, 0, 0, 0],
        [0, 0, 1, 1, 2, 2, 3, 3, 4, 4, 5, 5]] := by decide

end Ceacoest
