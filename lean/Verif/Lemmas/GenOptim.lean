import Verif.Lemmas.Layout
import Verif.Lemmas.Dict
import Verif.Lemmas.Piece
import Mathlib.Tactic.Ring
import Verif.Spec.Contract

/-! Helper lemmas: extension shapes and index rows of generated functions. -/

namespace Ceacoest
open Spec
variable {α : Type}

theorem shapeExt_append (E b : List Nat) : shapeExt (some (E ++ b)) b = .ok E := by
  unfold shapeExt
  by_cases hb : b = []
  · simp [hb]
  · simp only [if_neg hb]
    have h : (E ++ b).length - b.length = E.length := by simp
    rw [h, List.drop_left, List.take_left, pyAssert_true rfl]
    rfl

theorem extOut_append (f : GenFun α) (E : List Nat) : f.extOut (E ++ f.outShape) = .ok E := shapeExt_append _ _

theorem wrtRow_eq (f : GenFun α) (dec : Dict String (List Nat)) (E ext bs : List Nat) (a : String) (ind : List Nat)
    (hd : (Dict.get? dec a).getD bs = ext ++ bs) (hb : Dict.get? f.baseShapes a = some bs)
    (hc : canBroadcast ext E = true) :
    f.wrtRow dec (E ++ f.outShape) a ind =
      .ok ((List.range E.prod).flatMap fun e => ind.map fun i => i + bcIdx ext E e * bs.prod) := by
  have h1 : f.extVar (Dict.get? dec a) a = .ok ext := by
    cases hg : Dict.get? dec a with
    | none =>
      rw [hg, Option.getD_none, eq_comm, List.append_left_eq_self] at hd
      rw [hd]; rfl
    | some sh =>
      rw [hg, Option.getD_some] at hd
      simp only [hd, GenFun.extVar, Dict.getItem, hb, py_bind_ok]
      exact shapeExt_append _ _
  unfold GenFun.wrtRow
  rw [h1, extOut_append]
  simp only [py_bind_ok, Dict.getItem, hb, ndimRange]
  rw [broadcastTo_ok 0 _ (by simp [NDArray.WF]) hc]
  simp only [py_bind_ok, py_pure]
  congr 1
  rw [List.flatMap_map]
  refine List.flatMap_congr fun e he => ?_
  have := bcIdx_lt hc (List.mem_range.1 he)
  simp [List.getD_eq_getElem?_getD, this]

theorem outRow_eq (f : GenFun α) (E out : List Nat) :
    ((ndimRange E).data.flatMap fun e => out.map (· + e * f.outShape.prod)) =
      (List.range E.prod).flatMap fun e => out.map fun r => r + e * f.outShape.prod := rfl

theorem bcDim_some {l : List Nat} {d : Nat} (h : bcDim l = some d) : ∀ a ∈ l, a = 1 ∨ a = d := by
  intro a ha
  unfold bcDim at h
  by_cases h1 : a = 1
  · exact .inl h1
  · right
    have hm : a ∈ l.filter (· ≠ 1) := by simp [ha, h1]
    split at h
    · next he => rw [he] at hm; simp at hm
    · next x xs he =>
      rw [he] at hm
      split at h
      · next hall =>
        simp only [Option.some.injEq] at h
        subst h
        rcases List.mem_cons.1 hm with h | h
        · exact h
        · simpa using List.all_eq_true.1 hall a h
      · simp at h

theorem option_mapM_range_some {β : Type _} {f : Nat → Option β} {n : Nat} {r : List β}
    (h : (List.range n).mapM f = some r) : r.length = n ∧ ∀ i (hi : i < r.length), f i = some r[i] := by
  have key : ∀ (l : List Nat) (r : List β), l.mapM f = some r →
      r.length = l.length ∧ ∀ i (hi : i < r.length) (hi' : i < l.length), f l[i] = some r[i] := by
    intro l
    induction l with
    | nil => intro r h; simp at h; subst h; simp
    | cons x l ih =>
      intro r h
      rw [List.mapM_cons] at h
      cases hx : f x with
      | none => simp [hx] at h
      | some y =>
        cases hl : l.mapM f with
        | none => simp [hx, hl] at h
        | some r' =>
          simp [hx, hl] at h
          subst h
          obtain ⟨h1, h2⟩ := ih r' hl
          refine ⟨by simp [h1], fun i hi hi' => ?_⟩
          cases i with
          | zero => simpa using hx
          | succ i => simpa using h2 i (by simpa using hi) (by simpa using hi')
  obtain ⟨h1, h2⟩ := key _ _ h
  refine ⟨by simpa using h1, fun i hi => ?_⟩
  have := h2 i hi (by omega)
  simpa using this

theorem le_foldl_max (l : List Nat) (a : Nat) : a ≤ l.foldl max a ∧ ∀ x ∈ l, x ≤ l.foldl max a := by
  induction l generalizing a with
  | nil => simp
  | cons b l ih =>
    simp only [List.foldl_cons]
    have h1 := (ih (max a b)).1
    refine ⟨by omega, fun x hx => ?_⟩
    rcases List.mem_cons.1 hx with rfl | hx
    · omega
    · exact (ih _).2 x hx

theorem bcOK_iff (s d : List Nat) (hl : s.length = d.length)
    (h : ∀ i (h1 : i < s.length) (h2 : i < d.length), s[i] = 1 ∨ s[i] = d[i]) : bcOK s d = true := by
  induction s generalizing d with
  | nil => cases d with
    | nil => rfl
    | cons => simp at hl
  | cons a s ih =>
    cases d with
    | nil => simp at hl
    | cons b d =>
      have h0 := h 0 (by simp) (by simp)
      simp only [List.getElem_cons_zero] at h0
      simp only [bcOK, Bool.and_eq_true, Bool.or_eq_true, beq_iff_eq]
      refine ⟨h0, ih d (by simpa using hl) fun i h1 h2 => ?_⟩
      have := h (i + 1) (by simp; omega) (by simp; omega)
      simp only [List.getElem_cons_succ] at this
      exact this

theorem bcShapes_canBroadcast {l : List (List Nat)} {E : List Nat} (h : bcShapes l = some E) :
    ∀ s ∈ l, canBroadcast s E = true := by
  intro s hs
  unfold bcShapes at h
  obtain ⟨hlen, hE⟩ := option_mapM_range_some h
  have hmax := (le_foldl_max (l.map List.length) 0).2 s.length (List.mem_map_of_mem hs)
  rw [← hlen] at hmax
  simp only [canBroadcast, Bool.and_eq_true, decide_eq_true_eq]
  refine ⟨hmax, bcOK_iff _ _ (by simp [padShape]; omega) fun i h1 h2 => ?_⟩
  have := bcDim_some (hE i h2) ((List.replicate ((l.map List.length).foldl max 0 - s.length) 1 ++ s).getD i 1)
    (List.mem_map_of_mem (f := fun s => (List.replicate ((l.map List.length).foldl max 0 - s.length) 1 ++ s).getD i 1) hs)
  rw [← hlen] at this
  have h3 : (List.replicate (E.length - s.length) 1 ++ s).getD i 1 = (padShape E.length s)[i] := by
    simp only [List.getD_eq_getElem?_getD]
    rw [List.getElem?_eq_getElem (by simpa [padShape] using h1)]
    rfl
  rwa [h3] at this

/-- One block of an index row per extension element. -/
theorem blocks_getElem? {β γ : Type _} (N nnz : Nat) (row : List β) (hr : row.length = nnz) (f : Nat → β → γ) :
    ((List.range N).flatMap fun e => row.map (f e)).length = N * nnz ∧
    ∀ e < N, ∀ n (hn : n < row.length), ((List.range N).flatMap fun e => row.map (f e))[e * nnz + n]? = some (f e row[n]) := by
  induction N with
  | zero => simp
  | succ N ih =>
    rw [List.range_succ, List.flatMap_append]
    refine ⟨by simp only [List.length_append, ih.1]; simp [hr, Nat.succ_mul], fun e he n hn => ?_⟩
    by_cases h : e < N
    · rw [List.getElem?_append_left (by rw [ih.1]; exact mul_add_lt h (hr ▸ hn))]
      exact ih.2 e h n hn
    · obtain rfl : e = N := by omega
      rw [List.getElem?_append_right (by rw [ih.1]; omega), ih.1]
      simp [hn]

theorem cOrder_append (a b ia ib : List Nat) (h : ia.length = a.length) :
    cOrder (a ++ b) (ia ++ ib) = cOrder a ia * b.prod + cOrder b ib := by
  induction a generalizing ia with
  | nil => simp at h; subst h; simp [cOrder]
  | cons n a ih =>
    cases ia with
    | nil => simp at h
    | cons i ia =>
      simp only [List.cons_append, cOrder, List.prod_append]
      rw [ih ia (by simpa using h)]
      ring

end Ceacoest
