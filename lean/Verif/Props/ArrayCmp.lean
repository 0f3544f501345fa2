import Verif.Model.ArrayCmp
import Verif.Lemmas.Broadcast
import Verif.Props.Layout
import Mathlib.Tactic.Linarith

/-! # C61: `ArrayDiff` comparison -/

namespace Ceacoest.ArrayCmp
open Spec

/-- Entry of `a` that the broadcast array shows at multi-index `idx`. -/
noncomputable def bcEntry (a : NDArray ℝ) (idx : List Nat) : ℝ := a.data.getD (cOrder a.shape (bcMulti a.shape idx)) 0

theorem bcIdx_entry {a : NDArray ℝ} {sh idx : List Nat} (ha : a.WF) (h : canBroadcast a.shape sh = true)
    (hi : InBounds sh idx) : a.data.getD (bcIdx a.shape sh (cOrder sh idx)) 0 = bcEntry a idx := by
  have h1 := C06_broadcast_multi a _ ha sh (broadcastTo_ok 0 a ha h) idx hi
  simp only at h1
  rw [getElem?_map_range _ (cOrder_lt hi)] at h1
  unfold bcEntry
  rw [List.getD_eq_getElem?_getD (i := cOrder a.shape _), ← h1]
  rfl

/-- The comparison never raises on arrays; it holds iff the shapes broadcast and every pair of broadcast entries differs by
strictly less than `atol + rtol * |b|`. -/
theorem C61_within_tol (a b : NDArray ℝ) (ha : a.WF) (hb : b.WF) (atol rtol : ℝ) :
    ∃ r : Bool, (ArrayDiff.mk (.ok a) (.ok b)).withinTol atol rtol = .ok r ∧
      (r = true ↔ ∃ sh, BroadcastShape a.shape b.shape sh ∧ ∀ idx, InBounds sh idx →
        |bcEntry a idx - bcEntry b idx| < atol + rtol * |bcEntry b idx|) := by
  unfold ArrayDiff.withinTol ArrayDiff.compare broadcastable
  simp only
  cases hs : bcShape2 a.shape b.shape with
  | none =>
    refine ⟨false, by simp, by simp, ?_⟩
    rintro ⟨sh, h, -⟩
    rw [(bcShape2_iff _ _ _).2 h] at hs
    cases hs
  | some sh =>
    have h := (bcShape2_iff _ _ _).1 hs
    simp only [Option.isSome_some, if_true]
    rw [binop_ok _ 0 0 ha hb h]
    simp only [py_bind_ok]
    have hbw : (⟨b.shape, b.data.map fun y => atol + rtol * |y|⟩ : NDArray ℝ).WF := by
      simpa [NDArray.WF] using hb
    rw [binop_ok _ 0 (atol + rtol * |0|) (by simp [NDArray.WF]) hbw (sh := sh) h.again]
    refine ⟨_, rfl, ?_⟩
    simp only [List.all_map, List.all_eq_true, List.mem_range, Function.comp_apply, id, decide_eq_true_eq]
    have key : ∀ idx, InBounds sh idx → ∀ n, n = cOrder sh idx →
        ((|((List.range sh.prod).map fun i => a.data.getD (bcIdx a.shape sh i) 0 - b.data.getD (bcIdx b.shape sh i) 0).getD
          (bcIdx sh sh n) 0| < (b.data.map fun y => atol + rtol * |y|).getD (bcIdx b.shape sh n) (atol + rtol * |0|)) ↔
        |bcEntry a idx - bcEntry b idx| < atol + rtol * |bcEntry b idx|) := by
      rintro idx hi n rfl
      have hlt := cOrder_lt hi
      rw [bcIdx_self sh hlt, getD_map_range 0 _ hlt, bcIdx_entry ha h.left hi, bcIdx_entry hb h.right hi]
      have e2 : (b.data.map fun y => atol + rtol * |y|).getD (bcIdx b.shape sh (cOrder sh idx)) (atol + rtol * |0|) =
          atol + rtol * |b.data.getD (bcIdx b.shape sh (cOrder sh idx)) 0| := by
        simp only [List.getD_eq_getElem?_getD, List.getElem?_map]
        cases b.data[bcIdx b.shape sh (cOrder sh idx)]? <;> rfl
      rw [e2, bcIdx_entry hb h.right hi]
    constructor
    · intro hall
      exact ⟨sh, h, fun idx hi => (key idx hi _ rfl).1 (hall _ (cOrder_lt hi))⟩
    · rintro ⟨sh', h', hall⟩ n hn
      have : sh' = sh := by
        have := (bcShape2_iff _ _ _).2 h'
        rw [hs] at this
        exact (Option.some.inj this).symm
      subst this
      obtain ⟨idx, hi, hn'⟩ := exists_idx _ n hn
      exact (key idx hi n hn'.symm).2 (hall idx hi)

/-- `ArrayDiff(a, b) < tol` is the comparison with `atol = rtol = tol`; a dict operand names the tolerances (absent ones are
zero, a `tol` entry overrides both); any other operand raises ValueError. -/
theorem C61_lt (d : ArrayDiff) (t : ℝ) (atol rtol : Option ℝ) :
    d.lt (.num t) = d.withinTol t t ∧ d.lt (.dict atol rtol (some t)) = d.withinTol t t ∧
    d.lt (.dict atol rtol none) = d.withinTol (atol.getD 0) (rtol.getD 0) ∧ d.lt .other = .error .valueError :=
  ⟨rfl, rfl, rfl, rfl⟩

/-- An operand that `np.asarray` rejects with ValueError makes the comparison false; other exceptions are passed on, also
TypeError, which array_cmp.py:29 means to catch: `np.broadcast` raises it again. -/
theorem C61_not_array (a : NDArray ℝ) (x : Py (NDArray ℝ)) (t : ℝ) :
    (ArrayDiff.mk (.ok a) (.error .valueError)).lt (.num t) = .ok false ∧
    (ArrayDiff.mk (.error .valueError) x).lt (.num t) = .ok false ∧
    ∀ e, e ≠ PyErr.valueError → (ArrayDiff.mk (.ok a) (.error e)).lt (.num t) = .error e ∧
      (ArrayDiff.mk (.error e) x).lt (.num t) = .error e := by
  refine ⟨rfl, rfl, fun e he => ?_⟩
  cases e <;> first | exact absurd rfl he | exact ⟨rfl, rfl⟩

/-- With zero tolerance no comparison with a nonempty result holds, not even of an array with itself. -/
theorem C61_zero_tol (a b : NDArray ℝ) (ha : a.WF) (hb : b.WF) (sh : List Nat) (h : BroadcastShape a.shape b.shape sh)
    (hne : 0 < sh.prod) : (ArrayDiff.mk (.ok a) (.ok b)).lt (.num 0) = .ok false := by
  obtain ⟨r, h1, h2⟩ := C61_within_tol a b ha hb 0 0
  rw [(C61_lt _ 0 none none).1, h1]
  cases r with
  | false => rfl
  | true =>
    obtain ⟨sh', h', hall⟩ := h2.1 rfl
    have : sh' = sh := by
      have e1 := (bcShape2_iff _ _ _).2 h'
      rw [(bcShape2_iff _ _ _).2 h] at e1
      exact (Option.some.inj e1).symm
    subst this
    obtain ⟨idx, hi, -⟩ := exists_idx sh' 0 hne
    have := hall idx hi
    simp only [zero_mul, add_zero] at this
    exact absurd this (not_lt.2 (abs_nonneg _))

/-- Shapes `(2, 1)` and `(3,)` broadcast to `(2, 3)`. -/
example : BroadcastShape [2, 1] [3] [2, 3] := (bcShape2_iff _ _ _).1 (by decide)

example : (ArrayDiff.mk (.ok ⟨[2, 1], [1, 2]⟩) (.ok ⟨[3], [1, 1, 2]⟩)).lt (.num (1 / 4)) = .ok false := by
  obtain ⟨r, h1, h2⟩ := C61_within_tol ⟨[2, 1], [1, 2]⟩ ⟨[3], [1, 1, 2]⟩ rfl rfl (1 / 4) (1 / 4)
  rw [(C61_lt _ _ none none).1, h1]
  cases r with
  | false => rfl
  | true =>
    obtain ⟨sh, h, hall⟩ := h2.1 rfl
    have : sh = [2, 3] := by
      have e1 := (bcShape2_iff _ _ _).2 h
      exact (Option.some.inj e1).symm
    subst this
    have := hall [0, 2] (by simp [InBounds])
    norm_num [bcEntry, cOrder, bcMulti] at this

example : (ArrayDiff.mk (.ok ⟨[2], [1, 2]⟩) (.ok ⟨[], [(3 : ℝ) / 2]⟩)).lt (.num (1 / 4)) = .ok true := by
  obtain ⟨r, h1, h2⟩ := C61_within_tol ⟨[2], [1, 2]⟩ ⟨[], [3 / 2]⟩ rfl rfl (1 / 4) (1 / 4)
  rw [(C61_lt _ _ none none).1, h1, h2.2]
  refine ⟨[2], (bcShape2_iff _ _ _).1 (by decide), fun idx hi => ?_⟩
  match idx, hi with
  | [0], _ => norm_num [bcEntry, cOrder, bcMulti, abs_lt]
  | [1], _ => norm_num [bcEntry, cOrder, bcMulti, abs_lt]
  | [k + 2], hi => exact absurd hi.1 (by omega)

end Ceacoest.ArrayCmp
