import Verif.Spec.Transcription
import Verif.Lemmas.SymExpr
import Verif.Lemmas.Lists
import Verif.Props.LGL

/-! # Values of the symbolic methods -/

namespace Ceacoest
open Spec
variable {X : Type} {A : SymArith X} {ev : X → Env → ℝ}

theorem sum_getD_range (l : List ℝ) : l.sum = ∑ i ∈ Finset.range l.length, l.getD i 0 := by
  induction l with
  | nil => simp
  | cons a l ih =>
    rw [List.sum_cons, List.length_cons, Finset.sum_range_succ', ih, add_comm]
    congr 1

theorem ev_sum (h : ArithOK A ev) (l : List X) (env : Env) : ev (A.sum l) env = (l.map (ev · env)).sum := by
  have : ∀ (l : List X) (a : X), ev (l.foldl A.add a) env = ev a env + (l.map (ev · env)).sum := by
    intro l
    induction l with
    | nil => simp
    | cons b l ih =>
      intro a
      rw [List.foldl_cons, ih, h.add, List.map_cons, List.sum_cons, add_assoc]
  rw [SymArith.sum, this, h.num, zero_add]

theorem ev_dotNum (h : ArithOK A ev) {n : Nat} (a : List ℝ) (v : List X) (ha : a.length = n) (hv : v.length = n) (env : Env) :
    ev (A.dotNum a v) env = ∑ l ∈ Finset.range n, a.getD l 0 * (v.map (ev · env)).getD l 0 := by
  rw [SymArith.dotNum, ev_sum h, sum_getD_range]
  simp only [List.length_map, List.length_zipWith, ha, hv, Nat.min_self]
  refine Finset.sum_congr rfl fun l hl => ?_
  have hl := Finset.mem_range.1 hl
  simp [List.getD_eq_getElem?_getD, ha, hv, hl, h.mul, h.num]

theorem ev_dot (h : ArithOK A ev) {n : Nat} (v w : List X) (hv : v.length = n) (hw : w.length = n) (env : Env) :
    ev (A.dot v w) env = ∑ l ∈ Finset.range n, (v.map (ev · env)).getD l 0 * (w.map (ev · env)).getD l 0 := by
  rw [SymArith.dot, ev_sum h, sum_getD_range]
  simp only [List.length_map, List.length_zipWith, hw, hv, Nat.min_self]
  refine Finset.sum_congr rfl fun l hl => ?_
  have hl := Finset.mem_range.1 hl
  simp [List.getD_eq_getElem?_getD, hw, hv, hl, h.mul]

/-- Row `i` of a variable with `c` columns, in an environment. -/
def envRow (env : Env) (n : String) (c i : Nat) : List ℝ := (List.range c).map fun j => env n (i * c + j)

theorem row_length (n : String) (c i : Nat) : (A.row n c i).length = c := by simp [SymArith.row]

theorem ev_row (h : ArithOK A ev) (n : String) (c i : Nat) (env : Env) : (A.row n c i).map (ev · env) = envRow env n c i := by
  simp [SymArith.row, envRow, h.sym, Function.comp_def]

theorem envRow_getD (env : Env) (n : String) (c i j : Nat) (hj : j < c) : (envRow env n c i).getD j 0 = env n (i * c + j) := by
  simp [envRow, List.getD_eq_getElem?_getD, hj]

/-- The values of the defect function. -/
theorem symcolE_ok (h : ArithOK A ev) (col : RK.Collocation ℝ) (f : List X → List X → List X → List X)
    (F : List ℝ → List ℝ → List ℝ → List ℝ) {N nx nu np : Nat} (hn : col.n = N + 1) (hJ : col.J.length = N) (hJr : ∀ r ∈ col.J, r.length = N + 1)
    (hlen : ∀ x u p, x.length = nx → u.length = nu → p.length = np → (f x u p).length = nx)
    (hF : ∀ x u p env, x.length = nx → u.length = nu → p.length = np →
      (f x u p).map (ev · env) = F (x.map (ev · env)) (u.map (ev · env)) (p.map (ev · env))) :
    ∃ out, symcolE A col f nx nu np = .ok ⟨["xp", "up", "p", "piece_len"], [N, nx], out⟩ ∧ out.length = N * nx ∧
      ∀ env, out.map (ev · env) = defects col.J (fun l => F (envRow env "xp" nx l) (envRow env "up" nu l) (envRow env "p" np 0))
        (envRow env "xp" nx) N nx 0 (env "piece_len" 0) := by
  set fp := fun i => f (A.row "xp" nx i) (A.row "up" nu i) (A.row "p" np 0) with hfp
  have hl : ∀ i, (fp i).length = nx := fun i => hlen _ _ _ (row_length _ _ _) (row_length _ _ _) (row_length _ _ _)
  have h1 : (List.range col.n).mapM (fun i => checkLen nx (fp i)) = .ok ((List.range col.n).map fp) :=
    mapM_ok fun i _ => by rw [checkLen, if_pos (hl i)]
  refine ⟨_, by rw [symcolE, h1, hn]; rfl, ?_, fun env => ?_⟩
  · simp [List.length_flatMap]
  · unfold defects
    rw [List.map_flatMap]
    refine List.flatMap_congr fun k hk => ?_
    have hk := List.mem_range.1 hk
    rw [List.map_map]
    refine List.map_congr_left fun j hj => ?_
    have hj := List.mem_range.1 hj
    have hr : (col.J.getD k []).length = N + 1 := by
      rw [List.getD_eq_getElem?_getD, List.getElem?_eq_getElem (by omega)]
      exact hJr _ (by simp)
    simp only [Function.comp, h.sub, h.mul, h.sym, envRow_getD _ _ _ _ _ hj, Nat.zero_add]
    rw [ev_dotNum h (n := N + 1) _ _ hr (by simp)]
    congr 2
    refine Finset.sum_congr rfl fun l hl' => ?_
    have hl' := Finset.mem_range.1 hl'
    congr 1
    rw [← ev_row h, ← ev_row h, ← ev_row h, ← hF _ _ _ env (row_length _ _ _) (row_length _ _ _) (row_length _ _ _)]
    have := hl l
    simp [List.getD_eq_getElem?_getD, hl', hfp, hj] at this ⊢
    simp [this, hj]

end Ceacoest
