import Verif.Lemmas.SymClasses

/-! # Values of the symbolic methods of joint MAP models -/

namespace Ceacoest
open Spec
variable {X : Type} {A : SymArith X} {ev : X → Env → ℝ}

theorem getD_range_map {n : Nat} (f : Nat → ℝ) {j : Nat} (hj : j < n) : ((List.range n).map f).getD j 0 = f j := by
  simp [List.getD_eq_getElem?_getD, hj]

theorem getD_map_ev' (h : ArithOK A ev) (l : List X) (i : Nat) (env : Env) : ev (l.getD i (A.num 0)) env = (l.map (ev · env)).getD i 0 := by
  simp only [List.getD_eq_getElem?_getD, List.getElem?_map]
  cases l[i]? with
  | none => exact h.num 0 env
  | some a => rfl

theorem row_len_of_mem {J : List (List ℝ)} {N k m : Nat} (hJ : J.length = N) (hJr : ∀ r ∈ J, r.length = m) (hk : k < N) :
    (J.getD k []).length = m := by
  rw [List.getD_eq_getElem?_getD, List.getElem?_eq_getElem (by omega)]
  exact hJr _ (by simp)

/-- The value of the noise at a point. -/
theorem symjmeWp_val (h : ArithOK A ev) (jt : List (List ℝ)) {N nw : Nat} (hjt : jt.length = N + 1) (hjr : ∀ r ∈ jt, r.length = N) (env : Env)
    {l : Nat} (hl : l < N + 1) :
    ((symjmeWp A jt (N + 1) N nw).getD l []).map (ev · env) = noiseAt jt (envRow env "wc" nw) N nw l := by
  have : (symjmeWp A jt (N + 1) N nw).getD l [] = (List.range nw).map fun b =>
      A.dotNum (jt.getD l []) ((List.range N).map fun k => A.sym "wc" (k * nw + b)) := by
    simp [symjmeWp, List.getD_eq_getElem?_getD, hl]
  rw [this, List.map_map, noiseAt]
  refine List.map_congr_left fun b hb => ?_
  have hb := List.mem_range.1 hb
  simp only [Function.comp]
  rw [ev_dotNum h (n := N) _ _ (row_len_of_mem hjt hjr hl) (by simp)]
  refine Finset.sum_congr rfl fun k hk => ?_
  have hk := Finset.mem_range.1 hk
  rw [List.map_map, getD_range_map _ hk, envRow_getD _ _ _ _ _ hb]
  simp only [Function.comp, h.sym]

theorem symjmeWp_len (jt : List (List ℝ)) {N nw l : Nat} (hl : l < N + 1) : ((symjmeWp A jt (N + 1) N nw).getD l []).length = nw := by
  simp [symjmeWp, List.getD_eq_getElem?_getD, hl]

/-- The values of the defect function. -/
theorem symjmeE_ok (h : ArithOK A ev) (col : RK.Collocation ℝ) (jt : List (List ℝ)) (f : List X → List X → List X → List X)
    (F : List ℝ → List ℝ → List ℝ → List ℝ) {N nx nu np nw : Nat} (hn : col.n = N + 1) (hci : col.ninterv = N) (hJ : col.J.length = N)
    (hJr : ∀ r ∈ col.J, r.length = N + 1) (hjt : jt.length = N + 1) (hjr : ∀ r ∈ jt, r.length = N)
    (hlen : ∀ x u p, x.length = nx → u.length = nu → p.length = np → (f x u p).length = nx)
    (hF : ∀ x u p env, x.length = nx → u.length = nu → p.length = np →
      (f x u p).map (ev · env) = F (x.map (ev · env)) (u.map (ev · env)) (p.map (ev · env))) :
    ∃ out, symjmeE A col jt f nx nu np nw = .ok ⟨["xp", "up", "p", "piece_len", "wc", "G"], [N, nx], out⟩ ∧ out.length = N * nx ∧
      ∀ env, out.map (ev · env) = defects col.J (fun l => noisyRhs (F (envRow env "xp" nx l) (envRow env "up" nu l) (envRow env "p" np 0))
        (noiseAt jt (envRow env "wc" nw) N nw l) (envRow env "G" nw) nx nw) (envRow env "xp" nx) N nx 0 (env "piece_len" 0) := by
  set fp := fun i => f (A.row "xp" nx i) (A.row "up" nu i) (A.row "p" np 0) with hfp
  have hl : ∀ i, (fp i).length = nx := fun i => hlen _ _ _ (row_length _ _ _) (row_length _ _ _) (row_length _ _ _)
  have h1 : (List.range col.n).mapM (fun i => checkLen nx (fp i)) = .ok ((List.range col.n).map fp) :=
    mapM_ok fun i _ => by rw [checkLen, if_pos (hl i)]
  refine ⟨_, by rw [symjmeE, h1, hn, hci]; rfl, ?_, fun env => ?_⟩
  · simp [List.length_flatMap]
  · unfold defects
    rw [List.map_flatMap]
    refine List.flatMap_congr fun k hk => ?_
    have hk := List.mem_range.1 hk
    rw [List.map_map]
    refine List.map_congr_left fun j hj => ?_
    have hj := List.mem_range.1 hj
    simp only [Function.comp, h.sub, h.mul, h.sym, envRow_getD _ _ _ _ _ hj, Nat.zero_add]
    rw [ev_dotNum h (n := N + 1) _ _ (row_len_of_mem hJ hJr hk) (by simp)]
    congr 2
    refine Finset.sum_congr rfl fun l hl' => ?_
    have hl' := Finset.mem_range.1 hl'
    congr 1
    rw [noisyRhs, getD_range_map _ hj, ← symjmeWp_val h jt hjt hjr env hl', ← ev_row h, ← ev_row h, ← ev_row h,
      ← hF _ _ _ env (row_length _ _ _) (row_length _ _ _) (row_length _ _ _), ← ev_row h,
      ← ev_dot h (n := nw) _ _ (symjmeWp_len jt hl') (row_length _ _ _), ← getD_map_ev' h (f _ _ _), ← h.add, ← getD_map_ev' h]
    simp [List.getD_eq_getElem?_getD, hl', hfp, hj]

/-- The value of the penalty. -/
theorem symjmePenalty_val (h : ArithOK A ev) (e : SymFn X) (N nx : Nat) (env : Env) :
    (symjmePenalty A e N nx).out.map (ev · env) = [defectPenalty (e.out.map (ev · env)) (envRow env "penweight" nx 0) N nx] := by
  simp only [symjmePenalty, SymFn.scalar, List.map_cons, List.map_nil]
  rw [ev_sum h, List.map_map, sum_getD_range]
  simp only [List.length_map, List.length_range]
  congr 1
  rw [defectPenalty, ← Finset.sum_neg_distrib]
  refine Finset.sum_congr rfl fun k hk => ?_
  rw [getD_range_map _ (Finset.mem_range.1 hk), ← Finset.sum_neg_distrib]
  simp only [Function.comp]
  rw [ev_dot h (n := nx) _ _ (by simp) (row_length _ _ _)]
  refine Finset.sum_congr rfl fun j hj => ?_
  rw [ev_row h, List.map_map, getD_range_map _ (Finset.mem_range.1 hj)]
  simp only [Function.comp, h.mul, h.num, getD_map_ev' h]
  ring

theorem sum_drop_range (n t : Nat) (g : Nat → ℝ) : (((List.range n).drop t).map g).sum = ∑ j ∈ Finset.range n, if t ≤ j then g j else 0 := by
  induction n with
  | zero => simp
  | succ n ih =>
    rw [Finset.sum_range_succ, ← ih, List.range_succ]
    by_cases ht : t ≤ n
    · rw [List.drop_append_of_le_length (by simpa using ht)]
      simp [ht]
    · rw [List.drop_of_length_le (by simp; omega), List.drop_of_length_le (by simp; omega)]
      simp [ht]

/-- The value of the tube log-density. -/
theorem symjmeTubeL_val (h : ArithOK A ev) (col : RK.Collocation ℝ) (jt : List (List ℝ)) (useOm : Bool) (dfdx : SymFn X)
    (div : List ℝ → List ℝ → List ℝ → Nat → ℝ) {N nx nu np nw : Nat} (hn : col.n = N + 1) (hci : col.ninterv = N) (hK : col.K.length = N + 1)
    (hjt : jt.length = N + 1) (hjr : ∀ r ∈ jt, r.length = N)
    (hdiv : useOm = true → ∀ env, ∀ j < nx, ev (dfdx.out.getD (j * nx + j) (A.num 0)) env =
      div ((List.range nx).map (env "x")) ((List.range nu).map (env "u")) ((List.range np).map (env "p")) j) (env : Env) :
    (symjmeTubeL A col jt useOm dfdx nx nu np nw).out.map (ev · env) =
      [tubeDensity useOm (fun l => div (envRow env "xp" nx l) (envRow env "up" nu l) (envRow env "p" np 0))
        (noiseAt jt (envRow env "wc" nw) N nw) col.K N nx nw (env "piece_len" 0)] := by
  simp only [symjmeTubeL, SymFn.scalar, List.map_cons, List.map_nil, h.mul, h.sym, hn, hci]
  rw [ev_dot h (n := N + 1) _ _ (by simp) (by simp [hK])]
  congr 2
  refine Finset.sum_congr rfl fun l hl => ?_
  have hl := Finset.mem_range.1 hl
  have hlK : l < col.K.length := by omega
  rw [List.map_map, getD_range_map _ hl, List.map_map]
  have : (List.map ((fun x => ev x env) ∘ A.num) col.K).getD l 0 = col.K.getD l 0 := by
    simp [List.getD_eq_getElem?_getD, hlK, h.num]
  rw [this]
  congr 1
  simp only [Function.comp, h.mul, h.num, h.add]
  congr 2
  · have : ∀ g : Nat → X, ((List.range (N + 1)).map g).getD l (A.num 0) = g l := fun g => by simp [List.getD_eq_getElem?_getD, hl]
    rw [this]
    cases useOm with
    | false => simp [h.num]
    | true =>
      simp only [if_true]
      rw [ev_sum h, List.map_map, sum_drop_range, driftDiv]
      refine Finset.sum_congr rfl fun j hj => ?_
      have hj := Finset.mem_range.1 hj
      have hc : SymJme.tailFrom nx nw ≤ j ↔ nw = 0 ∨ nx ≤ j + nw := by
        unfold SymJme.tailFrom
        split <;> omega
      simp only [hc]
      split
      · simp only [Function.comp]
        rw [h.subst, hdiv rfl _ j hj]
        simp [h.sym, envRow]
      · rfl
  · rw [ev_sum h, List.map_map, sum_getD_range]
    simp only [List.length_map, symjmeWp_len jt hl]
    refine Finset.sum_congr rfl fun b hb => ?_
    have hb := Finset.mem_range.1 hb
    rw [← symjmeWp_val h jt hjt hjr env hl]
    have hb' : b < ((symjmeWp A jt (N + 1) N nw).getD l []).length := by rw [symjmeWp_len jt hl]; exact hb
    simp only [List.getD_eq_getElem?_getD, List.getElem?_map] at hb' ⊢
    rw [List.getElem?_eq_getElem hb']
    simp [h.mul, sq]

end Ceacoest
