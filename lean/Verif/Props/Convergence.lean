import Verif.Lemmas.Convergence
import Verif.Props.Collocation
import Mathlib.Analysis.SpecialFunctions.Trigonometric.Bounds

/-! # C76: feasible points of the nonlinear programs exist, are unique, and converge to the solution of the differential equation -/

namespace Ceacoest
open Polynomial Spec RK
variable {X : Type}

/-- The defects among the constraints. -/
theorem oc_defects {F : OCFunctions} {J : List (List ℝ)} {t : List ℝ} {P N nx nu np : Nat} (hl : t.length = P + 1) (d : List ℝ) :
    (∀ k < P * (N * nx), (ocConstraints F J (diff t) P N nx nu np d).getD k 0 = 0) ↔
      ∀ i < P, ∀ a ∈ defects J (fun l => F.f (ocX nx d (i * N + l)) (ocU P N nx nu d (i * N + l)) (ocP P N nx nu np d))
        (fun l => ocX nx d (i * N + l)) N nx 0 (t.getD (i + 1) 0 - t.getD i 0), a = 0 := by
  unfold ocConstraints
  rw [List.append_assoc, take_all_zero fun i _ => defects_length ..]
  refine forall₂_congr fun i hi => ?_
  rw [defects_shift, diff_getD (by omega)]

theorem lgl_weights_ok {N : Nat} (hN : 1 ≤ N) {n : Int} (hn : (N : Int) + 1 = n) {col : Collocation ℝ} (h : lglCollocation n = .ok col) :
    (∀ l ≤ N, 0 < col.K.getD l 0) ∧ ∑ l ∈ Finset.range (N + 1), col.K.getD l 0 = 1 := by
  obtain ⟨col', h1, -, h2, h3⟩ := C63_weights n (by omega)
  obtain rfl : col = col' := Except.ok.inj (h.symm.trans h1)
  obtain ⟨col', h4, h5, -⟩ := C25_exact n (by omega)
  obtain rfl : col = col' := Except.ok.inj (h.symm.trans h4)
  have e : col.n = N + 1 := by omega
  rw [e] at h2 h3
  exact ⟨fun l hl => h2 l (by omega), h3⟩

theorem ocX_length (nx : Nat) (d : List ℝ) (r : Nat) : (ocX nx d r).length = nx := by simp [ocX, rowAt]

/-- **C76.** An optimal control model: if the states of a decision vector have no defects, and its inputs and parameters are those of a process,
then its states differ from those of the process by at most the bound `errorBound`, at every point of the grid. The bound is that of the initial states, and
`δ i`, for which the right hand side along the process differs from a polynomial of degree `N` on piece `i`. -/
theorem C76_oc {A : SymArith X} {ev : X → Env → ℝ} (hA : ArithOK A ev) (U : OCUser X) (F : OCFunctions) {xn un pn : List String} {ng nh N : Nat}
    (hU : OCDenotes ev U F xn.length un.length pn.length ng nh) (hN : (N : Int) + 1 = U.order) (hN1 : 1 ≤ N) {vars : Dict String SymVar}
    (hv : ColVars vars xn un pn) {decision : List String}
    (hd : DecisionOK vars ["x", "u", "p", "xp", "up", "xe"] ["piece_len"] decision) {iter : String → List String} (hi : OrdersOK iter ocWrt) :
    ∃ c, symocInit A U iter vars decision = .ok c ∧ ∀ codegen : SymFn X → List (NDArray ℝ) → NDArray ℝ,
      (∀ name g, Dict.get? c.model.funcs name = some g → CodegenOK ev (shapeOf c.vars) codegen g) →
      ∃ m, symocGen codegen U c = .ok m ∧ ∀ (t : NDArray ℝ) (P : Nat), 1 ≤ P → t.shape = [P + 1] → t.WF → t.data.Pairwise (· < ·) →
      ∃ q, ocProblem m t = .ok q ∧ ∀ z v p, Process F t.data P xn.length un.length pn.length z v p →
        ∀ (S : Set (List ℝ)) (Lip e0 : ℝ) (δ : Nat → ℝ), 0 ≤ Lip →
          (∀ i < P, ∀ l ≤ N, LipschitzOn (F.f · (v (pointTime t.data c.col.points i l)) p) S xn.length xn.length Lip) →
          FineMesh c.col.J N t.data P Lip → (∀ j < xn.length, NearPoly t.data P N δ fun s => (F.f (z s) (v s) p).getD j 0) →
          (∀ i < P, ∀ l ≤ N, z (pointTime t.data c.col.points i l) ∈ S) →
        ∀ d cv : List ℝ, d.length = q.prob.ndec → q.prob.constr d = .ok cv → (∀ k < P * (N * xn.length), cv.getD k 0 = 0) →
          (∀ i < P, ∀ l ≤ N, ocU P N xn.length un.length d (i * N + l) = v (pointTime t.data c.col.points i l)) →
          ocP P N xn.length un.length pn.length d = p → (∀ i < P, ∀ l ≤ N, ocX xn.length d (i * N + l) ∈ S) →
          (∀ j < xn.length, |(ocX xn.length d 0).getD j 0 - (z (t.data.getD 0 0)).getD j 0| ≤ e0) →
          ∀ i < P, ∀ l ≤ N, ∀ j < xn.length,
            |(ocX xn.length d (i * N + l)).getD j 0 - (z (pointTime t.data c.col.points i l)).getD j 0| ≤ errorBound c.col.J N Lip t.data δ e0 i := by
  obtain ⟨c, h1, h2, h3⟩ := C70_oc hA U F hU hN hN1 hv hd hi
  refine ⟨c, h1, fun codegen hcg => ?_⟩
  obtain ⟨m, s, g1, -, -, -, -, -, h4⟩ := h3 codegen hcg
  refine ⟨m, g1, fun t P hP hs hw hinc => ?_⟩
  obtain ⟨q, q1, q2, q3⟩ := h4 t P hP hs hw hinc
  have hl : t.data.length = P + 1 := by rw [hw, hs]; simp
  have ht := pairwise_getD hl hinc
  obtain ⟨hpo, -⟩ := lgl_points_ok hN1 hN h2
  refine ⟨q, q1, fun z v p hpr S Lip e0 δ hLip hL hq hδ hzS d cv hdl hcv hzero hu hp hxS he => ?_⟩
  obtain rfl := Except.ok.inj ((q3 d hdl).2.1.symm.trans hcv)
  rw [oc_defects hl, hp] at hzero
  refine states_error hpo ht (φ := fun i l x => F.f x (ocU P N xn.length un.length d (i * N + l)) p) hzero
    (w := fun _ j s => (F.f (z s) (v s) p).getD j 0) (fun i hi j hj s hs => hpr.ode i hi s hs j hj)
    (fun i hi l hl j hj => by rw [hu i hi l hl]) (fun i hi j hj => hδ j hj i hi) hLip hq (S := S)
    (fun i hi l hl => by rw [hu i hi l hl]; exact hL i hi l hl) hxS hzS he

theorem sum_pieces {t : List ℝ} (P : Nat) : ∑ m ∈ Finset.range P, (t.getD (m + 1) 0 - t.getD m 0) = t.getD P 0 - t.getD 0 0 :=
  Finset.sum_range_sub (fun m => t.getD m 0) P

theorem mesh_le {t : List ℝ} {P : Nat} (ht : ∀ i < P, t.getD i 0 < t.getD (i + 1) 0) : ∀ i ≤ P, t.getD i 0 ≤ t.getD P 0 := by
  induction P with
  | zero => intro i hi; rw [Nat.le_zero.1 hi]
  | succ P ih =>
    intro i hi
    rcases Nat.lt_or_ge i (P + 1) with h | h
    · exact (ih (fun i hi => ht i (by omega)) i (by omega)).trans (ht P (by omega)).le
    · rw [show i = P + 1 by omega]

/-- The bound for pieces no longer than `h` and smooth right hand sides. -/
theorem errorBound_le {J : List (List ℝ)} {N P : Nat} {t : List ℝ} (ht : ∀ i < P, t.getD i 0 < t.getD (i + 1) 0) {Lip e0 B h : ℝ} (hLip : 0 ≤ Lip)
    (he : 0 ≤ e0) (hB : 0 ≤ B) (hh : ∀ i < P, t.getD (i + 1) 0 - t.getD i 0 ≤ h) {i : Nat} (hi : i < P) :
    errorBound J N Lip t (fun i => B * (t.getD (i + 1) 0 - t.getD i 0) ^ (N + 1) / (N.factorial : ℝ)) e0 i ≤
      Real.exp (2 * jnorm J N * Lip * (t.getD P 0 - t.getD 0 0)) *
        (e0 + (N + jnorm J N) * (t.getD P 0 - t.getD 0 0) * B / (N.factorial : ℝ) * h ^ (N + 1)) := by
  have hJ := jnorm_nonneg J N
  have hiP := mesh_le ht (i + 1) hi
  have hpos : ∀ m < P, 0 < t.getD (m + 1) 0 - t.getD m 0 := fun m hm => by linarith [ht m hm]
  have hh0 : 0 ≤ h := (hpos i hi).le.trans (hh i hi)
  have hi0 : 0 ≤ t.getD (i + 1) 0 - t.getD 0 0 := by
    rw [← sum_pieces]
    exact Finset.sum_nonneg fun m hm => (hpos m (by have := Finset.mem_range.1 hm; omega)).le
  unfold errorBound
  have hsum : ∑ m ∈ Finset.range (i + 1), B * (t.getD (m + 1) 0 - t.getD m 0) ^ (N + 1) / (N.factorial : ℝ) * (t.getD (m + 1) 0 - t.getD m 0) ≤
      B * h ^ (N + 1) / (N.factorial : ℝ) * (t.getD P 0 - t.getD 0 0) := by
    calc _ ≤ ∑ m ∈ Finset.range (i + 1), B * h ^ (N + 1) / (N.factorial : ℝ) * (t.getD (m + 1) 0 - t.getD m 0) :=
          Finset.sum_le_sum fun m hm => by
            have hm' : m < P := by have := Finset.mem_range.1 hm; omega
            have := hpos m hm'
            have := pow_le_pow_left₀ this.le (hh m hm') (N + 1)
            gcongr
      _ = B * h ^ (N + 1) / (N.factorial : ℝ) * (t.getD (i + 1) 0 - t.getD 0 0) := by rw [← Finset.mul_sum, sum_pieces]
      _ ≤ _ := by gcongr
  calc _ ≤ Real.exp (2 * jnorm J N * Lip * (t.getD P 0 - t.getD 0 0)) *
        (e0 + (N + jnorm J N) * (B * h ^ (N + 1) / (N.factorial : ℝ) * (t.getD P 0 - t.getD 0 0))) := by
        have : 0 ≤ ∑ m ∈ Finset.range (i + 1),
            B * (t.getD (m + 1) 0 - t.getD m 0) ^ (N + 1) / (N.factorial : ℝ) * (t.getD (m + 1) 0 - t.getD m 0) :=
          Finset.sum_nonneg fun m hm => by
            have := hpos m (by have := Finset.mem_range.1 hm; omega)
            positivity
        gcongr
    _ = _ := by ring

/-- **C76.** For right hand sides with `N + 1` derivatives along the process, bounded by `B`, the error is of order `h ^ (N + 1)` for pieces no longer
than `h`. -/
theorem C76_rate {A : SymArith X} {ev : X → Env → ℝ} (hA : ArithOK A ev) (U : OCUser X) (F : OCFunctions) {xn un pn : List String} {ng nh N : Nat}
    (hU : OCDenotes ev U F xn.length un.length pn.length ng nh) (hN : (N : Int) + 1 = U.order) (hN1 : 1 ≤ N) {vars : Dict String SymVar}
    (hv : ColVars vars xn un pn) {decision : List String}
    (hd : DecisionOK vars ["x", "u", "p", "xp", "up", "xe"] ["piece_len"] decision) {iter : String → List String} (hi : OrdersOK iter ocWrt) :
    ∃ c, symocInit A U iter vars decision = .ok c ∧ ∀ codegen : SymFn X → List (NDArray ℝ) → NDArray ℝ,
      (∀ name g, Dict.get? c.model.funcs name = some g → CodegenOK ev (shapeOf c.vars) codegen g) →
      ∃ m, symocGen codegen U c = .ok m ∧ ∀ (t : NDArray ℝ) (P : Nat), 1 ≤ P → t.shape = [P + 1] → t.WF → t.data.Pairwise (· < ·) →
      ∃ q, ocProblem m t = .ok q ∧ ∀ z v p, Process F t.data P xn.length un.length pn.length z v p →
        ∀ (S : Set (List ℝ)) (Lip e0 B h : ℝ), 0 ≤ Lip → 0 ≤ e0 → 0 ≤ B →
          (∀ i < P, ∀ l ≤ N, LipschitzOn (F.f · (v (pointTime t.data c.col.points i l)) p) S xn.length xn.length Lip) →
          (∀ i < P, t.data.getD (i + 1) 0 - t.data.getD i 0 ≤ h) → h * jnorm c.col.J N * Lip ≤ 1 / 2 →
          (∀ i < P, ∀ j < xn.length, ContDiffOn ℝ (N + 1) (fun s => (F.f (z s) (v s) p).getD j 0) (pieceOf t.data i) ∧
            ∀ s ∈ pieceOf t.data i, |iteratedDerivWithin (N + 1) (fun s => (F.f (z s) (v s) p).getD j 0) (pieceOf t.data i) s| ≤ B) →
          (∀ i < P, ∀ l ≤ N, z (pointTime t.data c.col.points i l) ∈ S) →
        ∀ d cv : List ℝ, d.length = q.prob.ndec → q.prob.constr d = .ok cv → (∀ k < P * (N * xn.length), cv.getD k 0 = 0) →
          (∀ i < P, ∀ l ≤ N, ocU P N xn.length un.length d (i * N + l) = v (pointTime t.data c.col.points i l)) →
          ocP P N xn.length un.length pn.length d = p → (∀ i < P, ∀ l ≤ N, ocX xn.length d (i * N + l) ∈ S) →
          (∀ j < xn.length, |(ocX xn.length d 0).getD j 0 - (z (t.data.getD 0 0)).getD j 0| ≤ e0) →
          ∀ i < P, ∀ l ≤ N, ∀ j < xn.length, |(ocX xn.length d (i * N + l)).getD j 0 - (z (pointTime t.data c.col.points i l)).getD j 0| ≤
            Real.exp (2 * jnorm c.col.J N * Lip * (t.data.getD P 0 - t.data.getD 0 0)) *
              (e0 + (N + jnorm c.col.J N) * (t.data.getD P 0 - t.data.getD 0 0) * B / (N.factorial : ℝ) * h ^ (N + 1)) := by
  obtain ⟨c, h1, h3⟩ := C76_oc hA U F hU hN hN1 hv hd hi
  refine ⟨c, h1, fun codegen hcg => ?_⟩
  obtain ⟨m, g1, h4⟩ := h3 codegen hcg
  refine ⟨m, g1, fun t P hP hs hw hinc => ?_⟩
  obtain ⟨q, q1, q3⟩ := h4 t P hP hs hw hinc
  have hl : t.data.length = P + 1 := by rw [hw, hs]; simp
  have ht := pairwise_getD hl hinc
  refine ⟨q, q1, fun z v p hpr S Lip e0 B h hLip he0 hB hL hh hq hsm hzS d cv hdl hcv hzero hu hp hxS he i hi l hl' j hj => ?_⟩
  refine (q3 z v p hpr S Lip e0 (fun i => B * (t.data.getD (i + 1) 0 - t.data.getD i 0) ^ (N + 1) / (N.factorial : ℝ)) hLip hL (fun i hi => ?_)
    (fun j hj i hi => smooth_almost_poly (ht i hi).le (hsm i hi j hj).1 (hsm i hi j hj).2) hzS d cv hdl hcv hzero hu hp hxS he i hi l hl' j hj).trans
    (errorBound_le ht hLip he0 hB hh hi)
  refine le_trans ?_ hq
  have := jnorm_nonneg c.col.J N
  gcongr
  exact hh i hi

/-! ### Existence -/

theorem defects_rows {J : List (List ℝ)} {rhs rhs' x x' : Nat → List ℝ} {N nx : Nat} {len : ℝ} (hr : ∀ l ≤ N, rhs l = rhs' l) (hx : ∀ l ≤ N, x l = x' l) :
    defects J rhs x N nx 0 len = defects J rhs' x' N nx 0 len := by
  unfold defects
  refine List.flatMap_congr fun k hk => List.map_congr_left fun j _ => ?_
  have hk := List.mem_range.1 hk
  rw [hx _ (by omega), hx _ (by omega)]
  congr 2
  refine Finset.sum_congr rfl fun l hl => ?_
  rw [hr _ (by have := Finset.mem_range.1 hl; omega)]

/-- A decision vector with given rows. -/
theorem oc_vector {x u : Nat → List ℝ} {p : List ℝ} (P N : Nat) {nx nu np : Nat} (hx : ∀ r, (x r).length = nx) (hu : ∀ r, (u r).length = nu) (hp : p.length = np) :
    ∃ d : List ℝ, d.length = (P * N + 1) * (nx + nu) + np ∧ (∀ r ≤ P * N, ocX nx d r = x r) ∧ (∀ r ≤ P * N, ocU P N nx nu d r = u r) ∧
      ocP P N nx nu np d = p := by
  obtain ⟨h1, h2, h3, h4⟩ := samples_rows (tc := (List.range (P * N + 1)).map fun r : Nat => (r : ℝ)) (z := fun s => x ⌊s⌋₊) (v := fun s => u ⌊s⌋₊) (p := p)
    (P := P) (N := N) (by simp) (fun s => hx _) (fun s => hu _) hp
  have e : ∀ r < P * N + 1, ⌊((List.range (P * N + 1)).map fun r : Nat => (r : ℝ)).getD r 0⌋₊ = r := fun r hr => by
    rw [getD_of_lt _ _ (by simpa using hr), List.getElem_map, List.getElem_range, Nat.floor_natCast]
  exact ⟨_, h1, fun r hr => by rw [h2 r (by omega), e r (by omega)], fun r hr => by rw [h3 r (by omega), e r (by omega)], h4⟩

theorem rowAt_getD {d : List ℝ} {off n r j : Nat} (hj : j < n) : (rowAt d off n r).getD j 0 = d.getD (off + (r * n + j)) 0 := by
  rw [getD_of_lt _ _ (by simpa [rowAt] using hj)]
  simp [rowAt]

/-- The rows determine the decision vector. -/
theorem oc_ext {d d' : List ℝ} {P N nx nu np : Nat} (h : d.length = (P * N + 1) * (nx + nu) + np) (h' : d'.length = (P * N + 1) * (nx + nu) + np)
    (hx : ∀ r ≤ P * N, ocX nx d r = ocX nx d' r) (hu : ∀ r ≤ P * N, ocU P N nx nu d r = ocU P N nx nu d' r)
    (hp : ocP P N nx nu np d = ocP P N nx nu np d') : d = d' := by
  refine List.ext_getElem (by omega) fun k h1 h2 => ?_
  rw [← getD_of_lt _ 0 h1, ← getD_of_lt _ 0 h2]
  have part : ∀ n k, k < (P * N + 1) * n → 0 < n ∧ k / n ≤ P * N ∧ k % n < n ∧ k = k / n * n + k % n := fun n k hk => by
    have hn : 0 < n := Nat.pos_of_ne_zero fun e => by simp [e] at hk
    exact ⟨hn, Nat.lt_succ_iff.1 (Nat.div_lt_of_lt_mul (by rwa [Nat.mul_comm] at hk)), Nat.mod_lt _ hn, (Nat.div_add_mod' k n).symm⟩
  rw [Nat.mul_add] at h
  rcases Nat.lt_or_ge k ((P * N + 1) * nx) with hk | hk
  · obtain ⟨-, a, b, e⟩ := part nx k hk
    have := congrArg (·.getD (k % nx) 0) (hx _ a)
    simp only [ocX, rowAt_getD b] at this
    rwa [← e, Nat.zero_add] at this
  · rcases Nat.lt_or_ge k ((P * N + 1) * nx + (P * N + 1) * nu) with hk' | hk'
    · obtain ⟨-, a, b, e⟩ := part nu (k - (P * N + 1) * nx) (by omega)
      have := congrArg (·.getD ((k - (P * N + 1) * nx) % nu) 0) (hu _ a)
      simp only [ocU, rowAt_getD b] at this
      rwa [← e, Nat.add_sub_cancel' hk] at this
    · have := congrArg (·.getD (k - (P * N + 1) * (nx + nu)) 0) hp
      simp only [ocP] at this
      rw [rowAt_getD (by rw [Nat.mul_add]; omega), rowAt_getD (by rw [Nat.mul_add]; omega)] at this
      rwa [Nat.zero_mul, Nat.zero_add, Nat.add_sub_cancel' (by rw [Nat.mul_add]; omega)] at this

/-- **C76.** For right hand sides that are Lipschitz continuous in the states and pieces that are short enough, there is exactly one decision vector without
defects for given initial states, inputs and parameters. -/
theorem C76_exists {A : SymArith X} {ev : X → Env → ℝ} (hA : ArithOK A ev) (U : OCUser X) (F : OCFunctions) {xn un pn : List String} {ng nh N : Nat}
    (hU : OCDenotes ev U F xn.length un.length pn.length ng nh) (hN : (N : Int) + 1 = U.order) (hN1 : 1 ≤ N) {vars : Dict String SymVar}
    (hv : ColVars vars xn un pn) {decision : List String}
    (hd : DecisionOK vars ["x", "u", "p", "xp", "up", "xe"] ["piece_len"] decision) {iter : String → List String} (hi : OrdersOK iter ocWrt) :
    ∃ c, symocInit A U iter vars decision = .ok c ∧ ∀ codegen : SymFn X → List (NDArray ℝ) → NDArray ℝ,
      (∀ name g, Dict.get? c.model.funcs name = some g → CodegenOK ev (shapeOf c.vars) codegen g) →
      ∃ m, symocGen codegen U c = .ok m ∧ ∀ (t : NDArray ℝ) (P : Nat), 1 ≤ P → t.shape = [P + 1] → t.WF → t.data.Pairwise (· < ·) →
      ∃ q, ocProblem m t = .ok q ∧ ∀ (x0 p : List ℝ) (u : Nat → List ℝ) (Lip : ℝ), x0.length = xn.length → p.length = pn.length →
        (∀ r, (u r).length = un.length) → 0 ≤ Lip →
        (∀ r ≤ P * N, LipschitzOn (F.f · (u r) p) {x | x.length = xn.length} xn.length xn.length Lip) → FineMesh c.col.J N t.data P Lip →
        ∃! d : List ℝ, d.length = q.prob.ndec ∧ ocX xn.length d 0 = x0 ∧ (∀ r ≤ P * N, ocU P N xn.length un.length d r = u r) ∧
          ocP P N xn.length un.length pn.length d = p ∧ ∃ cv, q.prob.constr d = .ok cv ∧ ∀ k < P * (N * xn.length), cv.getD k 0 = 0 := by
  obtain ⟨c, h1, h2, h3⟩ := C70_oc hA U F hU hN hN1 hv hd hi
  refine ⟨c, h1, fun codegen hcg => ?_⟩
  obtain ⟨m, s, g1, -, -, -, -, -, h4⟩ := h3 codegen hcg
  refine ⟨m, g1, fun t P hP hs hw hinc => ?_⟩
  obtain ⟨q, q1, q2, q3⟩ := h4 t P hP hs hw hinc
  have hl : t.data.length = P + 1 := by rw [hw, hs]; simp
  have ht := pairwise_getD hl hinc
  obtain ⟨hpo, -⟩ := lgl_points_ok hN1 hN h2
  refine ⟨q, q1, fun x0 p u Lip hx0 hp hu hLip hL hq => ?_⟩
  have hle : ∀ i < P, ∀ l ≤ N, i * N + l ≤ P * N := fun i hi l hl => by
    have : (i + 1) * N ≤ P * N := Nat.mul_le_mul_right _ hi
    rw [Nat.add_mul] at this
    omega
  have hL' : ∀ i < P, ∀ l ≤ N, LipschitzOn (fun x => F.f x (u (i * N + l)) p) {x | x.length = xn.length} xn.length xn.length Lip :=
    fun i hi l hl => hL _ (hle i hi l hl)
  obtain ⟨x, hxl, hx0', hxd⟩ := states_exist c.col.J (N := N) (φ := fun i l x => F.f x (u (i * N + l)) p) ht hLip hq hL' hx0
  obtain ⟨d, d1, d2, d3, d4⟩ := oc_vector P N hxl hu hp
  refine ⟨d, ⟨by rw [d1, q2], by rw [d2 0 (Nat.zero_le _), hx0'], d3, d4, _, (q3 d (by rw [d1, q2])).2.1, ?_⟩, ?_⟩
  · rw [oc_defects hl, d4]
    intro i hi a ha
    refine hxd i hi a ?_
    rwa [defects_rows (rhs' := fun l => F.f (x (i * N + l)) (u (i * N + l)) p) (x' := fun l => x (i * N + l))
      (fun l hl => by rw [d2 _ (hle i hi l hl), d3 _ (hle i hi l hl)]) fun l hl => d2 _ (hle i hi l hl)] at ha
  · rintro d' ⟨e1, e2, e3, e4, cv, e5, e6⟩
    obtain rfl := Except.ok.inj ((q3 d' e1).2.1.symm.trans e5)
    rw [oc_defects hl, e4] at e6
    have e6' : ∀ i < P, ∀ a ∈ defects c.col.J (fun l => F.f (ocX xn.length d' (i * N + l)) (u (i * N + l)) p)
        (fun l => ocX xn.length d' (i * N + l)) N xn.length 0 (t.data.getD (i + 1) 0 - t.data.getD i 0), a = 0 := by
      intro i hi a ha
      refine e6 i hi a ?_
      rwa [defects_rows (rhs' := fun l => F.f (ocX xn.length d' (i * N + l)) (u (i * N + l)) p) (x' := fun l => ocX xn.length d' (i * N + l))
        (fun l hl => by rw [e3 _ (hle i hi l hl)]) fun l hl => rfl]
    have hxx := states_unique hpo hP ht (φ := fun i l x => F.f x (u (i * N + l)) p) e6' hxd hLip hq hL'
      (fun r _ => ocX_length ..) (fun r _ => hxl r) (by rw [e2, hx0'])
    exact oc_ext (by rw [e1, q2]) d1 (fun r hr => by rw [hxx r hr, d2 r hr]) (fun r hr => by rw [e3 r hr, d3 r hr]) (by rw [e4, d4])

/-! ### Costs -/

theorem errorBound_mono {J : List (List ℝ)} {N P : Nat} {t : List ℝ} (ht : ∀ i < P, t.getD i 0 < t.getD (i + 1) 0) {Lip e0 : ℝ} {δ : Nat → ℝ} (hLip : 0 ≤ Lip)
    (he : 0 ≤ e0) (hδ : ∀ i < P, 0 ≤ δ i) {i : Nat} (hi : i < P) : 0 ≤ errorBound J N Lip t δ e0 i ∧
      errorBound J N Lip t δ e0 i ≤ errorBound J N Lip t δ e0 (P - 1) := by
  have hJ := jnorm_nonneg J N
  have hle := mesh_le ht (i + 1) hi
  have hpos : ∀ m < P, 0 ≤ δ m * (t.getD (m + 1) 0 - t.getD m 0) := fun m hm => mul_nonneg (hδ m hm) (by linarith [ht m hm])
  have h0 : 0 ≤ ∑ m ∈ Finset.range (i + 1), δ m * (t.getD (m + 1) 0 - t.getD m 0) :=
    Finset.sum_nonneg fun m hm => hpos m (by have := Finset.mem_range.1 hm; omega)
  have h1 : ∑ m ∈ Finset.range (i + 1), δ m * (t.getD (m + 1) 0 - t.getD m 0) ≤ ∑ m ∈ Finset.range P, δ m * (t.getD (m + 1) 0 - t.getD m 0) :=
    Finset.sum_le_sum_of_subset_of_nonneg (Finset.range_mono hi) fun m hm _ => hpos m (Finset.mem_range.1 hm)
  unfold errorBound
  refine ⟨by positivity, ?_⟩
  rw [show P - 1 + 1 = P by omega]
  gcongr

/-- **C76.** The objective of a decision vector without defects is the cost of the process with its inputs, parameters and initial states, up to the error of the
states, for costs that are Lipschitz continuous in the states, and the error of the quadrature. -/
theorem C76_cost {A : SymArith X} {ev : X → Env → ℝ} (hA : ArithOK A ev) (U : OCUser X) (F : OCFunctions) {xn un pn : List String} {ng nh N : Nat}
    (hU : OCDenotes ev U F xn.length un.length pn.length ng nh) (hN : (N : Int) + 1 = U.order) (hN1 : 1 ≤ N) {vars : Dict String SymVar}
    (hv : ColVars vars xn un pn) {decision : List String}
    (hd : DecisionOK vars ["x", "u", "p", "xp", "up", "xe"] ["piece_len"] decision) {iter : String → List String} (hi : OrdersOK iter ocWrt) :
    ∃ c, symocInit A U iter vars decision = .ok c ∧ ∀ codegen : SymFn X → List (NDArray ℝ) → NDArray ℝ,
      (∀ name g, Dict.get? c.model.funcs name = some g → CodegenOK ev (shapeOf c.vars) codegen g) →
      ∃ m, symocGen codegen U c = .ok m ∧ ∀ (t : NDArray ℝ) (P : Nat), 1 ≤ P → t.shape = [P + 1] → t.WF → t.data.Pairwise (· < ·) →
      ∃ q, ocProblem m t = .ok q ∧ ∀ z v p, Process F t.data P xn.length un.length pn.length z v p →
        ∀ (S S' : Set (List ℝ)) (Lip LL LM e0 : ℝ) (δ ε : Nat → ℝ), 0 ≤ Lip → 0 ≤ LL → 0 ≤ LM → 0 ≤ e0 → (∀ i < P, 0 ≤ δ i) →
          (∀ i < P, ∀ l ≤ N, LipschitzOn (F.f · (v (pointTime t.data c.col.points i l)) p) S xn.length xn.length Lip) →
          (∀ i < P, ∀ l ≤ N, LipschitzOn (fun x => [F.L x (v (pointTime t.data c.col.points i l)) p]) S' xn.length 1 LL) →
          LipschitzOn (fun xe => [F.M xe p]) (Set.image2 (· ++ ·) S' S') (2 * xn.length) 1 LM →
          FineMesh c.col.J N t.data P Lip → (∀ j < xn.length, NearPoly t.data P N δ fun s => (F.f (z s) (v s) p).getD j 0) →
          NearPoly t.data P (2 * N - 1) ε (fun s => F.L (z s) (v s) p) → (∀ i < P, ContinuousOn (fun s => F.L (z s) (v s) p) (pieceOf t.data i)) →
          (∀ i < P, ∀ l ≤ N, z (pointTime t.data c.col.points i l) ∈ S ∩ S') →
        ∀ d cv : List ℝ, d.length = q.prob.ndec → q.prob.constr d = .ok cv → (∀ k < P * (N * xn.length), cv.getD k 0 = 0) →
          (∀ i < P, ∀ l ≤ N, ocU P N xn.length un.length d (i * N + l) = v (pointTime t.data c.col.points i l)) →
          ocP P N xn.length un.length pn.length d = p → (∀ i < P, ∀ l ≤ N, ocX xn.length d (i * N + l) ∈ S ∩ S') →
          (∀ j < xn.length, |(ocX xn.length d 0).getD j 0 - (z (t.data.getD 0 0)).getD j 0| ≤ e0) →
          ∃ cost, q.prob.obj d = .ok cost ∧
            |cost - ((∫ s in t.data.getD 0 0..t.data.getD P 0, F.L (z s) (v s) p) + F.M (z (t.data.getD 0 0) ++ z (t.data.getD P 0)) p)| ≤
              (LL * (t.data.getD P 0 - t.data.getD 0 0) + LM) * errorBound c.col.J N Lip t.data δ e0 (P - 1) +
              2 * ∑ i ∈ Finset.range P, ε i * (t.data.getD (i + 1) 0 - t.data.getD i 0) := by
  obtain ⟨c, h1, h2, h3⟩ := C70_oc hA U F hU hN hN1 hv hd hi
  obtain ⟨c', h1', h3'⟩ := C76_oc hA U F hU hN hN1 hv hd hi
  obtain rfl : c = c' := Except.ok.inj (h1.symm.trans h1')
  refine ⟨c, h1, fun codegen hcg => ?_⟩
  obtain ⟨m, s, g1, -, -, -, -, -, h4⟩ := h3 codegen hcg
  obtain ⟨m', g1', h4'⟩ := h3' codegen hcg
  obtain rfl : m = m' := Except.ok.inj (g1.symm.trans g1')
  refine ⟨m, g1, fun t P hP hs hw hinc => ?_⟩
  obtain ⟨q, q1, q2, q3⟩ := h4 t P hP hs hw hinc
  obtain ⟨q', q1', q3'⟩ := h4' t P hP hs hw hinc
  obtain rfl : q = q' := Except.ok.inj (q1.symm.trans q1')
  have hl : t.data.length = P + 1 := by rw [hw, hs]; simp
  have ht := pairwise_getD hl hinc
  obtain ⟨hpo, hK⟩ := lgl_points_ok hN1 hN h2
  obtain ⟨hK0, hK1⟩ := lgl_weights_ok hN1 hN h2
  refine ⟨q, q1, fun z v p hpr S S' Lip LL LM e0 δ ε hLip hLL hLM he0 hδ0 hL hLl hMl hq hδ hε hcont hzS d cv hdl hcv hzero hu hp hxS he =>
    ⟨_, (q3 d hdl).1, ?_⟩⟩
  have herr := q3' z v p hpr S Lip e0 δ hLip hL hq hδ (fun i hi l hl => (hzS i hi l hl).1) d cv hdl hcv hzero hu hp (fun i hi l hl => (hxS i hi l hl).1) he
  set E := errorBound c.col.J N Lip t.data δ e0 (P - 1) with hE
  have hE0 : 0 ≤ E := (errorBound_mono ht hLip he0 hδ0 (show P - 1 < P by omega)).1
  have herr' : ∀ i < P, ∀ l ≤ N, ∀ j < xn.length,
      |(ocX xn.length d (i * N + l)).getD j 0 - (z (pointTime t.data c.col.points i l)).getD j 0| ≤ E := fun i hi l hl j hj =>
    (herr i hi l hl j hj).trans (errorBound_mono ht hLip he0 hδ0 hi).2
  have e0' : pointTime t.data c.col.points 0 0 = t.data.getD 0 0 := by rw [pointTime, hpo.first]; ring
  have eP : pointTime t.data c.col.points (P - 1) N = t.data.getD P 0 := by rw [pointTime, hpo.last, show P - 1 + 1 = P by omega]; ring
  have eX : (P - 1) * N + N = P * N := by rw [← Nat.succ_mul, show (P - 1).succ = P by omega]
  have hM : |F.M (ocX xn.length d 0 ++ ocX xn.length d (P * N)) p - F.M (z (t.data.getD 0 0) ++ z (t.data.getD P 0)) p| ≤ LM * E := by
    have hx0 := (hxS 0 (by omega) 0 (Nat.zero_le _)).2
    have hz0 := (hzS 0 (by omega) 0 (Nat.zero_le _)).2
    have hxP := (hxS (P - 1) (by omega) N le_rfl).2
    have hzP := (hzS (P - 1) (by omega) N le_rfl).2
    have h00 := herr' 0 (by omega) 0 (Nat.zero_le _)
    have hPP := herr' (P - 1) (by omega) N le_rfl
    rw [Nat.zero_mul, Nat.add_zero] at hx0 h00
    rw [eX] at hxP hPP
    rw [e0'] at hz0 h00
    rw [eP] at hzP hPP
    refine hMl _ ⟨_, hx0, _, hxP, rfl⟩ _ ⟨_, hz0, _, hzP, rfl⟩ E (fun j hj => ?_) 0 (by omega)
    simp only [List.getD_eq_getElem?_getD]
    rcases Nat.lt_or_ge j xn.length with h | h
    · rw [List.getElem?_append_left (by rw [ocX_length]; exact h), List.getElem?_append_left (by rw [hpr.lenx]; exact h),
        ← List.getD_eq_getElem?_getD, ← List.getD_eq_getElem?_getD]
      exact h00 j h
    · rw [List.getElem?_append_right (by rw [ocX_length]; exact h), List.getElem?_append_right (by rw [hpr.lenx]; exact h),
        ocX_length, hpr.lenx, ← List.getD_eq_getElem?_getD, ← List.getD_eq_getElem?_getD]
      exact hPP _ (by omega)
  have hQ := quadrature_error ht hpo.mem hK hK0 hK1 hε hcont
  have hR : |∑ i ∈ Finset.range P, (∑ l ∈ Finset.range (N + 1), F.L (ocX xn.length d (i * N + l)) (ocU P N xn.length un.length d (i * N + l)) p *
        c.col.K.getD l 0) * (diff t.data).getD i 0 -
      ∑ i ∈ Finset.range P, (∑ l ∈ Finset.range (N + 1), F.L (z (pointTime t.data c.col.points i l)) (v (pointTime t.data c.col.points i l)) p *
        c.col.K.getD l 0) * (t.data.getD (i + 1) 0 - t.data.getD i 0)| ≤ LL * (t.data.getD P 0 - t.data.getD 0 0) * E := by
    rw [← Finset.sum_sub_distrib]
    refine (Finset.abs_sum_le_sum_abs _ _).trans ?_
    rw [← sum_pieces P, Finset.mul_sum, Finset.sum_mul]
    refine Finset.sum_le_sum fun i hi => ?_
    rw [Finset.mem_range] at hi
    have hp : 0 < t.data.getD (i + 1) 0 - t.data.getD i 0 := by linarith [ht i hi]
    rw [diff_getD (by omega), ← sub_mul, abs_mul, abs_of_pos hp, ← Finset.sum_sub_distrib, mul_right_comm]
    refine mul_le_mul_of_nonneg_right ?_ hp.le
    refine (Finset.abs_sum_le_sum_abs _ _).trans ?_
    calc _ ≤ ∑ l ∈ Finset.range (N + 1), LL * E * c.col.K.getD l 0 := Finset.sum_le_sum fun l hl => by
          have hl' : l ≤ N := by simpa [Nat.lt_succ_iff] using hl
          rw [← sub_mul, abs_mul, abs_of_pos (hK0 l hl'), hu i hi l hl']
          exact mul_le_mul_of_nonneg_right (hLl i hi l hl' _ (hxS i hi l hl').2 _ (hzS i hi l hl').2 E (herr' i hi l hl') 0 (by omega)) (hK0 l hl').le
      _ = LL * E := by rw [← Finset.mul_sum, hK1, mul_one]
  rw [ocCost, hp]
  rw [abs_le] at hM hQ hR ⊢
  constructor <;> linarith [hM.1, hM.2, hQ.1, hQ.2, hR.1, hR.2]

/-- **C76.** For every process of an optimal control problem the nonlinear program has a point, with its inputs, parameters and initial states, without defects, whose
other constraints and whose objective are those of the process up to the errors. Costs and constraints have to be Lipschitz continuous only near the process. -/
theorem C76_value {A : SymArith X} {ev : X → Env → ℝ} (hA : ArithOK A ev) (U : OCUser X) (F : OCFunctions) {xn un pn : List String} {ng nh N : Nat}
    (hU : OCDenotes ev U F xn.length un.length pn.length ng nh) (hN : (N : Int) + 1 = U.order) (hN1 : 1 ≤ N) {vars : Dict String SymVar}
    (hv : ColVars vars xn un pn) {decision : List String}
    (hd : DecisionOK vars ["x", "u", "p", "xp", "up", "xe"] ["piece_len"] decision) {iter : String → List String} (hi : OrdersOK iter ocWrt) :
    ∃ c, symocInit A U iter vars decision = .ok c ∧ ∀ codegen : SymFn X → List (NDArray ℝ) → NDArray ℝ,
      (∀ name g, Dict.get? c.model.funcs name = some g → CodegenOK ev (shapeOf c.vars) codegen g) →
      ∃ m, symocGen codegen U c = .ok m ∧ ∀ (t : NDArray ℝ) (P : Nat), 1 ≤ P → t.shape = [P + 1] → t.WF → t.data.Pairwise (· < ·) →
      ∃ q tc, ocProblem m t = .ok q ∧ grid c.col.points t.data = .ok tc ∧ ∀ z v p, Process F t.data P xn.length un.length pn.length z v p →
        ∀ (S : Set (List ℝ)) (Lip LL LM LG LH : ℝ) (δ ε : Nat → ℝ), 0 ≤ Lip → 0 ≤ LL → 0 ≤ LM → (∀ i < P, 0 ≤ δ i) →
          (∀ s, LipschitzOn (F.f · (v s) p) {x | x.length = xn.length} xn.length xn.length Lip) →
          (∀ s, LipschitzOn (fun x => [F.L x (v s) p]) S xn.length 1 LL) →
          (∀ s, LipschitzOn (F.g · (v s) p) S xn.length ng LG) →
          LipschitzOn (fun xe => [F.M xe p]) (Set.image2 (· ++ ·) S S) (2 * xn.length) 1 LM →
          LipschitzOn (F.h · p) (Set.image2 (· ++ ·) S S) (2 * xn.length) nh LH →
          FineMesh c.col.J N t.data P Lip → (∀ j < xn.length, NearPoly t.data P N δ fun s => (F.f (z s) (v s) p).getD j 0) →
          NearPoly t.data P (2 * N - 1) ε (fun s => F.L (z s) (v s) p) → (∀ i < P, ContinuousOn (fun s => F.L (z s) (v s) p) (pieceOf t.data i)) →
          (∀ r ≤ P * N, ∀ x : List ℝ, x.length = xn.length →
            (∀ j < xn.length, |x.getD j 0 - (z (tc.getD r 0)).getD j 0| ≤ errorBound c.col.J N Lip t.data δ 0 (P - 1)) → x ∈ S) →
        ∃ (x : Nat → List ℝ) (d : List ℝ) (cost : ℝ), d.length = q.prob.ndec ∧ (∀ r ≤ P * N, ocX xn.length d r = x r) ∧ x 0 = z (t.data.getD 0 0) ∧
          (∀ r ≤ P * N, ocU P N xn.length un.length d r = v (tc.getD r 0)) ∧ ocP P N xn.length un.length pn.length d = p ∧
          q.prob.constr d = .ok (List.replicate (P * (N * xn.length)) 0 ++
            ((List.range (P * N + 1)).flatMap fun r => F.g (x r) (v (tc.getD r 0)) p) ++ F.h (x 0 ++ x (P * N)) p) ∧
          (∀ r ≤ P * N, ∀ k < ng, |(F.g (x r) (v (tc.getD r 0)) p).getD k 0 - (F.g (z (tc.getD r 0)) (v (tc.getD r 0)) p).getD k 0| ≤
            LG * errorBound c.col.J N Lip t.data δ 0 (P - 1)) ∧
          (∀ k < nh, |(F.h (x 0 ++ x (P * N)) p).getD k 0 - (F.h (z (t.data.getD 0 0) ++ z (t.data.getD P 0)) p).getD k 0| ≤
            LH * errorBound c.col.J N Lip t.data δ 0 (P - 1)) ∧
          q.prob.obj d = .ok cost ∧
            |cost - ((∫ s in t.data.getD 0 0..t.data.getD P 0, F.L (z s) (v s) p) + F.M (z (t.data.getD 0 0) ++ z (t.data.getD P 0)) p)| ≤
              (LL * (t.data.getD P 0 - t.data.getD 0 0) + LM) * errorBound c.col.J N Lip t.data δ 0 (P - 1) +
              2 * ∑ i ∈ Finset.range P, ε i * (t.data.getD (i + 1) 0 - t.data.getD i 0) := by
  obtain ⟨c, h1, h2, h3⟩ := C70_oc hA U F hU hN hN1 hv hd hi
  obtain ⟨c', h1', h3'⟩ := C76_cost hA U F hU hN hN1 hv hd hi
  obtain rfl : c = c' := Except.ok.inj (h1.symm.trans h1')
  obtain ⟨c', h1', h3''⟩ := C76_exists hA U F hU hN hN1 hv hd hi
  obtain rfl : c = c' := Except.ok.inj (h1.symm.trans h1')
  obtain ⟨c', h1', h3o⟩ := C76_oc hA U F hU hN hN1 hv hd hi
  obtain rfl : c = c' := Except.ok.inj (h1.symm.trans h1')
  refine ⟨c, h1, fun codegen hcg => ?_⟩
  obtain ⟨m, s, g1, -, -, -, -, -, h4⟩ := h3 codegen hcg
  obtain ⟨m', g1', h4'⟩ := h3' codegen hcg
  obtain rfl : m = m' := Except.ok.inj (g1.symm.trans g1')
  obtain ⟨m', g1', h4''⟩ := h3'' codegen hcg
  obtain rfl : m = m' := Except.ok.inj (g1.symm.trans g1')
  obtain ⟨m', g1', h4o⟩ := h3o codegen hcg
  obtain rfl : m = m' := Except.ok.inj (g1.symm.trans g1')
  refine ⟨m, g1, fun t P hP hs hw hinc => ?_⟩
  obtain ⟨q, q1, q2, q3⟩ := h4 t P hP hs hw hinc
  obtain ⟨q', q1', q3'⟩ := h4' t P hP hs hw hinc
  obtain rfl : q = q' := Except.ok.inj (q1.symm.trans q1')
  obtain ⟨q', q1', q3''⟩ := h4'' t P hP hs hw hinc
  obtain rfl : q = q' := Except.ok.inj (q1.symm.trans q1')
  obtain ⟨q', q1', q3o⟩ := h4o t P hP hs hw hinc
  obtain rfl : q = q' := Except.ok.inj (q1.symm.trans q1')
  have hl : t.data.length = P + 1 := by rw [hw, hs]; simp
  have ht := pairwise_getD hl hinc
  obtain ⟨hpo, hK⟩ := lgl_points_ok hN1 hN h2
  obtain ⟨tc, htc, -⟩ := C22_grid c.col.points t.data (by rw [hpo.len]; omega) hpo.first (by intro e; simp [e] at hl)
  obtain ⟨hltc, hpt⟩ := grid_pointTime hpo.len hN1 hpo.first hpo.last hl htc
  refine ⟨q, tc, q1, htc, fun z v p hpr S Lip LL LM LG LH δ ε hLip hLL hLM hδ0 hL hLl hGl hMl hHl hq hδ hε hcont hS => ?_⟩
  obtain ⟨d, ⟨d1, d2, d3, d4, cv, d5, d6⟩, -⟩ := q3'' (z (t.data.getD 0 0)) p (fun r => v (tc.getD r 0)) Lip (hpr.lenx _) hpr.lenp (fun r => hpr.lenu _) hLip
    (fun r _ => hL _) hq
  have hle : ∀ i < P, ∀ l ≤ N, i * N + l ≤ P * N := fun i hi l hl => by
    have : (i + 1) * N ≤ P * N := Nat.mul_le_mul_right _ hi
    rw [Nat.add_mul] at this
    omega
  have hu : ∀ i < P, ∀ l ≤ N, ocU P N xn.length un.length d (i * N + l) = v (pointTime t.data c.col.points i l) := fun i hi l hl => by
    rw [d3 _ (hle i hi l hl), hpt i hi l hl]
  have he : ∀ j < xn.length, |(ocX xn.length d 0).getD j 0 - (z (t.data.getD 0 0)).getD j 0| ≤ 0 := fun j _ => by rw [d2]; simp
  have herr := q3o z v p hpr {x | x.length = xn.length} Lip 0 δ hLip (fun i _ l _ => hL _) hq hδ (fun i _ l _ => hpr.lenx _) d cv d1 d5 d6 hu d4
    (fun i _ l _ => ocX_length ..) he
  have herr' : ∀ r ≤ P * N, ∀ j < xn.length, |(ocX xn.length d r).getD j 0 - (z (tc.getD r 0)).getD j 0| ≤ errorBound c.col.J N Lip t.data δ 0 (P - 1) := by
    intro r hr j hj
    obtain ⟨i, hi, l, hl, rfl⟩ := nat_piece hN1 hP hr
    rw [hpt i hi l hl]
    exact (herr i hi l hl j hj).trans (errorBound_mono ht hLip le_rfl hδ0 hi).2
  have hxS : ∀ r ≤ P * N, ocX xn.length d r ∈ S := fun r hr => hS r hr _ (ocX_length ..) (herr' r hr)
  have hE0 := (errorBound_mono (J := c.col.J) (N := N) ht hLip (le_refl (0 : ℝ)) hδ0 (show P - 1 < P by omega)).1
  have hzS : ∀ r ≤ P * N, z (tc.getD r 0) ∈ S := fun r hr => hS r hr _ (hpr.lenx _) fun j _ => by simpa using hE0
  obtain ⟨cost, k1, k2⟩ := q3' z v p hpr {x | x.length = xn.length} S Lip LL LM 0 δ ε hLip hLL hLM le_rfl hδ0 (fun i _ l _ => hL _) (fun i _ l _ => hLl _)
    hMl hq hδ hε hcont (fun i hi l hl => ⟨hpr.lenx _, by rw [← hpt i hi l hl]; exact hzS _ (hle i hi l hl)⟩) d cv d1 d5 d6 hu d4
    (fun i hi l hl => ⟨ocX_length .., hxS _ (hle i hi l hl)⟩) he
  have eP : tc.getD (P * N) 0 = t.data.getD P 0 := by
    have := hpt (P - 1) (by omega) N le_rfl
    rw [← Nat.succ_mul, show (P - 1).succ = P by omega, pointTime, hpo.last, show P - 1 + 1 = P by omega] at this
    rw [this]; ring
  have e0 : tc.getD 0 0 = t.data.getD 0 0 := by
    have := hpt 0 (by omega) 0 (Nat.zero_le _)
    rw [Nat.zero_mul, Nat.add_zero, pointTime, hpo.first] at this
    rw [this]; ring
  obtain rfl := Except.ok.inj ((q3 d d1).2.1.symm.trans d5)
  refine ⟨ocX xn.length d, d, cost, d1, fun r _ => rfl, d2, d3, d4, ?_, fun r hr k hk => ?_, fun k hk => ?_, k1, k2⟩
  · rw [d5, ocConstraints, d4]
    congr 3
    · rw [List.eq_replicate_iff]
      refine ⟨(flatMap_getElem? P fun i _ => defects_length ..).1, ?_⟩
      rw [flatMap_all_zero]
      unfold ocConstraints at d6
      rw [List.append_assoc, take_all_zero fun i _ => defects_length ..] at d6
      rwa [d4] at d6
    · refine List.flatMap_congr fun r hr => ?_
      rw [d3 r (by have := List.mem_range.1 hr; omega)]
  · exact hGl _ _ (hxS r hr) _ (hzS r hr) _ (herr' r hr) k hk
  · have h00 := herr' 0 (Nat.zero_le _)
    have hPP := herr' (P * N) le_rfl
    rw [e0] at h00
    rw [eP] at hPP
    refine hHl _ ⟨_, hxS 0 (Nat.zero_le _), _, hxS _ le_rfl, rfl⟩ _ ⟨_, e0 ▸ hzS 0 (Nat.zero_le _), _, eP ▸ hzS _ le_rfl, rfl⟩ _ (fun j hj => ?_) k hk
    simp only [List.getD_eq_getElem?_getD]
    rcases Nat.lt_or_ge j xn.length with h | h
    · rw [List.getElem?_append_left (by rw [ocX_length]; exact h), List.getElem?_append_left (by rw [hpr.lenx]; exact h),
        ← List.getD_eq_getElem?_getD, ← List.getD_eq_getElem?_getD]
      exact h00 j h
    · rw [List.getElem?_append_right (by rw [ocX_length]; exact h), List.getElem?_append_right (by rw [hpr.lenx]; exact h),
        ocX_length, hpr.lenx, ← List.getD_eq_getElem?_getD, ← List.getD_eq_getElem?_getD]
      exact hPP _ (by omega)

/-! ### An example -/

namespace Pendulum

/-- A motion of the pendulum that is not a polynomial, and the torque that it takes with friction `2`. -/
noncomputable def wave (s : ℝ) : List ℝ := [Real.sin s, Real.cos s]
noncomputable def waveTorque (s : ℝ) : List ℝ := [-Real.sin s + Real.sin (Real.sin s) + 2 * Real.cos s]

theorem wave_rhs (s : ℝ) : functions.f (wave s) (waveTorque s) [2] = [Real.cos s, -Real.sin s] := by
  simp [functions, wave, waveTorque]

theorem wave_process (t : List ℝ) (P : Nat) : Process functions t P 2 1 1 wave waveTorque [2] where
  lenx := fun _ => rfl
  lenu := fun _ => rfl
  lenp := rfl
  cont := fun j hj => by
    rcases (show j = 0 ∨ j = 1 by omega) with rfl | rfl
    · exact Real.continuous_sin
    · exact Real.continuous_cos
  ode := fun i _ s _ j hj => by
    rw [wave_rhs]
    rcases (show j = 0 ∨ j = 1 by omega) with rfl | rfl
    · exact (Real.hasDerivAt_sin s).hasDerivWithinAt
    · exact (Real.hasDerivAt_cos s).hasDerivWithinAt

/-- The pendulum is Lipschitz continuous with constant `3` for all states. -/
theorem lipschitz (u : List ℝ) : LipschitzOn (functions.f · u [2]) {x | x.length = 2} 2 2 3 := by
  intro x _ x' _ E hE j hj
  have h0 := hE 0 (by omega)
  have h1 := hE 1 (by omega)
  have hE0 := (abs_nonneg _).trans h0
  rcases (show j = 0 ∨ j = 1 by omega) with rfl | rfl
  · refine h1.trans ?_
    linarith
  · have hs : |Real.sin (x.getD 0 0) - Real.sin (x'.getD 0 0)| ≤ E := (Real.abs_sin_sub_sin_le _ _).trans h0
    show |(-Real.sin (x.getD 0 0) + (u.getD 0 0 - 2 * x.getD 1 0)) - (-Real.sin (x'.getD 0 0) + (u.getD 0 0 - 2 * x'.getD 1 0))| ≤ 3 * E
    rw [abs_le] at *
    constructor <;> linarith [hs.1, hs.2, h1.1, h1.2]

/-- For all meshes of `[0, 1]` with pieces no longer than `h`, for small `h`, the program has a unique point with the initial state and the inputs of the motion without
defects, and its states differ from the motion by at most a constant times `h ^ 3`. -/
example : ∃ c, symocInit SExpr.arith user iter vars ["xe", "y"] = .ok c ∧ ∃ m, symocGen (exprCode (shapeOf c.vars)) user c = .ok m ∧
    ∃ C h0 : ℝ, 0 < h0 ∧ ∀ (h : ℝ) (t : NDArray ℝ) (P : Nat), h ≤ h0 → 1 ≤ P → t.shape = [P + 1] → t.WF → t.data.Pairwise (· < ·) →
      t.data.getD 0 0 = 0 → t.data.getD P 0 = 1 → (∀ i < P, t.data.getD (i + 1) 0 - t.data.getD i 0 ≤ h) →
      ∃ q tc, ocProblem m t = .ok q ∧ grid c.col.points t.data = .ok tc ∧
        ∃! d : List ℝ, (d.length = q.prob.ndec ∧ ocX 2 d 0 = [0, 1] ∧ (∀ r ≤ P * 2, ocU P 2 2 1 d r = waveTorque (tc.getD r 0)) ∧ ocP P 2 2 1 1 d = [2] ∧
          ∃ cv, q.prob.constr d = .ok cv ∧ ∀ k < P * (2 * 2), cv.getD k 0 = 0) ∧
          ∀ i < P, ∀ l ≤ 2, ∀ j < 2, |(ocX 2 d (i * 2 + l)).getD j 0 - (wave (pointTime t.data c.col.points i l)).getD j 0| ≤ C * h ^ 3 := by
  obtain ⟨c, h1, h2⟩ := C76_exists arith_ok user functions (xn := ["angle", "speed"]) (un := ["torque"]) (pn := ["friction"]) (N := 2)
    denotes rfl (by decide) vars_ok (decision := ["xe", "y"]) (by unfold DecisionOK; decide) iter_ok
  obtain ⟨c', h1', h2'⟩ := C76_rate arith_ok user functions (xn := ["angle", "speed"]) (un := ["torque"]) (pn := ["friction"]) (N := 2)
    denotes rfl (by decide) vars_ok (decision := ["xe", "y"]) (by unfold DecisionOK; decide) iter_ok
  obtain rfl : c = c' := Except.ok.inj (h1.symm.trans h1')
  obtain ⟨c', k1, k2, -⟩ := C70_oc arith_ok user functions (xn := ["angle", "speed"]) (un := ["torque"]) (pn := ["friction"]) (N := 2)
    denotes rfl (by decide) vars_ok (decision := ["xe", "y"]) (by unfold DecisionOK; decide) iter_ok
  obtain rfl : c = c' := Except.ok.inj (h1.symm.trans k1)
  obtain ⟨hpo, -⟩ := lgl_points_ok (N := 2) (by decide) rfl k2
  obtain ⟨m, h3, h4⟩ := h2 (exprCode (shapeOf c.vars)) fun _ g _ => C66_expr_code _ g
  obtain ⟨m', h3', h4'⟩ := h2' (exprCode (shapeOf c.vars)) fun _ g _ => C66_expr_code _ g
  obtain rfl : m = m' := Except.ok.inj (h3.symm.trans h3')
  have hJ := jnorm_nonneg c.col.J 2
  refine ⟨c, h1, m, h3, Real.exp (2 * jnorm c.col.J 2 * 3 * (1 - 0)) * ((((2 : Nat) : ℝ) + jnorm c.col.J 2) * (1 - 0) * 1 / ((2 : Nat).factorial : ℝ)),
    1 / (6 * (jnorm c.col.J 2 + 1)), by positivity, fun h t P hh hP hs hw hinc ht0 htP hth => ?_⟩
  obtain ⟨q, q1, q2⟩ := h4 t P hP hs hw hinc
  obtain ⟨q', q1', q2'⟩ := h4' t P hP hs hw hinc
  obtain rfl : q = q' := Except.ok.inj (q1.symm.trans q1')
  have hl : t.data.length = P + 1 := by rw [hw, hs]; simp
  have ht := pairwise_getD hl hinc
  obtain ⟨tc, htc, -⟩ := C22_grid c.col.points t.data (by rw [hpo.len]; omega) hpo.first (by intro e; simp [e] at hl)
  obtain ⟨hltc, hpt⟩ := grid_pointTime hpo.len (by decide) hpo.first hpo.last hl htc
  have hq : h * jnorm c.col.J 2 * 3 ≤ 1 / 2 := by
    have := mul_le_mul_of_nonneg_right hh (show 0 ≤ 6 * (jnorm c.col.J 2 + 1) by positivity)
    rw [div_mul_cancel₀ _ (by positivity)] at this
    have hh0 : 0 ≤ h := by linarith [hth 0 (by omega), ht 0 (by omega)]
    linarith
  obtain ⟨d, ⟨d1, d2, d3, d4, cv, d5, d6⟩, hu⟩ := q2 [0, 1] [2] (fun r => waveTorque (tc.getD r 0)) 3 rfl rfl (fun _ => rfl) (by norm_num) (fun r _ => lipschitz _)
    (fun i hi => le_trans (by gcongr; exact hth i hi) hq)
  refine ⟨q, tc, q1, htc, d, ⟨⟨d1, d2, d3, d4, cv, d5, d6⟩, ?_⟩, fun d' hd' => hu d' hd'.1⟩
  have hle : ∀ i < P, ∀ l ≤ 2, i * 2 + l ≤ P * 2 := fun i hi l hl => by omega
  have d2' : ocX 2 d 0 = [0, 1] := d2
  intro i hi l hl' j hj
  refine (q2' wave waveTorque [2] (wave_process _ _) {x | x.length = 2} 3 0 1 h (by norm_num) le_rfl (by norm_num) (fun i _ l _ => lipschitz _) hth hq
    (fun i hi j hj => ?_) (fun i _ l _ => rfl) d cv d1 d5 d6 (fun i hi l hl => by rw [← hpt i hi l hl]; exact d3 _ (hle i hi l hl)) d4 (fun i _ l _ => ocX_length ..)
    (fun j hj => ?_) i hi l hl' j hj).trans (le_of_eq ?_)
  · simp only [wave_rhs]
    have hlt := ht i hi
    rcases (show j = 0 ∨ j = 1 from by have : j < 2 := hj; omega) with rfl | rfl
    · refine ⟨Real.contDiff_cos.contDiffOn, fun s hs => ?_⟩
      show |iteratedDerivWithin 3 Real.cos _ s| ≤ 1
      rw [pieceOf, iteratedDerivWithin_eq_iteratedDeriv (uniqueDiffOn_Icc hlt) Real.contDiff_cos.contDiffAt hs]
      exact Real.abs_iteratedDeriv_cos_le_one 3 s
    · refine ⟨Real.contDiff_sin.neg.contDiffOn, fun s hs => ?_⟩
      show |iteratedDerivWithin 3 (fun s => -Real.sin s) _ s| ≤ 1
      rw [pieceOf, iteratedDerivWithin_eq_iteratedDeriv (uniqueDiffOn_Icc hlt) Real.contDiff_sin.neg.contDiffAt hs, iteratedDeriv_fun_neg, abs_neg]
      exact Real.abs_iteratedDeriv_sin_le_one 3 s
  · show |(ocX 2 d 0).getD j 0 - (wave (t.data.getD 0 0)).getD j 0| ≤ 0
    rw [d2', ht0, wave, Real.sin_zero, Real.cos_zero, sub_self, abs_zero]
  · rw [ht0, htP]
    ring

end Pendulum
end Ceacoest
