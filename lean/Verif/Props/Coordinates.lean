import Verif.Spec.Coordinates
import Verif.Props.TimeReversal
import Verif.Props.ConvergenceOEM
import Verif.Props.Examples

/-! # C94: The transcription does not depend on coordinates, units and time scales -/

namespace Ceacoest
open RK Spec
variable {X : Type}

theorem affine_length (A : Nat → Nat → ℝ) (b : Nat → ℝ) (nz nx : Nat) (z : List ℝ) : (affine A b nz nx z).length = nx := by simp [affine]

theorem affine_getD (A : Nat → Nat → ℝ) (b : Nat → ℝ) (nz : Nat) {nx i : Nat} (z : List ℝ) (hi : i < nx) :
    (affine A b nz nx z).getD i 0 = ∑ j ∈ Finset.range nz, A i j * z.getD j 0 + b i := by
  rw [getD_of_lt _ _ (by simpa [affine] using hi)]
  simp [affine]

theorem ocU_length (P N nx nu : Nat) (d : List ℝ) (r : Nat) : (ocU P N nx nu d r).length = nu := rowAt_length ..
theorem ocP_length (P N nx nu np : Nat) (d : List ℝ) : (ocP P N nx nu np d).length = np := rowAt_length ..

/-- Rows of a decision vector that is put together from rows. -/
theorem ocRows {P N nx nu np : Nat} (x u : Nat → List ℝ) (p : List ℝ) (hx : ∀ r, (x r).length = nx) (hu : ∀ r, (u r).length = nu) (hp : p.length = np) :
    let d := ((List.range (P * N + 1)).flatMap x) ++ ((List.range (P * N + 1)).flatMap u) ++ p
    d.length = (P * N + 1) * (nx + nu) + np ∧ (∀ r ≤ P * N, ocX nx d r = x r) ∧ (∀ r ≤ P * N, ocU P N nx nu d r = u r) ∧ ocP P N nx nu np d = p := by
  intro d
  have e : d = samples ((List.range (P * N + 1)).map fun r : Nat => (r : ℝ)) (fun s => x ⌊s⌋₊) (fun s => u ⌊s⌋₊) p := by
    simp only [samples, List.flatMap_map, Nat.floor_natCast, d]
  obtain ⟨h1, h2, h3, h4⟩ := samples_rows (tc := (List.range (P * N + 1)).map fun r : Nat => (r : ℝ)) (z := fun s => x ⌊s⌋₊)
    (v := fun s => u ⌊s⌋₊) (p := p) (P := P) (N := N) (nx := nx) (nu := nu) (np := np) (by simp) (fun s => hx _) (fun s => hu _) hp
  rw [← e] at h1 h2 h3 h4
  have e : ∀ r < P * N + 1, ⌊((List.range (P * N + 1)).map fun r : Nat => (r : ℝ)).getD r 0⌋₊ = r := fun r hr => by
    rw [getD_of_lt _ _ (by simpa using hr), List.getElem_map, List.getElem_range, Nat.floor_natCast]
  exact ⟨h1, fun r hr => by rw [h2 r (by omega), e r (by omega)], fun r hr => by rw [h3 r (by omega), e r (by omega)], h4⟩

theorem decision_rows {F' F : OCFunctions} {C : Change} {P N nz nv nq nx nu np : Nat} (hC : SameProcesses F' F C nz nv nq nx nu np) (d : List ℝ) :
    (C.decision P N nz nv nq nx d).length = (P * N + 1) * (nx + nu) + np ∧
    (∀ r ≤ P * N, ocX nx (C.decision P N nz nv nq nx d) r = C.x nz nx (ocX nz d r) (ocP P N nz nv nq d)) ∧
    (∀ r ≤ P * N, ocU P N nx nu (C.decision P N nz nv nq nx d) r = C.u (ocX nz d r) (ocU P N nz nv d r) (ocP P N nz nv nq d)) ∧
    ocP P N nx nu np (C.decision P N nz nv nq nx d) = C.p (ocP P N nz nv nq d) :=
  ocRows _ _ _ (fun _ => affine_length ..) (fun _ => hC.lenu _ _ _ (rowAt_length ..) (rowAt_length ..) (rowAt_length ..)) (hC.lenp _ (rowAt_length ..))

theorem scaledTimes_diff (τ t₀ : ℝ) {t : List ℝ} {P i : Nat} (hl : t.length = P + 1) (hi : i < P) :
    (diff (scaledTimes τ t₀ t)).getD i 0 = τ * (diff t).getD i 0 := by
  have hl' : (scaledTimes τ t₀ t).length = P + 1 := by simp [scaledTimes, hl]
  have e : ∀ k ≤ P, (scaledTimes τ t₀ t).getD k 0 = τ * t.getD k 0 + t₀ := fun k hk => by
    rw [getD_of_lt _ _ (by omega), getD_of_lt _ _ (by omega)]
    simp [scaledTimes]
  rw [diff_getD (by omega), diff_getD (by omega), e _ (by omega), e _ (by omega)]
  ring

/-- The cost in other coordinates. -/
theorem ocCost_change {F' F : OCFunctions} {C : Change} {K t : List ℝ} {P N nz nv nq nx nu np : Nat} (hC : SameProcesses F' F C nz nv nq nx nu np) (t₀ : ℝ)
    (hl : t.length = P + 1) (d : List ℝ) :
    ocCost F K (diff (scaledTimes (C.τ (ocP P N nz nv nq d)) t₀ t)) P N nx nu np (C.decision P N nz nv nq nx d) = C.κ * ocCost F' K (diff t) P N nz nv nq d := by
  obtain ⟨-, hx, hu, hp⟩ := decision_rows (P := P) (N := N) hC d
  unfold ocCost
  rw [hp, hx 0 (by omega), hx (P * N) le_rfl, mul_add, hC.M _ _ _ (ocX_length ..) (ocX_length ..) (ocP_length ..), Finset.mul_sum]
  congr 1
  refine Finset.sum_congr rfl fun i hi => ?_
  have hi := Finset.mem_range.1 hi
  rw [scaledTimes_diff _ _ hl hi, Finset.sum_mul, Finset.sum_mul, Finset.mul_sum]
  refine Finset.sum_congr rfl fun l hlN => ?_
  have hlN : l ≤ N := by have := Finset.mem_range.1 hlN; omega
  have hb : i * N + l ≤ P * N := by
    have : (i + 1) * N ≤ P * N := Nat.mul_le_mul_right _ hi
    rw [Nat.succ_mul] at this
    omega
  rw [hx _ hb, hu _ hb]
  have h := hC.L _ _ _ (ocX_length nz d (i * N + l)) (ocU_length P N nz nv d (i * N + l)) (ocP_length P N nz nv nq d)
  linear_combination -(K.getD l 0 * (diff t).getD i 0) * h

/-- Defects of related rows are related. -/
theorem defects_change {J : List (List ℝ)} {rhs rhs' x x' : Nat → List ℝ} {A : Nat → Nat → ℝ} {b : Nat → ℝ} {N nx nz s : Nat} {len τ : ℝ}
    (hx : ∀ l ≤ N, x (s + l) = affine A b nz nx (x' (s + l)))
    (hf : ∀ l ≤ N, ∀ i < nx, ∑ j ∈ Finset.range nz, A i j * (rhs' (s + l)).getD j 0 = τ * (rhs (s + l)).getD i 0) {k i : Nat} (hk : k < N) (hi : i < nx) :
    (defects J rhs x N nx s (τ * len)).getD (k * nx + i) 0 = ∑ j ∈ Finset.range nz, A i j * (defects J rhs' x' N nz s len).getD (k * nz + j) 0 := by
  have e : ∑ j ∈ Finset.range nz, A i j * (defects J rhs' x' N nz s len).getD (k * nz + j) 0 =
      ∑ j ∈ Finset.range nz, A i j * ((x' (s + k + 1)).getD j 0 - (x' (s + k)).getD j 0 -
      (∑ l ∈ Finset.range (N + 1), (J.getD k []).getD l 0 * (rhs' (s + l)).getD j 0) * len) :=
    Finset.sum_congr rfl fun j hj => by rw [defects_getD _ _ _ _ _ hk (Finset.mem_range.1 hj)]
  rw [e, defects_getD _ _ _ _ _ hk hi, Nat.add_assoc, hx (k + 1) hk, hx k hk.le, affine_getD _ _ _ _ hi, affine_getD _ _ _ _ hi]
  simp only [mul_sub, Finset.sum_sub_distrib]
  have e2 : ∑ j ∈ Finset.range nz, A i j * ((∑ l ∈ Finset.range (N + 1), (J.getD k []).getD l 0 * (rhs' (s + l)).getD j 0) * len) =
      (∑ l ∈ Finset.range (N + 1), (J.getD k []).getD l 0 * (rhs (s + l)).getD i 0) * (τ * len) := by
    have e3 : ∀ l ∈ Finset.range (N + 1), (J.getD k []).getD l 0 * (rhs (s + l)).getD i 0 * (τ * len) =
        ∑ j ∈ Finset.range nz, A i j * ((J.getD k []).getD l 0 * (rhs' (s + l)).getD j 0 * len) := fun l hl => by
      have h := hf l (by have := Finset.mem_range.1 hl; omega) i hi
      have e4 : ∀ j ∈ Finset.range nz, A i j * ((J.getD k []).getD l 0 * (rhs' (s + l)).getD j 0 * len) =
          ((J.getD k []).getD l 0 * len) * (A i j * (rhs' (s + l)).getD j 0) := fun j _ => by ring
      rw [Finset.sum_congr rfl e4, ← Finset.mul_sum, h]
      ring
    rw [Finset.sum_mul, Finset.sum_congr rfl e3, Finset.sum_comm]
    refine Finset.sum_congr rfl fun j _ => ?_
    rw [Finset.sum_mul, Finset.mul_sum]
  rw [e2]
  ring

/-- A defect in other coordinates. -/
theorem ocDefect_change {F' F : OCFunctions} {C : Change} {J : List (List ℝ)} {t : List ℝ} {P N nz nv nq nx nu np : Nat} (hC : SameProcesses F' F C nz nv nq nx nu np)
    (t₀ : ℝ) (hl : t.length = P + 1) (d : List ℝ) {i k j : Nat} (hi : i < P) (hk : k < N) (hj : j < nx) :
    let D := C.decision P N nz nv nq nx d
    let q := ocP P N nz nv nq d
    (defects J (fun r => F.f (ocX nx D r) (ocU P N nx nu D r) (ocP P N nx nu np D)) (ocX nx D) N nx (i * N)
      ((diff (scaledTimes (C.τ q) t₀ t)).getD i 0)).getD (k * nx + j) 0 =
    ∑ a ∈ Finset.range nz, C.A q j a *
      (defects J (fun r => F'.f (ocX nz d r) (ocU P N nz nv d r) q) (ocX nz d) N nz (i * N) ((diff t).getD i 0)).getD (k * nz + a) 0 := by
  intro D q
  obtain ⟨-, hx, hu, hp⟩ := decision_rows (P := P) (N := N) hC d
  have hb : ∀ l ≤ N, i * N + l ≤ P * N := fun l hlN => by
    have : (i + 1) * N ≤ P * N := Nat.mul_le_mul_right _ hi
    rw [Nat.succ_mul] at this
    omega
  rw [scaledTimes_diff _ _ hl hi]
  refine defects_change (b := C.b q) (fun l hlN => hx _ (hb l hlN)) (fun l hlN i hi => ?_) hk hj
  rw [hx _ (hb l hlN), hu _ (hb l hlN), hp]
  exact hC.f _ _ _ (rowAt_length ..) (rowAt_length ..) (rowAt_length ..) i hi

/-- **C94.** Two optimal control models of the same processes, in other coordinates, units or time scales: a decision vector of the one and the corresponding
one of the other, for the corresponding times, have the same cost in the respective units, the same path constraints and end constraints, and the defects of the
one are those of the other in the other coordinates. -/
theorem C94_oc {A : SymArith X} {ev : X → Env → ℝ} (hA : ArithOK A ev) (U' U : OCUser X) (F' F : OCFunctions) (C : Change) {zn vn qn xn un pn : List String} {ng nh N : Nat}
    (hU' : OCDenotes ev U' F' zn.length vn.length qn.length ng nh) (hU : OCDenotes ev U F xn.length un.length pn.length ng nh)
    (hC : SameProcesses F' F C zn.length vn.length qn.length xn.length un.length pn.length)
    (hN : (N : Int) + 1 = U.order) (ho : U'.order = U.order) (hN1 : 1 ≤ N) {vars' vars : Dict String SymVar} (hv' : ColVars vars' zn vn qn) (hv : ColVars vars xn un pn)
    {decision' decision : List String} (hd' : DecisionOK vars' ["x", "u", "p", "xp", "up", "xe"] ["piece_len"] decision')
    (hd : DecisionOK vars ["x", "u", "p", "xp", "up", "xe"] ["piece_len"] decision) {iter' iter : String → List String} (hi' : OrdersOK iter' ocWrt)
    (hi : OrdersOK iter ocWrt) :
    ∃ c' c, symocInit A U' iter' vars' decision' = .ok c' ∧ symocInit A U iter vars decision = .ok c ∧
      ∀ codegen' codegen : SymFn X → List (NDArray ℝ) → NDArray ℝ,
      (∀ name g, Dict.get? c'.model.funcs name = some g → CodegenOK ev (shapeOf c'.vars) codegen' g) →
      (∀ name g, Dict.get? c.model.funcs name = some g → CodegenOK ev (shapeOf c.vars) codegen g) →
      ∃ m' m, symocGen codegen' U' c' = .ok m' ∧ symocGen codegen U c = .ok m ∧
      ∀ (t : NDArray ℝ) (P : Nat), 1 ≤ P → t.shape = [P + 1] → t.WF → t.data.Pairwise (· < ·) →
      ∃ q', ocProblem m' t = .ok q' ∧ q'.prob.ndec = (P * N + 1) * (zn.length + vn.length) + qn.length ∧
      ∀ d : List ℝ, d.length = q'.prob.ndec → 0 < C.τ (ocP P N zn.length vn.length qn.length d) → ∀ t₀ : ℝ,
      let D := C.decision P N zn.length vn.length qn.length xn.length d
      let q := ocP P N zn.length vn.length qn.length d
      ∃ pr, ocProblem m ⟨t.shape, scaledTimes (C.τ q) t₀ t.data⟩ = .ok pr ∧ D.length = pr.prob.ndec ∧
        ∃ cost cv' cv, q'.prob.obj d = .ok cost ∧ pr.prob.obj D = .ok (C.κ * cost) ∧ q'.prob.constr d = .ok cv' ∧ pr.prob.constr D = .ok cv ∧
          cv'.length = P * N * zn.length + (P * N + 1) * ng + nh ∧ cv.length = P * N * xn.length + (P * N + 1) * ng + nh ∧
          (∀ r < P * N, ∀ j < xn.length, cv.getD (r * xn.length + j) 0 = ∑ a ∈ Finset.range zn.length, C.A q j a * cv'.getD (r * zn.length + a) 0) ∧
          (∀ r ≤ P * N, ∀ j < ng, cv.getD (P * N * xn.length + r * ng + j) 0 = cv'.getD (P * N * zn.length + r * ng + j) 0) ∧
          ∀ j < nh, cv.getD (P * N * xn.length + (P * N + 1) * ng + j) 0 = cv'.getD (P * N * zn.length + (P * N + 1) * ng + j) 0 := by
  obtain ⟨c, h1, h2, h3⟩ := C70_oc hA U F hU hN hN1 hv hd hi
  obtain ⟨c', h1', h2', h3'⟩ := C70_oc hA U' F' hU' (by rw [ho]; exact hN) hN1 hv' hd' hi'
  rw [ho] at h2'
  have hcol : c'.col = c.col := Except.ok.inj (h2'.symm.trans h2)
  refine ⟨c', c, h1', h1, fun codegen' codegen hcg' hcg => ?_⟩
  obtain ⟨m, s, g1, -, -, -, -, -, h4⟩ := h3 codegen hcg
  obtain ⟨m', s', g1', -, -, -, -, -, h4'⟩ := h3' codegen' hcg'
  refine ⟨m', m, g1', g1, fun t P hP hs hw hinc => ?_⟩
  have hl : t.data.length = P + 1 := by rw [hw, hs]; simp
  obtain ⟨q', q1', q2', q3'⟩ := h4' t P hP hs hw hinc
  refine ⟨q', q1', q2', fun d hdl hτ t₀ => ?_⟩
  intro D q
  obtain ⟨pr, p1, p2, p3⟩ := h4 ⟨t.shape, scaledTimes (C.τ q) t₀ t.data⟩ P hP hs (by
    change (scaledTimes (C.τ q) t₀ t.data).length = t.shape.prod
    rw [← hw]; simp [scaledTimes]) (by
    change (scaledTimes (C.τ q) t₀ t.data).Pairwise (· < ·)
    rw [scaledTimes, List.pairwise_map]
    exact hinc.imp fun h => by have := mul_lt_mul_of_pos_left h hτ; linarith)
  obtain ⟨r1, rx, ru, rp⟩ := decision_rows (P := P) (N := N) hC d
  have hDl : D.length = pr.prob.ndec := by rw [p2]; exact r1
  obtain ⟨o1', k1', -⟩ := q3' d hdl
  obtain ⟨o1, k1, -⟩ := p3 D hDl
  rw [ocCost_change hC t₀ hl] at o1
  rw [hcol] at o1' k1'
  obtain ⟨lg, lh⟩ := oc_lengths hA hU
  obtain ⟨lg', lh'⟩ := oc_lengths hA hU'
  obtain ⟨b1, b2, b3, b4⟩ := ocConstraints_parts (F := F) (J := c.col.J) (len := diff (scaledTimes (C.τ q) t₀ t.data)) (P := P) (N := N) (d := D) lg lh
  obtain ⟨b1', b2', b3', b4'⟩ := ocConstraints_parts (F := F') (J := c.col.J) (len := diff t.data) (P := P) (N := N) (d := d) lg' lh'
  refine ⟨pr, p1, hDl, _, _, _, o1', o1, k1', k1, b1', b1, fun r hr j hj => ?_, fun r hr j hj => ?_, fun j hj => ?_⟩
  · obtain ⟨i, k, hiP, hk, rfl⟩ : ∃ i k, i < P ∧ k < N ∧ r = i * N + k :=
      ⟨r / N, r % N, Nat.div_lt_of_lt_mul (by rwa [Nat.mul_comm]), Nat.mod_lt _ hN1, (Nat.div_add_mod' r N).symm⟩
    rw [b2 i hiP k hk j hj, ocDefect_change hC t₀ hl d hiP hk hj]
    exact Finset.sum_congr rfl fun a ha => by rw [b2' i hiP k hk a (Finset.mem_range.1 ha)]
  · rw [b3 r hr j hj, b3' r hr j hj, rx r hr, ru r hr, rp, hC.g _ _ _ (ocX_length ..) (ocU_length ..) (ocP_length ..)]
  · rw [b4 j hj, b4' j hj, rp, rx 0 (by omega), rx (P * N) le_rfl, hC.h _ _ _ (ocX_length ..) (ocX_length ..) (ocP_length ..)]

/-- C94: the defects vanish together, if the change of coordinates of the states can be undone. -/
theorem C94_defects {A B : Nat → Nat → ℝ} {nz nx R : Nat} {e e' : Nat → Nat → ℝ} (h : ∀ r < R, ∀ j < nx, e r j = ∑ a ∈ Finset.range nz, A j a * e' r a)
    (hB : LeftInverse B A nz nx) : (∀ r < R, ∀ j < nx, e r j = 0) ↔ ∀ r < R, ∀ a < nz, e' r a = 0 := by
  refine ⟨fun h0 r hr a ha => ?_, fun h0 r hr j hj => ?_⟩
  · have e1 : ∑ j ∈ Finset.range nx, B a j * e r j = e' r a := by
      have e2 : ∀ j ∈ Finset.range nx, B a j * e r j = ∑ a' ∈ Finset.range nz, B a j * A j a' * e' r a' := fun j hj => by
        rw [h r hr j (Finset.mem_range.1 hj), Finset.mul_sum]
        exact Finset.sum_congr rfl fun _ _ => by ring
      rw [Finset.sum_congr rfl e2, Finset.sum_comm]
      have e3 : ∀ a' ∈ Finset.range nz, ∑ j ∈ Finset.range nx, B a j * A j a' * e' r a' = (if a = a' then 1 else 0) * e' r a' := fun a' ha' => by
        rw [← Finset.sum_mul, hB a ha a' (Finset.mem_range.1 ha')]
      rw [Finset.sum_congr rfl e3]
      simp [ha]
    rw [← e1]
    exact Finset.sum_eq_zero fun j hj => by rw [h0 r hr j (Finset.mem_range.1 hj), mul_zero]
  · rw [h r hr j hj]
    exact Finset.sum_eq_zero fun a ha => by rw [h0 r hr a (Finset.mem_range.1 ha), mul_zero]

/-- C94: a problem in which all rates are multiplied by a duration that is a parameter describes the processes of the problem without it, on times that are longer by that
factor. -/
theorem C94_duration (F : OCFunctions) (τ : List ℝ → ℝ) (nx nu np : Nat)
    (hf : ∀ x u p, x.length = nx → u.length = nu → p.length = np → (F.f x u p).length = nx) :
    SameProcesses (F.withDuration τ) F (Change.time τ) nx nu np nx nu np := by
  have e : ∀ z q, z.length = nx → (Change.time τ).x nx nx z q = z := fun z q hz => by
    refine List.ext_getElem (by simp [Change.x, affine, hz]) fun i h1 h2 => ?_
    simp only [Change.x, affine, Change.time, List.getElem_map, List.getElem_range, add_zero, ite_mul, one_mul, zero_mul, Finset.sum_ite_eq,
      Finset.mem_range]
    rw [if_pos (by omega), getD_of_lt _ _ h2]
  refine ⟨fun z v q _ hv _ => hv, fun q hq => hq, fun z v q hz hv hq i hi => ?_, fun z v q hz hv hq => ?_, fun z0 z1 q h0 h1 hq => ?_, fun z v q hz hv hq => ?_,
    fun z0 z1 q h0 h1 hq => ?_⟩
  · rw [e z q hz]
    simp only [Change.time, OCFunctions.withDuration, ite_mul, one_mul, zero_mul, Finset.sum_ite_eq, Finset.mem_range, if_pos hi]
    have := hf z v q hz hv hq
    rw [getD_of_lt _ _ (by simpa [this] using hi), getD_of_lt _ _ (by omega), List.getElem_map, mul_comm]
  · rw [e z q hz]
    simp only [Change.time, OCFunctions.withDuration]
    ring
  · rw [e z0 q h0, e z1 q h1]
    simp only [Change.time, OCFunctions.withDuration, one_mul]
  · rw [e z q hz]
    rfl
  · rw [e z0 q h0, e z1 q h1]
    rfl

/-- **C94.** Linear invariants: if the combination `∑ c j * x j` of the states does not change along the processes, then its increments over the intervals of the transcription
are the same combinations of the defects; without defects it has the same value at all points. -/
theorem C94_invariant {A : SymArith X} {ev : X → Env → ℝ} (hA : ArithOK A ev) (U : OCUser X) (F : OCFunctions) {xn un pn : List String} {ng nh N : Nat}
    (hU : OCDenotes ev U F xn.length un.length pn.length ng nh) (hN : (N : Int) + 1 = U.order) (hN1 : 1 ≤ N) {vars : Dict String SymVar} (hv : ColVars vars xn un pn)
    {decision : List String} (hd : DecisionOK vars ["x", "u", "p", "xp", "up", "xe"] ["piece_len"] decision) {iter : String → List String} (hi : OrdersOK iter ocWrt)
    (c : Nat → ℝ) (hc : ∀ x u p, x.length = xn.length → u.length = un.length → p.length = pn.length → ∑ j ∈ Finset.range xn.length, c j * (F.f x u p).getD j 0 = 0) :
    ∃ s, symocInit A U iter vars decision = .ok s ∧ ∀ codegen : SymFn X → List (NDArray ℝ) → NDArray ℝ,
      (∀ name g, Dict.get? s.model.funcs name = some g → CodegenOK ev (shapeOf s.vars) codegen g) →
      ∃ m, symocGen codegen U s = .ok m ∧ ∀ (t : NDArray ℝ) (P : Nat), 1 ≤ P → t.shape = [P + 1] → t.WF → t.data.Pairwise (· < ·) →
      ∃ q, ocProblem m t = .ok q ∧ ∀ d : List ℝ, d.length = q.prob.ndec → ∃ cv, q.prob.constr d = .ok cv ∧
        (∀ r < P * N, ∑ j ∈ Finset.range xn.length, c j * (ocX xn.length d (r + 1)).getD j 0 - ∑ j ∈ Finset.range xn.length, c j * (ocX xn.length d r).getD j 0 =
          ∑ j ∈ Finset.range xn.length, c j * cv.getD (r * xn.length + j) 0) ∧
        ((∀ k < P * N * xn.length, cv.getD k 0 = 0) → ∀ r ≤ P * N,
          ∑ j ∈ Finset.range xn.length, c j * (ocX xn.length d r).getD j 0 = ∑ j ∈ Finset.range xn.length, c j * (ocX xn.length d 0).getD j 0) := by
  obtain ⟨s, h1, h2, h3⟩ := C70_oc hA U F hU hN hN1 hv hd hi
  refine ⟨s, h1, fun codegen hcg => ?_⟩
  obtain ⟨m, s', g1, -, -, -, -, -, h4⟩ := h3 codegen hcg
  refine ⟨m, g1, fun t P hP hs hw hinc => ?_⟩
  obtain ⟨q, q1, q2, q3⟩ := h4 t P hP hs hw hinc
  refine ⟨q, q1, fun d hdl => ?_⟩
  obtain ⟨-, k1, -⟩ := q3 d hdl
  obtain ⟨lg, lh⟩ := oc_lengths hA hU
  obtain ⟨b1, b2, -, -⟩ := ocConstraints_parts (F := F) (J := s.col.J) (len := diff t.data) (P := P) (N := N) (d := d) lg lh
  have key : ∀ r < P * N, ∑ j ∈ Finset.range xn.length, c j * (ocX xn.length d (r + 1)).getD j 0 - ∑ j ∈ Finset.range xn.length, c j * (ocX xn.length d r).getD j 0 =
      ∑ j ∈ Finset.range xn.length, c j * (ocConstraints F s.col.J (diff t.data) P N xn.length un.length pn.length d).getD (r * xn.length + j) 0 := fun r hr => by
    obtain ⟨i, k, hiP, hk, rfl⟩ : ∃ i k, i < P ∧ k < N ∧ r = i * N + k :=
      ⟨r / N, r % N, Nat.div_lt_of_lt_mul (by rwa [Nat.mul_comm]), Nat.mod_lt _ hN1, (Nat.div_add_mod' r N).symm⟩
    have h := defects_change (J := s.col.J) (rhs := fun _ => [0]) (rhs' := fun r => F.f (ocX xn.length d r) (ocU P N xn.length un.length d r) (ocP P N xn.length un.length pn.length d))
      (x := fun r => affine (fun _ => c) (fun _ => 0) xn.length 1 (ocX xn.length d r)) (x' := ocX xn.length d) (A := fun _ => c) (b := fun _ => 0) (N := N) (nx := 1) (nz := xn.length)
      (s := i * N) (len := (diff t.data).getD i 0) (τ := 1) (fun _ _ => rfl) (fun l hl j hj => by
        rw [hc _ _ _ (ocX_length ..) (ocU_length ..) (ocP_length ..)]
        obtain rfl : j = 0 := by omega
        simp) (k := k) (i := 0) hk (by omega)
    have h' : ∑ j ∈ Finset.range xn.length, c j * (ocConstraints F s.col.J (diff t.data) P N xn.length un.length pn.length d).getD ((i * N + k) * xn.length + j) 0 =
        ∑ j ∈ Finset.range xn.length, c j * (defects s.col.J (fun r => F.f (ocX xn.length d r) (ocU P N xn.length un.length d r) (ocP P N xn.length un.length pn.length d))
          (ocX xn.length d) N xn.length (i * N) ((diff t.data).getD i 0)).getD (k * xn.length + j) 0 :=
      Finset.sum_congr rfl fun j hj => by rw [b2 i hiP k hk j (Finset.mem_range.1 hj)]
    rw [h', ← h, defects_getD _ _ _ _ _ hk (by omega), affine_getD _ _ _ _ (by omega), affine_getD _ _ _ _ (by omega)]
    simp
  refine ⟨_, k1, key, fun h0 r hr => ?_⟩
  induction r with
  | zero => rfl
  | succ r ih =>
    have h := key r (by omega)
    rw [Finset.sum_eq_zero (s := Finset.range xn.length) (f := fun j => c j * (ocConstraints F s.col.J (diff t.data) P N xn.length un.length pn.length d).getD (r * xn.length + j) 0)
      fun j hj => by rw [h0 _ (mul_add_lt (by omega) (Finset.mem_range.1 hj)), mul_zero]] at h
    rw [← ih (by omega)]
    linarith

/-! ### The brachistochrone: real time and similarity -/

namespace Brachistochrone
open SExpr

/-- Sliding in real time, for the time `tf`. -/
noncomputable def slide : OCFunctions where
  f x u _ := [x.getD 2 0 * Real.sin (u.getD 0 0), -x.getD 2 0 * Real.cos (u.getD 0 0), 9.80665 * Real.cos (u.getD 0 0)]
  L _ _ _ := 0
  M _ p := p.getD 0 0
  g _ _ _ := []
  h _ _ := []

/-- The example with the parameter `tf` is the motion in real time, on a mesh that is `tf` times as long. -/
theorem same_slide : SameProcesses functions slide (Change.time fun p => p.getD 0 0) 3 1 1 3 1 1 := by
  have h := C94_duration slide (fun p => p.getD 0 0) 3 1 1 fun _ _ _ _ _ _ => rfl
  have e : slide.withDuration (fun p => p.getD 0 0) = functions := by
    simp only [OCFunctions.withDuration, slide, functions, List.map_cons, List.map_nil, zero_mul]
  rwa [e] at h

/-- The example in real time, as symbolic methods. -/
noncomputable def slideUser : OCUser SExpr where
  order := 3
  f x u _ :=
    let v := x.getD 2 (const 0)
    let theta := u.getD 0 (const 0)
    [mul v (sin theta), mul (mul (const (-1)) v) (cos theta), mul (const 9.80665) (cos theta)]
  L _ _ _ := const 0
  M _ p := p.getD 0 (const 0)
  g _ _ _ := []
  h _ _ := []

theorem slide_denotes : OCDenotes ev slideUser slide 3 1 1 0 0 where
  lenf := fun _ _ _ _ _ _ => rfl
  leng := fun _ _ _ _ _ _ => rfl
  lenh := fun _ _ _ _ => rfl
  f := fun x u p env _ _ _ => by
    simp only [slideUser, slide, List.map_cons, List.map_nil, ev, Pendulum.getD_map_ev]
    congr 3
    ring
  L := fun x u p env _ _ _ => rfl
  M := fun xe p env _ _ => by simp only [slideUser, slide, Pendulum.getD_map_ev]
  g := fun x u p env _ _ _ => rfl
  h := fun xe p env _ _ => rfl

/-- All hypotheses hold: a descent of the example is one in real time, with the same cost. -/
example {iter : String → List String} (hi : OrdersOK iter ocWrt) : ∃ c' c, symocInit SExpr.arith brachistochrone iter brachistochroneVars [] = .ok c' ∧
    symocInit SExpr.arith slideUser iter brachistochroneVars [] = .ok c ∧
    ∃ m' m, symocGen (exprCode (shapeOf c'.vars)) brachistochrone c' = .ok m' ∧ symocGen (exprCode (shapeOf c.vars)) slideUser c = .ok m ∧
    ∃ q', ocProblem m' ⟨[3], [0, 1 / 2, 1]⟩ = .ok q' ∧ ∀ d : List ℝ, d.length = 21 → 0 < d.getD 20 0 →
      ∃ q, ocProblem m ⟨[3], [0, d.getD 20 0 / 2, d.getD 20 0]⟩ = .ok q ∧ ∃ D cost, q'.prob.obj d = .ok cost ∧ q.prob.obj D = .ok cost := by
  have hdec : DecisionOK brachistochroneVars ["x", "u", "p", "xp", "up", "xe"] ["piece_len"] [] := by unfold DecisionOK; decide
  obtain ⟨c', c, h1', h1, h2⟩ := C94_oc arith_ok brachistochrone slideUser functions slide (Change.time fun p => p.getD 0 0) (zn := ["x", "y", "v"]) (vn := ["theta"])
    (qn := ["tf"]) (xn := ["x", "y", "v"]) (un := ["theta"]) (pn := ["tf"]) (N := 2) denotes slide_denotes same_slide rfl rfl (by decide) vars_ok vars_ok hdec hdec hi hi
  obtain ⟨m', m, h3', h3, h4⟩ := h2 (exprCode (shapeOf c'.vars)) (exprCode (shapeOf c.vars)) (fun _ g _ => C66_expr_code _ g) fun _ g _ => C66_expr_code _ g
  obtain ⟨q', q1', q2', q3'⟩ := h4 ⟨[3], [0, 1 / 2, 1]⟩ 2 (by decide) rfl rfl (by norm_num)
  refine ⟨c', c, h1', h1, m', m, h3', h3, q', q1', fun d hd h0 => ?_⟩
  have e : (Change.time fun p => p.getD 0 0).τ (ocP 2 2 3 1 1 d) = d.getD 20 0 := by simp [Change.time, ocP, rowAt]
  obtain ⟨pr, p1, -, cost, cv', cv, o1', o1, -⟩ := q3' d (by rw [q2']; exact hd) (by rw [← e] at h0; exact h0) 0
  have p1 : ocProblem m ⟨[3], scaledTimes ((Change.time fun p => p.getD 0 0).τ (ocP 2 2 3 1 1 d)) 0 [0, 1 / 2, 1]⟩ = .ok pr := p1
  have et : scaledTimes (d.getD 20 0) 0 [0, 1 / 2, 1] = [0, d.getD 20 0 / 2, d.getD 20 0] := by
    simp only [scaledTimes, List.map_cons, List.map_nil, mul_zero, add_zero, mul_one, mul_one_div]
  rw [e, et] at p1
  have o1 : pr.prob.obj _ = .ok (1 * cost) := o1
  rw [one_mul] at o1
  exact ⟨pr, p1, _, cost, o1', o1⟩

/-- All lengths `s ^ 2` times as large, all speeds and times `s` times. -/
def larger (s : ℝ) : Change where
  A _ i j := if i = j then (if i = 2 then s else s ^ 2) else 0
  b _ _ := 0
  u _ v _ := v
  p q := q.map (s * ·)
  τ _ := 1
  κ := s

theorem larger_x (s : ℝ) {z : List ℝ} (hz : z.length = 3) (q : List ℝ) : (larger s).x 3 3 z q = [s ^ 2 * z.getD 0 0, s ^ 2 * z.getD 1 0, s * z.getD 2 0] := by
  obtain ⟨a, b, c, rfl⟩ : ∃ a b c, z = [a, b, c] := by
    match z, hz with
    | [a, b, c], _ => exact ⟨a, b, c, rfl⟩
  simp [Change.x, affine, larger, Finset.sum_range_succ, List.range_succ]

theorem similar (s : ℝ) : SameProcesses functions functions (larger s) 3 1 1 3 1 1 where
  lenu := fun _ _ _ _ hv _ => hv
  lenp := fun q hq => by simp [larger, hq]
  f := fun z v q hz hv hq i hi => by
    obtain ⟨tf, rfl⟩ : ∃ a, q = [a] := List.length_eq_one_iff.1 hq
    rw [larger_x s hz]
    have hi' : i = 0 ∨ i = 1 ∨ i = 2 := by omega
    rcases hi' with rfl | rfl | rfl
    all_goals
      simp [larger, functions, Finset.sum_range_succ]
      try ring
  L := fun z v q _ _ _ => by simp [functions]
  M := fun z0 z1 q _ _ hq => by
    obtain ⟨tf, rfl⟩ : ∃ a, q = [a] := List.length_eq_one_iff.1 hq
    simp [larger, functions]
  g := fun z v q _ _ _ => rfl
  h := fun z0 z1 q _ _ _ => rfl

end Brachistochrone

open Brachistochrone in
/-- C94 for the brachistochrone example: on every mesh, a descent `s ^ 2` times as large takes `s` times as long, and is feasible if and only if the original one is. -/
theorem C94_brachistochrone {iter : String → List String} (hi : OrdersOK iter ocWrt) :
    ∃ c, symocInit SExpr.arith brachistochrone iter brachistochroneVars [] = .ok c ∧
      ∃ m, symocGen (exprCode (shapeOf c.vars)) brachistochrone c = .ok m ∧
      ∀ (t : NDArray ℝ) (P : Nat), 1 ≤ P → t.shape = [P + 1] → t.WF → t.data.Pairwise (· < ·) →
      ∃ q, ocProblem m t = .ok q ∧ ∀ (s : ℝ) (d : List ℝ), 0 < s → d.length = q.prob.ndec →
        ∃ cost cv cv', q.prob.obj d = .ok cost ∧ q.prob.obj ((larger s).decision P 2 3 1 1 3 d) = .ok (s * cost) ∧
          q.prob.constr d = .ok cv ∧ q.prob.constr ((larger s).decision P 2 3 1 1 3 d) = .ok cv' ∧
          ((∀ k < P * 2 * 3, cv'.getD k 0 = 0) ↔ ∀ k < P * 2 * 3, cv.getD k 0 = 0) := by
  have hdec : DecisionOK brachistochroneVars ["x", "u", "p", "xp", "up", "xe"] ["piece_len"] [] := by unfold DecisionOK; decide
  obtain ⟨c0, h1, h2, h3⟩ := C70_oc (N := 2) arith_ok brachistochrone functions (xn := ["x", "y", "v"]) (un := ["theta"]) (pn := ["tf"]) denotes rfl (by decide) vars_ok hdec hi
  obtain ⟨m0, s0, g1, -⟩ := h3 (exprCode (shapeOf c0.vars)) fun _ g _ => C66_expr_code _ g
  refine ⟨c0, h1, m0, g1, fun t P hP hs hw hinc => ?_⟩
  have key := fun s => C94_oc arith_ok brachistochrone brachistochrone functions functions (larger s) (zn := ["x", "y", "v"]) (vn := ["theta"]) (qn := ["tf"])
    (xn := ["x", "y", "v"]) (un := ["theta"]) (pn := ["tf"]) (N := 2) denotes denotes (similar s) rfl rfl (by decide) vars_ok vars_ok hdec hdec hi hi
  obtain ⟨c', c, k1', k1, k2⟩ := key 1
  obtain rfl : c0 = c' := Except.ok.inj (h1.symm.trans k1')
  obtain rfl : c0 = c := Except.ok.inj (h1.symm.trans k1)
  obtain ⟨m', m, j1', j1, j2⟩ := k2 (exprCode (shapeOf c0.vars)) (exprCode (shapeOf c0.vars)) (fun _ g _ => C66_expr_code _ g) fun _ g _ => C66_expr_code _ g
  obtain rfl : m0 = m' := Except.ok.inj (g1.symm.trans j1')
  obtain ⟨q, q1, q2, -⟩ := j2 t P hP hs hw hinc
  refine ⟨q, q1, fun s d hs0 hd => ?_⟩
  obtain ⟨c', c, k1', k1, k2⟩ := key s
  obtain rfl : c0 = c' := Except.ok.inj (h1.symm.trans k1')
  obtain rfl : c0 = c := Except.ok.inj (h1.symm.trans k1)
  obtain ⟨m', m, j1', j1, j2⟩ := k2 (exprCode (shapeOf c0.vars)) (exprCode (shapeOf c0.vars)) (fun _ g _ => C66_expr_code _ g) fun _ g _ => C66_expr_code _ g
  obtain rfl : m0 = m' := Except.ok.inj (g1.symm.trans j1')
  obtain rfl : m0 = m := Except.ok.inj (g1.symm.trans j1)
  obtain ⟨q', q1', q2', q3'⟩ := j2 t P hP hs hw hinc
  obtain rfl : q = q' := Except.ok.inj (q1.symm.trans q1')
  obtain ⟨pr, p1, p2, cost, cv', cv, o1', o1, v1', v1, -, -, v2, -⟩ := q3' d hd one_pos 0
  have et : (⟨t.shape, scaledTimes ((larger s).τ (ocP P 2 3 1 1 d)) 0 t.data⟩ : NDArray ℝ) = t := by
    cases t; simp [scaledTimes, larger]
  simp only [List.length_cons, List.length_nil, Nat.zero_add, Nat.reduceAdd] at p1 o1 v1 v2
  rw [et] at p1
  obtain rfl : q = pr := Except.ok.inj (q1.symm.trans p1)
  refine ⟨cost, cv', cv, o1', o1, v1', v1, ?_⟩
  have hB : LeftInverse (fun i j => if i = j then (if i = 2 then s⁻¹ else (s ^ 2)⁻¹) else 0) ((larger s).A (ocP P 2 3 1 1 d)) 3 3 := by
    intro a ha b hb
    have hs1 := hs0.ne'
    have ha' : a = 0 ∨ a = 1 ∨ a = 2 := by omega
    have hb' : b = 0 ∨ b = 1 ∨ b = 2 := by omega
    rcases ha' with rfl | rfl | rfl <;> rcases hb' with rfl | rfl | rfl <;> simp [larger, Finset.sum_range_succ, hs1]
  have h := C94_defects (R := P * 2) (e := fun r j => cv.getD (r * 3 + j) 0) (e' := fun r j => cv'.getD (r * 3 + j) 0) v2 hB
  have eq : ∀ l : List ℝ, (∀ k < P * 2 * 3, l.getD k 0 = 0) ↔ ∀ r < P * 2, ∀ j < 3, l.getD (r * 3 + j) 0 = 0 := fun l =>
    ⟨fun h r hr j hj => h _ (mul_add_lt hr hj), fun h k hk => by
      have := h (k / 3) (by omega) (k % 3) (by omega)
      rwa [Nat.div_add_mod' k 3] at this⟩
  rw [eq, eq]
  exact h

/-! ### Tanks that exchange their contents -/

namespace Tanks
open SExpr

/-- Two tanks; the input and the difference of the levels drive the flow. -/
noncomputable def user : OCUser SExpr where
  order := 3
  f x u p :=
    let flow := add (u.getD 0 (const 0)) (mul (p.getD 0 (const 0)) (add (x.getD 1 (const 0)) (mul (const (-1)) (x.getD 0 (const 0)))))
    [flow, mul (const (-1)) flow]
  L _ u _ := mul (u.getD 0 (const 0)) (u.getD 0 (const 0))
  M _ _ := const 0
  g _ _ _ := []
  h _ _ := []

noncomputable def functions : OCFunctions where
  f x u p := [u.getD 0 0 + p.getD 0 0 * (x.getD 1 0 + -1 * x.getD 0 0), -1 * (u.getD 0 0 + p.getD 0 0 * (x.getD 1 0 + -1 * x.getD 0 0))]
  L _ u _ := u.getD 0 0 * u.getD 0 0
  M _ _ := 0
  g _ _ _ := []
  h _ _ := []

theorem denotes : OCDenotes ev user functions 2 1 1 0 0 where
  lenf := fun _ _ _ _ _ _ => rfl
  leng := fun _ _ _ _ _ _ => rfl
  lenh := fun _ _ _ _ => rfl
  f := fun x u p env _ _ _ => by simp only [user, functions, List.map_cons, List.map_nil, ev, Pendulum.getD_map_ev]
  L := fun x u p env _ _ _ => by simp only [user, functions, ev, Pendulum.getD_map_ev]
  M := fun xe p env _ _ => rfl
  g := fun x u p env _ _ _ => rfl
  h := fun xe p env _ _ => rfl

def vars : Dict String SymVar := [("x", .vec ["a", "b"]), ("u", .vec ["pump"]), ("p", .vec ["k"])]

theorem vars_ok : ColVars vars ["a", "b"] ["pump"] ["k"] where
  keys := by decide
  x := rfl
  u := Or.inl rfl
  p := Or.inl rfl
  pieceLen := fun v h => by cases h

/-- On any mesh, the contents of the two tanks together stay the same. -/
example {iter : String → List String} (hi : OrdersOK iter ocWrt) : ∃ c, symocInit SExpr.arith user iter vars [] = .ok c ∧
    ∃ m, symocGen (exprCode (shapeOf c.vars)) user c = .ok m ∧ ∃ q, ocProblem m ⟨[3], [0, 1, 3]⟩ = .ok q ∧
      ∀ d : List ℝ, d.length = q.prob.ndec → ∃ cv, q.prob.constr d = .ok cv ∧ ((∀ k < 8, cv.getD k 0 = 0) → ∀ r ≤ 4,
        (ocX 2 d r).getD 0 0 + (ocX 2 d r).getD 1 0 = (ocX 2 d 0).getD 0 0 + (ocX 2 d 0).getD 1 0) := by
  obtain ⟨c, h1, h2⟩ := C94_invariant arith_ok user functions (xn := ["a", "b"]) (un := ["pump"]) (pn := ["k"]) (N := 2) denotes rfl (by decide) vars_ok
    (decision := []) (by unfold DecisionOK; decide) hi (fun _ => 1) fun x u p _ _ _ => by simp [functions, Finset.sum_range_succ]
  obtain ⟨m, h3, h4⟩ := h2 (exprCode (shapeOf c.vars)) fun _ g _ => C66_expr_code _ g
  obtain ⟨q, q1, q2⟩ := h4 ⟨[3], [0, 1, 3]⟩ 2 (by decide) rfl rfl (by simp)
  refine ⟨c, h1, m, h3, q, q1, fun d hd => ?_⟩
  obtain ⟨cv, v1, -, v2⟩ := q2 d hd
  refine ⟨cv, v1, fun h0 r hr => ?_⟩
  have := v2 h0 r hr
  simpa [Finset.sum_range_succ] using this

end Tanks

/-! ### Output error problems -/

theorem oemConstraints_getD {F : OEMFunctions} {J : List (List ℝ)} {len u p d : List ℝ} {P N nx nu : Nat} :
    (oemConstraints F J len u P N nx nu p d).length = P * N * nx ∧ ∀ i < P, ∀ k < N, ∀ j < nx, (oemConstraints F J len u P N nx nu p d).getD ((i * N + k) * nx + j) 0 =
      (defects J (fun r => F.f (rowAt d 0 nx r) (rowAt u 0 nu r) p) (rowAt d 0 nx) N nx (i * N) (len.getD i 0)).getD (k * nx + j) 0 := by
  obtain ⟨h1, h2⟩ := flatMap_getElem? (n := N * nx) P (g := fun i => defects J (fun r => F.f (rowAt d 0 nx r) (rowAt u 0 nu r) p) (rowAt d 0 nx) N nx (i * N)
    (len.getD i 0)) fun i _ => defects_length ..
  refine ⟨by unfold oemConstraints; rw [h1, Nat.mul_assoc], fun i hi k hk j hj => ?_⟩
  unfold oemConstraints
  rw [show (i * N + k) * nx + j = i * (N * nx) + (k * nx + j) by ring, List.getD_eq_getElem?_getD, h2 i hi _ (mul_add_lt hk hj), ← List.getD_eq_getElem?_getD]

theorem measuredRows_unique {mask : List Bool} {n ny : Nat} {a b : List Nat} (ha : MeasuredRows mask n ny a) (hb : MeasuredRows mask n ny b) : a = b := by
  have na : a.Nodup := ha.1.imp fun h => by omega
  have nb : b.Nodup := hb.1.imp fun h => by omega
  refine List.Perm.eq_of_pairwise (le := (· < ·)) (fun x y _ _ h1 h2 => by omega) ha.1 hb.1 ?_
  exact (List.perm_ext_iff_of_nodup na nb).2 fun k => (ha.2 k).trans (hb.2 k).symm

theorem states_rows {F' F : OEMFunctions} {C : Change} {P N nz nv nq ny nx nu np : Nat} (hC : SameOutputs F' F C nz nv nq ny nx nu np) (d : List ℝ) :
    (C.states P N nz nq nx d).length = (P * N + 1) * nx + np ∧
    (∀ r ≤ P * N, rowAt (C.states P N nz nq nx d) 0 nx r = C.x nz nx (rowAt d 0 nz r) (rowAt d ((P * N + 1) * nz) nq 0)) ∧
    rowAt (C.states P N nz nq nx d) ((P * N + 1) * nx) np 0 = C.p (rowAt d ((P * N + 1) * nz) nq 0) := by
  have h := ocRows (P := P) (N := N) (nx := nx) (nu := 0) (np := np) (fun r => C.x nz nx (rowAt d 0 nz r) (rowAt d ((P * N + 1) * nz) nq 0)) (fun _ => [])
    (C.p (rowAt d ((P * N + 1) * nz) nq 0)) (fun _ => affine_length ..) (fun _ => rfl) (hC.lenp _ (rowAt_length ..))
  have e : (List.range (P * N + 1)).flatMap (fun _ => ([] : List ℝ)) = [] := by simp
  simp only [e, List.append_nil] at h
  obtain ⟨h1, h2, -, h4⟩ := h
  exact ⟨h1, h2, h4⟩

/-- **C94.** Output error models of the same processes in other coordinates, units or time scales: the same log-likelihood of the same measurements, and the
defects of the one are those of the other in the other coordinates. -/
theorem C94_oem {A : SymArith X} {ev : X → Env → ℝ} (hA : ArithOK A ev) (U' U : OEMUser X) (F' F : OEMFunctions) (C : Change) {zn vn qn xn un pn yn : List String} {N : Nat}
    (hU' : OEMDenotes ev U' F' zn.length vn.length qn.length yn.length) (hU : OEMDenotes ev U F xn.length un.length pn.length yn.length)
    (hC : SameOutputs F' F C zn.length vn.length qn.length yn.length xn.length un.length pn.length)
    (hN : (N : Int) + 1 = U.order) (ho : U'.order = U.order) (hN1 : 1 ≤ N) {vars' vars : Dict String SymVar} (hv' : ColVars vars' zn vn qn) (hv : ColVars vars xn un pn)
    (hy' : Dict.get? vars' "y" = some (.vec yn)) (hy : Dict.get? vars "y" = some (.vec yn))
    {decision' decision : List String} (hd' : DecisionOK vars' ["x", "p", "xp"] ["y", "u", "up", "piece_len"] decision')
    (hd : DecisionOK vars ["x", "p", "xp"] ["y", "u", "up", "piece_len"] decision) {iter' iter : String → List String} (hi' : OrdersOK iter' oemWrt)
    (hi : OrdersOK iter oemWrt) :
    ∃ c' c, symoemInit A U'.order (oemMethods A U') iter' vars' decision' = .ok c' ∧ symoemInit A U.order (oemMethods A U) iter vars decision = .ok c ∧
      ∀ codegen' codegen : SymFn X → List (NDArray ℝ) → NDArray ℝ,
      (∀ name g, Dict.get? c'.model.funcs name = some g → CodegenOK ev (shapeOf c'.vars) codegen' g) →
      (∀ name g, Dict.get? c.model.funcs name = some g → CodegenOK ev (shapeOf c.vars) codegen g) →
      ∃ m' m, symoemGen codegen' U'.order c' = .ok m' ∧ symoemGen codegen U.order c = .ok m ∧
      m'.collocationOrder = U'.order ∧ m'.nu = vn.length ∧ m'.ny = yn.length ∧ m.collocationOrder = U.order ∧ m.nu = un.length ∧ m.ny = yn.length ∧
      ∀ (t : NDArray ℝ) (y : MaskedArray) (v u : UArg) (va ua : NDArray ℝ) (P : Nat), OEMInput m' t y P → InputsOK m' t v va →
      ∃ q', oemProblem ColProblem.initVars m' t y v = .ok q' ∧ q'.prob.ndec = (P * N + 1) * zn.length + qn.length ∧
      ∀ d : List ℝ, d.length = q'.prob.ndec → ∀ t₀ : ℝ,
      let D := C.states P N zn.length qn.length xn.length d
      let q := rowAt d ((P * N + 1) * zn.length) qn.length 0
      0 < C.τ q → InputsOK m ⟨t.shape, scaledTimes (C.τ q) t₀ t.data⟩ u ua → (∀ r ≤ P * N, rowAt ua.data 0 un.length r = C.u [] (rowAt va.data 0 vn.length r) []) →
      ∃ pr, oemProblem ColProblem.initVars m ⟨t.shape, scaledTimes (C.τ q) t₀ t.data⟩ y u = .ok pr ∧ D.length = pr.prob.ndec ∧
        ∃ cost cv' cv, q'.prob.obj d = .ok cost ∧ pr.prob.obj D = .ok (C.κ * cost) ∧ q'.prob.constr d = .ok cv' ∧ pr.prob.constr D = .ok cv ∧
          cv'.length = P * N * zn.length ∧ cv.length = P * N * xn.length ∧
          ∀ r < P * N, ∀ j < xn.length, cv.getD (r * xn.length + j) 0 = ∑ a ∈ Finset.range zn.length, C.A q j a * cv'.getD (r * zn.length + a) 0 := by
  obtain ⟨c, h1, h2, h3⟩ := C70_oem hA U F hU hN hN1 hv hy hd hi
  obtain ⟨c', h1', h2', h3'⟩ := C70_oem hA U' F' hU' (by rw [ho]; exact hN) hN1 hv' hy' hd' hi'
  rw [ho] at h2'
  have hcol : c'.col = c.col := Except.ok.inj (h2'.symm.trans h2)
  refine ⟨c', c, h1', h1, fun codegen' codegen hcg' hcg => ?_⟩
  obtain ⟨m, s, g1, go, -, gu, -, gy, h4⟩ := h3 codegen hcg
  obtain ⟨m', s', g1', go', -, gu', -, gy', h4'⟩ := h3' codegen' hcg'
  refine ⟨m', m, g1', g1, go', gu', gy', go, gu, gy, fun t y v u va ua P hin hva => ?_⟩
  have hl : t.data.length = P + 1 := by rw [hin.twf, hin.tshape]; simp
  obtain ⟨q', rows', q1', r1', q2', q3'⟩ := h4' t y v va P hin hva
  refine ⟨q', q1', q2', fun d hdl t₀ => ?_⟩
  intro D q hτ hua huv
  have hin' : OEMInput m ⟨t.shape, scaledTimes (C.τ q) t₀ t.data⟩ y P :=
    { order := by rw [go, ← ho, ← go']; exact hin.order
      pieces := hin.pieces
      tshape := hin.tshape
      twf := by
        change (scaledTimes (C.τ q) t₀ t.data).length = t.shape.prod
        rw [← hin.twf]; simp [scaledTimes]
      tinc := by
        change (scaledTimes (C.τ q) t₀ t.data).Pairwise (· < ·)
        rw [scaledTimes, List.pairwise_map]
        exact hin.tinc.imp fun h => by have := mul_lt_mul_of_pos_left h hτ; linarith
      yshape := by rw [gy, ← gy']; exact hin.yshape
      ywf := hin.ywf
      ymask := by rw [gy, ← gy']; exact hin.ymask }
  obtain ⟨pr, rows, p1, r1, p2, p3⟩ := h4 _ y u ua P hin' hua
  obtain rfl : rows = rows' := measuredRows_unique r1 r1'
  obtain ⟨d1, dx, dp⟩ := states_rows (P := P) (N := N) hC d
  have hDl : D.length = pr.prob.ndec := by rw [p2]; exact d1
  obtain ⟨o1', k1', -⟩ := q3' d hdl
  obtain ⟨o1, k1, -⟩ := p3 D hDl
  have hcost : logLikelihood F rows y.arr.data ua.data N xn.length un.length yn.length (rowAt D ((P * N + 1) * xn.length) pn.length 0) D =
      C.κ * logLikelihood F' rows y.arr.data va.data N zn.length vn.length yn.length q d := by
    unfold logLikelihood
    rw [← List.sum_map_mul_left]
    refine congrArg List.sum (List.map_congr_left fun k hk => ?_)
    have hk : k * N ≤ P * N := Nat.mul_le_mul_right _ (by have := ((r1.2 k).1 hk).1; omega)
    rw [dp, dx _ hk, huv _ hk, hC.L _ _ _ _ (rowAt_length ..) (rowAt_length ..) (rowAt_length ..) (rowAt_length ..)]
  rw [hcost] at o1
  rw [hcol] at k1'
  obtain ⟨b1, b2⟩ := oemConstraints_getD (F := F) (J := c.col.J) (len := diff (scaledTimes (C.τ q) t₀ t.data)) (u := ua.data) (P := P) (N := N) (nx := xn.length) (nu := un.length)
    (p := rowAt D ((P * N + 1) * xn.length) pn.length 0) (d := D)
  obtain ⟨b1', b2'⟩ := oemConstraints_getD (F := F') (J := c.col.J) (len := diff t.data) (u := va.data) (P := P) (N := N) (nx := zn.length) (nu := vn.length) (p := q) (d := d)
  refine ⟨pr, p1, hDl, _, _, _, o1', o1, k1', k1, b1', b1, fun r hr j hj => ?_⟩
  obtain ⟨i, k, hiP, hk, rfl⟩ : ∃ i k, i < P ∧ k < N ∧ r = i * N + k :=
    ⟨r / N, r % N, Nat.div_lt_of_lt_mul (by rwa [Nat.mul_comm]), Nat.mod_lt _ hN1, (Nat.div_add_mod' r N).symm⟩
  have hb : ∀ l ≤ N, i * N + l ≤ P * N := fun l hlN => by
    have : (i + 1) * N ≤ P * N := Nat.mul_le_mul_right _ hiP
    rw [Nat.succ_mul] at this
    omega
  rw [b2 i hiP k hk j hj, scaledTimes_diff _ _ hl hiP, defects_change (b := C.b q) (fun l hlN => dx _ (hb l hlN)) (fun l hlN a ha => ?_) hk hj]
  · exact Finset.sum_congr rfl fun a ha => by rw [b2' i hiP k hk a (Finset.mem_range.1 ha)]
  · rw [dx _ (hb l hlN), huv _ (hb l hlN), dp]
    exact hC.f _ _ _ (rowAt_length ..) (rowAt_length ..) (rowAt_length ..) a ha

/-! ### The pendulum in degrees -/

namespace PendulumId
open SExpr

/-- The model with the angle in degrees and the speed in degrees per unit of time. -/
noncomputable def degreesUser : OEMUser SExpr where
  order := 3
  f x u p :=
    [x.getD 1 (const 0), add (mul (const (180 / Real.pi)) (add (mul (const (-1)) (sin (mul (const (Real.pi / 180)) (x.getD 0 (const 0))))) (u.getD 0 (const 0))))
      (mul (const (-1)) (mul (p.getD 0 (const 0)) (x.getD 1 (const 0))))]
  L y x _ p :=
    let r := add (y.getD 0 (const 0)) (mul (const (-(Real.pi / 180))) (x.getD 0 (const 0)))
    add (mul (const (1 / 2)) (p.getD 1 (const 0))) (mul (const (-(1 / 2))) (mul (exp (p.getD 1 (const 0))) (mul r r)))

noncomputable def degreesFunctions : OEMFunctions where
  f x u p := [x.getD 1 0, 180 / Real.pi * (-Real.sin (Real.pi / 180 * x.getD 0 0) + u.getD 0 0) - p.getD 0 0 * x.getD 1 0]
  L y x _ p := p.getD 1 0 / 2 - Real.exp (p.getD 1 0) * (y.getD 0 0 - Real.pi / 180 * x.getD 0 0) ^ 2 / 2

theorem degrees_denotes : OEMDenotes ev degreesUser degreesFunctions 2 1 2 1 where
  lenf := fun _ _ _ _ _ _ => rfl
  f := fun x u p env _ _ _ => by
    simp only [degreesUser, degreesFunctions, List.map_cons, List.map_nil, ev, Pendulum.getD_map_ev]
    congr 2; ring
  L := fun y x u p env _ _ _ _ => by simp only [degreesUser, degreesFunctions, ev, Pendulum.getD_map_ev]; ring

noncomputable def degrees : Change where
  A _ i j := if i = j then Real.pi / 180 else 0
  b _ _ := 0
  u _ v _ := v
  p q := q
  τ _ := 1
  κ := 1

theorem degrees_same : SameOutputs degreesFunctions functions degrees 2 1 2 1 2 1 2 where
  lenp := fun q hq => hq
  f := fun z v q hz hv hq i hi => by
    have hpi := Real.pi_ne_zero
    obtain ⟨a, b, rfl⟩ : ∃ a b, z = [a, b] := List.length_eq_two.1 hz
    have hi' : i = 0 ∨ i = 1 := by omega
    rcases hi' with rfl | rfl
    · simp [degrees, degreesFunctions, functions, Change.x, affine, Finset.sum_range_succ, List.range_succ]
    · simp [degrees, degreesFunctions, functions, Change.x, affine, Finset.sum_range_succ, List.range_succ]
      field_simp
      ring
  L := fun y z v q hy hz hv hq => by
    obtain ⟨a, b, rfl⟩ : ∃ a b, z = [a, b] := List.length_eq_two.1 hz
    simp [degrees, degreesFunctions, functions, Change.x, affine, Finset.sum_range_succ, List.range_succ]

/-- All hypotheses hold: with the state in degrees, the same log-likelihood. -/
example : ∃ c' c, symoemInit SExpr.arith 3 (oemMethods SExpr.arith degreesUser) iter vars [] = .ok c' ∧
    symoemInit SExpr.arith 3 (oemMethods SExpr.arith user) iter vars [] = .ok c ∧
    ∃ m' m, symoemGen (exprCode (shapeOf c'.vars)) 3 c' = .ok m' ∧ symoemGen (exprCode (shapeOf c.vars)) 3 c = .ok m ∧
    ∃ q' q, oemProblem ColProblem.initVars m' t y (.callable fun _ => .ok (.array ua)) = .ok q' ∧
      oemProblem ColProblem.initVars m t y (.callable fun _ => .ok (.array ua)) = .ok q ∧
      ∀ d : List ℝ, d.length = 12 → ∃ cost, q'.prob.obj d = .ok cost ∧ q.prob.obj (degrees.states 2 2 2 2 2 d) = .ok cost := by
  obtain ⟨c', c, h1', h1, h2⟩ := C94_oem arith_ok degreesUser user degreesFunctions functions degrees (zn := ["angle", "speed"]) (vn := ["torque"])
    (qn := ["friction", "precision"]) (xn := ["angle", "speed"]) (un := ["torque"]) (pn := ["friction", "precision"]) (yn := ["angle_meas"]) (N := 2)
    degrees_denotes denotes degrees_same rfl rfl (by decide) vars_ok vars_ok rfl rfl (decision' := []) (decision := []) (by unfold DecisionOK; decide) (by unfold DecisionOK; decide) iter_ok iter_ok
  obtain ⟨m', m, h3', h3, a1, a2, a3, b1, b2, b3, h4⟩ := h2 (exprCode (shapeOf c'.vars)) (exprCode (shapeOf c.vars)) (fun _ g _ => C66_expr_code _ g) fun _ g _ => C66_expr_code _ g
  obtain ⟨q', q1', q2', q3'⟩ := h4 t y (.callable fun _ => .ok (.array ua)) (.callable fun _ => .ok (.array ua)) ua ua 2 (input a1 a3) (inputs a1 a3 a2)
  have et : (⟨t.shape, scaledTimes 1 0 t.data⟩ : NDArray ℝ) = t := by simp [scaledTimes, t]
  have key := fun (d : List ℝ) (hd : d.length = 12) => q3' d (by rw [q2']; exact hd) 0 (one_pos : (0 : ℝ) < 1)
    (show InputsOK m ⟨t.shape, scaledTimes 1 0 t.data⟩ _ ua by rw [et]; exact inputs b1 b3 b2) fun _ _ => rfl
  obtain ⟨q, q1, -⟩ := key (List.replicate 12 0) (by simp)
  refine ⟨c', c, h1', h1, m', m, h3', h3, q', q, q1', (by
    have q1 : oemProblem ColProblem.initVars m ⟨t.shape, scaledTimes 1 0 t.data⟩ y _ = .ok q := q1
    rwa [et] at q1), fun d hd => ?_⟩
  obtain ⟨pr, p1, -, cost, cv', cv, o1', o1, -⟩ := key d hd
  obtain rfl : q = pr := Except.ok.inj (q1.symm.trans p1)
  refine ⟨cost, o1', ?_⟩
  have o1 : q.prob.obj (degrees.states 2 2 2 2 2 d) = .ok (1 * cost) := o1
  rwa [one_mul] at o1

end PendulumId

end Ceacoest
