import Verif.Lemmas.BrysonDenham
import Verif.Props.Collocation
import Verif.Props.LGL

/-! # C73: the Bryson--Denham example -/

namespace Ceacoest
open Polynomial Spec RK

namespace BrysonDenham
open SExpr

/-- The methods on numbers. -/
noncomputable def functions : OCFunctions where
  f x u _ := [x.getD 1 0, u.getD 0 0]
  L _ u _ := 1 / 2 * u.getD 0 0 ^ 2
  M _ _ := 0
  g _ _ _ := []
  h _ _ := []

theorem denotes : OCDenotes ev brysonDenham functions 2 1 0 0 0 where
  lenf := fun _ _ _ _ _ _ => rfl
  leng := fun _ _ _ _ _ _ => rfl
  lenh := fun _ _ _ _ => rfl
  f := fun x u p env _ _ _ => by simp only [brysonDenham, functions, List.map_cons, List.map_nil, Pendulum.getD_map_ev]
  L := fun x u p env _ _ _ => by simp only [brysonDenham, functions, ev, Pendulum.getD_map_ev]; norm_num; ring
  M := fun xe p env _ _ => rfl
  g := fun x u p env _ _ _ => rfl
  h := fun xe p env _ _ => rfl

theorem total : OCTotal brysonDenham where
  f := fun x u p hx hu hp a ha => by
    simp only [brysonDenham, List.mem_cons, List.not_mem_nil, or_false] at ha
    rcases ha with rfl | rfl
    · exact total_getD hx 1
    · exact total_getD hu 0
  L := fun x u p _ hu _ env => ⟨trivial, total_getD hu 0 env, total_getD hu 0 env⟩
  M := fun xe p hx _ env => trivial
  g := fun x u p hx hu _ a ha => by cases ha
  h := fun xe p hx _ a ha => by cases ha

theorem vars_ok : ColVars brysonDenhamVars ["x1", "x2"] ["u1"] [] where
  keys := by decide
  x := rfl
  u := Or.inl rfl
  p := Or.inl rfl
  pieceLen := fun v h => by cases h

theorem arc_zero {α : ℝ} : brysonDenhamArc α 0 = 1 := by simp [brysonDenhamArc]

theorem arc_of_le {α s : ℝ} (h0 : 0 < α) (h : α ≤ s) : brysonDenhamArc α s = 0 := by
  unfold brysonDenhamArc
  exact max_eq_right (by rw [sub_nonpos, one_le_div h0]; exact h)

theorem arc_mem {α s : ℝ} (h0 : 0 < α) (h : 0 ≤ s) : 0 ≤ brysonDenhamArc α s ∧ brysonDenhamArc α s ≤ 1 := by
  unfold brysonDenhamArc
  exact ⟨le_max_right _ _, max_le (by have := div_nonneg h h0.le; linarith) zero_le_one⟩

theorem process {t : List ℝ} {P : Nat} {α : ℝ} {a b : Nat} (hm : ArcMesh t P α a b) :
    Process functions t P 2 1 0 (brysonDenhamState α) (brysonDenhamInput α) [] ∧
      ∀ j < 2, PiecewisePoly t P 3 fun s => (brysonDenhamState α s).getD j 0 := by
  have hα := hm.pos.ne'
  have hcont : Continuous (brysonDenhamArc α) := by
    unfold brysonDenhamArc
    exact (continuous_const.sub (continuous_id.div_const α)).max continuous_const
  have hcont' : Continuous fun s => brysonDenhamArc α (1 - s) := hcont.comp (continuous_const.sub continuous_id)
  have hpoly : ∀ i < P, ∃ y1 y2 : ℝ[X], y1.natDegree ≤ 3 ∧ y2.natDegree ≤ 3 ∧ ∀ s ∈ pieceOf t i,
      (brysonDenhamState α s).getD 0 0 = y1.eval s ∧ (brysonDenhamState α s).getD 1 0 = y2.eval s ∧
      (derivative y1).eval s = (brysonDenhamState α s).getD 1 0 ∧ (derivative y2).eval s = (brysonDenhamInput α s).getD 0 0 := by
    intro i hi
    obtain ⟨A, B, hA, hB, hA', hB', hA0, hB0, hv⟩ := hm.arcs hi
    have pw : ∀ (q : ℝ[X]) n, q.natDegree ≤ 1 → (q ^ n).natDegree ≤ n := fun q n hq => by
      refine natDegree_pow_le.trans ?_
      nlinarith
    refine ⟨C (α / 3) * (1 - A ^ 3 - B ^ 3), A ^ 2 - B ^ 2, ?_, ?_, fun s hs => ?_⟩
    · refine (natDegree_C_mul_le _ _).trans ((natDegree_sub_le _ _).trans (max_le ((natDegree_sub_le _ _).trans (max_le ?_ ?_)) ?_))
      · simp
      · exact pw A 3 hA
      · exact pw B 3 hB
    · exact (natDegree_sub_le _ _).trans (max_le ((pw A 2 hA).trans (by norm_num)) ((pw B 2 hB).trans (by norm_num)))
    · obtain ⟨e1, e2⟩ := hv s hs
      have a1 : A.eval s * (if i < a then -α⁻¹ else 0) = -(A.eval s / α) := by
        split
        · ring
        · next h => rw [hA0 h]; simp
      have a2 : B.eval s * (if b ≤ i then α⁻¹ else 0) = B.eval s / α := by
        split
        · ring
        · next h => rw [hB0 h]; simp
      refine ⟨?_, ?_, ?_, ?_⟩
      · simp [brysonDenhamState, e1, e2]
      · simp [brysonDenhamState, e1, e2]
      · simp only [brysonDenhamState, e1, e2, derivative_C_mul, derivative_sub, derivative_pow, derivative_one, hA', hB', eval_mul, eval_C, eval_sub,
          eval_pow, eval_zero, List.getD_cons_succ, List.getD_cons_zero]
        have : α / 3 * (0 - (3 : ℕ) * A.eval s ^ (3 - 1) * (if i < a then -α⁻¹ else 0) - (3 : ℕ) * B.eval s ^ (3 - 1) * (if b ≤ i then α⁻¹ else 0)) =
            -α * (A.eval s * (A.eval s * (if i < a then -α⁻¹ else 0))) - α * (B.eval s * (B.eval s * (if b ≤ i then α⁻¹ else 0))) := by
          push_cast; ring
        rw [this, a1, a2]
        field_simp
      · simp only [brysonDenhamInput, e1, e2, derivative_sub, derivative_pow, hA', hB', eval_mul, eval_C, eval_sub,
          eval_pow, List.getD_cons_zero]
        have : ((2 : ℕ) * A.eval s ^ (2 - 1) * (if i < a then -α⁻¹ else 0) - (2 : ℕ) * B.eval s ^ (2 - 1) * (if b ≤ i then α⁻¹ else 0) : ℝ) =
            2 * (A.eval s * (if i < a then -α⁻¹ else 0)) - 2 * (B.eval s * (if b ≤ i then α⁻¹ else 0)) := by
          push_cast; ring
        rw [this, a1, a2]
        ring
  refine ⟨⟨fun _ => rfl, fun _ => rfl, rfl, ?_, ?_⟩, ?_⟩
  · intro j hj
    rcases (show j = 0 ∨ j = 1 by omega) with rfl | rfl
    · exact continuous_const.mul ((continuous_const.sub (hcont.pow 3)).sub (hcont'.pow 3))
    · exact (hcont.pow 2).sub (hcont'.pow 2)
  · intro i hi s hs j hj
    obtain ⟨y1, y2, -, -, h⟩ := hpoly i hi
    rcases (show j = 0 ∨ j = 1 by omega) with rfl | rfl
    · exact (poly_deriv_within (hm.inc i hi) hs fun s hs => (h s hs).1).2 (h s hs).2.2.1
    · exact (poly_deriv_within (hm.inc i hi) hs fun s hs => (h s hs).2.1).2 (h s hs).2.2.2
  · intro j hj i hi
    obtain ⟨y1, y2, g1, g2, h⟩ := hpoly i hi
    rcases (show j = 0 ∨ j = 1 by omega) with rfl | rfl
    · exact ⟨y1, g1, fun s hs => (h s hs).1⟩
    · exact ⟨y2, g2, fun s hs => (h s hs).2.1⟩

theorem endsOK {α : ℝ} (h0 : 0 < α) (hα : α ≤ 1 / 3) :
    brysonDenhamState α 0 = [0, 1] ∧ brysonDenhamState α 1 = [0, -1] ∧ brysonDenhamInput α 0 = [-(2 / α)] ∧ brysonDenhamInput α 1 = [-(2 / α)] ∧
      (brysonDenhamState α α).getD 0 0 = α / 3 ∧ (brysonDenhamState α (1 - α)).getD 0 0 = α / 3 := by
  have h1 : brysonDenhamArc α 1 = 0 := arc_of_le h0 (by linarith)
  have h2 : brysonDenhamArc α α = 0 := arc_of_le h0 le_rfl
  have h3 : brysonDenhamArc α (1 - α) = 0 := arc_of_le h0 (by linarith)
  refine ⟨?_, ?_, ?_, ?_, ?_, ?_⟩ <;> simp [brysonDenhamState, brysonDenhamInput, arc_zero, h1, h2, h3]

theorem within_pair (a b : ℝ) (x : List ℝ) : WithinBounds [some a, some b] [some a, some b] x ↔ x.getD 0 0 = a ∧ x.getD 1 0 = b := by
  constructor
  · intro h
    exact ⟨le_antisymm ((h 0).2 _ rfl) ((h 0).1 _ rfl), le_antisymm ((h 1).2 _ rfl) ((h 1).1 _ rfl)⟩
  · rintro ⟨rfl, rfl⟩ j
    match j with
    | 0 => exact ⟨fun b h => by cases h; exact le_rfl, fun b h => by cases h; exact le_rfl⟩
    | 1 => exact ⟨fun b h => by cases h; exact le_rfl, fun b h => by cases h; exact le_rfl⟩
    | j + 2 => exact ⟨fun b h => by simp at h, fun b h => by simp at h⟩

theorem within_box (a b : ℝ) (x : List ℝ) : WithinBounds [some a, none] [some b, none] x ↔ a ≤ x.getD 0 0 ∧ x.getD 0 0 ≤ b := by
  constructor
  · intro h
    exact ⟨(h 0).1 _ rfl, (h 0).2 _ rfl⟩
  · rintro ⟨h1, h2⟩ j
    match j with
    | 0 => exact ⟨fun b h => by cases h; exact h1, fun b h => by cases h; exact h2⟩
    | 1 => exact ⟨fun b h => by simp at h, fun b h => by simp at h⟩
    | j + 2 => exact ⟨fun b h => by simp at h, fun b h => by simp at h⟩

theorem state_mem {α s : ℝ} (h0 : 0 < α) (hα : α ≤ 1 / 3) (h1 : 0 ≤ s) (h2 : s ≤ 1) :
    0 ≤ (brysonDenhamState α s).getD 0 0 ∧ (brysonDenhamState α s).getD 0 0 ≤ 1 / 9 := by
  obtain ⟨a1, a2⟩ := arc_mem h0 h1
  obtain ⟨b1, b2⟩ := arc_mem (s := 1 - s) h0 (by linarith)
  have a3 : brysonDenhamArc α s ^ 3 ≤ 1 := pow_le_one₀ a1 a2
  have b3 : brysonDenhamArc α (1 - s) ^ 3 ≤ 1 := pow_le_one₀ b1 b2
  have a4 : 0 ≤ brysonDenhamArc α s ^ 3 := pow_nonneg a1 3
  have b4 : 0 ≤ brysonDenhamArc α (1 - s) ^ 3 := pow_nonneg b1 3
  have hsum : brysonDenhamArc α s ^ 3 + brysonDenhamArc α (1 - s) ^ 3 ≤ 1 := by
    rcases le_total s α with h | h
    · rw [arc_of_le (s := 1 - s) h0 (by linarith)]; simpa using a3
    · rw [arc_of_le h0 h]; simpa using b3
  simp only [brysonDenhamState, List.getD_cons_zero]
  constructor
  · have : 0 ≤ 1 - brysonDenhamArc α s ^ 3 - brysonDenhamArc α (1 - s) ^ 3 := by linarith
    positivity
  · nlinarith

theorem feasible_facts {q : Problem ℝ} {P : Nat} (hP : 1 ≤ P) {d : List ℝ} (hd : BrysonDenhamFeasible q P d) :
    ((ocX 2 d 0).getD 0 0 = 0 ∧ (ocX 2 d 0).getD 1 0 = 1) ∧ ((ocX 2 d (P * 2)).getD 0 0 = 0 ∧ (ocX 2 d (P * 2)).getD 1 0 = -1) ∧
      ∀ r ≤ P * 2, (ocX 2 d r).getD 0 0 ≤ 1 / 9 := by
  have b0 := hd.bounds 0 (by omega)
  have bP := hd.bounds (P * 2) le_rfl
  unfold brysonDenhamLower brysonDenhamUpper at b0 bP
  rw [if_neg (show ¬ 0 = P * 2 by omega), if_neg (show ¬ 0 = P * 2 by omega), if_pos rfl, if_pos rfl, within_pair] at b0
  rw [if_pos rfl, if_pos rfl, within_pair] at bP
  refine ⟨b0, bP, fun r hr => ?_⟩
  by_cases h1 : r = P * 2
  · rw [h1, bP.1]; norm_num
  · by_cases h2 : r = 0
    · rw [h2, b0.1]; norm_num
    · have br := hd.bounds r hr
      unfold brysonDenhamLower brysonDenhamUpper at br
      rw [if_neg h1, if_neg h1, if_neg h2, if_neg h2, within_box] at br
      exact br.2

end BrysonDenham

open BrysonDenham in
/-- **C73.** The Bryson--Denham example on a mesh from 0 to 1 that contains the times `α` and `1 - α`: no point that meets the constraints
and bounds of the example costs less than `3 * (α - 1 / 9) ^ 2 / α ^ 3`, and the samples of the solution with arcs of duration `α` meet
them and cost `4 / (3 * α)`. For `α = 1 / 3` both are 4, which is the minimum of the continuous problem. -/
theorem C73_bryson_denham {iter : String → List String} (hi : OrdersOK iter ocWrt) :
    ∃ c, symocInit SExpr.arith brysonDenham iter brysonDenhamVars [] = .ok c ∧
      ∃ m, symocGen (exprCode (shapeOf c.vars)) brysonDenham c = .ok m ∧
      ∀ (t : NDArray ℝ) (P : Nat) (α : ℝ), 1 ≤ P → t.shape = [P + 1] → t.WF → t.data.Pairwise (· < ·) → t.data.getD 0 0 = 0 →
        t.data.getD P 0 = 1 → α ∈ t.data → 1 - α ∈ t.data → 1 / 9 ≤ α → α ≤ 1 / 3 →
      ∃ q tc, ocProblem m t = .ok q ∧ grid c.col.points t.data = .ok tc ∧ q.prob.ndec = (P * 2 + 1) * 3 ∧
        (∀ d : List ℝ, d.length = q.prob.ndec → DerivativesRight q.prob d) ∧
        (∀ d, BrysonDenhamFeasible q.prob P d → ∃ v, q.prob.obj d = .ok v ∧ 3 * (α - 1 / 9) ^ 2 / α ^ 3 ≤ v) ∧
        BrysonDenhamFeasible q.prob P (samples tc (brysonDenhamState α) (brysonDenhamInput α) []) ∧
        q.prob.obj (samples tc (brysonDenhamState α) (brysonDenhamInput α) []) = .ok (4 / (3 * α)) := by
  have hdec : DecisionOK brysonDenhamVars ["x", "u", "p", "xp", "up", "xe"] ["piece_len"] [] := by unfold DecisionOK; decide
  obtain ⟨c, h1, h2, m, h3, h4⟩ := C70_oc_expr brysonDenham total functions (xn := ["x1", "x2"]) (un := ["u1"]) (pn := []) (N := 2)
    denotes rfl (by decide) vars_ok hdec hi
  refine ⟨c, h1, m, h3, fun t P α hP hs hw hinc ht0 htP hα1 hα2 hα3 hα4 => ?_⟩
  obtain ⟨q, q1, q2, q3⟩ := h4 t P hP hs hw hinc
  obtain ⟨c', k1, k2⟩ := C72_samples arith_ok brysonDenham functions (xn := ["x1", "x2"]) (un := ["u1"]) (pn := []) (N := 2)
    denotes rfl (by decide) vars_ok hdec hi
  obtain rfl : c = c' := Except.ok.inj (h1.symm.trans k1)
  obtain ⟨m', k3, k4⟩ := k2 (exprCode (shapeOf c.vars)) fun _ g _ => C66_expr_code _ g
  obtain rfl : m = m' := Except.ok.inj (h3.symm.trans k3)
  obtain ⟨q', tc, k5, k6, k7⟩ := k4 t P hP hs hw hinc
  obtain rfl : q = q' := Except.ok.inj (q1.symm.trans k5)
  have hl : t.data.length = P + 1 := by rw [hw, hs]; simp
  obtain ⟨a, ha, ha'⟩ := List.getElem_of_mem hα1
  obtain ⟨b, hb, hb'⟩ := List.getElem_of_mem hα2
  have h0 : 0 < α := by linarith
  have hm : ArcMesh t.data P α a b := ⟨hl, pairwise_getD hl hinc, ht0, htP, h0, hα4, by omega, by omega, by rw [getD_of_lt _ _ ha, ha'],
    by rw [getD_of_lt _ _ hb, hb']⟩
  obtain ⟨hpr, hpp⟩ := process hm
  obtain ⟨l1, l2, -⟩ := k7 _ _ _ hpr hpp
  obtain ⟨hpo, hK⟩ := lgl_points_ok (N := 2) (by decide) rfl h2
  obtain ⟨col, w1, w2, w3, -⟩ := C63_weights 3 (by decide)
  obtain rfl : c.col = col := Except.ok.inj (h2.symm.trans w1)
  obtain ⟨col, w4, w5, -⟩ := lgl_ok 3 (by decide)
  obtain rfl : c.col = col := Except.ok.inj (h2.symm.trans w4)
  obtain ⟨hltc, hpt⟩ := grid_pointTime hpo.len (by decide) hpo.first hpo.last hl k6
  obtain ⟨-, hX, hU, -⟩ := samples_rows (p := []) hltc hpr.lenx hpr.lenu rfl
  have hlt : ∀ i < P, ∀ l ≤ 2, i * 2 + l < P * 2 + 1 := fun i hi l hl => by omega
  obtain ⟨s0, s1, u0, u1, sa, sb⟩ := endsOK h0 hα4
  have htcr : ∀ i ≤ P, tc.getD (i * 2) 0 = t.data.getD i 0 := fun i hi => by
    rcases Nat.eq_zero_or_pos i with rfl | hpos
    · have := hpt 0 (by omega) 0 (by omega)
      rw [pointTime, hpo.first] at this
      simpa using this
    · have := hpt (i - 1) (by omega) 2 le_rfl
      rw [pointTime, hpo.last, show i - 1 + 1 = i by omega, show (i - 1) * 2 + 2 = i * 2 by omega] at this
      rw [this]; ring
  have htc0 : tc.getD 0 0 = 0 := by
    have := htcr 0 (by omega)
    rw [Nat.zero_mul, ht0] at this
    exact this
  have hlen : ∀ i < P, (diff t.data).getD i 0 = t.data.getD (i + 1) 0 - t.data.getD i 0 := fun i hi => diff_getD (by omega)
  have hpos : ∀ i < P, 0 < t.data.getD (i + 1) 0 - t.data.getD i 0 := fun i hi => sub_pos.2 (hm.inc i hi)
  have hcost : ∀ d : List ℝ, d.length = q.prob.ndec → q.prob.obj d = .ok (∑ i ∈ Finset.range P, (∑ l ∈ Finset.range (2 + 1),
      1 / 2 * (ocU P 2 2 1 d (i * 2 + l)).getD 0 0 ^ 2 * c.col.K.getD l 0) * (t.data.getD (i + 1) 0 - t.data.getD i 0)) := fun d hd => by
    rw [(q3 d hd).1]
    congr 1
    unfold ocCost
    rw [show functions.M = fun _ _ => 0 from rfl, add_zero]
    refine Finset.sum_congr rfl fun i hi => ?_
    rw [hlen i (Finset.mem_range.1 hi)]
    rfl
  have key : ∀ d : List ℝ, d.length = q.prob.ndec → (∃ cv, q.prob.constr d = .ok cv ∧ ∀ a ∈ cv, a = 0) →
      ∑ i ∈ Finset.range P, (∑ l ∈ Finset.range (2 + 1), ((ocU P 2 2 1 d (i * 2 + l)).getD 0 0 *
        (brysonDenhamInput α (pointTime t.data c.col.points i l)).getD 0 0) * c.col.K.getD l 0) * (t.data.getD (i + 1) 0 - t.data.getD i 0) =
      (ocX 2 d (P * 2)).getD 1 0 * -(2 / α) - (ocX 2 d 0).getD 1 0 * -(2 / α) - 2 / α ^ 2 * ((ocX 2 d (a * 2)).getD 0 0 - (ocX 2 d 0).getD 0 0) +
        2 / α ^ 2 * ((ocX 2 d (P * 2)).getD 0 0 - (ocX 2 d (b * 2)).getD 0 0) := by
    rintro d hd ⟨cv, hcv, hz⟩
    obtain rfl := Except.ok.inj ((q3 d hd).2.1.symm.trans hcv)
    have hz' : ∀ i < P, ∀ a ∈ defects c.col.J (fun r => functions.f (ocX 2 d r) (ocU P 2 2 1 d r) (ocP P 2 2 1 0 d)) (ocX 2 d) 2 2 (i * 2)
        ((diff t.data).getD i 0), a = 0 := fun i hi a ha => hz a (by
      unfold ocConstraints
      exact List.mem_append_left _ (List.mem_append_left _ (List.mem_flatMap.2 ⟨i, List.mem_range.2 hi, ha⟩)))
    have := adjoint_sum hpo le_rfl hK hm (fun r => (ocX 2 d r).getD 0 0) (fun r => (ocX 2 d r).getD 1 0) (fun r => (ocU P 2 2 1 d r).getD 0 0)
      (fun i hi => by rw [← hlen i hi]; exact defects_zero_iff.1 (hz' i hi) 0 (by decide))
      (fun i hi => by rw [← hlen i hi]; exact defects_zero_iff.1 (hz' i hi) 1 (by decide)) P le_rfl
    rw [ht0, htP, u0, u1, Nat.min_eq_right hm.ha, Nat.max_eq_left hm.hb] at this
    exact this
  have hfeas : BrysonDenhamFeasible q.prob P (samples tc (brysonDenhamState α) (brysonDenhamInput α) []) := by
    refine ⟨l1, ⟨_, l2, ?_⟩, fun r hr => ?_⟩
    · intro a ha
      rw [List.mem_append, List.mem_append] at ha
      rcases ha with (ha | ha) | ha
      · exact (List.mem_replicate.1 ha).2
      · obtain ⟨_, -, ha⟩ := List.mem_flatMap.1 ha
        cases ha
      · cases ha
    · rw [hX r (by omega)]
      unfold brysonDenhamLower brysonDenhamUpper
      by_cases hrP : r = P * 2
      · rw [if_pos hrP, if_pos hrP, hrP, htcr P le_rfl, htP, s1]
        exact (within_pair _ _ _).2 ⟨rfl, rfl⟩
      · rw [if_neg hrP, if_neg hrP]
        by_cases hr0 : r = 0
        · rw [if_pos hr0, if_pos hr0, hr0, htc0, s0]
          exact (within_pair _ _ _).2 ⟨rfl, rfl⟩
        · rw [if_neg hr0, if_neg hr0, within_box]
          have hmem := pointTime_mem (hm.inc (r / 2) (by omega)) (hpo.mem (r % 2) (by omega))
          rw [← hpt (r / 2) (by omega) (r % 2) (by omega), Nat.div_add_mod'] at hmem
          have e1 : 0 ≤ tc.getD r 0 := by have := hm.mono (Nat.zero_le (r / 2)) (by omega); rw [ht0] at this; exact this.trans hmem.1
          have e2 : tc.getD r 0 ≤ 1 := by have := hm.mono (show r / 2 + 1 ≤ P by omega) le_rfl; rw [htP] at this; exact hmem.2.trans this
          exact state_mem h0 hα4 e1 e2
  have hself : ∑ i ∈ Finset.range P, (∑ l ∈ Finset.range (2 + 1), ((brysonDenhamInput α (pointTime t.data c.col.points i l)).getD 0 0 *
        (brysonDenhamInput α (pointTime t.data c.col.points i l)).getD 0 0) * c.col.K.getD l 0) * (t.data.getD (i + 1) 0 - t.data.getD i 0) =
      8 / (3 * α) := by
    have := key _ hfeas.length hfeas.constr
    rw [hX _ (by omega), hX _ (by omega), hX _ (by have := hm.ha; omega), hX _ (by have := hm.hb; omega), htcr _ le_rfl, htcr _ hm.ha,
      htcr _ hm.hb, htP, hm.arc1, hm.arc2, s1, sa, sb, htc0, s0] at this
    simp only [List.getD_cons_zero, List.getD_cons_succ] at this
    rw [Finset.sum_congr rfl fun i hi => by
      rw [Finset.sum_congr rfl fun l hl => by
        rw [hU _ (hlt i (Finset.mem_range.1 hi) l (by simpa [Nat.lt_succ_iff] using hl)),
          hpt i (Finset.mem_range.1 hi) l (by simpa [Nat.lt_succ_iff] using hl)]]] at this
    rw [this]
    field_simp
    ring
  refine ⟨q, tc, q1, k6, q2, fun d hd => (q3 d hd).2.2, fun d hd => ⟨_, hcost d hd.length, ?_⟩, hfeas, ?_⟩
  · have hk := key d hd.length hd.constr
    obtain ⟨b0, bP, br⟩ := feasible_facts hP hd
    have ba := br (a * 2) (by have := hm.ha; omega)
    have bb := br (b * 2) (by have := hm.hb; omega)
    rw [b0.1, b0.2, bP.1, bP.2] at hk
    have hS : 4 / α - 4 / (9 * α ^ 2) ≤ ∑ i ∈ Finset.range P, (∑ l ∈ Finset.range (2 + 1), ((ocU P 2 2 1 d (i * 2 + l)).getD 0 0 *
        (brysonDenhamInput α (pointTime t.data c.col.points i l)).getD 0 0) * c.col.K.getD l 0) *
          (t.data.getD (i + 1) 0 - t.data.getD i 0) := by
      rw [hk]
      have h2 : 0 ≤ 2 / α ^ 2 := by positivity
      have e : 4 / α - 4 / (9 * α ^ 2) = -1 * -(2 / α) - 1 * -(2 / α) - 2 / α ^ 2 * (1 / 9 - 0) + 2 / α ^ 2 * (0 - 1 / 9) := by
        field_simp
        ring
      rw [e]
      have := mul_le_mul_of_nonneg_left ba h2
      have := mul_le_mul_of_nonneg_left bb h2
      linarith
    obtain ⟨κ, hκ⟩ : ∃ κ, κ = 3 / 2 * (1 - 1 / (9 * α)) := ⟨_, rfl⟩
    have hκ0 : 0 ≤ κ := by
      rw [hκ]
      have : 1 / (9 * α) ≤ 1 := by rw [div_le_one (by positivity)]; linarith
      linarith
    have hle : κ * (4 / α - 4 / (9 * α ^ 2)) - κ ^ 2 / 2 * (8 / (3 * α)) ≤ ∑ i ∈ Finset.range P, (∑ l ∈ Finset.range (2 + 1),
      1 / 2 * (ocU P 2 2 1 d (i * 2 + l)).getD 0 0 ^ 2 * c.col.K.getD l 0) * (t.data.getD (i + 1) 0 - t.data.getD i 0) := by
      refine (sub_le_sub_right (mul_le_mul_of_nonneg_left hS hκ0) _).trans ?_
      rw [← hself, Finset.mul_sum, Finset.mul_sum, ← Finset.sum_sub_distrib]
      refine Finset.sum_le_sum fun i hi => ?_
      rw [← mul_assoc, ← mul_assoc, ← sub_mul, Finset.mul_sum, Finset.mul_sum, ← Finset.sum_sub_distrib]
      refine mul_le_mul_of_nonneg_right (Finset.sum_le_sum fun l hl => ?_) (hpos i (Finset.mem_range.1 hi)).le
      have hKl := (w3 l (by have := Finset.mem_range.1 hl; omega)).le
      nlinarith [mul_nonneg hKl (sq_nonneg ((ocU P 2 2 1 d (i * 2 + l)).getD 0 0 -
        κ * (brysonDenhamInput α (pointTime t.data c.col.points i l)).getD 0 0))]
    refine le_trans (le_of_eq ?_) hle
    rw [hκ]
    field_simp
    ring
  · rw [hcost _ l1]
    congr 1
    have e : 4 / (3 * α) = 1 / 2 * (8 / (3 * α)) := by ring
    rw [e, ← hself, Finset.mul_sum]
    refine Finset.sum_congr rfl fun i hi => ?_
    rw [← mul_assoc, Finset.mul_sum]
    congr 1
    refine Finset.sum_congr rfl fun l hl => ?_
    rw [hU _ (hlt i (Finset.mem_range.1 hi) l (by simpa [Nat.lt_succ_iff] using hl)),
      hpt i (Finset.mem_range.1 hi) l (by simpa [Nat.lt_succ_iff] using hl)]
    ring

/-- **C73.** The mesh of the example itself does not contain the time 1/3. The minimum it finds is within one percent of 4. -/
theorem C73_bryson_denham_mesh {iter : String → List String} (hi : OrdersOK iter ocWrt) :
    ∃ c, symocInit SExpr.arith brysonDenham iter brysonDenhamVars [] = .ok c ∧
      ∃ m, symocGen (exprCode (shapeOf c.vars)) brysonDenham c = .ok m ∧ ∃ q, ocProblem m brysonDenhamMesh = .ok q ∧ q.prob.ndec = 603 ∧
        (∀ d, BrysonDenhamFeasible q.prob 100 d → ∃ v, q.prob.obj d = .ok v ∧ 3.9996 ≤ v) ∧
        ∃ d v, BrysonDenhamFeasible q.prob 100 d ∧ q.prob.obj d = .ok v ∧ v ≤ 4.0405 := by
  obtain ⟨c, h1, m, h2, h3⟩ := C73_bryson_denham hi
  have hget : ∀ i < 101, brysonDenhamMesh.data.getD i 0 = (i : ℝ) / 100 := fun i hi => by
    rw [getD_of_lt _ _ (by simpa [brysonDenhamMesh] using hi)]
    simp [brysonDenhamMesh]
  obtain ⟨q, tc, q1, -, q2, -, q3, q4, q5⟩ := h3 brysonDenhamMesh 100 (33 / 100) (by decide) rfl (by simp [NDArray.WF, brysonDenhamMesh])
    (List.pairwise_map.2 (List.pairwise_lt_range.imp fun h => by gcongr))
    (by rw [hget 0 (by decide)]; norm_num) (by rw [hget 100 (by decide)]; norm_num)
    (List.mem_map.2 ⟨33, by simp, by norm_num⟩) (List.mem_map.2 ⟨67, by simp, by norm_num⟩) (by norm_num) (by norm_num)
  refine ⟨c, h1, m, h2, q, q1, q2, fun d hd => ?_, _, _, q4, q5, by norm_num⟩
  obtain ⟨v, hv, hle⟩ := q3 d hd
  exact ⟨v, hv, le_trans (by norm_num) hle⟩

/-- On a mesh with the times 1/3 and 2/3, the minimum of the example is exactly 4. -/
example : ∃ c, symocInit SExpr.arith brysonDenham Pendulum.iter brysonDenhamVars [] = .ok c ∧
    ∃ m, symocGen (exprCode (shapeOf c.vars)) brysonDenham c = .ok m ∧ ∃ q, ocProblem m ⟨[4], [0, 1 / 3, 2 / 3, 1]⟩ = .ok q ∧
      (∀ d, BrysonDenhamFeasible q.prob 3 d → ∃ v, q.prob.obj d = .ok v ∧ 4 ≤ v) ∧ ∃ d, BrysonDenhamFeasible q.prob 3 d ∧ q.prob.obj d = .ok 4 := by
  obtain ⟨c, h1, m, h2, h3⟩ := C73_bryson_denham Pendulum.iter_ok
  obtain ⟨q, tc, q1, -, q2, -, q3, q4, q5⟩ := h3 ⟨[4], [0, 1 / 3, 2 / 3, 1]⟩ 3 (1 / 3) (by decide) rfl rfl (by simp; norm_num) rfl rfl
    (by simp) (by simp; norm_num) (by norm_num) le_rfl
  refine ⟨c, h1, m, h2, q, q1, fun d hd => ?_, _, q4, q5.trans (by norm_num)⟩
  obtain ⟨v, hv, hle⟩ := q3 d hd
  exact ⟨v, hv, le_trans (by norm_num) hle⟩

end Ceacoest
