import Verif.Lemmas.ExampleScripts2
import Verif.Props.BrysonDenham
import Verif.Props.Examples
import Verif.Props.ExamplesEstimation

/-! # The bounds that the scripts of the examples give the solver (C99) -/

namespace Ceacoest
open Spec

namespace Script

/-- A subscript list and what it selects. -/
theorem resolve_all_item {n m : Nat} (i : Int) {k : Nat} (h : pyIndex m i = .ok k) : resolve [n, m] [.all, .item i] = .ok [List.range n, [k]] := by
  simp only [resolve, Sub.resolve, sliceIdx_all, h, py_bind_ok]
  rfl
theorem resolve_item {n : Nat} {sh : List Nat} (i : Int) {k : Nat} (h : pyIndex n i = .ok k) : resolve (n :: sh) [.item i] = .ok [[k]] := by
  simp only [resolve, Sub.resolve, h, py_bind_ok]
  rfl
theorem resolve_all {n : Nat} {sh : List Nat} : resolve (n :: sh) [.all] = .ok [List.range n] := by
  simp only [resolve, Sub.resolve, sliceIdx_all, py_bind_ok]
  rfl
theorem resolve_item_upto {n m : Nat} (i : Int) {k c : Nat} (h : pyIndex n i = .ok k) (hc : c ≤ m) :
    resolve [n, m] [.item i, .upto c] = .ok [[k], List.range c] := by
  have : sliceIdx m none (some (c : Int)) 1 = List.range c := by
    simp [sliceIdx, clampIdx, List.range_eq_range', hc]
  simp only [resolve, Sub.resolve, h, py_bind_ok, this]
  rfl

/-- More subscripts than axes raise, and so does an index that is not there, at whatever axis. -/
theorem C99_subscripts {α : Type} (v : View) (subs : List Sub) (value : Value α) (h : Heap α)
    (hs : v.shape.length < subs.length ∨ ∃ (k : Nat) (n : Nat) (i : Int), v.shape[k]? = some n ∧ subs[k]? = some (.item i) ∧ (i < -n ∨ n ≤ i)) :
    assign v subs value h = .error .indexError := by
  have key : ∀ (sh : List Nat) (subs : List Sub), (sh.length < subs.length ∨ ∃ (k : Nat) (n : Nat) (i : Int), sh[k]? = some n ∧ subs[k]? = some (.item i) ∧ (i < -n ∨ n ≤ i)) →
      resolve sh subs = .error .indexError := by
    intro sh
    induction sh with
    | nil =>
      intro subs h
      cases subs with
      | nil => simp at h
      | cons s rest => rfl
    | cons n sh ih =>
      intro subs h
      cases subs with
      | nil => simp at h
      | cons s rest =>
        have hr : s.resolve n = .error .indexError ∨ ∃ l, s.resolve n = .ok l := by
          cases s with
          | all => exact .inr ⟨_, rfl⟩
          | upto i => exact .inr ⟨_, rfl⟩
          | item i =>
            unfold Sub.resolve pyIndex
            dsimp only
            split
            · exact .inr ⟨_, rfl⟩
            · split
              · exact .inr ⟨_, rfl⟩
              · exact .inl rfl
        unfold resolve
        rcases hr with hr | ⟨l, hr⟩
        · rw [hr]
          rfl
        · rw [hr, py_bind_ok, ih rest]
          · rfl
          · rcases h with h | ⟨k, n', i, h1, h2, h3⟩
            · exact .inl (by simpa using h)
            · cases k with
              | zero =>
                simp only [List.getElem?_cons_zero, Option.some.injEq] at h1 h2
                subst h1 h2
                unfold Sub.resolve pyIndex at hr
                dsimp only at hr
                split at hr
                · omega
                · split at hr
                  · omega
                  · cases hr
              | succ k => exact .inr ⟨k, n', i, by simpa using h1, by simpa using h2, h3⟩
  unfold assign
  rw [key _ _ hs]
  rfl

theorem between_iff {n : Nat} {ws : List Write} {d : List ℝ} (hd : d.length = n) :
    Between ((List.range n).map fun k => entry false k ws) ((List.range n).map fun k => entry true k ws) d ↔
      ∀ k < n, entry false k ws ≤ ((d.getD k 0 : ℝ) : EReal) ∧ ((d.getD k 0 : ℝ) : EReal) ≤ entry true k ws := by
  unfold Between
  rw [hd]
  refine forall_congr' fun k => forall_congr' fun hk => ?_
  rw [getD_map_range _ _ hk, getD_map_range _ _ hk]

end Script

open Script in
/-- **C99.** The bounds of bryson_denham.py, on any mesh: the first state is between 0 and 1/9 everywhere, the state starts at (0, 1) and ends at
(0, -1), and nothing else is bounded. -/
theorem C99_bryson_denham (m : OCModel) (t : NDArray ℝ) (P : Nat) (q : ColProblem) (hP : 1 ≤ P) (hs : t.shape = [P + 1]) (hw : t.WF)
    (hinc : t.data.Pairwise (· < ·)) (hm : m.collocationOrder = 3 ∧ m.nx = 2 ∧ m.nu = 1 ∧ m.np = 0) (hq : ocProblem m t = .ok q) :
    ∃ L U, bounds q.prob Script.brysonDenham = .ok (L, U) ∧ L.length = q.prob.ndec ∧ U.length = q.prob.ndec ∧
      ∀ d : List ℝ, d.length = q.prob.ndec → (Between L U d ↔
        (∀ r ≤ P * 2, 0 ≤ d.getD (r * 2) 0 ∧ d.getD (r * 2) 0 ≤ 1 / 9) ∧ d.getD 0 0 = 0 ∧ d.getD 1 0 = 1 ∧
          d.getD (P * 2 * 2) 0 = 0 ∧ d.getD (P * 2 * 2 + 1) 0 = -1) := by
  obtain ⟨hm1, hm2, hm3, hm4⟩ := hm
  obtain ⟨hl, h8, h9⟩ := oc_layout (N := 2) (by omega) (by decide) hP hs hw hinc hq
  rw [hm2, hm3, hm4] at h8 h9
  set n := P * 2 + 1 with hn
  have hx : target q.prob (some "x") = some ⟨[n, 2], 0⟩ := by
    unfold target
    rw [h8]
    rfl
  have hsz : (0 : Nat) + (⟨[n, 2], 0⟩ : Component).size ≤ q.prob.ndec := by
    rw [h9]
    simp [Component.size]
    omega
  have hall : SelOK [n, 2] [List.range n, [0]] := ⟨fun i hi => by simpa using hi, by simp, by unfold SelOK; trivial⟩
  have hrow : ∀ r < n, SelOK [n, 2] [[r]] := fun r hr => ⟨by simpa using hr, by unfold SelOK; trivial⟩
  have hpos : ∀ r, selPos [n, 2] [[r]] = [r * 2, r * 2 + 1] := fun r => by simp [selPos, List.range_succ]
  let wcol : Bool → EReal → Write := fun up x => ⟨up, 0, selPos [n, 2] [List.range n, [0]], fun _ => x⟩
  let wrow : Bool → Nat → EReal → EReal → Write := fun up r a b => ⟨up, 0, selPos [n, 2] [[r]], fun k => if k % 2 = 0 then a else b⟩
  have hcol : ∀ up x, Does q.prob ⟨up, some "x", [.all, .item 0], .num x⟩ (wcol up x) := fun up x =>
    ⟨rfl, _, _, hx, rfl, hsz, resolve_all_item 0 (pyIndex_zero (by decide)), hall, rfl, fun _ _ => rfl⟩
  have hfst : ∀ up a b, Does q.prob ⟨up, some "x", [.item 0], .list [a, b]⟩ (wrow up 0 a b) := fun up a b =>
    ⟨rfl, _, _, hx, rfl, hsz, resolve_item 0 (pyIndex_zero (by omega)), hrow 0 (by omega), rfl, by simp [wrow, hpos]⟩
  have hlst : ∀ up a b, Does q.prob ⟨up, some "x", [.item (-1)], .list [a, b]⟩ (wrow up (n - 1) a b) := fun up a b =>
    ⟨rfl, _, _, hx, rfl, hsz, resolve_item (-1) (pyIndex_last (by omega)), hrow (n - 1) (by omega), rfl, by
      simp [wrow, hpos]⟩
  have hb := bounds_ok hl (stmts := Script.brysonDenham)
    (.cons (hcol false 0) (.cons (hcol true _) (.cons (hfst false 0 1) (.cons (hfst true 0 1) (.cons (hlst false 0 (-1)) (.cons (hlst true 0 (-1)) .nil))))))
  refine ⟨_, _, hb, by simp, by simp, fun d hd => ?_⟩
  rw [between_iff hd]
  have hmc : ∀ k, k ∈ selPos [n, 2] [List.range n, [0]] ↔ k / 2 < n ∧ k % 2 = 0 := fun k => by
    rw [mem_cols (by simp)]
    simp
  have hmr : ∀ r k, k ∈ selPos [n, 2] [[r]] ↔ k / 2 = r := fun r k => by
    rw [mem_rows (by decide)]
    simp
  have he : ∀ (up : Bool) k, entry up k [wcol false 0, wcol true (1 / 9 : ℝ), wrow false 0 0 1, wrow true 0 0 1, wrow false (n - 1) 0 (-1), wrow true (n - 1) 0 (-1)] =
      if k / 2 = n - 1 then (if k % 2 = 0 then 0 else -1) else if k / 2 = 0 then (if k % 2 = 0 then 0 else 1) else
        if k / 2 < n ∧ k % 2 = 0 then (if up then ((1 / 9 : ℝ) : EReal) else 0) else if up then ⊤ else ⊥ := by
    intro up k
    unfold entry
    cases up <;> simp only [List.foldl_cons, List.foldl_nil, wcol, wrow, hmc, hmr, Nat.sub_zero, Nat.zero_le, true_and, Bool.true_eq_false, Bool.false_eq_true,
      false_and, if_false, if_true]
  simp only [he]
  have e0 : (0 : EReal) = ((0 : ℝ) : EReal) := rfl
  have e1 : (1 : EReal) = ((1 : ℝ) : EReal) := rfl
  have em : (-1 : EReal) = ((-1 : ℝ) : EReal) := rfl
  constructor
  · intro h
    have hv : ∀ k < q.prob.ndec, ∀ x : ℝ, (if k / 2 = n - 1 then (if k % 2 = 0 then 0 else -1) else if k / 2 = 0 then (if k % 2 = 0 then 0 else 1) else
        (⊤ : EReal)) = (x : EReal) → d.getD k 0 = x := fun k hk x hx => by
      obtain ⟨h1, h2⟩ := h k hk
      by_cases c1 : k / 2 = n - 1
      · rw [if_pos c1] at hx h1 h2
        rw [hx, EReal.coe_le_coe_iff] at h1 h2
        exact le_antisymm h2 h1
      rw [if_neg c1] at hx h1 h2
      by_cases c3 : k / 2 = 0
      · rw [if_pos c3] at hx h1 h2
        rw [hx, EReal.coe_le_coe_iff] at h1 h2
        exact le_antisymm h2 h1
      rw [if_neg c3] at hx
      exact absurd hx.symm (EReal.coe_ne_top x)
    have h0 := hv 0 (by omega) 0 (by rw [if_neg (by omega), if_pos (by omega), if_pos (by omega), e0])
    have h1 := hv 1 (by omega) 1 (by rw [if_neg (by omega), if_pos (by omega), if_neg (by omega), e1])
    have h2 := hv (P * 2 * 2) (by omega) 0 (by rw [if_pos (by omega), if_pos (by omega), e0])
    have h3 := hv (P * 2 * 2 + 1) (by omega) (-1) (by rw [if_pos (by omega), if_neg (by omega), em])
    refine ⟨fun r hr => ?_, h0, h1, h2, h3⟩
    rcases Nat.eq_zero_or_pos r with rfl | hr0
    · rw [Nat.zero_mul, h0]
      norm_num
    rcases Nat.lt_or_ge r (P * 2) with hr1 | hr1
    · obtain ⟨h4, h5⟩ := h (r * 2) (by omega)
      rw [if_neg (by omega), if_neg (by omega), if_pos (by omega)] at h4 h5
      exact ⟨EReal.coe_le_coe_iff.1 (by simpa using h4), EReal.coe_le_coe_iff.1 (by simpa using h5)⟩
    · obtain rfl : r = P * 2 := by omega
      rw [h2]
      norm_num
  · rintro ⟨ha, h0, h1, h2, h3⟩ k hk
    by_cases c1 : k / 2 = n - 1
    · rw [if_pos c1, if_pos c1]
      by_cases c2 : k % 2 = 0
      · obtain rfl : k = P * 2 * 2 := by omega
        rw [if_pos c2, h2]
        exact ⟨le_rfl, le_rfl⟩
      · obtain rfl : k = P * 2 * 2 + 1 := by omega
        rw [if_neg c2, h3]
        exact ⟨le_rfl, le_rfl⟩
    rw [if_neg c1, if_neg c1]
    by_cases c3 : k / 2 = 0
    · rw [if_pos c3, if_pos c3]
      by_cases c2 : k % 2 = 0
      · obtain rfl : k = 0 := by omega
        rw [if_pos c2, h0]
        exact ⟨le_rfl, le_rfl⟩
      · obtain rfl : k = 1 := by omega
        rw [if_neg c2, h1]
        exact ⟨le_rfl, le_rfl⟩
    rw [if_neg c3, if_neg c3]
    by_cases c4 : k / 2 < n ∧ k % 2 = 0
    · rw [if_pos c4, if_pos c4]
      have := ha (k / 2) (by omega)
      rw [Nat.div_mul_cancel (by omega)] at this
      exact ⟨EReal.coe_le_coe_iff.2 this.1, EReal.coe_le_coe_iff.2 this.2⟩
    · rw [if_neg c4, if_neg c4]
      exact ⟨bot_le, le_top⟩

/-- The sizes of the model that is generated for an optimal control problem. -/
theorem oc_sizes (U : OCUser SExpr) (F : OCFunctions) {xn un pn : List String} {ng nh N : Nat}
    (hU : OCDenotes SExpr.ev U F xn.length un.length pn.length ng nh) (hN : (N : Int) + 1 = U.order) (hN1 : 1 ≤ N) {vars : Dict String SymVar}
    (hv : ColVars vars xn un pn) {decision : List String}
    (hd : DecisionOK vars ["x", "u", "p", "xp", "up", "xe"] ["piece_len"] decision) {iter : String → List String} (hi : OrdersOK iter ocWrt)
    {c : SymClass SExpr} {m : OCModel} (hc : symocInit SExpr.arith U iter vars decision = .ok c) (hm : symocGen (exprCode (shapeOf c.vars)) U c = .ok m) :
    m.nx = xn.length ∧ m.nu = un.length ∧ m.np = pn.length ∧ m.collocationOrder = U.order := by
  obtain ⟨c', h1, -, h3⟩ := C70_oc arith_ok U F hU hN hN1 hv hd hi
  obtain rfl : c' = c := Except.ok.inj (h1.symm.trans hc)
  obtain ⟨m', s, g1, g2, g3, g4, -⟩ := h3 (exprCode (shapeOf c'.vars)) fun _ g _ => C66_expr_code _ g
  obtain rfl : m' = m := Except.ok.inj (g1.symm.trans hm)
  refine ⟨g2, g3, g4, ?_⟩
  unfold symocGen at hm
  simp only [varLen] at hm
  obtain ⟨_, _, hm⟩ := py_bind_eq_ok hm
  obtain ⟨_, _, hm⟩ := py_bind_eq_ok hm
  obtain ⟨_, _, hm⟩ := py_bind_eq_ok hm
  obtain ⟨_, _, hm⟩ := py_bind_eq_ok hm
  obtain ⟨_, _, hm⟩ := py_bind_eq_ok hm
  obtain ⟨_, _, hm⟩ := py_bind_eq_ok hm
  obtain ⟨_, _, hm⟩ := py_bind_eq_ok hm
  obtain ⟨_, _, hm⟩ := py_bind_eq_ok hm
  obtain ⟨_, _, hm⟩ := py_bind_eq_ok hm
  obtain ⟨_, _, hm⟩ := py_bind_eq_ok hm
  cases hm
  rfl

/-- **C99.** bryson_denham.py as it stands: every point that the solver may return, within the bounds that the script sets and without defects,
costs at least 3.9996; one such point costs at most 4.0405. -/
theorem C99_bryson_denham_min {iter : String → List String} (hi : OrdersOK iter ocWrt) :
    ∃ c, symocInit SExpr.arith brysonDenham iter brysonDenhamVars [] = .ok c ∧
      ∃ m, symocGen (exprCode (shapeOf c.vars)) brysonDenham c = .ok m ∧ ∃ q, ocProblem m brysonDenhamMesh = .ok q ∧
        ∃ L U, Script.bounds q.prob Script.brysonDenham = .ok (L, U) ∧
        (∀ d cv, d.length = q.prob.ndec → Between L U d → q.prob.constr d = .ok cv → (∀ a ∈ cv, a = 0) → ∃ v, q.prob.obj d = .ok v ∧ 3.9996 ≤ v) ∧
        ∃ d cv v, d.length = q.prob.ndec ∧ Between L U d ∧ q.prob.constr d = .ok cv ∧ (∀ a ∈ cv, a = 0) ∧ q.prob.obj d = .ok v ∧ v ≤ 4.0405 := by
  obtain ⟨c, h1, m, h2, q, q1, q2, q3, d0, v0, f1, f2, f3⟩ := C73_bryson_denham_mesh hi
  have hdec : DecisionOK brysonDenhamVars ["x", "u", "p", "xp", "up", "xe"] ["piece_len"] [] := by unfold DecisionOK; decide
  obtain ⟨m1, m2, m3, m4⟩ := oc_sizes brysonDenham BrysonDenham.functions (xn := ["x1", "x2"]) (un := ["u1"]) (pn := []) (N := 2)
    BrysonDenham.denotes rfl (by decide) BrysonDenham.vars_ok hdec hi h1 h2
  obtain ⟨L, U, b1, b2, b3, b4⟩ := C99_bryson_denham m brysonDenhamMesh 100 q (by decide) rfl (by simp [NDArray.WF, brysonDenhamMesh])
    (List.pairwise_map.2 (List.pairwise_lt_range.imp fun h => by gcongr)) ⟨m4, m1, m2, m3⟩ q1
  have hrow : ∀ (d : List ℝ) r, (ocX 2 d r).getD 0 0 = d.getD (r * 2) 0 ∧ (ocX 2 d r).getD 1 0 = d.getD (r * 2 + 1) 0 := fun d r => by
    constructor <;> simp [ocX, rowAt, List.range_succ]
  have hiff : ∀ d : List ℝ, d.length = q.prob.ndec → (Between L U d ↔
      ∀ r ≤ 100 * 2, WithinBounds (brysonDenhamLower (100 * 2) r) (brysonDenhamUpper (100 * 2) r) (ocX 2 d r)) := fun d hd => by
    rw [b4 d hd]
    constructor
    · rintro ⟨ha, c0, c1, c2, c3⟩ r hr
      unfold brysonDenhamLower brysonDenhamUpper
      by_cases e1 : r = 100 * 2
      · subst e1
        rw [if_pos rfl, if_pos rfl, BrysonDenham.within_pair, (hrow d _).1, (hrow d _).2]
        exact ⟨c2, c3⟩
      rw [if_neg e1, if_neg e1]
      by_cases e2 : r = 0
      · subst e2
        rw [if_pos rfl, if_pos rfl, BrysonDenham.within_pair, (hrow d _).1, (hrow d _).2]
        exact ⟨c0, c1⟩
      rw [if_neg e2, if_neg e2, BrysonDenham.within_box, (hrow d _).1]
      exact ha r hr
    · intro h
      have h0 := h 0 (by decide)
      have h9 := h 200 (by decide)
      unfold brysonDenhamLower brysonDenhamUpper at h0 h9
      rw [if_neg (by decide : ¬ 0 = 100 * 2), if_pos rfl, if_neg (by decide : ¬ 0 = 100 * 2), if_pos rfl, BrysonDenham.within_pair, (hrow d _).1, (hrow d _).2] at h0
      rw [if_pos rfl, if_pos rfl, BrysonDenham.within_pair, (hrow d _).1, (hrow d _).2] at h9
      refine ⟨fun r hr => ?_, h0.1, h0.2, h9.1, h9.2⟩
      by_cases e1 : r = 100 * 2
      · subst e1
        rw [h9.1]
        norm_num
      by_cases e2 : r = 0
      · subst e2
        rw [h0.1]
        norm_num
      have := h r hr
      unfold brysonDenhamLower brysonDenhamUpper at this
      rw [if_neg e1, if_neg e2, if_neg e1, if_neg e2, BrysonDenham.within_box, (hrow d _).1] at this
      exact this
  refine ⟨c, h1, m, h2, q, q1, L, U, b1, fun d cv hd hb hc h0 => q3 d ⟨hd, ⟨cv, hc, h0⟩, (hiff d hd).1 hb⟩, ?_⟩
  obtain ⟨cv, k1, k2⟩ := f1.constr
  exact ⟨d0, cv, v0, f1.length, (hiff d0 f1.length).2 f1.bounds, k1, k2, f2, f3⟩

open Script in
/-- **C99.** The bounds of brachistochrone.py, on any mesh: the path starts at rest at the origin, ends at (10, -5) with any speed, its angles are
between `-π` and `π`, its duration is at least `1e-5`, and nothing else is bounded. -/
theorem C99_brachistochrone (m : OCModel) (t : NDArray ℝ) (P : Nat) (q : ColProblem) (hP : 1 ≤ P) (hs : t.shape = [P + 1]) (hw : t.WF)
    (hinc : t.data.Pairwise (· < ·)) (hm : m.collocationOrder = 3 ∧ m.nx = 3 ∧ m.nu = 1 ∧ m.np = 1) (hq : ocProblem m t = .ok q) :
    ∃ L U, bounds q.prob Script.brachistochrone = .ok (L, U) ∧ L.length = q.prob.ndec ∧ U.length = q.prob.ndec ∧
      ∀ d : List ℝ, d.length = q.prob.ndec → (Between L U d ↔
        (d.getD 0 0 = 0 ∧ d.getD 1 0 = 0 ∧ d.getD 2 0 = 0) ∧ (d.getD (P * 2 * 3) 0 = 10 ∧ d.getD (P * 2 * 3 + 1) 0 = -5) ∧
          (∀ r ≤ P * 2, -Real.pi ≤ d.getD ((P * 2 + 1) * 3 + r) 0 ∧ d.getD ((P * 2 + 1) * 3 + r) 0 ≤ Real.pi) ∧
          1e-5 ≤ d.getD ((P * 2 + 1) * 4) 0) := by
  obtain ⟨hm1, hm2, hm3, hm4⟩ := hm
  obtain ⟨hl, h8, h9⟩ := oc_layout (N := 2) (by omega) (by decide) hP hs hw hinc hq
  rw [hm2, hm3, hm4] at h8 h9
  set n := P * 2 + 1 with hn
  have hx : target q.prob (some "x") = some ⟨[n, 3], 0⟩ := by
    unfold target
    rw [h8]
    rfl
  have hu : target q.prob (some "u") = some ⟨[n, 1], n * 3⟩ := by
    unfold target
    rw [h8]
    rfl
  have hp : target q.prob (some "p") = some ⟨[1], n * 4⟩ := by
    unfold target
    rw [h8]
    rfl
  have hszx : (0 : Nat) + (⟨[n, 3], 0⟩ : Component).size ≤ q.prob.ndec := by
    rw [h9]
    simp [Component.size]
    omega
  have hszu : n * 3 + (⟨[n, 1], n * 3⟩ : Component).size ≤ q.prob.ndec := by
    rw [h9]
    simp [Component.size]
    omega
  have hszp : n * 4 + (⟨[1], n * 4⟩ : Component).size ≤ q.prob.ndec := by
    rw [h9]
    simp [Component.size]
  have hrow : ∀ r < n, ∀ c ≤ 3, SelOK [n, 3] [[r], List.range c] := fun r hr c hc =>
    ⟨by simpa using hr, fun i hi => by have := List.mem_range.1 hi; omega, by unfold SelOK; trivial⟩
  have hfull : ∀ n sh, SelOK (n :: sh) [List.range n] := fun n sh => ⟨fun i hi => by simpa using hi, by unfold SelOK; trivial⟩
  let wp : Write := ⟨false, n * 4, selPos [1] [List.range 1], fun _ => ((1e-5 : ℝ) : EReal)⟩
  let wf : Bool → Write := fun up => ⟨up, 0, selPos [n, 3] [[0], List.range 3], fun _ => 0⟩
  let wl : Bool → Write := fun up => ⟨up, 0, selPos [n, 3] [[n - 1], List.range 2], fun k => if k % 3 = 0 then ((10 : ℝ) : EReal) else ((-5 : ℝ) : EReal)⟩
  let wu : Bool → EReal → Write := fun up x => ⟨up, n * 3, selPos [n, 1] [List.range n], fun _ => x⟩
  have dp : Does q.prob ⟨false, some "p", [.all], .num ((1e-5 : ℝ) : EReal)⟩ wp :=
    ⟨rfl, _, _, hp, rfl, hszp, resolve_all, hfull 1 [], rfl, fun _ _ => rfl⟩
  have df : ∀ up, Does q.prob ⟨up, some "x", [.item 0, .upto 3], .num 0⟩ (wf up) := fun up =>
    ⟨rfl, _, _, hx, rfl, hszx, resolve_item_upto (c := 3) 0 (pyIndex_zero (by omega)) le_rfl, hrow 0 (by omega) 3 le_rfl, rfl, fun _ _ => rfl⟩
  have dl : ∀ up, Does q.prob ⟨up, some "x", [.item (-1), .upto 2], .list [((10 : ℝ) : EReal), ((-5 : ℝ) : EReal)]⟩ (wl up) := fun up =>
    ⟨rfl, _, _, hx, rfl, hszx, resolve_item_upto (c := 2) (-1) (pyIndex_last (by omega)) (by decide), hrow (n - 1) (by omega) 2 (by decide), rfl, by
      simp [wl, selPos, List.range_succ]⟩
  have du : ∀ up x, Does q.prob ⟨up, some "u", [.all], .num x⟩ (wu up x) := fun up x =>
    ⟨rfl, _, _, hu, rfl, hszu, resolve_all, hfull n [1], rfl, fun _ _ => rfl⟩
  have hb := bounds_ok hl (stmts := Script.brachistochrone)
    (.cons dp (.cons (df false) (.cons (df true) (.cons (dl false) (.cons (dl true) (.cons (du false _) (.cons (du true _) .nil)))))))
  refine ⟨_, _, hb, by simp, by simp, fun d hd => ?_⟩
  rw [between_iff hd]
  have hmp : ∀ k, k ∈ selPos [1] [List.range 1] ↔ k = 0 := fun k => by
    rw [mem_one]
    simp
  have hmf : ∀ k, k ∈ selPos [n, 3] [[0], List.range 3] ↔ k / 3 = 0 := fun k => by
    rw [mem_cols (by simp)]
    simp [Nat.mod_lt]
  have hml : ∀ k, k ∈ selPos [n, 3] [[n - 1], List.range 2] ↔ k / 3 = n - 1 ∧ k % 3 < 2 := fun k => by
    rw [mem_cols (fun j hj => by have := List.mem_range.1 hj; omega)]
    simp
  have hmu : ∀ k, k ∈ selPos [n, 1] [List.range n] ↔ k < n := fun k => by
    rw [mem_rows (by decide)]
    simp
  have he : ∀ (up : Bool) k, entry up k [wp, wf false, wf true, wl false, wl true, wu false ((-Real.pi : ℝ) : EReal), wu true ((Real.pi : ℝ) : EReal)] =
      if n * 3 ≤ k ∧ k - n * 3 < n then (if up then ((Real.pi : ℝ) : EReal) else ((-Real.pi : ℝ) : EReal)) else
      if k / 3 = n - 1 ∧ k % 3 < 2 then (if k % 3 = 0 then ((10 : ℝ) : EReal) else ((-5 : ℝ) : EReal)) else if k / 3 = 0 then 0 else
        if up then ⊤ else if n * 4 ≤ k ∧ k - n * 4 = 0 then ((1e-5 : ℝ) : EReal) else ⊥ := by
    intro up k
    unfold entry
    cases up <;> simp only [List.foldl_cons, List.foldl_nil, wp, wf, wl, wu, hmp, hmf, hml, hmu, Nat.sub_zero, Nat.zero_le, true_and, Bool.true_eq_false,
      Bool.false_eq_true, false_and, if_false, if_true]
  constructor
  · intro h
    have hv : ∀ k < q.prob.ndec, ∀ x : ℝ, (∀ up, entry up k [wp, wf false, wf true, wl false, wl true, wu false ((-Real.pi : ℝ) : EReal),
        wu true ((Real.pi : ℝ) : EReal)] = (x : EReal)) → d.getD k 0 = x := fun k hk x hx => by
      obtain ⟨h1, h2⟩ := h k hk
      rw [hx, EReal.coe_le_coe_iff] at h1 h2
      exact le_antisymm h2 h1
    refine ⟨⟨?_, ?_, ?_⟩, ⟨?_, ?_⟩, fun r hr => ?_, ?_⟩
    · exact hv 0 (by omega) 0 fun up => by rw [he, if_neg (by omega), if_neg (by omega), if_pos (by omega)]; rfl
    · exact hv 1 (by omega) 0 fun up => by rw [he, if_neg (by omega), if_neg (by omega), if_pos (by omega)]; rfl
    · exact hv 2 (by omega) 0 fun up => by rw [he, if_neg (by omega), if_neg (by omega), if_pos (by omega)]; rfl
    · exact hv _ (by omega) 10 fun up => by rw [he, if_neg (by omega), if_pos (by omega), if_pos (by omega)]
    · exact hv _ (by omega) (-5) fun up => by rw [he, if_neg (by omega), if_pos (by omega), if_neg (by omega)]
    · obtain ⟨h1, h2⟩ := h (n * 3 + r) (by omega)
      rw [he, if_pos (by omega)] at h1 h2
      exact ⟨EReal.coe_le_coe_iff.1 h1, EReal.coe_le_coe_iff.1 h2⟩
    · obtain ⟨h1, -⟩ := h (n * 4) (by omega)
      rw [he, if_neg (by omega), if_neg (by omega), if_neg (by omega), if_neg (by decide), if_pos (by omega)] at h1
      exact EReal.coe_le_coe_iff.1 h1
  · rintro ⟨⟨h0, h1, h2⟩, ⟨h3, h4⟩, ha, h5⟩ k hk
    rw [he, he]
    by_cases c1 : n * 3 ≤ k ∧ k - n * 3 < n
    · rw [if_pos c1, if_pos c1]
      have := ha (k - n * 3) (by omega)
      rw [Nat.add_sub_cancel' c1.1] at this
      exact ⟨EReal.coe_le_coe_iff.2 this.1, EReal.coe_le_coe_iff.2 this.2⟩
    rw [if_neg c1, if_neg c1]
    by_cases c2 : k / 3 = n - 1 ∧ k % 3 < 2
    · rw [if_pos c2, if_pos c2]
      by_cases c3 : k % 3 = 0
      · obtain rfl : k = P * 2 * 3 := by omega
        rw [if_pos c3, h3]
        exact ⟨le_rfl, le_rfl⟩
      · obtain rfl : k = P * 2 * 3 + 1 := by omega
        rw [if_neg c3, h4]
        exact ⟨le_rfl, le_rfl⟩
    rw [if_neg c2, if_neg c2]
    by_cases c3 : k / 3 = 0
    · rw [if_pos c3, if_pos c3]
      have : d.getD k 0 = 0 := by
        have : k = 0 ∨ k = 1 ∨ k = 2 := by omega
        rcases this with rfl | rfl | rfl <;> assumption
      rw [this]
      exact ⟨le_rfl, le_rfl⟩
    rw [if_neg c3, if_neg c3, if_neg (by decide), if_pos rfl]
    refine ⟨?_, le_top⟩
    by_cases c4 : n * 4 ≤ k ∧ k - n * 4 = 0
    · obtain rfl : k = n * 4 := by omega
      rw [if_pos c4]
      exact EReal.coe_le_coe_iff.2 h5
    · rw [if_neg c4]
      exact bot_le

/-- **C99.** brachistochrone.py as it stands: a point within its bounds and without defects is a path from rest at the origin to (10, -5), and its cost is
its duration, which is positive. -/
theorem C99_brachistochrone_path {iter : String → List String} (hi : OrdersOK iter ocWrt) :
    ∃ c, symocInit SExpr.arith brachistochrone iter brachistochroneVars [] = .ok c ∧
      ∃ m, symocGen (exprCode (shapeOf c.vars)) brachistochrone c = .ok m ∧
      ∀ (t : NDArray ℝ) (P : Nat), 1 ≤ P → t.shape = [P + 1] → t.WF → t.data.Pairwise (· < ·) →
      ∃ q L U, ocProblem m t = .ok q ∧ Script.bounds q.prob Script.brachistochrone = .ok (L, U) ∧
        ∀ d cv, d.length = q.prob.ndec → Between L U d → q.prob.constr d = .ok cv → (∀ a ∈ cv, a = 0) →
        (∃ z, CollocationPath t.data c.col.points
          (fun i l => Brachistochrone.functions.f (ocX 3 d (i * 2 + l)) (ocU P 2 3 1 d (i * 2 + l)) [d.getD ((P * 2 + 1) * 4) 0])
          (fun i l => ocX 3 d (i * 2 + l)) P 2 3 z) ∧ ocX 3 d 0 = [0, 0, 0] ∧ (∃ v, ocX 3 d (P * 2) = [10, -5, v]) ∧
        ∃ v, q.prob.obj d = .ok v ∧ 1e-5 ≤ v := by
  obtain ⟨c, h1, m, h2, h3⟩ := C73_brachistochrone hi
  refine ⟨c, h1, m, h2, fun t P hP hs hw hinc => ?_⟩
  obtain ⟨q, q1, q2, q3⟩ := h3 t P hP hs hw hinc
  have hdec : DecisionOK brachistochroneVars ["x", "u", "p", "xp", "up", "xe"] ["piece_len"] [] := by unfold DecisionOK; decide
  obtain ⟨m1, m2, m3, m4⟩ := oc_sizes brachistochrone Brachistochrone.functions (xn := ["x", "y", "v"]) (un := ["theta"]) (pn := ["tf"]) (N := 2)
    Brachistochrone.denotes rfl (by decide) Brachistochrone.vars_ok hdec hi h1 h2
  obtain ⟨L, U, b1, b2, b3, b4⟩ := C99_brachistochrone m t P q hP hs hw hinc ⟨m4, m1, m2, m3⟩ q1
  refine ⟨q, L, U, q1, b1, fun d cv hd hb hc h0 => ?_⟩
  obtain ⟨r1, -, cv', r2, -, r3⟩ := q3 d hd
  obtain rfl : cv' = cv := Except.ok.inj (r2.symm.trans hc)
  obtain ⟨⟨a1, a2, a3⟩, ⟨a4, a5⟩, -, a6⟩ := (b4 d hd).1 hb
  refine ⟨r3.1 h0, ?_, ⟨d.getD (P * 2 * 3 + 2) 0, ?_⟩, _, r1, a6⟩
  · simp only [ocX, rowAt, List.range_succ, List.range_zero, List.nil_append, List.map_cons, List.map_nil, List.cons_append, Nat.zero_mul, Nat.zero_add,
      a1, a2, a3]
  · simp only [ocX, rowAt, List.range_succ, List.range_zero, List.nil_append, List.map_cons, List.map_nil, List.cons_append, Nat.zero_add, Nat.add_zero,
      a4, a5]

theorem pyIndex_before_last {n : Nat} (h : 2 ≤ n) : pyIndex n (-2) = .ok (n - 2) := by
  unfold pyIndex
  rw [if_neg (by omega), if_pos (by omega)]
  congr 1
  omega

open Script in
/-- **C99.** The bounds of attas_sp.py bound the last two decision variables, the standard deviations of the measurements, from below, and nothing else.
The initial guess is within them. -/
theorem C99_attas (m : OEMModel) (t : NDArray ℝ) (y : MaskedArray) (u : UArg) (ua : NDArray ℝ) (P : Nat) (q : OEMProblem) (h : OEMInput m t y P)
    (hu : InputsOK m t u ua) (hm : 2 ≤ m.np) (hq : oemProblem ColProblem.initVars m t y u = .ok q) :
    ∃ L U guess, bounds q.prob Script.attas = .ok (L, U) ∧ L.length = q.prob.ndec ∧ U.length = q.prob.ndec ∧
      (∀ d : List ℝ, d.length = q.prob.ndec → (Between L U d ↔ 0.0001 ≤ d.getD (q.prob.ndec - 2) 0 ∧ 0.00025 ≤ d.getD (q.prob.ndec - 1) 0)) ∧
      attasGuess q.prob = .ok guess ∧ guess.length = q.prob.ndec ∧ Between L U guess ∧
      ∀ k < q.prob.ndec - 2, guess.getD k 0 = 0 := by
  obtain ⟨hl, -, h9⟩ := oem_layout (N := (m.collocationOrder - 1).toNat) (by have := h.order; omega) h hu hq
  set n := q.prob.ndec with hn
  have hn2 : 2 ≤ n := by omega
  have hsel : ∀ k < n, SelOK [n] [[k]] := fun k hk => ⟨by simpa using hk, by unfold SelOK; trivial⟩
  let w : Nat → EReal → Write := fun k x => ⟨false, 0, selPos [n] [[k]], fun _ => x⟩
  have d2 : ∀ x, Does q.prob ⟨false, none, [.item (-2)], .num x⟩ (w (n - 2) x) := fun x =>
    ⟨rfl, _, _, rfl, rfl, by simp [Component.size], resolve_item (-2) (pyIndex_before_last hn2), hsel _ (by omega), rfl, fun _ _ => rfl⟩
  have d1 : ∀ x, Does q.prob ⟨false, none, [.item (-1)], .num x⟩ (w (n - 1) x) := fun x =>
    ⟨rfl, _, _, rfl, rfl, by simp [Component.size], resolve_item (-1) (pyIndex_last (by omega)), hsel _ (by omega), rfl, fun _ _ => rfl⟩
  have hb := bounds_ok hl (stmts := Script.attas) (.cons (d2 _) (.cons (d1 _) .nil))
  have he : ∀ (up : Bool) k, entry up k [w (n - 2) ((0.0001 : ℝ) : EReal), w (n - 1) ((0.00025 : ℝ) : EReal)] =
      if up then ⊤ else if k = n - 1 then ((0.00025 : ℝ) : EReal) else if k = n - 2 then ((0.0001 : ℝ) : EReal) else ⊥ := by
    intro up k
    unfold entry
    cases up <;> simp only [List.foldl_cons, List.foldl_nil, w, mem_one, List.mem_singleton, Nat.sub_zero, Nat.zero_le, true_and, Bool.false_eq_true,
      false_and, if_false, if_true]
  have hiff : ∀ d : List ℝ, d.length = n → (Between _ _ d ↔ 0.0001 ≤ d.getD (n - 2) 0 ∧ 0.00025 ≤ d.getD (n - 1) 0) := fun d hd => by
    rw [between_iff (ws := [w (n - 2) ((0.0001 : ℝ) : EReal), w (n - 1) ((0.00025 : ℝ) : EReal)]) hd]
    simp only [he]
    constructor
    · intro h
      have h1 := (h (n - 2) (by omega)).1
      have h2 := (h (n - 1) (by omega)).1
      rw [if_neg (by decide), if_neg (by omega), if_pos rfl] at h1
      rw [if_neg (by decide), if_pos rfl] at h2
      exact ⟨EReal.coe_le_coe_iff.1 h1, EReal.coe_le_coe_iff.1 h2⟩
    · rintro ⟨h1, h2⟩ k hk
      rw [if_neg (by decide), if_pos trivial]
      refine ⟨?_, le_top⟩
      by_cases c1 : k = n - 1
      · subst c1
        rw [if_pos rfl]
        exact EReal.coe_le_coe_iff.2 h2
      rw [if_neg c1]
      by_cases c2 : k = n - 2
      · subst c2
        rw [if_pos rfl]
        exact EReal.coe_le_coe_iff.2 h1
      · rw [if_neg c2]
        exact bot_le
  have hg : attasGuess q.prob = .ok (((List.replicate n (0 : ℝ)).set (n - 2) 0.001).set (n - 1) 0.0025) := by
    unfold attasGuess
    rw [← hn]
    dsimp only
    rw [pyIndex_before_last hn2, py_bind_ok, pyIndex_last (by omega), py_bind_ok]
    rfl
  refine ⟨_, _, _, hb, by simp [hn], by simp [hn], hiff, hg, by simp, (hiff _ (by simp)).2 ⟨?_, ?_⟩, fun k hk => ?_⟩
  · rw [RK.getD_of_lt _ _ (by simp; omega), List.getElem_set_ne (by omega), List.getElem_set_self]
    norm_num
  · rw [RK.getD_of_lt _ _ (by simp; omega), List.getElem_set_self]
    norm_num
  · rw [RK.getD_of_lt _ _ (by simp; omega), List.getElem_set_ne (by omega), List.getElem_set_ne (by omega), List.getElem_replicate]

/-- **C99.** attas_sp.py as it stands, for any record without missing measurements: wherever the solver may go, within the bounds of the script, the
objective is the log-likelihood and all derivatives that the solver gets are right; so they are at the initial guess. -/
theorem C99_attas_derivatives {iter : String → List String} (hi : OrdersOK iter oemWrt) :
    ∃ c, symoemInit SExpr.arith 3 (oemMethods SExpr.arith attas) iter attasVars [] = .ok c ∧
      ∃ m, symoemGen (exprCode (shapeOf c.vars)) 3 c = .ok m ∧
      ∀ (t : NDArray ℝ) (y : MaskedArray) (u : UArg) (ua : NDArray ℝ) (P : Nat), OEMInput m t y P → InputsOK m t u ua →
      (∀ b ∈ y.mask, b = false) →
      ∃ q L U guess, oemProblem ColProblem.initVars m t y u = .ok q ∧ Script.bounds q.prob Script.attas = .ok (L, U) ∧
        Script.attasGuess q.prob = .ok guess ∧ DerivativesRight q.prob guess ∧
        ∀ d : List ℝ, d.length = q.prob.ndec → Between L U d →
          q.prob.obj d = .ok (Attas.logL y.arr.data (P + 1) d) ∧ DerivativesRight q.prob d := by
  have hdec : DecisionOK attasVars ["x", "p", "xp"] ["y", "u", "up", "piece_len"] [] := by unfold DecisionOK; decide
  obtain ⟨c, h1, -, m, h2, -, -, -, m4, -⟩ := C70_oem_expr_at attas Attas.definedOn Attas.functions (xn := ["q", "alpha"]) (un := ["de"]) (pn := Attas.pn)
    (yn := ["q_meas", "alpha_meas"]) (N := 2) Attas.denotes rfl (by decide) Attas.vars_ok rfl hdec hi
  obtain ⟨c', h1', m', h2', -, -, -, h3⟩ := C73_attas hi
  obtain rfl : c' = c := Except.ok.inj (h1'.symm.trans h1)
  obtain rfl : m' = m := Except.ok.inj (h2'.symm.trans h2)
  refine ⟨c', h1', m', h2', fun t y u ua P hin hu hmask => ?_⟩
  obtain ⟨q, q1, q2, q3⟩ := h3 t y u ua P hin hu hmask
  obtain ⟨L, U, g, b1, b2, b3, b4, g1, g2, g3, -⟩ := C99_attas m' t y u ua P q hin hu (by rw [m4]; decide) q1
  have hall : ∀ d : List ℝ, d.length = q.prob.ndec → Between L U d →
      q.prob.obj d = .ok (Attas.logL y.arr.data (P + 1) d) ∧ DerivativesRight q.prob d := fun d hd hb => by
    obtain ⟨o1, o2, -⟩ := q3 d hd
    obtain ⟨c1, c2⟩ := (b4 d hd).1 hb
    exact ⟨o1, o2 (by rw [hd]; linarith) (by rw [hd]; linarith)⟩
  exact ⟨q, L, U, g, q1, b1, g1, (hall g g2 g3).2, hall⟩

open Script in
/-- **C99.** The bounds of duffing_jme.py bound the last parameter, the standard deviation of the measurements, from below, and nothing else. -/
theorem C99_duffing (m : JMEModel) (t : NDArray ℝ) (y : MaskedArray) (u : UArg) (ua : NDArray ℝ) (P : Nat) (q : OEMProblem)
    (h : OEMInput m.toOEMModel t y P) (hu : InputsOK m.toOEMModel t u ua) (hpen : m.usePenalty = some true → m.penalty ≠ none) (hm : 1 ≤ m.np)
    (hq : jmeProblem m t y u = .ok q) :
    ∃ L U, bounds q.prob Script.duffing = .ok (L, U) ∧ L.length = q.prob.ndec ∧ U.length = q.prob.ndec ∧
      ∀ d : List ℝ, d.length = q.prob.ndec → (Between L U d ↔ 1e-5 ≤ d.getD (q.prob.ndec - 1) 0) := by
  obtain ⟨hl, h8, h9⟩ := jme_layout (N := (m.collocationOrder - 1).toNat) (by have := h.order; omega) h hu hpen hq
  set off := (P * (m.collocationOrder - 1).toNat + 1) * m.nx + P * (m.collocationOrder - 1).toNat * m.nw with hoff
  have hp : target q.prob (some "p") = some ⟨[m.np], off⟩ := by
    unfold target
    rw [h8]
    rfl
  let w : EReal → Write := fun x => ⟨false, off, selPos [m.np] [[m.np - 1]], fun _ => x⟩
  have d1 : ∀ x, Does q.prob ⟨false, some "p", [.item (-1)], .num x⟩ (w x) := fun x =>
    ⟨rfl, _, _, hp, rfl, by simp [Component.size, h9], resolve_item (-1) (pyIndex_last (by omega)), ⟨by simp; omega, by unfold SelOK; trivial⟩, rfl,
      fun _ _ => rfl⟩
  have hb := bounds_ok hl (stmts := Script.duffing) (.cons (d1 _) .nil)
  have he : ∀ (up : Bool) k, entry up k [w ((1e-5 : ℝ) : EReal)] =
      if up then ⊤ else if off ≤ k ∧ k - off = m.np - 1 then ((1e-5 : ℝ) : EReal) else ⊥ := by
    intro up k
    unfold entry
    cases up <;> simp only [List.foldl_cons, List.foldl_nil, w, mem_one, List.mem_singleton, true_and, Bool.false_eq_true,
      false_and, if_false, if_true]
  refine ⟨_, _, hb, by simp, by simp, fun d hd => ?_⟩
  rw [between_iff hd]
  simp only [he]
  constructor
  · intro h
    have h1 := (h (q.prob.ndec - 1) (by omega)).1
    rw [if_neg (by decide), if_pos (by omega)] at h1
    exact EReal.coe_le_coe_iff.1 h1
  · intro h1 k hk
    rw [if_neg (by decide), if_pos trivial]
    refine ⟨?_, le_top⟩
    by_cases c1 : off ≤ k ∧ k - off = m.np - 1
    · obtain rfl : k = q.prob.ndec - 1 := by omega
      rw [if_pos c1]
      exact EReal.coe_le_coe_iff.2 h1
    · rw [if_neg c1]
      exact bot_le

/-- **C99.** duffing_jme.py as it stands: within the bounds of the script all derivatives that the solver gets are right. -/
theorem C99_duffing_derivatives (jt : List (List ℝ)) (hjt : jt.length = 3 ∧ ∀ r ∈ jt, r.length = 2) {iter : String → List String}
    (hi : OrdersOK iter jmeWrt) :
    ∃ c, symjmeInit SExpr.arith (duffing jt) iter duffingVars [] = .ok c ∧
      ∃ m, symjmeGen (exprCode (shapeOf c.vars)) (duffing jt) duffingG none c = .ok m ∧
      ∀ (t : NDArray ℝ) (y : MaskedArray) (u : UArg) (ua : NDArray ℝ) (P : Nat), OEMInput m.toOEMModel t y P → InputsOK m.toOEMModel t u ua →
      ∃ q L U, jmeProblem m t y u = .ok q ∧ Script.bounds q.prob Script.duffing = .ok (L, U) ∧ L.length = q.prob.ndec ∧
        ∀ d : List ℝ, d.length = q.prob.ndec → Between L U d → DerivativesRight q.prob d := by
  have hdec : DecisionOK duffingVars ["x", "p", "xp", "wc"] ["y", "u", "up", "piece_len", "G", "penweight"] [] := by unfold DecisionOK; decide
  obtain ⟨c, h1, -, m, h2, -, -, -, m4, -, -, -⟩ := C70_jme_expr_at (duffing jt) (Duffing.total jt) (DL := fun _ _ _ p => 0 < p.getD 4 0)
    (Duffing.definedL jt) Duffing.functions (xn := ["x1", "x2"]) (un := ["u1"]) (pn := Duffing.pn) (yn := ["x1_meas"]) (N := 2) (nw := 1)
    (Duffing.denotes jt) rfl (by decide) hjt Duffing.vars_ok rfl rfl rfl hdec hi duffingG ⟨rfl, rfl⟩ none (fun h => by cases h)
  obtain ⟨c', h1', m', h2', -, -, -, h3⟩ := C73_duffing jt hjt hi
  obtain rfl : c' = c := Except.ok.inj (h1'.symm.trans h1)
  obtain rfl : m' = m := Except.ok.inj (h2'.symm.trans h2)
  have hpen : m'.usePenalty = some false := by
    unfold symjmeGen at h2
    obtain ⟨_, _, h2⟩ := py_bind_eq_ok h2
    obtain ⟨_, _, h2⟩ := py_bind_eq_ok h2
    obtain ⟨_, _, h2⟩ := py_bind_eq_ok h2
    obtain ⟨_, _, h2⟩ := py_bind_eq_ok h2
    cases h2
    rfl
  refine ⟨c', h1', m', h2', fun t y u ua P hin hu => ?_⟩
  obtain ⟨q, rows, q1, -, -, q3⟩ := h3 t y u ua P hin hu
  obtain ⟨L, U, b1, b2, b3, b4⟩ := C99_duffing m' t y u ua P q hin hu (by rw [hpen]; simp) (by rw [m4]; decide) q1
  refine ⟨q, L, U, q1, b1, b2, fun d hd hb => (q3 d hd).2.1 ?_⟩
  have := (b4 d hd).1 hb
  rw [hd]
  linarith

/-! ### Concrete cases -/

/-- The scripts of the examples are cases of the theorems. -/
example := C99_bryson_denham_min Pendulum.iter_ok
example := C99_brachistochrone_path Pendulum.iter_ok

/-- The Bryson--Denham problem on one piece has points outside the bounds and points within them. -/
example : ∃ c, symocInit SExpr.arith brysonDenham Pendulum.iter brysonDenhamVars [] = .ok c ∧
    ∃ m, symocGen (exprCode (shapeOf c.vars)) brysonDenham c = .ok m ∧ ∃ q L U, ocProblem m ⟨[2], [0, 1]⟩ = .ok q ∧
      Script.bounds q.prob Script.brysonDenham = .ok (L, U) ∧ Between L U [0, 1, 1 / 9, 5, 0, -1, 7, 7, 7] ∧ ¬ Between L U [0, 1, 1 / 8, 5, 0, -1, 7, 7, 7] := by
  have hdec : DecisionOK brysonDenhamVars ["x", "u", "p", "xp", "up", "xe"] ["piece_len"] [] := by unfold DecisionOK; decide
  obtain ⟨c, h1, -, m, h2, h3⟩ := C70_oc_expr brysonDenham BrysonDenham.total BrysonDenham.functions (xn := ["x1", "x2"]) (un := ["u1"]) (pn := []) (N := 2)
    BrysonDenham.denotes rfl (by decide) BrysonDenham.vars_ok hdec Pendulum.iter_ok
  obtain ⟨q, q1, q2, -⟩ := h3 ⟨[2], [0, 1]⟩ 1 le_rfl rfl rfl (by simp)
  obtain ⟨m1, m2, m3, m4⟩ := oc_sizes brysonDenham BrysonDenham.functions (xn := ["x1", "x2"]) (un := ["u1"]) (pn := []) (N := 2)
    BrysonDenham.denotes rfl (by decide) BrysonDenham.vars_ok hdec Pendulum.iter_ok h1 h2
  obtain ⟨L, U, b1, -, -, b4⟩ := C99_bryson_denham m ⟨[2], [0, 1]⟩ 1 q le_rfl rfl rfl (by simp) ⟨m4, m1, m2, m3⟩ q1
  refine ⟨c, h1, m, h2, q, L, U, q1, b1, ?_, ?_⟩
  · rw [b4 _ (by rw [q2]; rfl)]
    refine ⟨fun r hr => ?_, by simp, by simp, by simp, by simp⟩
    have : r = 0 ∨ r = 1 ∨ r = 2 := by omega
    rcases this with rfl | rfl | rfl <;> norm_num
  · rw [b4 _ (by rw [q2]; rfl)]
    intro h
    have := (h.1 1 (by decide)).2
    norm_num at this

/-- The Duffing script on a record of measurements. -/
example : ∃ m q L U, jmeProblem m PendulumId.t PendulumId.y (.callable fun _ => .ok (.array PendulumId.ua)) = .ok q ∧
    Script.bounds q.prob Script.duffing = .ok (L, U) ∧ L.length = 19 := by
  have hjt : ([[1, 0], [1 / 2, 1 / 2], [0, 1]] : List (List ℝ)).length = 3 ∧ ∀ r ∈ ([[1, 0], [1 / 2, 1 / 2], [0, 1]] : List (List ℝ)), r.length = 2 :=
    ⟨rfl, by intro r hr; simp only [List.mem_cons, List.not_mem_nil, or_false] at hr; rcases hr with rfl | rfl | rfl <;> rfl⟩
  obtain ⟨c, h1, m, h2, m1, m3, m5, h3⟩ := C73_duffing _ hjt PendulumId.jiter_ok
  obtain ⟨q, rows, q1, -, q2, -⟩ := h3 PendulumId.t PendulumId.y _ PendulumId.ua 2 (PendulumId.input m1 m5) (PendulumId.inputs m1 m5 m3)
  obtain ⟨c', k1, m', k2, k3⟩ := C99_duffing_derivatives _ hjt PendulumId.jiter_ok
  obtain rfl : c = c' := Except.ok.inj (h1.symm.trans k1)
  obtain rfl : m = m' := Except.ok.inj (h2.symm.trans k2)
  obtain ⟨q', L, U, r1, r2, r3, -⟩ := k3 PendulumId.t PendulumId.y _ PendulumId.ua 2 (PendulumId.input m1 m5) (PendulumId.inputs m1 m5 m3)
  obtain rfl : q = q' := Except.ok.inj (q1.symm.trans r1)
  exact ⟨m, q, L, U, q1, r2, r3.trans q2⟩

end Ceacoest
