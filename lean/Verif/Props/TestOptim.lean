import Verif.Lemmas.TestOptim
import Verif.Props.SymContract
import Verif.Props.DerivExample

/-! # C93: what the tests of derivatives establish -/

namespace Ceacoest
open Spec Utils TestOptim

/-- **C93** (`central_diff`). Each entry differs from the partial derivative by at most a sixth of the square of the step times a
bound on the third derivative, for every function with values in arrays, wherever it is three times differentiable. -/
theorem C93_central (f : NDArray ℝ → NDArray ℝ) (x : NDArray ℝ) (minStep relStep : ℝ) (junk : Nat → ℝ) (osh : List Nat) (hx : x.WF)
    (hne : 0 < x.data.length) (hmin : 0 < minStep)
    (hf : ∀ i < x.data.length, ∀ t, (f ⟨x.shape, x.data.set i t⟩).shape = osh ∧ (f ⟨x.shape, x.data.set i t⟩).WF) (D M : Nat → Nat → ℝ)
    (hD : ∀ i < x.data.length, ∀ r < osh.prod, Thrice (fun t => (f ⟨x.shape, x.data.set i t⟩).data.getD r 0) (x.data.getD i 0)
      (max (x.data.getD i 0 * relStep) minStep) (D i r) (M i r)) :
    ∃ d, centralDiff (fun y => .ok (f y)) x minStep relStep junk = .ok (some d) ∧ d.shape = x.shape ++ osh ∧ d.WF ∧
      ∀ i < x.data.length, ∀ r < osh.prod,
        |d.data.getD (i * osh.prod + r) 0 - D i r| ≤ M i r * max (x.data.getD i 0 * relStep) minStep ^ 2 / 6 := by
  obtain ⟨st, h1, -, h3⟩ := central_fold f x (steps x.data minStep relStep) junk osh hf hx _ le_rfl
  obtain ⟨a, rfl, h4, h5, h6⟩ := h3 hne
  refine ⟨a, ?_, h4, ?_, fun i hi r hr => ?_⟩
  · unfold centralDiff
    simp only
    rw [(C57_steps _ _ _).1, h1]
    rfl
  · rw [NDArray.WF, h5, h4, List.prod_append, ← hx]
  · rw [h6 i hi r hr, steps_getD _ _ _ hi]
    exact central_error (lt_of_lt_of_le hmin (le_max_right _ _)) (hD i hi r hr)

/-- **C93** (`forward_diff`). Each entry differs from the partial derivative by at most half the step times a bound on the second
derivative. -/
theorem C93_forward (f : NDArray ℝ → NDArray ℝ) (x : NDArray ℝ) (minStep relStep : ℝ) (junk : Nat → ℝ) (osh : List Nat) (hx : x.WF)
    (hmin : 0 < minStep) (h0 : (f x).shape = osh ∧ (f x).WF)
    (hf : ∀ i < x.data.length, ∀ t, (f ⟨x.shape, x.data.set i t⟩).shape = osh ∧ (f ⟨x.shape, x.data.set i t⟩).WF) (D M : Nat → Nat → ℝ)
    (hD : ∀ i < x.data.length, ∀ r < osh.prod, Twice (fun t => (f ⟨x.shape, x.data.set i t⟩).data.getD r 0) (x.data.getD i 0)
      (max (x.data.getD i 0 * relStep) minStep) (D i r) (M i r)) :
    ∃ d, forwardDiff (fun y => .ok (f y)) x minStep relStep junk = .ok d ∧ d.shape = x.shape ++ osh ∧ d.WF ∧
      ∀ i < x.data.length, ∀ r < osh.prod,
        |d.data.getD (i * osh.prod + r) 0 - D i r| ≤ M i r * max (x.data.getD i 0 * relStep) minStep / 2 := by
  obtain ⟨a, h1, h4, h5, h6⟩ := forward_fold f x (steps x.data minStep relStep) junk osh hf h0 hx _ le_rfl
  refine ⟨a, ?_, h4, ?_, fun i hi r hr => ?_⟩
  · unfold forwardDiff
    simp only [py_bind_ok]
    rw [(C57_steps _ _ _).1, h0.1, h1]
  · rw [NDArray.WF, h5, h4, List.prod_append, ← hx]
  · rw [h6 i hi r hr, steps_getD _ _ _ hi]
    have := forward_error (lt_of_lt_of_le hmin (le_max_right _ _)) (hD i hi r hr)
    rwa [show (⟨x.shape, x.data.set i (x.data.getD i 0)⟩ : NDArray ℝ) = x from atCoord_self x i] at this

/-- **C93** (`sparse_fun_to_full`). The full matrix has the sums of the listed entries; with `fix_sym` each entry off the diagonal
stands for two. -/
theorem C93_full (val : List ℝ) (r c : List Nat) (n m : Nat) (hne : r ≠ []) (hr : r.length = val.length) (hc : c.length = val.length)
    (hrn : ∀ i ∈ r, i < n) (hcm : ∀ i ∈ c, i < m) :
    (∃ A, sparseFunToFull (.ok val) (r, c) n m false = .ok A ∧ A.shape = [n, m] ∧ A.WF ∧ ∀ i < n, ∀ j < m,
      A.data.getD (i * m + j) 0 = assemble val.length (fun k => r.getD k 0 = i ∧ c.getD k 0 = j) fun k => val.getD k 0) ∧
    (n = m → ∃ A, sparseFunToFull (.ok val) (r, c) n m true = .ok A ∧ A.shape = [n, m] ∧ A.WF ∧ ∀ i < n, ∀ j < m,
      A.data.getD (i * m + j) 0 = assemble val.length (fun k => symHit i j (r.getD k 0) (c.getD k 0)) fun k => val.getD k 0) :=
  ⟨full_ok hne hr hc hrn hcm, fun h => by subst h; exact full_sym_ok hne hr hc hrn hcm⟩

/-- **C93** (what goes wrong). Without any listed entry, `np.max` raises ValueError, so that the tests of a problem with a linear
objective, or without constraints, cannot pass; an index out of range raises AssertionError. -/
theorem C93_empty (val : Py (List ℝ)) (c : List Nat) (n m : Nat) (sym : Bool) :
    sparseFunToFull val ([], c) n m sym = .error .valueError ∧
    (∀ r : List Nat, r ≠ [] → (∃ i ∈ r, n ≤ i) → sparseFunToFull val (r, c) n m sym = .error .assertionError) ∧
    (∀ r : List Nat, r ≠ [] → (∀ i ∈ r, i < n) → c ≠ [] → (∃ i ∈ c, m ≤ i) → sparseFunToFull val (r, c) n m sym = .error .assertionError) := by
  have big : ∀ {l : List Nat} {n : Nat}, l ≠ [] → (∃ i ∈ l, n ≤ i) → ∃ m, npMax l = .ok m ∧ ¬m < n := by
    rintro l n hne ⟨i, hi, hin⟩
    cases l with
    | nil => exact absurd rfl hne
    | cons a l =>
      refine ⟨_, rfl, not_lt.2 (hin.trans ?_)⟩
      have : ∀ (l : List Nat) (a : Nat), a ≤ l.foldl max a ∧ ∀ i ∈ l, i ≤ l.foldl max a := by
        intro l
        induction l with
        | nil => intro a; exact ⟨le_rfl, fun i hi => absurd hi (by simp)⟩
        | cons b l ih =>
          intro a
          obtain ⟨h1, h2⟩ := ih (max a b)
          refine ⟨(le_max_left a b).trans h1, fun i hi => ?_⟩
          rcases List.mem_cons.1 hi with rfl | hi
          · exact (le_max_right a i).trans h1
          · exact h2 i hi
      rcases List.mem_cons.1 hi with rfl | hi
      · exact (this l i).1
      · exact (this l a).2 i hi
  refine ⟨rfl, fun r hr h => ?_, fun r hr hrn hc h => ?_⟩
  · obtain ⟨a, a1, a2⟩ := big hr h
    unfold sparseFunToFull
    simp only
    rw [a1]
    simp only [py_bind_ok]
    rw [pyAssert_false a2]
    rfl
  · obtain ⟨a, a1, a2⟩ := npMax_ok hr hrn
    obtain ⟨b, b1, b2⟩ := big hc h
    unfold sparseFunToFull
    simp only
    rw [a1, b1]
    simp only [py_bind_ok]
    rw [pyAssert_true a2, pyAssert_false b2]
    rfl

/-- Both indices are in range. -/
def inside (n m : Nat) (k : Nat × Nat) : Prop := k.1 < n ∧ k.2 < m

theorem inside_pos {n m : Nat} : (∀ k, inside n m k → k.1 * m + k.2 < [n, m].prod) ∧ ∀ q < [n, m].prod, ∃ k, inside n m k ∧ k.1 * m + k.2 = q := by
  refine ⟨fun k hk => by simpa using mul_add_lt hk.1 hk.2, fun q hq => ?_⟩
  simp only [List.prod_cons, List.prod_nil, mul_one] at hq
  have hm : 0 < m := Nat.pos_of_ne_zero fun h => by simp [h] at hq
  exact ⟨(q / m, q % m), ⟨Nat.div_lt_of_lt_mul (by rwa [Nat.mul_comm]), Nat.mod_lt _ hm⟩, Nat.div_add_mod' q m⟩

/-- **C93** (`test_merit_gradient`). -/
theorem C93_gradient (T : Tested) (dec : List ℝ) (junk : Nat → ℝ) (hn : 0 < T.ndec) (hdec : dec.length = T.ndec) (f : List ℝ → ℝ) (g : List ℝ)
    (hf : ∀ d : List ℝ, d.length = T.ndec → T.merit d = .ok (f d)) (hg : T.meritGradient dec = .ok g) (hgl : g.length = T.ndec) (D M : Nat → ℝ)
    (hD : ∀ i < T.ndec, Thrice (fun t => f (dec.set i t)) (dec.getD i 0) (step dec i) (D i) (M i)) :
    Verdict (testMeritGradient T dec junk) (· < T.ndec) (fun i => g.getD i 0) D (fun i => M i * step dec i ^ 2 / 6) (1 / 10 ^ 7) := by
  obtain ⟨b, h1, h2, h3, h4⟩ := diffAt_error (f := fun d => do return ⟨[], [← T.merit d]⟩) (g := fun d => ⟨[], [f d]⟩) (osh := []) hn
    (fun d hd => ⟨by rw [hf d hd]; rfl, rfl, rfl⟩) hdec junk (D := fun i _ => D i) (M := fun i _ => M i) (fun i hi r hr => by
      obtain rfl : r = 0 := by simpa using hr
      exact hD i hi)
  have he : testMeritGradient T dec junk = check (vec g) (some b) := by
    unfold testMeritGradient
    rw [hg, h1]
    rfl
  rw [he]
  refine check_verdict (sh := [T.ndec]) (pos := id) (by simp [vec, NDArray.WF]) h3 (by simp [vec, hgl]) h2 (fun k hk => by simpa using hk)
    (fun q hq => ⟨q, by simpa using hq, rfl⟩) fun k hk => ?_
  simpa using h4 k hk 0 (by simp)

/-- **C93** (`test_merit_hessian`). -/
theorem C93_hessian (T : Tested) (dec : List ℝ) (junk : Nat → ℝ) (hn : 0 < T.ndec) (hdec : dec.length = T.ndec) (G : List ℝ → List ℝ)
    (hG : ∀ d : List ℝ, d.length = T.ndec → T.meritGradient d = .ok (G d) ∧ (G d).length = T.ndec) (r c : List Nat) (val : List ℝ)
    (hi : T.meritHessianInd = .ok (r, c)) (hv : T.meritHessianVal dec = .ok val) (hne : r ≠ []) (hr : r.length = val.length) (hc : c.length = val.length)
    (hrn : ∀ i ∈ r, i < T.ndec) (hcn : ∀ i ∈ c, i < T.ndec) (D M : Nat × Nat → ℝ)
    (hD : ∀ i < T.ndec, ∀ j < T.ndec, Thrice (fun t => (G (dec.set i t)).getD j 0) (dec.getD i 0) (step dec i) (D (i, j)) (M (i, j))) :
    Verdict (testMeritHessian T dec junk) (inside T.ndec T.ndec)
      (fun k => assemble val.length (fun n => symHit k.1 k.2 (r.getD n 0) (c.getD n 0)) fun n => val.getD n 0) D
      (fun k => M k * step dec k.1 ^ 2 / 6) (1 / 10 ^ 7) := by
  obtain ⟨b, h1, h2, h3, h4⟩ := diffAt_error (f := fun d => do return vec (← T.meritGradient d)) (g := fun d => vec (G d)) (osh := [T.ndec]) hn
    (fun d hd => ⟨by rw [(hG d hd).1]; rfl, by simp [vec, (hG d hd).2], by simp [vec, NDArray.WF]⟩) hdec junk (D := fun i j => D (i, j)) (M := fun i j => M (i, j))
    (fun i hi j hj => hD i hi j (by simpa using hj))
  obtain ⟨A, a1, a2, a3, a4⟩ := full_sym_ok hne hr hc hrn hcn
  have he : testMeritHessian T dec junk = check A (some b) := by
    unfold testMeritHessian
    rw [hi]
    simp only [py_bind_ok]
    rw [hv, a1, h1]
    rfl
  rw [he]
  have := check_verdict (a := A) (b := b) (sh := [T.ndec, T.ndec]) (K := inside T.ndec T.ndec) (pos := fun k => k.1 * T.ndec + k.2) a3 h3 a2 h2 inside_pos.1 inside_pos.2
    (D := D) (ε := fun k => M k * step dec k.1 ^ 2 / 6) fun k hk => by simpa using h4 k.1 hk.1 k.2 (by simpa using hk.2)
  exact ⟨this.outcome, fun h => this.pass fun k hk => by rw [a4 _ hk.1 _ hk.2]; exact h k hk,
    fun h k hk => by rw [← a4 _ hk.1 _ hk.2]; exact this.close h k hk⟩

/-- **C93** (`test_constraint_jacobian`). -/
theorem C93_jacobian (T : Tested) (dec : List ℝ) (junk : Nat → ℝ) (hn : 0 < T.ndec) (hdec : dec.length = T.ndec) (cf : List ℝ → List ℝ)
    (hcf : ∀ d : List ℝ, d.length = T.ndec → T.constraint d = .ok (cf d) ∧ (cf d).length = T.ncons) (r c : List Nat) (val : List ℝ)
    (hi : T.constraintJacobianInd = .ok (r, c)) (hv : T.constraintJacobianVal dec = .ok val) (hne : r ≠ []) (hr : r.length = val.length)
    (hc : c.length = val.length) (hrn : ∀ i ∈ r, i < T.ndec) (hcn : ∀ i ∈ c, i < T.ncons) (D M : Nat × Nat → ℝ)
    (hD : ∀ i < T.ndec, ∀ q < T.ncons, Thrice (fun t => (cf (dec.set i t)).getD q 0) (dec.getD i 0) (step dec i) (D (i, q)) (M (i, q))) :
    Verdict (testConstraintJacobian T dec junk) (inside T.ndec T.ncons)
      (fun k => assemble val.length (fun n => r.getD n 0 = k.1 ∧ c.getD n 0 = k.2) fun n => val.getD n 0) D
      (fun k => M k * step dec k.1 ^ 2 / 6) (1 / 10 ^ 7) := by
  obtain ⟨b, h1, h2, h3, h4⟩ := diffAt_error (f := fun d => do return vec (← T.constraint d)) (g := fun d => vec (cf d)) (osh := [T.ncons]) hn
    (fun d hd => ⟨by rw [(hcf d hd).1]; rfl, by simp [vec, (hcf d hd).2], by simp [vec, NDArray.WF]⟩) hdec junk (D := fun i j => D (i, j)) (M := fun i j => M (i, j))
    (fun i hi j hj => hD i hi j (by simpa using hj))
  obtain ⟨A, a1, a2, a3, a4⟩ := full_ok hne hr hc hrn hcn
  have he : testConstraintJacobian T dec junk = check A (some b) := by
    unfold testConstraintJacobian fullJac
    rw [hi]
    simp only [py_bind_ok]
    rw [hv, a1, h1]
    rfl
  rw [he]
  have := check_verdict (a := A) (b := b) (sh := [T.ndec, T.ncons]) (K := inside T.ndec T.ncons) (pos := fun k => k.1 * T.ncons + k.2) a3 h3 a2 h2 inside_pos.1 inside_pos.2
    (D := D) (ε := fun k => M k * step dec k.1 ^ 2 / 6) fun k hk => by simpa using h4 k.1 hk.1 k.2 (by simpa using hk.2)
  exact ⟨this.outcome, fun h => this.pass fun k hk => by rw [a4 _ hk.1 _ hk.2]; exact h k hk,
    fun h k hk => by rw [← a4 _ hk.1 _ hk.2]; exact this.close h k hk⟩

theorem foldlM_unit {F : Nat → Py Unit} {n : Nat} (h : ∀ q < n, F q = .ok () ∨ F q = .error .assertionError) :
    ((List.range n).foldlM (fun (_ : Unit) q => F q) () = .ok () ∧ ∀ q < n, F q = .ok ()) ∨
    ((List.range n).foldlM (fun (_ : Unit) q => F q) () = .error .assertionError ∧ ¬∀ q < n, F q = .ok ()) := by
  induction n with
  | zero => exact Or.inl ⟨rfl, fun q hq => absurd hq (by omega)⟩
  | succ n ih =>
    rw [List.range_succ, List.foldlM_append]
    rcases ih fun q hq => h q (by omega) with ⟨h1, h2⟩ | ⟨h1, h2⟩
    · rw [h1]
      simp only [py_bind_ok, List.foldlM_cons, List.foldlM_nil]
      rcases h n (by omega) with h3 | h3
      · rw [h3]
        refine Or.inl ⟨rfl, fun q hq => ?_⟩
        rcases Nat.lt_succ_iff_lt_or_eq.1 hq with hq | rfl
        · exact h2 q hq
        · exact h3
      · rw [h3]
        exact Or.inr ⟨rfl, fun h4 => by have := h4 n (by omega); rw [h3] at this; simp at this⟩
    · rw [h1]
      exact Or.inr ⟨rfl, fun h4 => h2 fun q hq => h4 q (by omega)⟩

/-- **C93** (`test_constraint_hessian`). -/
theorem C93_constraint_hessian (T : Tested) (dec : List ℝ) (junk : Nat → ℝ) (hn : 0 < T.ndec) (hdec : dec.length = T.ndec) (jr jc : List Nat)
    (jv : List ℝ → List ℝ) (hji : T.constraintJacobianInd = .ok (jr, jc)) (hjne : jr ≠ []) (hjc : jc.length = jr.length)
    (hjv : ∀ d : List ℝ, d.length = T.ndec → T.constraintJacobianVal d = .ok (jv d) ∧ (jv d).length = jr.length)
    (hjrn : ∀ i ∈ jr, i < T.ndec) (hjcn : ∀ i ∈ jc, i < T.ncons) (r c : List Nat) (val : Nat → List ℝ) (hi : T.constraintHessianInd = .ok (r, c))
    (hv : ∀ q < T.ncons, T.constraintHessianVal dec ((List.replicate T.ncons 0).set q 1) = .ok (val q) ∧ (val q).length = r.length)
    (hne : r ≠ []) (hc : c.length = r.length) (hrn : ∀ i ∈ r, i < T.ndec) (hcn : ∀ i ∈ c, i < T.ndec) (D M : Nat × Nat × Nat → ℝ)
    (hD : ∀ i < T.ndec, ∀ j < T.ndec, ∀ q < T.ncons,
      Thrice (fun t => assemble jr.length (fun n => jr.getD n 0 = j ∧ jc.getD n 0 = q) fun n => (jv (dec.set i t)).getD n 0) (dec.getD i 0) (step dec i)
        (D (i, j, q)) (M (i, j, q))) :
    Verdict (testConstraintHessian T dec junk) (fun k => k.1 < T.ndec ∧ k.2.1 < T.ndec ∧ k.2.2 < T.ncons)
      (fun k => assemble r.length (fun n => symHit k.1 k.2.1 (r.getD n 0) (c.getD n 0)) fun n => (val k.2.2).getD n 0) D
      (fun k => M k * step dec k.1 ^ 2 / 6) (1 / 10 ^ 7) := by
  classical
  have hJ : ∀ d : List ℝ, ∃ A : NDArray ℝ, d.length = T.ndec → fullJac T (jr, jc) d = .ok A ∧ A.shape = [T.ndec, T.ncons] ∧ A.WF ∧ ∀ j < T.ndec, ∀ q < T.ncons,
      A.data.getD (j * T.ncons + q) 0 = assemble jr.length (fun n => jr.getD n 0 = j ∧ jc.getD n 0 = q) fun n => (jv d).getD n 0 := by
    intro d
    by_cases hd : d.length = T.ndec
    · obtain ⟨A, a1, a2, a3, a4⟩ := full_ok hjne (hjv d hd).2.symm (hjc.trans (hjv d hd).2.symm) hjrn hjcn
      refine ⟨A, fun _ => ⟨?_, a2, a3, fun j hj q hq => ?_⟩⟩
      · unfold fullJac
        rw [(hjv d hd).1, a1]
      · rw [a4 j hj q hq, (hjv d hd).2]
    · exact ⟨⟨[], []⟩, fun h => absurd h hd⟩
  choose J hJ using hJ
  obtain ⟨b, h1, h2, h3, h4⟩ := diffAt_error (f := fullJac T (jr, jc)) (g := J) (osh := [T.ndec, T.ncons]) hn
    (fun d hd => ⟨(hJ d hd).1, (hJ d hd).2.1, (hJ d hd).2.2.1⟩) hdec junk (D := fun i s => D (i, s / T.ncons, s % T.ncons)) (M := fun i s => M (i, s / T.ncons, s % T.ncons))
    (fun i hi s hs => by
      obtain ⟨k, hk, rfl⟩ := inside_pos.2 s hs
      obtain ⟨e1, e2⟩ := divMod_flat (i := k.1) hk.2
      rw [e1, e2]
      have : (fun t => (J (dec.set i t)).data.getD (k.1 * T.ncons + k.2) 0) =
          fun t => assemble jr.length (fun n => jr.getD n 0 = k.1 ∧ jc.getD n 0 = k.2) fun n => (jv (dec.set i t)).getD n 0 :=
        funext fun t => (hJ (dec.set i t) (by simpa using hdec)).2.2.2 _ hk.1 _ hk.2
      rw [this]
      exact hD i hi _ hk.1 _ hk.2)
  have hH : ∀ q, ∃ A : NDArray ℝ, q < T.ncons → sparseFunToFull (T.constraintHessianVal dec ((List.replicate T.ncons 0).set q 1)) (r, c) T.ndec T.ndec true = .ok A ∧
      A.shape = [T.ndec, T.ndec] ∧ A.WF ∧ ∀ i < T.ndec, ∀ j < T.ndec,
        A.data.getD (i * T.ndec + j) 0 = assemble r.length (fun n => symHit i j (r.getD n 0) (c.getD n 0)) fun n => (val q).getD n 0 := by
    intro q
    by_cases hq : q < T.ncons
    · obtain ⟨A, a1, a2, a3, a4⟩ := full_sym_ok hne (hv q hq).2.symm (hc.trans (hv q hq).2.symm) hrn hcn
      refine ⟨A, fun _ => ⟨?_, a2, a3, fun i hi j hj => ?_⟩⟩
      · rw [(hv q hq).1, a1]
      · rw [a4 i hi j hj, (hv q hq).2]
    · exact ⟨⟨[], []⟩, fun h => absurd h hq⟩
  choose A hA using hH
  set B : Nat → NDArray ℝ := fun q => ⟨[T.ndec, T.ndec], (List.range (T.ndec * T.ndec)).map fun s => b.data.getD (s * T.ncons + q) 0⟩ with hB
  have hlast : ∀ q < T.ncons, lastItem (some b) q = .ok (B q) := fun q hq => by
    unfold lastItem
    simp only [h2]
    rw [if_pos hq]
  have hver : ∀ q < T.ncons, Verdict (check (A q) (some (B q))) (inside T.ndec T.ndec) (fun k => (A q).data.getD (k.1 * T.ndec + k.2) 0) (fun k => D (k.1, k.2, q))
      (fun k => M (k.1, k.2, q) * step dec k.1 ^ 2 / 6) (1 / 10 ^ 7) := by
    intro q hq
    obtain ⟨-, a2, a3, -⟩ := hA q hq
    refine check_verdict (sh := [T.ndec, T.ndec]) a3 (by simp [hB, NDArray.WF]) a2 rfl inside_pos.1 inside_pos.2 fun k hk => ?_
    have hs : k.2 * T.ncons + q < [T.ndec, T.ncons].prod := by simpa using mul_add_lt hk.2 hq
    have := h4 k.1 hk.1 (k.2 * T.ncons + q) hs
    obtain ⟨e1, e2⟩ := divMod_flat (i := k.2) hq
    rw [e1, e2] at this
    have e3 : (B q).data.getD (k.1 * T.ndec + k.2) 0 = b.data.getD (k.1 * [T.ndec, T.ncons].prod + (k.2 * T.ncons + q)) 0 := by
      rw [hB]
      simp only
      rw [getD_map_range 0 _ (mul_add_lt hk.1 hk.2)]
      congr 1
      simp only [List.prod_cons, List.prod_nil, mul_one]
      ring
    rw [e3]
    exact this
  have he : testConstraintHessian T dec junk = (List.range T.ncons).foldlM (fun (_ : Unit) q => check (A q) (some (B q))) () := by
    unfold testConstraintHessian
    rw [hji]
    simp only [py_bind_ok]
    rw [h1]
    simp only [py_bind_ok]
    rw [hi]
    simp only [py_bind_ok]
    refine foldlM_congr_range (fun _ q hq => ?_) ()
    rw [(hA q hq).1]
    simp only [py_bind_ok]
    rw [hlast q hq]
    rfl
  rw [he]
  rcases foldlM_unit fun q hq => (hver q hq).outcome with ⟨f1, f2⟩ | ⟨f1, f2⟩
  · refine ⟨Or.inl f1, fun _ => f1, fun _ k hk => ?_⟩
    have := (hver k.2.2 hk.2.2).close (f2 _ hk.2.2) (k.1, k.2.1) ⟨hk.1, hk.2.1⟩
    rwa [(hA k.2.2 hk.2.2).2.2.2 _ hk.1 _ hk.2.1] at this
  · refine ⟨Or.inr f1, fun h => absurd (fun q hq => (hver q hq).pass fun k hk => ?_) f2, fun h => ?_⟩
    · have := h (k.1, k.2, q) ⟨hk.1, hk.2, hq⟩
      rwa [(hA q hq).2.2.2 _ hk.1 _ hk.2]
    · rw [f1] at h
      simp at h

/-! ### Problems -/

/-- Index rows and values agree in length, are in range (C08), and not empty. -/
structure Listed (p : Problem ℝ) : Prop where
  jac : ∃ r c, p.constrJacInd = .ok (r, c) ∧ r ≠ [] ∧ c.length = r.length ∧ (∀ i ∈ r, i < p.ndec) ∧ (∀ i ∈ c, i < p.ncons) ∧
    ∀ d : List ℝ, d.length = p.ndec → ∃ val, p.constrJacVal d = .ok val ∧ val.length = r.length
  hess : ∃ r c, p.objHessInd = .ok (r, c) ∧ r ≠ [] ∧ c.length = r.length ∧ (∀ i ∈ r, i < p.ndec) ∧ (∀ i ∈ c, i < p.ndec) ∧
    ∀ d : List ℝ, d.length = p.ndec → ∃ val, p.objHessVal d = .ok val ∧ val.length = r.length
  lag : ∃ r c, p.lagHessInd = .ok (r, c) ∧ r ≠ [] ∧ c.length = r.length ∧ (∀ i ∈ r, i < p.ndec) ∧ (∀ i ∈ c, i < p.ndec) ∧
    ∀ (d : List ℝ) (σ : ℝ) (lam : List ℝ), d.length = p.ndec → lam.length = p.ncons → ∃ val, p.lagHessVal d σ lam = .ok val ∧ val.length = r.length

theorem listed_of {p : Problem ℝ} {calls : List (Problem.Call ℝ)} (S : OptFun ℝ → Sym) (R : OptFun ℝ → Reg) (hp : ProblemOK p calls)
    (ho : ∀ o ∈ p.objectives, FunOK p o (S o) (R o) ∧ SparseOK o (R o) o.fn.hess (S o).hess 2)
    (hj : ∀ c ∈ p.constraints, FunOK p c.fn (S c.fn) (R c.fn) ∧ SparseOK c.fn (R c.fn) c.fn.fn.jac (S c.fn).jac 1)
    (hc : ∀ c ∈ p.constraints, FunOK p c.fn (S c.fn) (R c.fn) ∧ SparseOK c.fn (R c.fn) c.fn.fn.hess (S c.fn).hess 2)
    (h1 : p.constrJacNnz ≠ .ok 0) (h2 : p.objHessNnz ≠ .ok 0) : Listed p := by
  obtain ⟨n, r, c, a1, a2, a3, a4, a5, a6, a7⟩ := C08_constr_jac S R hp hj
  obtain ⟨n', r', c', b1, b2, b3, b4, b5, b6, b7⟩ := C08_obj_hess S R hp ho
  obtain ⟨n₂, r₂, c₂, d1, d2, d3, d4, d5, d6, d7⟩ := C08_lag_hess S R hp ho hc
  have hr' : r' ≠ [] := fun h => h2 (by rw [b1, ← b3, h]; rfl)
  refine ⟨⟨r, c, a2, fun h => h1 (by rw [a1, ← a3, h]; rfl), a4.trans a3.symm, a5, a6, fun d hd => ?_⟩,
    ⟨r', c', b2, hr', b4.trans b3.symm, b5, b6, fun d hd => ?_⟩,
    ⟨r₂, c₂, d2, fun h => hr' ?_, d4.trans d3.symm, d5, d6, fun d σ lam hd hl => ?_⟩⟩
  · rw [a3]; exact a7 d hd
  · rw [b3]; exact b7 d hd
  · obtain ⟨n₃, r₃, c₃, q₃, -, e2, -⟩ := C08_constr_hess S R hp hc
    have : p.lagHessInd = .ok (r' ++ r₃, c' ++ c₃) := by
      unfold Problem.lagHessInd
      rw [b2, e2]
      rfl
    rw [d2] at this
    have h5 : r₂ = r' ++ r₃ := congrArg Prod.fst (Except.ok.inj this)
    rw [h] at h5
    exact (List.append_eq_nil_iff.1 h5.symm).1
  · rw [d3]; exact d7 d σ lam hd hl

/-- The partial derivative of `φ` with respect to entry `j`. -/
noncomputable def pdAt (φ : List ℝ → ℝ) (j : Nat) (d : List ℝ) : ℝ := deriv (fun t => φ (d.set j t)) (d.getD j 0)

/-- Along every entry, `φ` and its partial derivatives have a third derivative bounded by `M`. -/
def SmoothAround (φ : List ℝ → ℝ) (n : Nat) (dec : List ℝ) (M : ℝ) : Prop :=
  ∀ i < n, (∃ D, Thrice (fun t => φ (dec.set i t)) (dec.getD i 0) (step dec i) D M) ∧
    ∀ j < n, ∃ D, Thrice (fun t => pdAt φ j (dec.set i t)) (dec.getD i 0) (step dec i) D M

theorem Spec.Thrice.deriv {F : ℝ → ℝ} {x h D M : ℝ} (hh : 0 < h) (hF : Thrice F x h D M) : HasDerivAt F D x := by
  obtain ⟨F1, F2, F3, rfl, hF⟩ := hF
  exact (hF x ⟨by linarith, by linarith⟩).1

theorem exact_pass {a D ε : ℝ} (h : a = D) (hε : (1 + 1 / 10 ^ 7) * ε < 1 / 10 ^ 7) : |a - D| + (1 + 1 / 10 ^ 7) * ε < 1 / 10 ^ 7 * (1 + |D|) := by
  rw [h, sub_self, abs_zero, zero_add]
  have := abs_nonneg D
  nlinarith

/-- **C93** (problems). A problem whose derivatives are right (C66) and whose functions are smooth passes the four tests, if the
error of the differences is below the tolerance. -/
theorem C93_problem (p : Problem ℝ) (dec : List ℝ) (junk : Nat → ℝ) (hn : 0 < p.ndec) (hdec : dec.length = p.ndec) (hL : Listed p)
    (hR : ∀ d : List ℝ, d.length = p.ndec → DerivativesRight p d) (f : List ℝ → ℝ) (cf : List ℝ → List ℝ)
    (hf : ∀ d : List ℝ, d.length = p.ndec → p.obj d = .ok (f d) ∧ p.constr d = .ok (cf d)) (M : ℝ) (hsf : SmoothAround f p.ndec dec M)
    (hsc : ∀ q < p.ncons, SmoothAround (fun d => (cf d).getD q 0) p.ndec dec M)
    (hM : ∀ i < p.ndec, (1 + 1 / 10 ^ 7) * (M * step dec i ^ 2 / 6) < 1 / 10 ^ 7) :
    testMeritGradient (.ofProblem p) dec junk = .ok () ∧ testMeritHessian (.ofProblem p) dec junk = .ok () ∧
    testConstraintJacobian (.ofProblem p) dec junk = .ok () ∧ testConstraintHessian (.ofProblem p) dec junk = .ok () := by
  classical
  have hset : ∀ i t, (dec.set i t).length = p.ndec := fun i t => by simp [hdec]
  -- the gradient everywhere
  have hgrad : ∀ d : List ℝ, ∃ g : List ℝ, d.length = p.ndec → p.objGrad d = .ok g ∧ g.length = p.ndec ∧ ∀ j < p.ndec, HasDerivAt (fun t => f (d.set j t)) (g.getD j 0) (d.getD j 0) := by
    intro d
    by_cases hd : d.length = p.ndec
    · obtain ⟨f', cf', e1, ⟨g, g1, g2, g3⟩, -⟩ := hR d hd
      refine ⟨g, fun _ => ⟨g1, g2, fun j hj => ?_⟩⟩
      have : (fun t => f (d.set j t)) = fun t => f' (d.set j t) :=
        funext fun t => Except.ok.inj ((hf _ (by simpa using hd)).1.symm.trans (e1 _ (by simpa using hd)).1)
      rw [this]
      exact g3 j hj
    · exact ⟨[], fun h => absurd h hd⟩
  choose G hG using hgrad
  have hGp : ∀ i t, ∀ j < p.ndec, (G (dec.set i t)).getD j 0 = pdAt f j (dec.set i t) := fun i t j hj => ((hG _ (hset i t)).2.2 j hj).deriv.symm
  -- the Jacobian everywhere
  obtain ⟨jr, jc, j1, j2, j3, j4, j5, j6⟩ := hL.jac
  have hjac : ∀ d : List ℝ, ∃ v : List ℝ, d.length = p.ndec → p.constrJacVal d = .ok v ∧ v.length = jr.length ∧ ∀ j < p.ndec, ∀ q < p.ncons,
      HasDerivAt (fun t => (cf (d.set j t)).getD q 0) (assemble jr.length (fun n => jr.getD n 0 = j ∧ jc.getD n 0 = q) fun n => v.getD n 0) (d.getD j 0) := by
    intro d
    by_cases hd : d.length = p.ndec
    · obtain ⟨f', cf', e1, -, ⟨di, ci, v, v1, v2, -, v3⟩, -⟩ := hR d hd
      obtain ⟨v', w1, w2⟩ := j6 d hd
      rw [v2] at w1
      cases w1
      rw [j1] at v1
      cases v1
      refine ⟨v, fun _ => ⟨v2, w2, fun j hj q hq => ?_⟩⟩
      have : (fun t => (cf (d.set j t)).getD q 0) = fun t => (cf' (d.set j t)).getD q 0 :=
        funext fun t => congrArg (·.getD q 0) (Except.ok.inj ((hf _ (by simpa using hd)).2.symm.trans (e1 _ (by simpa using hd)).2.1))
      rw [this, ← w2]
      exact v3 j hj q hq
    · exact ⟨[], fun h => absurd h hd⟩
  choose J hJ using hjac
  have hJp : ∀ i t, ∀ j < p.ndec, ∀ q < p.ncons, (assemble jr.length (fun n => jr.getD n 0 = j ∧ jc.getD n 0 = q) fun n => (J (dec.set i t)).getD n 0) =
      pdAt (fun d => (cf d).getD q 0) j (dec.set i t) := fun i t j hj q hq => ((hJ _ (hset i t)).2.2 j hj q hq).deriv.symm
  have hcl : ∀ d : List ℝ, d.length = p.ndec → (cf d).length = p.ncons := by
    intro d hd
    obtain ⟨f', cf', e1, -⟩ := hR d hd
    rw [Except.ok.inj ((hf d hd).2.symm.trans (e1 d hd).2.1)]
    exact (e1 d hd).2.2
  obtain ⟨f', cf', e1, -, -, ⟨r, c, val, r1, r2, -, r3⟩, hlag⟩ := hR dec hdec
  have ef : ∀ d : List ℝ, d.length = p.ndec → f' d = f d := fun d hd => Except.ok.inj ((e1 d hd).1.symm.trans (hf d hd).1)
  have ec : ∀ d : List ℝ, d.length = p.ndec → cf' d = cf d := fun d hd => Except.ok.inj ((e1 d hd).2.1.symm.trans (hf d hd).2)
  have hset2 : ∀ i j t u, ((dec.set i t).set j u).length = p.ndec := fun i j t u => by simp [hdec]
  refine ⟨?_, ?_, ?_, ?_⟩
  · choose! D hD using fun i hi => (hsf i hi).1
    refine (C93_gradient (.ofProblem p) dec junk hn hdec f (G dec) (fun d hd => (hf d hd).1) (hG dec hdec).1 (hG dec hdec).2.1 D (fun _ => M) hD).pass
      fun i hi => exact_pass ?_ (hM i hi)
    exact ((hG dec hdec).2.2 i hi).unique ((hD i hi).deriv (step_pos _ _))
  · obtain ⟨r', c', s1, s2, s3, s4, s5, s6⟩ := hL.hess
    rw [r1] at s1
    cases s1
    obtain ⟨val', t1, t2⟩ := s6 dec hdec
    rw [r2] at t1
    cases t1
    choose! D hD using fun i hi => (hsf i hi).2
    refine (C93_hessian (.ofProblem p) dec junk hn hdec G (fun d hd => ⟨(hG d hd).1, (hG d hd).2.1⟩) r c val r1 r2 s2 t2.symm (s3.trans t2.symm) s4 s5
      (fun k => D k.1 k.2) (fun _ => M) fun i hi j hj => ?_).pass fun k hk => exact_pass ?_ (hM k.1 hk.1)
    · rw [funext fun t => hGp i t j hj]
      exact hD i hi j hj
    · have h1 := (r3 k.1 hk.1 k.2 hk.2).2
      simp only [ef _ (hset2 _ _ _ _)] at h1
      exact h1.unique ((hD k.1 hk.1 k.2 hk.2).deriv (step_pos _ _))
  · choose! D hD using fun q hq i hi => (hsc q hq i hi).1
    refine (C93_jacobian (.ofProblem p) dec junk hn hdec cf (fun d hd => ⟨(hf d hd).2, hcl d hd⟩) jr jc (J dec) j1 (hJ dec hdec).1 j2 (hJ dec hdec).2.1.symm
      (j3.trans (hJ dec hdec).2.1.symm) j4 j5 (fun k => D k.2 k.1) (fun _ => M) fun i hi q hq => hD q hq i hi).pass fun k hk => exact_pass ?_ (hM k.1 hk.1)
    rw [(hJ dec hdec).2.1]
    exact ((hJ dec hdec).2.2 k.1 hk.1 k.2 hk.2).unique ((hD k.2 hk.2 k.1 hk.1).deriv (step_pos _ _))
  · obtain ⟨r', c', s1, s2, s3, s4, s5, s6⟩ := hL.lag
    have hHv : ∀ q, ∃ v : List ℝ, q < p.ncons → p.lagHessVal dec 0 ((List.replicate p.ncons 0).set q 1) = .ok v ∧ v.length = r'.length ∧
        ∀ i < p.ndec, ∀ j < p.ndec, HasDerivAt (fun s => pdAt (fun d => (cf d).getD q 0) j (dec.set i s))
          (assemble r'.length (fun n => symHit i j (r'.getD n 0) (c'.getD n 0)) fun n => v.getD n 0) (dec.getD i 0) := by
      intro q
      by_cases hq : q < p.ncons
      · obtain ⟨r₂, c₂, v, v1, v2, -, v3⟩ := hlag 0 ((List.replicate p.ncons 0).set q 1) (by simp)
        rw [s1] at v1
        cases v1
        obtain ⟨v', w1, w2⟩ := s6 dec 0 ((List.replicate p.ncons 0).set q 1) hdec (by simp)
        rw [v2] at w1
        cases w1
        refine ⟨v, fun _ => ⟨v2, w2, fun i hi j hj => ?_⟩⟩
        have h1 := (v3 i hi j hj).2
        have hLq : ∀ d : List ℝ, d.length = p.ndec →
            0 * f' d + ∑ q' ∈ Finset.range p.ncons, ((List.replicate p.ncons (0 : ℝ)).set q 1).getD q' 0 * (cf' d).getD q' 0 = (cf d).getD q 0 := by
          intro d hd
          rw [zero_mul, zero_add, ec d hd, Finset.sum_eq_single_of_mem q (Finset.mem_range.2 hq)]
          · rw [List.getD_eq_getElem?_getD, List.getElem?_set_self (by simpa using hq)]
            simp
          · intro q' hq' hne
            rw [List.getD_eq_getElem?_getD, List.getElem?_set_ne (Ne.symm hne), List.getElem?_replicate, if_pos (Finset.mem_range.1 hq')]
            simp
        simp only [hLq _ (hset2 _ _ _ _)] at h1
        rw [← w2]
        exact h1
      · exact ⟨[], fun h => absurd h hq⟩
    choose H hH using hHv
    choose! D hD using fun q hq i hi => (hsc q hq i hi).2
    refine (C93_constraint_hessian (.ofProblem p) dec junk hn hdec jr jc J j1 j2 j3 (fun d hd => ⟨(hJ d hd).1, (hJ d hd).2.1⟩) j4 j5 r' c' H s1
      (fun q hq => ⟨(hH q hq).1, (hH q hq).2.1⟩) s2 s3 s4 s5 (fun k => D k.2.2 k.1 k.2.1) (fun _ => M) fun i hi j hj q hq => ?_).pass
      fun k hk => exact_pass ?_ (hM k.1 hk.1)
    · rw [funext fun t => hJp i t j hj q hq]
      exact hD q hq i hi j hj
    · exact ((hH k.2.2 hk.2.2).2.2 k.1 hk.1 k.2.1 hk.2.1).unique ((hD _ hk.2.2 _ hk.1 _ hk.2.1).deriv (step_pos _ _))

/-! ### Examples -/

theorem thrice_quad (A B C x h : ℝ) : Thrice (fun t => A * t ^ 2 + B * t + C) x h (2 * A * x + B) 0 := by
  refine ⟨fun t => 2 * A * t + B, fun _ => 2 * A, fun _ => 0, rfl, fun t _ => ⟨?_, ?_, hasDerivAt_const t _, by simp⟩⟩
  · refine ((((hasDerivAt_id' t).pow 2).const_mul A).add ((hasDerivAt_id' t).const_mul B)).add_const C |>.congr_deriv ?_
    simp
    ring
  · exact (((hasDerivAt_id' t).const_mul (2 * A)).add_const B).congr_deriv (by ring)

theorem thrice_of_quad {F : ℝ → ℝ} {x h : ℝ} (A B C : ℝ) (hF : ∀ t, F t = A * t ^ 2 + B * t + C) : ∃ D, Thrice F x h D 0 := by
  rw [funext hF]
  exact ⟨_, thrice_quad A B C x h⟩

theorem deriv_of_quad {F : ℝ → ℝ} {x : ℝ} (A B C : ℝ) (hF : ∀ t, F t = A * t ^ 2 + B * t + C) : deriv F x = 2 * A * x + B := by
  rw [funext hF]
  exact ((thrice_quad A B C x 1).deriv one_pos).deriv

namespace DerivExample

/-- A function of three states and a parameter. -/
noncomputable def form (α β γ : ℝ) (d : List ℝ) : ℝ := (α * d.getD 0 0 ^ 2 + β * d.getD 1 0 ^ 2 + γ * d.getD 2 0 ^ 2) * d.getD 3 0

theorem form_pd (α β γ x y z q : ℝ) :
    pdAt (form α β γ) 0 [x, y, z, q] = 2 * (α * q) * x ∧ pdAt (form α β γ) 1 [x, y, z, q] = 2 * (β * q) * y ∧
    pdAt (form α β γ) 2 [x, y, z, q] = 2 * (γ * q) * z ∧ pdAt (form α β γ) 3 [x, y, z, q] = α * x ^ 2 + β * y ^ 2 + γ * z ^ 2 := by
  refine ⟨(deriv_of_quad (α * q) 0 ((β * y ^ 2 + γ * z ^ 2) * q) fun t => ?_).trans ?_, (deriv_of_quad (β * q) 0 ((α * x ^ 2 + γ * z ^ 2) * q) fun t => ?_).trans ?_,
    (deriv_of_quad (γ * q) 0 ((α * x ^ 2 + β * y ^ 2) * q) fun t => ?_).trans ?_, (deriv_of_quad 0 (α * x ^ 2 + β * y ^ 2 + γ * z ^ 2) 0 fun t => ?_).trans ?_⟩ <;>
  · simp [form]
    try ring

theorem form_smooth (α β γ x y z q : ℝ) : SmoothAround (form α β γ) 4 [x, y, z, q] 0 := by
  intro i hi
  refine ⟨?_, fun j hj => ?_⟩
  · interval_cases i
    · exact thrice_of_quad (α * q) 0 ((β * y ^ 2 + γ * z ^ 2) * q) fun t => by simp [form]; ring
    · exact thrice_of_quad (β * q) 0 ((α * x ^ 2 + γ * z ^ 2) * q) fun t => by simp [form]; ring
    · exact thrice_of_quad (γ * q) 0 ((α * x ^ 2 + β * y ^ 2) * q) fun t => by simp [form]; ring
    · exact thrice_of_quad 0 (α * x ^ 2 + β * y ^ 2 + γ * z ^ 2) 0 fun t => by simp [form]
  · interval_cases i <;> interval_cases j <;> simp only [List.set_cons_zero, List.set_cons_succ, form_pd]
    · exact thrice_of_quad 0 (2 * (α * q)) 0 fun t => by ring
    · exact thrice_of_quad 0 0 (2 * (β * q) * y) fun t => by ring
    · exact thrice_of_quad 0 0 (2 * (γ * q) * z) fun t => by ring
    · exact thrice_of_quad α 0 (β * y ^ 2 + γ * z ^ 2) fun t => by ring
    · exact thrice_of_quad 0 0 (2 * (α * q) * x) fun t => by ring
    · exact thrice_of_quad 0 (2 * (β * q)) 0 fun t => by ring
    · exact thrice_of_quad 0 0 (2 * (γ * q) * z) fun t => by ring
    · exact thrice_of_quad β 0 (α * x ^ 2 + γ * z ^ 2) fun t => by ring
    · exact thrice_of_quad 0 0 (2 * (α * q) * x) fun t => by ring
    · exact thrice_of_quad 0 0 (2 * (β * q) * y) fun t => by ring
    · exact thrice_of_quad 0 (2 * (γ * q)) 0 fun t => by ring
    · exact thrice_of_quad γ 0 (α * x ^ 2 + β * y ^ 2) fun t => by ring
    · exact thrice_of_quad 0 (2 * α * x) 0 fun t => by ring
    · exact thrice_of_quad 0 (2 * β * y) 0 fun t => by ring
    · exact thrice_of_quad 0 (2 * γ * z) 0 fun t => by ring
    · exact thrice_of_quad 0 0 (α * x ^ 2 + β * y ^ 2 + γ * z ^ 2) fun t => by ring

theorem obj_eq (x y z q : ℝ) : prob.obj [x, y, z, q] = .ok (form 1 2 1 [x, y, z, q]) := by
  have : prob.obj [x, y, z, q] = .ok (0 + (0 + x ^ 2 * q + y ^ 2 * q + y ^ 2 * q + z ^ 2 * q)) := by krfl
  rw [this]
  congr 1
  simp [form]
  ring

theorem constr_eq (x y z q : ℝ) :
    prob.constr [x, y, z, q] = .ok ([(1, 0, 0), (0, 1, 0), (0, 1, 0), (0, 0, 1)].map fun w => form w.1 w.2.1 w.2.2 [x, y, z, q]) := by
  have : prob.constr [x, y, z, q] = .ok [x ^ 2 * q, y ^ 2 * q, y ^ 2 * q, z ^ 2 * q] := by krfl
  rw [this]
  simp [form]

theorem right (d : List ℝ) (hd : d.length = prob.ndec) : DerivativesRight prob d := by
  obtain ⟨vs, hvs, -, -⟩ := variables_eq prob_ok d hd
  have h1 : ∀ {P : OptFun ℝ → Prop}, P obj → ∀ o ∈ prob.objectives, P o := fun h o ho => by
    rw [objectives_eq] at ho
    rwa [List.mem_singleton.1 ho]
  have h2 : ∀ (P : OptFun ℝ → Prop), P obj → ∀ c ∈ prob.constraints, P c.fn := fun P h c hc => by
    rw [constraints_eq] at hc
    rwa [List.mem_singleton.1 hc]
  exact derivativesRight_of prob_ok (fun _ => sym) (fun _ => reg) (h1 fun_ok) (h2 (fun o => FunOK prob o sym reg) fun_ok) (h1 grad_ok) (h2 (fun o => SparseOK o reg o.fn.jac sym.jac 1) jac_ok) (h1 hess_ok) (h2 (fun o => SparseOK o reg o.fn.hess sym.hess 2) hess_ok) (h1 no_alias)
    (h2 (fun o => NoAlias prob o reg) no_alias) hd hvs (h1 fun _ _ => grad_right _) (h2 (fun o => ∀ e < reg.E.prod, JacRight o sym reg (baseArgs o reg vs e)) fun _ _ => jac_right _) (h1 fun _ _ => hess_right _) 
    (h2 (fun o => ∀ e < reg.E.prod, HessRight o sym reg (baseArgs o reg vs e)) fun _ _ => hess_right _)

theorem listed : Listed prob := by
  refine listed_of (fun _ => sym) (fun _ => reg) prob_ok ?_ ?_ ?_ ?_ ?_
  · rw [objectives_eq]
    simpa using ⟨fun_ok, hess_ok⟩
  · rw [constraints_eq]
    simpa using ⟨fun_ok, jac_ok⟩
  · rw [constraints_eq]
    simpa using ⟨fun_ok, hess_ok⟩
  · have : prob.constrJacNnz = .ok 8 := by krfl
    rw [this]
    simp
  · have : prob.objHessNnz = .ok 8 := by krfl
    rw [this]
    simp

/-- The problem of the example passes the four tests at every point. -/
example (x y z q : ℝ) (junk : Nat → ℝ) :
    testMeritGradient (.ofProblem prob) [x, y, z, q] junk = .ok () ∧ testMeritHessian (.ofProblem prob) [x, y, z, q] junk = .ok () ∧
    testConstraintJacobian (.ofProblem prob) [x, y, z, q] junk = .ok () ∧ testConstraintHessian (.ofProblem prob) [x, y, z, q] junk = .ok () := by
  have hn : prob.ndec = 4 := by krfl
  have hc : prob.ncons = 4 := by krfl
  refine C93_problem prob [x, y, z, q] junk (by rw [hn]; norm_num) (by rw [hn]; rfl) listed right (form 1 2 1)
    (fun d => [(1, 0, 0), (0, 1, 0), (0, 1, 0), (0, 0, 1)].map fun w => form w.1 w.2.1 w.2.2 d) (fun d hd => ?_) 0 (by rw [hn]; exact form_smooth _ _ _ _ _ _ _) (fun k hk => ?_)
    fun i _ => by norm_num
  · rw [hn] at hd
    match d, hd with
    | [a, b, c, e], _ => exact ⟨obj_eq a b c e, constr_eq a b c e⟩
  · rw [hc] at hk
    rw [hn]
    interval_cases k
    · exact form_smooth 1 0 0 _ _ _ _
    · exact form_smooth 0 1 0 _ _ _ _
    · exact form_smooth 0 1 0 _ _ _ _
    · exact form_smooth 0 0 1 _ _ _ _

end DerivExample

/-- A gradient of `x ^ 2` at `x = 3` that is wrong by a thousandth. -/
noncomputable def wrongGradient : Tested :=
  ⟨1, 0, fun d => .ok (d.getD 0 0 ^ 2), fun d => .ok [2 * d.getD 0 0 + 1 / 10 ^ 3], .ok ([0], [0]), fun _ => .ok [2], fun _ => .ok [], .ok ([], []), fun _ => .ok [],
    .ok ([], []), fun _ _ => .ok []⟩

/-- It does not pass the test of the gradient; it passes that of the Hessian, and the tests of constraints cannot be run without
constraints. -/
example (junk : Nat → ℝ) : testMeritGradient wrongGradient [3] junk = .error .assertionError ∧ testMeritHessian wrongGradient [3] junk = .ok () ∧
    testConstraintJacobian wrongGradient [3] junk = .error .valueError := by
  refine ⟨?_, ?_, rfl⟩
  · have h := C93_gradient wrongGradient [3] junk one_pos rfl (fun d => d.getD 0 0 ^ 2) [2 * 3 + 1 / 10 ^ 3] (fun _ _ => rfl) rfl rfl (fun _ => 6) (fun _ => 0)
      (fun i hi => by
        obtain rfl : i = 0 := Nat.lt_one_iff.1 hi
        have := thrice_quad 1 0 0 3 (step [3] 0)
        norm_num at this ⊢
        exact this)
    refine h.outcome.resolve_left fun h' => ?_
    have := h.close h' 0 one_pos
    norm_num at this
  · refine (C93_hessian wrongGradient [3] junk one_pos rfl (fun d => [2 * d.getD 0 0 + 1 / 10 ^ 3]) (fun _ _ => ⟨rfl, rfl⟩) [0] [0] [2] rfl rfl (by simp) rfl rfl
      (fun i hi => by simpa using List.mem_singleton.1 hi ▸ one_pos) (fun i hi => by simpa using List.mem_singleton.1 hi ▸ one_pos) (fun _ => 2) (fun _ => 0)
      fun i hi j hj => ?_).pass fun k hk => ?_
    · obtain rfl : i = 0 := Nat.lt_one_iff.1 hi
      obtain rfl : j = 0 := Nat.lt_one_iff.1 hj
      have := thrice_quad 0 2 (1 / 10 ^ 3) 3 (step [3] 0)
      norm_num at this ⊢
      exact this
    · obtain ⟨h1, h2⟩ : k.1 = 0 ∧ k.2 = 0 := ⟨Nat.lt_one_iff.1 hk.1, Nat.lt_one_iff.1 hk.2⟩
      refine exact_pass ?_ (by norm_num)
      simp [assemble, symHit, h1, h2]

end Ceacoest
