import Verif.Model.TestOptim
import Verif.Spec.TestOptim
import Verif.Spec.Contract
import Verif.Lemmas.FiniteDiff
import Verif.Props.FiniteDiff
import Verif.Props.ArrayCmp
import Verif.Props.Derivatives

/-! # Lemmas on the tests of derivatives -/

namespace Ceacoest.TestOptim
open Spec Utils

/-! ### Comparison -/

theorem check_same {a b : NDArray ℝ} {sh : List Nat} (ha : a.WF) (hb : b.WF) (hsa : a.shape = sh) (hsb : b.shape = sh) :
    (check a (some b) = .ok () ∧ ∀ k < sh.prod, |a.data.getD k 0 - b.data.getD k 0| < 1 / 10 ^ 7 + 1 / 10 ^ 7 * |b.data.getD k 0|) ∨
    (check a (some b) = .error .assertionError ∧
      ¬∀ k < sh.prod, |a.data.getD k 0 - b.data.getD k 0| < 1 / 10 ^ 7 + 1 / 10 ^ 7 * |b.data.getD k 0|) := by
  obtain ⟨r, h1, h2⟩ := ArrayCmp.C61_within_tol a b ha hb (1 / 10 ^ 7) (1 / 10 ^ 7)
  have hc : check a (some b) = pyAssert r := by
    unfold check
    simp only
    rw [(ArrayCmp.C61_lt _ _ none none).1, h1]
    rfl
  have he : ∀ {c : NDArray ℝ}, c.WF → c.shape = sh → ∀ idx, InBounds sh idx → ArrayCmp.bcEntry c idx = c.data.getD (cOrder sh idx) 0 := by
    intro c hc hs idx hi
    subst hs
    rw [← ArrayCmp.bcIdx_entry hc (canBroadcast_self _) hi, bcIdx_self _ (cOrder_lt hi)]
  have hiff : r = true ↔ ∀ k < sh.prod, |a.data.getD k 0 - b.data.getD k 0| < 1 / 10 ^ 7 + 1 / 10 ^ 7 * |b.data.getD k 0| := by
    rw [h2, hsa, hsb]
    constructor
    · rintro ⟨sh', hs', hall⟩ k hk
      have : sh' = sh := by
        have := (bcShape2_iff _ _ _).2 hs'
        rw [bcShape2_self] at this
        exact (Option.some.inj this).symm
      subst this
      obtain ⟨idx, hi, rfl⟩ := exists_idx _ k hk
      have := hall idx hi
      rwa [he ha hsa idx hi, he hb hsb idx hi] at this
    · intro hall
      refine ⟨sh, (bcShape2_iff _ _ _).1 (bcShape2_self sh), fun idx hi => ?_⟩
      rw [he ha hsa idx hi, he hb hsb idx hi]
      exact hall _ (cOrder_lt hi)
  rw [hc]
  cases r with
  | true => exact Or.inl ⟨rfl, hiff.1 rfl⟩
  | false => exact Or.inr ⟨rfl, fun h => by simpa using hiff.2 h⟩

theorem bound_pass {a b D ε tol : ℝ} (ht : 0 ≤ tol) (hb : |b - D| ≤ ε) (h : |a - D| + (1 + tol) * ε < tol * (1 + |D|)) : |a - b| < tol + tol * |b| := by
  have h1 : |a - b| ≤ |a - D| + |b - D| := by
    have := abs_sub (a - D) (b - D)
    rwa [show a - D - (b - D) = a - b by ring] at this
  have h2 : |D| ≤ |b| + |b - D| := by
    have := abs_sub b (b - D)
    rwa [show b - (b - D) = D by ring] at this
  nlinarith

theorem bound_close {a b D ε tol : ℝ} (ht : 0 ≤ tol) (hb : |b - D| ≤ ε) (h : |a - b| < tol + tol * |b|) : |a - D| < tol * (1 + |D|) + (1 + tol) * ε := by
  have h1 : |a - D| ≤ |a - b| + |b - D| := by
    have := abs_add_le (a - b) (b - D)
    rwa [show a - b + (b - D) = a - D by ring] at this
  have h2 : |b| ≤ |D| + |b - D| := by
    have := abs_add_le D (b - D)
    rwa [show D + (b - D) = b by ring] at this
  nlinarith

/-- The comparison of `a` with an approximation of `D`. -/
theorem check_verdict {a b : NDArray ℝ} {sh : List Nat} (ha : a.WF) (hb : b.WF) (hsa : a.shape = sh) (hsb : b.shape = sh) {ι : Type} {K : ι → Prop}
    {pos : ι → Nat} (hpos : ∀ k, K k → pos k < sh.prod) (hall : ∀ n < sh.prod, ∃ k, K k ∧ pos k = n) {D ε : ι → ℝ}
    (he : ∀ k, K k → |b.data.getD (pos k) 0 - D k| ≤ ε k) : Verdict (check a (some b)) K (fun k => a.data.getD (pos k) 0) D ε (1 / 10 ^ 7) := by
  have ht : (0 : ℝ) ≤ 1 / 10 ^ 7 := by positivity
  refine ⟨?_, fun h => ?_, fun h k hk => ?_⟩
  · rcases check_same ha hb hsa hsb with h | h
    · exact Or.inl h.1
    · exact Or.inr h.1
  · rcases check_same ha hb hsa hsb with h' | h'
    · exact h'.1
    · refine absurd (fun n hn => ?_) h'.2
      obtain ⟨k, hk, rfl⟩ := hall n hn
      exact bound_pass ht (he k hk) (h k hk)
  · rcases check_same ha hb hsa hsb with h' | h'
    · exact bound_close ht (he k hk) (h'.2 _ (hpos k hk))
    · rw [h] at h'
      simp at h'

/-! ### Differences -/

theorem foldlM_congr_range {β : Type} {f g : β → Nat → Py β} {n : Nat} (h : ∀ b, ∀ i < n, f b i = g b i) (b : β) :
    (List.range n).foldlM f b = (List.range n).foldlM g b := by
  induction n with
  | zero => rfl
  | succ n ih =>
    rw [List.range_succ, List.foldlM_append, List.foldlM_append, ih fun b i hi => h b i (by omega)]
    refine congrArg _ (funext fun a => ?_)
    simp only [List.foldlM_cons, List.foldlM_nil]
    rw [h a n (by omega)]

/-- The step of `central_diff` at entry `i` of `x`. -/
noncomputable def step (x : List ℝ) (i : Nat) : ℝ := max (x.getD i 0 * (1 / 10 ^ 7)) (1 / 10 ^ 7)

theorem step_pos (x : List ℝ) (i : Nat) : 0 < step x i := lt_of_lt_of_le (by norm_num) (le_max_right _ _)

theorem steps_getD (x : List ℝ) (mn rel : ℝ) {i : Nat} (hi : i < x.length) : (steps x mn rel).getD i 0 = max (x.getD i 0 * rel) mn := by
  simp [steps, List.getD_eq_getElem?_getD, hi]

theorem diffAt_ok {f : List ℝ → Py (NDArray ℝ)} {g : List ℝ → NDArray ℝ} {osh : List Nat} {n : Nat} (hn : 0 < n)
    (hf : ∀ d : List ℝ, d.length = n → f d = .ok (g d) ∧ (g d).shape = osh ∧ (g d).WF) {dec : List ℝ} (hd : dec.length = n) (junk : Nat → ℝ) :
    ∃ b, diffAt f dec junk = .ok (some b) ∧ b.shape = n :: osh ∧ b.WF ∧ ∀ i < n, ∀ r < osh.prod, b.data.getD (i * osh.prod + r) 0 =
      1 / 2 * ((g (dec.set i (dec.getD i 0 + step dec i))).data.getD r 0 - (g (dec.set i (dec.getD i 0 - step dec i))).data.getD r 0) / step dec i := by
  subst hd
  have hset : ∀ i t, (dec.set i t).length = dec.length := fun i t => by simp
  obtain ⟨st, h1, -, h3⟩ := central_fold (fun x => g x.data) (vec dec) (steps dec (1 / 10 ^ 7) (1 / 10 ^ 7)) junk osh
    (fun i _ t => (hf _ (hset i t)).2) (by simp [NDArray.WF, vec]) dec.length le_rfl
  obtain ⟨a, rfl, h4, h5, h6⟩ := h3 hn
  refine ⟨a, ?_, h4, ?_, fun i hi r hr => ?_⟩
  · unfold diffAt centralDiff
    simp only
    rw [show (steps (vec dec).data (1 / 10 ^ 7) (1 / 10 ^ 7)).length = dec.length from by simp [steps, vec],
      foldlM_congr_range (g := centralStep (fun x => .ok (g x.data)) (vec dec) (steps dec (1 / 10 ^ 7) (1 / 10 ^ 7)) junk) (fun b i _ => ?_), h1]
    · rfl
    · unfold centralStep
      simp only
      rw [show (atCoord (vec dec) i ((vec dec).data.getD i 0 + (steps (vec dec).data (1 / 10 ^ 7) (1 / 10 ^ 7)).getD i 0)).data =
          dec.set i (dec.getD i 0 + (steps dec (1 / 10 ^ 7) (1 / 10 ^ 7)).getD i 0) from rfl,
        show (atCoord (vec dec) i ((vec dec).data.getD i 0 - (steps (vec dec).data (1 / 10 ^ 7) (1 / 10 ^ 7)).getD i 0)).data =
          dec.set i (dec.getD i 0 - (steps dec (1 / 10 ^ 7) (1 / 10 ^ 7)).getD i 0) from rfl, (hf _ (hset _ _)).1, (hf _ (hset _ _)).1]
      rfl
  · rw [NDArray.WF, h5, h4, List.prod_append]
    simp [vec]
  · rw [h6 i hi r hr, steps_getD dec _ _ hi]
    rfl

/-- The entries of the differences are close to the derivatives. -/
theorem diffAt_error {f : List ℝ → Py (NDArray ℝ)} {g : List ℝ → NDArray ℝ} {osh : List Nat} {n : Nat} (hn : 0 < n)
    (hf : ∀ d : List ℝ, d.length = n → f d = .ok (g d) ∧ (g d).shape = osh ∧ (g d).WF) {dec : List ℝ} (hd : dec.length = n) (junk : Nat → ℝ)
    {D M : Nat → Nat → ℝ} (hD : ∀ i < n, ∀ r < osh.prod, Thrice (fun t => (g (dec.set i t)).data.getD r 0) (dec.getD i 0) (step dec i) (D i r) (M i r)) :
    ∃ b, diffAt f dec junk = .ok (some b) ∧ b.shape = n :: osh ∧ b.WF ∧ ∀ i < n, ∀ r < osh.prod,
      |b.data.getD (i * osh.prod + r) 0 - D i r| ≤ M i r * step dec i ^ 2 / 6 := by
  obtain ⟨b, h1, h2, h3, h4⟩ := diffAt_ok hn hf hd junk
  refine ⟨b, h1, h2, h3, fun i hi r hr => ?_⟩
  rw [h4 i hi r hr]
  exact central_error (step_pos dec i) (hD i hi r hr)

/-! ### Full matrices -/

theorem npMax_ok {l : List Nat} (h : l ≠ []) {n : Nat} (hn : ∀ i ∈ l, i < n) : ∃ m, npMax l = .ok m ∧ m < n := by
  cases l with
  | nil => exact absurd rfl h
  | cons a l =>
    refine ⟨_, rfl, ?_⟩
    have : ∀ (l : List Nat) (a : Nat), a < n → (∀ i ∈ l, i < n) → l.foldl max a < n := by
      intro l
      induction l with
      | nil => intro a ha _; exact ha
      | cons b l ih => intro a ha hl; exact ih _ (max_lt ha (hl b (by simp))) fun i hi => hl i (by simp [hi])
    exact this l a (hn a (by simp)) fun i hi => hn i (by simp [hi])

theorem fold_modify (idx : Nat → Nat) (v : Nat → ℝ) (N : Nat) (A : List ℝ) :
    ((List.range N).foldl (fun A k => A.modify (idx k) (· + v k)) A).length = A.length ∧
    ∀ p < A.length, ((List.range N).foldl (fun A k => A.modify (idx k) (· + v k)) A).getD p 0 = A.getD p 0 + ∑ k ∈ Finset.range N, if idx k = p then v k else 0 := by
  induction N with
  | zero => exact ⟨rfl, fun p _ => by simp⟩
  | succ N ih =>
    rw [List.range_succ, List.foldl_append]
    simp only [List.foldl_cons, List.foldl_nil]
    obtain ⟨h1, h2⟩ := ih
    refine ⟨by rw [List.length_modify, h1], fun p hp => ?_⟩
    rw [Finset.sum_range_succ, ← add_assoc, ← h2 p hp]
    have hp' : p < ((List.range N).foldl (fun A k => A.modify (idx k) (· + v k)) A).length := by omega
    generalize (List.range N).foldl (fun A k => A.modify (idx k) (· + v k)) A = B at hp' ⊢
    simp only [List.getD_eq_getElem?_getD, List.getElem?_modify]
    rw [List.getElem?_eq_getElem hp']
    split <;> simp

theorem flat_inj {i j r c m : Nat} (hj : j < m) (hc : c < m) : r * m + c = i * m + j ↔ r = i ∧ c = j := by
  constructor
  · intro h
    have h1 : (r * m + c) / m = r := by rw [Nat.add_comm, Nat.add_mul_div_right _ _ (by omega), Nat.div_eq_of_lt hc, Nat.zero_add]
    have h2 : (i * m + j) / m = i := by rw [Nat.add_comm, Nat.add_mul_div_right _ _ (by omega), Nat.div_eq_of_lt hj, Nat.zero_add]
    have : r = i := by rw [← h1, ← h2, h]
    subst this
    exact ⟨rfl, by omega⟩
  · rintro ⟨rfl, rfl⟩
    rfl

theorem getD_mem {l : List Nat} {k : Nat} (h : k < l.length) : l.getD k 0 ∈ l := by
  rw [List.getD_eq_getElem?_getD, List.getElem?_eq_getElem h]
  exact List.getElem_mem h

theorem toArray_ok {val : List ℝ} {r c : List Nat} {n m : Nat} (hr : r.length = val.length) (hc : c.length = val.length) (hrn : ∀ i ∈ r, i < n)
    (hcm : ∀ i ∈ c, i < m) : ∃ A, toArray val (r, c) n m = .ok A ∧ A.shape = [n, m] ∧ A.WF ∧ ∀ i < n, ∀ j < m,
      A.data.getD (i * m + j) 0 = assemble val.length (fun k => r.getD k 0 = i ∧ c.getD k 0 = j) fun k => val.getD k 0 := by
  obtain ⟨h1, h2⟩ := fold_modify (fun k => r.getD k 0 * m + c.getD k 0) (fun k => val.getD k 0) val.length (List.replicate (n * m) 0)
  refine ⟨_, if_pos ⟨hr, hc⟩, rfl, ?_, fun i hi j hj => ?_⟩
  · rw [NDArray.WF]
    simp only
    rw [h1]
    simp
  · have hp : i * m + j < n * m := mul_add_lt hi hj
    simp only
    rw [h2 _ (by simpa using hp)]
    unfold assemble
    rw [show (List.replicate (n * m) (0 : ℝ)).getD (i * m + j) 0 = 0 from by
      rw [List.getD_eq_getElem?_getD, List.getElem?_replicate]
      split <;> rfl, zero_add]
    refine Finset.sum_congr rfl fun k hk => ?_
    have hk := Finset.mem_range.1 hk
    exact if_congr (flat_inj hj (hcm _ (getD_mem (by omega)))) rfl rfl

theorem divMod_flat {i j n : Nat} (hj : j < n) : (i * n + j) / n = i ∧ (i * n + j) % n = j := by
  constructor
  · rw [Nat.add_comm, Nat.add_mul_div_right _ _ (by omega), Nat.div_eq_of_lt hj, Nat.zero_add]
  · rw [Nat.add_comm, Nat.add_mul_mod_self_right, Nat.mod_eq_of_lt hj]

theorem assemble_sym (N : Nat) (r c : Nat → Nat) (v : Nat → ℝ) (i j : Nat) :
    assemble N (fun k => r k = i ∧ c k = j) v + (assemble N (fun k => r k = j ∧ c k = i) v - if i = j then assemble N (fun k => r k = i ∧ c k = j) v else 0) =
      assemble N (fun k => symHit i j (r k) (c k)) v := by
  by_cases h : i = j
  · subst h
    rw [if_pos rfl, sub_self, add_zero]
    refine Finset.sum_congr rfl fun k _ => if_congr ?_ rfl rfl
    simp [symHit]
  · rw [if_neg h, sub_zero]
    unfold assemble
    rw [← Finset.sum_add_distrib]
    refine Finset.sum_congr rfl fun k _ => ?_
    beta_reduce
    by_cases h1 : r k = i ∧ c k = j
    · rw [if_pos h1, if_neg fun h2 => h (h1.1.symm.trans h2.1), if_pos (show symHit i j (r k) (c k) from Or.inl h1), add_zero]
    · by_cases h2 : r k = j ∧ c k = i
      · rw [if_neg h1, if_pos h2, if_pos (show symHit i j (r k) (c k) from Or.inr h2), zero_add]
      · rw [if_neg h1, if_neg h2, if_neg (show ¬symHit i j (r k) (c k) from fun h => h.elim h1 h2), add_zero]

/-- The assertions on the indices hold. -/
theorem full_asserts {r c : List Nat} {n m : Nat} (hne : r ≠ []) (hc : c.length = r.length) (hrn : ∀ i ∈ r, i < n) (hcm : ∀ i ∈ c, i < m)
    (val : Py (List ℝ)) (sym : Bool) : sparseFunToFull val (r, c) n m sym = (do
      let A ← toArray (← val) (r, c) n m
      if sym then
        let B ← binop (· - ·) (transpose n m A) (diagDiag n m A)
        let B ← broadcastTo B A.shape
        binop (· + ·) A B
      else return A) := by
  have hc0 : c ≠ [] := fun h => hne (List.length_eq_zero_iff.1 (by rw [← hc, h]; rfl))
  obtain ⟨a, a1, a2⟩ := npMax_ok hne hrn
  obtain ⟨b, b1, b2⟩ := npMax_ok hc0 hcm
  unfold sparseFunToFull
  simp only
  rw [a1, b1]
  simp only [py_bind_ok]
  rw [pyAssert_true a2, pyAssert_true b2]
  rfl

theorem full_ok {val : List ℝ} {r c : List Nat} {n m : Nat} (hne : r ≠ []) (hr : r.length = val.length) (hc : c.length = val.length)
    (hrn : ∀ i ∈ r, i < n) (hcm : ∀ i ∈ c, i < m) : ∃ A, sparseFunToFull (.ok val) (r, c) n m false = .ok A ∧ A.shape = [n, m] ∧ A.WF ∧ ∀ i < n, ∀ j < m,
      A.data.getD (i * m + j) 0 = assemble val.length (fun k => r.getD k 0 = i ∧ c.getD k 0 = j) fun k => val.getD k 0 := by
  obtain ⟨A, h1, h2, h3, h4⟩ := toArray_ok hr hc hrn hcm
  refine ⟨A, ?_, h2, h3, h4⟩
  rw [full_asserts hne (hc.trans hr.symm) hrn hcm]
  simp only [py_bind_ok]
  rw [h1]
  rfl

theorem full_sym_ok {val : List ℝ} {r c : List Nat} {n : Nat} (hne : r ≠ []) (hr : r.length = val.length) (hc : c.length = val.length)
    (hrn : ∀ i ∈ r, i < n) (hcm : ∀ i ∈ c, i < n) : ∃ A, sparseFunToFull (.ok val) (r, c) n n true = .ok A ∧ A.shape = [n, n] ∧ A.WF ∧ ∀ i < n, ∀ j < n,
      A.data.getD (i * n + j) 0 = assemble val.length (fun k => symHit i j (r.getD k 0) (c.getD k 0)) fun k => val.getD k 0 := by
  obtain ⟨A, h1, h2, h3, h4⟩ := toArray_ok hr hc hrn hcm
  have hT : (transpose n n A).shape = [n, n] ∧ (transpose n n A).WF := ⟨rfl, by simp [NDArray.WF, transpose]⟩
  have hD : (diagDiag n n A).shape = [n, n] ∧ (diagDiag n n A).WF := by
    refine ⟨by simp [diagDiag], by simp [NDArray.WF, diagDiag]⟩
  obtain ⟨B, b1, b2, b3, b4, b5⟩ := zip_ok (fun x y : ℝ => x - y) hT hD
  obtain ⟨C, c1, c2, c3, c4, c5⟩ := zip_ok (fun x y : ℝ => x + y) ⟨h2, h3⟩ ⟨b2, b3⟩
  refine ⟨C, ?_, c2, c3, fun i hi j hj => ?_⟩
  · rw [full_asserts hne (hc.trans hr.symm) hrn hcm]
    simp only [py_bind_ok]
    rw [h1]
    simp only [py_bind_ok, if_true]
    rw [b1]
    simp only [py_bind_ok]
    rw [broadcastTo_self' B (b2.trans h2.symm) (by rw [b4, h2])]
    exact c1
  · have hp : i * n + j < [n, n].prod := by simpa using mul_add_lt hi hj
    have hp' : i * n + j < n * n := by simpa using hp
    obtain ⟨e1, e2⟩ := divMod_flat (i := i) hj
    rw [c5 _ hp, b5 _ hp]
    have eT : (transpose n n A).data.getD (i * n + j) 0 = A.data.getD (j * n + i) 0 := by
      unfold transpose
      simp only
      rw [getD_map_range 0 _ hp', e1, e2]
    have eD : (diagDiag n n A).data.getD (i * n + j) 0 = if i = j then A.data.getD (i * n + j) 0 else 0 := by
      unfold diagDiag
      simp only [Nat.min_self]
      rw [getD_map_range 0 _ hp', e1, e2]
    rw [eT, eD, h4 i hi j hj, h4 j hj i hi]
    exact assemble_sym _ _ _ _ i j

end Ceacoest.TestOptim
