import Verif.Lemmas.ZeroNoise
import Verif.Props.Noise
import Verif.Props.Convergence
import Verif.Spec.NoisePath

/-! # States and noise of joint MAP problems (C107) -/

namespace Ceacoest
open Polynomial Spec RK Matrix

/-- `J` reaches every vector of increments. -/
theorem J_surjective {col : Collocation ℝ} {N : Nat} (h : ColOK col N) (g : Fin N → ℝ) : ∃ w : Fin (N + 1) → ℝ, col.Jm N *ᵥ w = g := by
  obtain ⟨I, hI, hIv⟩ := exists_interp col.points h.nodup h.len fun i : Fin (N + 1) => ∑ k : Fin N, if k.1 < i.1 then g k else 0
  refine ⟨fun i => (derivative I).eval (col.points.getD i 0), ?_⟩
  funext k
  have h1 := h.J (derivative I) ((natDegree_derivative_le I).trans (by have := natDegree_le_of_lt hI; omega)) k
  rw [integral_derivative] at h1
  have e0 := hIv k.castSucc
  have e1 := hIv k.succ
  simp only [Fin.val_castSucc, Fin.val_succ] at e0 e1
  change ∑ i, col.Jm N k i * (derivative I).eval (col.points.getD i 0) = g k
  rw [h1, e0, e1, ← Finset.sum_sub_distrib]
  rw [Finset.sum_eq_single k]
  · simp
  · intro b _ hb
    have : b.1 ≠ k.1 := fun h => hb (Fin.ext h)
    by_cases hbk : b.1 < k.1
    · rw [if_pos (by omega), if_pos hbk, sub_self]
    · rw [if_neg (by omega), if_neg hbk, sub_self]
  · exact fun h => absurd (Finset.mem_univ _) h

/-- Every vector of increments belongs to exactly one vector of noise coordinates. -/
theorem noise_coordinates {col : Collocation ℝ} {N : Nat} (h : ColOK col N) {jt : List (List ℝ)} (hV : IsOrth (col.Jm N)ᵀ (rangeMat jt N)) :
    (∀ g : Nat → ℝ, ∃ w : Nat → ℝ, ∀ k < N, ∑ l ∈ Finset.range (N + 1), (col.J.getD k []).getD l 0 * ∑ m ∈ Finset.range N, (jt.getD l []).getD m 0 * w m = g k) ∧
    ∀ w w' : Nat → ℝ, (∀ k < N, ∑ l ∈ Finset.range (N + 1), (col.J.getD k []).getD l 0 * ∑ m ∈ Finset.range N, (jt.getD l []).getD m 0 * w m =
      ∑ l ∈ Finset.range (N + 1), (col.J.getD k []).getD l 0 * ∑ m ∈ Finset.range N, (jt.getD l []).getD m 0 * w' m) → ∀ m < N, w m = w' m := by
  have key : ∀ (w : Nat → ℝ) (k : Fin N), ∑ l ∈ Finset.range (N + 1), (col.J.getD k []).getD l 0 * ∑ m ∈ Finset.range N, (jt.getD l []).getD m 0 * w m =
      (col.Jm N *ᵥ (rangeMat jt N *ᵥ fun m : Fin N => w m)) k := fun w k => by
    rw [Finset.sum_range]
    refine Finset.sum_congr rfl fun l _ => ?_
    rw [Finset.sum_range]
    rfl
  refine ⟨fun g => ?_, fun w w' hw m hm => ?_⟩
  · obtain ⟨v, hv⟩ := J_surjective h fun k : Fin N => g k
    refine ⟨fun m => if hm : m < N then ((rangeMat jt N)ᵀ *ᵥ v) ⟨m, hm⟩ else 0, fun k hk => ?_⟩
    rw [key _ ⟨k, hk⟩]
    have : (fun m : Fin N => if hm : m.1 < N then ((rangeMat jt N)ᵀ *ᵥ v) ⟨m, hm⟩ else 0) = (rangeMat jt N)ᵀ *ᵥ v := by
      funext m
      simp
    rw [this, mulVec_mulVec, mulVec_mulVec, Matrix.mul_assoc, orth_proj _ _ hV, hv]
  · have h0 : col.Jm N *ᵥ (rangeMat jt N *ᵥ fun m : Fin N => w m - w' m) = 0 := by
      funext k
      have := hw k k.2
      rw [key, key] at this
      rw [show (fun m : Fin N => w m - w' m) = (fun m : Fin N => w m) - fun m : Fin N => w' m from rfl, mulVec_sub, mulVec_sub, Pi.sub_apply, this, sub_self]
      rfl
    have h1 : (rangeMat jt N)ᵀ *ᵥ (rangeMat jt N *ᵥ fun m : Fin N => w m - w' m) = fun m : Fin N => w m - w' m := by
      rw [mulVec_mulVec, hV.orthonormal, one_mulVec]
    have h2 : rangeMat jt N *ᵥ (fun m : Fin N => w m - w' m) = 0 := by
      have h3 := orth_kernel hV h0 (of fun (m : Fin N) (_ : Fin 1) => w m - w' m) 0
      have h4 : ∀ i, (rangeMat jt N * of fun (m : Fin N) (_ : Fin 1) => w m - w' m) i 0 = (rangeMat jt N *ᵥ fun m : Fin N => w m - w' m) i := fun i => rfl
      simp only [h4] at h3
      exact dotProduct_self_eq_zero.1 h3
    rw [h2, mulVec_zero] at h1
    exact sub_eq_zero.1 (congrFun h1 ⟨m, hm⟩).symm

theorem noiseAt_entry {jt : List (List ℝ)} {wc : Nat → List ℝ} {N nw l b : Nat} (hb : b < nw) :
    (noiseAt jt wc N nw l).getD b 0 = ∑ m ∈ Finset.range N, (jt.getD l []).getD m 0 * (wc m).getD b 0 := by
  rw [noiseAt, List.getD_eq_getElem?_getD, List.getElem?_map, List.getElem?_range hb]
  rfl

/-- Without defects, the residuals are `G` times the increments of the noise. -/
theorem noisy_defects {J : List (List ℝ)} {f w x G : Nat → List ℝ} {N nx nw : Nat} {len : ℝ} :
    (∀ a ∈ defects J (fun l => noisyRhs (f l) (w l) G nx nw) x N nx 0 len, a = 0) ↔
      ∀ j < nx, ∀ k < N, stateResidual J f x N len k j =
        ∑ b ∈ Finset.range nw, (G j).getD b 0 * (len * increment J w N k b) := by
  simp only [increment]
  rw [defects_zero_iff]
  refine forall₂_congr fun j hj => forall₂_congr fun k hk => ?_
  have e : ∑ l ∈ Finset.range (N + 1), (J.getD k []).getD l 0 * (noisyRhs (f (0 + l)) (w (0 + l)) G nx nw).getD j 0 =
      (∑ l ∈ Finset.range (N + 1), (J.getD k []).getD l 0 * (f l).getD j 0) +
        ∑ b ∈ Finset.range nw, (G j).getD b 0 * ∑ l ∈ Finset.range (N + 1), (J.getD k []).getD l 0 * (w l).getD b 0 := by
    simp only [Finset.mul_sum]
    rw [Finset.sum_comm, ← Finset.sum_add_distrib]
    refine Finset.sum_congr rfl fun l _ => ?_
    have e1 : (noisyRhs (f (0 + l)) (w (0 + l)) G nx nw).getD j 0 = (f l).getD j 0 + ∑ b ∈ Finset.range nw, (w l).getD b 0 * (G j).getD b 0 := by
      rw [noisyRhs, List.getD_eq_getElem?_getD, List.getElem?_map, List.getElem?_range hj]
      simp only [Option.map_some, Option.getD_some, Nat.zero_add]
    rw [e1, mul_add, Finset.mul_sum]
    congr 1
    exact Finset.sum_congr rfl fun b _ => by ring
  rw [e, stateResidual, Nat.zero_add, add_mul, ← sub_sub, sub_eq_zero]
  have e2 : (∑ b ∈ Finset.range nw, (G j).getD b 0 * ∑ l ∈ Finset.range (N + 1), (J.getD k []).getD l 0 * (w l).getD b 0) * len =
      ∑ b ∈ Finset.range nw, (G j).getD b 0 * (len * ∑ l ∈ Finset.range (N + 1), (J.getD k []).getD l 0 * (w l).getD b 0) :=
    (Finset.sum_mul ..).trans (Finset.sum_congr rfl fun b _ => by ring)
  rw [e2]

/-! ### Decision vectors -/

theorem rowAt_rows {pre rest : List ℝ} {off n c : Nat} {g : Nat → List ℝ} (ho : pre.length = off) (hg : ∀ r < c, (g r).length = n) {r : Nat} (hr : r < c) :
    rowAt (pre ++ (List.range c).flatMap g ++ rest) off n r = g r := by
  obtain ⟨h1, h2⟩ := flatMap_getElem? c hg
  refine List.ext_getElem (by simp [rowAt, hg r hr]) fun j h3 h4 => ?_
  have hj : j < n := by simpa [rowAt] using h3
  simp only [rowAt, List.getElem_map, List.getElem_range]
  rw [List.getD_eq_getElem?_getD, List.getElem?_append_left (by rw [List.length_append, h1]; have := mul_add_lt hr hj; omega),
    List.getElem?_append_right (by omega), show off + (r * n + j) - pre.length = r * n + j by omega, h2 r hr j hj,
    List.getElem?_eq_getElem h4, Option.getD_some]

/-- A decision vector of a joint MAP problem with given rows. -/
theorem jme_vector {x W : Nat → List ℝ} {p : List ℝ} (P N : Nat) {nx nw np : Nat} (hx : ∀ r ≤ P * N, (x r).length = nx) (hW : ∀ r < P * N, (W r).length = nw) (hp : p.length = np) :
    ∃ d : List ℝ, d.length = (P * N + 1) * nx + P * N * nw + np ∧ (∀ r ≤ P * N, rowAt d 0 nx r = x r) ∧
      (∀ r < P * N, rowAt d ((P * N + 1) * nx) nw r = W r) ∧ jmeP P N nx nw np d = p := by
  have l1 := (flatMap_getElem? (g := x) (n := nx) (P * N + 1) fun r hr => hx r (by omega)).1
  have l2 := (flatMap_getElem? (g := W) (n := nw) (P * N) hW).1
  refine ⟨(List.range (P * N + 1)).flatMap x ++ (List.range (P * N)).flatMap W ++ p, by rw [List.length_append, List.length_append, l1, l2, hp], fun r hr => ?_, fun r hr => ?_, ?_⟩
  · have := rowAt_rows (pre := []) (rest := (List.range (P * N)).flatMap W ++ p) (g := x) (n := nx) (c := P * N + 1) (off := 0) rfl (fun r hr => hx r (by omega)) (r := r) (by omega)
    rwa [List.nil_append, ← List.append_assoc] at this
  · exact rowAt_rows l1 hW hr
  · refine List.ext_getElem (by simp [jmeP, rowAt, hp]) fun j h1 h2 => ?_
    simp only [jmeP, rowAt, List.getElem_map, List.getElem_range]
    rw [List.getD_eq_getElem?_getD, List.getElem?_append_right (by rw [List.length_append, l1, l2]; omega), List.length_append, l1, l2,
      show (P * N + 1) * nx + P * N * nw + (0 * np + j) - ((P * N + 1) * nx + P * N * nw) = j by omega, List.getElem?_eq_getElem h2, Option.getD_some]

/-- The rows determine the decision vector. -/
theorem jme_ext {d d' : List ℝ} {P N nx nw np : Nat} (h : d.length = (P * N + 1) * nx + P * N * nw + np) (h' : d'.length = (P * N + 1) * nx + P * N * nw + np)
    (hx : ∀ r ≤ P * N, rowAt d 0 nx r = rowAt d' 0 nx r) (hw : ∀ r < P * N, rowAt d ((P * N + 1) * nx) nw r = rowAt d' ((P * N + 1) * nx) nw r)
    (hp : jmeP P N nx nw np d = jmeP P N nx nw np d') : d = d' := by
  refine List.ext_getElem (by omega) fun k h1 h2 => ?_
  rw [← getD_of_lt _ 0 h1, ← getD_of_lt _ 0 h2]
  have part : ∀ c n k : Nat, k < c * n → k / n < c ∧ k % n < n ∧ k = k / n * n + k % n := fun c n k hk => by
    have hn : 0 < n := Nat.pos_of_ne_zero fun e => by simp [e] at hk
    exact ⟨Nat.div_lt_of_lt_mul (by rwa [Nat.mul_comm] at hk), Nat.mod_lt _ hn, (Nat.div_add_mod' k n).symm⟩
  rcases Nat.lt_or_ge k ((P * N + 1) * nx) with hk | hk
  · obtain ⟨a, b, e⟩ := part (P * N + 1) nx k hk
    have := congrArg (·.getD (k % nx) 0) (hx _ (Nat.lt_succ_iff.1 a))
    simp only [rowAt_getD b] at this
    rwa [← e, Nat.zero_add] at this
  · rcases Nat.lt_or_ge k ((P * N + 1) * nx + P * N * nw) with hk' | hk'
    · obtain ⟨a, b, e⟩ := part (P * N) nw (k - (P * N + 1) * nx) (by omega)
      have := congrArg (·.getD ((k - (P * N + 1) * nx) % nw) 0) (hw _ a)
      simp only [rowAt_getD b] at this
      rwa [← e, Nat.add_sub_cancel' hk] at this
    · have := congrArg (·.getD (k - ((P * N + 1) * nx + P * N * nw)) 0) hp
      simp only [jmeP] at this
      rw [rowAt_getD (by omega), rowAt_getD (by omega)] at this
      rwa [Nat.zero_mul, Nat.zero_add, Nat.add_sub_cancel' hk'] at this

end Ceacoest
