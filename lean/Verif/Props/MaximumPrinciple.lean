import Verif.Lemmas.MaximumPrinciple
import Verif.Props.TimeReversal

/-! # C92: stationary points of the nonlinear program satisfy the maximum principle in discrete form -/

namespace Ceacoest
open Polynomial Spec RK
variable {X : Type}

/-- **C92** (coefficients). For each order there is exactly one Lobatto IIIB method with the points and weights of the collocation method. -/
theorem C92_coefficients {n : Int} (hn : 2 ≤ n) : ∃ (col : Collocation ℝ) (N : Nat), lglCollocation n = .ok col ∧ (N : Int) + 1 = n ∧
    ∃ B, LobattoIIIB col.points col.K N B ∧ ∀ B', LobattoIIIB col.points col.K N B' → ∀ l ≤ N, ∀ m ≤ N, B' l m = B l m := by
  obtain ⟨col, hcol, -⟩ := C25_exact n hn
  have hN : ((n - 1).toNat : Int) + 1 = n := by omega
  have hN1 : 1 ≤ (n - 1).toNat := by omega
  obtain ⟨hpo, hK⟩ := lgl_points_ok hN1 hN hcol
  obtain ⟨hpos, -⟩ := lgl_weights_ok hN1 hN hcol
  exact ⟨col, _, hcol, hN, lobB col.K col.J, lobB_ok hpo hK hpos, fun B' hB' l hl m hm => lobB_unique hpo (lobB_ok hpo hK hpos) hB' hl hm⟩

/-! ### The Lagrange function of the nonlinear program -/

theorem sum_blocks (g : Nat → ℝ) (n : Nat) : ∀ m, ∑ q ∈ Finset.range (m * n), g q = ∑ i ∈ Finset.range m, ∑ j ∈ Finset.range n, g (i * n + j)
  | 0 => by simp
  | m + 1 => by rw [Nat.succ_mul, Finset.sum_range_add, sum_blocks g n m, Finset.sum_range_succ]

/-- The multipliers of the defects, of the path constraints and of the end point constraints. -/
def lamOf (N nx : Nat) (lam : Nat → ℝ) (k j a : Nat) : ℝ := lam ((k * N + j) * nx + a)
def muOf (P N nx ng : Nat) (lam : Nat → ℝ) (r a : Nat) : ℝ := lam (P * N * nx + r * ng + a)
def nuOf (P N nx ng : Nat) (lam : Nat → ℝ) (a : Nat) : ℝ := lam (P * N * nx + (P * N + 1) * ng + a)
/-- The weighted means of the multipliers of the defects. -/
noncomputable def psiOf (K : List ℝ) (J : List (List ℝ)) (N : Nat) (lam : Nat → Nat → Nat → ℝ) (k l a : Nat) : ℝ :=
  -((∑ j ∈ Finset.range N, (J.getD j []).getD l 0 * lam k j a) / K.getD l 0)

/-- One piece: cost and defects with multipliers are the Hamiltonian and the increments. -/
theorem piece_lagrangian (F : OCFunctions) {K : List ℝ} {J : List (List ℝ)} {N : Nat} (nx : Nat) (hK : ∀ l ≤ N, K.getD l 0 ≠ 0) (lam : Nat → Nat → Nat → ℝ) (k : Nat) (len : ℝ)
    (x u : Nat → List ℝ) (p : List ℝ) :
    (∑ l ∈ Finset.range (N + 1), F.L (x (k * N + l)) (u (k * N + l)) p * K.getD l 0) * len +
      ∑ j ∈ Finset.range N, ∑ a ∈ Finset.range nx, lam k j a * ((x (k * N + j + 1)).getD a 0 - (x (k * N + j)).getD a 0 -
        (∑ l ∈ Finset.range (N + 1), (J.getD j []).getD l 0 * (F.f (x (k * N + l)) (u (k * N + l)) p).getD a 0) * len) =
    (∑ l ∈ Finset.range (N + 1), len * K.getD l 0 * F.hamiltonian nx (psiOf K J N lam k l) (x (k * N + l)) (u (k * N + l)) p) +
      ∑ j ∈ Finset.range N, ∑ a ∈ Finset.range nx, lam k j a * ((x (k * N + j + 1)).getD a 0 - (x (k * N + j)).getD a 0) := by
  have e1 : ∑ l ∈ Finset.range (N + 1), len * K.getD l 0 * F.hamiltonian nx (psiOf K J N lam k l) (x (k * N + l)) (u (k * N + l)) p =
      (∑ l ∈ Finset.range (N + 1), F.L (x (k * N + l)) (u (k * N + l)) p * K.getD l 0) * len -
        ∑ l ∈ Finset.range (N + 1), ∑ a ∈ Finset.range nx, ∑ j ∈ Finset.range N, len * ((J.getD j []).getD l 0 * lam k j a) * (F.f (x (k * N + l)) (u (k * N + l)) p).getD a 0 := by
    rw [Finset.sum_mul, ← Finset.sum_sub_distrib]
    refine Finset.sum_congr rfl fun l hl => ?_
    have hKl := hK l (by have := Finset.mem_range.1 hl; omega)
    rw [OCFunctions.hamiltonian, mul_add, Finset.mul_sum, sub_eq_add_neg, ← Finset.sum_neg_distrib]
    congr 1
    · ring
    · refine Finset.sum_congr rfl fun a _ => ?_
      rw [psiOf, ← Finset.sum_mul, ← Finset.mul_sum]
      field_simp
  have e2 : ∑ j ∈ Finset.range N, ∑ a ∈ Finset.range nx, lam k j a * ((x (k * N + j + 1)).getD a 0 - (x (k * N + j)).getD a 0 -
        (∑ l ∈ Finset.range (N + 1), (J.getD j []).getD l 0 * (F.f (x (k * N + l)) (u (k * N + l)) p).getD a 0) * len) =
      (∑ j ∈ Finset.range N, ∑ a ∈ Finset.range nx, lam k j a * ((x (k * N + j + 1)).getD a 0 - (x (k * N + j)).getD a 0)) -
        ∑ j ∈ Finset.range N, ∑ a ∈ Finset.range nx, ∑ l ∈ Finset.range (N + 1), len * ((J.getD j []).getD l 0 * lam k j a) * (F.f (x (k * N + l)) (u (k * N + l)) p).getD a 0 := by
    rw [← Finset.sum_sub_distrib]
    refine Finset.sum_congr rfl fun j _ => ?_
    rw [← Finset.sum_sub_distrib]
    refine Finset.sum_congr rfl fun a _ => ?_
    rw [mul_sub, Finset.sum_mul, Finset.mul_sum]
    congr 1
    exact Finset.sum_congr rfl fun l _ => by ring
  have e3 : ∑ l ∈ Finset.range (N + 1), ∑ a ∈ Finset.range nx, ∑ j ∈ Finset.range N, len * ((J.getD j []).getD l 0 * lam k j a) * (F.f (x (k * N + l)) (u (k * N + l)) p).getD a 0 =
      ∑ j ∈ Finset.range N, ∑ a ∈ Finset.range nx, ∑ l ∈ Finset.range (N + 1), len * ((J.getD j []).getD l 0 * lam k j a) * (F.f (x (k * N + l)) (u (k * N + l)) p).getD a 0 := by
    rw [Finset.sum_comm]
    simp only [Finset.sum_comm (s := Finset.range (N + 1)) (t := Finset.range N)]
    rw [Finset.sum_comm]
  rw [e1, e2, e3]
  ring

theorem lagrangian_eq {F : OCFunctions} {K len : List ℝ} {J : List (List ℝ)} {P N nx nu np ng nh : Nat} (hK : ∀ l ≤ N, K.getD l 0 ≠ 0)
    (hg : ∀ x u p, x.length = nx → u.length = nu → p.length = np → (F.g x u p).length = ng) (hh : ∀ xe p, xe.length = 2 * nx → p.length = np → (F.h xe p).length = nh)
    (lam : Nat → ℝ) (d : List ℝ) :
    ocCost F K len P N nx nu np d + ∑ q ∈ Finset.range (P * N * nx + (P * N + 1) * ng + nh), lam q * (ocConstraints F J len P N nx nu np d).getD q 0 =
      lagF F K len P N nx ng nh (muOf P N nx ng lam) (nuOf P N nx ng lam) (psiOf K J N (lamOf N nx lam)) (lamOf N nx lam) (ocX nx d) (ocU P N nx nu d) (ocP P N nx nu np d) := by
  obtain ⟨-, p2, p3, p4⟩ := ocConstraints_parts (F := F) (J := J) (len := len) (P := P) (N := N) (d := d) hg hh
  rw [Finset.sum_range_add, Finset.sum_range_add, sum_blocks, sum_blocks, sum_blocks _ ng]
  have e1 : ∑ i ∈ Finset.range P, ∑ j ∈ Finset.range N, ∑ a ∈ Finset.range nx, lam ((i * N + j) * nx + a) * (ocConstraints F J len P N nx nu np d).getD ((i * N + j) * nx + a) 0 =
      ∑ i ∈ Finset.range P, ∑ j ∈ Finset.range N, ∑ a ∈ Finset.range nx, lamOf N nx lam i j a * ((ocX nx d (i * N + j + 1)).getD a 0 - (ocX nx d (i * N + j)).getD a 0 -
        (∑ l ∈ Finset.range (N + 1), (J.getD j []).getD l 0 * (F.f (ocX nx d (i * N + l)) (ocU P N nx nu d (i * N + l)) (ocP P N nx nu np d)).getD a 0) * len.getD i 0) :=
    Finset.sum_congr rfl fun i hi => Finset.sum_congr rfl fun j hj => Finset.sum_congr rfl fun a ha => by
      rw [p2 i (Finset.mem_range.1 hi) j (Finset.mem_range.1 hj) a (Finset.mem_range.1 ha), defects_getD _ _ _ _ _ (Finset.mem_range.1 hj) (Finset.mem_range.1 ha), lamOf]
  have e2 : ∑ r ∈ Finset.range (P * N + 1), ∑ a ∈ Finset.range ng, lam (P * N * nx + (r * ng + a)) * (ocConstraints F J len P N nx nu np d).getD (P * N * nx + (r * ng + a)) 0 =
      ∑ r ∈ Finset.range (P * N + 1), F.pathTerm ng (muOf P N nx ng lam r) (ocX nx d r) (ocU P N nx nu d r) (ocP P N nx nu np d) :=
    Finset.sum_congr rfl fun r hr => Finset.sum_congr rfl fun a ha => by
      rw [← Nat.add_assoc, p3 r (by have := Finset.mem_range.1 hr; omega) a (Finset.mem_range.1 ha), muOf]
  have e3 : ∑ a ∈ Finset.range nh, lam (P * N * nx + (P * N + 1) * ng + a) * (ocConstraints F J len P N nx nu np d).getD (P * N * nx + (P * N + 1) * ng + a) 0 =
      ∑ a ∈ Finset.range nh, nuOf P N nx ng lam a * (F.h (ocX nx d 0 ++ ocX nx d (P * N)) (ocP P N nx nu np d)).getD a 0 :=
    Finset.sum_congr rfl fun a ha => by rw [p4 a (Finset.mem_range.1 ha), nuOf]
  rw [e1, e2, e3, ocCost, lagF, OCFunctions.endTerm]
  have e4 := Finset.sum_congr (rfl : Finset.range P = Finset.range P) fun k _ =>
    piece_lagrangian F (K := K) (J := J) (N := N) nx hK (lamOf N nx lam) k (len.getD k 0) (ocX nx d) (ocU P N nx nu d) (ocP P N nx nu np d)
  rw [Finset.sum_add_distrib, Finset.sum_add_distrib] at e4
  linarith

/-! ### Changing one entry of the decision vector -/

theorem rowAt_set {d : List ℝ} {off n r b : Nat} (hb : b < n) (hi : off + (r * n + b) < d.length) (s : ℝ) (q : Nat) :
    rowAt (d.set (off + (r * n + b)) s) off n q = Function.update (rowAt d off n) r ((rowAt d off n r).set b s) q := by
  have key : ∀ j < n, q * n + j = r * n + b ↔ q = r ∧ j = b := fun j hj => by
    constructor
    · intro e
      have h1 := congrArg (· / n) e
      have h2 := congrArg (· % n) e
      simp only [Nat.add_comm _ j, Nat.add_comm _ b, Nat.add_mul_div_right _ _ (show 0 < n by omega), Nat.div_eq_of_lt hj, Nat.div_eq_of_lt hb,
        Nat.add_mul_mod_self_right, Nat.mod_eq_of_lt hj, Nat.mod_eq_of_lt hb] at h1 h2
      omega
    · rintro ⟨rfl, rfl⟩; rfl
  by_cases hq : q = r
  · subst hq
    rw [Function.update_self]
    refine List.ext_getElem (by simp [rowAt]) fun j h1 h2 => ?_
    have hj : j < n := by simpa [rowAt] using h1
    simp only [rowAt, List.getElem_map, List.getElem_range, List.getElem_set]
    by_cases hjb : b = j
    · subst hjb
      rw [if_pos rfl, List.getD_eq_getElem?_getD, List.getElem?_set_self hi]
      rfl
    · rw [if_neg hjb, List.getD_eq_getElem?_getD, List.getElem?_set_ne (by omega), List.getD_eq_getElem?_getD]
  · rw [Function.update_of_ne hq]
    refine List.map_congr_left fun j hj => ?_
    have := (key j (List.mem_range.1 hj)).not.2 fun h => hq h.1
    rw [List.getD_eq_getElem?_getD, List.getElem?_set_ne (by omega), List.getD_eq_getElem?_getD]

theorem rowAt_set_other {d : List ℝ} {off n q i : Nat} (h : i < off + q * n ∨ off + q * n + n ≤ i) (s : ℝ) : rowAt (d.set i s) off n q = rowAt d off n q :=
  List.map_congr_left fun j hj => by
    have := List.mem_range.1 hj
    rw [List.getD_eq_getElem?_getD, List.getElem?_set_ne (by omega), List.getD_eq_getElem?_getD]

section Stationary
variable {F : OCFunctions} {K len : List ℝ} {P N nx nu np ng nh : Nat}

/-- The derivatives of a function of states, inputs and parameters with respect to the entries of the decision vector. -/
theorem entries_iff {G : (Nat → List ℝ) → (Nat → List ℝ) → List ℝ → ℝ}
    (hG : ∀ x u x' u' p, (∀ r ≤ P * N, x r = x' r) → (∀ r ≤ P * N, u r = u' r) → G x u p = G x' u' p) {d : List ℝ} (hd : d.length = (P * N + 1) * (nx + nu) + np) :
    (∀ i < d.length, HasDerivAt (fun s => G (ocX nx (d.set i s)) (ocU P N nx nu (d.set i s)) (ocP P N nx nu np (d.set i s))) 0 (d.getD i 0)) ↔
      (∀ r ≤ P * N, ∀ b < nx, HasDerivAt (fun s => G (Function.update (ocX nx d) r ((ocX nx d r).set b s)) (ocU P N nx nu d) (ocP P N nx nu np d)) 0 ((ocX nx d r).getD b 0)) ∧
      (∀ r ≤ P * N, ∀ b < nu, HasDerivAt (fun s => G (ocX nx d) (Function.update (ocU P N nx nu d) r ((ocU P N nx nu d r).set b s)) (ocP P N nx nu np d)) 0
        ((ocU P N nx nu d r).getD b 0)) ∧
      ∀ b < np, HasDerivAt (fun s => G (ocX nx d) (ocU P N nx nu d) ((ocP P N nx nu np d).set b s)) 0 ((ocP P N nx nu np d).getD b 0) := by
  have ex : ∀ r ≤ P * N, ∀ b < nx, r * nx + b < d.length ∧ (fun s => G (ocX nx (d.set (r * nx + b) s)) (ocU P N nx nu (d.set (r * nx + b) s)) (ocP P N nx nu np (d.set (r * nx + b) s))) =
      (fun s => G (Function.update (ocX nx d) r ((ocX nx d r).set b s)) (ocU P N nx nu d) (ocP P N nx nu np d)) ∧ d.getD (r * nx + b) 0 = (ocX nx d r).getD b 0 := by
    intro r hr b hb
    have h1 := mul_add_lt (show r < P * N + 1 by omega) hb
    have h2 : (P * N + 1) * (nx + nu) = (P * N + 1) * nx + (P * N + 1) * nu := Nat.mul_add ..
    refine ⟨by omega, funext fun s => ?_, ?_⟩
    · have ep : ocP P N nx nu np (d.set (r * nx + b) s) = ocP P N nx nu np d := rowAt_set_other (by omega) s
      rw [ep]
      refine hG _ _ _ _ _ (fun q _ => ?_) fun q _ => rowAt_set_other (by omega) s
      have := rowAt_set (d := d) (off := 0) (n := nx) (r := r) hb (by omega) s q
      rw [Nat.zero_add] at this
      exact this
    · rw [ocX, rowAt_getD hb, Nat.zero_add]
  have eu : ∀ r ≤ P * N, ∀ b < nu, (P * N + 1) * nx + (r * nu + b) < d.length ∧ (fun s => G (ocX nx (d.set ((P * N + 1) * nx + (r * nu + b)) s))
      (ocU P N nx nu (d.set ((P * N + 1) * nx + (r * nu + b)) s)) (ocP P N nx nu np (d.set ((P * N + 1) * nx + (r * nu + b)) s))) =
      (fun s => G (ocX nx d) (Function.update (ocU P N nx nu d) r ((ocU P N nx nu d r).set b s)) (ocP P N nx nu np d)) ∧
        d.getD ((P * N + 1) * nx + (r * nu + b)) 0 = (ocU P N nx nu d r).getD b 0 := by
    intro r hr b hb
    have h1 := mul_add_lt (show r < P * N + 1 by omega) hb
    have h2 : (P * N + 1) * (nx + nu) = (P * N + 1) * nx + (P * N + 1) * nu := Nat.mul_add ..
    refine ⟨by omega, funext fun s => ?_, ?_⟩
    · have ep : ocP P N nx nu np (d.set ((P * N + 1) * nx + (r * nu + b)) s) = ocP P N nx nu np d := rowAt_set_other (by omega) s
      rw [ep]
      refine hG _ _ _ _ _ (fun q hq => rowAt_set_other ?_ s) fun q _ => rowAt_set hb (by omega) s q
      have : q * nx + nx ≤ (P * N + 1) * nx := by rw [← Nat.succ_mul]; exact Nat.mul_le_mul_right _ (by omega)
      omega
    · rw [ocU, rowAt_getD hb]
  have ep : ∀ b < np, (P * N + 1) * (nx + nu) + b < d.length ∧ (fun s => G (ocX nx (d.set ((P * N + 1) * (nx + nu) + b) s))
      (ocU P N nx nu (d.set ((P * N + 1) * (nx + nu) + b) s)) (ocP P N nx nu np (d.set ((P * N + 1) * (nx + nu) + b) s))) =
      (fun s => G (ocX nx d) (ocU P N nx nu d) ((ocP P N nx nu np d).set b s)) ∧
        d.getD ((P * N + 1) * (nx + nu) + b) 0 = (ocP P N nx nu np d).getD b 0 := by
    intro b hb
    have h2 : (P * N + 1) * (nx + nu) = (P * N + 1) * nx + (P * N + 1) * nu := Nat.mul_add ..
    refine ⟨by omega, funext fun s => ?_, ?_⟩
    · have e := rowAt_set (d := d) (off := (P * N + 1) * (nx + nu)) (n := np) (r := 0) (b := b) hb (by omega) s 0
      rw [Function.update_self, Nat.zero_mul, Nat.zero_add] at e
      rw [ocP, e]
      refine hG _ _ _ _ _ (fun q hq => rowAt_set_other ?_ s) fun q hq => rowAt_set_other ?_ s
      · have : q * nx + nx ≤ (P * N + 1) * nx := by rw [← Nat.succ_mul]; exact Nat.mul_le_mul_right _ (by omega)
        omega
      · have : q * nu + nu ≤ (P * N + 1) * nu := by rw [← Nat.succ_mul]; exact Nat.mul_le_mul_right _ (by omega)
        omega
    · rw [ocP, rowAt_getD hb, Nat.zero_mul, Nat.zero_add]
  constructor
  · intro h
    refine ⟨fun r hr b hb => ?_, fun r hr b hb => ?_, fun b hb => ?_⟩
    · obtain ⟨h1, h2, h3⟩ := ex r hr b hb
      rw [← h2, ← h3]; exact h _ h1
    · obtain ⟨h1, h2, h3⟩ := eu r hr b hb
      rw [← h2, ← h3]; exact h _ h1
    · obtain ⟨h1, h2, h3⟩ := ep b hb
      rw [← h2, ← h3]; exact h _ h1
  · rintro ⟨hx, hu, hp⟩ i hi
    have h2 : (P * N + 1) * (nx + nu) = (P * N + 1) * nx + (P * N + 1) * nu := Nat.mul_add ..
    have split : ∀ {n j : Nat}, j < (P * N + 1) * n → ∃ r b, r ≤ P * N ∧ b < n ∧ j = r * n + b := fun {n j} hj => by
      have hn : 0 < n := Nat.pos_of_ne_zero fun e => by simp [e] at hj
      exact ⟨j / n, j % n, Nat.lt_succ_iff.1 (Nat.div_lt_of_lt_mul (by rwa [Nat.mul_comm])), Nat.mod_lt _ hn, (Nat.div_add_mod' j n).symm⟩
    rcases Nat.lt_or_ge i ((P * N + 1) * nx) with h | h
    · obtain ⟨r, b, hr, hb, rfl⟩ := split h
      obtain ⟨-, e2, e3⟩ := ex r hr b hb
      rw [e2, e3]; exact hx r hr b hb
    rcases Nat.lt_or_ge i ((P * N + 1) * (nx + nu)) with h' | h'
    · obtain ⟨r, b, hr, hb, e⟩ := split (n := nu) (j := i - (P * N + 1) * nx) (by omega)
      obtain rfl : i = (P * N + 1) * nx + (r * nu + b) := by omega
      obtain ⟨-, e2, e3⟩ := eu r hr b hb
      rw [e2, e3]; exact hu r hr b hb
    · obtain ⟨b, rfl⟩ := Nat.exists_eq_add_of_le h'
      obtain ⟨-, e2, e3⟩ := ep b (by omega)
      rw [e2, e3]; exact hp b (by omega)

theorem hamiltonian_congr (F : OCFunctions) {nx : Nat} {ψ ψ' : Nat → ℝ} (h : ∀ a < nx, ψ a = ψ' a) : F.hamiltonian nx ψ = F.hamiltonian nx ψ' := by
  funext x u p
  unfold OCFunctions.hamiltonian
  congr 1
  exact Finset.sum_congr rfl fun a ha => by rw [h a (Finset.mem_range.1 ha)]

/-- The Lagrange function depends only on the multipliers of the constraints that exist. -/
theorem lagF_multipliers (F : OCFunctions) (K len : List ℝ) {P N nx ng nh : Nat} {μ μ' : Nat → Nat → ℝ} {ν ν' : Nat → ℝ} {ψ ψ' lam lam' : Nat → Nat → Nat → ℝ}
    (hμ : ∀ r ≤ P * N, ∀ a < ng, μ r a = μ' r a) (hν : ∀ a < nh, ν a = ν' a) (hψ : ∀ k < P, ∀ l ≤ N, ∀ a < nx, ψ k l a = ψ' k l a)
    (hlam : ∀ k < P, ∀ j < N, ∀ a < nx, lam k j a = lam' k j a) : lagF F K len P N nx ng nh μ ν ψ lam = lagF F K len P N nx ng nh μ' ν' ψ' lam' := by
  funext x u p
  unfold lagF
  congr 1
  · congr 1
    · congr 1
      · refine Finset.sum_congr rfl fun k hk => Finset.sum_congr rfl fun l hl => ?_
        rw [hamiltonian_congr F (hψ k (Finset.mem_range.1 hk) l (by have := Finset.mem_range.1 hl; omega))]
      · refine Finset.sum_congr rfl fun r hr => Finset.sum_congr rfl fun a ha => ?_
        rw [hμ r (by have := Finset.mem_range.1 hr; omega) a (Finset.mem_range.1 ha)]
    · unfold OCFunctions.endTerm
      congr 1
      exact Finset.sum_congr rfl fun a ha => by rw [hν a (Finset.mem_range.1 ha)]
  · exact Finset.sum_congr rfl fun k hk => Finset.sum_congr rfl fun j hj => Finset.sum_congr rfl fun a ha => by
      rw [hlam k (Finset.mem_range.1 hk) j (Finset.mem_range.1 hj) a (Finset.mem_range.1 ha)]

section Algebra
variable {J : List (List ℝ)} {c : List ℝ} {x u : Nat → List ℝ} {p : List ℝ} (μ : Nat → Nat → ℝ) (ν : Nat → ℝ) (ψ lam : Nat → Nat → Nat → ℝ)

/-- The derivative of the Lagrange function with respect to a state. -/
noncomputable def lagX (F : OCFunctions) (K len : List ℝ) (P N nx ng nh : Nat) (x u : Nat → List ℝ) (p : List ℝ) (μ : Nat → Nat → ℝ) (ν : Nat → ℝ) (ψ lam : Nat → Nat → Nat → ℝ) (r b : Nat) : ℝ :=
  (∑ k ∈ Finset.range P, ∑ l ∈ Finset.range (N + 1), if k * N + l = r then
      len.getD k 0 * K.getD l 0 * pderiv (fun y => F.hamiltonian nx (ψ k l) y (u (k * N + l)) p) (x (k * N + l)) b else 0) +
    pderiv (fun y => F.pathTerm ng (μ r) y (u r) p) (x r) b +
    ((if r = 0 then pderiv (fun xe => F.endTerm nh ν xe p) (x 0 ++ x (P * N)) b else 0) +
      if r = P * N then pderiv (fun xe => F.endTerm nh ν xe p) (x 0 ++ x (P * N)) (nx + b) else 0) +
    ∑ k ∈ Finset.range P, ∑ j ∈ Finset.range N, ((if k * N + j + 1 = r then lam k j b else 0) - if k * N + j = r then lam k j b else 0)

theorem lagX_inner {k l b : Nat} (hk : k < P) (h0 : 0 < l) (hl : l < N) :
    lagX F K len P N nx ng nh x u p μ ν ψ lam (k * N + l) b = F.force K len N nx ng x u p μ ψ k l b + lam k (l - 1) b - lam k l b := by
  obtain ⟨e1, e2⟩ := pick_inner hk h0 hl (fun k l => len.getD k 0 * K.getD l 0 * pderiv (fun y => F.hamiltonian nx (ψ k l) y (u (k * N + l)) p) (x (k * N + l)) b)
    (fun k j => lam k j b)
  have hlt := piece_le (N := N) (l := l + 1) hk hl
  rw [lagX, e1, e2, if_neg (by omega), if_neg (by omega), OCFunctions.force, if_pos ⟨h0, hl⟩]
  ring

theorem lagX_mesh {k b : Nat} (hN : 1 ≤ N) (hP : 1 ≤ P) (hk : k ≤ P) :
    lagX F K len P N nx ng nh x u p μ ν ψ lam (k * N) b = (if k < P then F.force K len N nx ng x u p μ ψ k 0 b else 0) +
      (if 0 < k then F.force K len N nx ng x u p μ ψ (k - 1) N b else 0) + pderiv (fun y => F.pathTerm ng (μ (k * N)) y (u (k * N)) p) (x (k * N)) b +
      ((if k = 0 then pderiv (fun xe => F.endTerm nh ν xe p) (x 0 ++ x (P * N)) b else 0) +
        if k = P then pderiv (fun xe => F.endTerm nh ν xe p) (x 0 ++ x (P * N)) (nx + b) else 0) +
      ((if 0 < k then lam (k - 1) (N - 1) b else 0) - if k < P then lam k 0 b else 0) := by
  obtain ⟨e1, e2⟩ := pick_mesh hN hk (fun k l => len.getD k 0 * K.getD l 0 * pderiv (fun y => F.hamiltonian nx (ψ k l) y (u (k * N + l)) p) (x (k * N + l)) b)
    (fun k j => lam k j b)
  have f0 : ∀ k, F.force K len N nx ng x u p μ ψ k 0 b = len.getD k 0 * K.getD 0 0 * pderiv (fun y => F.hamiltonian nx (ψ k 0) y (u (k * N + 0)) p) (x (k * N + 0)) b := fun k => by
    rw [OCFunctions.force, if_neg (by omega), add_zero]
  have fN : ∀ k, F.force K len N nx ng x u p μ ψ k N b = len.getD k 0 * K.getD N 0 * pderiv (fun y => F.hamiltonian nx (ψ k N) y (u (k * N + N)) p) (x (k * N + N)) b := fun k => by
    rw [OCFunctions.force, if_neg (by omega), add_zero]
  have c0 : k * N = 0 ↔ k = 0 := by rw [Nat.mul_eq_zero]; omega
  have cP : k * N = P * N ↔ k = P := Nat.mul_left_inj (by omega)
  rw [lagX, e1, e2]
  simp only [c0, cP, f0, fN]

/-- At a stationary point of the Lagrange function the maximum principle holds. -/
theorem principle_of_stationary {B : Nat → Nat → ℝ} (hpo : PointsOK c J N) (hK : ∀ q : ℝ[X], q.natDegree ≤ 2 * N - 1 → ∑ l ∈ Finset.range (N + 1), K.getD l 0 * q.eval (c.getD l 0) = integral q 0 1)
    (hpos : ∀ l ≤ N, 0 < K.getD l 0) (hB : LobattoIIIB c K N B) (hP : 1 ≤ P) (hN : 1 ≤ N)
    (hψ : ∀ k < P, ∀ l ≤ N, ∀ b < nx, ψ k l b = psiOf K J N lam k l b)
    (hx : ∀ r ≤ P * N, ∀ b < nx, lagX F K len P N nx ng nh x u p μ ν ψ lam r b = 0)
    (hu : ∀ r ≤ P * N, ∀ b < nu, (∑ k ∈ Finset.range P, ∑ l ∈ Finset.range (N + 1), if k * N + l = r then
      len.getD k 0 * K.getD l 0 * pderiv (fun v => F.hamiltonian nx (ψ k l) (x r) v p) (u r) b else 0) +
      pderiv (fun v => F.pathTerm ng (μ r) (x r) v p) (u r) b = 0)
    (hp : ∀ b < np, (∑ k ∈ Finset.range P, ∑ l ∈ Finset.range (N + 1),
        len.getD k 0 * K.getD l 0 * pderiv (fun w => F.hamiltonian nx (ψ k l) (x (k * N + l)) (u (k * N + l)) w) p b) +
      (∑ r ∈ Finset.range (P * N + 1), pderiv (fun w => F.pathTerm ng (μ r) (x r) (u r) w) p b) +
      pderiv (fun w => F.endTerm nh ν (x 0 ++ x (P * N)) w) p b = 0) :
    ∃ before after, F.MaximumPrinciple K len B P N nx nu np ng nh x u p μ ν ψ before after := by
  set f := F.force K len N nx ng x u p μ ψ with hf
  refine ⟨fun k b => if 0 < k then -lam (k - 1) (N - 1) b - f (k - 1) N b else -pderiv (fun xe => F.endTerm nh ν xe p) (x 0 ++ x (P * N)) b,
    fun k b => if k < P then -lam k 0 b + f k 0 b else pderiv (fun xe => F.endTerm nh ν xe p) (x 0 ++ x (P * N)) (nx + b), ?_⟩
  have hlam : ∀ k < P, ∀ b < nx, ∀ j < N, lam k j b = -(-lam k 0 b + f k 0 b - ∑ m ∈ Finset.range (j + 1), f k m b) := by
    intro k hk b hb j
    induction j with
    | zero => intro _; rw [Finset.sum_range_one]; ring
    | succ j ih =>
      intro hj
      have e := hx (k * N + (j + 1)) (piece_le hk (by omega)) b hb
      rw [lagX_inner μ ν ψ lam hk (by omega) hj, Nat.add_sub_cancel, ← hf] at e
      rw [Finset.sum_range_succ]
      have := ih (by omega)
      linarith
  refine ⟨fun b hb => by simp, fun b hb => by simp, fun k hk b hb => ?_, fun k hk b hb => ?_, fun k hk l hl b hb => ?_, hu, hp⟩
  · have e := hx (k * N) (Nat.mul_le_mul_right _ hk) b hb
    rw [lagX_mesh μ ν ψ lam hN hP hk, ← hf] at e
    rcases Nat.eq_zero_or_pos k with rfl | h0
    · rw [if_pos (show 0 < P by omega), if_neg (lt_irrefl 0), if_pos rfl, if_neg (by omega), if_neg (lt_irrefl 0), if_pos (show 0 < P by omega)] at e
      rw [if_pos (show 0 < P by omega), if_neg (lt_irrefl 0)]
      linarith
    · rcases Nat.lt_or_ge k P with h1 | h1
      · rw [if_pos h1, if_pos h0, if_neg (by omega), if_neg (by omega), if_pos h0, if_pos h1] at e
        rw [if_pos h1, if_pos h0]
        linarith
      · obtain rfl : k = P := by omega
        rw [if_neg (lt_irrefl _), if_pos h0, if_neg (by omega), if_pos rfl, if_pos h0, if_neg (lt_irrefl _)] at e
        rw [if_neg (lt_irrefl _), if_pos h0]
        linarith
  · rw [if_pos (Nat.succ_pos k), if_pos hk, Nat.add_sub_cancel, Finset.sum_range_succ]
    have := hlam k hk b hb (N - 1) (by omega)
    rw [Nat.sub_add_cancel hN] at this
    linarith
  · rw [if_pos hk, hψ k hk l hl b hb, psiOf, costate_eq hpo hK hpos (A := -lam k 0 b + f k 0 b) (G := fun m => f k m b) (fun j hj => hlam k hk b hb j hj) hl]
    congr 1
    exact Finset.sum_congr rfl fun m hm => by
      rw [lobB_unique hpo (lobB_ok hpo hK hpos) hB hl (by have := Finset.mem_range.1 hm; omega)]

/-- Where the maximum principle holds the Lagrange function is stationary. -/
theorem stationary_of_principle {B : Nat → Nat → ℝ} (hpo : PointsOK c J N) (hK : ∀ q : ℝ[X], q.natDegree ≤ 2 * N - 1 → ∑ l ∈ Finset.range (N + 1), K.getD l 0 * q.eval (c.getD l 0) = integral q 0 1)
    (hpos : ∀ l ≤ N, 0 < K.getD l 0) (hB : LobattoIIIB c K N B) (hP : 1 ≤ P) (hN : 1 ≤ N) {before after : Nat → Nat → ℝ}
    (h : F.MaximumPrinciple K len B P N nx nu np ng nh x u p μ ν ψ before after)
    (hlam : ∀ k < P, ∀ b < nx, ∀ j < N, lam k j b = -(after k b - ∑ m ∈ Finset.range (j + 1), F.force K len N nx ng x u p μ ψ k m b)) :
    (∀ k < P, ∀ l ≤ N, ∀ b < nx, ψ k l b = psiOf K J N lam k l b) ∧ ∀ r ≤ P * N, ∀ b < nx, lagX F K len P N nx ng nh x u p μ ν ψ lam r b = 0 := by
  constructor
  · intro k hk l hl b hb
    rw [psiOf, costate_eq hpo hK hpos (A := after k b) (G := fun m => F.force K len N nx ng x u p μ ψ k m b) (fun j hj => hlam k hk b hb j hj) hl, h.inner k hk l hl b hb]
    congr 1
    exact Finset.sum_congr rfl fun m hm => by
      rw [lobB_unique hpo (lobB_ok hpo hK hpos) hB hl (by have := Finset.mem_range.1 hm; omega)]
  · intro r hr b hb
    have last : ∀ k < P, lam k (N - 1) b + F.force K len N nx ng x u p μ ψ k N b = -before (k + 1) b := fun k hk => by
      have e1 := hlam k hk b hb (N - 1) (by omega)
      have e2 := h.mesh k hk b hb
      rw [Nat.sub_add_cancel hN] at e1
      rw [Finset.sum_range_succ] at e2
      linarith
    have first : ∀ k < P, F.force K len N nx ng x u p μ ψ k 0 b - lam k 0 b = after k b := fun k hk => by
      have e1 := hlam k hk b hb 0 (by omega)
      rw [Finset.sum_range_one] at e1
      linarith
    by_cases hm : r % N = 0
    · obtain ⟨k, rfl⟩ : ∃ k, r = k * N := ⟨r / N, by have := Nat.div_add_mod' r N; omega⟩
      have hk : k ≤ P := Nat.le_of_mul_le_mul_right hr (by omega)
      have e := h.jump k hk b hb
      rw [lagX_mesh μ ν ψ lam hN hP hk]
      rcases Nat.eq_zero_or_pos k with rfl | h0
      · rw [if_pos (show 0 < P by omega), if_neg (lt_irrefl 0), if_pos rfl, if_neg (by omega), if_neg (lt_irrefl 0), if_pos (show 0 < P by omega)]
        have e1 := first 0 (by omega)
        have e2 := h.start b hb
        linarith
      · have e3 := last (k - 1) (by omega)
        rw [Nat.sub_add_cancel h0] at e3
        rcases Nat.lt_or_ge k P with h1 | h1
        · rw [if_pos h1, if_pos h0, if_neg (by omega), if_neg (by omega), if_pos h0, if_pos h1]
          have e1 := first k h1
          linarith
        · obtain rfl : k = P := by omega
          rw [if_neg (lt_irrefl _), if_pos h0, if_neg (by omega), if_pos rfl, if_pos h0, if_neg (lt_irrefl _)]
          have e1 := h.stop b hb
          linarith
    · have hk : r / N < P := by
        refine Nat.div_lt_of_lt_mul ?_
        rw [Nat.mul_comm]
        refine lt_of_le_of_ne hr fun e => hm ?_
        rw [e, Nat.mul_mod_left]
      have hl := Nat.mod_lt r (show N > 0 by omega)
      have e := lagX_inner (F := F) (K := K) (len := len) (P := P) (nx := nx) (ng := ng) (nh := nh) (x := x) (u := u) (p := p) μ ν ψ lam (b := b) hk (Nat.pos_of_ne_zero hm) hl
      rw [Nat.div_add_mod'] at e
      rw [e, hlam _ hk b hb _ hl, hlam _ hk b hb (r % N - 1) (by omega), Nat.sub_add_cancel (Nat.pos_of_ne_zero hm), Finset.sum_range_succ]
      ring

end Algebra

end Stationary

/-- The Lagrange function of a problem, with multipliers `lam` for its constraints, is stationary at `d`. -/
def Stationary (p : Problem ℝ) (lam d : List ℝ) : Prop :=
  ∃ (f : List ℝ → ℝ) (cf : List ℝ → List ℝ), (∀ e : List ℝ, e.length = p.ndec → p.obj e = .ok (f e) ∧ p.constr e = .ok (cf e) ∧ (cf e).length = lam.length) ∧
    ∀ i < p.ndec, HasDerivAt (fun s => f (d.set i s) + ∑ q ∈ Finset.range lam.length, lam.getD q 0 * (cf (d.set i s)).getD q 0) 0 (d.getD i 0)

/-- **C92** (residual). What a solver computes from the gradient and the Jacobian of a problem is zero exactly where the Lagrange function is stationary. -/
theorem C92_residual {p : Problem ℝ} {d : List ℝ} (hd : d.length = p.ndec) (h : DerivativesRight p d) : ∃ g di ci val, p.objGrad d = .ok g ∧ p.constrJacInd = .ok (di, ci) ∧
    p.constrJacVal d = .ok val ∧ ∀ lam : List ℝ, lam.length = p.ncons → (Stationary p lam d ↔
      ∀ i < p.ndec, g.getD i 0 + ∑ q ∈ Finset.range p.ncons, lam.getD q 0 * assemble val.length (fun n => di.getD n 0 = i ∧ ci.getD n 0 = q) (fun n => val.getD n 0) = 0) := by
  obtain ⟨f, cf, h0, ⟨g, g1, g2, g3⟩, ⟨di, ci, val, j1, j2, -, j3⟩, -⟩ := h
  refine ⟨g, di, ci, val, g1, j1, j2, fun lam hl => ?_⟩
  have key : ∀ i < p.ndec, HasDerivAt (fun s => f (d.set i s) + ∑ q ∈ Finset.range lam.length, lam.getD q 0 * (cf (d.set i s)).getD q 0)
      (g.getD i 0 + ∑ q ∈ Finset.range p.ncons, lam.getD q 0 * assemble val.length (fun n => di.getD n 0 = i ∧ ci.getD n 0 = q) (fun n => val.getD n 0)) (d.getD i 0) := fun i hi => by
    rw [hl]
    exact (g3 i hi).add (HasDerivAt.fun_sum fun q hq => (j3 i hi q (Finset.mem_range.1 hq)).const_mul _)
  constructor
  · rintro ⟨f', cf', h1, h2⟩ i hi
    have e : (fun s => f' (d.set i s) + ∑ q ∈ Finset.range lam.length, lam.getD q 0 * (cf' (d.set i s)).getD q 0) =
        fun s => f (d.set i s) + ∑ q ∈ Finset.range lam.length, lam.getD q 0 * (cf (d.set i s)).getD q 0 := funext fun s => by
      have hs : (d.set i s).length = p.ndec := by rw [List.length_set, hd]
      rw [Except.ok.inj ((h1 _ hs).1.symm.trans (h0 _ hs).1), Except.ok.inj ((h1 _ hs).2.1.symm.trans (h0 _ hs).2.1)]
    have := h2 i hi
    rw [e] at this
    exact (key i hi).unique this
  · intro h'
    refine ⟨f, cf, fun e he => ⟨(h0 e he).1, (h0 e he).2.1, by rw [(h0 e he).2.2, hl]⟩, fun i hi => ?_⟩
    have := key i hi
    rwa [h' i hi] at this

/-- Multipliers of all constraints from those of the defects, the path constraints and the end point constraints. -/
noncomputable def multipliers (P N nx ng nh : Nat) (lam : Nat → Nat → Nat → ℝ) (μ : Nat → Nat → ℝ) (ν : Nat → ℝ) : List ℝ :=
  (List.range (P * N * nx + (P * N + 1) * ng + nh)).map fun q =>
    if q < P * N * nx then lam (q / nx / N) (q / nx % N) (q % nx) else
    if q < P * N * nx + (P * N + 1) * ng then μ ((q - P * N * nx) / ng) ((q - P * N * nx) % ng) else ν (q - (P * N * nx + (P * N + 1) * ng))

theorem multipliers_getD {P N nx ng nh : Nat} (lam : Nat → Nat → Nat → ℝ) (μ : Nat → Nat → ℝ) (ν : Nat → ℝ) {q : Nat} (hq : q < P * N * nx + (P * N + 1) * ng + nh) :
    (multipliers P N nx ng nh lam μ ν).getD q 0 = if q < P * N * nx then lam (q / nx / N) (q / nx % N) (q % nx) else
      if q < P * N * nx + (P * N + 1) * ng then μ ((q - P * N * nx) / ng) ((q - P * N * nx) % ng) else ν (q - (P * N * nx + (P * N + 1) * ng)) := by
  rw [multipliers, List.getD_eq_getElem?_getD, List.getElem?_map, List.getElem?_range hq]
  rfl

theorem multipliers_parts {P N nx ng nh : Nat} (lam : Nat → Nat → Nat → ℝ) (μ : Nat → Nat → ℝ) (ν : Nat → ℝ) :
    (∀ k < P, ∀ j < N, ∀ a < nx, (multipliers P N nx ng nh lam μ ν).getD ((k * N + j) * nx + a) 0 = lam k j a) ∧
    (∀ r ≤ P * N, ∀ a < ng, (multipliers P N nx ng nh lam μ ν).getD (P * N * nx + r * ng + a) 0 = μ r a) ∧
    ∀ a < nh, (multipliers P N nx ng nh lam μ ν).getD (P * N * nx + (P * N + 1) * ng + a) 0 = ν a := by
  have dm : ∀ {n k j : Nat}, j < n → (k * n + j) / n = k ∧ (k * n + j) % n = j := fun {n k j} h => by
    rw [Nat.add_comm, Nat.add_mul_div_right _ _ (by omega), Nat.div_eq_of_lt h, Nat.add_mul_mod_self_right, Nat.mod_eq_of_lt h]
    simp
  refine ⟨fun k hk j hj a ha => ?_, fun r hr a ha => ?_, fun a ha => ?_⟩
  · have h1 := mul_add_lt (mul_add_lt hk hj) ha
    rw [multipliers_getD _ _ _ (by omega), if_pos h1, (dm ha).1, (dm ha).2, (dm hj).1, (dm hj).2]
  · have h1 := mul_add_lt (show r < P * N + 1 by omega) ha
    rw [multipliers_getD _ _ _ (by omega), if_neg (by omega), if_pos (by omega), show P * N * nx + r * ng + a - P * N * nx = r * ng + a by omega, (dm ha).1, (dm ha).2]
  · rw [multipliers_getD _ _ _ (by omega), if_neg (by omega), if_neg (by omega), Nat.add_sub_cancel_left]

/-- Both directions, for the cost and the constraints as functions. -/
theorem oc_principle {F : OCFunctions} {c K len : List ℝ} {J : List (List ℝ)} {P N nx nu np ng nh : Nat} {B : Nat → Nat → ℝ} (hpo : PointsOK c J N)
    (hK : ∀ q : ℝ[X], q.natDegree ≤ 2 * N - 1 → ∑ l ∈ Finset.range (N + 1), K.getD l 0 * q.eval (c.getD l 0) = integral q 0 1)
    (hpos : ∀ l ≤ N, 0 < K.getD l 0) (hB : LobattoIIIB c K N B) (hP : 1 ≤ P) (hN : 1 ≤ N)
    (lg : ∀ x u p, x.length = nx → u.length = nu → p.length = np → (F.g x u p).length = ng) (lh : ∀ xe p, xe.length = 2 * nx → p.length = np → (F.h xe p).length = nh)
    {d : List ℝ} (hdl : d.length = (P * N + 1) * (nx + nu) + np) (hpd : F.PartialsAt nx nu np ng nh (P * N) (ocX nx d) (ocU P N nx nu d) (ocP P N nx nu np d)) :
    (∀ lam : Nat → ℝ, (∀ i < d.length, HasDerivAt (fun s => ocCost F K len P N nx nu np (d.set i s) +
        ∑ q ∈ Finset.range (P * N * nx + (P * N + 1) * ng + nh), lam q * (ocConstraints F J len P N nx nu np (d.set i s)).getD q 0) 0 (d.getD i 0)) →
      ∃ before after, F.MaximumPrinciple K len B P N nx nu np ng nh (ocX nx d) (ocU P N nx nu d) (ocP P N nx nu np d) (muOf P N nx ng lam) (nuOf P N nx ng lam)
        (psiOf K J N (lamOf N nx lam)) before after) ∧
    ∀ μ ν ψ before after, F.MaximumPrinciple K len B P N nx nu np ng nh (ocX nx d) (ocU P N nx nu d) (ocP P N nx nu np d) μ ν ψ before after →
      ∃ lam : List ℝ, lam.length = P * N * nx + (P * N + 1) * ng + nh ∧ (∀ r ≤ P * N, ∀ a < ng, lam.getD (P * N * nx + r * ng + a) 0 = μ r a) ∧
        (∀ a < nh, lam.getD (P * N * nx + (P * N + 1) * ng + a) 0 = ν a) ∧
        ∀ i < d.length, HasDerivAt (fun s => ocCost F K len P N nx nu np (d.set i s) +
          ∑ q ∈ Finset.range (P * N * nx + (P * N + 1) * ng + nh), lam.getD q 0 * (ocConstraints F J len P N nx nu np (d.set i s)).getD q 0) 0 (d.getD i 0) := by
  have hPN : 1 ≤ P * N := Nat.mul_pos hP hN
  have hxl : ∀ r, (ocX nx d r).length = nx := ocX_length _ _
  have hK0 : ∀ l ≤ N, K.getD l 0 ≠ 0 := fun l hl => (hpos l hl).ne'
  constructor
  · intro lam e2
    simp only [lagrangian_eq hK0 lg lh] at e2
    obtain ⟨sx, su, sp⟩ := (entries_iff (G := lagF F K len P N nx ng nh (muOf P N nx ng lam) (nuOf P N nx ng lam) (psiOf K J N (lamOf N nx lam)) (lamOf N nx lam))
      (fun x u x' u' p hx hu => lagF_congr F K len P N nx ng nh _ _ _ _ hx hu) hdl).1 e2
    exact principle_of_stationary _ _ _ (lamOf N nx lam) hpo hK hpos hB hP hN (fun _ _ _ _ _ _ => rfl) (fun r hr b hb => (lagF_x _ _ _ _ hpd hxl hPN hr hb).unique (sx r hr b hb))
      (fun r hr b hb => (lagF_u _ _ _ _ hpd hr hb).unique (su r hr b hb)) (fun b hb => (lagF_p _ _ _ _ hpd hb).unique (sp b hb))
  · intro μ ν ψ before after hmp
    obtain ⟨lam0, hlam0⟩ : ∃ lam0 : Nat → Nat → Nat → ℝ, ∀ k j b, lam0 k j b = -(after k b - ∑ m ∈ Finset.range (j + 1), F.force K len N nx ng (ocX nx d)
      (ocU P N nx nu d) (ocP P N nx nu np d) μ ψ k m b) := ⟨_, fun _ _ _ => rfl⟩
    obtain ⟨s1, s2⟩ := stationary_of_principle μ ν ψ lam0 hpo hK hpos hB hP hN hmp (fun _ _ _ _ _ _ => hlam0 _ _ _)
    have s3 := (entries_iff (G := lagF F K len P N nx ng nh μ ν ψ lam0) (fun x u x' u' p hx hu => lagF_congr F K len P N nx ng nh μ ν ψ lam0 hx hu) hdl).2
      ⟨fun r hr b hb => (lagF_x μ ν ψ lam0 hpd hxl hPN hr hb).congr_deriv (s2 r hr b hb), fun r hr b hb => (lagF_u μ ν ψ lam0 hpd hr hb).congr_deriv (hmp.input r hr b hb),
        fun b hb => (lagF_p μ ν ψ lam0 hpd hb).congr_deriv (hmp.param b hb)⟩
    obtain ⟨m1, m2, m3⟩ := multipliers_parts (P := P) (N := N) (nx := nx) (ng := ng) (nh := nh) lam0 μ ν
    refine ⟨multipliers P N nx ng nh lam0 μ ν, by rw [multipliers]; simp, m2, m3, ?_⟩
    have hlamOf : ∀ k < P, ∀ j < N, ∀ a < nx, lamOf N nx (fun q => (multipliers P N nx ng nh lam0 μ ν).getD q 0) k j a = lam0 k j a := m1
    have e : lagF F K len P N nx ng nh (muOf P N nx ng fun q => (multipliers P N nx ng nh lam0 μ ν).getD q 0) (nuOf P N nx ng fun q => (multipliers P N nx ng nh lam0 μ ν).getD q 0)
        (psiOf K J N (lamOf N nx fun q => (multipliers P N nx ng nh lam0 μ ν).getD q 0)) (lamOf N nx fun q => (multipliers P N nx ng nh lam0 μ ν).getD q 0) =
        lagF F K len P N nx ng nh μ ν ψ lam0 := by
      refine lagF_multipliers F K len m2 m3 (fun k hk l hl b hb => ?_) hlamOf
      rw [s1 k hk l hl b hb, psiOf, psiOf]
      congr 2
      exact Finset.sum_congr rfl fun j hj => by rw [hlamOf k hk j (Finset.mem_range.1 hj) b hb]
    simp only [lagrangian_eq hK0 lg lh (fun q => (multipliers P N nx ng nh lam0 μ ν).getD q 0), e]
    exact s3

/-- **C92.** The Lagrange function of the nonlinear program made from an optimal control model is stationary at a decision vector exactly where the maximum principle holds in
discrete form: the multipliers of the path and end point constraints are those of the program, and the costates at the collocation points are weighted means of the multipliers of the
defects. -/
theorem C92_oc {A : SymArith X} {ev : X → Env → ℝ} (hA : ArithOK A ev) (U : OCUser X) (F : OCFunctions) {xn un pn : List String} {ng nh N : Nat}
    (hU : OCDenotes ev U F xn.length un.length pn.length ng nh) (hN : (N : Int) + 1 = U.order) (hN1 : 1 ≤ N) {vars : Dict String SymVar}
    (hv : ColVars vars xn un pn) {decision : List String}
    (hd : DecisionOK vars ["x", "u", "p", "xp", "up", "xe"] ["piece_len"] decision) {iter : String → List String} (hi : OrdersOK iter ocWrt) :
    ∃ c, symocInit A U iter vars decision = .ok c ∧ lglCollocation U.order = .ok c.col ∧
      ∀ codegen : SymFn X → List (NDArray ℝ) → NDArray ℝ,
      (∀ name g, Dict.get? c.model.funcs name = some g → CodegenOK ev (shapeOf c.vars) codegen g) →
      ∃ m, symocGen codegen U c = .ok m ∧
      ∀ (t : NDArray ℝ) (P : Nat), 1 ≤ P → t.shape = [P + 1] → t.WF → t.data.Pairwise (· < ·) →
      ∃ q, ocProblem m t = .ok q ∧ q.prob.ndec = (P * N + 1) * (xn.length + un.length) + pn.length ∧
      ∀ d : List ℝ, d.length = q.prob.ndec →
        F.PartialsAt xn.length un.length pn.length ng nh (P * N) (ocX xn.length d) (ocU P N xn.length un.length d) (ocP P N xn.length un.length pn.length d) →
      ∀ B, LobattoIIIB c.col.points c.col.K N B →
        (∀ lam : List ℝ, lam.length = P * N * xn.length + (P * N + 1) * ng + nh → Stationary q.prob lam d →
          ∃ ψ before after, (∀ k l b, ψ k l b = -((∑ j ∈ Finset.range N, (c.col.J.getD j []).getD l 0 * lam.getD ((k * N + j) * xn.length + b) 0) / c.col.K.getD l 0)) ∧
            F.MaximumPrinciple c.col.K (diff t.data) B P N xn.length un.length pn.length ng nh (ocX xn.length d) (ocU P N xn.length un.length d)
              (ocP P N xn.length un.length pn.length d) (fun r a => lam.getD (P * N * xn.length + r * ng + a) 0)
              (fun a => lam.getD (P * N * xn.length + (P * N + 1) * ng + a) 0) ψ before after) ∧
        ∀ μ ν ψ before after, F.MaximumPrinciple c.col.K (diff t.data) B P N xn.length un.length pn.length ng nh (ocX xn.length d) (ocU P N xn.length un.length d)
              (ocP P N xn.length un.length pn.length d) μ ν ψ before after →
          ∃ lam : List ℝ, lam.length = P * N * xn.length + (P * N + 1) * ng + nh ∧ (∀ r ≤ P * N, ∀ a < ng, lam.getD (P * N * xn.length + r * ng + a) 0 = μ r a) ∧
            (∀ a < nh, lam.getD (P * N * xn.length + (P * N + 1) * ng + a) 0 = ν a) ∧ Stationary q.prob lam d := by
  obtain ⟨c, h1, h2, h3⟩ := C70_oc hA U F hU hN hN1 hv hd hi
  refine ⟨c, h1, h2, fun codegen hcg => ?_⟩
  obtain ⟨m, s, g1, -, -, -, -, -, h4⟩ := h3 codegen hcg
  refine ⟨m, g1, fun t P hP hs hw hinc => ?_⟩
  obtain ⟨q, q1, q2, q3⟩ := h4 t P hP hs hw hinc
  refine ⟨q, q1, q2, fun d hdl hpd B hB => ?_⟩
  obtain ⟨hpo, hK⟩ := lgl_points_ok hN1 hN h2
  obtain ⟨hpos, -⟩ := lgl_weights_ok hN1 hN h2
  obtain ⟨lg, lh⟩ := oc_lengths hA hU
  obtain ⟨w1, w2⟩ := oc_principle (F := F) (len := diff t.data) hpo hK hpos hB hP hN1 lg lh (hdl.trans q2) hpd
  constructor
  · rintro lam hl ⟨f, cf, e1, e2⟩
    obtain ⟨before, after, hmp⟩ := w1 (fun q => lam.getD q 0) fun i hi' => by
      refine (e2 i (by omega)).congr_of_eventuallyEq (Filter.Eventually.of_forall fun s => ?_)
      have hs : (d.set i s).length = q.prob.ndec := by rw [List.length_set, hdl]
      dsimp only
      rw [Except.ok.inj ((e1 _ hs).1.symm.trans (q3 _ hs).1), Except.ok.inj ((e1 _ hs).2.1.symm.trans (q3 _ hs).2.1), hl]
    exact ⟨_, before, after, fun _ _ _ => rfl, hmp⟩
  · intro μ ν ψ before after hmp
    obtain ⟨lam, hl, m2, m3, m4⟩ := w2 μ ν ψ before after hmp
    refine ⟨lam, hl, m2, m3, _, _, fun e he => ⟨(q3 e he).1, (q3 e he).2.1, ?_⟩, fun i hi' => ?_⟩
    · rw [hl]
      exact (ocConstraints_parts (F := F) (J := c.col.J) (len := diff t.data) (P := P) (N := N) (d := e) lg lh).1
    · rw [hl]
      exact m4 i (by omega)

/-- The method with three points. -/
example : LobattoIIIB [0, 1 / 2, 1] [1 / 6, 2 / 3, 1 / 6] 2 fun l m => ((([[1 / 6, -(1 / 6), 0], [1 / 6, 1 / 3, 0], [1 / 6, 5 / 6, 0]] : List (List ℝ)).getD l []).getD m 0) where
  first l hl := by interval_cases l <;> rfl
  last l hl := by interval_cases l <;> rfl
  exact l hl q hq := by
    rw [Polynomial.eq_C_of_natDegree_eq_zero (by omega : q.natDegree = 0)]
    interval_cases l <;> simp [Finset.sum_range_succ, integral] <;> ring

/-! ### The pendulum -/

theorem differentiable_entry (y : List ℝ) (j i : Nat) : Differentiable ℝ fun s : ℝ => (y.set j s).getD i 0 := by
  by_cases h : j = i
  · subst h
    by_cases hj : j < y.length
    · have e : (fun s : ℝ => (y.set j s).getD j 0) = fun s => s := funext fun s => by
        rw [List.getD_eq_getElem?_getD, List.getElem?_set_self hj]
        rfl
      rw [e]
      exact differentiable_id
    · have e : (fun s : ℝ => (y.set j s).getD j 0) = fun _ => y.getD j 0 := funext fun s => by
        rw [List.set_eq_of_length_le (by omega)]
      rw [e]
      exact differentiable_const _
  · have e : (fun s : ℝ => (y.set j s).getD i 0) = fun _ => y.getD i 0 := funext fun s => by
      rw [List.getD_eq_getElem?_getD, List.getElem?_set_ne h, List.getD_eq_getElem?_getD]
    rw [e]
    exact differentiable_const _

namespace Pendulum

/-- The pendulum has all partial derivatives everywhere. -/
theorem partials (m : Nat) (x u : Nat → List ℝ) (p : List ℝ) : functions.PartialsAt 2 1 1 1 3 m x u p := by
  have D := fun y j i => differentiable_entry y j i
  constructor
  · intro r hr a ha j hj
    interval_cases a
    · exact (D _ _ _).differentiableAt
    · exact ((((D _ _ 0).sin).neg).add ((differentiable_const _).sub ((D _ _ 1).const_mul _))).differentiableAt
  · intro r hr a ha j hj
    interval_cases a
    · exact differentiableAt_const _
    · exact ((differentiable_const _).add ((D _ _ 0).sub_const _)).differentiableAt
  · intro r hr a ha j hj
    interval_cases a
    · exact differentiableAt_const _
    · exact ((differentiable_const _).add ((differentiable_const _).sub ((D _ _ 0).mul_const _))).differentiableAt
  · exact fun r hr j hj => differentiableAt_const _
  · exact fun r hr j hj => ((D _ _ 0).pow 2).differentiableAt
  · exact fun r hr j hj => differentiableAt_const _
  · intro r hr a ha j hj
    interval_cases a
    exact ((D _ _ 1).mul_const _).differentiableAt
  · intro r hr a ha j hj
    interval_cases a
    exact ((D _ _ 0).const_mul _).differentiableAt
  · intro r hr a ha j hj
    interval_cases a
    exact differentiableAt_const _
  · exact fun j hj => ((D _ _ 3).pow 2).differentiableAt
  · exact fun j hj => differentiableAt_const _
  · intro a ha j hj
    interval_cases a
    · exact (D _ _ 0).differentiableAt
    · exact (D _ _ 1).differentiableAt
    · exact ((D _ _ 2).sub_const _).differentiableAt
  · intro a ha j hj
    interval_cases a <;> exact differentiableAt_const _

theorem rowAt_zeros (n off k r : Nat) : rowAt (List.replicate n (0 : ℝ)) off k r = List.replicate k 0 := by
  refine List.ext_getElem (by simp [rowAt]) fun j h1 h2 => ?_
  simp [rowAt, List.getD_eq_getElem?_getD, List.getElem?_replicate]
  split <;> rfl

/-- At rest, hanging down and without torque, the maximum principle holds with no costates; the multipliers of the path constraint may be anything. -/
theorem at_rest (K len : List ℝ) (B : Nat → Nat → ℝ) (μ : Nat → Nat → ℝ) : functions.MaximumPrinciple K len B 2 2 2 1 1 1 3 (ocX 2 (List.replicate 16 0)) (ocU 2 2 2 1 (List.replicate 16 0))
    (ocP 2 2 2 1 1 (List.replicate 16 0)) μ (fun _ => 0) (fun _ _ _ => 0) (fun _ _ => 0) fun _ _ => 0 := by
  have hx : ∀ p b (u : List ℝ), u = [0] → ∀ r, pderiv (fun y => functions.pathTerm 1 (μ r) y u p) [0, 0] b = 0 := by
    rintro p b _ rfl r
    simp [pderiv, OCFunctions.pathTerm, functions]
  have hH : ∀ (u p y : List ℝ) b, pderiv (fun y => functions.hamiltonian 2 (fun _ => 0) y u p) y b = 0 := fun u p y b => by
    simp [pderiv, OCFunctions.hamiltonian, functions]
  have hE : ∀ p, ∀ b < 4, pderiv (fun xe => functions.endTerm 3 (fun _ => 0) xe p) [0, 0, 0, 0] b = 0 := fun p b hb => by
    interval_cases b <;> simp [pderiv, OCFunctions.endTerm, functions]
  have hf : ∀ k m b, functions.force K len 2 2 1 (ocX 2 (List.replicate 16 0)) (ocU 2 2 2 1 (List.replicate 16 0)) (ocP 2 2 2 1 1 (List.replicate 16 0)) μ (fun _ _ _ => 0) k m b = 0 := fun k m b => by
    rw [OCFunctions.force, hH, mul_zero, zero_add]
    split
    · simp only [ocX, ocU, rowAt_zeros]
      exact hx _ _ _ rfl _
    · rfl
  refine ⟨fun b hb => ?_, fun b hb => ?_, fun k hk b hb => ?_, fun k hk b hb => ?_, fun k hk l hl b hb => ?_, fun r hr b hb => ?_, fun b hb => ?_⟩
  · simp only [ocX, rowAt_zeros]
    exact (neg_eq_zero.2 (hE _ b (by omega))).symm
  · simp only [ocX, rowAt_zeros]
    exact (hE _ (2 + b) (by omega)).symm
  · simp only [ocX, ocU, rowAt_zeros]
    exact ((congrArg (0 - ·) (hx _ b (List.replicate 1 0) rfl (k * 2))).trans (sub_zero 0)).symm
  · simp only [hf, Finset.sum_const_zero, sub_zero]
  · simp only [hf, mul_zero, Finset.sum_const_zero, sub_zero]
  · interval_cases b
    have e1 : ∀ (x p : List ℝ), pderiv (fun v => functions.hamiltonian 2 (fun _ => 0) x v p) [0] 0 = 0 := fun x p => by
      simp [pderiv, OCFunctions.hamiltonian, functions]
    have e2 : ∀ p : List ℝ, pderiv (fun v => functions.pathTerm 1 (μ r) [0, 0] v p) [0] 0 = 0 := fun p => by
      simp [pderiv, OCFunctions.pathTerm, functions]
    simp only [ocX, ocU, rowAt_zeros]
    change _ + pderiv (fun v => functions.pathTerm 1 (μ r) [0, 0] v _) [0] 0 = 0
    rw [e2, add_zero]
    refine Finset.sum_eq_zero fun k _ => Finset.sum_eq_zero fun l _ => ?_
    change (if _ then _ * pderiv _ [0] 0 else _) = _
    rw [e1, mul_zero, ite_self]
  · simp [pderiv, OCFunctions.hamiltonian, OCFunctions.pathTerm, OCFunctions.endTerm, functions]

/-- All hypotheses hold for a swing-up with two pieces, at every decision vector; the pendulum at rest is a stationary point (though not a feasible one). -/
example : ∃ c, symocInit SExpr.arith user iter vars ["xe", "y"] = .ok c ∧ ∃ m, symocGen (exprCode (shapeOf c.vars)) user c = .ok m ∧
    ∃ q, ocProblem m ⟨[3], [0, 1, 3]⟩ = .ok q ∧ q.prob.ndec = 16 ∧ ∃ lam : List ℝ, lam.length = 16 ∧ lam.getD 8 0 = 7 ∧ Stationary q.prob lam (List.replicate 16 0) := by
  obtain ⟨c, h1, hcol, h3⟩ := C92_oc arith_ok user functions (xn := ["angle", "speed"]) (un := ["torque"]) (pn := ["friction"]) (N := 2) denotes rfl (by decide) vars_ok
    (decision := ["xe", "y"]) (by unfold DecisionOK; decide) iter_ok
  obtain ⟨m, g1, h4⟩ := h3 (exprCode (shapeOf c.vars)) fun _ g _ => C66_expr_code _ g
  obtain ⟨q, q1, q2, q3⟩ := h4 ⟨[3], [0, 1, 3]⟩ 2 (by decide) rfl rfl (by simp)
  obtain ⟨col, N, hcol', hN, B, hB, -⟩ := C92_coefficients (n := 3) (by decide)
  obtain rfl : N = 2 := by omega
  obtain rfl : col = c.col := Except.ok.inj (hcol'.symm.trans hcol)
  obtain ⟨lam, l1, l2, -, l3⟩ := (q3 (List.replicate 16 0) (by rw [q2]; rfl) (partials _ _ _ _) B hB).2 (fun _ _ => 7) _ _ _ _ (at_rest _ _ _ _)
  exact ⟨c, h1, m, g1, q, q1, q2, lam, l1, l2 0 (by decide) 0 (by decide), l3⟩

/-- What a solver computes from gradient and Jacobian tells the stationary points of the swing-up, everywhere. -/
example : ∃ c, symocInit SExpr.arith user iter vars ["xe", "y"] = .ok c ∧ ∃ m, symocGen (exprCode (shapeOf c.vars)) user c = .ok m ∧
    ∃ q, ocProblem m ⟨[3], [0, 1, 3]⟩ = .ok q ∧ ∀ d : List ℝ, d.length = 16 → ∃ g di ci val, q.prob.objGrad d = .ok g ∧ q.prob.constrJacInd = .ok (di, ci) ∧
      q.prob.constrJacVal d = .ok val ∧ ∀ lam : List ℝ, lam.length = q.prob.ncons → (Stationary q.prob lam d ↔
        ∀ i < q.prob.ndec, g.getD i 0 + ∑ j ∈ Finset.range q.prob.ncons, lam.getD j 0 * assemble val.length (fun n => di.getD n 0 = i ∧ ci.getD n 0 = j) (fun n => val.getD n 0) = 0) := by
  obtain ⟨c, h1, -, m, h2, h3⟩ := C70_oc_expr user total functions (xn := ["angle", "speed"]) (un := ["torque"]) (pn := ["friction"]) (N := 2) denotes rfl (by decide) vars_ok
    (decision := ["xe", "y"]) (by unfold DecisionOK; decide) iter_ok
  obtain ⟨q, q1, q2, q3⟩ := h3 ⟨[3], [0, 1, 3]⟩ 2 (by decide) rfl rfl (by simp)
  exact ⟨c, h1, m, h2, q, q1, fun d hd => C92_residual (by rw [q2]; exact hd) (q3 d (by rw [q2]; exact hd)).2.2⟩

end Pendulum
end Ceacoest
