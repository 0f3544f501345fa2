import Verif.Lemmas.Grad
import Verif.NumPy.Basic

/-! # Gradients of vectors and of matrices -/

namespace Ceacoest.Spec
open Matrix Filter Topology
variable {p l m n : Type} [Fintype p] [Fintype l] [Fintype m] [Fintype n] {q : p → ℝ}

/-- Gradients of the entries of a vector. -/
def VGrad (F : (p → ℝ) → n → ℝ) (dF : p → n → ℝ) (q : p → ℝ) : Prop := ∀ i, HasGrad (fun q => F q i) (fun a => dF a i) q

/-- Gradients of the entries of a matrix. -/
def MGrad (F : (p → ℝ) → Matrix m n ℝ) (dF : p → Matrix m n ℝ) (q : p → ℝ) : Prop := ∀ i j, HasGrad (fun q => F q i j) (fun a => dF a i j) q

section
variable {F G : (p → ℝ) → n → ℝ} {dF dG : p → n → ℝ}

omit [Fintype n] in
theorem VGrad.congr (h : VGrad F dF q) (e : G =ᶠ[𝓝 q] F) : VGrad G dF q := fun i => (h i).congr (e.mono fun _ h => congrFun h i)

omit [Fintype n] in
theorem VGrad.congr_grad (h : VGrad F dF q) (e : ∀ a, dG a = dF a) : VGrad F dG q := fun i => (h i).congr_grad fun a => by rw [e]

omit [Fintype n] in
theorem VGrad.add (h : VGrad F dF q) (h' : VGrad G dG q) : VGrad (fun q => F q + G q) (fun a => dF a + dG a) q := fun i => (h i).add (h' i)

omit [Fintype n] in
theorem VGrad.sub (h : VGrad F dF q) (h' : VGrad G dG q) : VGrad (fun q => F q - G q) (fun a => dF a - dG a) q := fun i => (h i).sub (h' i)

omit [Fintype n] in
theorem VGrad.neg (h : VGrad F dF q) : VGrad (fun q => -F q) (fun a => -dF a) q := fun i => (h i).neg

omit [Fintype n] in
theorem vgrad_const (v : n → ℝ) : VGrad (fun _ : p → ℝ => v) (fun _ => 0) q := fun i => hasGrad_const _

theorem VGrad.dot (h : VGrad F dF q) (h' : VGrad G dG q) : HasGrad (fun q => F q ⬝ᵥ G q) (fun a => F q ⬝ᵥ dG a + dF a ⬝ᵥ G q) q := by
  refine (hasGrad_sum Finset.univ fun i _ => (h i).mul (h' i)).congr_grad fun a => ?_
  rw [Finset.sum_add_distrib]
  rfl

end

section
variable {F G : (p → ℝ) → Matrix m n ℝ} {dF dG : p → Matrix m n ℝ}

omit [Fintype m] [Fintype n] in
theorem MGrad.congr (h : MGrad F dF q) (e : G =ᶠ[𝓝 q] F) : MGrad G dF q := fun i j => (h i j).congr (e.mono fun _ h => congrFun (congrFun h i) j)

omit [Fintype m] [Fintype n] in
theorem MGrad.congr_grad (h : MGrad F dF q) (e : ∀ a, dG a = dF a) : MGrad F dG q := fun i j => (h i j).congr_grad fun a => by rw [e]

omit [Fintype m] [Fintype n] in
theorem MGrad.add (h : MGrad F dF q) (h' : MGrad G dG q) : MGrad (fun q => F q + G q) (fun a => dF a + dG a) q := fun i j => (h i j).add (h' i j)

omit [Fintype m] [Fintype n] in
theorem MGrad.sub (h : MGrad F dF q) (h' : MGrad G dG q) : MGrad (fun q => F q - G q) (fun a => dF a - dG a) q := fun i j => (h i j).sub (h' i j)

omit [Fintype m] [Fintype n] in
theorem MGrad.neg (h : MGrad F dF q) : MGrad (fun q => -F q) (fun a => -dF a) q := fun i j => (h i j).neg

omit [Fintype m] [Fintype n] in
theorem MGrad.transpose (h : MGrad F dF q) : MGrad (fun q => (F q)ᵀ) (fun a => (dF a)ᵀ) q := fun i j => h j i

omit [Fintype m] in
theorem MGrad.mul {G : (p → ℝ) → Matrix n l ℝ} {dG : p → Matrix n l ℝ} (h : MGrad F dF q) (h' : MGrad G dG q) :
    MGrad (fun q => F q * G q) (fun a => F q * dG a + dF a * G q) q := by
  intro i j
  refine (hasGrad_sum Finset.univ fun k _ => (h i k).mul (h' k j)).congr_grad fun a => ?_
  rw [Finset.sum_add_distrib]
  rfl

omit [Fintype m] in
theorem MGrad.mulVec {G : (p → ℝ) → n → ℝ} {dG : p → n → ℝ} (h : MGrad F dF q) (h' : VGrad G dG q) :
    VGrad (fun q => F q *ᵥ G q) (fun a => F q *ᵥ dG a + dF a *ᵥ G q) q := by
  intro i
  refine (hasGrad_sum Finset.univ fun k _ => (h i k).mul (h' k)).congr_grad fun a => ?_
  rw [Finset.sum_add_distrib]
  rfl

omit [Fintype m] [Fintype n] in
theorem MGrad.unique (h : MGrad F dF q) (h' : MGrad F dG q) : dF = dG := by
  funext a
  ext i j
  exact congrFun ((h i j).unique (h' i j)) a

omit [Fintype m] in
/-- The derivatives of symmetric matrices are symmetric. -/
theorem MGrad.symm {F : (p → ℝ) → Matrix m m ℝ} {dF : p → Matrix m m ℝ} (h : MGrad F dF q) (e : ∀ᶠ q in 𝓝 q, (F q)ᵀ = F q) (a : p) :
    (dF a)ᵀ = dF a := by
  have h1 : MGrad F (fun a => (dF a)ᵀ) q := h.transpose.congr (e.mono fun q h => h.symm)
  exact congrFun (h1.unique h) a

theorem MGrad.inv [DecidableEq n] {F : (p → ℝ) → Matrix n n ℝ} {dF : p → Matrix n n ℝ} (h : MGrad F dF q) (h0 : (F q).det ≠ 0) :
    MGrad (fun q => (F q)⁻¹) (fun a => -((F q)⁻¹ * dF a * (F q)⁻¹)) q := hasGrad_inv h h0

end

/-- A choice of results. -/
theorem choose_ok {α : Type} {F : (p → ℝ) → Py α} (h : ∀ᶠ q in 𝓝 q, ∃ r, F q = .ok r) : ∃ r : (p → ℝ) → α, ∀ᶠ q in 𝓝 q, F q = .ok (r q) := by
  classical
  obtain ⟨r₀, -⟩ := h.self_of_nhds
  refine ⟨fun q => if h : ∃ r, F q = .ok r then h.choose else r₀, h.mono fun q hq => ?_⟩
  dsimp only
  rw [dif_pos hq]
  exact hq.choose_spec

end Ceacoest.Spec
