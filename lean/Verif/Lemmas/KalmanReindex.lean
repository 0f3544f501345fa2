import Verif.Lemmas.KalmanCore

/-! # Corrections do not depend on how the outputs are indexed -/

namespace Ceacoest
open Matrix
variable {nx : Nat} {o p a b : Type} [Fintype a] [LinearOrder a] [Fintype b] [LinearOrder b]

theorem npInv_submatrix (e : b ≃o a) (A : Matrix a a ℝ) :
    npInv (A.submatrix e e) = (npInv A >>= fun B => .ok (B.submatrix e e)) := by
  unfold npInv
  have hd : (A.submatrix e e).det = A.det := det_submatrix_equiv_self e.toEquiv A
  rw [hd]
  split
  · rfl
  · exact congrArg Except.ok (inv_submatrix_equiv A e.toEquiv e.toEquiv)

omit [Fintype a] [Fintype b] in
theorem lowerSym_submatrix (e : b ≃o a) (Q : Matrix a a ℝ) : lowerSym (Q.submatrix e e) = (lowerSym Q).submatrix e e := by
  ext i j
  simp only [lowerSym, of_apply, submatrix_apply, e.le_iff_le]

theorem isChol_submatrix (e : b ≃o a) {Q L : Matrix a a ℝ} (h : IsChol Q L) : IsChol (Q.submatrix e e) (L.submatrix e e) where
  lower i j hij := h.lower _ _ (e.lt_iff_lt.2 hij)
  pos i := h.pos _
  eq := by
    rw [transpose_submatrix]
    have := submatrix_mul_equiv L Lᵀ (e : b → a) e.toEquiv (e : b → a)
    refine this.trans ?_
    rw [h.eq]

theorem cholU_submatrix (e : b ≃o a) (Q : Matrix a a ℝ) :
    cholU (Q.submatrix e e) = (cholU Q >>= fun S => .ok (S.submatrix e e)) := by
  by_cases h : ∃ L, IsChol (lowerSym Q) L
  · obtain ⟨L, hL⟩ := h
    have h1 : npCholesky Q = .ok L := (npCholesky_ok_iff Q L).2 hL
    have h2 : npCholesky (Q.submatrix e e) = .ok (L.submatrix e e) :=
      (npCholesky_ok_iff _ _).2 (by rw [lowerSym_submatrix]; exact isChol_submatrix e hL)
    unfold cholU
    rw [h1, h2]
    rfl
  · have hn : ¬(lowerSym Q).PosDef := fun hp => h (exists_isChol hp)
    have hn' : ¬(lowerSym (Q.submatrix e e)).PosDef := by
      intro hp
      obtain ⟨L, hL⟩ := exists_isChol hp
      rw [lowerSym_submatrix] at hL
      have := isChol_submatrix e.symm hL
      refine h ⟨L.submatrix e.symm e.symm, ?_⟩
      convert this using 1
      ext i j
      simp
    rw [cholU_error hn, cholU_error hn']
    rfl

theorem sum_reindex (e : b ≃o a) (g : a → ℝ) : ∑ k, g (e k) = ∑ k, g k := Equiv.sum_comp e.toEquiv g

theorem ekf_core_reindex (e : b ≃o a) (x : Fin nx → ℝ) (Px : Matrix (Fin nx) (Fin nx) ℝ) (y h : a → ℝ) (H : Matrix (Fin nx) a ℝ)
    (R : Matrix a a ℝ) : EKF.core x Px (fun j => y (e j)) (fun j => h (e j)) (fun i j => H i (e j)) (R.submatrix e e) =
      (EKF.core x Px y h H R >>= fun r => .ok (r.1, ⟨fun j => r.2.e (e j), of fun i j => r.2.Pxh i (e j), r.2.Py.submatrix e e,
        r.2.PyI.submatrix e e, of fun i j => r.2.K i (e j)⟩)) := by
  unfold EKF.core
  dsimp only
  have h1 : ((of fun y z => ∑ i, H i (e y) * (of fun i z => ∑ j, Px i j * H j (e z) : Matrix (Fin nx) b ℝ) i z) + R.submatrix e e : Matrix b b ℝ) =
      ((of fun y z => ∑ i, H i y * (of fun i z => ∑ j, Px i j * H j z : Matrix (Fin nx) a ℝ) i z) + R : Matrix a a ℝ).submatrix e e := rfl
  rw [h1, npInv_submatrix, py_bind_assoc, py_bind_assoc]
  refine py_bind_congr fun PyI _ => ?_
  simp only [py_bind_ok, py_pure, submatrix_apply, of_apply]
  refine congrArg Except.ok (Prod.ext (Prod.ext ?_ ?_) ?_)
  · funext i
    simp only [Pi.add_apply, Pi.sub_apply]
    congr 1
    rw [← sum_reindex e]
    refine Finset.sum_congr rfl fun j _ => ?_
    congr 1
    exact sum_reindex e fun k => (∑ j, Px i j * H j k) * PyI k (e j)
  · ext i j
    simp only [Matrix.sub_apply, of_apply]
    congr 1
    rw [← sum_reindex e]
    refine Finset.sum_congr rfl fun k _ => ?_
    rw [← sum_reindex e]
    refine Finset.sum_congr rfl fun l _ => ?_
    congr 1
    congr 1
    · exact sum_reindex e fun k' => (∑ j, Px i j * H j k') * PyI k' (e k)
    · exact sum_reindex e fun k' => (∑ i, Px j i * H i k') * PyI k' (e l)
  · simp only [CorrData.mk.injEq]
    refine ⟨rfl, trivial, trivial, trivial, ?_⟩
    ext i j
    exact sum_reindex e fun k' => (∑ j, Px i j * H j k') * PyI k' (e j)

omit [LinearOrder a] [LinearOrder b] [Fintype a] [Fintype b] in
theorem transform_reindex (ut : UT nx) (e : b → a) (x : Fin nx → ℝ) (Px : Matrix (Fin nx) (Fin nx) ℝ) (h : (Fin nx → ℝ) → a → ℝ) :
    ut.transform x Px (fun x j => h x (e j)) = (ut.transform x Px h >>= fun d =>
      .ok ⟨d.S, d.isigma, d.idev, fun k j => d.odev k (e j), fun j => d.mean (e j), d.Po.submatrix e e⟩) := by
  unfold UT.transform
  rw [py_bind_assoc]
  rfl

/-- What a correction saves, with the outputs renamed. -/
def UCorr.rename {ns : Nat} (e : b ≃o a) (d : UCorr nx ns p a) : UCorr nx ns p b where
  e j := d.e (e j)
  Pxh := of fun i j => d.Pxh i (e j)
  Py := d.Py.submatrix e e
  PyI := d.PyI.submatrix e e
  K := of fun i j => d.K i (e j)
  PyC := d.PyC.submatrix e e
  ut := ⟨d.ut.S, d.ut.isigma, d.ut.idev, fun k j => d.ut.odev k (e j), fun j => d.ut.mean (e j), d.ut.Po.submatrix e e⟩

theorem ukf_core_reindex (cut : UT nx) (e : b ≃o a) (x : Fin nx → ℝ) (Px : Matrix (Fin nx) (Fin nx) ℝ) (y : a → ℝ) (h : (Fin nx → ℝ) → a → ℝ)
    (R : Matrix a a ℝ) : UKF.core (p := p) cut x Px (fun j => y (e j)) (fun x j => h x (e j)) (R.submatrix e e) =
      (UKF.core (p := p) cut x Px y h R >>= fun r => .ok (r.1, r.2.rename e)) := by
  unfold UKF.core
  dsimp only
  rw [transform_reindex, py_bind_assoc, py_bind_assoc]
  refine py_bind_congr fun d _ => ?_
  rw [py_bind_ok]
  have h1 : (d.Po.submatrix e e + R.submatrix e e : Matrix b b ℝ) = (d.Po + R).submatrix e e := rfl
  rw [h1, cholU_submatrix, py_bind_assoc, py_bind_assoc]
  refine py_bind_congr fun PyC _ => ?_
  rw [py_bind_ok, npInv_submatrix, py_bind_assoc, py_bind_assoc]
  refine py_bind_congr fun PyCI _ => ?_
  simp only [py_bind_ok, py_pure, submatrix_apply, of_apply]
  have hI : ∀ i j, ∑ k, PyCI (e i) (e k) * PyCI (e j) (e k) = ∑ k, PyCI (e i) k * PyCI (e j) k := fun i j =>
    sum_reindex e fun k => PyCI (e i) k * PyCI (e j) k
  simp only [hI]
  have hK : ∀ i j, ∑ k, (∑ l, d.idev l i * d.odev l (e k) * cut.weights l) * ∑ l, PyCI (e k) l * PyCI (e j) l =
      ∑ k, (∑ l, d.idev l i * d.odev l k * cut.weights l) * ∑ l, PyCI k l * PyCI (e j) l := fun i j =>
    sum_reindex e fun k => (∑ l, d.idev l i * d.odev l k * cut.weights l) * ∑ l, PyCI k l * PyCI (e j) l
  simp only [UT.crosscov, of_apply, hK]
  refine congrArg Except.ok (Prod.ext (Prod.ext ?_ ?_) ?_)
  · funext i
    simp only [Pi.add_apply, Pi.sub_apply]
    congr 1
    exact sum_reindex e fun j => (∑ k, (∑ l, d.idev l i * d.odev l k * cut.weights l) * ∑ l, PyCI k l * PyCI j l) * (y j - d.mean j)
  · ext i j
    simp only [Matrix.sub_apply, of_apply]
    congr 1
    let G : Fin nx → a → ℝ := fun i j => ∑ k, (∑ l, d.idev l i * d.odev l k * cut.weights l) * ∑ l, PyCI k l * PyCI j l
    refine Eq.trans ?_ (sum_reindex e fun k => ∑ l, G i k * G j l * (d.Po + R) k l)
    exact Finset.sum_congr rfl fun k _ => sum_reindex e fun l => G i (e k) * G j l * (d.Po + R) (e k) l
  · unfold UCorr.rename
    simp only [of_apply]
    congr 1

end Ceacoest
