import Verif.Lemmas.NoisePath
import Verif.Props.ConvergenceOEM
import Verif.Props.TranscriptionJMEExpr

/-! # C107: in joint MAP problems the noise determines the states and the states determine the noise -/

namespace Ceacoest
open Polynomial Spec RK
variable {X : Type}

theorem jme_defects {F : JMEFunctions} {J jt : List (List ℝ)} {t u G : List ℝ} {P N nx nu nw np : Nat} (hl : t.length = P + 1) (d : List ℝ) :
    (∀ a ∈ (List.range P).flatMap (jmeDefects F J jt (diff t) u G P N nx nu nw np d), a = 0) ↔
      ∀ i < P, ∀ a ∈ defects J (fun l => noisyRhs (F.f (rowAt d 0 nx (i * N + l)) (rowAt u 0 nu (i * N + l)) (jmeP P N nx nw np d))
        (noiseAt jt (jmeW P N nx nw d i) N nw l) (rowAt G 0 nw) nx nw) (fun l => rowAt d 0 nx (i * N + l)) N nx 0 (t.getD (i + 1) 0 - t.getD i 0), a = 0 := by
  rw [flatMap_all_zero]
  refine forall₂_congr fun i hi => ?_
  rw [jmeDefects, diff_getD (by omega)]

theorem noisyRhs_lipschitz {f : List ℝ → List ℝ} {w : List ℝ} {G : Nat → List ℝ} {nx nw : Nat} {S : Set (List ℝ)} {Lip : ℝ} (h : LipschitzOn f S nx nx Lip) :
    LipschitzOn (fun x => noisyRhs (f x) w G nx nw) S nx nx Lip := by
  intro x hx x' hx' E hE j hj
  have e : ∀ a : List ℝ, (noisyRhs a w G nx nw).getD j 0 = a.getD j 0 + ∑ b ∈ Finset.range nw, w.getD b 0 * (G j).getD b 0 := fun a => by
    rw [noisyRhs, List.getD_eq_getElem?_getD, List.getElem?_map, List.getElem?_range hj]
    rfl
  simp only [e, add_sub_add_right_eq_sub]
  exact h x hx x' hx' E hE j hj

theorem point_le {P N i l : Nat} (hi : i < P) (hl : l ≤ N) : i * N + l ≤ P * N := by
  have : (i + 1) * N ≤ P * N := Nat.mul_le_mul_right _ hi
  rw [Nat.add_mul] at this
  omega

/-- **C107.** Joint MAP problems.
 * For right hand sides that are Lipschitz continuous in the states and short pieces, given initial states, parameters and noise coordinates belong to exactly one
   decision vector without defects.
 * Given states and parameters belong to a decision vector without defects if and only if the parts of the changes of the states that the drift leaves unexplained are
   combinations of the columns of `G`; if these are independent, it is the only one.
 * For every noise path `w` there is exactly one vector of noise coordinates with the increments of `w`; the states that belong to it are those of the solution of the
   differential equation with that noise, up to `errorBound`. -/
theorem C107_noise {A : SymArith X} {ev : X → Env → ℝ} (hA : ArithOK A ev) (U : JMEUser X) (F : JMEFunctions) {xn un pn yn : List String} {N nw : Nat}
    (hU : JMEDenotes A ev U F xn.length un.length pn.length yn.length) (hN : (N : Int) + 1 = U.order) (hN1 : 1 ≤ N)
    (hjt : U.jtRange.length = N + 1 ∧ ∀ r ∈ U.jtRange, r.length = N)
    (hV : ∀ col, lglCollocation U.order = .ok col → IsOrth (col.Jm N).transpose (rangeMat U.jtRange N)) {vars : Dict String SymVar}
    (hv : ColVars vars xn un pn) (hy : Dict.get? vars "y" = some (.vec yn)) {Gv : SymVar} (hGv : Dict.get? vars "G" = some Gv)
    (hGs : Gv.shape = [xn.length, nw]) {decision : List String}
    (hd : DecisionOK vars ["x", "p", "xp", "wc"] ["y", "u", "up", "piece_len", "G", "penweight"] decision)
    {iter : String → List String} (hi : OrdersOK iter jmeWrt) (G : NDArray ℝ) (hG : G.WF ∧ G.shape = [xn.length, nw])
    (penweight : Option (NDArray ℝ)) (hw : U.usePenalty = true → ∃ w, penweight = some w ∧ w.WF ∧ w.shape = [xn.length]) :
    ∃ c, symjmeInit A U iter vars decision = .ok c ∧ lglCollocation U.order = .ok c.col ∧ ∀ codegen : SymFn X → List (NDArray ℝ) → NDArray ℝ,
      (∀ name g, Dict.get? c.model.funcs name = some g → CodegenOK ev (shapeOf c.vars) codegen g) →
      ∃ m, symjmeGen codegen U G penweight c = .ok m ∧ m.collocationOrder = U.order ∧ m.nu = un.length ∧ m.ny = yn.length ∧
      ∀ (t : NDArray ℝ) (y : MaskedArray) (u : UArg) (ua : NDArray ℝ) (P : Nat), OEMInput m.toOEMModel t y P → InputsOK m.toOEMModel t u ua →
      ∃ q, jmeProblem m t y u = .ok q ∧ q.prob.ndec = (P * N + 1) * xn.length + P * N * nw + pn.length ∧
        (∀ (x0 p : List ℝ) (W : Nat → List ℝ) (Lip : ℝ), x0.length = xn.length → p.length = pn.length → (∀ r, (W r).length = nw) → 0 ≤ Lip →
          (∀ r ≤ P * N, LipschitzOn (F.f · (rowAt ua.data 0 un.length r) p) {x | x.length = xn.length} xn.length xn.length Lip) → FineMesh c.col.J N t.data P Lip →
          ∃! d : List ℝ, d.length = q.prob.ndec ∧ rowAt d 0 xn.length 0 = x0 ∧ (∀ i < P, ∀ k < N, jmeW P N xn.length nw d i k = W (i * N + k)) ∧
            jmeP P N xn.length nw pn.length d = p ∧ ∃ cv, q.prob.constr d = .ok cv ∧ ∀ a ∈ cv, a = 0) ∧
        (∀ (x : Nat → List ℝ) (p : List ℝ), (∀ r, (x r).length = xn.length) → p.length = pn.length →
          ((∃ d : List ℝ, d.length = q.prob.ndec ∧ (∀ r ≤ P * N, rowAt d 0 xn.length r = x r) ∧ jmeP P N xn.length nw pn.length d = p ∧
              ∃ cv, q.prob.constr d = .ok cv ∧ ∀ a ∈ cv, a = 0) ↔
            ∀ i < P, ∀ k < N, InColumns (rowAt G.data 0 nw) xn.length nw (stateResidual c.col.J (fun l => F.f (x (i * N + l)) (rowAt ua.data 0 un.length (i * N + l)) p)
              (fun l => x (i * N + l)) N (t.data.getD (i + 1) 0 - t.data.getD i 0) k)) ∧
          (IndependentColumns (rowAt G.data 0 nw) xn.length nw → ∀ d d' : List ℝ, d.length = q.prob.ndec → d'.length = q.prob.ndec →
            (∀ r ≤ P * N, rowAt d 0 xn.length r = x r) → (∀ r ≤ P * N, rowAt d' 0 xn.length r = x r) →
            jmeP P N xn.length nw pn.length d = p → jmeP P N xn.length nw pn.length d' = p →
            (∃ cv, q.prob.constr d = .ok cv ∧ ∀ a ∈ cv, a = 0) → (∃ cv, q.prob.constr d' = .ok cv ∧ ∀ a ∈ cv, a = 0) → d = d')) ∧
        ∀ (z v w : ℝ → List ℝ) (p : List ℝ) (δ : Nat → ℝ) (Lip : ℝ), (∀ s, (z s).length = xn.length) → (∀ s, (w s).length = nw) → p.length = pn.length → 0 ≤ Lip →
          (∀ r ≤ P * N, LipschitzOn (F.f · (rowAt ua.data 0 un.length r) p) {x | x.length = xn.length} xn.length xn.length Lip) → FineMesh c.col.J N t.data P Lip →
          (∀ i < P, ∀ s ∈ pieceOf t.data i, ∀ j < xn.length,
            HasDerivWithinAt (fun s => (z s).getD j 0) ((noisyRhs (F.f (z s) (v s) p) (w s) (rowAt G.data 0 nw) xn.length nw).getD j 0) (pieceOf t.data i) s) →
          (∀ i < P, ∀ l ≤ N, v (pointTime t.data c.col.points i l) = rowAt ua.data 0 un.length (i * N + l)) →
          (∀ j < xn.length, NearPoly t.data P N δ fun s => (noisyRhs (F.f (z s) (v s) p) (w s) (rowAt G.data 0 nw) xn.length nw).getD j 0) →
          ∃! d : List ℝ, d.length = q.prob.ndec ∧ rowAt d 0 xn.length 0 = z (t.data.getD 0 0) ∧ jmeP P N xn.length nw pn.length d = p ∧
            (∀ i < P, ∀ k < N, ∀ b < nw, increment c.col.J (noiseAt U.jtRange (jmeW P N xn.length nw d i) N nw) N k b =
              increment c.col.J (fun l => w (pointTime t.data c.col.points i l)) N k b) ∧
            (∃ cv, q.prob.constr d = .ok cv ∧ ∀ a ∈ cv, a = 0) ∧
            ∀ i < P, ∀ l ≤ N, ∀ j < xn.length,
              |(rowAt d 0 xn.length (i * N + l)).getD j 0 - (z (pointTime t.data c.col.points i l)).getD j 0| ≤ errorBound c.col.J N Lip t.data δ 0 i := by
  obtain ⟨c, h1, h2, h3⟩ := C70_jme hA U F hU hN hN1 hjt hv hy hGv hGs hd hi G hG penweight hw
  refine ⟨c, h1, h2, fun codegen hcg => ?_⟩
  obtain ⟨m, s, g1, g2, -, g4, -, g6, -, h4⟩ := h3 codegen hcg
  refine ⟨m, g1, g2, g4, g6, fun t y u ua P hin hua => ?_⟩
  obtain ⟨q, rows, q1, -, q2, q3⟩ := h4 t y u ua P hin hua
  have hl : t.data.length = P + 1 := by rw [hin.twf, hin.tshape]; simp
  have hP := hin.pieces
  have ht := pairwise_getD hl hin.tinc
  obtain ⟨hpo, -⟩ := lgl_points_ok hN1 hN h2
  obtain ⟨sol, uni⟩ := noise_coordinates (lgl_colOK hN1 hN h2) (hV c.col h2)
  -- feasibility of a decision vector
  have feas : ∀ d : List ℝ, d.length = q.prob.ndec → ((∃ cv, q.prob.constr d = .ok cv ∧ ∀ a ∈ cv, a = 0) ↔
      ∀ i < P, ∀ a ∈ defects c.col.J (fun l => noisyRhs (F.f (rowAt d 0 xn.length (i * N + l)) (rowAt ua.data 0 un.length (i * N + l)) (jmeP P N xn.length nw pn.length d))
        (noiseAt U.jtRange (jmeW P N xn.length nw d i) N nw l) (rowAt G.data 0 nw) xn.length nw) (fun l => rowAt d 0 xn.length (i * N + l)) N xn.length 0
        (t.data.getD (i + 1) 0 - t.data.getD i 0), a = 0) := fun d hdl => by
    rw [← jme_defects hl]
    constructor
    · rintro ⟨cv, e, h⟩
      obtain rfl := Except.ok.inj ((q3 d hdl).2.1.symm.trans e)
      exact h
    · exact fun h => ⟨_, (q3 d hdl).2.1, h⟩
  have first : ∀ (x0 p : List ℝ) (W : Nat → List ℝ) (Lip : ℝ), x0.length = xn.length → p.length = pn.length → (∀ r, (W r).length = nw) → 0 ≤ Lip →
      (∀ r ≤ P * N, LipschitzOn (F.f · (rowAt ua.data 0 un.length r) p) {x | x.length = xn.length} xn.length xn.length Lip) → FineMesh c.col.J N t.data P Lip →
      ∃! d : List ℝ, d.length = q.prob.ndec ∧ rowAt d 0 xn.length 0 = x0 ∧ (∀ i < P, ∀ k < N, jmeW P N xn.length nw d i k = W (i * N + k)) ∧
        jmeP P N xn.length nw pn.length d = p ∧ ∃ cv, q.prob.constr d = .ok cv ∧ ∀ a ∈ cv, a = 0 := by
    intro x0 p W Lip hx0 hp hW hLip hL hq
    set φ : Nat → Nat → List ℝ → List ℝ := fun i l x => noisyRhs (F.f x (rowAt ua.data 0 un.length (i * N + l)) p)
      (noiseAt U.jtRange (fun k => W (i * N + k)) N nw l) (rowAt G.data 0 nw) xn.length nw with hφ
    have hL' : ∀ i < P, ∀ l ≤ N, LipschitzOn (φ i l) {x | x.length = xn.length} xn.length xn.length Lip := fun i hi l hl => noisyRhs_lipschitz (hL _ (point_le hi hl))
    have same : ∀ d : List ℝ, (∀ i < P, ∀ k < N, jmeW P N xn.length nw d i k = W (i * N + k)) → jmeP P N xn.length nw pn.length d = p → d.length = q.prob.ndec →
        ((∃ cv, q.prob.constr d = .ok cv ∧ ∀ a ∈ cv, a = 0) ↔ ∀ i < P, ∀ a ∈ defects c.col.J (fun l => φ i l (rowAt d 0 xn.length (i * N + l)))
          (fun l => rowAt d 0 xn.length (i * N + l)) N xn.length 0 (t.data.getD (i + 1) 0 - t.data.getD i 0), a = 0) := fun d e1 e2 e3 => by
      rw [feas d e3, e2]
      refine forall₂_congr fun i hi => ?_
      rw [defects_rows (rhs' := fun l => φ i l (rowAt d 0 xn.length (i * N + l))) (x' := fun l => rowAt d 0 xn.length (i * N + l)) (fun l _ => ?_) fun l _ => rfl]
      rw [hφ, noiseAt_congr (e1 i hi)]
    obtain ⟨x, hxl, hx0', hxd⟩ := states_exist c.col.J (N := N) (φ := φ) ht hLip hq hL' hx0
    obtain ⟨d, d1, d2, d3, d4⟩ := jme_vector (x := x) (W := W) P N (fun r _ => hxl r) (fun r _ => hW r) hp
    have d3' : ∀ i < P, ∀ k < N, jmeW P N xn.length nw d i k = W (i * N + k) := fun i hi k hk => d3 _ (mul_add_lt hi hk)
    have d1' : d.length = q.prob.ndec := d1.trans q2.symm
    refine ⟨d, ⟨d1', by rw [d2 0 (Nat.zero_le _), hx0'], d3', d4, (same d d3' d4 d1').2 fun i hi a ha => ?_⟩, ?_⟩
    · refine hxd i hi a ?_
      rwa [defects_rows (rhs' := fun l => φ i l (x (i * N + l))) (x' := fun l => x (i * N + l)) (fun l hl => by rw [d2 _ (point_le hi hl)])
        fun l hl => d2 _ (point_le hi hl)] at ha
    · rintro d' ⟨e1, e2, e3, e4, e5⟩
      have hxx := states_unique hpo hP ht (φ := φ) ((same d' e3 e4 e1).1 e5) hxd hLip hq hL' (fun r _ => rowAt_length ..) (fun r _ => hxl r) (by rw [e2, hx0'])
      refine jme_ext (e1.trans q2) d1 (fun r hr => (hxx r hr).trans (d2 r hr).symm) (fun r hr => ?_) (e4.trans d4.symm)
      obtain ⟨hk, hj⟩ : r / N < P ∧ r % N < N := ⟨Nat.div_lt_of_lt_mul (by rwa [Nat.mul_comm]), Nat.mod_lt _ (by omega)⟩
      have := (e3 _ hk _ hj).trans (d3' _ hk _ hj).symm
      simp only [jmeW, Nat.div_add_mod' r N] at this
      exact this
  refine ⟨q, q1, q2, first, fun x p hx hp => ⟨⟨?_, fun hr => ?_⟩, ?_⟩, ?_⟩
  · rintro ⟨d, d1, d2, d3, d4⟩ i hi k hk
    have := noisy_defects.1 ((feas d d1).1 d4 i hi)
    refine ⟨fun b => (t.data.getD (i + 1) 0 - t.data.getD i 0) * increment c.col.J (noiseAt U.jtRange (jmeW P N xn.length nw d i) N nw) N k b, fun j hj => ?_⟩
    rw [← this j hj k hk, d3]
    simp only [stateResidual]
    rw [d2 _ (point_le hi (by omega)), d2 _ (point_le hi (by omega))]
    congr 2
    refine Finset.sum_congr rfl fun l hl => ?_
    rw [d2 _ (point_le hi (by have := Finset.mem_range.1 hl; omega))]
  · have hlen : ∀ i < P, t.data.getD (i + 1) 0 - t.data.getD i 0 ≠ 0 := fun i hi => (sub_pos.2 (ht i hi)).ne'
    choose! a ha using hr
    choose g hg using fun i b => sol fun k => a i k b / (t.data.getD (i + 1) 0 - t.data.getD i 0)
    obtain ⟨d, d1, d2, d3, d4⟩ := jme_vector (x := x) (W := fun r => (List.range nw).map fun b => g (r / N) b (r % N)) P N (nw := nw) (fun r _ => hx r) (fun r _ => by simp) hp
    have d1' : d.length = q.prob.ndec := d1.trans q2.symm
    refine ⟨d, d1', d2, d4, (feas d d1').2 fun i hi => noisy_defects.2 fun j hj k hk => ?_⟩
    have e1 : stateResidual c.col.J (fun l => F.f (rowAt d 0 xn.length (i * N + l)) (rowAt ua.data 0 un.length (i * N + l)) (jmeP P N xn.length nw pn.length d))
        (fun l => rowAt d 0 xn.length (i * N + l)) N (t.data.getD (i + 1) 0 - t.data.getD i 0) k j =
        stateResidual c.col.J (fun l => F.f (x (i * N + l)) (rowAt ua.data 0 un.length (i * N + l)) p) (fun l => x (i * N + l)) N (t.data.getD (i + 1) 0 - t.data.getD i 0) k j := by
      rw [d4]
      simp only [stateResidual]
      rw [d2 _ (point_le hi (by omega)), d2 _ (point_le hi (by omega))]
      congr 2
      refine Finset.sum_congr rfl fun l hl => ?_
      rw [d2 _ (point_le hi (by have := Finset.mem_range.1 hl; omega))]
    rw [e1, ha i hi k hk j hj]
    refine Finset.sum_congr rfl fun b hb => ?_
    have hb := Finset.mem_range.1 hb
    have e2 : increment c.col.J (noiseAt U.jtRange (jmeW P N xn.length nw d i) N nw) N k b = a i k b / (t.data.getD (i + 1) 0 - t.data.getD i 0) := by
      rw [← hg i b k hk, increment]
      refine Finset.sum_congr rfl fun l _ => ?_
      rw [noiseAt_entry hb]
      congr 1
      refine Finset.sum_congr rfl fun m hm => ?_
      have hm := Finset.mem_range.1 hm
      rw [jmeW, d3 _ (mul_add_lt hi hm), mul_add_div' hm, mul_add_mod'' hm]
      congr 1
      rw [getD_of_lt _ _ (by simpa using hb)]
      simp
    rw [e2, mul_div_cancel₀ _ (hlen i hi)]
  · intro hc d d' d1 d1' d2 d2' d3 d3' d4 d4'
    refine jme_ext (d1.trans q2) (d1'.trans q2) (fun r hr => (d2 r hr).trans (d2' r hr).symm) (fun r hr => ?_) (d3.trans d3'.symm)
    obtain ⟨hi, hm⟩ : r / N < P ∧ r % N < N := ⟨Nat.div_lt_of_lt_mul (by rwa [Nat.mul_comm]), Nat.mod_lt _ (by omega)⟩
    have k1 := noisy_defects.1 ((feas d d1).1 d4 _ hi)
    have k2 := noisy_defects.1 ((feas d' d1').1 d4' _ hi)
    have hlen : t.data.getD (r / N + 1) 0 - t.data.getD (r / N) 0 ≠ 0 := (sub_pos.2 (ht _ hi)).ne'
    have inc : ∀ k < N, ∀ b < nw, increment c.col.J (noiseAt U.jtRange (jmeW P N xn.length nw d (r / N)) N nw) N k b =
        increment c.col.J (noiseAt U.jtRange (jmeW P N xn.length nw d' (r / N)) N nw) N k b := fun k hk b hb => by
      have := hc (fun b => (t.data.getD (r / N + 1) 0 - t.data.getD (r / N) 0) * increment c.col.J (noiseAt U.jtRange (jmeW P N xn.length nw d (r / N)) N nw) N k b -
        (t.data.getD (r / N + 1) 0 - t.data.getD (r / N) 0) * increment c.col.J (noiseAt U.jtRange (jmeW P N xn.length nw d' (r / N)) N nw) N k b) (fun j hj => by
        simp only [mul_sub]
        rw [Finset.sum_sub_distrib, ← k1 j hj k hk, ← k2 j hj k hk, d3, d3', sub_eq_zero]
        simp only [stateResidual]
        rw [d2 _ (point_le hi (by omega)), d2 _ (point_le hi (by omega)), d2' _ (point_le hi (by omega)), d2' _ (point_le hi (by omega))]
        congr 2
        refine Finset.sum_congr rfl fun l hl => ?_
        rw [d2 _ (point_le hi (by have := Finset.mem_range.1 hl; omega)), d2' _ (point_le hi (by have := Finset.mem_range.1 hl; omega))]) b hb
      exact mul_left_cancel₀ hlen (sub_eq_zero.1 this)
    refine List.ext_getElem (by simp [rowAt]) fun b hb1 hb2 => ?_
    have hb : b < nw := by simpa [rowAt] using hb1
    have := uni (fun m => (jmeW P N xn.length nw d (r / N) m).getD b 0) (fun m => (jmeW P N xn.length nw d' (r / N) m).getD b 0) (fun k hk => by
      have := inc k hk b hb
      simp only [increment, noiseAt_entry hb] at this
      exact this) _ hm
    simp only [jmeW, Nat.div_add_mod' r N] at this
    rwa [getD_of_lt _ _ hb1, getD_of_lt _ _ hb2] at this
  · intro z v w p δ Lip hzl hwl hp hLip hL hq hode hvu hδ
    choose g hg using fun i b => sol fun k => increment c.col.J (fun l => w (pointTime t.data c.col.points i l)) N k b
    obtain ⟨d, ⟨d1, d2, d3, d4, d5⟩, huniq⟩ := first (z (t.data.getD 0 0)) p (fun r => (List.range nw).map fun b => g (r / N) b (r % N)) Lip (hzl _) hp (fun r => by simp) hLip hL hq
    have hrow : ∀ i, ∀ m < N, ∀ b < nw, ((fun r => (List.range nw).map fun b => g (r / N) b (r % N)) (i * N + m)).getD b 0 = g i b m := fun i m hm b hb => by
      dsimp only
      rw [mul_add_div' hm, mul_add_mod'' hm, getD_of_lt _ _ (by simpa using hb)]
      simp
    have hinc : ∀ i < P, ∀ k < N, ∀ b < nw, increment c.col.J (noiseAt U.jtRange (jmeW P N xn.length nw d i) N nw) N k b =
        increment c.col.J (fun l => w (pointTime t.data c.col.points i l)) N k b := fun i hi k hk b hb => by
      rw [← hg i b k hk, increment]
      refine Finset.sum_congr rfl fun l _ => ?_
      rw [noiseAt_entry hb]
      congr 1
      refine Finset.sum_congr rfl fun m hm => ?_
      have hm := Finset.mem_range.1 hm
      rw [d3 i hi m hm, hrow i m hm b hb]
    refine ⟨d, ⟨d1, d2, d4, hinc, d5, ?_⟩, ?_⟩
    · refine states_error hpo ht (x := rowAt d 0 xn.length) (φ := fun i l x => noisyRhs (F.f x (rowAt ua.data 0 un.length (i * N + l)) p) (w (pointTime t.data c.col.points i l))
        (rowAt G.data 0 nw) xn.length nw) (fun i hi => noisy_defects.2 fun j hj k hk => ?_) (z := z)
        (w := fun _ j s => (noisyRhs (F.f (z s) (v s) p) (w s) (rowAt G.data 0 nw) xn.length nw).getD j 0) (fun i hi j hj s hs => hode i hi s hs j hj)
        (fun i hi l hl j hj => by rw [hvu i hi l hl]) (fun i hi j hj => hδ j hj i hi) hLip hq (fun i hi l hl => noisyRhs_lipschitz (hL _ (point_le hi hl)))
        (fun i _ l _ => rowAt_length ..) (fun i _ l _ => hzl _) (e0 := 0) (fun j _ => by rw [d2]; simp)
      have := noisy_defects.1 ((feas d d1).1 d5 i hi) j hj k hk
      rw [d4] at this
      rw [this]
      exact Finset.sum_congr rfl fun b hb => by rw [hinc i hi k hk b (Finset.mem_range.1 hb)]
    · rintro d' ⟨e1, e2, e3, e4, e5, -⟩
      refine huniq d' ⟨e1, e2, fun i hi k hk => ?_, e3, e5⟩
      refine List.ext_getElem (by simp [jmeW, rowAt]) fun b hb1 hb2 => ?_
      have hb : b < nw := by simpa [jmeW, rowAt] using hb1
      have := uni (fun m => (jmeW P N xn.length nw d' i m).getD b 0) (g i b) (fun k hk => by
        have := e4 i hi k hk b hb
        rw [increment] at this
        simp only [noiseAt_entry hb] at this
        rw [this, hg i b k hk]) _ hk
      rw [← getD_of_lt _ 0 hb1, ← getD_of_lt _ 0 hb2, this]
      exact (hrow i k hk b hb).symm

/-! ### An example -/

/-- Every collocation has such a table. -/
theorem exists_rangeMat {N : Nat} (hN1 : 1 ≤ N) {n : Int} (hN : (N : Int) + 1 = n) {col : Collocation ℝ} (hcol : lglCollocation n = .ok col) :
    ∃ jt : List (List ℝ), jt.length = N + 1 ∧ (∀ r ∈ jt, r.length = N) ∧ IsOrth (col.Jm N).transpose (rangeMat jt N) := by
  obtain ⟨r, V, hV⟩ := exists_isOrth (col.Jm N).transpose
  have hc := lgl_colOK hN1 hN hcol
  have hcol' : ∃ points : List ℝ, points.Nodup ∧ points.length = N + 1 ∧ collocation points = .ok col := by
    obtain ⟨col', e1, -, e2, -⟩ := C25_exact n (by omega)
    obtain rfl : col = col' := Except.ok.inj (hcol.symm.trans e1)
    rw [lglCollocation, e2, py_bind_ok] at hcol
    exact ⟨_, hc.nodup, hc.len, hcol⟩
  obtain ⟨points, p1, p2, p3⟩ := hcol'
  obtain rfl : r = N := C28_columns points p1 p2 hN1 col p3 V hV
  refine ⟨List.ofFn fun l => List.ofFn fun k => V l k, by simp, fun row h => ?_, ?_⟩
  · obtain ⟨l, rfl⟩ := (List.mem_ofFn ..).1 h
    simp
  · convert hV using 1
    ext l k
    change ((List.ofFn fun l => List.ofFn fun k => V l k).getD l []).getD k 0 = V l k
    have e : (List.ofFn fun l => List.ofFn fun k => V l k).getD l [] = List.ofFn fun k => V l k := by
      rw [List.getD_eq_getElem?_getD, List.getElem?_eq_getElem (by rw [List.length_ofFn]; exact l.2), List.getElem_ofFn]
      rfl
    rw [e, getD_of_lt _ _ (by rw [List.length_ofFn]; exact k.2), List.getElem_ofFn]

namespace PendulumId

/-- The motion at rest at angle one, although the drift is not zero there, is possible with noise on the speed, and the noise is unique. -/
example : ∃ jt c, symjmeInit SExpr.arith { juser with jtRange := jt } jiter jvars [] = .ok c ∧
    ∃ m, symjmeGen (exprCode (shapeOf c.vars)) { juser with jtRange := jt } ⟨[2, 1], [0, 1]⟩ (some ⟨[2], [3, 4]⟩) c = .ok m ∧
    ∃ q, jmeProblem m t y (.callable fun _ => .ok (.array ua)) = .ok q ∧ q.prob.ndec = 16 ∧
    (∃! d : List ℝ, d.length = 16 ∧ (∀ r ≤ 4, rowAt d 0 2 r = [1, 0]) ∧ jmeP 2 2 2 1 2 d = [2, 0] ∧ ∃ cv, q.prob.constr d = .ok cv ∧ ∀ a ∈ cv, a = 0) ∧
    ¬∃ d : List ℝ, d.length = 16 ∧ (∀ r ≤ 4, rowAt d 0 2 r = [1, 1]) ∧ jmeP 2 2 2 1 2 d = [2, 0] ∧ ∃ cv, q.prob.constr d = .ok cv ∧ ∀ a ∈ cv, a = 0 := by
  obtain ⟨col, hcol, -⟩ := C63_weights 3 (by decide)
  obtain ⟨jt, j1, j2, j3⟩ := exists_rangeMat (N := 2) (by decide) rfl hcol
  obtain ⟨c, h1, h2, h3⟩ := C107_noise arith_ok { juser with jtRange := jt } functions.withDiv (xn := ["angle", "speed"]) (un := ["torque"])
    (pn := ["friction", "precision"]) (yn := ["angle_meas"]) (N := 2) (nw := 1) (denotes_withDiv total.f denotes) rfl (by decide) ⟨j1, j2⟩
    (fun col' h => by obtain rfl : col = col' := Except.ok.inj (hcol.symm.trans h); exact j3)
    jvars_ok rfl rfl rfl (decision := []) (by unfold DecisionOK; decide) jiter_ok ⟨[2, 1], [0, 1]⟩ ⟨rfl, rfl⟩ (some ⟨[2], [3, 4]⟩) (fun _ => ⟨_, rfl, rfl, rfl⟩)
  obtain ⟨m, g1, m1, m3, m5, h4⟩ := h3 (exprCode (shapeOf c.vars)) fun _ g _ => C66_expr_code _ g
  obtain ⟨q, q1, q2, -, q4, -⟩ := h4 t y _ ua 2 (input m1 m5) (inputs m1 m5 m3)
  have q2 : q.prob.ndec = 16 := q2
  rw [q2] at q4
  have hG : IndependentColumns (rowAt [0, 1] 0 1) 2 1 := fun a ha b hb => by
    obtain rfl : b = 0 := by omega
    have := ha 1 (by decide)
    simpa [rowAt] using this
  refine ⟨jt, c, h1, m, g1, q, q1, q2, ?_, fun h => ?_⟩
  · obtain ⟨a1, a2⟩ := q4 (fun _ => [1, 0]) [2, 0] (fun _ => rfl) rfl
    obtain ⟨d, d1, d2, d3, d4⟩ := a1.2 fun i hi k hk => ⟨fun _ => stateResidual c.col.J (fun l => functions.withDiv.f [1, 0] (rowAt ua.data 0 1 (i * 2 + l)) [2, 0])
        (fun l => [1, 0]) 2 (t.data.getD (i + 1) 0 - t.data.getD i 0) k 1, fun j hj => by
      rcases (show j = 0 ∨ j = 1 from by have : j < 2 := hj; omega) with rfl | rfl
      · simp [stateResidual, functions, OEMFunctions.withDiv, rowAt]
      · simp [rowAt]⟩
    exact ⟨d, ⟨d1, d2, d3, d4⟩, fun d' ⟨e1, e2, e3, e4⟩ => a2 hG d' d e1 d1 e2 d2 e3 d3 e4 d4⟩
  · obtain ⟨a, ha⟩ := (q4 (fun _ => [1, 1]) [2, 0] (fun _ => rfl) rfl).1.1 h 0 (by decide) 0 (by decide)
    have h0 := ha 0 (by decide)
    have hc := lgl_colOK (m := 2) (by decide) rfl h2
    have hJ := hc.J 1 (by simp) 0
    have hz : stateResidual c.col.J (fun l => functions.withDiv.f [1, 1] (rowAt ua.data 0 1 (0 * 2 + l)) [2, 0]) (fun l => [1, 1]) 2 (t.data.getD (0 + 1) 0 - t.data.getD 0 0) 0 0 =
        -∑ l : Fin (2 + 1), c.col.Jm 2 0 l * (1 : ℝ[X]).eval (c.col.points.getD l 0) := by
      rw [stateResidual, Finset.sum_range]
      have e : t.data.getD (0 + 1) 0 - t.data.getD 0 0 = (1 : ℝ) := by simp [t]
      rw [e, mul_one]
      simp only [eval_one]
      rw [show ([1, 1] : List ℝ).getD 0 0 - ([1, 1] : List ℝ).getD 0 0 = 0 from sub_self _, zero_sub]
      rfl
    rw [hJ] at hz
    have hr : ∑ b ∈ Finset.range 1, (rowAt [0, 1] 0 1 0).getD b 0 * a b = (0 : ℝ) := by simp [rowAt]
    have h0 := (hz.symm.trans h0).trans hr
    rw [show (1 : ℝ[X]) = derivative Polynomial.X by simp, integral_derivative, eval_X, eval_X, neg_sub, sub_eq_zero] at h0
    have hnd := hc.nodup
    have e0 : c.col.points.getD 0 0 = c.col.points[0]'(by rw [hc.len]; decide) := getD_of_lt _ _ _
    have e1 : c.col.points.getD 1 0 = c.col.points[1]'(by rw [hc.len]; decide) := getD_of_lt _ _ _
    have h0 : c.col.points.getD 0 0 = c.col.points.getD 1 0 := h0
    rw [e0, e1] at h0
    exact absurd ((hnd.getElem_inj_iff).1 h0) (by decide)

/-- No torque, at the points of the grid that the problem passes. -/
noncomputable def noTorque : UArg := .callable fun tc => .ok (.array ⟨[tc.length, 1], tc.flatMap fun _ => [0]⟩)

/-- The noise plays the role of the torque. -/
theorem noise_rhs (s : ℝ) : noisyRhs (functions.withDiv.f (Pendulum.wave s) [0] [2, 0]) (Pendulum.waveTorque s) (rowAt [0, 1] 0 1) 2 1 = [Real.cos s, -Real.sin s] := by
  have e : List.range 2 = [0, 1] := rfl
  simp only [noisyRhs, e, List.map_cons, List.map_nil, Finset.sum_range_one]
  have r0 : rowAt ([0, 1] : List ℝ) 0 1 0 = [0] := rfl
  have r1 : rowAt ([0, 1] : List ℝ) 0 1 1 = [1] := rfl
  rw [r0, r1]
  simp only [functions, OEMFunctions.withDiv, Pendulum.wave, Pendulum.waveTorque, List.getD_cons_zero, List.getD_cons_succ]
  congr 1
  · ring
  · congr 1
    ring

/-- Two pieces of length `h`, for one small `h`: the motion with that noise has noise coordinates, and the states that belong to them stay near it. -/
example : ∃ jt c, symjmeInit SExpr.arith { juser with jtRange := jt } jiter jvars [] = .ok c ∧
    ∃ m, symjmeGen (exprCode (shapeOf c.vars)) { juser with jtRange := jt } ⟨[2, 1], [0, 1]⟩ (some ⟨[2], [3, 4]⟩) c = .ok m ∧ ∃ h : ℝ, 0 < h ∧
    ∃ q, jmeProblem m ⟨[3], [0, h, 2 * h]⟩ y noTorque = .ok q ∧ ∃ d : List ℝ, d.length = q.prob.ndec ∧ rowAt d 0 2 0 = [0, 1] ∧ jmeP 2 2 2 1 2 d = [2, 0] ∧
      (∃ cv, q.prob.constr d = .ok cv ∧ ∀ a ∈ cv, a = 0) ∧
      (∀ i < 2, ∀ k < 2, increment c.col.J (noiseAt jt (jmeW 2 2 2 1 d i) 2 1) 2 k 0 =
        increment c.col.J (fun l => Pendulum.waveTorque (pointTime [0, h, 2 * h] c.col.points i l)) 2 k 0) ∧
      ∀ i < 2, ∀ l ≤ 2, |(rowAt d 0 2 (i * 2 + l)).getD 0 0 - Real.sin (pointTime [0, h, 2 * h] c.col.points i l)| ≤
        errorBound c.col.J 2 3 [0, h, 2 * h] (fun _ => h ^ 3 / 2) 0 i := by
  obtain ⟨col, hcol, -⟩ := C63_weights 3 (by decide)
  obtain ⟨jt, j1, j2, j3⟩ := exists_rangeMat (N := 2) (by decide) rfl hcol
  obtain ⟨c, h1, h2, h3⟩ := C107_noise arith_ok { juser with jtRange := jt } functions.withDiv (xn := ["angle", "speed"]) (un := ["torque"])
    (pn := ["friction", "precision"]) (yn := ["angle_meas"]) (N := 2) (nw := 1) (denotes_withDiv total.f denotes) rfl (by decide) ⟨j1, j2⟩
    (fun col' h => by obtain rfl : col = col' := Except.ok.inj (hcol.symm.trans h); exact j3)
    jvars_ok rfl rfl rfl (decision := []) (by unfold DecisionOK; decide) jiter_ok ⟨[2, 1], [0, 1]⟩ ⟨rfl, rfl⟩ (some ⟨[2], [3, 4]⟩) (fun _ => ⟨_, rfl, rfl, rfl⟩)
  obtain ⟨m, g1, m1, m3, m5, h4⟩ := h3 (exprCode (shapeOf c.vars)) fun _ g _ => C66_expr_code _ g
  have m1 : m.collocationOrder = 3 := m1
  have m3 : m.nu = 1 := m3
  have m5 : m.ny = 1 := m5
  obtain ⟨hpo, -⟩ := lgl_points_ok (N := 2) (by decide) rfl h2
  have hJ := jnorm_nonneg c.col.J 2
  set h : ℝ := 1 / (6 * (jnorm c.col.J 2 + 1)) with hh
  have h0 : 0 < h := by positivity
  have hq : h * jnorm c.col.J 2 * 3 ≤ 1 / 2 := by
    have : h * (6 * (jnorm c.col.J 2 + 1)) = 1 := by rw [hh, div_mul_cancel₀ _ (by positivity)]
    linarith
  have hin := input_at m1 m5 h0
  obtain ⟨tc, htc, -⟩ := C22_grid c.col.points [0, h, 2 * h] (by rw [hpo.len]; omega) hpo.first (by simp)
  obtain ⟨hltc, hpt⟩ := grid_pointTime (P := 2) hpo.len (by decide) hpo.first hpo.last rfl htc
  set ua : NDArray ℝ := ⟨[tc.length, 1], tc.flatMap fun _ => [0]⟩ with hua
  have hui : InputsOK m.toOEMModel ⟨[3], [0, h, 2 * h]⟩ noTorque ua := by
    intro col tc' e1 e2
    rw [m1] at e1
    obtain rfl : c.col = col := Except.ok.inj (h2.symm.trans e1)
    obtain rfl : tc = tc' := Except.ok.inj (htc.symm.trans e2)
    refine ⟨rfl, by rw [m3], ?_⟩
    rw [NDArray.WF, hua]
    simp
  have hlen : ∀ i < 2, ([0, h, 2 * h] : List ℝ).getD (i + 1) 0 - ([0, h, 2 * h] : List ℝ).getD i 0 = h := fun i hi => by
    rcases (show i = 0 ∨ i = 1 by omega) with rfl | rfl
    · show h - 0 = h
      ring
    · show 2 * h - h = h
      ring
  have hrow : ∀ r ≤ 4, rowAt ua.data 0 1 r = [0] := fun r hr => by
    have := rowAt_flatMap (pre := []) (rest := []) (tc := tc) (g := fun _ => [0]) (off := 0) (n := 1) rfl (fun _ => rfl) (r := r) (by omega)
    simpa using this
  obtain ⟨q, q1, q2, -, -, q5⟩ := h4 ⟨[3], [0, h, 2 * h]⟩ y noTorque ua 2 hin hui
  have key := q5 Pendulum.wave (fun _ => [0]) Pendulum.waveTorque [2, 0] (fun _ => h ^ 3 / 2) 3 (fun _ => rfl) (fun _ => rfl) rfl (by norm_num)
    (fun r _ => Pendulum.lipschitz _) (fun i hi => by rw [hlen i hi]; exact hq) (fun i hi s hs j hj => ?_) (fun i hi l hl => (hrow _ (by omega)).symm) (fun j hj i hi => ?_)
  · obtain ⟨d, ⟨d1, d2, d3, d4, d5, d6⟩, -⟩ := key
    refine ⟨jt, c, h1, m, g1, h, h0, q, q1, d, d1, ?_, d3, d5, fun i hi k hk => d4 i hi k hk 0 (by decide), fun i hi l hl => d6 i hi l hl 0 (by decide)⟩
    refine Eq.trans d2 ?_
    show Pendulum.wave 0 = [0, 1]
    rw [Pendulum.wave, Real.sin_zero, Real.cos_zero]
  · have e : HasDerivWithinAt (fun s => (Pendulum.wave s).getD j 0) ([Real.cos s, -Real.sin s].getD j 0) (pieceOf [0, h, 2 * h] i) s := by
      rcases (show j = 0 ∨ j = 1 from by have : j < 2 := hj; omega) with rfl | rfl
      · exact (Real.hasDerivAt_sin s).hasDerivWithinAt
      · exact (Real.hasDerivAt_cos s).hasDerivWithinAt
    rw [← noise_rhs s] at e
    exact e
  · have hlt := pairwise_getD rfl hin.tinc i hi
    have key : ∀ w : ℝ → ℝ, ContDiff ℝ (3 : Nat) w → (∀ s, |iteratedDeriv 3 w s| ≤ 1) →
        ∃ T : ℝ[X], T.natDegree ≤ 2 ∧ ∀ s ∈ pieceOf [0, h, 2 * h] i, |w s - T.eval s| ≤ h ^ 3 / 2 := fun w hw hb => by
      obtain ⟨T, hT, hT'⟩ := smooth_almost_poly (w := w) (N := 2) (B := 1) hlt.le hw.contDiffOn fun s hs => by
        rw [iteratedDerivWithin_eq_iteratedDeriv (uniqueDiffOn_Icc hlt) hw.contDiffAt hs]
        exact hb s
      refine ⟨T, hT, fun s hs => (hT' s hs).trans (le_of_eq ?_)⟩
      rw [hlen i hi]
      norm_num [Nat.factorial]
    have e : (fun s => (noisyRhs (functions.withDiv.f (Pendulum.wave s) [0] [2, 0]) (Pendulum.waveTorque s) (rowAt (⟨[2, 1], [0, 1]⟩ : NDArray ℝ).data 0 1) 2 1).getD j 0) =
        fun s => [Real.cos s, -Real.sin s].getD j 0 := by
      funext s
      exact congrArg (·.getD j 0) (noise_rhs s)
    refine (congrArg (fun w : ℝ → ℝ => ∃ T : ℝ[X], T.natDegree ≤ 2 ∧ ∀ s ∈ pieceOf [0, h, 2 * h] i, |w s - T.eval s| ≤ h ^ 3 / 2) e).mpr ?_
    rcases (show j = 0 ∨ j = 1 from by have : j < 2 := hj; omega) with rfl | rfl
    · exact key Real.cos Real.contDiff_cos (Real.abs_iteratedDeriv_cos_le_one 3)
    · exact key (fun s => -Real.sin s) Real.contDiff_sin.neg fun s => by
        rw [iteratedDeriv_fun_neg, abs_neg]
        exact Real.abs_iteratedDeriv_sin_le_one 3 s

end PendulumId
end Ceacoest
