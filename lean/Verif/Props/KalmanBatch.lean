import Verif.Spec.KalmanBatch
import Verif.Lemmas.KalmanBatch
import Verif.Lemmas.KalmanDemo
import Verif.Lemmas.Chol
import Verif.Props.UT

/-! # C79: filters of a stack of states -/

namespace Ceacoest
open Matrix Spec Stack
variable {nx : Nat} {o p : Type} [Fintype o] [LinearOrder o] {s : List Nat}

theorem stackOf_iff {α : Type} {a : NDArray α} {g : Fin s.prod → α} : StackOf s a g ↔ a = arr s g := by
  obtain ⟨sh, d⟩ := a
  simp [StackOf, arr]

theorem stackOrOne_iff {α : Type} {a : NDArray α} {g : Fin s.prod → α} : StackOrOne s a g ↔ Rep s a g := by
  unfold StackOrOne Rep
  rw [stackOf_iff]
  obtain ⟨sh, d⟩ := a
  simp [Stack.one]
  tauto

theorem rlist_stacked {out : List (BMoments nx)} {ms : Fin s.prod → List (Moments nx)} (h : RList (bm s) out ms) : Stacked s out ms := by
  obtain ⟨l, rfl, hl⟩ := h
  refine ⟨fun b => by simp [hl b], fun k m hm => ?_⟩
  rw [List.getElem?_map, Option.map_eq_some_iff] at hm
  obtain ⟨g, hg, rfl⟩ := hm
  refine ⟨g, fun b => by simp [hl b, hg], ?_, ?_⟩
  · rw [stackOf_iff]; rfl
  · rw [stackOf_iff]; rfl

theorem sim_entrywise {σ τ : Type} {R : τ → (Fin s.prod → σ) → Prop} {a : Py (List (BMoments nx) × τ)}
    {f : Fin s.prod → Py (List (Moments nx) × σ)} (h : Sim (RF s R) a f) : Entrywise s a f := by
  refine ⟨⟨fun ⟨r, hr⟩ => ?_, h.2⟩, fun out a' ha => ?_⟩
  · obtain ⟨w, hw, -⟩ := h.1 r hr
    exact fun b => ⟨w b, hw b⟩
  · obtain ⟨w, hw, hr, -⟩ := h.1 _ ha
    exact ⟨fun b => (w b).1, fun b => ⟨(w b).2, hw b⟩, rlist_stacked hr⟩

theorem nsigma_le {ni : Nat} {kind : SqrtKind (Fin ni)} {kappa : ℝ} {ut : UT ni} (h : UT.init ni kind kappa = .ok ut) : 2 * ni ≤ ut.nsigma := by
  unfold UT.init at h
  split_ifs at h <;> cases h <;> dsimp only <;> omega

/-! ### Extended filters -/

theorem newEKF {x : NDArray (Fin nx → ℝ)} {Px : NDArray (Matrix (Fin nx) (Fin nx) ℝ)} {k : ℤ} {L : ℝ} {A : Fin s.prod → FilterAttrs nx p}
    (hx : StackOf s x fun b => (A b).x) (hP : StackOrOne s Px fun b => (A b).Px) (hk : ∀ b, (A b).k = k) (hL : ∀ b, (A b).L = L) :
    REKF s { x := x, Px := Px, k := k, L := Stack.one L } fun b => ({ A b with } : EKF nx o p) :=
  ⟨stackOf_iff.1 hx, stackOrOne_iff.1 hP, hk, .inr ⟨L, rfl, hL⟩, .inl ⟨rfl, fun _ => rfl⟩, fun _ => rfl⟩

/-- An extended filter of a stack filters each of its states; one covariance, as a model has it, may stand for all of them. -/
theorem C79_ekf_filter (hs : 0 < s.prod) (M : KModel nx o p) (x : NDArray (Fin nx → ℝ)) (Px : NDArray (Matrix (Fin nx) (Fin nx) ℝ)) (k : ℤ)
    (L : ℝ) (A : Fin s.prod → FilterAttrs nx p) (hx : StackOf s x fun b => (A b).x) (hP : StackOrOne s Px fun b => (A b).Px)
    (hk : ∀ b, (A b).k = k) (hL : ∀ b, (A b).L = L) (y : List (MaskedRow o)) :
    Entrywise s ((BEKF.cls M).filter y { x := x, Px := Px, k := k, L := Stack.one L }) fun b => (EKF.cls M).filter y { A b with } :=
  have : Nonempty (Fin s.prod) := ⟨⟨0, hs⟩⟩
  sim_entrywise ((ekf_follows M).filter y (newEKF hx hP hk hL))

/-- The same for the smoother. -/
theorem C79_ekf_smooth (hs : 0 < s.prod) (M : KModel nx o p) (x : NDArray (Fin nx → ℝ)) (Px : NDArray (Matrix (Fin nx) (Fin nx) ℝ)) (k : ℤ)
    (L : ℝ) (A : Fin s.prod → FilterAttrs nx p) (hx : StackOf s x fun b => (A b).x) (hP : StackOrOne s Px fun b => (A b).Px)
    (hk : ∀ b, (A b).k = k) (hL : ∀ b, (A b).L = L) (y : List (MaskedRow o)) :
    Entrywise s ((BEKF.cls M).smooth y { x := x, Px := Px, k := k, L := Stack.one L }) fun b => (EKF.cls M).smooth y { A b with } :=
  have : Nonempty (Fin s.prod) := ⟨⟨0, hs⟩⟩
  sim_entrywise ((ekf_follows M).smooth y (newEKF hx hP hk hL))

/-! ### Unscented filters -/

theorem newUKF {ns ns' : Nat} {x : NDArray (Fin nx → ℝ)} {Px : NDArray (Matrix (Fin nx) (Fin nx) ℝ)} {k : ℤ} {L : ℝ}
    {A : Fin s.prod → FilterAttrs nx p} (hx : StackOf s x fun b => (A b).x) (hP : StackOf s Px fun b => (A b).Px) (hk : ∀ b, (A b).k = k)
    (hL : ∀ b, (A b).L = L) :
    RUKF (s := s) (fun _ _ => True) { x := x, Px := Px, k := k, L := Stack.one L } fun b => ({ A b with } : UKF nx ns ns' o p) :=
  ⟨stackOf_iff.1 hx, stackOf_iff.1 hP, hk, .inr ⟨L, rfl, hL⟩, trivial, .inl ⟨rfl, fun _ => rfl⟩, .inl ⟨rfl, fun _ => rfl⟩⟩

variable {kind kind' : SqrtKind (Fin nx)} {kappa kappa' : ℝ} {put cut : UT nx}

/-- An unscented filter of a stack of states and of covariances filters each of its states. -/
theorem C79_ukf_filter (hs : 0 < s.prod) (hput : UT.init nx kind kappa = .ok put) (hcut : UT.init nx kind' kappa' = .ok cut)
    (M : KModel nx o p) (x : NDArray (Fin nx → ℝ)) (Px : NDArray (Matrix (Fin nx) (Fin nx) ℝ)) (k : ℤ) (L : ℝ)
    (A : Fin s.prod → FilterAttrs nx p) (hx : StackOf s x fun b => (A b).x) (hP : StackOf s Px fun b => (A b).Px)
    (hk : ∀ b, (A b).k = k) (hL : ∀ b, (A b).L = L) (y : List (MaskedRow o)) :
    Entrywise s ((BUKF.cls put cut M).filter y { x := x, Px := Px, k := k, L := Stack.one L }) fun b =>
      (UKF.cls put cut M).filter y { A b with } :=
  have : Nonempty (Fin s.prod) := ⟨⟨0, hs⟩⟩
  sim_entrywise ((ukf_follows put cut (nsigma_le hput) (nsigma_le hcut) M _).filter y (newUKF hx hP hk hL))

/-- The same for the smoother. -/
theorem C79_ukf_smooth (hs : 0 < s.prod) (hput : UT.init nx kind kappa = .ok put) (hcut : UT.init nx kind' kappa' = .ok cut)
    (M : KModel nx o p) (x : NDArray (Fin nx → ℝ)) (Px : NDArray (Matrix (Fin nx) (Fin nx) ℝ)) (k : ℤ) (L : ℝ)
    (A : Fin s.prod → FilterAttrs nx p) (hx : StackOf s x fun b => (A b).x) (hP : StackOf s Px fun b => (A b).Px)
    (hk : ∀ b, (A b).k = k) (hL : ∀ b, (A b).L = L) (y : List (MaskedRow o)) :
    Entrywise s ((BUKF.cls put cut M).smooth y { x := x, Px := Px, k := k, L := Stack.one L }) fun b =>
      (UKF.cls put cut M).smooth y { A b with } :=
  have : Nonempty (Fin s.prod) := ⟨⟨0, hs⟩⟩
  sim_entrywise ((ukf_follows put cut (nsigma_le hput) (nsigma_le hcut) M _).smooth y (newUKF hx hP hk hL))

/-- `pem_merit` of a stack is the stack of the likelihoods of its states (one number if there was nothing to measure). -/
theorem C79_ukf_merit (hs : 0 < s.prod) (hput : UT.init nx kind kappa = .ok put) (hcut : UT.init nx kind' kappa' = .ok cut)
    (M : KModel nx o p) (x : NDArray (Fin nx → ℝ)) (Px : NDArray (Matrix (Fin nx) (Fin nx) ℝ)) (k : ℤ) (L : ℝ)
    (A : Fin s.prod → FilterAttrs nx p) (hx : StackOf s x fun b => (A b).x) (hP : StackOf s Px fun b => (A b).Px)
    (hk : ∀ b, (A b).k = k) (hL : ∀ b, (A b).L = L) (y : List (MaskedRow o)) :
    ((∃ r, (BUKF.cls put cut M).pemMerit y { x := x, Px := Px, k := k, L := Stack.one L } = .ok r) ↔
      ∀ b, ∃ r, (UKF.cls put cut M).pemMerit y { A b with } = .ok r) ∧
    ∀ Ls a', (BUKF.cls put cut M).pemMerit y { x := x, Px := Px, k := k, L := Stack.one L } = .ok (Ls, a') →
      ∃ l : Fin s.prod → ℝ, (∀ b, ∃ t', (UKF.cls put cut M).pemMerit y { A b with } = .ok (l b, t')) ∧ StackOrOne s Ls l := by
  have : Nonempty (Fin s.prod) := ⟨⟨0, hs⟩⟩
  have h := (ukf_follows put cut (nsigma_le hput) (nsigma_le hcut) M _).pemMerit y (newUKF hx hP hk hL)
  refine ⟨⟨fun ⟨r, hr⟩ => ?_, h.2⟩, fun out a' ha => ?_⟩
  · obtain ⟨w, hw, -⟩ := h.1 r hr
    exact fun b => ⟨w b, hw b⟩
  · obtain ⟨w, hw, hr, -⟩ := h.1 _ ha
    exact ⟨fun b => (w b).1, fun b => ⟨(w b).2, hw b⟩, stackOrOne_iff.2 hr⟩

/-! ### Unscented filters of a stack of states with one covariance -/

/-- What the constructor makes of `x` alone: a stack of `n` states, and the covariance of the model. -/
noncomputable def oneCov (n : Nat) (x : Fin [n].prod → Fin nx → ℝ) (P : Matrix (Fin nx) (Fin nx) ℝ) (k : ℤ) (L : ℝ) : BUKF nx o p :=
  { x := arr [n] x, Px := Stack.one P, k := k, L := Stack.one L }

theorem rollRows_one {n : Nat} {o : Type} (S : Matrix (Fin n) o ℝ) :
    (rollRows (Stack.map (fun (M : Matrix (Fin n) o ℝ) r => M r) (Stack.one S))).shape = [n] := rfl

theorem sqrt_one (ut : UT nx) (P : Matrix (Fin nx) (Fin nx) ℝ) :
    mapM ut.sqrt (map (fun P => ((nx : ℝ) + ut.kappa) • P) (Stack.one P)) = ut.sqrt (((nx : ℝ) + ut.kappa) • P) >>= fun S => .ok (Stack.one S) := by
  unfold Stack.mapM Stack.map Stack.one
  simp only [List.map_cons, List.map_nil, List.mapM_cons, List.mapM_nil, py_bind_assoc]
  rfl

theorem setRows_bad {α : Type} {a v : NDArray α} {n m ns : Nat} (ha : a.shape = [ns, m]) (hv : v.shape = [n]) (h1 : n ≠ 1) (hm : n ≠ m) (st : Nat) :
    setRows a st n v = .error .valueError := by
  unfold setRows Stack.assigned
  rw [ha, hv]
  have e : stripOnes [n, m].length [n] = [n] := by
    rw [stripOnes]
    rintro t ⟨⟩
    exact h1 rfl
  simp only [List.tail_cons]
  rw [e]
  unfold broadcastTo
  rw [if_neg]
  · rfl
  · simp [canBroadcast, padShape, bcOK, h1, hm]

/-- With two states or more per entry and any other number of entries, the sigma points are never made. -/
theorem C79_ukf_one_covariance_raises (n : Nat) (h1 : nx ≠ 1) (hn : nx ≠ n) (put cut : UT nx) (M : KModel nx o p) (x : Fin [n].prod → Fin nx → ℝ)
    (P : Matrix (Fin nx) (Fin nx) ℝ) (k : ℤ) (L : ℝ) :
    (∀ r, BUKF.predict put M (oneCov n x P k L) ≠ .ok r) ∧
      ∀ y : MaskedRow o, (∃ j, y.mask j = false) → ∀ r, BUKF.correct cut M y (oneCov n x P k L) ≠ .ok r := by
  have key : ∀ (ut : UT nx) {a : Type} (f : (Fin nx → ℝ) → a → ℝ) d, ut.bTransform (arr [n] x) (Stack.one P) f ≠ .ok d := by
    intro ut a f d hd
    obtain ⟨⟨i1, i2⟩, hi, -⟩ := py_bind_eq_ok hd
    unfold UT.bSigmaPoints at hi
    rw [sqrt_one, py_bind_assoc] at hi
    obtain ⟨S, -, hi⟩ := py_bind_eq_ok hi
    rw [py_bind_ok] at hi
    dsimp only at hi
    rw [setRows_bad (ns := ut.nsigma) (m := n) rfl (rollRows_one S) h1 hn] at hi
    cases hi
  constructor
  · intro r hr
    obtain ⟨d, hd, -⟩ := py_bind_eq_ok hr
    exact key put _ d hd
  · rintro y ⟨j, hj⟩ r hr
    unfold BUKF.correct at hr
    rw [if_neg (fun h => by simp [h j] at hj)] at hr
    obtain ⟨d, hd, -⟩ := py_bind_eq_ok hr
    exact key cut _ d hd

theorem stripOnes_lt {n : Nat} {s : List Nat} (h : s.length < n) : stripOnes n s = s := by
  cases s with
  | nil => rfl
  | cons m s =>
    by_cases hm : m = 1
    · subst hm
      simp only [List.length_cons] at h
      rw [stripOnes, if_neg (by omega)]
    · rw [stripOnes]; rintro t ⟨⟩; exact hm rfl

theorem setRows_arr {α : Type} {n m st : Nat} (g : Fin n → Fin s.prod → α) (h : Fin s.prod → α) :
    setRows (arr2 n s g) st m (arr s h) = setRows (arr2 n s g) st m (arr2 m s fun _ b => h b) := by
  unfold setRows Stack.assigned
  have h1 : broadcastTo (⟨stripOnes (m :: s).length s, (arr s h).data⟩ : NDArray α) (m :: s) = .ok (arr2 m s fun _ b => h b) := by
    rw [stripOnes_lt (by simp)]; exact broadcastTo_arr_cons m h
  have h2 : broadcastTo (⟨stripOnes (m :: s).length (m :: s), (arr2 m s fun _ b => h b).data⟩ : NDArray α) (m :: s) =
      .ok (arr2 m s fun _ b => h b) := by
    rw [stripOnes_self]; exact broadcastTo_arr2 (fun _ b => h b)
  show (broadcastTo (⟨stripOnes (m :: s).length s, (arr s h).data⟩ : NDArray α) (m :: s) >>= _) =
    broadcastTo (⟨stripOnes (m :: s).length (m :: s), (arr2 m s fun _ b => h b).data⟩ : NDArray α) (m :: s) >>= _
  rw [h1, h2]

/-- The position in a stack of shape `(n,)`. -/
def pos {n : Nat} (b : Fin [n].prod) : Fin n := b.cast (by simp)

theorem rollRows_one_eq {n : Nat} {o : Type} (S : Matrix (Fin n) o ℝ) :
    rollRows (Stack.map (fun (M : Matrix (Fin n) o ℝ) r => M r) (Stack.one S)) = arr [n] fun b => S (pos b) := by
  unfold rollRows arr Stack.one Stack.map
  congr 1
  refine (List.map_eq_flatMap (f := fun r => (S r : o → ℝ)) (l := List.finRange n)).symm.trans ?_
  refine List.ext_getElem (by simp) fun i hi hi' => ?_
  simp only [List.getElem_map, List.getElem_ofFn, List.getElem_finRange]
  rfl

theorem wrong_sigmaPoints (ut : UT nx) (hns : 2 * nx ≤ ut.nsigma) (x : Fin [nx].prod → Fin nx → ℝ) (P S : Matrix (Fin nx) (Fin nx) ℝ)
    (hS : ut.sqrt (((nx : ℝ) + ut.kappa) • P) = .ok S) :
    ut.bSigmaPoints (arr [nx] x) (Stack.one P) = .ok (Stack.one S, arr2 ut.nsigma [nx] (fun k b => UT.spread ut.nsigma (fun _ : Fin nx => S (pos b)) k),
      arr2 ut.nsigma [nx] fun k b => UT.spread ut.nsigma (fun _ : Fin nx => S (pos b)) k + x b) := by
  unfold UT.bSigmaPoints
  rw [sqrt_one, hS, py_bind_ok, py_bind_ok, rollRows_one_eq]
  dsimp only
  rw [map_arr]
  rw [show (arr [nx] x).shape = [nx] from rfl, zeros_arr2, setRows_arr, setRows_arr2 (by omega), py_bind_ok, setRows_arr,
    setRows_arr2 (by omega), py_bind_ok, binop_arr2_arr, py_bind_ok]
  have e : ∀ (k : Fin ut.nsigma) (b : Fin [nx].prod), (if hk : nx ≤ k.1 ∧ k.1 < nx + nx then -S (pos b) else
      if hk : 0 ≤ k.1 ∧ k.1 < 0 + nx then S (pos b) else 0) = UT.spread ut.nsigma (fun _ : Fin nx => S (pos b)) k := by
    intro k b
    unfold UT.spread
    by_cases h1 : k.1 < nx
    · rw [dif_neg (by omega), dif_pos ⟨by omega, by omega⟩, dif_pos h1]
    · rw [dif_neg h1]
      by_cases h2 : k.1 < 2 * nx
      · rw [dif_pos ⟨by omega, by omega⟩, dif_pos h2]
      · rw [dif_neg (by omega), dif_neg (by omega), dif_neg h2]
  simp only [e]
  rfl

/-- With as many entries as states, the prediction returns, and its covariances are wrong: each entry gets one row of the square root
in all its sigma points.  Here for a system that stays where it is, where the covariance should be that of the state plus `Q`. -/
theorem C79_ukf_one_covariance_wrong (hput : UT.init nx kind kappa = .ok put) (M : KModel nx o p) (k : ℤ) (hf : ∀ x, M.f k x = x)
    (x : Fin [nx].prod → Fin nx → ℝ) (P S : Matrix (Fin nx) (Fin nx) ℝ) (L : ℝ) (hS : put.sqrt (((nx : ℝ) + kappa) • P) = .ok S) :
    ∃ m a', BUKF.predict put M (oneCov nx x P k L) = .ok (m, a') ∧ StackOf [nx] m.1 x ∧
      StackOf [nx] m.2 fun b => ((nx : ℝ) / (nx + kappa)) • vecMulVec (S (pos b)) (S (pos b)) + M.Q k (x b) := by
  obtain ⟨hne, hk, -, -⟩ := ut_init_ok hput
  have hsig := wrong_sigmaPoints put (nsigma_le hput) x P S (by rw [hk]; exact hS)
  have hmean : ∀ b, (∑ k', fun j => put.weights k' * M.f k (UT.spread put.nsigma (fun _ : Fin nx => S (pos b)) k' + x b) j) = x b := by
    intro b
    funext j
    simp only [hf, Finset.sum_apply, Pi.add_apply, mul_add]
    rw [Finset.sum_add_distrib, ← Finset.sum_mul, weights_sum hput]
    have : ∑ k, put.weights k * UT.spread put.nsigma (fun _ : Fin nx => (S (pos b) : Fin nx → ℝ)) k j = 0 :=
      idev_mean hput (of fun _ => S (pos b)) j
    rw [this]
    ring
  have hcov : ∀ b, (∑ k', of fun i j => (M.f k (UT.spread put.nsigma (fun _ : Fin nx => S (pos b)) k' + x b) - x b) i *
      (M.f k (UT.spread put.nsigma (fun _ : Fin nx => S (pos b)) k' + x b) - x b) j * put.weights k') =
      ((nx : ℝ) / (nx + kappa)) • vecMulVec (S (pos b)) (S (pos b)) := by
    intro b
    ext i j
    have : ∑ k, put.weights k * (UT.spread put.nsigma (fun _ : Fin nx => (S (pos b) : Fin nx → ℝ)) k i *
        UT.spread put.nsigma (fun _ : Fin nx => (S (pos b) : Fin nx → ℝ)) k j) =
        (∑ _r : Fin nx, S (pos b) i * S (pos b) j) / (nx + kappa) := idev_cov hput (of fun _ => S (pos b)) i j
    simp only [Finset.sum_const, Finset.card_univ, Fintype.card_fin, nsmul_eq_mul] at this
    simp only [hf, Matrix.sum_apply, of_apply, add_sub_cancel_right, Matrix.smul_apply, vecMulVec_apply, smul_eq_mul]
    calc _ = ∑ k', put.weights k' * (UT.spread put.nsigma (fun _ : Fin nx => S (pos b)) k' i * UT.spread put.nsigma (fun _ : Fin nx => S (pos b)) k' j) :=
          Finset.sum_congr rfl fun _ _ => by ring
      _ = _ := by rw [this]; ring
  have htr : put.bTransform (arr [nx] x) (Stack.one P) (M.f k) = .ok
      ⟨Stack.one S, arr2 put.nsigma [nx] fun k b => UT.spread put.nsigma (fun _ : Fin nx => S (pos b)) k + x b,
      arr2 put.nsigma [nx] fun k b => UT.spread put.nsigma (fun _ : Fin nx => S (pos b)) k,
      arr2 put.nsigma [nx] fun k' b => M.f k (UT.spread put.nsigma (fun _ : Fin nx => S (pos b)) k' + x b) - x b, arr [nx] x,
      arr [nx] fun b => ((nx : ℝ) / (nx + kappa)) • vecMulVec (S (pos b)) (S (pos b))⟩ := by
    unfold UT.bTransform
    rw [hsig, py_bind_ok]
    dsimp only
    rw [map_arr2, sumRows_arr2, py_bind_ok, binop_arr2_arr, py_bind_ok, binop_arr2, py_bind_ok, sumRows_arr2, py_bind_ok]
    simp only [hmean, hcov]
    rfl
  have hpr : ∃ a', BUKF.predict put M (oneCov nx x P k L) = .ok ((arr [nx] x,
      arr [nx] fun b => ((nx : ℝ) / (nx + kappa)) • vecMulVec (S (pos b)) (S (pos b)) + M.Q k (x b)), a') := by
    unfold BUKF.predict oneCov
    dsimp only
    rw [htr, py_bind_ok, map_arr, binop_arr, py_bind_ok]
    exact ⟨_, rfl⟩
  obtain ⟨a', ha⟩ := hpr
  exact ⟨_, a', ha, stackOf_iff.2 rfl, stackOf_iff.2 rfl⟩

/-! ### Examples -/

/-- Two states of one number each, with the covariance of the model. -/
example : Entrywise [2] ((BEKF.cls (Demo.model fun _ => 2)).smooth [Demo.half, Demo.none, Demo.both]
      { x := ⟨[2], [fun _ => 1, fun _ => 5]⟩, Px := ⟨[], [1]⟩, k := 0, L := Stack.one 0 })
    fun b => (EKF.cls (Demo.model fun _ => 2)).smooth [Demo.half, Demo.none, Demo.both]
      { Demo.attrs with x := if b.1 = 0 then fun _ => 1 else fun _ => 5 } :=
  C79_ekf_smooth (s := [2]) (by simp) _ _ _ _ _ (fun b => { Demo.attrs with x := if b.1 = 0 then fun _ => 1 else fun _ => 5 })
    ⟨rfl, rfl⟩ (.inr ⟨1, rfl, rfl, fun _ => rfl⟩) (fun _ => rfl) (fun _ => rfl) _

/-- The same two states, in a stack of shape `(2, 1)` with two covariances, and an unscented filter. -/
example : ∃ ut, UT.init 1 .cholesky (1 : ℝ) = .ok ut ∧
    Entrywise [2, 1] ((BUKF.cls ut ut (Demo.model fun _ => 2)).filter [Demo.half, Demo.both]
      { x := ⟨[2, 1], [fun _ => 1, fun _ => 5]⟩, Px := ⟨[2, 1], [1, 1]⟩, k := 0, L := Stack.one 0 })
    fun b => (UKF.cls ut ut (Demo.model fun _ => 2)).filter [Demo.half, Demo.both]
      { Demo.attrs with x := if b.1 = 0 then fun _ => 1 else fun _ => 5 } := by
  obtain ⟨ut, h⟩ := Demo.exists_ut
  exact ⟨ut, h, C79_ukf_filter (s := [2, 1]) (by simp) h h _ _ _ _ _
    (fun b => { Demo.attrs with x := if b.1 = 0 then fun _ => 1 else fun _ => 5 }) ⟨rfl, rfl⟩ ⟨rfl, rfl⟩ (fun _ => rfl) (fun _ => rfl) _⟩

/-- A system with two states that stays where it is. -/
noncomputable def still : KModel 2 (Fin 1) (Fin 1) where
  f _ x := x
  h _ x _ := x 0
  Q _ _ := 0
  R := 1
  df_dx _ _ i j := if i = j then 1 else 0
  dh_dx _ _ i _ := if i = 0 then 1 else 0
  df_dq _ _ _ _ := 0
  dh_dq _ _ _ _ := 0
  dQ_dq _ _ _ := 0
  dQ_dx _ _ _ := 0
  dR_dq _ := 0
  d2f_dq2 _ _ _ _ _ := 0
  d2f_dx2 _ _ _ _ _ := 0
  d2f_dx_dq _ _ _ _ _ := 0
  d2h_dq2 _ _ _ _ _ := 0
  d2h_dx2 _ _ _ _ _ := 0
  d2h_dx_dq _ _ _ _ _ := 0
  d2Q_dq2 _ _ _ _ := 0
  d2Q_dx2 _ _ _ _ := 0
  d2Q_dx_dq _ _ _ _ := 0
  d2R_dq2 _ _ := 0

/-- Two states, the covariance with entries 4/3, 2/3, 2/3, 5/3, no noise: the covariance of the second state after the prediction has a
zero where there was 4/3. -/
theorem C79_ukf_one_covariance_witness (put : UT 2) (h : UT.init 2 .cholesky 1 = .ok put) (x : Fin [2].prod → Fin 2 → ℝ) :
    ∃ m a', BUKF.predict put still (oneCov 2 x ((1 / 3 : ℝ) • !![4, 2; 2, 5]) 0 0) = .ok (m, a') ∧
      ∃ g, StackOf [2] m.2 g ∧ g ⟨1, by simp⟩ 0 0 = 0 := by
  obtain ⟨m, a', h1, -, h2⟩ := C79_ukf_one_covariance_wrong h still 0 (fun _ => rfl) x _ _ 0 (sqrt_example put h)
  refine ⟨m, a', h1, _, h2, ?_⟩
  simp [still, pos, vecMulVec_apply]

/-- **C79** (in place). `a += v` and `a -= v` never change the shape of `a`: a stack that is larger raises. -/
theorem C79_in_place (a v c : NDArray ℝ) :
    (Stack.iadd a v = .ok c → c.shape = a.shape ∧ binop (· + ·) a v = .ok c) ∧
      (Stack.isub a v = .ok c → c.shape = a.shape ∧ binop (· - ·) a v = .ok c) := by
  constructor <;> intro h
  · unfold Stack.iadd at h
    obtain ⟨c', hb, h⟩ := py_bind_eq_ok h
    split_ifs at h with hs
    cases h
    exact ⟨hs, hb⟩
  · unfold Stack.isub at h
    obtain ⟨c', hb, h⟩ := py_bind_eq_ok h
    split_ifs at h with hs
    cases h
    exact ⟨hs, hb⟩

/-- One number can be added to a stack of two in place, a stack of two cannot be added to one number. -/
example : Stack.iadd (⟨[2], [1, 2]⟩ : NDArray Int) ⟨[], [3]⟩ = .ok ⟨[2], [4, 5]⟩ ∧
    Stack.iadd (⟨[], [3]⟩ : NDArray Int) ⟨[2], [1, 2]⟩ = .error .valueError := by decide

/-- **C79** (stored). What is stored for a measurement always has the shape of the stack, for the means as for the covariances; what does not fit raises. -/
theorem C79_stored {nx : Nat} {s : List Nat} {m r : BMoments nx} (h : BFilterClass.store s m = .ok r) : r.1.shape = s ∧ r.2.shape = s := by
  unfold BFilterClass.store Stack.assigned at h
  obtain ⟨x, hx, h⟩ := py_bind_eq_ok h
  obtain ⟨P, hP, h⟩ := py_bind_eq_ok h
  cases h
  exact ⟨(broadcastTo_inv hx).1, (broadcastTo_inv hP).1⟩

/-- One mean and one covariance are stored for all three filters of a stack. -/
example (x : Fin 1 → ℝ) (P : Matrix (Fin 1) (Fin 1) ℝ) : BFilterClass.store [3] (⟨[], [x]⟩, ⟨[], [P]⟩) = .ok (⟨[3], [x, x, x]⟩, ⟨[3], [P, P, P]⟩) := rfl

end Ceacoest
