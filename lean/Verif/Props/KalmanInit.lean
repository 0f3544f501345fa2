import Verif.Model.KalmanInit
import Verif.Spec.KalmanInit
import Verif.Lemmas.KalmanLoops
import Verif.Lemmas.Dict
import Verif.Props.Utils
import Mathlib.Tactic.NormNum

/-! # C49, C65: the options of the constructors -/

namespace Ceacoest.KalmanInit
open Spec
variable {V : Type}

/-- The model's method, if it has one that does not raise AttributeError. -/
def methodValue (r : Py V) : Option V := match r with
  | .ok v => some v
  | .error _ => none

theorem getInitial_right {env : Values V} {model : Source V} {base shape : List Nat} {key : List Char} {options : Dict (List Char) V} {v : V}
    (h : getInitial env model base key options shape = .ok v) :
    RightInit (options.get? key) env.asarray (methodValue (model.call (replaceX key))) (env.zeros (base ++ shape)) v := by
  unfold getInitial Dict.getItem at h
  cases hg : options.get? key with
  | some w =>
    rw [hg] at h
    cases h
    exact ⟨fun _ h => by cases h; rfl, fun h => (by cases h), fun h => (by cases h)⟩
  | none =>
    rw [hg] at h
    refine ⟨fun _ h => (by cases h), fun _ w hw => ?_, fun _ hn => ?_⟩
    · cases hc : model.call (replaceX key) with
      | ok u =>
        rw [hc] at h hw
        cases h; cases hw; rfl
      | error e => rw [hc] at hw; cases hw
    · cases hc : model.call (replaceX key) with
      | ok u => rw [hc] at hn; cases hn
      | error e =>
        rw [hc] at h
        change (if e = .attributeError then Except.ok (env.zeros (base ++ shape)) else .error e) = Except.ok v at h
        split at h
        · cases h; rfl
        · cases h

theorem init_eq {env : Values V} {model : Source V} {x Px : Option V} {options : Dict (List Char) V} {a : Attrs V}
    (h : init env model x Px options = .ok a) :
    moment env model "x0".toList x = .ok a.x ∧
    moment env model "Px0".toList Px = .ok a.Px ∧
    a.k = (options.get? "k".toList).getD env.int0 ∧ a.L = (options.get? "L".toList).getD env.float0 ∧
    a.base_shape = (env.shape a.x).dropLast ∧
    a.dL_dq = (options.get? "dL_dq".toList).getD (env.zeros (a.base_shape ++ [model.nq.getD 0])) ∧
    a.d2L_dq2 = (options.get? "dL_dq".toList).getD (env.zeros (a.base_shape ++ [model.nq.getD 0, model.nq.getD 0])) ∧
    getInitial env model a.base_shape "dx_dq".toList options [model.nq.getD 0, model.nx] = .ok a.dx_dq ∧
    getInitial env model a.base_shape "dPx_dq".toList options [model.nq.getD 0, model.nx, model.nx] = .ok a.dPx_dq ∧
    getInitial env model a.base_shape "d2x_dq2".toList options [model.nq.getD 0, model.nq.getD 0, model.nx] = .ok a.d2x_dq2 ∧
    getInitial env model a.base_shape "d2Px_dq2".toList options [model.nq.getD 0, model.nq.getD 0, model.nx, model.nx] = .ok a.d2Px_dq2 := by
  unfold init at h
  obtain ⟨x', hx, h⟩ := py_bind_eq_ok h
  obtain ⟨Px', hPx, h⟩ := py_bind_eq_ok h
  obtain ⟨d1, h1, h⟩ := py_bind_eq_ok h
  obtain ⟨d2, h2, h⟩ := py_bind_eq_ok h
  obtain ⟨d3, h3, h⟩ := py_bind_eq_ok h
  obtain ⟨d4, h4, h⟩ := py_bind_eq_ok h
  cases h
  exact ⟨hx, hPx, rfl, rfl, rfl, rfl, rfl, h1, h2, h3, h4⟩

/-- The claim for the attribute `d2L_dq2`: it is false, see `C49_negation`. -/
def HessianOption : Prop := ∀ (V : Type) (env : Values V) (model : Source V) (x Px : Option V) (options : Dict (List Char) V) (a : Attrs V),
  init env model x Px options = .ok a →
    RightInit (options.get? "d2L_dq2".toList) id none (env.zeros ((env.shape a.x).dropLast ++ [model.nq.getD 0, model.nq.getD 0])) a.d2L_dq2

/-- **C49**, for the attributes but `d2L_dq2`: each is set from the option of the same name, else from the model's method of the
corresponding name, else it is zero (of the right shape); no other option matters.
Missing: the same for `d2L_dq2` (`HessianOption`), which is false. -/
theorem C49_options_partial (env : Values V) (model : Source V) (x Px : Option V) (options : Dict (List Char) V) (a : Attrs V)
    (h : init env model x Px options = .ok a) :
    RightInit x env.asarray (methodValue (model.call "x0".toList)) a.x a.x ∧
    RightInit Px env.asarray (methodValue (model.call "Px0".toList)) a.Px a.Px ∧
    RightInit (options.get? "k".toList) id none env.int0 a.k ∧
    RightInit (options.get? "L".toList) id none env.float0 a.L ∧
    RightInit (options.get? "dL_dq".toList) id none (env.zeros ((env.shape a.x).dropLast ++ [model.nq.getD 0])) a.dL_dq ∧
    RightInit (options.get? "dx_dq".toList) env.asarray (methodValue (model.call "dx0_dq".toList))
      (env.zeros ((env.shape a.x).dropLast ++ [model.nq.getD 0, model.nx])) a.dx_dq ∧
    RightInit (options.get? "dPx_dq".toList) env.asarray (methodValue (model.call "dPx0_dq".toList))
      (env.zeros ((env.shape a.x).dropLast ++ [model.nq.getD 0, model.nx, model.nx])) a.dPx_dq ∧
    RightInit (options.get? "d2x_dq2".toList) env.asarray (methodValue (model.call "d2x0_dq2".toList))
      (env.zeros ((env.shape a.x).dropLast ++ [model.nq.getD 0, model.nq.getD 0, model.nx])) a.d2x_dq2 ∧
    RightInit (options.get? "d2Px_dq2".toList) env.asarray (methodValue (model.call "d2Px0_dq2".toList))
      (env.zeros ((env.shape a.x).dropLast ++ [model.nq.getD 0, model.nq.getD 0, model.nx, model.nx])) a.d2Px_dq2 := by
  obtain ⟨hx, hPx, hk, hL, hb, hd, -, h1, h2, h3, h4⟩ := init_eq h
  have aux (o : Option V) (d r : V) (e : r = o.getD d) : RightInit o id none d r :=
    ⟨fun v hv => by rw [e, hv]; rfl, fun _ _ hv => (by cases hv), fun hv _ => by rw [e, hv]; rfl⟩
  have aux2 (o : Option V) (m : Py V) (r : V) (e : (match o with | none => m | some x => .ok (env.asarray x)) = Except.ok r) :
      RightInit o env.asarray (methodValue m) r r := by
    refine ⟨fun v hv => ?_, fun hv w hw => ?_, fun _ _ => rfl⟩
    · subst hv; exact (Except.ok.inj e).symm
    · subst hv
      have e : m = .ok r := e
      rw [e] at hw
      exact Option.some.inj hw
  rw [hb] at h1 h2 h3 h4 hd
  exact ⟨aux2 _ _ _ hx, aux2 _ _ _ hPx, aux _ _ _ hk, aux _ _ _ hL, aux _ _ _ hd, getInitial_right h1, getInitial_right h2,
    getInitial_right h3, getInitial_right h4⟩

/-- What `d2L_dq2` is set to: the value of the option `dL_dq`. -/
theorem C49_hessian_key (env : Values V) (model : Source V) (x Px : Option V) (options : Dict (List Char) V) (a : Attrs V)
    (h : init env model x Px options = .ok a) :
    RightInit (options.get? "dL_dq".toList) id none (env.zeros ((env.shape a.x).dropLast ++ [model.nq.getD 0, model.nq.getD 0])) a.d2L_dq2 := by
  obtain ⟨-, -, -, -, hb, -, hd, -⟩ := init_eq h
  rw [hb] at hd
  exact ⟨fun v hv => by rw [hd, hv]; rfl, fun _ _ hv => (by cases hv), fun hv _ => by rw [hd, hv]; rfl⟩

/-- `d2L_dq2` is right when neither of the two options is given. -/
theorem C49_hessian_partial (env : Values V) (model : Source V) (x Px : Option V) (options : Dict (List Char) V) (a : Attrs V)
    (h : init env model x Px options = .ok a) (h1 : options.get? "dL_dq".toList = none) (h2 : options.get? "d2L_dq2".toList = none) :
    RightInit (options.get? "d2L_dq2".toList) id none (env.zeros ((env.shape a.x).dropLast ++ [model.nq.getD 0, model.nq.getD 0])) a.d2L_dq2 := by
  have := C49_hessian_key env model x Px options a h
  rw [h1] at this
  rw [h2]
  exact this

/-- The constructor returns iff the model's initial moments, where needed, are there, and no method for a derivative that is not given
raises anything but AttributeError. -/
theorem C49_returns (env : Values V) (model : Source V) (x Px : Option V) (options : Dict (List Char) V) :
    (∃ a, init env model x Px options = .ok a) ↔
      (x = none → ∃ v, model.call "x0".toList = .ok v) ∧ (Px = none → ∃ v, model.call "Px0".toList = .ok v) ∧
      ∀ kn ∈ [("dx_dq", "dx0_dq"), ("dPx_dq", "dPx0_dq"), ("d2x_dq2", "d2x0_dq2"), ("d2Px_dq2", "d2Px0_dq2")],
        options.get? kn.1.toList = none → ∀ e, model.call kn.2.toList = .error e → e = .attributeError := by
  have aux (base shape key) : (∃ v, getInitial env model base key options shape = .ok v) ↔
      (options.get? key = none → ∀ e, model.call (replaceX key) = .error e → e = .attributeError) := by
    unfold getInitial Dict.getItem
    cases options.get? key with
    | some w => exact ⟨fun _ h => (by cases h), fun _ => ⟨_, rfl⟩⟩
    | none =>
      cases hc : model.call (replaceX key) with
      | ok u => exact ⟨fun _ _ _ h => (by cases h), fun _ => ⟨_, rfl⟩⟩
      | error e =>
        change (∃ v, (if e = .attributeError then Except.ok (env.zeros (base ++ shape)) else .error e) = Except.ok v) ↔ _
        constructor
        · rintro ⟨v, hv⟩ - e' he
          cases he
          by_contra hn
          rw [if_neg hn] at hv
          cases hv
        · intro h
          rw [if_pos (h rfl e rfl)]
          exact ⟨_, rfl⟩
  constructor
  · rintro ⟨a, h⟩
    obtain ⟨hx, hPx, -, -, -, -, -, h1, h2, h3, h4⟩ := init_eq h
    refine ⟨fun e => ?_, fun e => ?_, ?_⟩
    · subst e; exact ⟨_, hx⟩
    · subst e; exact ⟨_, hPx⟩
    · intro kn hkn
      simp only [List.mem_cons, List.not_mem_nil, or_false] at hkn
      rcases hkn with rfl | rfl | rfl | rfl
      · exact (aux _ _ _).1 ⟨_, h1⟩
      · exact (aux _ _ _).1 ⟨_, h2⟩
      · exact (aux _ _ _).1 ⟨_, h3⟩
      · exact (aux _ _ _).1 ⟨_, h4⟩
  · rintro ⟨hx, hPx, hm⟩
    have hx' : ∃ v, moment env model "x0".toList x = .ok v := by
      cases x with
      | none => exact hx rfl
      | some x => exact ⟨_, rfl⟩
    have hPx' : ∃ v, moment env model "Px0".toList Px = .ok v := by
      cases Px with
      | none => exact hPx rfl
      | some x => exact ⟨_, rfl⟩
    obtain ⟨v, hv⟩ := hx'
    obtain ⟨w, hw⟩ := hPx'
    obtain ⟨d1, h1⟩ := (aux (env.shape v).dropLast [model.nq.getD 0, model.nx] "dx_dq".toList).2 (hm ("dx_dq", "dx0_dq") (by simp))
    obtain ⟨d2, h2⟩ := (aux (env.shape v).dropLast [model.nq.getD 0, model.nx, model.nx] "dPx_dq".toList).2 (hm ("dPx_dq", "dPx0_dq") (by simp))
    obtain ⟨d3, h3⟩ := (aux (env.shape v).dropLast [model.nq.getD 0, model.nq.getD 0, model.nx] "d2x_dq2".toList).2
      (hm ("d2x_dq2", "d2x0_dq2") (by simp))
    obtain ⟨d4, h4⟩ := (aux (env.shape v).dropLast [model.nq.getD 0, model.nq.getD 0, model.nx, model.nx] "d2Px_dq2".toList).2
      (hm ("d2Px_dq2", "d2Px0_dq2") (by simp))
    unfold init
    rw [hv, py_bind_ok, hw, py_bind_ok]
    dsimp only
    rw [h1, py_bind_ok, h2, py_bind_ok, h3, py_bind_ok, h4, py_bind_ok]
    exact ⟨_, rfl⟩

/-! ### A concrete case -/

namespace Demo

/-- Integer arrays as values. -/
noncomputable def env : Values (NDArray ℤ) where
  zeros s := ⟨s, List.replicate s.prod 0⟩
  asarray := id
  shape := NDArray.shape
  int0 := ⟨[], [0]⟩
  float0 := ⟨[], [0]⟩
  eqStr _ _ := false
  number v := match v.data with | [n] => .ok (n : ℝ) | _ => .error .typeError

/-- One state, one parameter, `x0() = [5]`, `Px0() = [[6]]` and `dx0_dq() = [[7]]`. -/
def model : Source (NDArray ℤ) where
  nx := 1
  nq := some 1
  call name := if name = "x0".toList then .ok ⟨[1], [5]⟩ else if name = "Px0".toList then .ok ⟨[1, 1], [6]⟩
    else if name = "dx0_dq".toList then .ok ⟨[1, 1], [7]⟩ else .error .attributeError

def options : Dict (List Char) (NDArray ℤ) := [("dPx_dq".toList, ⟨[1, 1, 1], [8]⟩), ("d2L_dq2".toList, ⟨[1, 1], [9]⟩), ("k".toList, ⟨[], [3]⟩)]

end Demo

/-- The option `d2L_dq2` is ignored; the others are not. -/
theorem C49_counterexample : init Demo.env Demo.model none none Demo.options = .ok
    ⟨⟨[1], [5]⟩, ⟨[1, 1], [6]⟩, ⟨[], [3]⟩, ⟨[], [0]⟩, [], ⟨[1], [0]⟩, ⟨[1, 1], [0]⟩, ⟨[1, 1], [7]⟩, ⟨[1, 1, 1], [8]⟩, ⟨[1, 1, 1], [0]⟩,
      ⟨[1, 1, 1, 1], [0]⟩⟩ := rfl

theorem C49_negation : ¬ HessianOption := by
  intro h
  have := (h _ _ _ _ _ _ _ C49_counterexample).of_given ⟨[1, 1], [9]⟩ rfl
  exact absurd (congrArg NDArray.data this) (by decide)

/-! ### The transforms -/

theorem get_options (word : Char → Bool) (options : Dict (List Char) V) (hw : ∀ kv ∈ options, kv.1.all word = true)
    (hd : (options.map Prod.fst).Nodup) (pre : List Char) (hp : '.' ∉ pre) (name : List Char) (hn : name ≠ []) :
    (Dict.update options (Utils.extractSubkeys word options pre)).get? name = prefixed options.get? pre name := by
  obtain ⟨h1, h2⟩ := Utils.C58_extract_subkeys word options pre hp hw hd
  rw [Dict.get?_update h1]
  unfold prefixed
  congr 1
  cases hg : options.get? (pre ++ name) with
  | some v => exact Dict.get?_of_mem h1 ((h2 name v).2 ⟨hn, Dict.mem_of_get? hg⟩)
  | none =>
    rw [Dict.get?_eq_none_iff] at hg ⊢
    intro hm
    obtain ⟨⟨a, v⟩, hm', rfl⟩ := List.mem_map.1 hm
    exact hg (List.mem_map.2 ⟨_, ((h2 a v).1 hm').2, rfl⟩)

/-- What the options say about a transform with the prefix `pre`: its kind and its `kappa`. -/
structure TransformOptions (env : Values V) (svd : Svd) (options : Dict (List Char) V) (pre : List Char) (n : Nat) (ut : UT n) : Prop where
  sqrt_default : prefixed options.get? pre "sqrt".toList = none → ut.kind = .cholesky
  sqrt_cholesky : ∀ v, prefixed options.get? pre "sqrt".toList = some v → env.eqStr v "cholesky" = true → ut.kind = .cholesky
  sqrt_svd : ∀ v, prefixed options.get? pre "sqrt".toList = some v → env.eqStr v "cholesky" = false → env.eqStr v "svd" = true ∧ ut.kind = .svd (svd n)
  kappa_default : prefixed options.get? pre "kappa".toList = none → ut.kappa = 0
  kappa_given : ∀ v, prefixed options.get? pre "kappa".toList = some v → env.number v = .ok ut.kappa
  init_eq : UT.init n ut.kind ut.kappa = .ok ut

theorem utInit_fields {n : Nat} {kind : SqrtKind (Fin n)} {kappa : ℝ} {ut : UT n} (h : UT.init n kind kappa = .ok ut) :
    ut.kind = kind ∧ ut.kappa = kappa := by
  unfold UT.init at h
  split at h
  · cases h
  · cases h; exact ⟨rfl, rfl⟩

theorem transformOf_options (env : Values V) (svd : Svd) (word : Char → Bool) (options : Dict (List Char) V)
    (hw : ∀ kv ∈ options, kv.1.all word = true) (hd : (options.map Prod.fst).Nodup) (pre : List Char) (hp : '.' ∉ pre) (n : Nat) (ut : UT n)
    (h : transformOf env svd word n pre options = .ok ut) : TransformOptions env svd options pre n ut := by
  unfold transformOf at h
  obtain ⟨kind, hk, h⟩ := py_bind_eq_ok h
  unfold chooseClass at hk
  rw [get_options word options hw hd pre hp _ (by decide)] at hk
  unfold makeTransform at h
  split at h
  · cases h
  rw [get_options word options hw hd pre hp _ (by decide)] at h
  have hf : ut.kind = kind ∧ UT.init n ut.kind ut.kappa = .ok ut ∧ (prefixed options.get? pre "kappa".toList = none → ut.kappa = 0) ∧
      ∀ v, prefixed options.get? pre "kappa".toList = some v → env.number v = .ok ut.kappa := by
    cases hq : prefixed options.get? pre "kappa".toList with
    | none =>
      rw [hq] at h
      have h : UT.init n kind 0 = .ok ut := h
      obtain ⟨rfl, h0⟩ := utInit_fields h
      exact ⟨rfl, by rw [h0]; exact h, fun _ => h0, fun _ hv => (by cases hv)⟩
    | some v =>
      rw [hq] at h
      obtain ⟨kappa, hn, h⟩ := py_bind_eq_ok h
      obtain ⟨rfl, rfl⟩ := utInit_fields h
      exact ⟨rfl, h, fun hv => (by cases hv), fun _ hv => by cases hv; exact hn⟩
  obtain ⟨rfl, hi, h0, h1⟩ := hf
  refine ⟨fun e => ?_, fun v e hc => ?_, fun v e hc => ?_, h0, h1, hi⟩
  · rw [e] at hk
    exact (Except.ok.inj hk).symm
  · rw [e] at hk
    simp only [hc, if_true] at hk
    exact (Except.ok.inj hk).symm
  · rw [e] at hk
    simp only [hc] at hk
    cases hs : env.eqStr v "svd" with
    | true =>
      rw [hs] at hk
      exact ⟨rfl, (Except.ok.inj hk).symm⟩
    | false => rw [hs] at hk; cases hk

/-- **C65.** The transform of the predictor obeys the options `pred_ut_sqrt` and `pred_ut_kappa`, that of the corrector `corr_ut_sqrt` and
`corr_ut_kappa`, each falling back to `sqrt` and `kappa` and then to Cholesky and 0; the other attributes are set as by the base class. -/
theorem C65_transform_options (env : Values V) (svd : Svd) (word : Char → Bool) (model : Source V) (x Px : Option V)
    (options : Dict (List Char) V) (hw : ∀ kv ∈ options, kv.1.all word = true) (hd : (options.map Prod.fst).Nodup)
    (a : Attrs V) (pred corr : UT model.nx) (h : initUKF env svd word model x Px options = .ok (a, pred, corr)) :
    init env model x Px options = .ok a ∧ TransformOptions env svd options "pred_ut_".toList model.nx pred ∧
      TransformOptions env svd options "corr_ut_".toList model.nx corr := by
  unfold initUKF at h
  obtain ⟨a', ha, h⟩ := py_bind_eq_ok h
  obtain ⟨c, hc, h⟩ := py_bind_eq_ok h
  obtain ⟨p, hp, h⟩ := py_bind_eq_ok h
  cases h
  exact ⟨ha, transformOf_options env svd word options hw hd _ (by decide) _ _ hp,
    transformOf_options env svd word options hw hd _ (by decide) _ _ hc⟩

/-- Any other `sqrt` raises ValueError, and `kappa = -nx` AssertionError. -/
theorem C65_transform_raises (env : Values V) (svd : Svd) (word : Char → Bool) (options : Dict (List Char) V)
    (hw : ∀ kv ∈ options, kv.1.all word = true) (hd : (options.map Prod.fst).Nodup) (pre : List Char) (hp : '.' ∉ pre) (n : Nat) (v : V) :
    (prefixed options.get? pre "sqrt".toList = some v → env.eqStr v "cholesky" = false → env.eqStr v "svd" = false →
      transformOf env svd word n pre options = .error .valueError) ∧
    (prefixed options.get? pre "sqrt".toList = none → prefixed options.get? pre "kappa".toList = some v → env.number v = .ok (-n : ℝ) →
      prefixed options.get? pre "self".toList = none → prefixed options.get? pre "ni".toList = none →
      transformOf env svd word n pre options = .error .assertionError) := by
  constructor
  · intro hs h1 h2
    unfold transformOf chooseClass
    dsimp only
    rw [get_options word options hw hd pre hp _ (by decide), hs]
    simp only [h1, h2]
    rfl
  · intro hs hk hn h1 h2
    unfold transformOf chooseClass makeTransform Dict.contains
    dsimp only
    rw [get_options word options hw hd pre hp _ (by decide), get_options word options hw hd pre hp _ (by decide),
      get_options word options hw hd pre hp _ (by decide), get_options word options hw hd pre hp _ (by decide), hs, h1, h2, hk]
    simp only [hn, py_bind_ok]
    change UT.init n .cholesky (-n : ℝ) = _
    unfold UT.init
    rw [if_pos (by simp)]

namespace Demo

/-- `kappa=2, corr_ut_kappa=1`. -/
def utOptions : Dict (List Char) (NDArray ℤ) := [("kappa".toList, ⟨[], [2]⟩), ("corr_ut_kappa".toList, ⟨[], [1]⟩)]

end Demo

/-- With `kappa=2, corr_ut_kappa=1` the constructor returns, and the predictor has 2 and the corrector 1. -/
example (svd : Svd) : ∃ a pred corr, initUKF Demo.env svd (fun c => c.isAlphanum || c == '_') Demo.model none none Demo.utOptions = .ok (a, pred, corr) ∧
    pred.kappa = 2 ∧ corr.kappa = 1 := by
  have hw : ∀ kv ∈ Demo.utOptions, kv.1.all (fun c => c.isAlphanum || c == '_') = true := by decide
  have hd : (Demo.utOptions.map Prod.fst).Nodup := by decide
  have aux (pre : List Char) (hp : '.' ∉ pre) (m : ℤ) (hm : (1 : ℝ) + (m : ℝ) ≠ 0)
      (hk : prefixed Demo.utOptions.get? pre "kappa".toList = some ⟨[], [m]⟩)
      (hs : prefixed Demo.utOptions.get? pre "sqrt".toList = none)
      (h1 : prefixed Demo.utOptions.get? pre "self".toList = none) (h2 : prefixed Demo.utOptions.get? pre "ni".toList = none) :
      ∃ ut, transformOf Demo.env svd (fun c => c.isAlphanum || c == '_') Demo.model.nx pre Demo.utOptions = .ok ut := by
    unfold transformOf chooseClass makeTransform Dict.contains
    dsimp only
    rw [get_options _ _ hw hd pre hp _ (by decide), get_options _ _ hw hd pre hp _ (by decide),
      get_options _ _ hw hd pre hp _ (by decide), get_options _ _ hw hd pre hp _ (by decide), hs, h1, h2, hk]
    change ∃ ut, UT.init Demo.model.nx .cholesky (m : ℝ) = .ok ut
    unfold UT.init
    rw [if_neg (by change ((1 : ℕ) : ℝ) + m ≠ 0; rw [Nat.cast_one]; exact hm)]
    exact ⟨_, rfl⟩
  obtain ⟨pred, hp⟩ := aux "pred_ut_".toList (by decide) 2 (by norm_num) (by decide) (by decide) (by decide) (by decide)
  obtain ⟨corr, hc⟩ := aux "corr_ut_".toList (by decide) 1 (by norm_num) (by decide) (by decide) (by decide) (by decide)
  obtain ⟨a, ha⟩ : ∃ a, init Demo.env Demo.model none none Demo.utOptions = .ok a := ⟨_, rfl⟩
  have h : initUKF Demo.env svd (fun c => c.isAlphanum || c == '_') Demo.model none none Demo.utOptions = .ok (a, pred, corr) := by
    unfold initUKF
    rw [ha, py_bind_ok, hc, py_bind_ok, hp]
    rfl
  obtain ⟨-, h1, h2⟩ := C65_transform_options _ _ _ _ _ _ _ hw hd _ _ _ h
  have e1 := h1.kappa_given ⟨[], [2]⟩ (by decide)
  have e2 := h2.kappa_given ⟨[], [1]⟩ (by decide)
  have e1 : ((2 : ℤ) : ℝ) = pred.kappa := Except.ok.inj e1
  have e2 : ((1 : ℤ) : ℝ) = corr.kappa := Except.ok.inj e2
  exact ⟨a, pred, corr, h, by rw [← e1]; norm_num, by rw [← e2]; norm_num⟩

end Ceacoest.KalmanInit
