import Verif.Lemmas.Dict
import Verif.Lemmas.Lists
import Verif.Model.GenCall

/-! # C81: calls of generated functions with keyword arguments -/

namespace Ceacoest
variable {α : Type} {β : Type}

private theorem drop_zip' {γ δ : Type} (l : List γ) (m : List δ) (n : Nat) :
    (l.zip m).drop n = (l.drop n).zip (m.drop n) := List.drop_zipWith

/-- Spec: the call gives the value `vals[i]` to the parameter `params[i]`: the first arguments by position, all others
by keyword, in some order. -/
def GivesAll (params : List String) (vals args : List β) (kwargs : Dict String β) : Prop :=
  vals.length = params.length ∧ args <+: vals ∧ kwargs.Perm ((params.zip vals).drop args.length)

/-- A call of all positional arguments. -/
theorem givesAll_positional {params : List String} {vals : List β} (h : vals.length = params.length) :
    GivesAll params vals vals [] := by
  refine ⟨h, List.prefix_rfl, ?_⟩
  rw [List.drop_eq_nil_of_le (by simp)]

/-- A call of all arguments by keyword, in any order. -/
theorem givesAll_keywords {params : List String} {vals : List β} (h : vals.length = params.length) {kw : Dict String β}
    (hk : kw.Perm (params.zip vals)) : GivesAll params vals [] kw := ⟨h, List.nil_prefix, by simpa using hk⟩

/-- The binding of arguments succeeds exactly for the calls that give each parameter one value, and binds these. -/
theorem C81_bind {params : List String} {vals args : List β} {kwargs : Dict String β} (hn : params.Nodup)
    (hk : (Dict.keys kwargs).Nodup) : pyBind params args kwargs = .ok vals ↔ GivesAll params vals args kwargs := by
  unfold pyBind GivesAll
  by_cases hlen : params.length < args.length
  · rw [if_pos hlen]
    constructor
    · intro h; exact absurd h (by simp)
    · rintro ⟨h1, h2, -⟩
      have := h2.length_le; omega
  rw [if_neg hlen]
  dsimp only
  by_cases hany : kwargs.any (fun kv => decide (kv.1 ∉ params.drop args.length)) = true
  · rw [if_pos hany]
    constructor
    · intro h; exact absurd h (by simp)
    · rintro ⟨h1, h2, h3⟩
      rw [List.any_eq_true] at hany
      obtain ⟨kv, hkv, h⟩ := hany
      have hm := h3.subset hkv
      rw [drop_zip'] at hm
      exact absurd (List.of_mem_zip hm).1 (by simpa using h)
  rw [if_neg hany]
  have hin : ∀ kv ∈ kwargs, kv.1 ∈ params.drop args.length := by
    intro kv hkv
    by_contra h
    exact hany (List.any_eq_true.2 ⟨kv, hkv, by simpa using h⟩)
  have hnd : (params.drop args.length).Nodup := hn.sublist (List.drop_sublist _ _)
  constructor
  · intro h
    cases hrest : (params.drop args.length).mapM (kwItem kwargs) with
    | error e => rw [hrest] at h; cases h
    | ok rest => ?_
    rw [hrest] at h
    cases h
    rw [mapM_ok_iff] at hrest
    have hr : List.Forall₂ (fun n v => Dict.get? kwargs n = some v) (params.drop args.length) rest := by
      refine hrest.imp fun n v h => ?_
      unfold kwItem at h
      cases hg : Dict.get? kwargs n <;> simp_all
    have hlr := hr.length_eq
    rw [List.length_drop] at hlr
    refine ⟨by simp; omega, List.prefix_append _ _, ?_⟩
    rw [drop_zip', List.drop_left]
    rw [List.perm_ext_iff_of_nodup (List.Nodup.of_map _ hk)
      (List.Nodup.of_map Prod.fst (by rw [List.map_fst_zip (by simp; omega)]; exact hnd))]
    rintro ⟨k, v⟩
    constructor
    · intro hm
      obtain ⟨i, hi, hki⟩ := List.getElem_of_mem (hin _ hm)
      have hi' : i < rest.length := hr.length_eq ▸ hi
      have := hr.get hi hi'
      simp only [List.get_eq_getElem] at this
      rw [hki, Dict.get?_of_mem hk hm] at this
      cases this
      have hz : i < ((params.drop args.length).zip rest).length := by simp at hi ⊢; omega
      have := List.getElem_mem hz
      rw [List.getElem_zip, hki] at this
      exact this
    · intro hm
      obtain ⟨i, hz, hi⟩ := List.getElem_of_mem hm
      rw [List.getElem_zip] at hi
      cases hi
      have h1 : i < (params.drop args.length).length := by simp at hz ⊢; omega
      have h2 : i < rest.length := by simp at hz ⊢; omega
      have := hr.get h1 h2
      exact Dict.mem_of_get? this
  · rintro ⟨h1, ⟨rest, rfl⟩, h3⟩
    rw [drop_zip', List.drop_left] at h3
    rw [List.length_append] at h1
    suffices hs : (params.drop args.length).mapM (kwItem kwargs) = .ok rest by rw [hs]; rfl
    rw [mapM_ok_iff, List.forall₂_iff_get]
    refine ⟨by simp; omega, fun i hi hi' => ?_⟩
    have hm : ((params.drop args.length)[i], rest[i]) ∈ kwargs := by
      rw [h3.mem_iff]
      have hz : i < ((params.drop args.length).zip rest).length := by simp at hi ⊢; omega
      have := List.getElem_mem hz
      rwa [List.getElem_zip] at this
    simp only [List.get_eq_getElem]
    rw [kwItem, Dict.get?_of_mem hk hm]

theorem GivesAll.keys {params : List String} {vals args : List β} {kwargs : Dict String β} (hn : params.Nodup)
    (h : GivesAll params vals args kwargs) : (Dict.keys kwargs).Nodup ∧ ∀ k ∈ Dict.keys kwargs, k ∈ params := by
  obtain ⟨h1, h2, h3⟩ := h
  have h4 := h3.map Prod.fst
  rw [List.map_drop, List.map_fst_zip (by omega)] at h4
  exact ⟨h4.nodup_iff.2 (hn.sublist (List.drop_sublist _ _)), fun k hk => List.mem_of_mem_drop (h4.subset hk)⟩

/-- `sig_arg_names` of a generated function: the arguments of the method without the model. -/
theorem C81_sigArgNames (f : GenFun α) : sigArgNames f.signature = f.argNames := rfl

theorem GenFun.bind_of_gives {f : GenFun α} (hn : f.argNames.Nodup) {vals args : List (NDArray α)}
    {kwargs : Dict String (NDArray α)} (h : GivesAll f.argNames vals args kwargs) : f.bind args kwargs = .ok vals :=
  (C81_bind hn (h.keys hn).1).2 h

theorem not_contains_of_gives {f : GenFun α} (hn : f.argNames.Nodup) {s : String} (hs : s ∉ f.argNames)
    {vals args : List (NDArray α)} {kwargs : Dict String (NDArray α)} (h : GivesAll f.argNames vals args kwargs) :
    ¬ Dict.contains kwargs s = true := by
  rw [Dict.contains_iff]
  exact fun hc => hs ((h.keys hn).2 _ hc)

/-- **C81** (evaluation). Every way to pass the arguments, by position or by keyword, has the value of the positional
call. -/
theorem C81_call (f : GenFun α) (hn : f.methodParams.Nodup) {vals args : List (NDArray α)}
    {kwargs : Dict String (NDArray α)} (h : GivesAll f.argNames vals args kwargs) :
    f.callKw args kwargs = .ok (f.method vals) := by
  obtain ⟨hs, hn⟩ := List.nodup_cons.1 hn
  unfold GenFun.callKw
  rw [if_neg (not_contains_of_gives hn hs h), GenFun.bind_of_gives hn h]
  rfl

/-- **C81** (evaluation). A call that does not give each argument exactly one value raises TypeError. -/
theorem C81_call_raises (f : GenFun α) (hn : f.methodParams.Nodup) {args : List (NDArray α)}
    {kwargs : Dict String (NDArray α)} (hk : (Dict.keys kwargs).Nodup)
    (h : ∀ vals, ¬ GivesAll f.argNames vals args kwargs) : f.callKw args kwargs = .error .typeError := by
  obtain ⟨hs, hn⟩ := List.nodup_cons.1 hn
  have hb : f.bind args kwargs = .error .typeError := by
    have h' : ∀ vals, pyBind f.argNames args kwargs ≠ .ok vals := fun vals hv => h vals ((C81_bind hn hk).1 hv)
    change pyBind f.argNames args kwargs = .error .typeError
    unfold pyBind at h' ⊢
    split
    · rfl
    rename_i h1
    rw [if_neg h1] at h'
    dsimp only at h' ⊢
    split
    · rfl
    rename_i h2
    rw [if_neg h2] at h'
    generalize (f.argNames.drop args.length) = l at h' ⊢
    have key : ∀ l : List String, (∃ r, l.mapM (kwItem kwargs) = .ok r) ∨
        l.mapM (kwItem kwargs) = .error .typeError := by
      intro l
      induction l with
      | nil => exact Or.inl ⟨_, rfl⟩
      | cons n l ih =>
        rw [List.mapM_cons, kwItem]
        cases Dict.get? kwargs n with
        | none => exact Or.inr rfl
        | some v =>
          rcases ih with ⟨r, hr⟩ | hr
          · exact Or.inl ⟨v :: r, by rw [hr]; rfl⟩
          · exact Or.inr (by rw [hr]; rfl)
    rcases key l with ⟨r, hr⟩ | hr
    · exact absurd (by rw [hr]; rfl) (h' (args ++ r))
    · rw [hr]; rfl
  unfold GenFun.callKw
  split
  · rfl
  · rw [hb]; rfl

/-- **C81** (evaluation). A positional call with another number of arguments raises TypeError; so does the evaluation of
a function of a problem that was declared with a list `args` of another length (optim.py:344-346). -/
theorem C81_arity (f : GenFun α) (hn : f.methodParams.Nodup) {args : List (NDArray α)}
    (hl : args.length ≠ f.argNames.length) : f.callKw args [] = .error .typeError := by
  refine C81_call_raises f hn (by simp [Dict.keys]) ?_
  rintro vals ⟨h1, ⟨rest, rfl⟩, h3⟩
  have := h3.length_eq
  simp only [List.length_nil, List.length_drop, List.length_zip, List.length_append] at this h1
  omega

/-- **C81** (gradient). Every way to pass the arguments has the gradient of the positional call, each block with the
shape of its variable. -/
theorem C81_grad [Zero α] [Add α] (f : GenFun α) (hn : f.methodParams.Nodup) {vals args : List (NDArray α)}
    {kwargs : Dict String (NDArray α)} (h : GivesAll f.argNames vals args kwargs) :
    f.gradKw args kwargs = f.gradFun vals := by
  obtain ⟨hs, hn⟩ := List.nodup_cons.1 hn
  unfold GenFun.gradKw GenFun.gradFun
  rw [if_neg (not_contains_of_gives hn hs h), GenFun.bind_of_gives hn h]
  congr 1
  funext ret wd
  rw [py_bind_ok]
  dsimp only
  split
  · rfl
  have hsig : f.signature = f.argNames := rfl
  rw [hsig]
  obtain ⟨hkn, hki⟩ := h.keys hn
  obtain ⟨h1, ⟨rest, rfl⟩, h3⟩ := h
  rw [drop_zip', List.drop_left] at h3
  rw [List.length_append] at h1
  cases hidx : f.argNames.findIdx? (· = wd.1) with
  | none =>
    rw [List.findIdx?_eq_none_iff] at hidx
    have : Dict.get? kwargs wd.1 = none := by
      rw [Dict.get?_eq_none_iff]
      intro hc
      have := hidx _ (hki _ hc)
      simp at this
    rw [this]; rfl
  | some i =>
    rw [List.findIdx?_eq_some_iff_getElem] at hidx
    obtain ⟨hi, hwi, -⟩ := hidx
    have hwi : f.argNames[i] = wd.1 := by simpa using hwi
    by_cases hia : i < args.length
    · have hno : Dict.get? kwargs wd.1 = none := by
        rw [Dict.get?_eq_none_iff]
        intro hc
        have h4 := h3.map Prod.fst
        rw [List.map_fst_zip (by simp; omega)] at h4
        have hc' : wd.1 ∈ f.argNames.drop args.length := h4.subset hc
        obtain ⟨j, hj, hjw⟩ := List.getElem_of_mem hc'
        rw [List.getElem_drop, ← hwi, hn.getElem_inj_iff] at hjw
        omega
      rw [hno]
      dsimp only
      rw [List.getElem?_append_left hia, List.getElem?_eq_getElem hia]
      rfl
    · have hm : (wd.1, rest[i - args.length]'(by omega)) ∈ kwargs := by
        rw [h3.mem_iff]
        have hz : i - args.length < ((f.argNames.drop args.length).zip rest).length := by simp; omega
        have := List.getElem_mem hz
        rw [List.getElem_zip, List.getElem_drop] at this
        have e : args.length + (i - args.length) = i := by omega
        simp only [e, hwi] at this
        exact this
      rw [Dict.get?_of_mem hkn hm]
      dsimp only
      rw [List.getElem?_append_right (by omega), List.getElem?_eq_getElem (by omega)]
      rfl

theorem sparseValKw_eq (f : GenFun α) (hn : f.methodParams.Nodup) (deriv : Dict (List String) (SparseDeriv α))
    {vals args : List (NDArray α)} {kwargs : Dict String (NDArray α)} (h : GivesAll f.argNames vals args kwargs)
    (hd : "deriv" ∉ Dict.keys kwargs) : f.sparseValKw deriv args kwargs = .ok (GenFun.sparseVal deriv vals) := by
  obtain ⟨hs, hn⟩ := List.nodup_cons.1 hn
  unfold GenFun.sparseValKw
  rw [if_neg (not_contains_of_gives hn hs h), if_neg (by rwa [Dict.contains_iff]), GenFun.bind_of_gives hn h]
  exact mapM_ok fun _ _ => rfl

/-- **C81** (sparse derivatives). Every way to pass the arguments has the derivative values of the positional call, if
no argument named `deriv` is passed by keyword. -/
theorem C81_values (f : GenFun α) (hn : f.methodParams.Nodup) {vals args : List (NDArray α)}
    {kwargs : Dict String (NDArray α)} (h : GivesAll f.argNames vals args kwargs) (hd : "deriv" ∉ Dict.keys kwargs) :
    f.jacValKw args kwargs = .ok (GenFun.sparseVal f.jac vals) ∧
      f.hessValKw args kwargs = .ok (GenFun.sparseVal f.hess vals) :=
  ⟨sparseValKw_eq f hn _ h hd, sparseValKw_eq f hn _ h hd⟩

/-- **C81** (the name `deriv`). A model variable of this name can be passed by keyword to the function and its gradient,
but `jac_val` and `hess_val` then raise TypeError. -/
theorem C81_deriv_name (f : GenFun α) {args : List (NDArray α)} {kwargs : Dict String (NDArray α)}
    (hd : "deriv" ∈ Dict.keys kwargs) :
    f.jacValKw args kwargs = .error .typeError ∧ f.hessValKw args kwargs = .error .typeError := by
  have : Dict.contains kwargs "deriv" = true := Dict.contains_iff.2 hd
  unfold GenFun.jacValKw GenFun.hessValKw GenFun.sparseValKw
  rw [if_pos this]
  constructor <;> split <;> rfl

/-- An objective with arguments `x` and `deriv`. -/
private def exKw : GenFun Int :=
  ⟨"f", ["x", "deriv"], [], [("x", [1]), ("deriv", [1])], fun v => v.headD ⟨[], []⟩,
    [("deriv", fun v => v.headD ⟨[], []⟩)], [], [(["x", "x"], ⟨1, [[0], [0], [0]], fun v => v.headD ⟨[], []⟩⟩)]⟩

/-- The hypotheses hold for a call with one argument by position and one by keyword, and for one with both by keyword in
the other order. -/
example : let x : NDArray Int := ⟨[2], [1, 2]⟩
    let d : NDArray Int := ⟨[1], [3]⟩
    exKw.methodParams.Nodup ∧ GivesAll exKw.argNames [x, d] [x] [("deriv", d)] ∧
      GivesAll exKw.argNames [x, d] [] [("deriv", d), ("x", x)] := by
  refine ⟨by decide, ⟨rfl, ⟨_, rfl⟩, List.Perm.refl _⟩, ⟨rfl, List.nil_prefix, ?_⟩⟩
  exact List.Perm.swap _ _ _

/-- There the gradient is the one of the positional call, summed to the shape of the variable passed by keyword, while
`hess_val` raises. -/
example : exKw.gradKw [] [("deriv", ⟨[1], [3]⟩), ("x", ⟨[2], [1, 2]⟩)] = .ok [("deriv", ⟨[1], [3]⟩)] ∧
    exKw.hessValKw [] [("deriv", ⟨[1], [3]⟩), ("x", ⟨[2], [1, 2]⟩)] = .error .typeError := by
  constructor <;> rfl

end Ceacoest
