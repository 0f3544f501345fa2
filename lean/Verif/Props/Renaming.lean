import Verif.Lemmas.Dict
import Verif.Lemmas.Lists
import Verif.Model.Optim

/-! # C32: renamed arguments -/

namespace Ceacoest
variable {α : Type}

theorem Dict.get?_zip {κ β : Type _} [DecidableEq κ] {a : List κ} {b : List β} (hn : a.Nodup) (hl : a.length = b.length)
    {j : Nat} (hj : j < a.length) : Dict.get? (a.zip b) a[j] = some (b[j]'(hl ▸ hj)) := by
  apply Dict.get?_of_mem
  · rw [Dict.keys, List.map_fst_zip (by omega)]; exact hn
  · have : j < (a.zip b).length := by simp; omega
    have h := List.getElem_mem this
    simpa using h

/-- **C32** (names). The renaming sends each signature name to the problem variable passed for it. -/
theorem C32_renameName (sh : List Nat) (fn : GenFun α) (args : Option (List String)) (hsig : fn.argNames.Nodup)
    (hl : ∀ as, args = some as → as.length = fn.argNames.length) (j : Nat) (hj : j < fn.argNames.length) :
    (OptFun.mk' sh fn args).renameName fn.argNames[j] = (OptFun.mk' sh fn args).args.getD j "" := by
  cases args with
  | none => simp [OptFun.mk', OptFun.renameName, hj]
  | some as =>
    have hl := hl as rfl
    simp only [OptFun.mk', OptFun.renameName]
    rw [Dict.update_nil_of_nodup (by rw [Dict.keys, List.map_fst_zip (by omega)]; exact hsig),
      Dict.get?_zip hsig hl.symm hj]
    simp [hl, hj]

/-- **C32** (evaluation). The function is called on exactly the values of the listed problem variables, in order. -/
theorem C32_call (sh : List Nat) (fn : GenFun α) (as : List String) (vs : Dict String (NDArray α))
    (vals : List (NDArray α)) (hv : List.Forall₂ (fun a v => Dict.get? vs a = some v) as vals) :
    (OptFun.mk' sh fn (some as)).call vs = .ok (fn.method vals) := by
  have : (OptFun.mk' sh fn (some as)).argVals vs = .ok vals := by
    unfold OptFun.argVals
    rw [mapM_ok_iff]
    refine hv.imp fun a v h => ?_
    simp [Dict.getItem, h]
  unfold OptFun.call
  rw [this]
  rfl

/-- An unknown variable name raises KeyError. -/
theorem C32_call_unknown (sh : List Nat) (fn : GenFun α) (a : String) (as : List String) (vs : Dict String (NDArray α))
    (h : Dict.get? vs a = none) : (OptFun.mk' sh fn (some (a :: as))).call vs = .error .keyError := by
  simp [OptFun.call, OptFun.argVals, OptFun.mk', Dict.getItem, h, List.mapM_cons]

theorem renameKwargs_fold {β : Type} (kw : Dict String β) (l : Dict String String) (r : Dict String β)
    (hn : (Dict.keys l).Nodup) (a : String) :
    Dict.get? (l.foldl (fun r fp => match Dict.get? kw fp.2 with | some v => Dict.set r fp.1 v | none => r) r) a =
      match Dict.get? l a with
      | none => Dict.get? r a
      | some q => (Dict.get? kw q).or (Dict.get? r a) := by
  induction l generalizing r with
  | nil => rfl
  | cons fp l ih =>
    obtain ⟨f, q⟩ := fp
    simp only [Dict.keys, List.map_cons, List.nodup_cons] at hn
    rw [List.foldl_cons, ih _ hn.2, Dict.get?_cons]
    by_cases h : f = a
    · subst h
      rw [if_pos rfl, Dict.get?_eq_none_iff.2 hn.1]
      cases hq : Dict.get? kw q with
      | none => simp [hq]
      | some v => simp [Dict.get?_set, hq]
    · rw [if_neg h]
      cases hq : Dict.get? kw q with
      | none => rfl
      | some v => simp [Dict.get?_set, h]

/-- **C32** (shapes). The shape seen under a signature name is the shape of the problem variable passed for it, whenever
that variable exists. -/
theorem C32_renameKwargs {β : Type} (sh : List Nat) (fn : GenFun α) (args : Option (List String))
    (hsig : fn.argNames.Nodup) (hl : ∀ as, args = some as → as.length = fn.argNames.length) (kw : Dict String β)
    (j : Nat) (hj : j < fn.argNames.length) (v : β)
    (hv : Dict.get? kw ((OptFun.mk' sh fn args).args.getD j "") = some v) :
    Dict.get? ((OptFun.mk' sh fn args).renameKwargs kw) fn.argNames[j] = some v := by
  cases args with
  | none => simpa [OptFun.mk', OptFun.renameKwargs, hj] using hv
  | some as =>
    have hl := hl as rfl
    have hz : Dict.update [] (fn.argNames.zip as) = fn.argNames.zip as :=
      Dict.update_nil_of_nodup (by rw [Dict.keys, List.map_fst_zip (by omega)]; exact hsig)
    simp only [OptFun.mk', OptFun.renameKwargs, hz] at hv ⊢
    rw [if_neg (by intro h; have := congrArg List.length h; simp [hl] at this; simp [this] at hj)]
    refine (renameKwargs_fold kw (fn.argNames.zip as) kw
      (by rw [Dict.keys, List.map_fst_zip (by omega)]; exact hsig) _).trans ?_
    rw [Dict.get?_zip hsig hl.symm hj]
    simp only [List.getD_eq_getElem?_getD, List.getElem?_eq_getElem (show j < as.length by omega), Option.getD_some] at hv
    simp [hv]

/-- **C32** (derivatives). When the argument names are distinct, renaming a dictionary of derivatives keeps every block,
in order, credited to the problem variables passed for the differentiated arguments. -/
theorem C32_renameTup {β : Type} (sh : List Nat) (fn : GenFun α) (args : Option (List String))
    (hsig : fn.argNames.Nodup) (hl : ∀ as, args = some as → as.length = fn.argNames.length ∧ as.Nodup)
    (deriv : Dict (List String) β) (hk : (Dict.keys deriv).Nodup)
    (hin : ∀ kv ∈ deriv, ∀ a ∈ kv.1, a ∈ fn.argNames) :
    (OptFun.mk' sh fn args).renameTup deriv =
      deriv.map fun kv => (kv.1.map fun a => (OptFun.mk' sh fn args).args.getD (fn.argNames.idxOf a) "", kv.2) := by
  have hname : ∀ a ∈ fn.argNames, (OptFun.mk' sh fn args).renameName a =
      (OptFun.mk' sh fn args).args.getD (fn.argNames.idxOf a) "" := fun a ha => by
    have h := C32_renameName sh fn args hsig (fun as h => (hl as h).1) (fn.argNames.idxOf a) (List.idxOf_lt_length_iff.2 ha)
    rwa [List.getElem_idxOf] at h
  have hargs : (OptFun.mk' sh fn args).args.length = fn.argNames.length ∧ (OptFun.mk' sh fn args).args.Nodup := by
    cases args with
    | none => exact ⟨rfl, hsig⟩
    | some as => exact hl as rfl
  have hinj : ∀ a ∈ fn.argNames, ∀ b ∈ fn.argNames, (OptFun.mk' sh fn args).args.getD (fn.argNames.idxOf a) "" =
      (OptFun.mk' sh fn args).args.getD (fn.argNames.idxOf b) "" → a = b := by
    intro a ha b hb h
    have h1 := List.idxOf_lt_length_iff.2 ha
    have h2 := List.idxOf_lt_length_iff.2 hb
    rw [← hargs.1] at h1 h2
    simp only [List.getD_eq_getElem?_getD, List.getElem?_eq_getElem h1, List.getElem?_eq_getElem h2,
      Option.getD_some] at h
    have h3 := (hargs.2.getElem_inj_iff).1 h
    exact (List.idxOf_inj ha).1 h3
  have hmap : (deriv.map fun kv => (kv.1.map (OptFun.mk' sh fn args).renameName, kv.2)) =
      deriv.map fun kv => (kv.1.map fun a => (OptFun.mk' sh fn args).args.getD (fn.argNames.idxOf a) "", kv.2) := by
    refine List.map_congr_left fun kv hkv => ?_
    congr 1
    exact List.map_congr_left fun a ha => hname a (hin kv hkv a ha)
  unfold OptFun.renameTup
  split
  · next h =>
    rw [← hmap]
    have : ∀ a, (OptFun.mk' sh fn args).renameName a = a := fun a => by simp [OptFun.renameName, h]
    conv_lhs => rw [← List.map_id deriv]
    refine List.map_congr_left fun kv _ => ?_
    have h2 : (OptFun.mk' sh fn args).renameName = id := funext this
    simp [h2]
  · rw [hmap]
    apply Dict.update_nil_of_nodup
    have : Dict.keys (deriv.map fun kv =>
        (kv.1.map fun a => (OptFun.mk' sh fn args).args.getD (fn.argNames.idxOf a) "", kv.2)) =
        (Dict.keys deriv).map fun k => k.map fun a => (OptFun.mk' sh fn args).args.getD (fn.argNames.idxOf a) "" := by
      simp [Dict.keys, Function.comp_def]
    rw [this]
    refine List.Nodup.map_on ?_ hk
    intro x hx y hy hxy
    obtain ⟨kv, hkv, rfl⟩ := List.mem_map.1 hx
    obtain ⟨kv', hkv', rfl⟩ := List.mem_map.1 hy
    have hlen : kv.1.length = kv'.1.length := by simpa using congrArg List.length hxy
    refine List.ext_getElem hlen fun i h1 h2 => ?_
    have h := List.getElem_of_eq hxy (i := i) (by simpa using h1)
    simp only [List.getElem_map] at h
    exact hinj _ (hin kv hkv _ (List.getElem_mem h1)) _ (hin kv' hkv' _ (List.getElem_mem h2)) h

theorem renameStr_eq_tup {β : Type} (o : OptFun α) (d : Dict String β) :
    ((o.renameStr d).map fun kv => ([kv.1], kv.2)) = o.renameTup (d.map fun kv => ([kv.1], kv.2)) := by
  have key : ∀ (e : Dict String β) (r : Dict String β), ((Dict.update r e).map fun kv => ([kv.1], kv.2)) =
      Dict.update (r.map fun kv => ([kv.1], kv.2)) (e.map fun kv => ([kv.1], kv.2)) := by
    intro e
    have hset : ∀ (r : Dict String β) (k : String) (v : β), ((Dict.set r k v).map fun kv => ([kv.1], kv.2)) =
        Dict.set (r.map fun kv => ([kv.1], kv.2)) [k] v := by
      intro r k v
      induction r with
      | nil => rfl
      | cons a r ih =>
        obtain ⟨k', v'⟩ := a
        simp only [Dict.set, List.map_cons]
        by_cases h : k' = k
        · simp [h]
        · simp [h, ih]
    induction e with
    | nil => intro r; rfl
    | cons a e ih => intro r; rw [Dict.update_cons, ih, List.map_cons, Dict.update_cons, hset]
  unfold OptFun.renameStr OptFun.renameTup
  split
  · rfl
  · rw [key]
    congr 1
    simp

/-- **C32** (dense gradients), as `C32_renameTup`. -/
theorem C32_renameStr {β : Type} (sh : List Nat) (fn : GenFun α) (args : Option (List String))
    (hsig : fn.argNames.Nodup) (hl : ∀ as, args = some as → as.length = fn.argNames.length ∧ as.Nodup)
    (deriv : Dict String β) (hk : (Dict.keys deriv).Nodup)
    (hin : ∀ kv ∈ deriv, kv.1 ∈ fn.argNames) :
    (OptFun.mk' sh fn args).renameStr deriv =
      deriv.map fun kv => ((OptFun.mk' sh fn args).args.getD (fn.argNames.idxOf kv.1) "", kv.2) := by
  have h := renameStr_eq_tup (OptFun.mk' sh fn args) deriv
  rw [C32_renameTup sh fn args hsig hl] at h
  · have hinj : Function.Injective fun kv : String × β => ([kv.1], kv.2) := by
      rintro ⟨a, b⟩ ⟨c, d⟩ h
      simpa using h
    apply List.map_injective_iff.2 hinj
    rw [h]
    simp
  · have : Dict.keys (deriv.map fun kv => ([kv.1], kv.2)) = (Dict.keys deriv).map fun k => [k] := by
      simp [Dict.keys, Function.comp_def]
    rw [this]
    exact hk.map fun a b h => by simpa using h
  · intro kv hkv a ha
    obtain ⟨kv', hkv', rfl⟩ := List.mem_map.1 hkv
    simp only [List.mem_singleton] at ha
    subst ha
    exact hin kv' hkv'

/-- Renaming with an exchange of names: blocks for `a`, `b` go to `b`, `a`. -/
example : let f : GenFun Int := ⟨"f", ["a", "b"], [], [], fun a => a.headD ⟨[], []⟩, [], [], []⟩
    let o := OptFun.mk' [] f (some ["b", "a"])
    o.renameTup [(["a", "a"], 1), (["a", "b"], 2)] = [(["b", "b"], 1), (["b", "a"], 2)] ∧
    o.renameStr [("a", 1), ("b", 2)] = [("b", 1), ("a", 2)] ∧
    Dict.get? (o.renameKwargs [("a", 10), ("b", 20)]) "a" = some 20 := by decide

/-- Passing one problem variable for two arguments loses a derivative block: the condition of distinct names in C32 is
necessary. -/
theorem C32_repeated_argument_loses_a_block :
    let f : GenFun Int := ⟨"f", ["a", "b"], [], [], fun a => a.headD ⟨[], []⟩, [], [], []⟩
    (OptFun.mk' [] f (some ["x", "x"])).renameStr [("a", 1), ("b", 2)] = [("x", 2)] := by decide

end Ceacoest
