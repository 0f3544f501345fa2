import Verif.Lemmas.Layout

/-!
# C01 – C04, C06, C07: layout of the decision and constraint vectors
-/

namespace Ceacoest
variable {α : Type}
open Spec

/-! ### C01 -/

/-- **C01.** After any history of registration calls (including rejected ones) the decision variables are, in order, the
declared ones; their ranges tile `[0, ndec)` in that order; every decision index lies in exactly one of them. -/
theorem C01_decision_layout (calls : List (Problem.Call α)) :
    (Problem.run calls).decision.map (fun kv => (kv.1, kv.2.shape)) = decisions calls ∧
    Tiles ((Problem.run calls).decision.map fun kv => (kv.2.offset, kv.2.shape.prod)) (Problem.run calls).ndec ∧
    ∀ d < (Problem.run calls).ndec, ∃! k, ∃ hk : k < (Problem.run calls).decision.length,
      ((Problem.run calls).decision[k]).2.offset ≤ d ∧
      d < ((Problem.run calls).decision[k]).2.offset + ((Problem.run calls).decision[k]).2.shape.prod := by
  have h := inv_run calls
  refine ⟨h.dec, h.decTiles, fun d hd => ?_⟩
  obtain ⟨k, ⟨hk, h1⟩, hu⟩ := h.decTiles.existsUnique d hd
  simp only [List.length_map, List.getElem_map] at hk h1
  refine ⟨k, ⟨hk, h1⟩, ?_⟩
  rintro k' ⟨hk', h1'⟩
  exact hu k' ⟨by simpa using hk', by simpa using h1'⟩

/-- A history with a rejected call, a scalar and an integer shape. -/
example : let p : Problem Nat := Problem.run [.decision (.str "x") (.tuple [3, 2]), .decision (.str "x") (.int 7),
      .decision (.str "s") (.tuple []), .decision .other (.int 1), .decision (.str "p") (.int 4)]
    p.decision = [("x", ⟨[3, 2], 0⟩), ("s", ⟨[], 6⟩), ("p", ⟨[4], 7⟩)] ∧ p.ndec = 11 := by decide

/-! ### C02 -/

/-- **C02.** The constraints are, in order, the declared ones and their ranges tile `[0, ncons)` in that order. -/
theorem C02_constraint_layout (calls : List (Problem.Call α)) :
    (Problem.run calls).constraints.map (fun c => (c.fn.fn, c.fn.shape)) =
      (constraintCalls calls).map (fun c => (c.1, c.2.1)) ∧
    Tiles ((Problem.run calls).constraints.map fun c => (c.offset, c.fn.shape.prod)) (Problem.run calls).ncons ∧
    ∀ d < (Problem.run calls).ncons, ∃! k, ∃ hk : k < (Problem.run calls).constraints.length,
      ((Problem.run calls).constraints[k]).offset ≤ d ∧
      d < ((Problem.run calls).constraints[k]).offset + ((Problem.run calls).constraints[k]).fn.shape.prod := by
  have h := inv_run calls
  refine ⟨h.con, h.conTiles, fun d hd => ?_⟩
  obtain ⟨k, ⟨hk, h1⟩, hu⟩ := h.conTiles.existsUnique d hd
  simp only [List.length_map, List.getElem_map] at hk h1
  refine ⟨k, ⟨hk, h1⟩, ?_⟩
  rintro k' ⟨hk', h1'⟩
  exact hu k' ⟨by simpa using hk', by simpa using h1'⟩

/-- A small generated function for the examples. -/
def exFun (name : String) (args : List String) (f : List (NDArray Int) → NDArray Int) : GenFun Int :=
  ⟨name, args, [], [], f, [], [], []⟩

example : let p : Problem Int := Problem.run [
      .constraint (exFun "g" ["x"] fun _ => ⟨[], [0]⟩) (.tuple [2, 2]) none,
      .constraint (exFun "h" ["x"] fun _ => ⟨[], [0]⟩) (.int 3) none]
    p.constraints.map (fun c => (c.fn.fn.name, c.fn.shape, c.offset)) = [("g", [2, 2], 0), ("h", [3], 4)] ∧
      p.ncons = 7 := by decide

/-! ### C03 -/

/-- **C03.** Names are unique among decision and dependent variables together. -/
theorem C03_names_unique (calls : List (Problem.Call α)) :
    (Dict.keys (Problem.run calls).decision ++ Dict.keys (Problem.run calls).remapped).Nodup :=
  (inv_run calls).names

/-- Registering a taken name raises ValueError, a non-string TypeError, and the problem is exactly as before. -/
theorem C03_rejected_unchanged (p : Problem α) (name : Problem.NameArg)
    (h : match name with
      | .other => True
      | .str s => s ∈ Dict.keys p.decision ++ Dict.keys p.remapped) (sh : ShapeArg) (spec : VarSpec) :
    let e : PyErr := match name with | .other => .typeError | .str _ => .valueError
    p.addDecision name sh = (p, .error e) ∧ p.addDependent name spec = (p, .error e) := by
  cases name with
  | other => exact ⟨rfl, rfl⟩
  | str s =>
    simp only [List.mem_append] at h
    simp only [Problem.addDecision, Problem.addDependent]
    by_cases h1 : s ∈ Dict.keys p.decision
    · simp [Dict.contains_iff.2 h1]
    · have h2 : s ∈ Dict.keys p.remapped := h.resolve_left h1
      have h1' : Dict.contains p.decision s = false := by
        rw [Bool.eq_false_iff]; exact fun h => h1 (Dict.contains_iff.1 h)
      simp [h1', Dict.contains_iff.2 h2]

/-- Registering a new name succeeds, returns the new component and makes `variable_spec` find exactly it. -/
theorem C03_accepted (p : Problem α) (s : String) (h : s ∉ Dict.keys p.decision ++ Dict.keys p.remapped)
    (sh : ShapeArg) (spec : VarSpec) :
    (p.addDecision (.str s) sh).2 = .ok ⟨sh.norm, p.ndec⟩ ∧
    (p.addDecision (.str s) sh).1.variableSpec s = .ok (.comp ⟨sh.norm, p.ndec⟩) ∧
    (p.addDependent (.str s) spec).2 = .ok spec ∧
    (p.addDependent (.str s) spec).1.variableSpec s = .ok spec := by
  simp only [List.mem_append, not_or] at h
  have h1 : Dict.contains p.decision s = false := by
    rw [Bool.eq_false_iff]; exact fun h' => h.1 (Dict.contains_iff.1 h')
  have h2 : Dict.contains p.remapped s = false := by
    rw [Bool.eq_false_iff]; exact fun h' => h.2 (Dict.contains_iff.1 h')
  simp [Problem.addDecision, Problem.addDependent, Problem.variableSpec, h1, h2, Dict.get?_set,
    Dict.get?_eq_none_iff.2 h.1]

/-- `variable_spec` finds exactly the registered names. -/
theorem C03_variable_spec (calls : List (Problem.Call α)) (s : String) :
    (∀ c, (s, c) ∈ (Problem.run calls).decision → (Problem.run calls).variableSpec s = .ok (.comp c)) ∧
    (∀ v, (s, v) ∈ (Problem.run calls).remapped → (Problem.run calls).variableSpec s = .ok v) ∧
    (s ∉ Dict.keys (Problem.run calls).decision ++ Dict.keys (Problem.run calls).remapped →
      (Problem.run calls).variableSpec s = .error .valueError) := by
  have hn := (inv_run calls).names
  generalize Problem.run calls = p at hn
  have hn' := List.nodup_append.1 hn
  refine ⟨fun c hc => ?_, fun v hv => ?_, fun h => ?_⟩
  · simp [Problem.variableSpec, Dict.get?_of_mem hn'.1 hc]
  · have : Dict.get? p.decision s = none := Dict.get?_eq_none_iff.2 fun h =>
      hn'.2.2 s h s (List.mem_map_of_mem (f := Prod.fst) hv) rfl
    simp [Problem.variableSpec, this, Dict.get?_of_mem hn'.2.1 hv]
  · simp only [List.mem_append, not_or] at h
    simp [Problem.variableSpec, Dict.get?_eq_none_iff.2 h.1, Dict.get?_eq_none_iff.2 h.2]

example : let p : Problem Nat := Problem.run [.decision (.str "x") (.tuple [3, 2]),
      .dependent (.str "xe") (.xe ⟨⟨[3, 2], 0⟩⟩)]
    (p.addDecision (.str "xe") (.int 1)).2 = .error .valueError ∧
    p.variableSpec "xe" = .ok (.xe ⟨⟨[3, 2], 0⟩⟩) ∧ p.variableSpec "q" = .error .valueError := by decide

/-! ### C04 -/

/-- **C04.** For every reachable problem and every vector of length `ndec` whose dependent variables can be unpacked,
`variables` succeeds; entry `idx` of each decision variable is `dvec[offset + C-order index of idx]`; and the ravelled
decision values, concatenated in registration order, are `dvec`. -/
theorem C04_variables [Zero α] (p : Problem α) (hp : Reachable p) (dvec : List α) (hl : dvec.length = p.ndec)
    (hdep : ∀ kv ∈ p.remapped, ∃ a, kv.2.unpackFrom dvec = .ok a) :
    ∃ vs, p.variables dvec = .ok vs ∧
      (∀ name c, (name, c) ∈ p.decision → ∃ a, Dict.get? vs name = some a ∧ a.shape = c.shape ∧ a.WF ∧
        ∀ idx, InBounds c.shape idx → a.data[cOrder c.shape idx]? = dvec[c.offset + cOrder c.shape idx]? ∧
          c.offset + cOrder c.shape idx < dvec.length) ∧
      (p.decision.flatMap fun kv => ((Dict.get? vs kv.1).map NDArray.data).getD []) = dvec ∧
      (∀ name v a, (name, v) ∈ p.remapped → v.unpackFrom dvec = .ok a → Dict.get? vs name = some a) := by
  obtain ⟨calls, extra, rfl⟩ := hp
  have hI := inv_run calls
  generalize Problem.run calls = p at *
  obtain ⟨dec, rem, objs, cons, ndec, ncons, ex⟩ := p
  simp only at hl hdep hI ⊢
  have hnames := hI.names
  have htiles := hI.decTiles
  simp only at hnames htiles
  -- value of every item
  let U : VarSpec → NDArray α := fun s => match s.unpackFrom dvec with | .ok a => a | .error _ => ⟨[], []⟩
  have hle : ∀ kv ∈ dec, kv.2.offset + kv.2.size ≤ dvec.length := fun kv hkv => by
    have := htiles.mem_le (List.mem_map_of_mem (f := fun kv : String × Component => (kv.2.offset, kv.2.shape.prod)) hkv)
    rw [hl]; exact this
  let items : Dict String VarSpec := dec.map (fun kv => (kv.1, VarSpec.comp kv.2)) ++ rem
  have hitems : ∀ kv ∈ items, kv.2.unpackFrom dvec = .ok (U kv.2) := by
    intro kv hkv
    have : ∃ a, kv.2.unpackFrom dvec = .ok a := by
      rcases List.mem_append.1 hkv with h | h
      · obtain ⟨kv', h', rfl⟩ := List.mem_map.1 h
        exact ⟨_, Component.unpackFrom_eq 0 kv'.2 dvec (hle kv' h')⟩
      · exact hdep kv h
    obtain ⟨a, ha⟩ := this
    simp only [U, ha]
  have hU : ∀ kv ∈ dec, U (.comp kv.2) =
      ⟨kv.2.shape, (List.range kv.2.size).map fun i => dvec.getD (kv.2.offset + i) 0⟩ := by
    intro kv hkv
    have : (VarSpec.comp kv.2).unpackFrom dvec = _ := Component.unpackFrom_eq 0 kv.2 dvec (hle kv hkv)
    simp only [U, this]
  have hkeys : Dict.keys (items.map fun kv => (kv.1, U kv.2)) = Dict.keys dec ++ Dict.keys rem := by
    simp [items, Dict.keys, Function.comp_def]
  have hnd : (Dict.keys (items.map fun kv => (kv.1, U kv.2))).Nodup := by rw [hkeys]; exact hnames
  have hvars : Problem.variables ⟨dec, rem, objs, cons, ndec, ncons, extra⟩ dvec =
      .ok (Dict.update extra (items.map fun kv => (kv.1, U kv.2))) := by
    unfold Problem.variables
    rw [pyAssert_true hl]
    simp only [py_bind_ok, Problem.items, py_pure]
    rw [mapM_ok (g := fun kv => (kv.1, U kv.2))]
    · simp only [py_bind_ok]
      rw [Dict.update_nil_of_nodup hnd]
    · intro kv hkv
      rw [hitems kv hkv]; rfl
  have hget : ∀ kv ∈ items, Dict.get? (Dict.update extra (items.map fun kv => (kv.1, U kv.2))) kv.1 = some (U kv.2) := by
    intro kv hkv
    rw [Dict.get?_update hnd, Dict.get?_of_mem hnd (List.mem_map_of_mem (f := fun kv => (kv.1, U kv.2)) hkv)]
    rfl
  have hdec : ∀ kv ∈ dec, (kv.1, VarSpec.comp kv.2) ∈ items := fun kv h =>
    List.mem_append_left _ (List.mem_map_of_mem (f := fun kv : String × Component => (kv.1, VarSpec.comp kv.2)) h)
  refine ⟨_, hvars, ?_, ?_, ?_⟩
  · intro name c hc
    refine ⟨_, hget _ (hdec _ hc), ?_⟩
    rw [hU _ hc]
    refine ⟨rfl, by simp [NDArray.WF, Component.size], fun idx hidx => ?_⟩
    have h1 : cOrder c.shape idx < c.size := cOrder_lt hidx
    have h2 := hle _ hc
    simp only at h2
    have h3 : c.offset + cOrder c.shape idx < dvec.length := by omega
    rw [getElem?_map_range _ h1, some_getD 0 h3]
    exact ⟨rfl, h3⟩
  · have : ∀ (l : Dict String Component) (o : Nat), (∀ kv ∈ l, kv ∈ dec) →
        Consec o (l.map fun kv => (kv.2.offset, kv.2.shape.prod)) →
        (l.flatMap fun kv => ((Dict.get? (Dict.update extra (items.map fun kv => (kv.1, U kv.2))) kv.1).map
          NDArray.data).getD []) = (List.range ((l.map fun kv => kv.2.shape.prod).sum)).map
            fun i => dvec.getD (o + i) 0 := by
      intro l
      induction l with
      | nil => intro o _ _; rfl
      | cons kv l ih =>
        intro o hmem hc
        rw [List.flatMap_cons, ih (o + kv.2.shape.prod) (fun x hx => hmem x (by simp [hx])) hc.2]
        have hm := hmem kv (by simp)
        rw [hget _ (hdec _ hm), hU _ hm]
        simp only [Option.map_some, Option.getD_some, List.map_cons, List.sum_cons]
        rw [List.range_add, List.map_append]
        have ho : kv.2.offset = o := hc.1
        rw [ho]
        congr 1
        simp [List.map_map, Function.comp_def, Nat.add_assoc]
    have h0 := this dec 0 (fun _ h => h) htiles.consec
    rw [h0]
    have h3 := htiles.2
    simp only [List.map_map, Function.comp_def] at h3
    rw [← h3]
    simp only [Nat.zero_add]
    exact (eq_map_range_getD 0 dvec hl).symm
  · intro name v a hv ha
    have := hget (name, v) (List.mem_append_right _ hv)
    rw [this]
    simp only [U, ha]

/-- A vector of any other length is rejected. -/
theorem C04_wrong_length [Zero α] (p : Problem α) (dvec : List α) (hl : dvec.length ≠ p.ndec) :
    p.variables dvec = .error .assertionError := by
  unfold Problem.variables
  rw [pyAssert_false hl]; rfl

/-- The hypotheses are met: a problem with a matrix, a vector and two dependent variables. -/
example : let p : Problem Nat := Problem.run [.decision (.str "x") (.tuple [3, 2]),
      .dependent (.str "xp") (.piece ⟨⟨[3, 2], 0⟩, 2, 2⟩), .decision (.str "p") (.int 1),
      .dependent (.str "xe") (.xe ⟨⟨[3, 2], 0⟩⟩)]
    p.variables [0, 1, 2, 3, 4, 5, 6] = .ok [("x", ⟨[3, 2], [0, 1, 2, 3, 4, 5]⟩), ("p", ⟨[1], [6]⟩),
      ("xp", ⟨[2, 2, 2], [0, 1, 2, 3, 2, 3, 4, 5]⟩), ("xe", ⟨[2, 2], [0, 1, 4, 5]⟩)] := by decide

/-! ### C06 -/

/-- **C06** (`pack_into`). The component's own entries become the broadcast value, every other entry is kept, and
unpacking afterwards returns the value. -/
theorem C06_packInto [Zero α] (c : Component) (dest : List α) (v b : NDArray α) (hd : c.offset + c.size ≤ dest.length)
    (hb : broadcastTo v c.shape = .ok b) :
    ∃ r, c.packInto dest v = .ok r ∧ r.length = dest.length ∧
      (∀ i < c.size, r[c.offset + i]? = b.data[i]?) ∧
      (∀ j, (j < c.offset ∨ c.offset + c.size ≤ j) → r[j]? = dest[j]?) ∧
      c.unpackFrom r = .ok b := by
  obtain ⟨hs, hl, -⟩ := broadcastTo_inv hb
  change b.data.length = c.size at hl
  refine ⟨dest.take c.offset ++ b.data ++ dest.drop (c.offset + c.size), ?_, ?_, ?_, ?_, ?_⟩
  · unfold Component.packInto
    rw [pyAssert_true (by omega), hb]; rfl
  · simp [hl]; omega
  · intro i hi
    rw [List.append_assoc, List.getElem?_append_right (by simp), List.getElem?_append_left (by simp; omega)]
    congr 1
    simp; omega
  · rintro j (h | h)
    · rw [List.append_assoc, List.getElem?_append_left (by simp; omega), List.getElem?_take_of_lt h]
    · rw [List.getElem?_append_right (by simp [hl]; omega), List.getElem?_drop]
      congr 1
      simp [hl]; omega
  · have hlen : c.offset + c.size ≤ (dest.take c.offset ++ b.data ++ dest.drop (c.offset + c.size)).length := by
      simp [hl]; omega
    rw [Component.unpackFrom_eq 0 c _ hlen]
    congr 1
    obtain ⟨bs, bd⟩ := b
    simp only at hs hl
    subst hs
    congr 1
    conv_rhs => rw [eq_map_range_getD 0 bd hl]
    refine List.map_congr_left fun i hi => ?_
    have hi := List.mem_range.1 hi
    simp only [List.getD_eq_getElem?_getD]
    rw [List.append_assoc, List.getElem?_append_right (by simp), List.getElem?_append_left (by simp; omega)]
    congr 2
    simp; omega

/-- **C06** (`add_to`). The component's own entries are incremented by the broadcast value, every other one is kept. -/
theorem C06_addTo [AddCommMonoid α] (c : Component) (dest : List α) (v b : NDArray α)
    (hd : c.offset + c.size ≤ dest.length) (hb : broadcastTo v c.shape = .ok b) :
    ∃ r, c.addTo dest v = .ok r ∧ r.length = dest.length ∧
      (∀ i < c.size, r.getD (c.offset + i) 0 = dest.getD (c.offset + i) 0 + b.data.getD i 0) ∧
      (∀ j, (j < c.offset ∨ c.offset + c.size ≤ j) → r[j]? = dest[j]?) := by
  obtain ⟨hs, hl, -⟩ := broadcastTo_inv hb
  have hbb : c.addTo dest v = c.addTo dest b := by
    unfold Component.addTo
    rw [hb, broadcastTo_self' b hs hl]
  rw [hbb, Component.addTo_eq c dest b hd hs (by rw [NDArray.WF, hs, hl])]
  refine ⟨_, rfl, by simp, fun i hi => ?_, fun j hj => ?_⟩
  · rw [getD_map_range 0 _ (by omega), scat_hit (f := fun i => c.offset + i) _ (fun _ _ _ _ h => by omega) hi]
  · by_cases hjl : j < dest.length
    · rw [getElem?_map_range _ hjl, scat_miss _ (fun q hq => by omega), add_zero, some_getD 0 hjl]
    · rw [List.getElem?_eq_none (by simpa using hjl), List.getElem?_eq_none (by omega)]

/-- A destination that is too short, or a value that cannot be broadcast, is rejected by both. -/
theorem C06_rejected [Add α] (c : Component) (dest : List α) (v : NDArray α) :
    (dest.length < c.offset + c.size →
      c.packInto dest v = .error .assertionError ∧ c.addTo dest v = .error .assertionError) ∧
    (c.offset + c.size ≤ dest.length → canBroadcast v.shape c.shape = false →
      c.packInto dest v = .error .valueError ∧ c.addTo dest v = .error .valueError) := by
  refine ⟨fun h => ?_, fun h hb => ?_⟩
  · unfold Component.packInto Component.addTo
    rw [pyAssert_false (by omega)]
    exact ⟨rfl, rfl⟩
  · unfold Component.packInto Component.addTo
    rw [pyAssert_true (by omega)]
    simp [broadcastTo, hb]

theorem cOrder_zip_pad (k : Nat) (src idx : List Nat) (h : idx.length = k + src.length) :
    cOrder (List.replicate k 1 ++ src)
        (List.zipWith (fun s i => if s = 1 then 0 else i) (List.replicate k 1 ++ src) idx) =
      cOrder src (List.zipWith (fun s i => if s = 1 then 0 else i) src (idx.drop k)) := by
  induction k generalizing idx with
  | zero => simp
  | succ k ih =>
    cases idx with
    | nil => simp at h; omega
    | cons i idx =>
      rw [List.replicate_succ, List.cons_append, List.zipWith_cons_cons, cOrder, ih idx (by simp at h; omega)]
      simp

theorem bcIdxPadded_multi (ss ds idx : List Nat) (hl : ss.length = ds.length) (hi : InBounds ds idx) :
    bcIdxPadded ss ds (cOrder ds idx) =
      cOrder ss (List.zipWith (fun s i => if s = 1 then 0 else i) ss idx) := by
  induction ss generalizing ds idx with
  | nil => cases ds <;> simp [bcIdxPadded, cOrder]
  | cons s ss ih =>
    cases ds with
    | nil => simp at hl
    | cons d ds =>
      cases idx with
      | nil => exact absurd hi (by simp [InBounds])
      | cons i idx =>
        have h1 := cOrder_lt hi.2
        have h0 : 0 < ds.prod := by omega
        rw [bcIdxPadded, List.zipWith_cons_cons, cOrder, cOrder]
        rw [show (i * ds.prod + cOrder ds idx) / ds.prod = i by
            rw [Nat.add_comm, Nat.add_mul_div_right _ _ h0, Nat.div_eq_of_lt h1, Nat.zero_add],
          show (i * ds.prod + cOrder ds idx) % ds.prod = cOrder ds idx by
            rw [Nat.mul_comm, Nat.mul_add_mod, Nat.mod_eq_of_lt h1],
          ih ds idx (by simpa using hl) hi.2]

theorem InBounds.length {sh idx : List Nat} (h : InBounds sh idx) : idx.length = sh.length := by
  induction sh generalizing idx with
  | nil => cases idx <;> simp_all [InBounds]
  | cons n sh ih =>
    cases idx with
    | nil => simp [InBounds] at h
    | cons i idx => simp [ih h.2]

/-- What "broadcast value" means above, in multi-indices: entry `idx` of the broadcast array is the entry of the value
whose multi-index drops the extra leading axes and reads axes of length one at 0. -/
theorem C06_broadcast_multi (v b : NDArray α) (hw : v.WF) (dst : List Nat) (hb : broadcastTo v dst = .ok b)
    (idx : List Nat) (hi : InBounds dst idx) :
    b.data[cOrder dst idx]? = v.data[cOrder v.shape (bcMulti v.shape idx)]? := by
  obtain ⟨hs, hl, hc⟩ := broadcastTo_inv hb
  have hlt := cOrder_lt hi
  have hne : ∃ d : α, True := by
    have := bcIdx_lt hc hlt
    rw [← hw] at this
    exact ⟨v.data[bcIdx v.shape dst (cOrder dst idx)]'this, trivial⟩
  obtain ⟨d, -⟩ := hne
  rw [broadcastTo_ok d v hw hc] at hb
  cases hb
  have h1 := bcIdx_lt hc hlt
  rw [← hw] at h1
  rw [getElem?_map_range _ hlt, some_getD d h1]
  congr 1
  simp only [canBroadcast, Bool.and_eq_true, decide_eq_true_eq] at hc
  have hlen := InBounds.length hi
  unfold bcIdx bcMulti
  rw [bcIdxPadded_multi _ _ _ (by simp [padShape]; omega) hi]
  unfold padShape
  rw [cOrder_zip_pad _ _ _ (by omega), hlen]

example : (⟨[2, 2], 1⟩ : Component).packInto [9, 9, 9, 9, 9, 9] ⟨[2, 1], [3, 4]⟩ = .ok [9, 3, 3, 4, 4, 9] ∧
    (⟨[2, 2], 1⟩ : Component).addTo [9, 9, 9, 9, 9, 9] ⟨[2], [3, 4]⟩ = .ok [9, 12, 13, 12, 13, 9] ∧
    (⟨[2, 2], 1⟩ : Component).addTo [9, 9, 9, 9, 9, 9] ⟨[3], [3, 4, 5]⟩ = .error .valueError := by decide

/-! ### C07 -/

theorem pack_block [Zero α] (pre rest : List α) (c : Component) (v b : NDArray α) (ho : c.offset = pre.length)
    (hr : c.size ≤ rest.length) (hb : broadcastTo v c.shape = .ok b) :
    c.packInto (pre ++ rest) v = .ok ((pre ++ b.data) ++ rest.drop c.size) := by
  unfold Component.packInto
  rw [pyAssert_true (by simp; omega), hb]
  simp only [py_bind_ok, py_pure]
  rw [ho, List.take_left, List.drop_append]
  simp

theorem constr_fold [Zero α] (vs : Dict String (NDArray α)) (val : Constr α → NDArray α) (cs : List (Constr α))
    (hval : ∀ c ∈ cs, ∃ v, c.fn.call vs = .ok v ∧ broadcastTo v c.fn.shape = .ok (val c)) (pre rest : List α)
    (hc : Consec pre.length (cs.map fun c => (c.offset, c.fn.shape.prod)))
    (hr : rest.length = (cs.map fun c => c.fn.shape.prod).sum) :
    cs.foldlM (fun cvec c => do c.component.packInto cvec (← c.fn.call vs)) (pre ++ rest) =
      (.ok (pre ++ cs.flatMap fun c => (val c).data) : Py (List α)) := by
  induction cs generalizing pre rest with
  | nil =>
    simp at hr
    subst hr
    simp
  | cons c cs ih =>
    rw [List.foldlM_cons]
    obtain ⟨v, hv, hb⟩ := hval c (by simp)
    have hl : (val c).data.length = c.fn.shape.prod := (broadcastTo_inv hb).2.1
    rw [hv]
    simp only [py_bind_ok]
    simp only [List.map_cons, List.sum_cons] at hr
    rw [pack_block pre rest c.component v (val c) hc.1 (by rw [hr]; exact Nat.le_add_right _ _) hb]
    simp only [py_bind_ok]
    rw [ih (fun c' h => hval c' (by simp [h])) (pre ++ (val c).data) (rest.drop c.component.size)]
    · simp
    · rw [List.length_append, hl]; exact hc.2
    · rw [List.length_drop, hr]; exact Nat.add_sub_cancel_left _ _

/-- **C07.** `constr(dvec)` has length `ncons`, its range for each registered constraint is that constraint's broadcast
value, and `unpack_constraints` maps each (non-empty) constraint name to the value of the last constraint of that name. -/
theorem C07_constr [Zero α] (p : Problem α) (hp : Reachable p) (dvec : List α) (vs : Dict String (NDArray α))
    (hvs : p.variables dvec = .ok vs) (val : Constr α → NDArray α)
    (hval : ∀ c ∈ p.constraints, ∃ v, c.fn.call vs = .ok v ∧ broadcastTo v c.fn.shape = .ok (val c)) :
    ∃ cvec, p.constr dvec = .ok cvec ∧ cvec.length = p.ncons ∧
      cvec = (p.constraints.flatMap fun c => (val c).data) ∧
      (∀ c ∈ p.constraints, c.component.unpackFrom cvec = .ok (val c) ∧
        ∀ i < c.fn.shape.prod, cvec[c.offset + i]? = (val c).data[i]?) ∧
      ∃ d, p.unpackConstraints cvec = .ok d ∧ Dict.get? d "" = none ∧
        ∀ name ≠ "", Dict.get? d name =
          ((p.constraints.filter fun c => c.fn.fn.name = name).getLast?).map val := by
  obtain ⟨calls, extra, rfl⟩ := hp
  have hI := (inv_run calls).conTiles
  generalize Problem.run calls = p at *
  obtain ⟨dec, rem, objs, cons, ndec, ncons, ex⟩ := p
  simp only at hI hval ⊢
  have hsum : ncons = (cons.map fun c => c.fn.shape.prod).sum := by
    have := hI.2
    simpa [List.map_map, Function.comp_def] using this
  have hlens : ∀ c ∈ cons, (val c).data.length = c.fn.shape.prod := fun c hc => by
    obtain ⟨v, -, hb⟩ := hval c hc
    exact (broadcastTo_inv hb).2.1
  have hfold := constr_fold vs val cons hval [] (List.replicate ncons 0) hI.consec (by simp [hsum])
  simp only [List.nil_append] at hfold
  have hlen : (cons.flatMap fun c => (val c).data).length = ncons := by
    rw [hsum, List.length_flatMap]
    congr 1
    exact List.map_congr_left hlens
  refine ⟨_, ?_, hlen, rfl, ?_⟩
  · unfold Problem.constr
    rw [hvs]
    exact hfold
  -- slices
  have slice : ∀ c ∈ cons, ∃ A B, (cons.flatMap fun c => (val c).data) = A ++ (val c).data ++ B ∧
      A.length = c.offset := by
    intro c hc
    obtain ⟨l1, l2, rfl⟩ := List.append_of_mem hc
    refine ⟨l1.flatMap fun c => (val c).data, l2.flatMap fun c => (val c).data, by simp, ?_⟩
    have h := hI.consec
    rw [List.map_append, consec_append] at h
    have h2 := h.2.1
    simp only [Nat.zero_add] at h2
    rw [h2, List.length_flatMap, List.map_map]
    congr 1
    exact List.map_congr_left fun c hc => hlens c (by simp [hc])
  have hunp : ∀ c ∈ cons, c.component.unpackFrom (cons.flatMap fun c => (val c).data) = .ok (val c) := by
    intro c hc
    obtain ⟨A, B, h1, h2⟩ := slice c hc
    obtain ⟨v, -, hb⟩ := hval c hc
    have hs := (broadcastTo_inv hb).1
    have hl := hlens c hc
    rw [h1]
    unfold Component.unpackFrom NDArray.reshape
    have : ((A ++ (val c).data ++ B).take (c.component.offset + c.component.size)).drop c.component.offset =
        (val c).data := by
      have h3 : c.component.offset = A.length := h2.symm
      have h4 : c.component.size = (val c).data.length := hl.symm
      rw [h3, h4, ← List.length_append, List.take_left, List.drop_left]
    rw [this]
    simp only []
    rw [if_pos (show (val c).data.length = c.component.shape.prod from hl)]
    congr 1
    cases hvc : val c
    simp only [hvc] at hs ⊢
    subst hs
    rfl
  refine ⟨fun c hc => ⟨hunp c hc, fun i hi => ?_⟩, ?_⟩
  · obtain ⟨A, B, h1, h2⟩ := slice c hc
    have hl := hlens c hc
    rw [h1, List.append_assoc, List.getElem?_append_right (by omega), List.getElem?_append_left (by omega), h2,
      Nat.add_sub_cancel_left]
  · unfold Problem.unpackConstraints
    rw [pyAssert_true (by simp only [hlen]; omega)]
    simp only [py_bind_ok]
    -- induction over the constraints
    suffices H : ∀ (l : List (Constr α)) (d0 : Dict String (NDArray α)), (∀ c ∈ l, c ∈ cons) →
        ∃ d, l.foldlM (fun ret c => if c.fn.fn.name = "" then pure ret
            else do return Dict.set ret c.fn.fn.name (← c.component.unpackFrom (cons.flatMap fun c => (val c).data))) d0 =
              (.ok d : Py _) ∧ Dict.get? d "" = Dict.get? d0 "" ∧
          ∀ name ≠ "", Dict.get? d name =
            (((l.filter fun c => c.fn.fn.name = name).getLast?).map val).or (Dict.get? d0 name) by
      obtain ⟨d, h1, h2, h3⟩ := H cons [] (fun _ h => h)
      refine ⟨d, h1, by simpa using h2, fun name hn => ?_⟩
      rw [h3 name hn]; simp
    intro l
    induction l with
    | nil => intro d0 _; exact ⟨d0, rfl, rfl, fun _ _ => by simp⟩
    | cons c l ih =>
      intro d0 hmem
      rw [List.foldlM_cons]
      by_cases hn : c.fn.fn.name = ""
      · rw [if_pos hn]
        obtain ⟨d, h1, h2, h3⟩ := ih d0 (fun c' h => hmem c' (by simp [h]))
        refine ⟨d, by simpa using h1, h2, fun name hname => ?_⟩
        rw [h3 name hname, List.filter_cons_of_neg]
        simp [hn, Ne.symm hname]
      · rw [if_neg hn, hunp c (hmem c (by simp))]
        simp only [py_bind_ok, py_pure]
        obtain ⟨d, h1, h2, h3⟩ := ih (Dict.set d0 c.fn.fn.name (val c)) (fun c' h => hmem c' (by simp [h]))
        refine ⟨d, h1, ?_, fun name hname => ?_⟩
        · rw [h2, Dict.get?_set, if_neg hn]
        · rw [h3 name hname, Dict.get?_set]
          by_cases he : c.fn.fn.name = name
          · rw [if_pos he, List.filter_cons_of_pos (by simpa using he), List.getLast?_cons]
            cases hl : (l.filter fun c => decide (c.fn.fn.name = name)).getLast? <;> simp
          · rw [if_neg he, List.filter_cons_of_neg (by simpa using he)]

/-- The hypotheses are met: two constraints, the first with a broadcast (scalar) value. -/
example : let p : Problem Int := Problem.run [.decision (.str "x") (.int 2),
      .constraint (exFun "g" ["x"] fun _ => ⟨[], [7]⟩) (.tuple [2, 2]) none,
      .constraint (exFun "h" ["x"] fun a => a.headD ⟨[], []⟩) (.int 2) none]
    p.constr [3, 4] = .ok [7, 7, 7, 7, 3, 4] ∧
    p.unpackConstraints [7, 7, 7, 7, 3, 4] = .ok [("g", ⟨[2, 2], [7, 7, 7, 7]⟩), ("h", ⟨[2], [3, 4]⟩)] := by decide

end Ceacoest
