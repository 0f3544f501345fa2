import Verif.Lemmas.Aliasing

/-! # Memory: the invariant of C05 -/

namespace Ceacoest
open Spec
variable {α : Type}

/-- The variable has arrays of its own. -/
def VarSpec.Dep (v : VarSpec) : Prop := ∀ c, v ≠ .comp c

theorem VarSpec.unpackMem_dep [Zero α] {v : VarSpec} (hd : v.Dep) {vec : View} {d : List α} {h : Heap α} (hb : vec.buf < h.length)
    (hv : h.get vec.buf vec.pos = .ok d) : v.unpackMem vec h = (v.unpackFrom d >>= fun a => .ok (h.alloc a)) := by
  cases v with
  | comp c => exact absurd rfl (hd c)
  | piece v => exact v.unpackMem_eq hb hv
  | xe v => exact v.unpackMem_eq hb hv
  | xm v => exact v.unpackMem_eq hb hv

theorem VarSpec.unpackMem_comp [Zero α] (c : Component) {vec : View} {d : List α} {h : Heap α}
    (hv : h.get vec.buf vec.pos = .ok d) :
    (VarSpec.comp c).unpackMem vec h = (c.unpackFrom d >>= fun _ => .ok (decisionView c vec, h)) := by
  change (do return (← c.unpackView vec, h)) = _
  rw [unpackView_eq _ _ _ _ hv]
  cases c.unpackFrom d <;> rfl

/-- What an array returned by a call is. -/
def Returned [Zero α] (vec : View) (d : List α) (base : Nat) (h : Heap α) (v : VarSpec) (view : View) : Prop :=
  (∀ c, v = .comp c → view = decisionView c vec ∧ ∃ a, c.unpackFrom d = .ok a) ∧
  (v.Dep → ∃ a, v.unpackFrom d = .ok a ∧ view.pos = List.range a.data.length ∧ view.shape = a.shape ∧ base ≤ view.buf ∧ h[view.buf]? = some a.data)

theorem Returned.append [Zero α] {vec : View} {d : List α} {base : Nat} {h : Heap α} {v : VarSpec} {view : View}
    (hr : Returned vec d base h v view) (x : List (List α)) : Returned vec d base (h ++ x) v view := by
  refine ⟨hr.1, fun hd => ?_⟩
  obtain ⟨a, h1, h2, h3, h4, h5⟩ := hr.2 hd
  exact ⟨a, h1, h2, h3, h4, by rw [List.getElem?_append_left (List.getElem?_eq_some_iff.1 h5).1]; exact h5⟩

/-- One item. -/
theorem unpackMem_returned [Zero α] {vec : View} {d : List α} {h : Heap α} (hb : vec.buf < h.length) (hv : h.get vec.buf vec.pos = .ok d)
    {v : VarSpec} {view : View} {h' : Heap α} (he : v.unpackMem vec h = .ok (view, h')) :
    ∃ new, h' = h ++ new ∧ Returned vec d h.length h' v view ∧ (v.Dep → view.buf < h'.length) := by
  by_cases hd : v.Dep
  · rw [VarSpec.unpackMem_dep hd hb hv] at he
    obtain ⟨a, ha, e⟩ := py_bind_eq_ok he
    cases e
    exact ⟨[a.data], rfl, ⟨fun c hc => absurd hc (hd c), fun _ => ⟨a, ha, rfl, rfl, le_rfl, by simp⟩⟩, fun _ => by simp⟩
  · unfold VarSpec.Dep at hd
    push Not at hd
    obtain ⟨c, rfl⟩ := hd
    rw [VarSpec.unpackMem_comp c hv] at he
    obtain ⟨a, ha, e⟩ := py_bind_eq_ok he
    cases e
    exact ⟨[], by simp, ⟨fun c' hc => by cases hc; exact ⟨rfl, a, ha⟩, fun hd => absurd rfl (hd c)⟩, fun hd => absurd rfl (hd c)⟩

theorem unpackItems_ok [Zero α] {vec : View} {d : List α} {items : Dict String VarSpec} {h : Heap α} (hb : vec.buf < h.length)
    (hv : h.get vec.buf vec.pos = .ok d) {vs : Dict String View} {h' : Heap α} (he : unpackItems vec items h = .ok (vs, h')) :
    (∃ new, h' = h ++ new) ∧ vs.keys = items.keys ∧
    (∀ k v, items.get? k = some v → ∃ view, vs.get? k = some view ∧ Returned vec d h.length h' v view) ∧
    ∀ k k' v v' view view', items.get? k = some v → items.get? k' = some v' → v.Dep → v'.Dep → vs.get? k = some view → vs.get? k' = some view' →
      view.buf = view'.buf → k = k' := by
  induction items generalizing h vs with
  | nil =>
    cases he
    exact ⟨⟨[], by simp⟩, rfl, fun k v hk => by simp at hk, fun k k' v v' _ _ hk => by simp at hk⟩
  | cons kv items ih =>
    obtain ⟨k0, v0⟩ := kv
    unfold unpackItems at he
    obtain ⟨⟨a, h1⟩, h2, he⟩ := py_bind_eq_ok he
    obtain ⟨⟨r, h3⟩, h4, he⟩ := py_bind_eq_ok he
    cases he
    obtain ⟨new, rfl, hret, hlt⟩ := unpackMem_returned hb hv h2
    obtain ⟨⟨new2, rfl⟩, hk, hr, hdist⟩ := ih (h := h ++ new) (by rw [List.length_append]; omega) (by rw [Heap.get_append hb]; exact hv) h4
    have hge : ∀ (k : String) (v : VarSpec) view, Dict.get? items k = some v → v.Dep → r.get? k = some view → (h ++ new).length ≤ view.buf := by
      intro k v view hk hd hv
      obtain ⟨view', h5, h6⟩ := hr k v hk
      rw [hv] at h5
      cases h5
      obtain ⟨_, _, _, _, h7, _⟩ := h6.2 hd
      exact h7
    refine ⟨⟨new ++ new2, by rw [List.append_assoc]⟩, by simpa [Dict.keys] using hk, ?_, ?_⟩
    · intro k v hkv
      rw [Dict.get?_cons] at hkv ⊢
      split at hkv
      · next e =>
        cases hkv
        rw [if_pos e]
        exact ⟨a, rfl, hret.append _⟩
      · next e =>
        rw [if_neg e]
        obtain ⟨view, h5, h6, h7⟩ := hr k v hkv
        refine ⟨view, h5, h6, fun hd => ?_⟩
        obtain ⟨a, h8, h9, h10, h11, h12⟩ := h7 hd
        exact ⟨a, h8, h9, h10, by rw [List.length_append] at h11; omega, h12⟩
    · intro k k' v v' view view' h5 h6 hd hd' h7 h8 e
      rw [Dict.get?_cons] at h5 h6 h7 h8
      split at h5 <;> split at h6
      · next e1 e2 => rw [← e1, ← e2]
      · next e1 e2 =>
        rw [if_pos e1] at h7
        rw [if_neg e2] at h8
        cases h5; cases h7
        have h9 := hge _ _ _ h6 hd' h8
        have h10 := hlt hd
        omega
      · next e1 e2 =>
        rw [if_neg e1] at h7
        rw [if_pos e2] at h8
        cases h6; cases h8
        have h9 := hge _ _ _ h5 hd h7
        have h10 := hlt hd'
        omega
      · next e1 e2 =>
        rw [if_neg e1] at h7
        rw [if_neg e2] at h8
        exact hdist _ _ _ _ _ _ h5 h6 hd hd' h7 h8 e

theorem unpackItems_returns [Zero α] {vec : View} {d : List α} {items : Dict String VarSpec} {h : Heap α} (hb : vec.buf < h.length)
    (hv : h.get vec.buf vec.pos = .ok d) (hi : ∀ kv ∈ items, ∃ a, kv.2.unpackFrom d = .ok a) :
    ∃ r, unpackItems vec items h = .ok r := by
  induction items generalizing h with
  | nil => exact ⟨_, rfl⟩
  | cons kv items ih =>
    obtain ⟨k0, v0⟩ := kv
    obtain ⟨a, ha⟩ := hi (k0, v0) (by simp)
    change v0.unpackFrom d = .ok a at ha
    have : ∃ r, v0.unpackMem vec h = .ok r := by
      by_cases hd : v0.Dep
      · rw [VarSpec.unpackMem_dep hd hb hv, ha]
        exact ⟨_, rfl⟩
      · unfold VarSpec.Dep at hd
        push Not at hd
        obtain ⟨c, rfl⟩ := hd
        have ha : c.unpackFrom d = .ok a := ha
        rw [VarSpec.unpackMem_comp c hv, ha]
        exact ⟨_, rfl⟩
    obtain ⟨⟨view, h1⟩, h2⟩ := this
    obtain ⟨new, rfl, -⟩ := unpackMem_returned hb hv h2
    obtain ⟨⟨r, h3⟩, h4⟩ := ih (h := h ++ new) (by rw [List.length_append]; omega) (by rw [Heap.get_append hb]; exact hv)
      (fun kv hkv => hi kv (by simp [hkv]))
    unfold unpackItems
    rw [h2, py_bind_ok]
    dsimp only
    rw [h4]
    exact ⟨_, rfl⟩

theorem items_get? (p : Problem α) (name : String) : p.items.get? name = specOf p name := by
  unfold Problem.items specOf
  rw [Dict.get?_append, Dict.get?_map]

/-! ### Writing -/

theorem put_other {h : Heap α} {b b' : Nat} (hne : b ≠ b') (pos : List Nat) (vals : List α) : (Heap.put h b pos vals)[b']? = h[b']? := by
  unfold Heap.put
  rw [List.getElem?_modify]
  simp [hne]

theorem put_same {h : Heap α} {b : Nat} {x : List α} (hx : h[b]? = some x) (p : Nat) (v : α) :
    (Heap.put h b [p] [v])[b]? = some (x.set p v) := by
  unfold Heap.put
  rw [List.getElem?_modify]
  simp [hx, writeAt]

theorem put_length (h : Heap α) (b : Nat) (pos : List Nat) (vals : List α) : (Heap.put h b pos vals).length = h.length := by
  unfold Heap.put
  simp

theorem get_congr {h h' : Heap α} {b : Nat} (e : h[b]? = h'[b]?) (pos : List Nat) : Heap.get h b pos = Heap.get h' b pos := by
  unfold Heap.get
  rw [e]

theorem get_put_entry {h : Heap α} {b : Nat} {pos : List Nat} {d : List α} (hn : pos.Nodup) (hv : Heap.get h b pos = .ok d) {i : Nat}
    (hi : i < pos.length) (x : α) : Heap.get (Heap.put h b [pos[i]] [x]) b pos = .ok (d.set i x) := by
  unfold Heap.get at hv ⊢
  cases hx : h[b]? with
  | none => rw [hx] at hv; cases hv
  | some buf =>
    rw [hx] at hv
    rw [put_same hx]
    obtain ⟨hl, hr⟩ := readAt_inv hv
    refine readAt_of (by simp [hl]) fun j hj => ?_
    rw [List.getElem?_set, List.getElem?_set]
    by_cases e : i = j
    · subst e
      rw [if_pos rfl, if_pos rfl, if_pos (hr i hi).2, if_pos (by omega)]
    · rw [if_neg (fun h => e ((hn.getElem_inj_iff).1 h)), if_neg e]
      exact (hr j hj).1

/-! ### The invariant -/

/-- How the memory is related to the contents. -/
structure MemInv [Zero α] (p : Problem α) (extra : Dict String View) (dvec : View) (base : Nat) (s : MemState α) (v : Contents α) : Prop where
  len : base ≤ s.heap.length
  buf : dvec.buf < base
  nodup : dvec.pos.Nodup
  read : s.heap.get dvec.buf dvec.pos = .ok v.dvec
  shape : dvec.shape = [p.ndec]
  calls : v.calls = s.results.length
  comp : ∀ (r : Nat) vs name c, s.results[r]? = some vs → specOf p name = some (.comp c) →
    vs.get? name = some (decisionView c dvec) ∧ (c.size = 0 ∨ c.offset + c.size ≤ dvec.pos.length)
  own : ∀ (r : Nat) vs name w, s.results[r]? = some vs → specOf p name = some w → w.Dep →
    ∃ a b, v.own r name = some a ∧ base ≤ b ∧ vs.get? name = some ⟨b, List.range a.data.length, a.shape⟩ ∧ s.heap[b]? = some a.data
  distinct : ∀ (r r' : Nat) vs vs' name name' w w' view view', s.results[r]? = some vs → s.results[r']? = some vs' →
    specOf p name = some w → specOf p name' = some w' → w.Dep → w'.Dep → vs.get? name = some view → vs'.get? name' = some view' →
    view.buf = view'.buf → r = r' ∧ name = name'
  other : ∀ (r : Nat) vs name, s.results[r]? = some vs → specOf p name = none → vs.get? name = extra.get? name
  noOwn : ∀ r name, specOf p name = none → v.own r name = none

theorem unpackFrom_le {c : Component} {d : List α} {a : NDArray α} (h : c.unpackFrom d = .ok a) : c.size = 0 ∨ c.offset + c.size ≤ d.length := by
  unfold Component.unpackFrom NDArray.reshape at h
  dsimp only at h
  split at h
  · next e =>
    simp only [List.length_drop, List.length_take] at e
    have : c.shape.prod = c.size := rfl
    omega
  · cases h

theorem specOf_cases (w : VarSpec) : (∃ c, w = .comp c) ∨ w.Dep := by
  cases w with
  | comp c => exact .inl ⟨c, rfl⟩
  | _ => exact .inr fun c h => by cases h

theorem ownArray_dep [Zero α] {w : VarSpec} (hd : w.Dep) {d : List α} {a : NDArray α} (h : w.unpackFrom d = .ok a) :
    ownArray d (some w) = some a := by
  cases w with
  | comp c => exact absurd rfl (hd c)
  | _ => simp only [ownArray, h]

theorem MemInv.variables [Zero α] {p : Problem α} {extra : Dict String View} {dvec : View} {base : Nat} {s : MemState α} {v : Contents α}
    (hn : p.items.keys.Nodup) (hi : MemInv p extra dvec base s v) {s' : MemState α}
    (h : s.step p extra dvec .variables = .ok s') : MemInv p extra dvec base s' (v.step p .variables) := by
  unfold MemState.step Problem.variablesMem at h
  dsimp only at h
  obtain ⟨⟨vs, h'⟩, h1, h⟩ := py_bind_eq_ok h
  obtain ⟨-, -, h1⟩ := py_bind_eq_ok h1
  obtain ⟨⟨vs0, h2⟩, h3, h1⟩ := py_bind_eq_ok h1
  cases h1
  cases h
  have hb : dvec.buf < List.length s.heap := lt_of_lt_of_le hi.buf hi.len
  obtain ⟨⟨new, rfl⟩, hk, hr, hdist⟩ := unpackItems_ok hb hi.read h3
  have hn0 : vs0.keys.Nodup := hk ▸ hn
  have hget : ∀ name, Dict.get? (Dict.update extra (Dict.update [] vs0)) name = (vs0.get? name).or (extra.get? name) := by
    intro name
    rw [Dict.update_nil_of_nodup hn0, Dict.get?_update hn0]
  have hlen : v.calls = s.results.length := hi.calls
  have hdl : v.dvec.length = dvec.pos.length := by
    have := hi.read
    unfold Heap.get at this
    split at this
    · exact (readAt_inv this).1
    · cases this
  have hsplit : ∀ (r : Nat) w, (s.results ++ [Dict.update extra (Dict.update [] vs0)])[r]? = some w →
      (s.results[r]? = some w ∧ r ≠ v.calls) ∨ (r = v.calls ∧ w = Dict.update extra (Dict.update [] vs0)) := by
    intro r w h
    rcases lt_or_ge r s.results.length with hr | hr
    · rw [List.getElem?_append_left hr] at h
      exact .inl ⟨h, by omega⟩
    · rw [List.getElem?_append_right hr] at h
      have h2 := (List.getElem?_eq_some_iff.1 h).1
      simp only [List.length_cons, List.length_nil] at h2
      have h3 : r - s.results.length = 0 := by omega
      rw [h3] at h
      exact .inr ⟨by omega, (Option.some.inj h).symm⟩
  have hret : ∀ name w, specOf p name = some w → ∃ view, Dict.get? (Dict.update extra (Dict.update [] vs0)) name = some view ∧
      vs0.get? name = some view ∧ Returned dvec v.dvec s.heap.length (s.heap ++ new) w view := by
    intro name w hw
    rw [← items_get?] at hw
    obtain ⟨view, h1, h2⟩ := hr name w hw
    exact ⟨view, by rw [hget, h1, Option.some_or], h1, h2⟩
  have hold : ∀ (r : Nat) vs name w view, s.results[r]? = some vs → specOf p name = some w → w.Dep → vs.get? name = some view →
      view.buf < s.heap.length := by
    intro r vs name w view h1 h2 h3 h4
    obtain ⟨a, b, _, _, h5, h6⟩ := hi.own r vs name w h1 h2 h3
    rw [h4] at h5
    cases h5
    exact (List.getElem?_eq_some_iff.1 h6).1
  have hnew : ∀ name w view, specOf p name = some w → w.Dep → Dict.get? (Dict.update extra (Dict.update [] vs0)) name = some view →
      s.heap.length ≤ view.buf ∧ vs0.get? name = some view := by
    intro name w view h1 h2 h3
    obtain ⟨view', h4, h5, h6⟩ := hret name w h1
    rw [h3] at h4
    cases h4
    obtain ⟨a, _, _, _, h7, _⟩ := h6.2 h2
    exact ⟨h7, h5⟩
  refine ⟨?_, hi.buf, hi.nodup, ?_, hi.shape, ?_, ?_, ?_, ?_, ?_, ?_⟩
  · rw [List.length_append]
    exact le_trans hi.len (Nat.le_add_right _ _)
  · change Heap.get (s.heap ++ new) _ _ = _
    rw [Heap.get_append hb]
    exact hi.read
  · simp [Contents.step, hi.calls]
  · intro r vs name c h1 h2
    rcases hsplit r vs h1 with ⟨h1, -⟩ | ⟨-, rfl⟩
    · exact hi.comp r vs name c h1 h2
    · obtain ⟨view, h3, -, h4⟩ := hret name _ h2
      obtain ⟨rfl, a, ha⟩ := h4.1 c rfl
      exact ⟨h3, hdl ▸ unpackFrom_le ha⟩
  · intro r vs name w h1 h2 hd
    rcases hsplit r vs h1 with ⟨h1, hne⟩ | ⟨rfl, rfl⟩
    · obtain ⟨a, b, h3, h4, h5, h6⟩ := hi.own r vs name w h1 h2 hd
      refine ⟨a, b, ?_, h4, h5, ?_⟩
      · simp only [Contents.step, if_neg hne]
        exact h3
      · change (s.heap ++ new)[b]? = _
        rw [List.getElem?_append_left (List.getElem?_eq_some_iff.1 h6).1]
        exact h6
    · obtain ⟨view, h3, -, h4⟩ := hret name _ h2
      obtain ⟨a, ha, hpos, hsh, hge, hbuf⟩ := h4.2 hd
      refine ⟨a, view.buf, ?_, le_trans hi.len hge, ?_, hbuf⟩
      · simp only [Contents.step, if_true, h2]
        exact ownArray_dep hd ha
      · rw [h3, ← hpos, ← hsh]
  · intro r r' vs vs' name name' w w' view view' h1 h2 h3 h4 hd hd' h5 h6 e
    rcases hsplit r vs h1 with ⟨h1, hne⟩ | ⟨rfl, rfl⟩ <;> rcases hsplit r' vs' h2 with ⟨h2, hne'⟩ | ⟨rfl, rfl⟩
    · exact hi.distinct r r' vs vs' name name' w w' view view' h1 h2 h3 h4 hd hd' h5 h6 e
    · have h7 := hold r vs name w view h1 h3 hd h5
      have h8 := (hnew name' w' view' h4 hd' h6).1
      omega
    · have h7 := hold r' vs' name' w' view' h2 h4 hd' h6
      have h8 := (hnew name w view h3 hd h5).1
      omega
    · exact ⟨rfl, hdist name name' w w' view view' ((items_get? p name).trans h3) ((items_get? p name').trans h4) hd hd'
        (hnew name w view h3 hd h5).2 (hnew name' w' view' h4 hd' h6).2 e⟩
  · intro r vs name h1 h2
    rcases hsplit r vs h1 with ⟨h1, -⟩ | ⟨-, rfl⟩
    · exact hi.other r vs name h1 h2
    · rw [hget]
      have : vs0.get? name = none := by
        rw [Dict.get?_eq_none_iff, hk, ← Dict.get?_eq_none_iff, items_get?, h2]
      rw [this, Option.none_or]
  · intro r name h
    simp only [Contents.step]
    split
    · rw [h]; rfl
    · exact hi.noOwn r name h

theorem MemInv.assign [Zero α] {p : Problem α} {extra : Dict String View} {dvec : View} {base : Nat} {s : MemState α} {v : Contents α}
    (hx : ∀ k w, extra.get? k = some w → w.buf < base ∧ w.buf ≠ dvec.buf) (hi : MemInv p extra dvec base s v) {s' : MemState α}
    {call : Nat} {name : String} {i : Nat} {x : α}
    (h : s.step p extra dvec (.assign call name i x) = .ok s') : MemInv p extra dvec base s' (v.step p (.assign call name i x)) := by
  unfold MemState.step at h
  dsimp only at h
  cases hres : s.results[call]? with
  | none => rw [hres] at h; cases h
  | some vs =>
    rw [hres] at h
    obtain ⟨view, hview, h⟩ := py_bind_eq_ok h
    obtain ⟨h', hset, h⟩ := py_bind_eq_ok h
    cases h
    have hview : vs.get? name = some view := by
      unfold Dict.getItem at hview
      split at hview
      · next e => cases hview; exact e
      · cases hview
    unfold View.setEntry at hset
    cases hp : view.pos[i]? with
    | none => rw [hp] at hset; cases hset
    | some q =>
      rw [hp] at hset
      cases hset
      have hcases : (∃ c, specOf p name = some (.comp c)) ∨ (∃ w, specOf p name = some w ∧ w.Dep) ∨ specOf p name = none := by
        cases e : specOf p name with
        | none => exact .inr (.inr rfl)
        | some w =>
          rcases specOf_cases w with ⟨c, rfl⟩ | hd
          · exact .inl ⟨c, rfl⟩
          · exact .inr (.inl ⟨w, rfl, hd⟩)
      rcases hcases with ⟨c, hc⟩ | ⟨w, hw, hd⟩ | hnone
      · -- a decision array
        have hstep : v.step p (.assign call name i x) = { v with dvec := v.dvec.set (c.offset + i) x } := by
          simp only [Contents.step, hc]
        rw [hstep]
        obtain ⟨h1, h2⟩ := hi.comp call vs name c hres hc
        rw [hview] at h1
        cases h1
        have hq : ∃ hlt : c.offset + i < dvec.pos.length, q = dvec.pos[c.offset + i] := by
          have hp := hp
          simp only [decisionView] at hp
          rw [List.getElem?_drop, List.getElem?_take] at hp
          split at hp
          · obtain ⟨h3, h4⟩ := List.getElem?_eq_some_iff.1 hp
            exact ⟨h3, h4.symm⟩
          · cases hp
        obtain ⟨hlt, rfl⟩ := hq
        refine ⟨?_, hi.buf, hi.nodup, get_put_entry hi.nodup hi.read hlt x, hi.shape, hi.calls, hi.comp, ?_, hi.distinct, hi.other, hi.noOwn⟩
        · exact le_of_le_of_eq hi.len (put_length _ _ _ _).symm
        · intro r vs name w h1 h2 hd
          obtain ⟨a, b, h3, h4, h5, h6⟩ := hi.own r vs name w h1 h2 hd
          refine ⟨a, b, h3, h4, h5, ?_⟩
          rw [put_other]
          · exact h6
          · have := hi.buf
            change dvec.buf ≠ b
            omega
      · -- an array of a dependent variable
        have hstep : v.step p (.assign call name i x) =
            { v with own := fun r n => if r = call ∧ n = name then (v.own r n).map fun a => ⟨a.shape, a.data.set i x⟩ else v.own r n } := by
          cases w with
          | comp c => exact absurd rfl (hd c)
          | _ => simp only [Contents.step, hw]
        rw [hstep]
        obtain ⟨a, b, ha, hb, hvs, hheap⟩ := hi.own call vs name w hres hw hd
        rw [hview] at hvs
        cases hvs
        have hq : q = i := by
          obtain ⟨h3, h4⟩ := List.getElem?_eq_some_iff.1 hp
          simpa using h4.symm
        subst hq
        refine ⟨?_, hi.buf, hi.nodup, ?_, hi.shape, hi.calls, hi.comp, ?_, hi.distinct, hi.other, ?_⟩
        · exact le_of_le_of_eq hi.len (put_length _ _ _ _).symm
        · rw [get_congr (put_other _ _ _)]
          · exact hi.read
          · have := hi.buf
            change b ≠ dvec.buf
            omega
        · intro r vs' name' w' h1 h2 hd'
          obtain ⟨a', b', h3, h4, h5, h6⟩ := hi.own r vs' name' w' h1 h2 hd'
          by_cases e : r = call ∧ name' = name
          · obtain ⟨rfl, rfl⟩ := e
            rw [ha] at h3
            cases h3
            rw [hres] at h1
            cases h1
            rw [hview] at h5
            cases h5
            refine ⟨⟨a.shape, a.data.set q x⟩, b, ?_, hb, ?_, put_same hheap _ _⟩
            · simp only [and_self, if_true, ha, Option.map_some]
            · rw [hview, List.length_set]
          · refine ⟨a', b', ?_, h4, h5, ?_⟩
            · simp only [if_neg e]
              exact h3
            · rw [put_other]
              · exact h6
              · intro hbb
                exact e ((hi.distinct r call vs' vs name' name w' w _ _ h1 hres h2 hw hd' hd h5 hview hbb.symm))
        · intro r n h1
          simp only
          split
          · rw [hi.noOwn r n h1]; rfl
          · exact hi.noOwn r n h1
      · -- an array of the problem
        have hstep : v.step p (.assign call name i x) =
            { v with own := fun r n => if r = call ∧ n = name then (v.own r n).map fun a => ⟨a.shape, a.data.set i x⟩ else v.own r n } := by
          simp only [Contents.step, hnone]
        have hown : v.step p (.assign call name i x) = v := by
          rw [hstep]
          have : (fun r n => if r = call ∧ n = name then (v.own r n).map fun a => ⟨a.shape, a.data.set i x⟩ else v.own r n) = v.own := by
            funext r n
            split
            · next e => rw [e.2, hi.noOwn r name hnone]; rfl
            · rfl
          rw [this]
        rw [hown]
        have h1 := hi.other call vs name hres hnone
        rw [hview] at h1
        obtain ⟨h2, h3⟩ := hx _ _ h1.symm
        refine ⟨?_, hi.buf, hi.nodup, ?_, hi.shape, hi.calls, hi.comp, ?_, hi.distinct, hi.other, hi.noOwn⟩
        · exact le_of_le_of_eq hi.len (put_length _ _ _ _).symm
        · rw [get_congr (put_other h3 _ _)]
          exact hi.read
        · intro r vs name w h1 h2' hd
          obtain ⟨a, b, h3, h4, h5, h6⟩ := hi.own r vs name w h1 h2' hd
          refine ⟨a, b, h3, h4, h5, ?_⟩
          rw [put_other (by omega)]
          exact h6

theorem MemInv.run [Zero α] {p : Problem α} {extra : Dict String View} {dvec : View} {base : Nat} (hn : p.items.keys.Nodup)
    (hx : ∀ k w, extra.get? k = some w → w.buf < base ∧ w.buf ≠ dvec.buf) (ops : List (MemOp α)) {s : MemState α} {v : Contents α}
    (hi : MemInv p extra dvec base s v) {s' : MemState α}
    (h : s.run p extra dvec ops = .ok s') : MemInv p extra dvec base s' (ops.foldl (Contents.step p) v) := by
  induction ops generalizing s v with
  | nil => cases h; exact hi
  | cons op ops ih =>
    unfold MemState.run at h
    rw [List.foldlM_cons] at h
    obtain ⟨s1, h1, h2⟩ := py_bind_eq_ok h
    rw [List.foldl_cons]
    refine ih ?_ h2
    cases op with
    | «variables» => exact hi.variables hn h1
    | assign call name i x => exact hi.assign hx h1

theorem MemInv.start [Zero α] {p : Problem α} {extra : Dict String View} {dvec : View} {h : Heap α} {d : List α} (hb : dvec.buf < h.length)
    (hnd : dvec.pos.Nodup) (hr : dvec.read h = .ok ⟨[p.ndec], d⟩) :
    MemInv p extra dvec h.length ⟨h, []⟩ ⟨d, 0, fun _ _ => none⟩ := by
  unfold View.read at hr
  obtain ⟨d', h1, h2⟩ := py_bind_eq_ok hr
  injection h2 with h2
  injection h2 with h2 h3
  subst h3
  exact ⟨le_rfl, hb, hnd, h1, h2, rfl, fun _ _ _ _ h => by simp at h, fun _ _ _ _ h => by simp at h, fun _ _ _ _ _ _ _ _ _ _ h => by simp at h,
    fun _ _ _ h => by simp at h, fun _ _ _ => rfl⟩

end Ceacoest
