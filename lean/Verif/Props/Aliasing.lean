import Verif.Lemmas.Aliasing2
import Verif.Lemmas.Layout

/-!
# C05: writing through the arrays returned by `variables`
-/

namespace Ceacoest
variable {α : Type}
open Spec

/-- The memory a history starts from: `dvec` is an array of distinct places with `ndec` entries, and the arrays which the problem holds
are in other buffers. -/
structure MemStart (p : Problem α) (extra : Dict String View) (dvec : View) (h : Heap α) (d : List α) : Prop where
  buf : dvec.buf < h.length
  nodup : dvec.pos.Nodup
  read : dvec.read h = .ok ⟨[p.ndec], d⟩
  len : d.length = p.ndec
  extra : ∀ k w, extra.get? k = some w → w.buf < h.length ∧ w.buf ≠ dvec.buf

theorem items_nodup {p : Problem α} (hp : Reachable p) : p.items.keys.Nodup := by
  obtain ⟨calls, extra, rfl⟩ := hp
  have h := (inv_run calls).names
  simpa [Problem.items, Dict.keys, Function.comp_def] using h

theorem MemStart.inv [Zero α] {p : Problem α} {extra : Dict String View} {dvec : View} {h : Heap α} {d : List α} (hp : Reachable p)
    (hs : MemStart p extra dvec h d) {ops : List (MemOp α)} {st : MemState α} (hr : MemState.run p extra dvec ops ⟨h, []⟩ = .ok st) :
    MemInv p extra dvec h.length st (Contents.run p ops d) :=
  MemInv.run (items_nodup hp) hs.extra ops (MemInv.start hs.buf hs.nodup hs.read) hr

theorem decision_specOf {p : Problem α} (hp : Reachable p) {name : String} {c : Component} (hc : (name, c) ∈ p.decision) :
    specOf p name = some (.comp c) ∧ c.offset + c.size ≤ p.ndec := by
  obtain ⟨calls, extra, rfl⟩ := hp
  have h := inv_run calls
  refine ⟨?_, ?_⟩
  · unfold specOf
    rw [Dict.get?_of_mem (List.nodup_append.1 h.names).1 hc]
    rfl
  · exact h.decTiles.mem_le (List.mem_map_of_mem (f := fun kv : String × Component => (kv.2.offset, kv.2.shape.prod)) hc)

theorem remapped_specOf {p : Problem α} (hp : Reachable p) {name : String} {w : VarSpec} (hc : (name, w) ∈ p.remapped) :
    specOf p name = some w := by
  rw [← items_get?]
  exact Dict.get?_of_mem (items_nodup hp) (List.mem_append_right _ hc)

theorem MemInv.dvecRead [Zero α] {p : Problem α} {extra : Dict String View} {dvec : View} {base : Nat} {s : MemState α} {v : Contents α}
    (hi : MemInv p extra dvec base s v) : dvec.read s.heap = .ok ⟨[p.ndec], v.dvec⟩ := by
  unfold View.read
  rw [hi.read, hi.shape]
  rfl

theorem readAt_range_self (a : List α) : readAt a (List.range a.length) = .ok a :=
  readAt_of (by simp) fun i hi => by simp

theorem Heap.get_length {h : Heap α} {b : Nat} {pos : List Nat} {d : List α} (hv : h.get b pos = .ok d) : d.length = pos.length := by
  unfold Heap.get at hv
  split at hv
  · exact (readAt_inv hv).1
  · cases hv

theorem MemStart.posLen {p : Problem α} {extra : Dict String View} {dvec : View} {h : Heap α} {d : List α} (hs : MemStart p extra dvec h d) :
    dvec.pos.length = p.ndec := by
  have hr := hs.read
  unfold View.read at hr
  obtain ⟨d', h1, h2⟩ := py_bind_eq_ok hr
  injection h2 with h2
  injection h2 with h2 h3
  subst h3
  rw [← Heap.get_length h1, hs.len]

/-- **C05.** After any sequence of calls of `variables` and of assignments through the arrays they returned: the decision vector has the
content which the assignments to decision arrays have given it, no others; every decision array, of whichever call, has the content of its
entries of the decision vector as it is now; and every array of a dependent variable has the content it was made with, but for the
assignments to that very array. -/
theorem C05_writes [Zero α] (p : Problem α) (hp : Reachable p) (extra : Dict String View) (dvec : View) (h : Heap α) (d : List α)
    (hs : MemStart p extra dvec h d) (ops : List (MemOp α)) (st : MemState α) (hr : MemState.run p extra dvec ops ⟨h, []⟩ = .ok st) :
    let s := Contents.run p ops d
    dvec.read st.heap = .ok ⟨[p.ndec], s.dvec⟩ ∧ s.calls = st.results.length ∧
    ∀ (r : Nat) vs, st.results[r]? = some vs →
      (∀ name c, (name, c) ∈ p.decision → ∃ v, vs.get? name = some v ∧ v.read st.heap = c.unpackFrom s.dvec) ∧
      (∀ name w, (name, w) ∈ p.remapped → (∀ c, w ≠ .comp c) →
        ∃ v a, vs.get? name = some v ∧ s.own r name = some a ∧ v.read st.heap = .ok a) := by
  intro s
  have hi := hs.inv hp hr
  refine ⟨hi.dvecRead, hi.calls, fun r vs hvs => ⟨fun name c hc => ?_, fun name w hw hd => ?_⟩⟩
  · obtain ⟨h1, h2⟩ := decision_specOf hp hc
    obtain ⟨h3, -⟩ := hi.comp r vs name c hvs h1
    refine ⟨_, h3, ?_⟩
    have hb : dvec.buf < List.length st.heap := lt_of_lt_of_le hi.buf hi.len
    have hl : c.offset + c.size ≤ s.dvec.length := by
      rw [Heap.get_length hi.read, hs.posLen]
      exact h2
    have ha := Component.unpackFrom_eq 0 c s.dvec hl
    rw [(holds_decisionView hb hi.read ha).read, ha]
  · obtain ⟨a, b, h1, -, h3, h4⟩ := hi.own r vs name w hvs (remapped_specOf hp hw) hd
    refine ⟨_, a, h3, h1, ?_⟩
    unfold View.read Heap.get
    dsimp only
    rw [h4]
    dsimp only
    rw [readAt_range_self]
    rfl

/-- **C05** (a decision array). In any state reached by such a sequence, assigning to entry `idx` of a decision array is possible, and
changes the decision vector at the entry of that variable and index and nowhere else. -/
theorem C05_decision_write [Zero α] (p : Problem α) (hp : Reachable p) (extra : Dict String View) (dvec : View) (h : Heap α) (d : List α)
    (hs : MemStart p extra dvec h d) (ops : List (MemOp α)) (st : MemState α) (hr : MemState.run p extra dvec ops ⟨h, []⟩ = .ok st)
    (r : Nat) (hlt : r < st.results.length) (name : String) (c : Component) (hc : (name, c) ∈ p.decision) (idx : List Nat)
    (hidx : InBounds c.shape idx) (x : α) :
    ∃ st' d0, st.step p extra dvec (.assign r name (cOrder c.shape idx) x) = .ok st' ∧ dvec.read st.heap = .ok ⟨[p.ndec], d0⟩ ∧
      c.offset + cOrder c.shape idx < d0.length ∧
      dvec.read st'.heap = .ok ⟨[p.ndec], d0.set (c.offset + cOrder c.shape idx) x⟩ := by
  have hi := hs.inv hp hr
  obtain ⟨h1, h2⟩ := decision_specOf hp hc
  obtain ⟨h3, -⟩ := hi.comp r _ name c (List.getElem?_eq_getElem hlt) h1
  have hlt2 : cOrder c.shape idx < c.size := cOrder_lt hidx
  have hpl := hs.posLen
  have hstep : ∃ st', st.step p extra dvec (.assign r name (cOrder c.shape idx) x) = .ok st' := by
    unfold MemState.step
    dsimp only
    rw [List.getElem?_eq_getElem hlt]
    dsimp only
    unfold Dict.getItem
    rw [h3]
    unfold View.setEntry
    have : (decisionView c dvec).pos[cOrder c.shape idx]? = dvec.pos[c.offset + cOrder c.shape idx]? := by
      simp only [decisionView]
      rw [List.getElem?_drop, List.getElem?_take, if_pos (by omega)]
    rw [py_bind_ok, this, List.getElem?_eq_getElem (by omega)]
    exact ⟨_, rfl⟩
  obtain ⟨st', hst⟩ := hstep
  have hi' := hi.assign hs.extra hst
  refine ⟨st', _, hst, hi.dvecRead, ?_, ?_⟩
  · rw [Heap.get_length hi.read, hpl]
    omega
  · rw [hi'.dvecRead]
    simp only [Contents.step, h1]

/-- **C05** (an array of a dependent variable). Assigning to it never changes the decision vector, nor any array of another call or name. -/
theorem C05_dependent_write [Zero α] (p : Problem α) (hp : Reachable p) (extra : Dict String View) (dvec : View) (h : Heap α) (d : List α)
    (hs : MemStart p extra dvec h d) (ops : List (MemOp α)) (st : MemState α) (hr : MemState.run p extra dvec ops ⟨h, []⟩ = .ok st)
    (r : Nat) (name : String) (w : VarSpec) (hw : (name, w) ∈ p.remapped) (hd : ∀ c, w ≠ .comp c) (i : Nat) (x : α) (st' : MemState α)
    (hst : st.step p extra dvec (.assign r name i x) = .ok st') :
    dvec.read st'.heap = dvec.read st.heap ∧
    ∀ (r' : Nat) vs name' v, st.results[r']? = some vs → name' ∈ p.decision.keys ++ p.remapped.keys → (r' ≠ r ∨ name' ≠ name) →
      vs.get? name' = some v → v.read st'.heap = v.read st.heap := by
  have hi := hs.inv hp hr
  have hi' := hi.assign hs.extra hst
  have hsp := remapped_specOf hp hw
  have hstep : (Contents.run p ops d).step p (.assign r name i x) =
      { Contents.run p ops d with own := fun r' n => if r' = r ∧ n = name then ((Contents.run p ops d).own r' n).map fun a => ⟨a.shape, a.data.set i x⟩
        else (Contents.run p ops d).own r' n } := by
    cases w with
    | comp c => exact absurd rfl (hd c)
    | _ => simp only [Contents.step, hsp]
  have hdv : ((Contents.run p ops d).step p (.assign r name i x)).dvec = (Contents.run p ops d).dvec := by rw [hstep]
  refine ⟨by rw [hi'.dvecRead, hi.dvecRead, hdv], fun r' vs name' v hvs hn hne hv => ?_⟩
  have hres : st'.results = st.results := by
    unfold MemState.step at hst
    dsimp only at hst
    cases e : st.results[r]? with
    | none => rw [e] at hst; cases hst
    | some vs =>
      rw [e] at hst
      obtain ⟨_, _, h1⟩ := py_bind_eq_ok hst
      obtain ⟨_, _, h2⟩ := py_bind_eq_ok h1
      cases h2
      rfl
  have hsome : ∃ w', specOf p name' = some w' := by
    rw [← items_get?]
    cases e : p.items.get? name' with
    | some w' => exact ⟨w', rfl⟩
    | none =>
      rw [Dict.get?_eq_none_iff] at e
      refine absurd ?_ e
      simpa [Problem.items, Dict.keys, Function.comp_def] using hn
  obtain ⟨w', hw'⟩ := hsome
  rcases specOf_cases w' with ⟨c, rfl⟩ | hd'
  · obtain ⟨h1, -⟩ := hi.comp r' vs name' c hvs hw'
    rw [hv] at h1
    cases h1
    have hb : dvec.buf < List.length st.heap := lt_of_lt_of_le hi.buf hi.len
    unfold View.read decisionView
    dsimp only
    rw [Heap.get_slice hi.read, Heap.get_slice hi'.read, hdv]
  · obtain ⟨a, b, h1, -, h3, h4⟩ := hi.own r' vs name' w' hvs hw' hd'
    obtain ⟨a', b', h1', -, h3', h4'⟩ := hi'.own r' vs name' w' (hres ▸ hvs) hw' hd'
    rw [hstep] at h1'
    simp only at h1'
    rw [if_neg (by rintro ⟨rfl, rfl⟩; simp at hne), h1] at h1'
    cases h1'
    rw [hv] at h3 h3'
    cases h3
    cases h3'
    unfold View.read
    dsimp only
    rw [get_congr (h4.trans h4'.symm)]

/-- **C05** (a later call). In any state reached by such a sequence, another call of `variables` returns whenever the dependent variables
can be unpacked from the decision vector as it is now, and its arrays have the content which `variables` (on contents, C04) gives. -/
theorem C05_later [Zero α] (p : Problem α) (hp : Reachable p) (extra : Dict String View) (dvec : View) (h : Heap α) (d : List α)
    (hs : MemStart p extra dvec h d) (ops : List (MemOp α)) (st : MemState α) (hr : MemState.run p extra dvec ops ⟨h, []⟩ = .ok st)
    (hdep : ∀ kv ∈ p.remapped, ∃ a, kv.2.unpackFrom (Contents.run p ops d).dvec = .ok a) :
    ∃ st' vs, st.step p extra dvec .variables = .ok st' ∧ st'.results = st.results ++ [vs] ∧ dvec.read st'.heap = dvec.read st.heap ∧
      (∀ name c, (name, c) ∈ p.decision → ∃ v a, vs.get? name = some v ∧ c.unpackFrom (Contents.run p ops d).dvec = .ok a ∧
        v.read st'.heap = .ok a) ∧
      (∀ name w, (name, w) ∈ p.remapped → ∃ v a, vs.get? name = some v ∧ w.unpackFrom (Contents.run p ops d).dvec = .ok a ∧
        v.read st'.heap = .ok a) := by
  have hi := hs.inv hp hr
  have hb : dvec.buf < List.length st.heap := lt_of_lt_of_le hi.buf hi.len
  have hl : (Contents.run p ops d).dvec.length = p.ndec := by rw [Heap.get_length hi.read, hs.posLen]
  have hcomp : ∀ name c, (name, c) ∈ p.decision → ∃ a, c.unpackFrom (Contents.run p ops d).dvec = .ok a := by
    intro name c hc
    obtain ⟨-, h2⟩ := decision_specOf hp hc
    exact ⟨_, Component.unpackFrom_eq 0 c _ (hl ▸ h2)⟩
  have hall : ∀ kv ∈ p.items, ∃ a, kv.2.unpackFrom (Contents.run p ops d).dvec = .ok a := by
    intro kv hkv
    rcases List.mem_append.1 hkv with hkv | hkv
    · obtain ⟨kv', hkv', rfl⟩ := List.mem_map.1 hkv
      exact hcomp kv'.1 kv'.2 hkv'
    · exact hdep kv hkv
  obtain ⟨⟨vs0, h'⟩, hu⟩ := unpackItems_returns hb hi.read hall
  have hstep : st.step p extra dvec .variables = .ok ⟨h', st.results ++ [Dict.update extra (Dict.update [] vs0)]⟩ := by
    unfold MemState.step Problem.variablesMem
    dsimp only
    rw [pyAssert_true hi.shape, py_bind_ok, hu]
    rfl
  have hi' := hi.variables (items_nodup hp) hstep
  have hdv : ((Contents.run p ops d).step p .variables).dvec = (Contents.run p ops d).dvec := rfl
  have hlast : (st.results ++ [Dict.update extra (Dict.update [] vs0)])[st.results.length]? = some (Dict.update extra (Dict.update [] vs0)) := by
    simp
  have hb' : dvec.buf < List.length h' := lt_of_lt_of_le hi'.buf hi'.len
  have hview : ∀ name c, specOf p name = some (.comp c) → ∀ a, c.unpackFrom (Contents.run p ops d).dvec = .ok a →
      ∃ v, (Dict.update extra (Dict.update [] vs0)).get? name = some v ∧ v.read h' = .ok a := by
    intro name c hc a ha
    obtain ⟨h1, -⟩ := hi'.comp _ _ name c hlast hc
    exact ⟨_, h1, (holds_decisionView hb' hi'.read (hdv ▸ ha)).read⟩
  refine ⟨_, _, hstep, rfl, by rw [hi'.dvecRead, hi.dvecRead, hdv], fun name c hc => ?_, fun name w hw => ?_⟩
  · obtain ⟨a, ha⟩ := hcomp name c hc
    obtain ⟨v, h1, h2⟩ := hview name c (decision_specOf hp hc).1 a ha
    exact ⟨v, a, h1, ha, h2⟩
  · obtain ⟨a, ha⟩ := hdep _ hw
    have hsp := remapped_specOf hp hw
    rcases specOf_cases w with ⟨c, rfl⟩ | hd
    · obtain ⟨v, h1, h2⟩ := hview name c hsp a ha
      exact ⟨v, a, h1, ha, h2⟩
    · obtain ⟨a', b, h1, -, h3, h4⟩ := hi'.own _ _ name w hlast hsp hd
      have : a' = a := by
        have h5 : ((Contents.run p ops d).step p .variables).own st.results.length name = ownArray (Contents.run p ops d).dvec (specOf p name) := by
          simp only [Contents.step, hi.calls, if_true]
        rw [h5, hsp, ownArray_dep hd ha] at h1
        exact (Option.some.inj h1).symm
      subst this
      refine ⟨_, a', h3, ha, ?_⟩
      unfold View.read Heap.get
      dsimp only
      rw [h4]
      dsimp only
      rw [readAt_range_self]
      rfl

/-! ### A case that meets the hypotheses -/

namespace AliasingDemo

/-- The problem of the example of C04. -/
def calls : List (Problem.Call Int) := [.decision (.str "x") (.tuple [3, 2]), .dependent (.str "xp") (.piece ⟨⟨[3, 2], 0⟩, 2, 2⟩),
  .decision (.str "p") (.int 1), .dependent (.str "xe") (.xe ⟨⟨[3, 2], 0⟩⟩)]
def p : Problem Int := Problem.run calls

/-- `dvec` is every other entry of a buffer; the problem holds an array `y`. -/
def dvec : View := ⟨0, [0, 2, 4, 6, 8, 10, 12], [7]⟩
def mem : Heap Int := [[10, 0, 11, 0, 12, 0, 13, 0, 14, 0, 15, 0, 16], [20, 21]]
def extra : Dict String View := [("y", ⟨1, [0, 1], [2]⟩)]

def ops : List (MemOp Int) := [.variables, .assign 0 "x" 3 99, .variables, .assign 0 "xp" 2 77, .assign 1 "xe" 0 55, .assign 1 "p" 0 44]

theorem start : MemStart p extra dvec mem [10, 11, 12, 13, 14, 15, 16] := by
  refine ⟨by decide, by decide, by decide, by decide, ?_⟩
  intro k w hk
  have : w = ⟨1, [0, 1], [2]⟩ := by
    unfold extra at hk
    rw [Dict.get?_cons] at hk
    split at hk
    · exact (Option.some.inj hk).symm
    · simp at hk
  subst this
  decide

theorem reachable : Reachable p := ⟨calls, [], rfl⟩

/-- The assignments to `x` and `p` arrive in the decision vector; the first array `xp` still has the old entry of `x` and the assigned
one; the second array `xe` has the assigned entry. -/
example : ∃ st, MemState.run p extra dvec ops ⟨mem, []⟩ = .ok st ∧
    dvec.read st.heap = .ok ⟨[7], [10, 11, 12, 99, 14, 15, 44]⟩ ∧
    (st.results.map fun r => (r.get? "x").map (·.read st.heap)) =
      [some (.ok ⟨[3, 2], [10, 11, 12, 99, 14, 15]⟩), some (.ok ⟨[3, 2], [10, 11, 12, 99, 14, 15]⟩)] ∧
    (st.results.map fun r => (r.get? "xp").map (·.read st.heap)) =
      [some (.ok ⟨[2, 2, 2], [10, 11, 77, 13, 12, 13, 14, 15]⟩), some (.ok ⟨[2, 2, 2], [10, 11, 12, 99, 12, 99, 14, 15]⟩)] ∧
    (st.results.map fun r => (r.get? "xe").map (·.read st.heap)) =
      [some (.ok ⟨[2, 2], [10, 11, 14, 15]⟩), some (.ok ⟨[2, 2], [55, 11, 14, 15]⟩)] := by
  refine ⟨_, rfl, ?_⟩
  decide

end AliasingDemo

end Ceacoest
