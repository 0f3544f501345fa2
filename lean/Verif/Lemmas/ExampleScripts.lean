import Verif.Model.ExampleScripts
import Verif.Lemmas.Aliasing2

/-! # What the assignments of a script do to the two arrays of bounds -/

namespace Ceacoest.Script
open Spec
variable {α : Type}

/-- A resolved assignment: to entries `pos` of the variable at offset `off`; entry `k` of the variable becomes `f k`. -/
structure Write where
  upper : Bool
  off : Nat
  pos : List Nat
  f : Nat → EReal

/-- The bound after some writes. -/
noncomputable def entry (upper : Bool) (k : Nat) (ws : List Write) : EReal :=
  ws.foldl (fun acc w => if w.upper = upper ∧ w.off ≤ k ∧ k - w.off ∈ w.pos then w.f (k - w.off) else acc) (if upper then ⊤ else ⊥)

/-- The component that a statement is about. -/
def target (p : Problem ℝ) : Option String → Option Component
  | none => some ⟨[p.ndec], 0⟩
  | some name => p.decision.get? name

/-- A statement does this write. -/
structure Does (p : Problem ℝ) (s : Stmt) (w : Write) : Prop where
  upper : w.upper = s.upper
  ex : ∃ c rs, target p s.name = some c ∧ w.off = c.offset ∧ c.offset + c.size ≤ p.ndec ∧ resolve c.shape s.subs = .ok rs ∧ SelOK c.shape rs ∧
    w.pos = selPos c.shape rs ∧ (match s.value with | .num x => ∀ k ∈ w.pos, w.f k = x | .list xs => w.pos.map w.f = xs)

theorem writeAt_fun (B : List α) (pos : List Nat) (g : Nat → α) (j : Nat) :
    (writeAt B pos (pos.map g))[j]? = if j ∈ pos ∧ j < B.length then some (g j) else B[j]? := by
  induction pos generalizing B with
  | nil => simp [writeAt]
  | cons q ps ih =>
    rw [List.map_cons, writeAt, ih]
    by_cases h1 : j ∈ ps ∧ j < B.length
    · rw [if_pos (by simpa using h1), if_pos ⟨by simp [h1.1], h1.2⟩]
    · rw [if_neg (by simpa using h1), List.getElem?_set]
      by_cases h2 : q = j
      · subst h2
        by_cases h3 : q < B.length
        · simp [h3]
        · simp [h3, not_lt.1 h3]
      · rw [if_neg h2]
        by_cases h3 : j ∈ q :: ps ∧ j < B.length
        · exact absurd ⟨(List.mem_cons.1 h3.1).resolve_left (Ne.symm h2), h3.2⟩ h1
        · rw [if_neg h3]

/-- The memory of a script at some point. -/
structure Inv (p : Problem ℝ) (a : Arrays) (ws : List Write) : Prop where
  decL : a.decL = ⟨0, List.range p.ndec, [p.ndec]⟩
  decU : a.decU = ⟨0, (List.range p.ndec).map (p.ndec + ·), [p.ndec]⟩
  varL : ∀ name c, p.decision.get? name = some c → a.varL.get? name = some (decisionView c a.decL)
  varU : ∀ name c, p.decision.get? name = some c → a.varU.get? name = some (decisionView c a.decU)
  buf : ∃ B, a.heap[0]? = some B ∧ B.length = 2 * p.ndec ∧ ∀ k < p.ndec, B[k]? = some (entry false k ws) ∧ B[p.ndec + k]? = some (entry true k ws)

theorem slice_at {V : View} {n base : Nat} (hV : V.pos = (List.range n).map (base + ·)) {c : Component} (hc : c.offset + c.size ≤ n)
    {rs : List (List Nat)} (hs : SelOK c.shape rs) :
    (decisionView c V).at_ rs = .ok ((selPos c.shape rs).map fun k => base + c.offset + k) := by
  unfold View.at_ decisionView
  dsimp only
  refine readAt_of (by simp) fun i hi => ?_
  have hlt := selPos_lt hs _ (List.getElem_mem hi)
  have hsz : c.size = c.shape.prod := rfl
  rw [List.getElem?_drop, List.getElem?_take_of_lt (by omega), hV, List.getElem?_map, List.getElem?_range (by omega)]
  simp [Nat.add_assoc]

theorem self_at {V : View} {n base : Nat} (hV : V.pos = (List.range n).map (base + ·)) (hsh : V.shape = [n]) {rs : List (List Nat)} (hs : SelOK [n] rs) :
    V.at_ rs = .ok ((selPos [n] rs).map fun k => base + 0 + k) := by
  have h := slice_at hV (c := ⟨[n], 0⟩) (by simp [Component.size]) hs
  rw [← h]
  congr 1
  obtain ⟨b, pos, sh⟩ := V
  cases hsh
  cases hV
  unfold decisionView
  simp [Component.size]

theorem exec_ok {p : Problem ℝ} {a : Arrays} {ws : List Write} (hi : Inv p a ws) {s : Stmt} {w : Write} (hd : Does p s w) :
    ∃ a', exec a s = .ok a' ∧ Inv p a' (ws ++ [w]) := by
  obtain ⟨hu, c, rs, ht, hoff, hle, hrs, hsel, hpos, hval⟩ := hd
  obtain ⟨B, hB, hBl, hBe⟩ := hi.buf
  -- the array assigned to
  have hview : ∃ v : View, (match s.name with
      | none => pure (if s.upper then a.decU else a.decL)
      | some name => Dict.getItem (if s.upper then a.varU else a.varL) name) = (.ok v : Py View) ∧ v.buf = 0 ∧ v.shape = c.shape ∧
      v.at_ rs = .ok (w.pos.map fun k => (if s.upper then p.ndec else 0) + w.off + k) := by
    rw [hpos, hoff]
    cases hn : s.name with
    | none =>
      rw [hn] at ht
      cases ht
      cases hs : s.upper
      · refine ⟨_, rfl, ?_⟩
        rw [if_neg (by simp), if_neg (by simp), hi.decL]
        exact ⟨rfl, rfl, self_at (by simp) rfl hsel⟩
      · refine ⟨_, rfl, ?_⟩
        rw [if_pos rfl, if_pos rfl, hi.decU]
        exact ⟨rfl, rfl, self_at rfl rfl hsel⟩
    | some name =>
      rw [hn] at ht
      have ht : p.decision.get? name = some c := ht
      cases hs : s.upper
      · refine ⟨decisionView c a.decL, ?_, by simp [decisionView, hi.decL], rfl, ?_⟩
        · dsimp only
          unfold Dict.getItem
          rw [if_neg (by simp), hi.varL name c ht]
        · rw [if_neg (by simp)]
          exact slice_at (by rw [hi.decL]; simp) hle hsel
      · refine ⟨decisionView c a.decU, ?_, by simp [decisionView, hi.decU], rfl, ?_⟩
        · dsimp only
          unfold Dict.getItem
          rw [if_pos rfl, hi.varU name c ht]
        · rw [if_pos rfl]
          exact slice_at (by rw [hi.decU]) hle hsel
  obtain ⟨v, hv, hv0, hvs, hat⟩ := hview
  set base := if s.upper then p.ndec else 0 with hbase
  -- the memory after it
  have hassign : assign v s.subs s.value a.heap = .ok (a.heap.put 0 (w.pos.map fun k => base + w.off + k) (w.pos.map w.f)) := by
    unfold assign
    rw [hvs, hrs, py_bind_ok, hat, py_bind_ok, hv0]
    cases hx : s.value with
    | num x =>
      rw [hx] at hval
      dsimp only
      rw [List.map_map]
      congr 2
      exact List.map_congr_left fun k hk => (hval k hk).symm
    | list xs =>
      rw [hx] at hval
      dsimp only at hval ⊢
      rw [← hval, if_pos (by simp)]
      rfl
  refine ⟨{ a with heap := a.heap.put 0 (w.pos.map fun k => base + w.off + k) (w.pos.map w.f) }, ?_, hi.decL, hi.decU, hi.varL, hi.varU, ?_⟩
  · unfold exec
    cases hn : s.name with
    | none =>
      rw [hn] at hv
      dsimp only at hv ⊢
      rw [hv, py_bind_ok, hassign]
      rfl
    | some name =>
      rw [hn] at hv
      dsimp only at hv ⊢
      rw [hv, py_bind_ok, hassign]
      rfl
  have hlt : ∀ k ∈ w.pos, w.off + k < p.ndec := fun k hk => by
    have := selPos_lt hsel k (hpos ▸ hk)
    have hsz : c.size = c.shape.prod := rfl
    omega
  have hput : ((a.heap.put 0 (w.pos.map fun k => base + w.off + k) (w.pos.map w.f))[0]?) =
      some (writeAt B (w.pos.map fun k => base + w.off + k) (w.pos.map w.f)) := by
    unfold Heap.put
    rw [List.getElem?_modify, hB]
    simp
  have hg : w.pos.map w.f = (w.pos.map fun k => base + w.off + k).map fun j => w.f (j - (base + w.off)) := by
    rw [List.map_map]
    exact List.map_congr_left fun k _ => by simp
  refine ⟨_, hput, by rw [writeAt_length, hBl], fun k hk => ?_⟩
  rw [hg, writeAt_fun, writeAt_fun]
  have hent : ∀ up, entry up k (ws ++ [w]) = if w.upper = up ∧ w.off ≤ k ∧ k - w.off ∈ w.pos then w.f (k - w.off) else entry up k ws := fun up => by
    unfold entry
    rw [List.foldl_append]
    rfl
  rw [hent, hent, hu, hBl]
  obtain ⟨h1, h2⟩ := hBe k hk
  have hmem : ∀ j, (j ∈ w.pos.map fun k => base + w.off + k) ↔ base + w.off ≤ j ∧ j - (base + w.off) ∈ w.pos := fun j => by
    rw [List.mem_map]
    constructor
    · rintro ⟨k, hk, rfl⟩
      exact ⟨by omega, by simpa using hk⟩
    · rintro ⟨h3, h4⟩
      exact ⟨_, h4, by omega⟩
  simp only [hmem]
  cases hs : s.upper
  · have hb : base = 0 := by rw [hbase, hs]; rfl
    rw [hb, Nat.zero_add]
    constructor
    · by_cases h3 : w.off ≤ k ∧ k - w.off ∈ w.pos
      · rw [if_pos ⟨h3, by omega⟩, if_pos ⟨rfl, h3⟩]
      · rw [if_neg (fun h => h3 h.1), if_neg (fun h => h3 h.2), h1]
    · rw [if_neg (fun h => ?_), if_neg (fun h => Bool.false_ne_true h.1), h2]
      have := hlt _ h.1.2
      omega
  · have hb : base = p.ndec := by rw [hbase, hs]; rfl
    rw [hb]
    constructor
    · rw [if_neg (fun h => by omega), if_neg (fun h => Bool.false_ne_true h.1.symm), h1]
    · have e : p.ndec + k - (p.ndec + w.off) = k - w.off := by omega
      rw [e]
      by_cases h3 : w.off ≤ k ∧ k - w.off ∈ w.pos
      · rw [if_pos ⟨⟨by omega, h3.2⟩, by omega⟩, if_pos ⟨rfl, h3⟩]
      · rw [if_neg (fun h => h3 ⟨by omega, h.1.2⟩), if_neg (fun h => h3 h.2), h2]

theorem foldlM_ok {p : Problem ℝ} {stmts : List Stmt} {ws' : List Write} (hd : List.Forall₂ (Does p) stmts ws') {a : Arrays} {ws : List Write}
    (hi : Inv p a ws) : ∃ a', stmts.foldlM exec a = .ok a' ∧ Inv p a' (ws ++ ws') := by
  induction hd generalizing a ws with
  | nil => exact ⟨a, rfl, by simpa using hi⟩
  | cons h _ ih =>
    obtain ⟨a1, h1, h2⟩ := exec_ok hi h
    obtain ⟨a2, h3, h4⟩ := ih h2
    refine ⟨a2, ?_, by simpa using h4⟩
    rw [List.foldlM_cons, h1]
    exact h3

/-- What `variables` needs of the layout. -/
structure LayoutOK (p : Problem ℝ) : Prop where
  names : (p.decision.keys ++ p.remapped.keys).Nodup
  le : ∀ name c, (name, c) ∈ p.decision → c.offset + c.size ≤ p.ndec
  dep : ∀ d : List EReal, d.length = p.ndec → ∀ kv ∈ p.remapped, ∃ a, kv.2.unpackFrom d = .ok a

theorem variablesMem_ok {p : Problem ℝ} (hp : LayoutOK p) {V : View} {h : Heap EReal} {d : List EReal} (hb : V.buf < h.length)
    (hr : h.get V.buf V.pos = .ok d) (hl : d.length = p.ndec) (hs : V.shape = [p.ndec]) :
    ∃ vs new, (layout p).variablesMem [] V h = .ok (vs, h ++ new) ∧ ∀ name c, p.decision.get? name = some c → vs.get? name = some (decisionView c V) := by
  have hnd : (layout p).items.keys.Nodup := by
    have := hp.names
    simpa [Problem.items, layout, Dict.keys, Function.comp_def] using this
  have hall : ∀ kv ∈ (layout p).items, ∃ a, kv.2.unpackFrom d = .ok a := by
    intro kv hkv
    rcases List.mem_append.1 hkv with hkv | hkv
    · obtain ⟨kv', hkv', rfl⟩ := List.mem_map.1 hkv
      exact ⟨_, Component.unpackFrom_eq 0 kv'.2 _ (hl ▸ hp.le kv'.1 kv'.2 hkv')⟩
    · exact hp.dep d hl kv hkv
  obtain ⟨⟨vs, h'⟩, hu⟩ := unpackItems_returns hb hr hall
  obtain ⟨⟨new, rfl⟩, hk, hret, -⟩ := unpackItems_ok hb hr hu
  refine ⟨Dict.update [] (Dict.update [] vs), new, ?_, fun name c hc => ?_⟩
  · unfold Problem.variablesMem
    rw [pyAssert_true (by exact hs), py_bind_ok, hu]
    rfl
  · have hsp : (layout p).items.get? name = some (.comp c) := by
      rw [items_get?]
      unfold specOf
      have : (layout p).decision.get? name = some c := hc
      rw [this]
      rfl
    obtain ⟨view, h1, h2, -⟩ := hret name _ hsp
    obtain ⟨rfl, -⟩ := h2 c rfl
    have hn : vs.keys.Nodup := hk ▸ hnd
    rw [Dict.update_nil_of_nodup hn, Dict.update_nil_of_nodup hn, h1]

theorem start_ok {p : Problem ℝ} (hp : LayoutOK p) : ∃ a, start p = .ok a ∧ Inv p a [] := by
  set B : List EReal := List.replicate p.ndec ⊥ ++ List.replicate p.ndec ⊤ with hB
  set decL : View := ⟨0, List.range p.ndec, [p.ndec]⟩ with hL
  set decU : View := ⟨0, (List.range p.ndec).map (p.ndec + ·), [p.ndec]⟩ with hU
  have hBe : ∀ k < p.ndec, B[k]? = some ⊥ ∧ B[p.ndec + k]? = some ⊤ := fun k hk => by
    rw [hB, List.getElem?_append_left (by simpa using hk), List.getElem?_append_right (by simp)]
    simp [hk]
  have hgL : Heap.get [B] decL.buf decL.pos = .ok (List.replicate p.ndec ⊥) := by
    show readAt B (List.range p.ndec) = _
    refine readAt_of (by simp) fun i hi => ?_
    simp only [List.length_range] at hi
    rw [List.getElem_range, (hBe i hi).1]
    simp [hi]
  have hgU : Heap.get [B] decU.buf decU.pos = .ok (List.replicate p.ndec ⊤) := by
    show readAt B ((List.range p.ndec).map (p.ndec + ·)) = _
    refine readAt_of (by simp) fun i hi => ?_
    simp only [List.length_map, List.length_range] at hi
    rw [List.getElem_map, List.getElem_range, (hBe i hi).2]
    simp [hi]
  obtain ⟨vsL, n1, h1, hv1⟩ := variablesMem_ok hp (V := decL) (h := [B]) (by simp [hL]) hgL (by simp) rfl
  obtain ⟨vsU, n2, h2, hv2⟩ := variablesMem_ok hp (V := decU) (h := [B] ++ n1) (by simp [hU])
    (by rw [Heap.get_append (by simp [hU])]; exact hgU) (by simp) rfl
  refine ⟨⟨[B] ++ n1 ++ n2, decL, decU, vsL, vsU⟩, ?_, rfl, rfl, hv1, hv2, B, by simp, by simp [hB, two_mul], fun k hk => hBe k hk⟩
  unfold start
  dsimp only
  rw [h1]
  simp only [py_bind_ok]
  rw [h2]
  rfl

theorem bounds_ok {p : Problem ℝ} (hp : LayoutOK p) {stmts : List Stmt} {ws : List Write} (hd : List.Forall₂ (Does p) stmts ws) :
    bounds p stmts = .ok ((List.range p.ndec).map fun k => entry false k ws, (List.range p.ndec).map fun k => entry true k ws) := by
  obtain ⟨a, h1, h2⟩ := start_ok hp
  obtain ⟨a', h3, h4⟩ := foldlM_ok hd h2
  obtain ⟨B, h5, h6, h7⟩ := h4.buf
  simp only [List.nil_append] at h7
  have hL : a'.decL.read a'.heap = .ok ⟨[p.ndec], (List.range p.ndec).map fun k => entry false k ws⟩ := by
    unfold View.read Heap.get
    rw [h4.decL]
    dsimp only
    rw [h5]
    dsimp only
    rw [readAt_of (r := (List.range p.ndec).map fun k => entry false k ws) (by simp) fun i hi => ?_]
    · rfl
    · simp only [List.length_range] at hi
      rw [List.getElem_range, (h7 i hi).1]
      simp [hi]
  have hU : a'.decU.read a'.heap = .ok ⟨[p.ndec], (List.range p.ndec).map fun k => entry true k ws⟩ := by
    unfold View.read Heap.get
    rw [h4.decU]
    dsimp only
    rw [h5]
    dsimp only
    rw [readAt_of (r := (List.range p.ndec).map fun k => entry true k ws) (by simp) fun i hi => ?_]
    · rfl
    · simp only [List.length_map, List.length_range] at hi
      rw [List.getElem_map, List.getElem_range, (h7 i hi).2]
      simp [hi]
  unfold bounds
  rw [h1, py_bind_ok, h3, py_bind_ok, hL, py_bind_ok, hU]
  rfl

end Ceacoest.Script
