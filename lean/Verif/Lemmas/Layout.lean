import Verif.Lemmas.Dict
import Verif.Lemmas.Gather
import Verif.Spec.Layout

/-! Helper lemmas for the layout properties. -/

namespace Ceacoest
variable {α : Type}
open Spec

theorem Spec.Tiles.append {b : List (Nat × Nat)} {t s : Nat} (h : Tiles b t) : Tiles (b ++ [(t, s)]) (t + s) := by
  refine ⟨fun k hk => ?_, by simp [h.2]⟩
  simp only [List.length_append, List.length_cons, List.length_nil] at hk
  by_cases hk' : k < b.length
  · rw [List.getElem_append_left hk', h.1 k hk', List.take_append_of_le_length (by omega)]
  · have : k = b.length := by omega
    subst this
    simp [h.2]

/-- Every index below the total lies in exactly one block. -/
theorem Spec.Tiles.existsUnique {b : List (Nat × Nat)} {t : Nat} (h : Tiles b t) (d : Nat) (hd : d < t) :
    ∃! k, ∃ hk : k < b.length, b[k].1 ≤ d ∧ d < b[k].1 + b[k].2 := by
  induction b using List.reverseRecOn generalizing t with
  | nil => simp [h.2] at hd
  | append_singleton b x ih =>
    obtain ⟨o, s⟩ := x
    have ho : o = (b.map Prod.snd).sum := by
      have := h.1 b.length (by simp)
      simpa using this
    have hb : Tiles b o := by
      refine ⟨fun k hk => ?_, ho⟩
      have := h.1 k (by simp; omega)
      rwa [List.getElem_append_left hk, List.take_append_of_le_length (by omega)] at this
    have ht : t = o + s := by rw [h.2, ho]; simp
    have hend : ∀ k (hk : k < b.length), b[k].1 + b[k].2 ≤ o := by
      intro k hk
      rw [hb.1 k hk, ho]
      have : (b.take k).map Prod.snd ++ [b[k].2] = (b.take (k + 1)).map Prod.snd := by
        rw [List.take_succ_eq_append_getElem hk, List.map_append]; rfl
      calc ((b.take k).map Prod.snd).sum + b[k].2
          = ((b.take (k + 1)).map Prod.snd).sum := by rw [← this]; simp
        _ ≤ (b.map Prod.snd).sum := by
          conv_rhs => rw [← List.take_append_drop (k + 1) b, List.map_append, List.sum_append]
          exact Nat.le_add_right _ _
    by_cases hdo : d < o
    · obtain ⟨k, ⟨hk, hk2⟩, huniq⟩ := ih hb hdo
      refine ⟨k, ⟨by simp; omega, by rw [List.getElem_append_left hk]; exact hk2⟩, ?_⟩
      rintro k' ⟨hk', hk2'⟩
      by_cases hlt : k' < b.length
      · rw [List.getElem_append_left hlt] at hk2'
        exact huniq k' ⟨hlt, hk2'⟩
      · have : k' = b.length := by simp at hk'; omega
        subst this
        simp at hk2'
        omega
    · refine ⟨b.length, ⟨by simp, by simp; omega⟩, ?_⟩
      rintro k' ⟨hk', hk2'⟩
      by_contra hne
      have hlt : k' < b.length := by simp at hk'; omega
      rw [List.getElem_append_left hlt] at hk2'
      have := hend k' hlt
      omega

/-- Some earlier call used this name. -/
def used (calls : List (Problem.Call α)) (s : String) : Bool := calls.any fun c' => callName c' = some s

@[simp] theorem callName_dec (s : String) (sh) : callName (.decision (.str s) sh : Problem.Call α) = some s := rfl
@[simp] theorem callName_dec' (sh) : callName (.decision .other sh : Problem.Call α) = none := rfl
@[simp] theorem callName_dep (s : String) (v) : callName (.dependent (.str s) v : Problem.Call α) = some s := rfl
@[simp] theorem callName_dep' (v) : callName (.dependent .other v : Problem.Call α) = none := rfl
@[simp] theorem callName_obj (f sh a) : callName (.objective f sh a : Problem.Call α) = none := rfl
@[simp] theorem callName_con (f sh a) : callName (.constraint f sh a : Problem.Call α) = none := rfl

theorem firstUses_append (calls : List (Problem.Call α)) (c : Problem.Call α) :
    firstUses (calls ++ [c]) = firstUses calls ++
      match callName c with
      | none => []
      | some s => if used calls s then [] else [c] := by
  unfold firstUses
  rw [List.length_append, List.length_singleton, List.range_succ, List.filterMap_append]
  congr 1
  · refine List.filterMap_congr fun i hi => ?_
    have hi := List.mem_range.1 hi
    rw [List.getElem?_append_left hi, List.take_append_of_le_length (by omega)]
  · simp only [List.filterMap_cons, List.filterMap_nil, List.getElem?_append_right le_rfl]
    simp only [Nat.sub_self, List.getElem?_cons_zero, List.take_append_length]
    cases callName c with
    | none => rfl
    | some s =>
      simp only
      by_cases h : used calls s = true
      · rw [if_pos h]; rw [used] at h; simp only [h, if_true]
      · rw [if_neg h]; rw [used] at h; rw [if_neg h]

theorem used_append (calls : List (Problem.Call α)) (c : Problem.Call α) (s : String) :
    used (calls ++ [c]) s = true ↔ used calls s = true ∨ callName c = some s := by
  simp [used]

theorem decisions_append (calls : List (Problem.Call α)) (c : Problem.Call α) :
    decisions (calls ++ [c]) = decisions calls ++
      match c with
      | .decision (.str s) sh => if used calls s then [] else [(s, sh.norm)]
      | _ => [] := by
  unfold decisions
  rw [firstUses_append, List.filterMap_append]
  congr 1
  rcases c with ⟨_ | _, sh⟩ | ⟨_ | _, v⟩ | _ | _ <;> simp only [callName_dec, callName_dec', callName_dep, callName_dep', callName_obj, callName_con,
    List.filterMap_nil] <;>
    next s => by_cases h : used calls s = true <;> simp [h]

theorem dependents_append (calls : List (Problem.Call α)) (c : Problem.Call α) :
    dependents (calls ++ [c]) = dependents calls ++
      match c with
      | .dependent (.str s) v => if used calls s then [] else [(s, v)]
      | _ => [] := by
  unfold dependents
  rw [firstUses_append, List.filterMap_append]
  congr 1
  rcases c with ⟨_ | _, sh⟩ | ⟨_ | _, v⟩ | _ | _ <;> simp only [callName_dec, callName_dec', callName_dep, callName_dep', callName_obj, callName_con,
    List.filterMap_nil] <;>
    next s => by_cases h : used calls s = true <;> simp [h]

/-- The names used so far are exactly the registered ones. -/
theorem used_iff (calls : List (Problem.Call α)) (s : String) :
    used calls s = true ↔ s ∈ (decisions calls).map Prod.fst ∨ s ∈ (dependents calls).map Prod.fst := by
  induction calls using List.reverseRecOn generalizing s with
  | nil => simp [decisions, dependents, firstUses, used]
  | append_singleton calls c ih =>
    rw [used_append, decisions_append, dependents_append]
    rcases c with ⟨s' | _, sh⟩ | ⟨s' | _, v⟩ | _ | _ <;> simp only [callName_dec, callName_dec', callName_dep, callName_dep', callName_obj, callName_con, ih s,
      List.append_nil, reduceCtorEq, or_false]
    · by_cases h : used calls s' = true
      · rw [if_pos h, List.append_nil]
        constructor
        · rintro (h' | h')
          · exact h'
          · cases h'; exact (ih s).1 h
        · exact .inl
      · rw [if_neg h]
        simp only [List.map_append, List.map_cons, List.map_nil, List.mem_append, List.mem_singleton,
          Option.some.injEq]
        tauto
    · by_cases h : used calls s' = true
      · rw [if_pos h, List.append_nil]
        constructor
        · rintro (h' | h')
          · exact h'
          · cases h'; exact (ih s).1 h
        · exact .inl
      · rw [if_neg h]
        simp only [List.map_append, List.map_cons, List.map_nil, List.mem_append, List.mem_singleton,
          Option.some.injEq]
        tauto

/-- Invariant of registration histories. -/
structure Inv (calls : List (Problem.Call α)) (p : Problem α) : Prop where
  dec : p.decision.map (fun kv => (kv.1, kv.2.shape)) = decisions calls
  dep : p.remapped = dependents calls
  con : p.constraints.map (fun c => (c.fn.fn, c.fn.shape)) = (constraintCalls calls).map fun c => (c.1, c.2.1)
  conArgs : p.constraints.map (·.fn) = (constraintCalls calls).map fun c => OptFun.mk' c.2.1 c.1 c.2.2
  names : (Dict.keys p.decision ++ Dict.keys p.remapped).Nodup
  decTiles : Tiles (p.decision.map fun kv => (kv.2.offset, kv.2.shape.prod)) p.ndec
  conTiles : Tiles (p.constraints.map fun c => (c.offset, c.fn.shape.prod)) p.ncons
  extra : p.extra = []

theorem OptFun.mk'_fn (sh : List Nat) (f : GenFun α) (a) : (OptFun.mk' sh f a).fn = f ∧ (OptFun.mk' sh f a).shape = sh := by
  cases a <;> simp [OptFun.mk']

theorem inv_run (calls : List (Problem.Call α)) : Inv calls (Problem.run calls) := by
  induction calls using List.reverseRecOn with
  | nil =>
    exact ⟨rfl, rfl, rfl, rfl, by simp [Problem.run, Problem.empty, Dict.keys],
      ⟨by simp [Problem.run, Problem.empty], rfl⟩, ⟨by simp [Problem.run, Problem.empty], rfl⟩, rfl⟩
  | append_singleton calls c ih =>
    have hrun : Problem.run (calls ++ [c]) = (Problem.run calls).step c := by
      simp [Problem.run, List.foldl_append]
    rw [hrun]
    generalize Problem.run calls = p at ih
    have hdk : Dict.keys p.decision = (decisions calls).map Prod.fst := by
      rw [← ih.dec]; simp [Dict.keys]
    have hrk : Dict.keys p.remapped = (dependents calls).map Prod.fst := by
      rw [← ih.dep]; rfl
    have hused : ∀ s, used calls s = true ↔ (s ∈ Dict.keys p.decision ∨ s ∈ Dict.keys p.remapped) := by
      intro s; rw [used_iff, hdk, hrk]
    have hcc : constraintCalls (calls ++ [c]) = constraintCalls calls ++ constraintCalls [c] := by
      simp [constraintCalls, List.filterMap_append]
    rcases c with ⟨s | _, sh⟩ | ⟨s | _, v⟩ | ⟨f, sh, a⟩ | ⟨f, sh, a⟩
    · -- decision
      have hc : constraintCalls ([.decision (.str s) sh] : List (Problem.Call α)) = [] := rfl
      rw [hc, List.append_nil] at hcc
      simp only [Problem.step, Problem.addDecision]
      by_cases h1 : s ∈ Dict.keys p.decision
      · rw [if_pos (Dict.contains_iff.2 h1)]
        have hu := (hused s).2 (.inl h1)
        exact ⟨by rw [decisions_append]; simp [hu, ih.dec], by rw [dependents_append]; simp [ih.dep],
          by rw [hcc]; exact ih.con, by rw [hcc]; exact ih.conArgs, ih.names, ih.decTiles, ih.conTiles, ih.extra⟩
      rw [if_neg (fun h => h1 (Dict.contains_iff.1 h))]
      by_cases h2 : s ∈ Dict.keys p.remapped
      · rw [if_pos (Dict.contains_iff.2 h2)]
        have hu := (hused s).2 (.inr h2)
        exact ⟨by rw [decisions_append]; simp [hu, ih.dec], by rw [dependents_append]; simp [ih.dep],
          by rw [hcc]; exact ih.con, by rw [hcc]; exact ih.conArgs, ih.names, ih.decTiles, ih.conTiles, ih.extra⟩
      rw [if_neg (fun h => h2 (Dict.contains_iff.1 h))]
      have hu : used calls s = false := by
        by_contra h
        rcases (hused s).1 (by simpa using h) with h | h
        · exact h1 h
        · exact h2 h
      refine ⟨?_, ?_, by rw [hcc]; exact ih.con, by rw [hcc]; exact ih.conArgs, ?_, ?_, ih.conTiles, ih.extra⟩
      · simp only [Dict.set_of_not_mem _ h1, List.map_append, ih.dec, decisions_append, hu]
        rfl
      · simp [dependents_append, ih.dep]
      · simp only [Dict.set_of_not_mem _ h1, Dict.keys_append]
        have := ih.names
        simp only [Dict.keys, List.map_cons, List.map_nil] at this h1 h2 ⊢
        rw [List.append_assoc]
        refine List.Perm.nodup (List.Perm.symm (List.perm_middle (l₁ := p.decision.map Prod.fst) (a := s)
          (l₂ := p.remapped.map Prod.fst))) ?_
        rw [List.nodup_cons]
        refine ⟨?_, this⟩
        rw [List.mem_append]
        tauto
      · simp only [Dict.set_of_not_mem _ h1, List.map_append]
        exact ih.decTiles.append
    · refine ⟨?_, ?_, ?_, ?_, ih.names, ih.decTiles, ih.conTiles, ih.extra⟩
      · rw [decisions_append, List.append_nil]; exact ih.dec
      · rw [dependents_append, List.append_nil]; exact ih.dep
      · rw [hcc, show constraintCalls [_] = [] from rfl, List.append_nil]; exact ih.con
      · rw [hcc, show constraintCalls [_] = [] from rfl, List.append_nil]; exact ih.conArgs
    · -- dependent
      have hc : constraintCalls ([.dependent (.str s) v] : List (Problem.Call α)) = [] := rfl
      rw [hc, List.append_nil] at hcc
      simp only [Problem.step, Problem.addDependent]
      by_cases h1 : s ∈ Dict.keys p.decision
      · rw [if_pos (Dict.contains_iff.2 h1)]
        have hu := (hused s).2 (.inl h1)
        exact ⟨by rw [decisions_append]; simp [ih.dec], by rw [dependents_append]; simp [hu, ih.dep],
          by rw [hcc]; exact ih.con, by rw [hcc]; exact ih.conArgs, ih.names, ih.decTiles, ih.conTiles, ih.extra⟩
      rw [if_neg (fun h => h1 (Dict.contains_iff.1 h))]
      by_cases h2 : s ∈ Dict.keys p.remapped
      · rw [if_pos (Dict.contains_iff.2 h2)]
        have hu := (hused s).2 (.inr h2)
        exact ⟨by rw [decisions_append]; simp [ih.dec], by rw [dependents_append]; simp [hu, ih.dep],
          by rw [hcc]; exact ih.con, by rw [hcc]; exact ih.conArgs, ih.names, ih.decTiles, ih.conTiles, ih.extra⟩
      rw [if_neg (fun h => h2 (Dict.contains_iff.1 h))]
      have hu : used calls s = false := by
        by_contra h
        rcases (hused s).1 (by simpa using h) with h | h
        · exact h1 h
        · exact h2 h
      refine ⟨?_, ?_, by rw [hcc]; exact ih.con, by rw [hcc]; exact ih.conArgs, ?_, ih.decTiles, ih.conTiles, ih.extra⟩
      · simp [decisions_append, ih.dec]
      · rw [Dict.set_of_not_mem _ h2, ih.dep, dependents_append]
        simp only [hu]
        rfl
      · simp only [Dict.set_of_not_mem _ h2, Dict.keys_append]
        have := ih.names
        simp only [Dict.keys, List.map_cons, List.map_nil] at this h1 h2 ⊢
        rw [← List.append_assoc]
        rw [List.nodup_append]
        refine ⟨this, by simp, ?_⟩
        intro a ha b hb
        simp only [List.mem_singleton] at hb
        subst hb
        rintro rfl
        rw [List.mem_append] at ha
        tauto
    · refine ⟨?_, ?_, ?_, ?_, ih.names, ih.decTiles, ih.conTiles, ih.extra⟩
      · rw [decisions_append, List.append_nil]; exact ih.dec
      · rw [dependents_append, List.append_nil]; exact ih.dep
      · rw [hcc, show constraintCalls [_] = [] from rfl, List.append_nil]; exact ih.con
      · rw [hcc, show constraintCalls [_] = [] from rfl, List.append_nil]; exact ih.conArgs
    · refine ⟨?_, ?_, ?_, ?_, ih.names, ih.decTiles, ih.conTiles, ih.extra⟩
      · rw [decisions_append, List.append_nil]; exact ih.dec
      · rw [dependents_append, List.append_nil]; exact ih.dep
      · rw [hcc, show constraintCalls [_] = [] from rfl, List.append_nil]; exact ih.con
      · rw [hcc, show constraintCalls [_] = [] from rfl, List.append_nil]; exact ih.conArgs
    · refine ⟨by rw [decisions_append, List.append_nil]; exact ih.dec,
        by rw [dependents_append, List.append_nil]; exact ih.dep,
          ?_, ?_, ih.names, ih.decTiles, ?_, ih.extra⟩
      · simp only [Problem.step, Problem.addConstraint, hcc, List.map_append, ih.con]
        simp [constraintCalls, OptFun.mk'_fn]
      · simp only [Problem.step, Problem.addConstraint, hcc, List.map_append, ih.conArgs]
        simp [constraintCalls]
      · simp only [Problem.step, Problem.addConstraint, List.map_append]
        exact ih.conTiles.append

/-! ### Consecutive blocks -/

/-- Blocks follow each other from `o`. -/
def Consec : Nat → List (Nat × Nat) → Prop
  | _, [] => True
  | o, b :: bs => b.1 = o ∧ Consec (o + b.2) bs

theorem consec_append {o : Nat} {b c : List (Nat × Nat)} :
    Consec o (b ++ c) ↔ Consec o b ∧ Consec (o + (b.map Prod.snd).sum) c := by
  induction b generalizing o with
  | nil => simp [Consec]
  | cons x b ih => simp [Consec, ih, Nat.add_assoc, and_assoc]

theorem Spec.Tiles.consec {b : List (Nat × Nat)} {t : Nat} (h : Tiles b t) : Consec 0 b := by
  induction b using List.reverseRecOn generalizing t with
  | nil => trivial
  | append_singleton b x ih =>
    rw [consec_append]
    have ho : x.1 = (b.map Prod.snd).sum := by simpa using h.1 b.length (by simp)
    refine ⟨ih (t := x.1) ⟨fun k hk => ?_, ho⟩, by simp [Consec, ho]⟩
    have := h.1 k (by simp; omega)
    rwa [List.getElem_append_left hk, List.take_append_of_le_length (by omega)] at this

theorem Spec.Tiles.mem_le {b : List (Nat × Nat)} {t : Nat} (h : Tiles b t) {x : Nat × Nat} (hx : x ∈ b) :
    x.1 + x.2 ≤ t := by
  obtain ⟨k, hk, rfl⟩ := List.getElem_of_mem hx
  have := h.consec
  rw [← List.take_append_drop k b, consec_append] at this
  have h2 := this.2
  rw [List.drop_eq_getElem_cons hk] at h2
  have h3 := h.1 k hk
  rw [h3, h.2]
  conv_rhs => rw [← List.take_append_drop k b, List.map_append, List.sum_append, List.drop_eq_getElem_cons hk]
  simp only [List.map_cons, List.sum_cons]
  omega

/-! ### Multi-indices and broadcasting -/

theorem cOrder_lt {sh is : List Nat} (h : InBounds sh is) : cOrder sh is < sh.prod := by
  induction sh generalizing is with
  | nil => simp [cOrder]
  | cons n sh ih =>
    cases is with
    | nil => exact absurd h (by simp [InBounds])
    | cons i is =>
      rw [cOrder, List.prod_cons]
      have := ih h.2
      have h1 : (i + 1) * sh.prod ≤ n * sh.prod := Nat.mul_le_mul_right _ h.1
      rw [Nat.succ_mul] at h1
      omega

theorem bcIdxPadded_lt {ss ds : List Nat} (h : bcOK ss ds = true) {i : Nat} (hi : i < ds.prod) :
    bcIdxPadded ss ds i < ss.prod := by
  induction ss generalizing ds i with
  | nil => cases ds <;> simp [bcIdxPadded]
  | cons s ss ih =>
    cases ds with
    | nil => simp [bcOK] at h
    | cons d ds =>
      simp only [bcOK, Bool.and_eq_true, Bool.or_eq_true, beq_iff_eq] at h
      rw [List.prod_cons] at hi
      have hp : 0 < ds.prod := Nat.pos_of_ne_zero fun h => by simp [h] at hi
      have hr := ih h.2 (Nat.mod_lt i hp)
      rw [bcIdxPadded, List.prod_cons]
      split
      · next h1 => subst h1; simpa using hr
      · next h1 =>
        have hd : s = d := by tauto
        subst hd
        have hq : i / ds.prod < s := Nat.div_lt_of_lt_mul (by rw [Nat.mul_comm]; exact hi)
        have h1 : (i / ds.prod + 1) * ss.prod ≤ s * ss.prod := Nat.mul_le_mul_right _ hq
        rw [Nat.succ_mul] at h1
        omega

theorem padShape_prod (n : Nat) (s : List Nat) : (padShape n s).prod = s.prod := by
  simp [padShape]

theorem bcIdx_lt {src dst : List Nat} (h : canBroadcast src dst = true) {i : Nat} (hi : i < dst.prod) :
    bcIdx src dst i < src.prod := by
  simp only [canBroadcast, Bool.and_eq_true] at h
  have := bcIdxPadded_lt h.2 hi
  rwa [padShape_prod] at this

theorem broadcastTo_ok (d : α) (a : NDArray α) (hw : a.WF) {dst : List Nat} (h : canBroadcast a.shape dst = true) :
    broadcastTo a dst = .ok ⟨dst, (List.range dst.prod).map fun i => a.data.getD (bcIdx a.shape dst i) d⟩ := by
  unfold broadcastTo
  rw [if_pos h, option_mapM_some (g := fun i => a.data.getD (bcIdx a.shape dst i) d)]
  intro i hi
  have := bcIdx_lt h (List.mem_range.1 hi)
  rw [← hw] at this
  simp [this]

theorem broadcastTo_inv {a b : NDArray α} {dst : List Nat} (h : broadcastTo a dst = .ok b) :
    b.shape = dst ∧ b.data.length = dst.prod ∧ canBroadcast a.shape dst = true := by
  unfold broadcastTo at h
  split at h
  · next hc =>
    split at h
    · next d hd =>
      cases h
      refine ⟨rfl, ?_, hc⟩
      have : ∀ (l : List Nat) (f : Nat → Option α) (d : List α), l.mapM f = some d → d.length = l.length := by
        intro l f
        induction l with
        | nil => intro d h; simp at h; simp [h]
        | cons x l ih =>
          intro d h
          rw [List.mapM_cons] at h
          simp only [Option.pure_def, Option.bind_eq_bind, Option.bind_eq_some_iff] at h
          obtain ⟨y, _, ys, hys, h⟩ := h
          cases h
          simp [ih ys hys]
      simpa using this _ _ _ hd
    · cases h
  · cases h

end Ceacoest
