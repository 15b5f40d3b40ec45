import Verif.Lemmas.RecordInlining

/-!
# C114: inlining records keeps assignments, reads and call results
-/

namespace Marco.Props
open Marco.RecInl Marco.Spec.RecInl

/-- An assignment to a component of a record variable sets, in the variable for the component, the same elements. -/
def C114_set (dest : List (String × List Sub)) (ranks : List Nat) (tensor : Bool) : Prop :=
  ∃ st, inlineSet dest.length ranks (lowerSet dest tensor) = some st ∧ st.name = flatName (dest.map Prod.fst) ∧
    ∀ idx : List (List Nat), idx.map List.length = ranks → (Store.Sets st idx.flatten ↔ Sets dest idx)

/-- The destinations that are admitted: as many ranks as components, not more subscripts than the rank, and as many if the
value is a scalar. -/
def C114_fits (dest : List (String × List Sub)) (ranks : List Nat) (tensor : Bool) : Prop :=
  ranks.length = dest.length ∧ ∀ (k : Nat) d r, dest[k]? = some d → ranks[k]? = some r →
    d.2.length ≤ r ∧ (tensor = false → d.2.length = r)

/-- What a use of a result of a call becomes: the new result, counting those of the results before it. -/
def C114_result (results : List (Option (List String))) (k : Nat) : Prop :=
  ∀ r, results[k]? = some r → (resultUses results)[k]? = some (match r with
    | none => [("", ((results.take k).map width).sum)]
    | some cs => cs.zipIdx ((results.take k).map width).sum)

/-- The full claim. -/
def C114_full : Prop :=
  (∀ dest ranks tensor, 2 ≤ dest.length → C114_fits dest ranks tensor → C114_set dest ranks tensor) ∧
  (∀ (v : String) (rank : Nat) fields, (setRecord v rank fields).map (fun op => (op.path, op.value)) =
    (leaves (.record fields)).map fun p => (v :: p, p)) ∧
  (∀ (v : String) (rank : Nat) fields, ∀ op ∈ setRecord v rank fields,
    ∀ ranks, (inlineSet op.path.length (rank :: ranks) op).isSome) ∧
  (∀ results k, C114_result results k) ∧
  (∀ (v : String) (chain : List String), (inlineGet ((List.range chain.length).map fun k => flatName (v :: chain.take k))
    ⟨v, chain, true⟩).chain = [])

/-- Assignments to components of the variable itself. -/
theorem C114_set_partial (v c : String) (s t : List Sub) (r q : Nat) (tensor : Bool)
    (h : C114_fits [(v, s), (c, t)] [r, q] tensor) : C114_set [(v, s), (c, t)] [r, q] tensor := by
  obtain ⟨h1, h1'⟩ := h.2 0 _ _ rfl rfl
  obtain ⟨h2, h2'⟩ := h.2 1 _ _ rfl rfl
  simp only at h1 h1' h2 h2'
  have hsubs : (lowerSet [(v, s), (c, t)] tensor).subs = s ++ t := by simp [lowerSet]
  have hidx : ∀ idx : List (List Nat), idx.map List.length = [r, q] → ∃ a b, idx = [a, b] ∧ a.length = r ∧ b.length = q := by
    intro idx hi
    match idx, hi with
    | [a, b], hi =>
      simp at hi
      exact ⟨a, b, rfl, hi.1, hi.2⟩
    | [], hi => simp at hi
    | [_], hi => simp at hi
    | _ :: _ :: _ :: _, hi => simp at hi
  have hsets : ∀ a b : List Nat, Sets [(v, s), (c, t)] [a, b] ↔ Hits s a ∧ Hits t b := by
    intro a b
    constructor
    · intro hh
      exact ⟨hh 0 _ _ rfl rfl, hh 1 _ _ rfl rfl⟩
    · rintro ⟨ha, hb⟩ k d i hd hi
      match k with
      | 0 => cases hd; cases hi; exact ha
      | 1 => cases hd; cases hi; exact hb
      | k + 2 => simp at hd
  by_cases he : s ++ t = []
  · obtain ⟨rfl, rfl⟩ := List.append_eq_nil_iff.1 he
    refine ⟨⟨composed v c, none⟩, by simp [inlineSet, lowerSet, finalStep], by simp [flatName, composed], ?_⟩
    intro idx hi
    obtain ⟨a, b, rfl, _, _⟩ := hidx idx hi
    rw [hsets]
    exact ⟨fun _ => ⟨hits_nil a, hits_nil b⟩, fun _ => trivial⟩
  · have hne : (lowerSet [(v, s), (c, t)] tensor).subs.isEmpty = false := by
      rw [hsubs]
      cases hst : s ++ t with
      | nil => exact absurd hst he
      | cons _ _ => rfl
    cases tensor with
    | false =>
      refine ⟨⟨composed v c, some (s ++ t)⟩, ?_, by simp [flatName, composed], ?_⟩
      · show inlineSet 2 [r, q] _ = _
        unfold inlineSet
        rw [if_neg (by simp [lowerSet])]
        show finalStep r (lowerSet [(v, s), (c, t)] false) = _
        unfold finalStep
        rw [hne]
        simp [lowerSet]
      · intro idx hi
        obtain ⟨a, b, rfl, ha, hb⟩ := hidx idx hi
        rw [hsets]
        show Hits (s ++ t) _ ↔ _
        rw [show [a, b].flatten = a ++ b by simp]
        exact hits_append (by rw [h1' rfl, ha])
    | true =>
      refine ⟨⟨composed v c, some (fullRank r s ++ t)⟩, ?_, by simp [flatName, composed], ?_⟩
      · show inlineSet 2 [r, q] _ = _
        unfold inlineSet
        rw [if_neg (by simp [lowerSet])]
        show finalStep r (lowerSet [(v, s), (c, t)] true) = _
        have c0 : compSubs (lowerSet [(v, s), (c, t)] true) 0 = some s :=
          compSubs_eq (pre := []) (post := t) (by rw [hsubs]; rfl) rfl rfl
        have c1 : compSubs (lowerSet [(v, s), (c, t)] true) 1 = some t :=
          compSubs_eq (pre := s) (post := []) (by rw [hsubs]; simp) rfl (by simp [lowerSet])
        have cl : laterSubs (lowerSet [(v, s), (c, t)] true) = some t := by
          unfold laterSubs
          rw [show List.range ((lowerSet [(v, s), (c, t)] true).path.length - 1) = [0] from rfl]
          simp [c1]
        unfold finalStep
        rw [hne, c0, cl]
        simp [lowerSet]
      · intro idx hi
        obtain ⟨a, b, rfl, ha, hb⟩ := hidx idx hi
        rw [hsets]
        show Hits (fullRank r s ++ t) _ ↔ _
        rw [show [a, b].flatten = a ++ b by simp, hits_append (by rw [length_fullRank h1, ha]), ← ha,
          hits_fullRank (by omega)]

/-- Assignments in records of records, of any depth, without arrays and subscripts. -/
theorem C114_deep_partial (dest : List (String × List Sub)) (ranks : List Nat) (h2 : 2 ≤ dest.length)
    (hf : C114_fits dest ranks false) (h0 : ∀ r ∈ ranks, r = 0) : C114_set dest ranks false := by
  have hs : ∀ d ∈ dest, d.2 = [] := by
    intro d hd
    obtain ⟨k, hk, e⟩ := List.mem_iff_getElem.1 hd
    have hk' : k < ranks.length := by rw [hf.1]; exact hk
    have := (hf.2 k d ranks[k] (by rw [List.getElem?_eq_getElem hk, e]) (List.getElem?_eq_getElem hk')).1
    rw [h0 _ (List.getElem_mem hk')] at this
    exact List.length_eq_zero_iff.1 (by omega)
  refine ⟨⟨flatName (dest.map Prod.fst), none⟩, ?_, rfl, ?_⟩
  · refine inlineSet_plain _ ranks _ h0 ?_ (by simpa [lowerSet] using h2) (by simp [lowerSet])
    simp only [lowerSet, List.flatMap_eq_nil_iff]
    exact hs
  · intro idx hi
    refine ⟨fun _ k d i hd hi => ?_, fun _ => trivial⟩
    rw [hs d (List.mem_of_getElem? hd)]
    exact hits_nil i

/-- The assignment of a whole record, if it is not an array and has no records in it: each component is assigned to its
variable. -/
theorem C114_record_partial (v : String) (cs : List String) :
    (setRecord v 0 (cs.map fun c => (c, .leaf))).map (fun op => (op.path, op.value)) =
      (leaves (.record (cs.map fun c => (c, .leaf)))).map (fun p => (v :: p, p)) ∧
    (setRecord v 0 (cs.map fun c => (c, .leaf))).map (inlineSet 2 [0, 0]) = cs.map fun c => some ⟨v ++ "." ++ c, none⟩ := by
  have h1 : setRecord v 0 (cs.map fun c => (c, .leaf)) = cs.map (setComponent v 0) := by
    induction cs with
    | nil => rfl
    | cons c cs ih => simp [setRecord, unpackComp, ih]
  have h2 : leaves (.record (cs.map fun c => (c, .leaf))) = cs.map fun c => [c] := by
    rw [leaves]
    induction cs with
    | nil => rfl
    | cons c cs ih =>
      have := ih (by
        clear h1 ih
        induction cs with
        | nil => rfl
        | cons c cs ih => simp [setRecord, unpackComp, ih])
      simp [fieldLeaves, leaves, this]
  rw [h1, h2]
  simp [setComponent, inlineSet, finalStep, composed, Function.comp_def]

/-- The results that are records. -/
theorem C114_record_results (results : List (Option (List String))) (k : Nat) (cs : List String)
    (hk : results[k]? = some (some cs)) : C114_result results k := by
  intro r hr
  rw [hk] at hr
  cases hr
  have := newResults_eq results 0 k _ hk
  simp only [Nat.zero_add] at this
  unfold resultUses
  simp [List.getElem?_zipIdx, hk, this]

/-- The other results, if there is no record before them. -/
theorem C114_results_partial (results : List (Option (List String))) (k : Nat)
    (h : ∀ r ∈ results.take k, r = none) : C114_result results k := by
  intro r hr
  cases r with
  | some cs => exact C114_record_results results k cs hr _ hr
  | none =>
    have h1 : ((results.take k).filter Option.isNone).length = ((results.take k).map width).sum := by
      rw [List.filter_eq_self.2 (fun r hr => by rw [h r hr]; rfl)]
      have : ∀ l : List (Option (List String)), (∀ r ∈ l, r = none) → l.length = (l.map width).sum := by
        intro l
        induction l with
        | nil => intro _; rfl
        | cons a l ih =>
          intro hl
          simp only [List.length_cons, List.map_cons, List.sum_cons]
          rw [hl a (by simp), ← ih (fun r hr => hl r (by simp [hr]))]
          simp only [width]
          omega
      exact this _ h
    unfold resultUses
    simp [List.getElem?_zipIdx, hr, h1]

/-- A read of a component of the variable itself, whatever the order in which the variables are taken. -/
theorem C114_get_partial (v c : String) (order : List String) (h : v ∈ order) :
    inlineGet order ⟨v, [c], true⟩ = ⟨v ++ "." ++ c, [], false⟩ := by
  unfold inlineGet
  have fixed : ∀ (l : List String) (g : Get), g.known = false → l.foldl (fun g v => getStep v g) g = g := by
    intro l
    induction l with
    | nil => intro g _; rfl
    | cons a l ih =>
      intro g hg
      have : getStep a g = g := by simp [getStep, hg]
      rw [List.foldl_cons, this]
      exact ih g hg
  induction order with
  | nil => simp at h
  | cons a l ih =>
    rw [List.foldl_cons]
    by_cases ha : v = a
    · subst ha
      have : getStep v ⟨v, [c], true⟩ = ⟨v ++ "." ++ c, [], false⟩ := by simp [getStep, composed]
      rw [this]
      exact fixed l _ rfl
    · have : getStep a ⟨v, [c], true⟩ = ⟨v, [c], true⟩ := by simp [getStep, ha]
      rw [this]
      exact ih (by simpa [ha] using h)

/-- A read of a component of a record in a record is never replaced, in no order: it keeps reading a component of a variable
that does not exist any more. -/
theorem C114_nested_get_fails (v c d : String) (ds : List String) (order : List String) :
    (inlineGet order ⟨v, c :: d :: ds, true⟩).chain ≠ [] := by
  unfold inlineGet
  have key : ∀ (l : List String) (g : Get), (g.known = true → 2 ≤ g.chain.length) → g.chain ≠ [] →
      (l.foldl (fun g v => getStep v g) g).chain ≠ [] := by
    intro l
    induction l with
    | nil => intro g _ h; exact h
    | cons a l ih =>
      intro g hg hc
      rw [List.foldl_cons]
      refine ih _ ?_ ?_
      · unfold getStep
        split_ifs with h
        · split
          · exact hg
          · intro hh; cases hh
        · exact hg
      · unfold getStep
        split_ifs with h
        · have := hg h.2
          split
          · exact hc
          · rename_i x xs hx
            rw [hx] at this
            intro e
            rw [show xs = [] from e] at this
            simp at this
        · exact hc
  exact key order _ (by simp) (by simp)

mutual
theorem C114_comp_values : ∀ (t : RTy) (op : SetOp), (unpackComp op t).map SetOp.value = (leaves t).map (op.value ++ ·)
  | .leaf, op => by simp [unpackComp, leaves]
  | .record fs, op => by simpa [unpackComp, leaves] using C114_field_values fs op
theorem C114_field_values : ∀ (fs : List (String × RTy)) (op : SetOp),
    (unpackFields op fs).map SetOp.value = (fieldLeaves fs).map (op.value ++ ·)
  | [], op => by simp [unpackFields, fieldLeaves]
  | (c, t) :: fs, op => by
    have h1 := C114_comp_values t (extend op c)
    have h2 := C114_field_values fs op
    have h3 : (extend op c).value = op.value ++ [c] := rfl
    simp [unpackFields, fieldLeaves, h1, h2, h3, Function.comp_def]
end

/-- In the assignment of a record, with records in it at any depth, each component of the value that is not a record is stored once, in order. -/
theorem C114_values (v : String) (rank : Nat) (fs : List (String × RTy)) :
    (setRecord v rank fs).map SetOp.value = leaves (.record fs) := by
  rw [leaves]
  induction fs with
  | nil => simp [setRecord, fieldLeaves]
  | cons f fs ih =>
    obtain ⟨c, t⟩ := f
    simp [setRecord, fieldLeaves, ih, C114_comp_values t, setComponent]

/-- `r := s` with components `a` and `b.x`, `b.y`: the values are `s.a`, `s.b.x` and `s.b.y`. -/
example : (setRecord "r" 0 [("a", .leaf), ("b", .record [("x", .leaf), ("y", .leaf)])]).map SetOp.value =
    [["a"], ["b", "x"], ["b", "y"]] := by
  rw [C114_values]; simp [leaves, fieldLeaves]

/-- The assignment of a record in a record goes to another variable: the name of the variable is dropped. -/
theorem C114_nested_set_fails (v c d : String) :
    (setRecord v 0 [(c, .record [(d, .leaf)])]).map SetOp.path = [[c, d]] := by
  simp [setRecord, unpackComp, unpackFields, extend, setComponent]

/-- The assignment of an array of records reads outside of the amounts of the subscripts. -/
theorem C114_array_set_fails (v c : String) (rank n : Nat) (ranks : List Nat) (h : rank ≠ 0) :
    setRecord v rank [(c, .leaf)] = [setComponent v rank c] ∧ inlineSet n (rank :: ranks) (setComponent v rank c) = none := by
  refine ⟨by simp [setRecord, unpackComp], ?_⟩
  cases n with
  | zero => rfl
  | succ n =>
    unfold inlineSet
    rw [if_neg (by simp [setComponent])]
    show finalStep rank (setComponent v rank c) = none
    have hl : laterSubs (setComponent v rank c) = none := by
      unfold laterSubs
      rw [show List.range ((setComponent v rank c).path.length - 1) = [0] from rfl]
      have : compSubs (setComponent v rank c) 1 = none := by
        unfold compSubs
        rw [if_neg (by simp [setComponent, h])]
        rfl
      simp [this]
    unfold finalStep
    rw [hl]
    simp [setComponent, h]

namespace C114_Sample

/-- `r[1].s[2].x := …`, where `r`, `s` and `x` are vectors. -/
def deep : List (String × List Sub) := [("r", [.idx 1]), ("s", [.idx 2]), ("x", [])]

/-- `r[1].s.t.x := 0`, where `r` is a vector. -/
def deeper : List (String × List Sub) := [("r", [.idx 1]), ("s", []), ("t", []), ("x", [])]

/-- `r[1, :].x[0] := …`, where `r` is a matrix and `x` a vector. -/
example : C114_set [("r", [.idx 1]), ("x", [.idx 0])] [2, 1] true :=
  C114_set_partial _ _ _ _ _ _ _ ⟨rfl, by
    intro k d r hd hr
    match k with
    | 0 => cases hd; cases hr; simp
    | 1 => cases hd; cases hr; simp
    | k + 2 => simp at hd⟩

example : inlineSet 2 [2, 1] (lowerSet [("r", [.idx 1]), ("x", [.idx 0])] true) =
    some ⟨"r.x", some [.idx 1, .all, .idx 0]⟩ := by decide

example : C114_set [("r", []), ("s", []), ("x", [])] [0, 0, 0] false :=
  C114_deep_partial _ _ (by decide) ⟨rfl, by
    intro k d r hd hr
    match k with
    | 0 => cases hd; cases hr; simp
    | 1 => cases hd; cases hr; simp
    | 2 => cases hd; cases hr; simp
    | k + 3 => simp at hd⟩ (by simp)

example : (setRecord "r" 0 [("x", .leaf), ("y", .leaf)]).map (inlineSet 2 [0, 0]) =
    [some ⟨"r.x", none⟩, some ⟨"r.y", none⟩] := (C114_record_partial "r" ["x", "y"]).2

example : C114_result [none, some ["x", "y"], some ["z"]] 2 := C114_record_results _ _ ["z"] rfl
example : C114_result [none, none, some ["x", "y"]] 1 := C114_results_partial _ _ (by decide)
example : inlineGet ["q", "r"] ⟨"r", ["x"], true⟩ = ⟨"r.x", [], false⟩ := C114_get_partial _ _ _ (by decide)

end C114_Sample
open C114_Sample

/-- The second subscript of `r[1].s[2].x` is put where that of `x` should be: the row `r.s.x[1, :, 2]` is set. -/
theorem C114_deep_wrong : inlineSet 3 [1, 1, 1] (lowerSet deep true) = some ⟨"r.s.x", some [.idx 1, .all, .idx 2]⟩ ∧
    ¬ C114_set deep [1, 1, 1] true := by
  have h : inlineSet 3 [1, 1, 1] (lowerSet deep true) = some ⟨"r.s.x", some [.idx 1, .all, .idx 2]⟩ := by decide
  refine ⟨h, ?_⟩
  rintro ⟨st, hst, _, hs⟩
  rw [show deep.length = 3 from rfl, h] at hst
  cases hst
  have := (hs [[1], [0], [2]] rfl).1 ⟨by simp, by
    intro k s i hs hi
    match k with
    | 0 => cases hs; cases hi; rfl
    | 1 => cases hs; cases hi; trivial
    | 2 => cases hs; cases hi; rfl
    | k + 3 => simp at hs⟩
  have := (this 1 _ _ rfl rfl).2 0 _ _ rfl rfl
  simp [Matches] at this

/-- The subscripts of `r[1].s.t.x` are read outside of the list. -/
theorem C114_deeper_undefined : inlineSet 4 [1, 0, 0, 0] (lowerSet deeper false) = none := by decide

/-- In `(y, r, z) = f(…)` the use of `z` becomes a use of the first component of `r`. -/
theorem C114_results_wrong : resultUses [none, some ["a", "b"], none] = [[("", 0)], [("a", 1), ("b", 2)], [("", 1)]] := by
  decide

/-- The full claim is false. -/
theorem C114_full_false : ¬ C114_full := by
  rintro ⟨_, _, _, h, _⟩
  have := h [none, some ["a", "b"], none] 2 none rfl
  revert this
  decide

end Marco.Props
