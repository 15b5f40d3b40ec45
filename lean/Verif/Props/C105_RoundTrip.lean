import Verif.Lemmas.Serialization

/-!
# C105: properties of operations are read back as they were written

Index sets, variables with indices, schedules, and lists of them are written as a text, as an attribute and as bytecode; what is
read back must be equal to what was written. This is not always so: see `C105_full_false`.
-/

namespace Marco.Props
open Marco Spec Marco.Serial Marco.Spec.Serial

/-- An index set is read back from its text, its attribute and its bytecode. -/
theorem C105_set_partial (fuel : Nat) (s : IndexSet) (hs : Regular s) :
    (∀ rest, Reads (Mergeable s) (parseSet fuel .empty (printSet s ++ rest)) (Spec.Serial.SameSet · s) rest) ∧
    Gives (Mergeable s) (setOfAttr fuel .empty (attrOfSet s)) (Spec.Serial.SameSet · s) ∧
    ∃ w, writeSet s = .ok w ∧ ∀ rest, Reads (Mergeable s) (readSet fuel .empty (w ++ rest)) (Spec.Serial.SameSet · s) rest := by
  obtain ⟨k, hk, h1, h2⟩ := hs
  have he : s.isEmpty = true → IndexSet.empty.rank = s.rank := fun h => (h2 h).symm
  refine ⟨fun rest => ?_, attr_set (left_empty k) h1 he, bytecode_set (left_empty k) h1 he⟩
  rcases text_set (fuel := fuel) hk (left_empty k) h1 he rest with ⟨a, e, f, -⟩ | h
  · exact .inl ⟨a, e, f⟩
  · exact .inr h

/-- A variable with a name is read back. -/
theorem C105_variable_partial (fuel : Nat) (v : Var) (n : Sym) (hn : v.name = some n) (hs : Regular v.indices) :
    (∀ rest, Reads (Mergeable v.indices) (parseVar fuel ⟨none, .empty⟩ (printVar v ++ rest)) (SameVar · v) rest) ∧
    Gives (Mergeable v.indices) (varOfAttr fuel ⟨none, .empty⟩ (attrOfVar v)) (SameVar · v) ∧
    ∃ w, writeVar v = .ok w ∧
      ∀ rest, Reads (Mergeable v.indices) (readVar fuel ⟨none, .empty⟩ (w ++ rest)) (SameVar · v) rest := by
  obtain ⟨nm, s⟩ := v
  cases hn
  have hs' := hs
  obtain ⟨k, hk, h1, h2⟩ := hs'
  have he : s.isEmpty = true → IndexSet.empty.rank = s.rank := fun h => (h2 h).symm
  obtain ⟨-, g2, w, g3, g4⟩ := C105_set_partial fuel s hs
  refine ⟨fun rest => ?_, ?_, .sym n :: w, by simp only [writeVar]; rw [g3]; rfl, fun rest => ?_⟩
  · rcases text_var (fuel := fuel) (v := ⟨some n, s⟩) (o := none) hk rfl (left_empty k) h1 he rest with ⟨a, e, f, -⟩ | h
    · exact .inl ⟨a, e, f⟩
    · exact .inr h
  · have e : varOfAttr fuel ⟨none, .empty⟩ (attrOfVar ⟨some n, s⟩) =
        (setOfAttr fuel .empty (attrOfSet s)).bind fun s => .ok ⟨some n, s⟩ := by
      simp only [attrOfVar, varOfAttr, Serial.get, List.find?, beq_self_eq_true, Option.map_some, bind,
        show (("name" : String) == "indices") = false from by decide]
    rw [e]
    rcases g2 with ⟨a, e, f⟩ | ⟨hu, e⟩
    · exact .inl ⟨⟨some n, a⟩, by rw [e]; rfl, rfl, f⟩
    · exact .inr ⟨hu, by rw [e]; rfl⟩
  · rcases g4 rest with ⟨a, e, f⟩ | ⟨hu, e⟩
    · exact .inl ⟨⟨some n, a⟩, by simp only [List.cons_append, readVar]; rw [e]; rfl, rfl, f⟩
    · exact .inr ⟨hu, by simp only [List.cons_append, readVar]; rw [e]; rfl⟩

/-- A list of index sets is read back from its attribute and its bytecode. -/
theorem C105_sets_partial (fuel : Nat) (l : List IndexSet) (hs : ∀ s ∈ l, Regular s) :
    Gives (∃ s ∈ l, Mergeable s) (listOfAttr (setOfAttr fuel .empty) (attrOfList attrOfSet l))
      (fun l' => List.Forall₂ Spec.Serial.SameSet l' l) ∧
    ∃ w, writeList writeSet l = .ok w ∧ ∀ rest, Reads (∃ s ∈ l, Mergeable s) (readList (readSet fuel .empty) (w ++ rest))
      (fun l' => List.Forall₂ Spec.Serial.SameSet l' l) rest :=
  ⟨attr_list fun s h => (C105_set_partial fuel s (hs s h)).2.1, bytecode_list fun s h => (C105_set_partial fuel s (hs s h)).2.2⟩

/-- A list of variables with names is read back from its attribute and its bytecode. -/
theorem C105_variables_partial (fuel : Nat) (l : List Var) (hn : ∀ v ∈ l, v.name.isSome) (hs : ∀ v ∈ l, Regular v.indices) :
    Gives (∃ v ∈ l, Mergeable v.indices) (listOfAttr (varOfAttr fuel ⟨none, .empty⟩) (attrOfList attrOfVar l))
      (fun l' => List.Forall₂ SameVar l' l) ∧
    ∃ w, writeList writeVar l = .ok w ∧
      ∀ rest, Reads (∃ v ∈ l, Mergeable v.indices) (readList (readVar fuel ⟨none, .empty⟩) (w ++ rest))
        (fun l' => List.Forall₂ SameVar l' l) rest := by
  refine ⟨attr_list fun v hv => ?_, bytecode_list fun v hv => ?_⟩
  · obtain ⟨n, hn⟩ := Option.isSome_iff_exists.1 (hn v hv)
    exact (C105_variable_partial fuel v n hn (hs v hv)).2.1
  · obtain ⟨n, hn⟩ := Option.isSome_iff_exists.1 (hn v hv)
    exact (C105_variable_partial fuel v n hn (hs v hv)).2.2

/-- A list of index sets is read back from its text if the sets without points come first and the others have the same rank. -/
theorem C105_sets_text_partial (fuel k : Nat) (hk : 0 < k) (sc ar : List IndexSet)
    (h1 : ∀ s ∈ sc, SetOk k s ∧ s.isEmpty = true ∧ s.rank = 0) (h2 : ∀ s ∈ ar, SetOk k s ∧ s.isEmpty = false)
    (rest : List Tok) :
    Reads (∃ s ∈ sc ++ ar, Mergeable s) (parseSets fuel (printList printSet (sc ++ ar) ++ rest))
      (fun l' => List.Forall₂ Spec.Serial.SameSet l' (sc ++ ar)) rest := by
  refine parseList_print (pr := printSet) (P := fun cur l => LoopOk k cur l) (U := Mergeable) (fun s => ⟨_, _, rfl, by simp⟩) ?_ rest
    ⟨left_empty k, sc, ar, rfl, h1, h2, fun _ => rfl⟩
  intro cur s l rest hP
  obtain ⟨a1, a2⟩ := hP.head
  rcases text_set (fuel := fuel) hk hP.left a1 a2 rest with ⟨s', e, f, g⟩ | ⟨hu, e⟩
  · exact .inl ⟨s', s'.emptyCopy, by rw [e]; rfl, f, hP.tail g f⟩
  · exact .inr ⟨hu, by rw [e]; rfl⟩

/-- A list of variables is read back from its text if the scalars come first and the arrays have the same rank. -/
theorem C105_variables_text_partial (fuel k : Nat) (hk : 0 < k) (sc ar : List Var)
    (hn : ∀ v ∈ sc ++ ar, v.name.isSome)
    (h1 : ∀ v ∈ sc, SetOk k v.indices ∧ v.indices.isEmpty = true ∧ v.indices.rank = 0)
    (h2 : ∀ v ∈ ar, SetOk k v.indices ∧ v.indices.isEmpty = false) (rest : List Tok) :
    Reads (∃ v ∈ sc ++ ar, Mergeable v.indices) (parseVars fuel (printList printVar (sc ++ ar) ++ rest))
      (fun l' => List.Forall₂ SameVar l' (sc ++ ar)) rest := by
  refine parseList_print (pr := printVar) (P := fun (cur : Var) l => (∀ v ∈ l, v.name.isSome) ∧ LoopOk k cur.indices (l.map (·.indices)))
    (U := fun v => Mergeable v.indices) (fun v => ?_) ?_ rest
    ⟨hn, left_empty k, sc.map (·.indices), ar.map (·.indices), by simp, ?_, ?_, fun _ => rfl⟩
  · obtain ⟨nm, s⟩ := v
    unfold printVar
    split
    · exact ⟨_, _, rfl, by cases nm <;> simp [printName]⟩
    · exact ⟨_, _, rfl, by simp⟩
  · rintro ⟨o, cur⟩ v l rest ⟨hl, hP⟩
    obtain ⟨n, hn⟩ := Option.isSome_iff_exists.1 (hl v (by simp))
    rw [List.map_cons] at hP
    obtain ⟨a1, a2⟩ := hP.head
    rcases text_var (fuel := fuel) (o := o) hk hn hP.left a1 a2 rest with ⟨v', e, f, g⟩ | ⟨hu, e⟩
    · exact .inl ⟨v', ⟨v'.name, v'.indices.emptyCopy⟩, by rw [e]; rfl, f, fun w hw => hl w (by simp [hw]), hP.tail g f.2⟩
    · exact .inr ⟨hu, by rw [e]; rfl⟩
  · intro s hs
    obtain ⟨v, hv, rfl⟩ := List.mem_map.1 hs
    exact h1 v hv
  · intro s hs
    obtain ⟨v, hv, rfl⟩ := List.mem_map.1 hs
    exact h2 v hv

/-- Lists of directions are read back, whatever follows them. -/
theorem C105_schedules (l : List Dir) :
    (∀ rest, Reads False (parseDirs (printList printDir l ++ rest)) (· = l) rest) ∧
    Gives False (listOfAttr dirOfAttr (attrOfList attrOfDir l)) (· = l) ∧
    ∃ w, writeList writeDir l = .ok w ∧ ∀ rest, Reads False (readList readDir (w ++ rest)) (· = l) rest := by
  have hF : ∀ {l' : List Dir}, List.Forall₂ (fun a b => a = b) l' l → l' = l := fun h => by
    rwa [List.forall₂_eq_eq_eq] at h
  refine ⟨fun rest => ?_, ?_, ?_⟩
  · rcases parseList_print (item := fun (_ : Unit) ts => do
        let (d, ts) ← parseDir ts
        .ok ((d, ()), ts)) (pr := printDir) (R := fun a b => a = b) (U := fun _ => False) (P := fun _ _ => True)
      (fun d => by cases d <;> exact ⟨_, _, rfl, by simp⟩)
      (fun st a l rest _ => .inl ⟨a, (), by cases a <;> simp [printDir, parseDir, bind, Except.bind], rfl, trivial⟩)
      rest (l := l) (st := ()) trivial with ⟨l', e, f⟩ | ⟨⟨_, _, h⟩, _⟩
    · exact .inl ⟨l', e, hF f⟩
    · exact h.elim
  · rcases attr_list (rd := dirOfAttr) (wr := attrOfDir) (R := fun a b => a = b) (U := fun _ => False) (l := l)
      (fun a _ => .inl ⟨a, by cases a <;> simp [attrOfDir, dirOfAttr], rfl⟩) with ⟨l', e, f⟩ | ⟨⟨_, _, h⟩, _⟩
    · exact .inl ⟨l', e, hF f⟩
    · exact h.elim
  · obtain ⟨w, h1, h2⟩ := bytecode_list (rd := readDir) (wr := writeDir) (R := fun a b => a = b) (U := fun _ => False) (l := l)
      (fun a _ => by
        cases a <;> exact ⟨_, rfl, fun rest => .inl ⟨_, rfl, rfl⟩⟩)
    refine ⟨w, h1, fun rest => ?_⟩
    rcases h2 rest with ⟨l', e, f⟩ | ⟨⟨_, _, h⟩, _⟩
    · exact .inl ⟨l', e, hF f⟩
    · exact h.elim

/-- What one would like: whatever list of variables is read back from its text. -/
def C105_full : Prop := ∀ (fuel : Nat) (l : List Var), (∀ v ∈ l, v.name.isSome ∧ ∃ k, 0 < k ∧ SetOk k v.indices) →
  ∀ rest, Reads (∃ v ∈ l, Mergeable v.indices) (parseVars fuel (printList printVar l ++ rest))
    (fun l' => List.Forall₂ SameVar l' l) rest

namespace C105_Sample

/-- The indices from 0 to 3. -/
def four : IndexSet := .ofRanges [[⟨0, 4⟩]]

/-- An array `x` and a scalar `y`. -/
def xs : List Var := [⟨some ["x"], four⟩, ⟨some ["y"], .empty⟩]

/-- The number of indices and the rank of a variable. -/
def shape (v : Var) : Option Sym × List Box × Nat := (v.name, v.indices.ranges, v.indices.rank)

end C105_Sample
open C105_Sample

theorem C105_four_ok : SetOk 1 four ∧ four.isEmpty = false :=
  ⟨(IndexSet.ofRanges_spec (k := 1) (rs := [[⟨0, 4⟩]]) (by
    intro b hb
    simp only [List.mem_cons, List.not_mem_nil, or_false] at hb
    subst hb
    exact ⟨⟨by simp, by simp [Range.Valid]⟩, rfl⟩)).1, by decide +kernel⟩

/-- The text of `x` and `y` is read as `x` and a `y` of rank 1. -/
theorem C105_scalar_wrong :
    ((parseVars 0 (printList printVar xs)).toOption.map fun r => r.1.map shape) =
      some [(some ["x"], [[⟨0, 4⟩]], 1), (some ["y"], [], 1)] := by
  decide +kernel

theorem C105_full_false : ¬ C105_full := by
  intro h
  have key := h 0 xs (by
    intro v hv
    simp only [xs, List.mem_cons, List.not_mem_nil, or_false] at hv
    rcases hv with rfl | rfl
    · exact ⟨rfl, 1, by omega, C105_four_ok.1⟩
    · exact ⟨rfl, 1, by omega, (left_empty 1).stored.setOk⟩) []
  rw [List.append_nil] at key
  have hw := C105_scalar_wrong
  rcases key with ⟨l', e, f⟩ | ⟨-, e⟩
  · rw [e] at hw
    simp only [Except.toOption, Option.map_some, Option.some.injEq] at hw
    cases f with
    | cons _ f2 =>
      cases f2 with
      | cons g f3 =>
        simp only [List.map_cons, List.cons.injEq, shape, Prod.mk.injEq] at hw
        have hr := eq_rank g.2
        rw [hw.2.1.2.2] at hr
        simp [IndexSet.empty] at hr
  · rw [e] at hw
    cases hw

/-- A default constructed variable, e.g. the `match` of an equation that is not matched, cannot be read back from its attribute
and cannot be written as bytecode. -/
theorem C105_unnamed_wrong (fuel : Nat) (s : IndexSet) :
    varOfAttr fuel ⟨none, .empty⟩ (attrOfVar ⟨none, s⟩) = .error .syntax ∧ writeVar ⟨none, s⟩ = .error .undefined := ⟨rfl, rfl⟩

/-- A set that lost its points is written as `{}` and read back as another set. -/
theorem C105_emptied_wrong : (parseSet 0 .empty (printSet four.emptyCopy)).toOption.map (fun r => r.1.eq four.emptyCopy)
    = some false := by decide +kernel

/-! ### Cases that meet the hypotheses -/

example : Regular four ∧ ¬ Mergeable four ∧ Regular .empty := by
  refine ⟨⟨1, by omega, C105_four_ok.1, fun h => by rw [C105_four_ok.2] at h; cases h⟩, ?_,
    ⟨1, by omega, (left_empty 1).stored.setOk, fun _ => rfl⟩⟩
  have : four.compactRanges = [[⟨0, 4⟩]] := by decide +kernel
  rw [Mergeable, this]
  simp

example : ∀ v ∈ [(⟨some ["y"], .empty⟩ : Var)] ++ [⟨some ["x"], four⟩], v.name.isSome := by simp

example : (parseVars 0 (printList printVar xs.reverse)).toOption.map (fun r => r.1.map shape) =
    some [(some ["y"], [], 0), (some ["x"], [[⟨0, 4⟩]], 1)] := by decide +kernel

example : printList printVar xs.reverse = [.lsq, .sym ["y"], .comma, .less, .sym ["x"], .comma, .lbrace, .lsq, .int 0, .comma,
    .int 3, .rsq, .rbrace, .greater, .rsq] := by decide +kernel

end Marco.Props
