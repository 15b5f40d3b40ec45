import Verif.Lemmas.DerivativesMap
import Mathlib.Data.List.Induction

/-!
# C106: the map of the derivatives

Derivatives and derived variables are inverse to each other; two maps are equal if they answer all questions in the same way; a
map is read back as it was written.
-/

namespace Marco.Props
open Marco Spec Marco.Serial Marco.Spec.Serial Marco.Spec.DMap

/-! ### Queries after any history -/

theorem C106_run_snoc (plus : IndexSet → IndexSet → IndexSet) (cs : List Cmd) (c : Cmd) :
    run plus (cs ++ [c]) = step plus (run plus cs) c := by
  simp [run, List.foldl_append]

/-- `getDerivative` and `getDerivedVariable` are inverse to each other, and give what was set, if no variable was given two
derivatives and no derivative two variables. -/
theorem C106_inverse_partial (plus : IndexSet → IndexSet → IndexSet) (cs : List Cmd) (h : Agree cs) (v d : Sym) :
    ((run plus cs).getDerivative v = some d ↔ Cmd.setDerivative v d ∈ cs) ∧
    ((run plus cs).getDerivedVariable d = some v ↔ Cmd.setDerivative v d ∈ cs) := by
  induction cs using List.reverseRecOn with
  | nil => simp [run, DMap.empty, DMap.getDerivative, DMap.getDerivedVariable, MapV.look]
  | append_singleton cs c ih =>
    obtain ⟨i1, i2⟩ := ih fun a b a' b' ha hb => h a b a' b' (by simp [ha]) (by simp [hb])
    rw [C106_run_snoc]
    cases c with
    | setDerivative w e =>
      have hag : ∀ v' d', Cmd.setDerivative v' d' ∈ cs → (w = v' ↔ e = d') := fun v' d' hc =>
        h w e v' d' (by simp) (by simp [hc])
      simp only [step, DMap.setDerivative, DMap.getDerivative, DMap.getDerivedVariable, MapV.look_put, List.mem_append,
        List.mem_cons, List.not_mem_nil, or_false, Cmd.setDerivative.injEq] at i1 i2 ⊢
      constructor
      · by_cases hv : v = w
        · rw [if_pos hv]
          constructor
          · intro he
            exact .inr ⟨hv, (Option.some.inj he).symm⟩
          · rintro (he | ⟨-, he⟩)
            · rw [(hag v d he).1 hv.symm]
            · rw [he]
        · rw [if_neg hv, i1]
          simp [hv]
      · by_cases hd : d = e
        · rw [if_pos hd]
          constructor
          · intro he
            exact .inr ⟨(Option.some.inj he).symm, hd⟩
          · rintro (he | ⟨he, -⟩)
            · rw [(hag v d he).2 hd.symm]
            · rw [he]
        · rw [if_neg hd, i2]
          simp [hd]
    | setDerivedIndices w s => simpa [step, DMap.setDerivedIndices, DMap.getDerivative, DMap.getDerivedVariable] using ⟨i1, i2⟩
    | addDerivedIndices w s => simpa [step, DMap.addDerivedIndices, DMap.getDerivative, DMap.getDerivedVariable] using ⟨i1, i2⟩

/-- What one would like of every history. -/
def C106_inverse_full : Prop := ∀ plus cs v d,
  (run plus cs).getDerivedVariable d = some v → (run plus cs).getDerivative v = some d

/-- When a variable gets another derivative, the former one is still said to be its derivative. -/
theorem C106_inverse_full_false : ¬ C106_inverse_full := fun h => by
  have := h (fun a _ => a) [.setDerivative ["x"] ["der_x"], .setDerivative ["x"] ["der_y"]] ["x"] ["der_x"] (by decide +kernel)
  revert this
  decide +kernel

/-- The derived indices of a variable are the points set last and those added since. -/
theorem C106_indices (plus : IndexSet → IndexSet → IndexSet) (k : Sym → Nat)
    (hplus : ∀ k a b, SetOk k a → SetOk k b → SetOk k (plus a b) ∧ ∀ p, Has (plus a b) p ↔ Has a p ∨ Has b p)
    (cs : List Cmd) (hcs : ∀ v s, Cmd.setDerivedIndices v s ∈ cs ∨ Cmd.addDerivedIndices v s ∈ cs → SetOk (k v) s)
    (v : Sym) (p : Point) :
    (∃ s, (run plus cs).getDerivedIndices v = some s ∧ Has s p) ↔ Given cs v p := by
  suffices hh : (∀ s, (run plus cs).idx.look v = some s → SetOk (k v) s) ∧
      ((∃ s, (run plus cs).idx.look v = some s ∧ Has s p) ↔ Given cs v p) from hh.2
  induction cs using List.reverseRecOn with
  | nil => simp [run, DMap.empty, MapV.look, Given]
  | append_singleton cs c ih =>
    obtain ⟨i1, i2⟩ := ih fun w s hw => hcs w s (by rcases hw with hw | hw <;> simp [hw])
    rw [C106_run_snoc]
    have key : Given (cs ++ [c]) v p ↔ (∃ s, (c = .setDerivedIndices v s ∨ c = .addDerivedIndices v s) ∧ Has s p) ∨
        (Given cs v p ∧ ∀ s', c ≠ .setDerivedIndices v s') := by
      constructor
      · rintro ⟨pre, s, post, h1, h2, h3⟩
        rcases List.eq_nil_or_concat post with rfl | ⟨post', c', rfl⟩
        · left
          refine ⟨s, ?_, h2⟩
          rcases h1 with h1 | h1
          · exact .inl (by simpa using (List.append_inj' h1 rfl).2)
          · exact .inr (by simpa using (List.append_inj' h1 rfl).2)
        · right
          simp only [List.concat_eq_append] at h1 h3
          have hc : c = c' := by
            rcases h1 with h1 | h1
            · rw [← List.cons_append, ← List.append_assoc] at h1
              simpa using (List.append_inj' h1 rfl).2
            · rw [← List.cons_append, ← List.append_assoc] at h1
              simpa using (List.append_inj' h1 rfl).2
          subst hc
          refine ⟨⟨pre, s, post', ?_, h2, fun s' h => h3 s' (by simp [h])⟩, fun s' h => h3 s' (by simp [h])⟩
          rcases h1 with h1 | h1
          · left
            rw [← List.cons_append, ← List.append_assoc] at h1
            exact (List.append_inj' h1 rfl).1
          · right
            rw [← List.cons_append, ← List.append_assoc] at h1
            exact (List.append_inj' h1 rfl).1
      · rintro (⟨s, h1, h2⟩ | ⟨⟨pre, s, post, h1, h2, h3⟩, h4⟩)
        · refine ⟨cs, s, [], ?_, h2, by simp⟩
          rcases h1 with rfl | rfl <;> simp
        · refine ⟨pre, s, post ++ [c], ?_, h2, fun s' h => ?_⟩
          · rcases h1 with rfl | rfl <;> simp
          · rcases List.mem_append.1 h with h | h
            · exact h3 s' h
            · exact h4 s' (by simpa using (List.mem_singleton.1 h).symm)
    rw [key]
    cases c with
    | setDerivative w e =>
      refine ⟨i1, ?_⟩
      simp only [step, DMap.setDerivative]
      rw [i2]
      simp
    | setDerivedIndices w s =>
      simp only [step, DMap.setDerivedIndices, MapV.look_put]
      by_cases hv : v = w
      · subst hv
        rw [if_pos rfl]
        refine ⟨fun s' h => by cases h; exact hcs v s (.inl (by simp)), ?_⟩
        simp
      · rw [if_neg hv]
        refine ⟨i1, ?_⟩
        rw [i2]
        simp [Ne.symm hv]
    | addDerivedIndices w s =>
      simp only [step, DMap.addDerivedIndices, MapV.look_put]
      by_cases hv : v = w
      · subst hv
        rw [if_pos rfl]
        have ho : SetOk (k v) (((run plus cs).idx.look v).getD .empty) := by
          cases hl : (run plus cs).idx.look v with
          | none => exact (left_empty (k v)).stored.setOk
          | some s' => exact i1 s' hl
        obtain ⟨a, b⟩ := hplus (k v) _ s ho (hcs v s (.inr (by simp)))
        refine ⟨fun s' h => by cases h; exact a, ?_⟩
        simp only [Option.some.injEq, exists_eq_left', b, reduceCtorEq, Cmd.addDerivedIndices.injEq, true_and, false_or,
          ne_eq, not_false_eq_true, implies_true, and_true, ← i2]
        cases hl : (run plus cs).idx.look v with
        | none => simp [(left_empty 0).not_has p]
        | some s' => simp [or_comm]
      · rw [if_neg hv]
        refine ⟨i1, ?_⟩
        rw [i2]
        simp [Ne.symm hv]

/-! ### Equality -/

/-- `operator==` holds of two maps if and only if they give the same answers. -/
theorem C106_equal (m n : Serial.DMap) (hm : Spec.DMap.Ok m) (hn : Spec.DMap.Ok n) :
    m.eq n = true ↔ ∀ v, m.getDerivative v = n.getDerivative v ∧
      Option.Rel (fun a b => IndexSet.eq b a = true) (m.getDerivedIndices v) (n.getDerivedIndices v) ∧
      m.getDerivedVariable v = n.getDerivedVariable v := by
  unfold DMap.eq
  rw [Bool.and_eq_true, Bool.and_eq_true, mapsEqual_iff hm.ders hn.ders, mapsEqual_iff hm.idx hn.idx,
    mapsEqual_iff hm.inv hn.inv]
  constructor
  · rintro ⟨⟨h1, h2⟩, h3⟩ v
    exact ⟨rel_eq.1 (h1 v), h2 v, rel_eq.1 (h3 v)⟩
  · intro h
    exact ⟨⟨fun v => rel_eq.2 (h v).1, fun v => (h v).2.1⟩, fun v => rel_eq.2 (h v).2.2⟩

/-- Equal maps do not hash the same entries. -/
theorem C106_hash_wrong : ∃ m n : Serial.DMap, m.eq n = true ∧ n.eq m = true ∧ m.hashed ≠ n.hashed := by
  refine ⟨(DMap.empty.setDerivative ["x"] ["dx"]).setDerivative ["y"] ["dy"],
    (DMap.empty.setDerivative ["y"] ["dy"]).setDerivative ["x"] ["dx"], ?_⟩
  decide +kernel

/-! ### Writing and reading back -/

theorem C106_eq_of_same {m : Serial.DMap} (hm : Spec.DMap.Ok m) {x : MapV IndexSet} (h : SameIdx x m.idx) :
    DMap.eq ⟨m.ders, x, m.inv⟩ m = true := by
  unfold DMap.eq
  rw [Bool.and_eq_true, Bool.and_eq_true, mapsEqual_iff hm.ders hm.ders,
    mapsEqual_iff (by rw [h.keys]; exact hm.idx) hm.idx, mapsEqual_iff hm.inv hm.inv]
  exact ⟨⟨fun v => rel_eq.2 rfl, h.look⟩, fun v => rel_eq.2 rfl⟩

/-- A map is read back from its attribute and from its bytecode. -/
theorem C106_roundtrip (fuel : Nat) (m : Serial.DMap) (hm : Spec.DMap.Ok m) :
    Gives (HasMergeable m) (dmapOfAttr fuel .empty (attrOfDMap m)) (fun m' => m'.eq m = true) ∧
    ∃ w, writeDMap m = .ok w ∧ ∀ rest,
      Reads (HasMergeable m) (readDMap fuel .empty (w ++ rest)) (fun m' => m'.eq m = true) rest := by
  constructor
  · have e1 : putPairs "variable" "derivative" [] (m.ders.map (attrOfPair "variable" "derivative")) = .ok m.ders :=
      putPairs_attr (by decide) m.ders [] hm.ders
    have e3 : putPairs "derivative" "variable" [] (m.inv.map (attrOfPair "derivative" "variable")) = .ok m.inv :=
      putPairs_attr (by decide) m.inv [] hm.inv
    simp only [attrOfDMap, dmapOfAttr, DMap.empty, Serial.get, List.find?, beq_self_eq_true, Option.map_some, e1,
      show (("derivatives" : String) == "derivedIndices") = false from by decide,
      show (("derivatives" : String) == "inverseDerivatives") = false from by decide,
      show (("derivedIndices" : String) == "inverseDerivatives") = false from by decide, bind, Except.bind]
    rcases putIndices_attr (fuel := fuel) m.idx [] hm.idx hm.sets with ⟨r, a, l', b, c⟩ | ⟨hu, a⟩
    · left
      rw [List.nil_append] at b
      subst b
      rw [a]
      simp only [e3]
      exact ⟨_, rfl, C106_eq_of_same hm c⟩
    · exact .inr ⟨hu, by rw [a]⟩
  · obtain ⟨ws, h1, h2⟩ := readIndices_write (fuel := fuel) m.idx [] hm.idx hm.sets
    refine ⟨writePairs m.ders ++ ((.nat m.idx.length :: ws.flatten) ++ writePairs m.inv), ?_, fun rest => ?_⟩
    · simp only [writeDMap, writeIndices]
      rw [h1]
      rfl
    · have e1 := readPairs_write ((.nat m.idx.length :: ws.flatten) ++ (writePairs m.inv ++ rest)) m.ders [] hm.ders
      have e3 := readPairs_write rest m.inv [] hm.inv
      have e : (writePairs m.ders ++ ((.nat m.idx.length :: ws.flatten) ++ writePairs m.inv)) ++ rest =
          .nat m.ders.length :: ((m.ders.flatMap fun e => [Item.sym e.1, .sym e.2]) ++
            ((.nat m.idx.length :: ws.flatten) ++ (writePairs m.inv ++ rest))) := by
        simp [writePairs]
      rw [e]
      simp only [readDMap, DMap.empty]
      rw [e1]
      simp only [bind, Except.bind, List.cons_append]
      rcases h2 (writePairs m.inv ++ rest) with ⟨r, a, l', b, c⟩ | ⟨hu, a⟩
      · left
        rw [List.nil_append] at b
        subst b
        rw [a]
        simp only [writePairs, List.cons_append]
        rw [e3]
        exact ⟨_, rfl, C106_eq_of_same hm c⟩
      · exact .inr ⟨hu, by rw [a]⟩

/-- A map whose parts agree is read back from its text, in whatever order the entries are printed. -/
theorem C106_text_partial (fuel : Nat) (sort : List Sym → List Sym) (hsort : ∀ l, (sort l).Perm l) (m : Serial.DMap)
    (hm : Spec.DMap.Ok m) (hl : Linked m) (rest : List Tok) :
    Reads (HasMergeable m) (parseDMap fuel .empty (printDMap sort m ++ rest)) (fun m' => m'.eq m = true) rest := by
  have hp := hsort m.getDerivedVariables
  have fin : ∀ st', Done m st' (sort m.getDerivedVariables) → st'.eq m = true := by
    intro st' h
    have hin : ∀ k, k ∈ sort m.getDerivedVariables ↔ (m.ders.look k).isSome := fun k => by
      rw [hp.mem_iff, MapV.look_isSome]
      rfl
    unfold DMap.eq
    rw [Bool.and_eq_true, Bool.and_eq_true, mapsEqual_iff h.dn hm.ders, mapsEqual_iff h.xn hm.idx, mapsEqual_iff h.vn hm.inv]
    refine ⟨⟨fun k => rel_eq.2 ?_, fun k => ?_⟩, fun k => rel_eq.2 ?_⟩
    · rw [h.ders]
      split_ifs with hk
      · rfl
      · rw [hin, Bool.not_eq_true, Option.isSome_eq_false_iff, Option.isNone_iff_eq_none] at hk
        exact hk.symm
    · by_cases hk : k ∈ sort m.getDerivedVariables
      · exact h.idxIn k hk
      · rw [h.idxOut k hk]
        have : m.idx.look k = none := by
          rw [hin] at hk
          have h' : ¬ (m.idx.look k).isSome := fun h' => hk ((hl.indices k).2 h')
          rwa [Bool.not_eq_true, Option.isSome_eq_false_iff, Option.isNone_iff_eq_none] at h'
        rw [this]
        exact .none
    · apply Option.ext
      intro v
      rw [h.inv, hin]
      constructor
      · rintro ⟨-, h'⟩
        exact (hl.inverse v k).1 h'
      · intro h'
        have := (hl.inverse v k).2 h'
        exact ⟨by
          have h2 : m.ders.look v = some k := this
          rw [h2]
          rfl, this⟩
  have h0 : Done m .empty [] := by
    refine ⟨List.nodup_nil, List.nodup_nil, List.nodup_nil, ?_, ?_, ?_, ?_⟩ <;> simp [DMap.empty, MapV.look]
  unfold printDMap
  generalize hvs : sort m.getDerivedVariables = vs at fin hp
  cases vs with
  | nil => exact .inl ⟨.empty, rfl, fin _ h0⟩
  | cons v vs =>
    have hlen : (v :: vs).length ≤ (commas ((v :: vs).map (printEntry m)) ++ (.rsq :: rest)).length := by
      have := commas_length (l := (v :: vs).map (printEntry m)) (by
        intro u hu
        obtain ⟨c, -, rfl⟩ := List.mem_map.1 hu
        simp [printEntry])
      rw [List.length_map] at this
      rw [List.length_append]
      omega
    have key := parseEntries_print (fuel := fuel) hm hl rest (v :: vs) _ .empty [] (by simp) hlen h0 (fun u hu => by
      have := hp.mem_iff.1 hu
      exact this)
    have e : printList (printEntry m) (v :: vs) ++ rest = .lsq :: (commas ((v :: vs).map (printEntry m)) ++ (.rsq :: rest)) := by
      simp [printList]
    have e2 : parseDMap fuel .empty (.lsq :: (commas ((v :: vs).map (printEntry m)) ++ (.rsq :: rest))) =
        parseEntries fuel (commas ((v :: vs).map (printEntry m)) ++ (.rsq :: rest)).length .empty
          (commas ((v :: vs).map (printEntry m)) ++ (.rsq :: rest)) := by
      rw [parseDMap]
      intro ts h
      cases vs <;> simp [commas, printEntry] at h
    rw [e, e2]
    rcases key with ⟨st', a, b⟩ | ⟨hu, a⟩
    · refine .inl ⟨st', a, fin _ ?_⟩
      have hmem : ∀ k, k ∈ (v :: vs).reverse ++ [] ↔ k ∈ v :: vs := fun k => by
        rw [List.append_nil, List.mem_reverse]
      refine ⟨b.dn, b.xn, b.vn, fun k => ?_, fun k hk => b.idxIn k ((hmem k).2 hk), fun k hk => b.idxOut k ?_, fun d w => ?_⟩
      · rw [b.ders k]
        by_cases hk : k ∈ v :: vs
        · rw [if_pos hk, if_pos ((hmem k).2 hk)]
        · rw [if_neg hk, if_neg (fun h => hk ((hmem k).1 h))]
      · exact fun h => hk ((hmem k).1 h)
      · rw [b.inv, hmem]
    · exact .inr ⟨hu, a⟩

/-- What one would like: the parts need not agree. -/
def C106_text_full : Prop := ∀ (fuel : Nat) (sort : List Sym → List Sym), (∀ l, (sort l).Perm l) → ∀ m : Serial.DMap,
  Spec.DMap.Ok m → ∀ rest,
    Reads (HasMergeable m) (parseDMap fuel .empty (printDMap sort m ++ rest)) (fun m' => m'.eq m = true) rest

/-- Indices given before the derivative are not printed. -/
theorem C106_text_full_false : ¬ C106_text_full := by
  intro h
  rcases h 0 id (fun l => .refl l) (DMap.empty.setDerivedIndices ["x"] .empty)
    ⟨by simp [DMap.empty, DMap.setDerivedIndices], by simp [DMap.empty, DMap.setDerivedIndices, MapV.put],
      by simp [DMap.empty, DMap.setDerivedIndices], by
        intro e he
        simp only [DMap.empty, DMap.setDerivedIndices, MapV.put, List.mem_cons, List.not_mem_nil, or_false] at he
        subst he
        exact ⟨1, by omega, (left_empty 1).stored.setOk, fun _ => rfl⟩⟩ [] with ⟨m', a, b⟩ | ⟨-, a⟩
  · have : parseDMap 0 .empty (printDMap id (DMap.empty.setDerivedIndices ["x"] .empty) ++ []) = .ok (.empty, []) := rfl
    rw [this] at a
    cases a
    revert b
    decide +kernel
  · have : parseDMap 0 .empty (printDMap id (DMap.empty.setDerivedIndices ["x"] .empty) ++ []) = .ok (.empty, []) := rfl
    rw [this] at a
    cases a

/-- The comparison by which the variables are sorted is no strict weak order: `a::b` and `a::c` are both equivalent to `a`, but
not to each other. -/
theorem C106_order_wrong : ∃ x y z : Sym, (symLess x y = false ∧ symLess y x = false) ∧ (symLess y z = false ∧ symLess z y = false) ∧
    symLess x z = true := ⟨["a", "b"], ["a"], ["a", "c"], by decide +kernel⟩

/-! ### Cases that meet the hypotheses -/

namespace C106_Sample

/-- The indices from 0 to 3. -/
def four : IndexSet := .ofRanges [[⟨0, 4⟩]]

/-- A scalar and an array. -/
def cmds : List Cmd := [.setDerivative ["x"] ["dx"], .setDerivedIndices ["x"] .empty, .addDerivedIndices ["y"] four,
  .setDerivative ["y"] ["dy"]]

/-- A union. -/
def plus (a b : IndexSet) : IndexSet := .ofRanges (a.ranges ++ b.ranges)

end C106_Sample
open C106_Sample

theorem C106_plus_ok (k : Nat) (a b : IndexSet) (ha : SetOk k a) (hb : SetOk k b) :
    SetOk k (C106_Sample.plus a b) ∧ ∀ p, Has (C106_Sample.plus a b) p ↔ Has a p ∨ Has b p := by
  obtain ⟨h1, -, h2, -⟩ := IndexSet.ofRanges_spec (k := k) (rs := a.ranges ++ b.ranges) (by
    intro r hr
    rcases List.mem_append.1 hr with hr | hr
    · exact IndexSet.ranges_ranked ha r hr
    · exact IndexSet.ranges_ranked hb r hr)
  refine ⟨h1, fun p => ?_⟩
  rw [C106_Sample.plus, h2]
  simp only [InL, Has, List.mem_append, or_and_right, exists_or]

theorem C106_sample_agree : Agree cmds := by
  intro v d v' d' h h'
  simp only [cmds, List.mem_cons, List.not_mem_nil, or_false, Cmd.setDerivative.injEq, reduceCtorEq, false_or] at h h'
  rcases h with ⟨rfl, rfl⟩ | ⟨rfl, rfl⟩ <;> rcases h' with ⟨rfl, rfl⟩ | ⟨rfl, rfl⟩ <;> decide

example : Spec.DMap.Ok (run C106_Sample.plus cmds) ∧ Linked (run C106_Sample.plus cmds) := by
  have h4 : SetOk 1 four := (IndexSet.ofRanges_spec (k := 1) (rs := [[⟨0, 4⟩]]) (by
    intro b hb
    simp only [List.mem_cons, List.not_mem_nil, or_false] at hb
    subst hb
    exact ⟨⟨by simp, by simp [Range.Valid]⟩, rfl⟩)).1
  have h0 : SetOk 1 IndexSet.empty := (left_empty 1).stored.setOk
  refine ⟨⟨by decide +kernel, by decide +kernel, by decide +kernel, ?_⟩, ⟨fun v d => ?_, fun v => ?_⟩⟩
  · intro e he
    simp only [run, cmds, step, List.foldl, DMap.empty, DMap.setDerivative, DMap.setDerivedIndices, DMap.addDerivedIndices,
      MapV.put, MapV.look, List.mem_cons, List.not_mem_nil, or_false, show ¬ (["x"] = (["y"] : Sym)) from by decide,
      if_false, Option.getD_none] at he
    rcases he with rfl | rfl
    · exact ⟨1, by omega, h0, fun _ => rfl⟩
    · exact ⟨1, by omega, (C106_plus_ok 1 _ _ h0 h4).1, fun h => absurd h (by decide +kernel)⟩
  · obtain ⟨a, b⟩ := C106_inverse_partial C106_Sample.plus cmds C106_sample_agree v d
    rw [a, b]
  · simp only [run, cmds, step, List.foldl, DMap.empty, DMap.setDerivative, DMap.setDerivedIndices, DMap.addDerivedIndices,
      MapV.put, MapV.look, DMap.getDerivative, DMap.getDerivedIndices, show ¬ (["x"] = (["y"] : Sym)) from by decide,
      if_false, Option.getD_none]
    split_ifs <;> simp

example : (run C106_Sample.plus cmds).getDerivedVariable ["dy"] = some ["y"] ∧
    ((run C106_Sample.plus cmds).getDerivedIndices ["y"]).map (·.ranges) = some [[⟨0, 4⟩]] := by decide +kernel

example : printDMap id (run C106_Sample.plus cmds) = [.lsq, .less, .sym ["x"], .comma, .sym ["dx"], .greater, .comma, .less,
    .sym ["y"], .comma, .sym ["dy"], .comma, .lbrace, .lsq, .int 0, .comma, .int 3, .rsq, .rbrace, .greater, .rsq] := by
  decide +kernel

example : ((parseDMap 0 .empty (printDMap id (run C106_Sample.plus cmds))).toOption.map fun r => r.1.eq (run C106_Sample.plus cmds))
    = some true := by decide +kernel

end Marco.Props
