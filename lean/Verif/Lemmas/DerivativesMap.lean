import Verif.Spec.DerivativesMap
import Verif.Lemmas.Serialization
import Mathlib.Data.List.Perm.Subperm

/-!
# Helper lemmas for C106: the map of the derivatives
-/

namespace Marco.Serial
open Marco Spec IndexSet Marco.Spec.Serial

namespace MapV

theorem look_put {α : Type} (k k' : Sym) (a : α) : ∀ m : MapV α, (m.put k a).look k' = if k' = k then some a else m.look k'
  | [] => by
    simp only [put, look]
    by_cases h : k = k'
    · rw [if_pos h, if_pos h.symm]
    · rw [if_neg h, if_neg (Ne.symm h)]
  | (l, b) :: m => by
    simp only [put]
    by_cases hl : l = k
    · rw [if_pos hl]
      subst hl
      simp only [look]
      by_cases h : l = k'
      · rw [if_pos h, if_pos h.symm]
      · rw [if_neg h, if_neg (Ne.symm h), if_neg h]
    · rw [if_neg hl]
      simp only [look]
      rw [look_put k k' a m]
      by_cases h : l = k'
      · rw [if_pos h, if_pos h, if_neg (by rw [← h]; exact hl)]
      · rw [if_neg h, if_neg h]

theorem look_isSome {α : Type} (k : Sym) : ∀ m : MapV α, (m.look k).isSome ↔ k ∈ m.map (·.1)
  | [] => by simp [look]
  | (l, b) :: m => by
    simp only [look, List.map_cons, List.mem_cons]
    by_cases h : l = k
    · simp [h]
    · rw [if_neg h, look_isSome k m]
      simp [Ne.symm h]

theorem look_none {α : Type} {k : Sym} {m : MapV α} : m.look k = none ↔ k ∉ m.map (·.1) := by
  rw [← look_isSome, Bool.not_eq_true, Option.isSome_eq_false_iff, Option.isNone_iff_eq_none]

theorem look_mem {α : Type} {k : Sym} {a : α} : ∀ {m : MapV α}, m.look k = some a → (k, a) ∈ m
  | [], h => by simp [look] at h
  | (l, b) :: m, h => by
    simp only [look] at h
    split_ifs at h with hl
    · cases h
      rw [hl]
      simp
    · exact List.mem_cons_of_mem _ (look_mem h)

theorem look_of_mem {α : Type} {k : Sym} {a : α} : ∀ {m : MapV α}, (m.map (·.1)).Nodup → (k, a) ∈ m → m.look k = some a
  | (l, b) :: m, hn, h => by
    simp only [List.map_cons, List.nodup_cons] at hn
    simp only [look]
    rcases List.mem_cons.1 h with h | h
    · cases h
      rw [if_pos rfl]
    · rw [if_neg, look_of_mem hn.2 h]
      rintro rfl
      exact hn.1 (List.mem_map.2 ⟨_, h, rfl⟩)

theorem put_fresh {α : Type} {k : Sym} {a : α} : ∀ {m : MapV α}, k ∉ m.map (·.1) → m.put k a = m ++ [(k, a)]
  | [], _ => rfl
  | (l, b) :: m, h => by
    simp only [List.map_cons, List.mem_cons, not_or] at h
    rw [put, if_neg (Ne.symm h.1), put_fresh h.2]
    rfl

theorem keys_put {α : Type} (k k' : Sym) (a : α) (m : MapV α) : k' ∈ (m.put k a).map (·.1) ↔ k' = k ∨ k' ∈ m.map (·.1) := by
  rw [← look_isSome, ← look_isSome, look_put]
  by_cases h : k' = k <;> simp [h]

theorem nodup_put {α : Type} (k : Sym) (a : α) : ∀ {m : MapV α}, (m.map (·.1)).Nodup → ((m.put k a).map (·.1)).Nodup
  | [], _ => by simp [put]
  | (l, b) :: m, h => by
    simp only [List.map_cons, List.nodup_cons] at h
    simp only [put]
    split_ifs with hl
    · simpa using h
    · rw [List.map_cons, List.nodup_cons, keys_put]
      refine ⟨?_, nodup_put k a h.2⟩
      rintro (h' | h')
      · exact hl h'
      · exact h.1 h'

end MapV

theorem mapsEqual_iff {α : Type} {eqv : α → α → Bool} {m n : MapV α} (hm : (m.map (·.1)).Nodup) (hn : (n.map (·.1)).Nodup) :
    mapsEqual eqv m n = true ↔ ∀ k, Option.Rel (fun a b => eqv b a = true) (m.look k) (n.look k) := by
  unfold mapsEqual
  rw [Bool.and_eq_true, beq_iff_eq, List.all_eq_true]
  constructor
  · rintro ⟨h1, h2⟩ k
    have hsub : m.map (·.1) ⊆ n.map (·.1) := by
      intro k hk
      obtain ⟨e, he, rfl⟩ := List.mem_map.1 hk
      have := h2 e he
      rw [← MapV.look_isSome]
      cases hl : n.look e.1 with
      | none => rw [hl] at this; cases this
      | some _ => rfl
    have hperm : (m.map (·.1)).Perm (n.map (·.1)) :=
      (List.subperm_of_subset hm hsub).perm_of_length_le (by simp [h1])
    cases hl : m.look k with
    | none =>
      have : n.look k = none := by
        rw [MapV.look_none] at hl ⊢
        rwa [← hperm.mem_iff]
      rw [this]
      exact .none
    | some a =>
      have := h2 _ (MapV.look_mem hl)
      simp only at this
      cases hl' : n.look k with
      | none => rw [hl'] at this; cases this
      | some b =>
        rw [hl'] at this
        exact .some this
  · intro h
    have hkeys : ∀ k, k ∈ m.map (·.1) ↔ k ∈ n.map (·.1) := fun k => by
      have hk := h k
      rw [← MapV.look_isSome, ← MapV.look_isSome]
      generalize m.look k = o, n.look k = p at hk
      cases hk <;> simp
    refine ⟨?_, fun e he => ?_⟩
    · have := ((List.perm_ext_iff_of_nodup hm hn).2 hkeys).length_eq
      simpa using this
    · have hk := h e.1
      rw [MapV.look_of_mem hm (a := e.2) he] at hk
      generalize n.look e.1 = o at hk ⊢
      cases hk with
      | some h => exact h

theorem rel_eq {o p : Option Sym} : Option.Rel (fun a b => (b == a) = true) o p ↔ o = p := by
  constructor
  · intro h
    cases h with
    | none => rfl
    | some h => rw [eq_of_beq h]
  · rintro rfl
    cases o
    · exact .none
    · exact .some (by simp)

theorem eq_comm' (s t : IndexSet) : s.eq t = t.eq s := by
  unfold IndexSet.eq
  by_cases h : s.rank = t.rank
  · simp [h, Bool.and_comm]
  · simp [h, Ne.symm h]

/-- Two maps with the same keys, and equal index sets. -/
def SameIdx (m n : MapV IndexSet) : Prop := List.Forall₂ (fun a b => a.1 = b.1 ∧ Spec.Serial.SameSet a.2 b.2) m n

theorem SameIdx.keys {m n : MapV IndexSet} (h : SameIdx m n) : m.map (·.1) = n.map (·.1) := by
  induction h with
  | nil => rfl
  | cons h _ ih => rw [List.map_cons, List.map_cons, h.1, ih]

theorem SameIdx.look {m n : MapV IndexSet} (h : SameIdx m n) (k : Sym) :
    Option.Rel (fun a b => IndexSet.eq b a = true) (m.look k) (n.look k) := by
  induction h with
  | nil => exact .none
  | @cons a b m n h _ ih =>
    obtain ⟨a1, a2⟩ := a
    obtain ⟨b1, b2⟩ := b
    obtain ⟨h1, h2⟩ := h
    simp only at h1 h2
    subst h1
    simp only [MapV.look]
    split_ifs
    · exact .some (by rw [eq_comm']; exact h2)
    · exact ih

/-! ### Attributes and bytecode -/

theorem putPairs_attr {k a : String} (hne : k ≠ a) : ∀ (l m : MapV Sym), ((m ++ l).map (·.1)).Nodup →
    putPairs k a m (l.map (attrOfPair k a)) = .ok (m ++ l)
  | [], m, _ => by simp [putPairs]
  | (v, d) :: l, m, h => by
    have hv : v ∉ m.map (·.1) := by
      intro hm
      rw [List.map_append, List.nodup_append] at h
      exact h.2.2 v hm v (by simp) rfl
    have := putPairs_attr hne l (m ++ [(v, d)]) (by simpa using h)
    simp only [List.map_cons, attrOfPair, putPairs, Serial.get, List.find?, beq_self_eq_true, Option.map_some,
      beq_eq_false_iff_ne.2 hne, MapV.put_fresh hv] at this ⊢
    rw [this]
    simp

theorem putIndices_attr {fuel : Nat} : ∀ (l m : MapV IndexSet), ((m ++ l).map (·.1)).Nodup → (∀ e ∈ l, Regular e.2) →
    Gives (∃ e ∈ l, Mergeable e.2)
      (putIndices fuel m (l.map fun e => .dict [("variable", .sym e.1), ("indices", attrOfSet e.2)]))
      (fun r => ∃ l', r = m ++ l' ∧ SameIdx l' l)
  | [], m, _, _ => .inl ⟨m, rfl, [], by simp, .nil⟩
  | (v, s) :: l, m, h, hs => by
    have hv : v ∉ m.map (·.1) := by
      intro hm
      rw [List.map_append, List.nodup_append] at h
      exact h.2.2 v hm v (by simp) rfl
    obtain ⟨k, hk, h1, h2⟩ := hs (v, s) (by simp)
    have he : s.isEmpty = true → IndexSet.empty.rank = s.rank := fun h => (h2 h).symm
    simp only [List.map_cons, putIndices, Serial.get, List.find?, beq_self_eq_true, Option.map_some,
      show (("variable" : String) == "indices") = false from by decide]
    rcases attr_set (fuel := fuel) (left_empty k) h1 he with ⟨s', i1, i2⟩ | ⟨hu, i⟩
    · rw [i1]
      simp only [bind, Except.bind]
      rw [MapV.put_fresh hv]
      rcases putIndices_attr (fuel := fuel) l (m ++ [(v, s')]) (by simpa using h)
        (fun e he => hs e (List.mem_cons_of_mem _ he)) with ⟨r, j1, l', j2, j3⟩ | ⟨⟨e, he, hu⟩, j⟩
      · exact .inl ⟨r, j1, (v, s') :: l', by rw [j2]; simp, .cons ⟨rfl, i2⟩ j3⟩
      · exact .inr ⟨⟨e, List.mem_cons_of_mem _ he, hu⟩, j⟩
    · exact .inr ⟨⟨_, List.mem_cons_self, hu⟩, by rw [i]; rfl⟩

theorem readPairs_write (rest : List Item) : ∀ (l m : MapV Sym), ((m ++ l).map (·.1)).Nodup →
    readPairs l.length m ((l.flatMap fun e => [Item.sym e.1, .sym e.2]) ++ rest) = .ok (m ++ l, rest)
  | [], m, _ => by simp [readPairs]
  | (v, d) :: l, m, h => by
    have hv : v ∉ m.map (·.1) := by
      intro hm
      rw [List.map_append, List.nodup_append] at h
      exact h.2.2 v hm v (by simp) rfl
    have := readPairs_write rest l (m ++ [(v, d)]) (by simpa using h)
    simp only [List.flatMap_cons, List.cons_append, List.nil_append, List.length_cons, readPairs]
    rw [MapV.put_fresh hv, this]
    simp

theorem readIndices_write {fuel : Nat} : ∀ (l m : MapV IndexSet), ((m ++ l).map (·.1)).Nodup → (∀ e ∈ l, Regular e.2) →
    ∃ ws, (l.mapM fun e => do
      let s ← writeSet e.2
      Except.ok (Item.sym e.1 :: s) : Out (List (List Item))) = .ok ws ∧ ∀ rest,
      Reads (∃ e ∈ l, Mergeable e.2) (readIndices fuel l.length m (ws.flatten ++ rest))
        (fun r => ∃ l', r = m ++ l' ∧ SameIdx l' l) rest := by
  intro l
  induction l with
  | nil => exact fun m _ _ => ⟨[], rfl, fun rest => .inl ⟨m, rfl, [], by simp, .nil⟩⟩
  | cons e l ih =>
    obtain ⟨v, s⟩ := e
    intro m h hs
    have hv : v ∉ m.map (·.1) := by
      intro hm
      rw [List.map_append, List.nodup_append] at h
      exact h.2.2 v hm v (by simp) rfl
    obtain ⟨k, hk, h1, h2⟩ := hs (v, s) (by simp)
    have he : s.isEmpty = true → IndexSet.empty.rank = s.rank := fun h => (h2 h).symm
    obtain ⟨w, i1, i2⟩ := bytecode_set (fuel := fuel) (left_empty k) h1 he
    have hs' : ∀ e ∈ l, Regular e.2 := fun e he => hs e (List.mem_cons_of_mem _ he)
    obtain ⟨ws, j1, -⟩ := ih (m ++ [(v, s)]) (by simpa using h) hs'
    refine ⟨(.sym v :: w) :: ws, ?_, fun rest => ?_⟩
    · rw [List.mapM_cons, j1]
      simp only at i1
      simp only [i1]
      rfl
    · have e1 : ((.sym v :: w) :: ws).flatten ++ rest = .sym v :: (w ++ (ws.flatten ++ rest)) := by simp
      rw [e1, List.length_cons]
      simp only [readIndices]
      rcases i2 (ws.flatten ++ rest) with ⟨s', a1, a2⟩ | ⟨hu, a1⟩
      · rw [a1]
        simp only [bind, Except.bind]
        rw [MapV.put_fresh hv]
        obtain ⟨ws', j1', j2⟩ := ih (m ++ [(v, s')]) (by simpa using h) hs'
        rw [j1] at j1'
        cases j1'
        rcases j2 rest with ⟨r, b1, l', b2, b3⟩ | ⟨⟨e, he, hu⟩, b⟩
        · exact .inl ⟨r, b1, (v, s') :: l', by rw [b2]; simp, .cons ⟨rfl, a2⟩ b3⟩
        · exact .inr ⟨⟨e, List.mem_cons_of_mem _ he, hu⟩, b⟩
      · exact .inr ⟨⟨_, List.mem_cons_self, hu⟩, by rw [a1]; rfl⟩

/-! ### Texts -/

theorem same_empty {s : IndexSet} (hs : Regular s) (h : s.isEmpty = true) : Spec.Serial.SameSet .empty s := by
  obtain ⟨k, hk, h1, h2⟩ := hs
  rcases load (fuel := 0) (left_empty k) h1 (fun h => (h2 h).symm) with ⟨s', e, f, -⟩ | ⟨-, e⟩
  · rw [compact_empty h] at e
    cases e
    exact f
  · rw [compact_empty h] at e
    cases e

/-- The entries of the variables `vs` have been read. -/
structure Done (m st : DMap) (vs : List Sym) : Prop where
  dn : (st.ders.map (·.1)).Nodup
  xn : (st.idx.map (·.1)).Nodup
  vn : (st.inv.map (·.1)).Nodup
  ders : ∀ k, st.ders.look k = if k ∈ vs then m.ders.look k else none
  idxIn : ∀ k ∈ vs, Option.Rel (fun a b => IndexSet.eq b a = true) (st.idx.look k) (m.idx.look k)
  idxOut : ∀ k, k ∉ vs → st.idx.look k = none
  inv : ∀ d v, st.inv.look d = some v ↔ v ∈ vs ∧ m.ders.look v = some d

theorem Done.add {m st : DMap} {vs : List Sym} (h : Done m st vs) (hl : Spec.DMap.Linked m) {v d : Sym} {s s' : IndexSet}
    (hd : m.ders.look v = some d) (hx : m.idx.look v = some s) (hs : Spec.Serial.SameSet s' s) :
    Done m ((st.setDerivative v d).setDerivedIndices v s') (v :: vs) where
  dn := MapV.nodup_put _ _ h.dn
  xn := MapV.nodup_put _ _ h.xn
  vn := MapV.nodup_put _ _ h.vn
  ders k := by
    simp only [DMap.setDerivative, DMap.setDerivedIndices, MapV.look_put, h.ders, List.mem_cons]
    by_cases hk : k = v
    · simp [hk, hd]
    · simp [hk]
  idxIn k hk := by
    simp only [DMap.setDerivative, DMap.setDerivedIndices, MapV.look_put]
    by_cases hkv : k = v
    · rw [if_pos hkv, hkv, hx]
      exact .some (by rw [eq_comm']; exact hs)
    · rw [if_neg hkv]
      exact h.idxIn k ((List.mem_cons.1 hk).resolve_left hkv)
  idxOut k hk := by
    simp only [List.mem_cons, not_or] at hk
    simp only [DMap.setDerivative, DMap.setDerivedIndices, MapV.look_put]
    rw [if_neg hk.1]
    exact h.idxOut k hk.2
  inv d' v' := by
    simp only [DMap.setDerivative, DMap.setDerivedIndices, MapV.look_put, List.mem_cons]
    by_cases hdd : d' = d
    · subst hdd
      rw [if_pos rfl, Option.some.injEq]
      constructor
      · rintro rfl
        exact ⟨.inl rfl, hd⟩
      · rintro ⟨-, h'⟩
        have a := (hl.inverse v d').1 hd
        have b := (hl.inverse v' d').1 h'
        rw [a] at b
        exact Option.some.inj b
    · rw [if_neg hdd, h.inv]
      constructor
      · rintro ⟨a, b⟩
        exact ⟨.inr a, b⟩
      · rintro ⟨a | a, b⟩
        · subst a
          rw [hd] at b
          exact absurd (Option.some.inj b).symm hdd
        · exact ⟨a, b⟩

theorem parseEntry_print {fuel : Nat} {m st : DMap} {vs : List Sym} (hm : Spec.DMap.Ok m) (hl : Spec.DMap.Linked m)
    (h : Done m st vs) {v : Sym} (hv : v ∈ m.ders.map (·.1)) (rest : List Tok) :
    Reads (Spec.DMap.HasMergeable m) (parseEntry fuel st (printEntry m v ++ rest)) (fun st' => Done m st' (v :: vs)) rest := by
  have hv' := (MapV.look_isSome v m.ders).2 hv
  obtain ⟨d, hd⟩ := Option.isSome_iff_exists.1 hv'
  obtain ⟨s, hx⟩ := Option.isSome_iff_exists.1 ((hl.indices v).1 hv')
  have hmem := MapV.look_mem hx
  have hreg := hm.sets _ hmem
  cases hemp : s.isEmpty with
  | true =>
    have e : printEntry m v ++ rest = .less :: .sym v :: .comma :: .sym d :: .greater :: rest := by
      unfold printEntry DMap.getDerivative
      rw [hd, hx]
      simp [hemp]
    rw [e]
    exact .inl ⟨_, rfl, h.add hl hd hx (same_empty hreg hemp)⟩
  | false =>
    have e : printEntry m v ++ rest = .less :: .sym v :: .comma :: .sym d :: .comma :: (printSet s ++ (.greater :: rest)) := by
      unfold printEntry DMap.getDerivative
      rw [hd, hx]
      simp [hemp]
    rw [e]
    obtain ⟨k, hk, h1, h2⟩ := hreg
    simp only [parseEntry]
    rcases text_set (fuel := fuel) hk (left_empty k) h1 (fun h => (h2 h).symm) (.greater :: rest) with ⟨s', a, b, -⟩ | ⟨hu, a⟩
    · exact .inl ⟨_, by rw [a]; rfl, h.add hl hd hx b⟩
    · exact .inr ⟨⟨_, hmem, hu⟩, by rw [a]; rfl⟩

theorem parseEntries_print {fuel : Nat} {m : DMap} (hm : Spec.DMap.Ok m) (hl : Spec.DMap.Linked m) (rest : List Tok) :
    ∀ (vs : List Sym) (n : Nat) (st : DMap) (dn : List Sym), vs ≠ [] → vs.length ≤ n → Done m st dn →
    (∀ v ∈ vs, v ∈ m.ders.map (·.1)) →
    Reads (Spec.DMap.HasMergeable m) (parseEntries fuel n st (commas (vs.map (printEntry m)) ++ (.rsq :: rest)))
      (fun st' => Done m st' (vs.reverse ++ dn)) rest
  | [], _, _, _, h, _, _, _ => absurd rfl h
  | [v], n, st, dn, _, hn, hd, hv => by
    obtain ⟨n, rfl⟩ : ∃ m, n = m + 1 := ⟨n - 1, by simp at hn; omega⟩
    simp only [List.map_cons, List.map_nil, commas, parseEntries]
    rcases parseEntry_print (fuel := fuel) hm hl hd (hv v (by simp)) (.rsq :: rest) with ⟨st', a, b⟩ | ⟨hu, a⟩
    · exact .inl ⟨st', by rw [a]; rfl, b⟩
    · exact .inr ⟨hu, by rw [a]; rfl⟩
  | v :: w :: vs, n, st, dn, _, hn, hd, hv => by
    obtain ⟨n, rfl⟩ : ∃ m, n = m + 1 := ⟨n - 1, by simp at hn; omega⟩
    have hn' : (w :: vs).length ≤ n := by simpa using hn
    have e : commas ((v :: w :: vs).map (printEntry m)) ++ (.rsq :: rest) =
        printEntry m v ++ (.comma :: (commas ((w :: vs).map (printEntry m)) ++ (.rsq :: rest))) := by
      simp [commas]
    rw [e, parseEntries]
    rcases parseEntry_print (fuel := fuel) hm hl hd (hv v (by simp))
      (.comma :: (commas ((w :: vs).map (printEntry m)) ++ (.rsq :: rest))) with ⟨st', a, b⟩ | ⟨hu, a⟩
    · rw [a]
      simp only [bind, Except.bind]
      rcases parseEntries_print (fuel := fuel) hm hl rest (w :: vs) n st' (v :: dn) (by simp) hn' b
        (fun u hu => hv u (List.mem_cons_of_mem _ hu)) with ⟨st2, c, d⟩ | ⟨hu, c⟩
      · exact .inl ⟨st2, c, by simpa using d⟩
      · exact .inr ⟨hu, c⟩
    · exact .inr ⟨hu, by rw [a]; rfl⟩

end Marco.Serial
