import Verif.Spec.FunctionNames
import Verif.Lemmas.IdaJacobian

/-!
# Lemmas on the names of the functions
-/

namespace Marco.FnNames
open Marco Marco.Spec.FnNames

theorem mangled_injective {a b : String} (h : mangled a = mangled b) : a = b := by
  have h1 := congrArg String.toList h
  simp only [mangled, String.toList_append] at h1
  exact String.toList_inj.1 (List.append_cancel_left h1)

theorem reroot_prefix {old : List String} {new : String} {p : List String} (h : old <+: p) :
    reroot old new p = new :: p.drop old.length := by
  unfold reroot
  rw [if_pos (List.isPrefixOf_iff_prefix.2 h)]

theorem reroot_other {old : List String} {new : String} {p : List String} (h : ¬ old <+: p) : reroot old new p = p := by
  unfold reroot
  rw [if_neg (fun hh => h (List.isPrefixOf_iff_prefix.1 hh))]

theorem mem_topNames {m : Mod} {n : String} : n ∈ topNames m ↔ [n] ∈ symbols m := by
  unfold topNames symbols
  rw [List.mem_append, List.mem_append, List.mem_filterMap, List.mem_filterMap, List.mem_map]
  constructor
  · rintro (⟨p, hp, h⟩ | ⟨f, hf, h⟩)
    · left
      split at h
      · cases h
        exact hp
      · cases h
    · right
      split_ifs at h with hs
      cases h
      exact ⟨f, hf, by simp [List.isEmpty_iff.1 hs]⟩
  · rintro (h | ⟨f, hf, h⟩)
    · exact .inl ⟨[n], h, rfl⟩
    · right
      refine ⟨f, hf, ?_⟩
      cases hs : f.scope with
      | nil =>
        rw [hs] at h
        simpa using h
      | cons a l =>
        rw [hs] at h
        simp at h

/-- What holds of the module while the functions are moved. -/
structure Inv (m0 : Mod) (cm : List (Option Nat)) (m : Mod) : Prop where
  ids : m.fns.map Fn.id = m0.fns.map Fn.id
  idsOnce : (m.fns.map Fn.id).Nodup
  once : (symbols m).Nodup
  some_name : [] ∉ m.others
  heads : ∀ h t, h :: t ∈ symbols m → [h] ∈ symbols m
  len : m.calls.length = m0.calls.length
  calls : ∀ f ∈ m.fns, f.scope = [] → ∀ c : Nat, c < m0.calls.length → cm[c]? = some (some f.id) → m.calls[c]? = some [f.name]

theorem eq_of_id {m : Mod} (h : (m.fns.map Fn.id).Nodup) {f g : Fn} (hf : f ∈ m.fns) (hg : g ∈ m.fns) (e : f.id = g.id) :
    f = g := List.inj_on_of_nodup_map h hf hg e

theorem eq_of_path {m : Mod} (h : (symbols m).Nodup) {f g : Fn} (hf : f ∈ m.fns) (hg : g ∈ m.fns)
    (e : f.scope ++ [f.name] = g.scope ++ [g.name]) : f = g :=
  List.inj_on_of_nodup_map (List.nodup_append.1 h).2.1 hf hg e

theorem inv_init {m : Mod} (hv : Valid m) : Inv m (m.calls.map (resolve m)) m where
  ids := rfl
  idsOnce := hv.ids
  once := hv.once
  some_name := hv.some_name
  heads := fun h t hm => hv.enclosed _ hm [h] (by simp) ⟨t, rfl⟩
  len := rfl
  calls := by
    intro f hf hs c hc hr
    rw [List.getElem?_map, List.getElem?_eq_getElem hc] at hr
    simp only [Option.map_some, Option.some.injEq] at hr
    unfold resolve at hr
    obtain ⟨g, hg, hid⟩ := Option.map_eq_some_iff.1 hr
    have hgm := List.mem_of_find?_eq_some hg
    have hgp := List.find?_some hg
    have := eq_of_id hv.ids hgm hf hid
    subst this
    rw [List.getElem?_eq_getElem hc]
    have hp : g.path = m.calls[c] := by simpa using hgp
    rw [← hp, Fn.path, hs]
    rfl

/-- The symbols after a function is moved. -/
theorem symbols_move {m : Mod} (hids : (m.fns.map Fn.id).Nodup) (hn : (symbols m).Nodup) {f : Fn} (hf : f ∈ m.fns)
    (new : String) (cs : List (List String)) :
    symbols { fns := m.fns.map (moveFn f.path new f.id), others := m.others.map (reroot f.path new), calls := cs } =
      (symbols m).map (reroot f.path new) := by
  unfold symbols
  rw [List.map_append, List.map_map, List.map_map]
  congr 1
  apply List.map_congr_left
  intro g hg
  simp only [Function.comp]
  unfold moveFn
  split_ifs with hid
  · have := eq_of_id hids hg hf hid
    subst this
    rw [show g.scope ++ [g.name] = g.path from rfl, reroot_prefix List.prefix_rfl]
    simp
  · have hne : f.path ≠ g.scope ++ [g.name] := fun e => hid (congrArg Fn.id (eq_of_path hn hf hg e)).symm
    by_cases hp : f.path <+: g.scope
    · simp only
      rw [reroot_prefix hp, reroot_prefix (hp.trans (List.prefix_append _ _)), List.drop_append_of_le_length hp.length_le]
      rfl
    · have : ¬ f.path <+: g.scope ++ [g.name] := by
        intro h
        rcases List.prefix_concat_iff.1 h with h | h
        · exact hne h
        · exact hp h
      simp only
      rw [reroot_other hp, reroot_other this]

theorem inv_step {m0 m : Mod} {cm : List (Option Nat)} (hi : Inv m0 cm m) (id : Nat) : Inv m0 cm (unwrapStep cm m id) := by
  unfold unwrapStep
  cases hfind : m.fns.find? (fun f => decide (f.id = id)) with
  | none => exact hi
  | some f =>
    have hf := List.mem_of_find?_eq_some hfind
    have hfid : f.id = id := by simpa using List.find?_some hfind
    subst hfid
    dsimp only
    split_ifs with hs
    · exact hi
    · have hne : f.scope ≠ [] := fun h => hs (by simp [h])
      have hlen : 2 ≤ f.path.length := by
        unfold Fn.path
        have := List.length_pos_iff.2 hne
        simp
        omega
      set new := IdaJac.insertName (topNames m) (joined f) with hnew
      have hfresh : [new] ∉ symbols m := fun h => IdaJac.insertName_fresh _ _ (mem_topNames.2 h)
      have hsym := fun cs => symbols_move hi.idsOnce hi.once hf new cs
      have hids : (m.fns.map (moveFn f.path new f.id)).map Fn.id = m.fns.map Fn.id := by
        rw [List.map_map]
        apply List.map_congr_left
        intro g _
        simp only [Function.comp]
        unfold moveFn
        split_ifs <;> rfl
      refine ⟨hids.trans hi.ids, ?_, ?_, ?_, ?_, ?_, ?_⟩
      · show ((m.fns.map (moveFn f.path new f.id)).map Fn.id).Nodup
        rw [hids]
        exact hi.idsOnce
      · rw [hsym]
        refine (List.nodup_map_iff_inj_on hi.once).2 ?_
        intro p hp q hq e
        by_cases h1 : f.path <+: p <;> by_cases h2 : f.path <+: q
        · rw [reroot_prefix h1, reroot_prefix h2] at e
          obtain ⟨a, rfl⟩ := h1
          obtain ⟨b, rfl⟩ := h2
          simp only [List.drop_left, List.cons.injEq, true_and] at e
          rw [e]
        · rw [reroot_prefix h1, reroot_other h2] at e
          subst e
          exact absurd (hi.heads _ _ hq) hfresh
        · rw [reroot_other h1, reroot_prefix h2] at e
          subst e
          exact absurd (hi.heads _ _ hp) hfresh
        · rwa [reroot_other h1, reroot_other h2] at e
      · intro h
        obtain ⟨p, hp, e⟩ := List.mem_map.1 h
        by_cases h1 : f.path <+: p
        · rw [reroot_prefix h1] at e
          cases e
        · rw [reroot_other h1] at e
          subst e
          exact hi.some_name hp
      · intro h t hm
        rw [hsym] at hm ⊢
        obtain ⟨p, hp, e⟩ := List.mem_map.1 hm
        by_cases h1 : f.path <+: p
        · rw [reroot_prefix h1] at e
          cases e
          refine List.mem_map.2 ⟨f.path, List.mem_append_right _ (List.mem_map.2 ⟨f, hf, rfl⟩), ?_⟩
          rw [reroot_prefix List.prefix_rfl]
          simp
        · rw [reroot_other h1] at e
          subst e
          refine List.mem_map.2 ⟨[h], hi.heads _ _ hp, ?_⟩
          rw [reroot_other]
          intro hh
          have := hh.length_le
          simp at this
          omega
      · simp [hi.len]
      · intro g' hg' hsc c hc hcm
        obtain ⟨g, hg, rfl⟩ := List.mem_map.1 hg'
        have hc' : c < m.calls.length := by rw [hi.len]; exact hc
        show (m.calls.zipIdx.map fun (p, c) => if cm[c]? = some (some f.id) then [new] else p)[c]? = _
        rw [List.getElem?_map, List.getElem?_zipIdx, List.getElem?_eq_getElem hc']
        simp only [Option.map_some, Nat.zero_add]
        unfold moveFn at hsc hcm ⊢
        split_ifs at hsc hcm ⊢ with h1 h2
        · rfl
        · simp only at hcm
          rw [hcm] at h1
          simp only [Option.some.injEq] at h1
          exact absurd h1 h2
        · rename_i h2
          simp only at hcm
          rw [h2] at hcm
          exact absurd hcm h1
        · simp only at hsc hcm ⊢
          have : g.scope = [] := by
            by_cases hp : f.path <+: g.scope
            · rw [reroot_prefix hp] at hsc
              cases hsc
            · rwa [reroot_other hp] at hsc
          have := hi.calls g hg this c hc hcm
          rwa [List.getElem?_eq_getElem hc'] at this

/-- A function in the module stays there, and so does one that was moved. -/
theorem step_top {cm : List (Option Nat)} {m : Mod} (hids : (m.fns.map Fn.id).Nodup) (id : Nat) {g' : Fn}
    (hg' : g' ∈ (unwrapStep cm m id).fns) : (g'.id = id → g'.scope = []) ∧ ∃ g ∈ m.fns, g.id = g'.id ∧
      (g.scope = [] → g' = g) := by
  unfold unwrapStep at hg'
  cases hfind : m.fns.find? (fun f => decide (f.id = id)) with
  | none =>
    rw [hfind] at hg'
    refine ⟨fun e => ?_, g', hg', rfl, fun _ => rfl⟩
    have := List.find?_eq_none.1 hfind g' hg'
    simp [e] at this
  | some f =>
    rw [hfind] at hg'
    have hf := List.mem_of_find?_eq_some hfind
    have hfid : f.id = id := by simpa using List.find?_some hfind
    subst hfid
    dsimp only at hg'
    split_ifs at hg' with hs
    · refine ⟨fun e => ?_, g', hg', rfl, fun _ => rfl⟩
      have := eq_of_id hids hg' hf e
      subst this
      simpa using hs
    · obtain ⟨g, hg, rfl⟩ := List.mem_map.1 hg'
      have hne : f.scope ≠ [] := fun h => hs (by simp [h])
      unfold moveFn
      split_ifs with h1
      · refine ⟨fun _ => rfl, g, hg, rfl, fun e => ?_⟩
        have := eq_of_id hids hg hf h1
        subst this
        exact absurd e hne
      · refine ⟨fun e => absurd e h1, g, hg, rfl, fun e => ?_⟩
        have : reroot f.path (IdaJac.insertName (topNames m) (joined f)) g.scope = g.scope := by
          apply reroot_other
          rw [e]
          intro hp
          have := hp.length_le
          simp [Fn.path] at this
        cases g
        simp only at this ⊢
        rw [this]

theorem inv_fold {m0 : Mod} {cm : List (Option Nat)} : ∀ (order : List Nat) (m : Mod), Inv m0 cm m →
    Inv m0 cm (order.foldl (unwrapStep cm) m) ∧
      (∀ g' ∈ (order.foldl (unwrapStep cm) m).fns, (g'.id ∈ order → g'.scope = []) ∧ ∃ g ∈ m.fns, g.id = g'.id ∧
        (g.scope = [] → g' = g))
  | [], m, hi => ⟨hi, fun g' hg' => ⟨fun h => by simp at h, g', hg', rfl, fun _ => rfl⟩⟩
  | id :: rest, m, hi => by
    have hi' := inv_step hi id
    obtain ⟨h1, h2⟩ := inv_fold rest _ hi'
    refine ⟨h1, fun g' hg' => ?_⟩
    obtain ⟨a, g1, hg1, e1, k1⟩ := h2 g' hg'
    obtain ⟨b, g, hg, e, k⟩ := step_top hi.idsOnce id hg1
    refine ⟨fun hm => ?_, g, hg, e.trans e1, fun hs => ?_⟩
    · rcases List.mem_cons.1 hm with h | h
      · have hs1 := b (e1.trans h)
        rw [k1 hs1]
        exact hs1
      · exact a h
    · have := k hs
      subst this
      exact k1 hs

end Marco.FnNames
