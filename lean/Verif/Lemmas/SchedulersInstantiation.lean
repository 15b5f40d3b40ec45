import Verif.Spec.SchedulersInstantiation
import Verif.Spec.Sets
import Mathlib.Data.List.Basic

/-!
# Lemmas on the instantiation of the schedulers
-/

namespace Marco.SchedInst
open Spec.SchedInst
variable {O : Type}

theorem execBegin_append (l l' : List (BeginOp O)) : ∀ t, execBegin t (l ++ l') = (execBegin t l).bind (execBegin · l') := by
  induction l with
  | nil => intro t; rfl
  | cons x l ih =>
    intro t
    cases x with
    | create s => simp only [List.cons_append, execBegin]; split <;> simp [ih]
    | add s f is b => simp only [List.cons_append, execBegin]; split <;> simp [ih]
    | other o => simp only [List.cons_append, execBegin]; exact ih t

theorem mapM_some_append {α β : Type} {f : α → Option β} : ∀ {l l' : List α} {r r' : List β},
    l.mapM f = some r → l'.mapM f = some r' → (l ++ l').mapM f = some (r ++ r') := by
  intro l
  induction l with
  | nil => intro l' r r' h h'; simp at h; subst h; simpa using h'
  | cons x l ih =>
    intro l' r r' h h'
    simp only [List.cons_append, List.mapM_cons] at h ⊢
    cases hx : f x with
    | none => simp [hx] at h
    | some y =>
      simp only [hx, Option.bind_eq_bind, Option.bind_some] at h ⊢
      cases hl : l.mapM f with
      | none => simp [hl] at h
      | some ys =>
        simp only [hl, Option.bind_some] at h
        cases h
        rw [ih hl h']
        simp

theorem mapM_mono {α β : Type} {f g : α → Option β} : ∀ {l : List α} {r : List β},
    (∀ x ∈ l, ∀ y, f x = some y → g x = some y) → l.mapM f = some r → l.mapM g = some r := by
  intro l
  induction l with
  | nil => intro r _ h; simpa using h
  | cons x l ih =>
    intro r hfg h
    simp only [List.mapM_cons] at h ⊢
    cases hx : f x with
    | none => simp [hx] at h
    | some y =>
      simp only [hx, Option.bind_eq_bind, Option.bind_some] at h
      rw [hfg x (by simp) y hx]
      cases hl : l.mapM f with
      | none => simp [hl] at h
      | some ys =>
        simp only [hl, Option.bind_some] at h
        rw [ih (fun z hz => hfg z (by simp [hz])) hl]
        exact h

theorem find_append {α : Type} {p : α → Bool} {l l' : List α} {x : α} (h : l.find? p = some x) :
    (l ++ l').find? p = some x := by
  simp [List.find?_append, h]

theorem entry_mono {ws ws' : List Wrapper} {e : Entry} {v : Event O} (h : entryEvents ws e = some v) :
    entryEvents (ws ++ ws') e = some v := by
  unfold entryEvents at h ⊢
  cases hf : ws.find? (·.name == e.function) with
  | none => simp [hf] at h
  | some w => rw [find_append hf]; simpa [hf] using h

theorem run_mono {ws ws' : List Wrapper} {t t' : Table} {s : String} {v : List (Event O)}
    (h : runEvents ws t s = some v) : runEvents (ws ++ ws') (t ++ t') s = some v := by
  unfold runEvents at h ⊢
  cases hf : t.find? (·.1 == s) with
  | none => simp [hf] at h
  | some x =>
    rw [find_append hf]
    simp only [hf, Option.bind_eq_bind, Option.bind_some] at h ⊢
    exact mapM_mono (fun _ _ _ h => entry_mono h) h

theorem op_mono {ws ws' : List Wrapper} {t t' : Table} {o : Op O} {v : List (Event O)} (h : opEvents ws t o = some v) :
    opEvents (ws ++ ws') (t ++ t') o = some v := by
  cases o with
  | call c => exact h
  | run s => exact run_mono h
  | other o => exact h

theorem block_mono {ws ws' : List Wrapper} {t t' : Table} {b : Block O} {v : List (Event O)}
    (h : blockEvents ws t b = some v) : blockEvents (ws ++ ws') (t ++ t') b = some v := by
  unfold blockEvents at h ⊢
  cases hb : b.body.mapM (opEvents ws t) with
  | none => simp [hb] at h
  | some r => rw [mapM_mono (fun _ _ _ h => op_mono h) hb]; simpa [hb] using h

theorem groupOp_mono {ws ws' : List Wrapper} {t t' : Table} {o : GroupOp O} {v : List (Event O)}
    (h : groupOpEvents ws t o = some v) : groupOpEvents (ws ++ ws') (t ++ t') o = some v := by
  cases o with
  | block b => exact block_mono h
  | other o => exact h

theorem regionOp_mono {ws ws' : List Wrapper} {t t' : Table} {o : RegionOp O} {v : List (Event O)}
    (h : regionOpEvents ws t o = some v) : regionOpEvents (ws ++ ws') (t ++ t') o = some v := by
  cases o with
  | group g =>
    simp only [regionOpEvents] at h ⊢
    cases hb : g.mapM (groupOpEvents ws t) with
    | none => simp [hb] at h
    | some r => rw [mapM_mono (fun _ _ _ h => groupOp_mono h) hb]; simpa [hb] using h
  | block b => exact block_mono h
  | other o => exact h

theorem region_mono {ws ws' : List Wrapper} {t t' : Table} {l : List (RegionOp O)} {v : List (List (Event O))}
    (h : regionEvents ws t l = some v) : regionEvents (ws ++ ws') (t ++ t') l = some v :=
  mapM_mono (fun _ _ _ h => regionOp_mono h) h

/-- The names destroyed. -/
def destroyed (l : List (EndOp O)) : List String :=
  l.filterMap fun
    | .destroy s => some s
    | .other _ => none

theorem execEnd_all : ∀ (l : List (EndOp O)), execEnd (destroyed l) l = some [] := by
  intro l
  induction l with
  | nil => rfl
  | cons x l ih =>
    cases x with
    | destroy s => simp [destroyed, execEnd] at ih ⊢; exact ih
    | other o => simpa [destroyed, execEnd] using ih

/-- What holds of the module while the pass runs: the schedulers created are the ones of the table. -/
structure Good (m : Module O) (t : Phase → Table) : Prop where
  exec : ∀ p, execBegin [] (m.begins p).flatten = some (t p)
  keys : ∀ p, ∀ k ∈ (t p).map (·.1), k ∈ m.symbols
  names : ∀ w ∈ m.wrappers, w.name ∈ m.symbols
  ends : ∀ p, destroyed (m.ends p).flatten = (t p).map (·.1)

/-- How the module grows. -/
structure Ext (m : Module O) (t : Phase → Table) (m' : Module O) (t' : Phase → Table) : Prop where
  wrappers : ∃ ws, m'.wrappers = m.wrappers ++ ws
  tables : ∀ p, ∃ u, t' p = t p ++ u
  functions : m'.functions = m.functions

theorem Ext.refl (m : Module O) (t : Phase → Table) : Ext m t m t :=
  ⟨⟨[], by simp⟩, fun _ => ⟨[], by simp⟩, rfl⟩

theorem Ext.trans {m m' m'' : Module O} {t t' t'' : Phase → Table} (h : Ext m t m' t') (h' : Ext m' t' m'' t'') :
    Ext m t m'' t'' := by
  obtain ⟨⟨a, ha⟩, b, c⟩ := h
  obtain ⟨⟨a', ha'⟩, b', c'⟩ := h'
  refine ⟨⟨a ++ a', by rw [ha', ha, List.append_assoc]⟩, fun p => ?_, c'.trans c⟩
  obtain ⟨u, hu⟩ := b p
  obtain ⟨u', hu'⟩ := b' p
  exact ⟨u ++ u', by rw [hu', hu, List.append_assoc]⟩

theorem Ext.region {m m' : Module O} {t t' : Phase → Table} (h : Ext m t m' t') {p : Phase} {l : List (RegionOp O)}
    {v : List (List (Event O))} (hv : regionEvents m.wrappers (t p) l = some v) :
    regionEvents m'.wrappers (t' p) l = some v := by
  obtain ⟨⟨a, ha⟩, b, -⟩ := h
  obtain ⟨u, hu⟩ := b p
  rw [ha, hu]
  exact region_mono hv

theorem length_bounds : ∀ b : Box, (bounds b).length = 2 * b.length := by
  intro b
  induction b with
  | nil => rfl
  | cons r b ih => simp [bounds] at ih ⊢; omega

theorem entries_ok {ws : List Wrapper} {n : String} {c : Call}
    (hn : ws.find? (·.name == n) = some ⟨n, rank c.indices * 2, c.callee⟩)
    (hr : ∀ b ∈ c.indices, b.length = rank c.indices) :
    (entries n c.indices c.parallelizable).mapM (entryEvents ws) = some (callEvents (O := O) c) := by
  have main : ∀ (k : Nat) (l : List Box), k = rank c.indices → (∀ b ∈ l, b.length = k) →
      (l.map fun b => (⟨n, k, bounds b, c.parallelizable⟩ : Entry)).mapM (entryEvents ws) =
        some (l.map fun b => Event.call (O := O) c.callee (bounds b) c.parallelizable) := by
    intro k l hk
    induction l with
    | nil => intro _; rfl
    | cons b l ih =>
      intro h
      have hb : (bounds b).length = 2 * k := by rw [length_bounds, h b (by simp)]
      have he : entryEvents (O := O) ws ⟨n, k, bounds b, c.parallelizable⟩ = some (.call c.callee (bounds b) c.parallelizable) := by
        unfold entryEvents
        rw [hn]
        have h1 : (bounds b).take (2 * k) = bounds b := List.take_of_length_le (by omega)
        have h2 : (bounds b).take (rank c.indices * 2) = bounds b := List.take_of_length_le (by omega)
        simp only [Option.bind_eq_bind, Option.bind_some, h1, h2]
        rw [if_pos ⟨hb, by omega⟩]
      simp only [List.map_cons, List.mapM_cons, he, ih fun b hb => h b (by simp [hb])]
      rfl
  unfold entries callEvents
  cases hc : c.indices with
  | nil =>
    rw [hc] at hn
    simp only [List.isEmpty_nil, if_true]
    have he : entryEvents (O := O) ws ⟨n, rank [], [], c.parallelizable⟩ = some (.call c.callee [] c.parallelizable) := by
      unfold entryEvents
      rw [hn]
      simp [rank]
    simp [he]
  | cons b l =>
    simp only [List.isEmpty_cons, Bool.false_eq_true, if_false]
    rw [← hc]
    exact main _ _ rfl hr

theorem exec_add {s : String} {t : Table} (hs : s ∉ t.map (·.1)) (es es' : List Entry) :
    ((t ++ [(s, es)]).map fun x => if x.1 = s then (x.1, x.2 ++ es') else x) = t ++ [(s, es ++ es')] := by
  have : (t.map fun x => if x.1 = s then (x.1, x.2 ++ es') else x) = t := by
    conv => rhs; rw [← List.map_id t]
    refine List.map_congr_left fun x hx => ?_
    have : x.1 ≠ s := fun h => hs (h ▸ List.mem_map_of_mem hx)
    simp [this]
  simp [this]

theorem addCalls_ok {fresh : List String → String → String} (hf : ∀ l n, fresh l n ∉ l) {s : String} :
    ∀ (cs : List Call) (m : Module O), (∀ w ∈ m.wrappers, w.name ∈ m.symbols) →
      (∀ c ∈ cs, c.callee ∈ m.functions ∧ ∀ b ∈ c.indices, b.length = rank c.indices) →
      ∃ m' l ws ss es, addCalls fresh s m cs = some (m', l) ∧ m' = { m with symbols := m.symbols ++ ss, wrappers := m.wrappers ++ ws } ∧
        (∀ w ∈ m'.wrappers, w.name ∈ m'.symbols) ∧
        (∀ (t : Table) es0, s ∉ t.map (·.1) → execBegin (t ++ [(s, es0)]) l = some (t ++ [(s, es0 ++ es)])) ∧
        es.mapM (entryEvents m'.wrappers) = some (cs.flatMap (callEvents (O := O))) := by
  intro cs
  induction cs with
  | nil =>
    intro m hw _
    exact ⟨m, [], [], [], [], rfl, by simp, hw, fun t es0 _ => by simp [execBegin], rfl⟩
  | cons c cs ih =>
    intro m hw hc
    obtain ⟨hcall, hrank⟩ := hc c (by simp)
    generalize hn : fresh m.symbols (c.callee ++ "_wrapper") = n
    have hnew : n ∉ m.symbols := hn ▸ hf _ _
    have hw1 : ∀ w ∈ m.wrappers ++ [⟨n, rank c.indices * 2, c.callee⟩], w.name ∈ m.symbols ++ [n] := by
      intro w hw'
      rcases List.mem_append.1 hw' with h | h
      · exact List.mem_append_left _ (hw w h)
      · simp at h; subst h; simp
    obtain ⟨m', l, ws, ss, es, h1, h2, h3, h4, h5⟩ :=
      ih { m with symbols := m.symbols ++ [n], wrappers := m.wrappers ++ [⟨n, rank c.indices * 2, c.callee⟩] } hw1
        (fun c' hc' => hc c' (by simp [hc']))
    refine ⟨m', .add s n c.indices c.parallelizable :: l, ⟨n, rank c.indices * 2, c.callee⟩ :: ws, n :: ss,
      entries n c.indices c.parallelizable ++ es, ?_, ?_, h3, ?_, ?_⟩
    · simp only [addCalls, createWrapper, hn, hcall, if_true, Option.bind_eq_bind, Option.bind_some, h1]
      rfl
    · rw [h2]; simp
    · intro t es0 hs
      simp only [execBegin]
      rw [if_pos (by simp), exec_add hs, h4 t _ hs, List.append_assoc]
    · have hfind : m'.wrappers.find? (·.name == n) = some ⟨n, rank c.indices * 2, c.callee⟩ := by
        rw [h2]
        refine find_append ?_
        rw [List.find?_append]
        have : m.wrappers.find? (·.name == n) = none := by
          rw [List.find?_eq_none]
          intro w hw' h
          simp only [beq_iff_eq] at h
          exact hnew (h ▸ hw w hw')
        simp [this]
      rw [List.flatMap_cons]
      exact mapM_some_append (entries_ok hfind hrank) h5

/-- The operation was there before the pass. -/
def InputOp (m : Module O) (x : Op O) : Prop :=
  match x with
  | .run _ => False
  | .call c => c.callee ∈ m.functions ∧ ∀ b ∈ c.indices, b.length = rank c.indices
  | .other _ => True

theorem op_input {m : Module O} {x : Op O} (hx : InputOp m x) (ws : List Wrapper) (t : Table) :
    ∃ v, opEvents ws t x = some v ∧ opEvents [] [] x = some v := by
  cases x with
  | call c => exact ⟨_, rfl, rfl⟩
  | run s => exact hx.elim
  | other o => exact ⟨_, rfl, rfl⟩

theorem mapM_both {α β : Type} {f g : α → Option β} : ∀ (l : List α), (∀ x ∈ l, ∃ v, f x = some v ∧ g x = some v) →
    ∃ r, l.mapM f = some r ∧ l.mapM g = some r := by
  intro l
  induction l with
  | nil => intro _; exact ⟨[], rfl, rfl⟩
  | cons x l ih =>
    intro h
    obtain ⟨v, h1, h2⟩ := h x (by simp)
    obtain ⟨r, h3, h4⟩ := ih fun y hy => h y (by simp [hy])
    exact ⟨v :: r, by simp [h1, h3], by simp [h2, h4]⟩

theorem block_input {m : Module O} {b : Block O} (hb : ∀ x ∈ b.body, InputOp m x) (ws : List Wrapper) (t : Table) :
    ∃ v, blockEvents ws t b = some v ∧ blockEvents [] [] b = some v := by
  obtain ⟨r, h1, h2⟩ := mapM_both (f := opEvents ws t) (g := opEvents [] []) b.body fun x hx => op_input (hb x hx) ws t
  exact ⟨r.flatten, by simp [blockEvents, h1], by simp [blockEvents, h2]⟩

theorem groupOp_input {m : Module O} {o : GroupOp O} (hb : ∀ b, o = .block b → ∀ x ∈ b.body, InputOp m x)
    (ws : List Wrapper) (t : Table) :
    ∃ v, groupOpEvents ws t o = some v ∧ groupOpEvents [] [] o = some v := by
  cases o with
  | block b => exact block_input (hb b rfl) ws t
  | other o => exact ⟨_, rfl, rfl⟩

/-- The events of a group: those of the blocks that stay and those of the calls moved. -/
theorem group_split {m : Module O} (ws : List Wrapper) (t : Table) : ∀ (g : List (GroupOp O)),
    (∀ b, .block b ∈ g → ∀ x ∈ b.body, InputOp m x) →
    ∃ r r', g.mapM (groupOpEvents [] []) = some r ∧
      (g.filter (fun o => !isMoved o)).mapM (groupOpEvents ws t) = some r' ∧
      (r'.flatten ++ ((collect g).flatMap fun (b : Block O) => calls b.body).flatMap callEvents).Perm r.flatten := by
  intro g
  induction g with
  | nil => intro _; exact ⟨[], [], rfl, rfl, by simp [collect]⟩
  | cons o g ih =>
    intro h
    obtain ⟨r, r', h1, h2, h3⟩ := ih fun b hb => h b (by simp [hb])
    obtain ⟨v, hv, hv'⟩ := groupOp_input (m := m) (o := o) (fun b hb => h b (by simp [hb])) ws t
    by_cases hm : isMoved o = true
    · cases o with
      | other o => simp [isMoved] at hm
      | block b =>
        have hb : ∃ c, b.body = [.call c] := by
          simp only [isMoved] at hm
          split at hm
          · rename_i c hc; exact ⟨c, hc⟩
          · simp at hm
        obtain ⟨c, hc⟩ := hb
        have hve : v = callEvents c := by
          simp [groupOpEvents, blockEvents, hc, opEvents] at hv'
          exact hv'.symm
        refine ⟨v :: r, r', by simp [hv', h1], by simpa [hm] using h2, ?_⟩
        have : collect (.block b :: g) = b :: collect g := by simp [collect, hm]
        rw [this]
        simp only [List.flatMap_cons, List.flatten_cons]
        rw [hve]
        have hcc : calls b.body = [c] := by simp [calls, hc]
        rw [hcc]
        simp only [List.cons_append, List.nil_append, List.flatMap_cons]
        refine List.Perm.trans ?_ (h3.append_left _)
        exact List.perm_append_comm_assoc _ _ _
    · have hm' : isMoved o = false := by simpa using hm
      refine ⟨v :: r, v :: r', by simp [hv', h1], by simp [hm', hv, h2], ?_⟩
      have : collect (o :: g) = collect g := by
        cases o with
        | other o => simp [collect]
        | block b => simp [collect, hm']
      rw [this]
      simp only [List.flatten_cons, List.append_assoc]
      exact h3.append_left _

theorem mem_collect {g : List (GroupOp O)} {b : Block O} (h : b ∈ collect g) : .block b ∈ g := by
  simp only [collect, List.mem_filterMap] at h
  obtain ⟨o, ho, h⟩ := h
  cases o with
  | other o => simp at h
  | block b' =>
    simp only at h
    split at h
    · simp at h; exact h ▸ ho
    · simp at h

theorem mem_calls {l : List (Op O)} {c : Call} (h : c ∈ calls l) : .call c ∈ l := by
  simp only [calls, List.mem_filterMap] at h
  obtain ⟨o, ho, h⟩ := h
  cases o with
  | call c' => simp at h; exact h ▸ ho
  | run s => simp at h
  | other o => simp at h

theorem group_ok {fresh : List String → String → String} (hf : ∀ l n, fresh l n ∉ l) (sort : List Var → List Var)
    (base : String) (p : Phase) {m : Module O} {t : Phase → Table} (hg : Good m t) {g : List (GroupOp O)}
    (hin : ∀ b, .block b ∈ g → ∀ x ∈ b.body, InputOp m x) :
    ∃ m' g' t' r r', processGroup fresh sort base p m g = some (m', g') ∧ Good m' t' ∧ Ext m t m' t' ∧
      g.mapM (groupOpEvents [] []) = some r ∧ g'.mapM (groupOpEvents m'.wrappers (t' p)) = some r' ∧
      r.flatten.Perm r'.flatten := by
  by_cases hskip : ((collect g).length == 1 && (collect g).all hasSingleScalarEquationCall) = true
  · obtain ⟨r, h1, h2⟩ := mapM_both (f := groupOpEvents m.wrappers (t p)) (g := groupOpEvents [] []) g
      fun o ho => groupOp_input (m := m) (fun b hb => hin b (hb ▸ ho)) _ _
    refine ⟨m, g, t, r, r, ?_, hg, Ext.refl m t, h2, h1, List.Perm.refl _⟩
    unfold processGroup
    simp only
    rw [if_pos hskip]
  · generalize hs : fresh m.symbols base = s
    have hnew : s ∉ m.symbols := hs ▸ hf _ _
    obtain ⟨m1, l, ws, ss, es, h1, h2, h3, h4, h5⟩ :=
      addCalls_ok (O := O) hf (s := s) ((collect g).flatMap fun (b : Block O) => calls b.body) { m with symbols := m.symbols ++ [s] }
        (fun w hw => List.mem_append_left _ (hg.names w hw))
        (fun c hc => by
          obtain ⟨b, hb, hc⟩ := List.mem_flatMap.1 hc
          exact hin b (mem_collect hb) _ (mem_calls hc))
    have hsk : ∀ q, s ∉ (t q).map (·.1) := fun q h => hnew (hg.keys q s h)
    let t' : Phase → Table := fun q => if q = p then t q ++ [(s, es)] else t q
    let m' : Module O := destroyScheduler (createBegin m1 p (.create s :: l)) s p
    have hm'w : m'.wrappers = m.wrappers ++ ws := by simp [m', destroyScheduler, createEnd, createBegin, h2]
    have hm's : m'.symbols = m.symbols ++ [s] ++ ss := by simp [m', destroyScheduler, createEnd, createBegin, h2]
    have hm'b : ∀ q, m'.begins q = if q = p then m.begins q ++ [.create s :: l] else m.begins q := by
      intro q; simp [m', destroyScheduler, createEnd, createBegin, h2]
    have hm'e : ∀ q, m'.ends q = if q = p then m.ends q ++ [[.destroy s]] else m.ends q := by
      intro q; simp [m', destroyScheduler, createEnd, createBegin, h2]
    have hm1w : m1.wrappers = m.wrappers ++ ws := by rw [h2]
    have hm1s : m1.symbols = m.symbols ++ [s] ++ ss := by rw [h2]
    have hgood : Good m' t' := by
      refine ⟨fun q => ?_, fun q k hk => ?_, fun w hw => ?_, fun q => ?_⟩
      · rw [hm'b]
        by_cases hq : q = p
        · simp only [hq, if_true, List.flatten_append, execBegin_append, t']
          rw [hg.exec p]
          simp only [Option.bind_some, List.flatten_cons, List.flatten_nil, List.append_nil, execBegin]
          rw [if_neg (hsk p), h4 (t p) [] (hsk p)]
          rfl
        · simp only [hq, if_false, t']; exact hg.exec q
      · rw [hm's]
        by_cases hq : q = p
        · simp only [t', hq, if_true, List.map_append, List.mem_append] at hk
          rcases hk with hk | hk
          · exact List.mem_append_left _ (List.mem_append_left _ (hg.keys p k hk))
          · simp at hk; simp [hk]
        · simp only [t', hq, if_false] at hk
          exact List.mem_append_left _ (List.mem_append_left _ (hg.keys q k hk))
      · rw [hm's]; rw [hm'w] at hw
        have := h3 w (by rw [hm1w]; exact hw)
        rwa [hm1s] at this
      · rw [hm'e]
        by_cases hq : q = p
        · have := hg.ends p
          simp only [destroyed] at this ⊢
          simp [hq, t', this]
        · simp only [hq, if_false, t']; exact hg.ends q
    obtain ⟨r, r', hr, hr', hperm⟩ := group_split (m := m) m'.wrappers (t' p) g hin
    have hrun : runEvents (O := O) m'.wrappers (t' p) s =
        some (((collect g).flatMap fun (b : Block O) => calls b.body).flatMap callEvents) := by
      unfold runEvents
      have : (t' p).find? (·.1 == s) = some (s, es) := by
        have hnone : (t p).find? (·.1 == s) = none := by
          rw [List.find?_eq_none]
          intro x hx h
          simp only [beq_iff_eq] at h
          exact hsk p (h ▸ List.mem_map_of_mem hx)
        simp only [t', if_true]
        rw [List.find?_append, hnone]
        simp
      rw [this]
      simp only [Option.bind_eq_bind, Option.bind_some]
      rw [hm'w, ← hm1w]
      exact h5
    let vars := mergeVariableAccesses sort (collect g)
    refine ⟨m', g.filter (fun o => !isMoved o) ++ [.block ⟨false, vars.1, vars.2, [.run s]⟩], t', r,
      r' ++ [((collect g).flatMap fun (b : Block O) => calls b.body).flatMap callEvents], ?_, hgood, ⟨⟨ws, hm'w⟩, fun q => ?_, ?_⟩, hr, ?_, ?_⟩
    · unfold processGroup
      simp only
      rw [if_neg hskip]
      simp only [declareScheduler, configureScheduler, hs, h1, Option.bind_eq_bind, Option.bind_some]
      rfl
    · by_cases hq : q = p
      · exact ⟨[(s, es)], by simp [t', hq]⟩
      · exact ⟨[], by simp [t', hq]⟩
    · simp [m', destroyScheduler, createEnd, createBegin, h2]
    · refine mapM_some_append hr' ?_
      simp [groupOpEvents, blockEvents, opEvents, hrun]
    · rw [List.flatten_append]
      simpa using hperm.symm

/-- What the pass does to an operation of a region. -/
def Rop (m : Module O) (t : Phase → Table) (p : Phase) (o o' : RegionOp O) : Prop :=
  ∃ v v', regionOpEvents [] [] o = some v ∧ regionOpEvents m.wrappers (t p) o' = some v' ∧ v.Perm v'

theorem Rop.mono {m m' : Module O} {t t' : Phase → Table} (he : Ext m t m' t') {p : Phase} {o o' : RegionOp O}
    (h : Rop m t p o o') : Rop m' t' p o o' := by
  obtain ⟨v, v', h1, h2, h3⟩ := h
  obtain ⟨⟨a, ha⟩, b, -⟩ := he
  obtain ⟨u, hu⟩ := b p
  exact ⟨v, v', h1, by rw [ha, hu]; exact regionOp_mono h2, h3⟩

theorem forall₂_mono {α β : Type} {R S : α → β → Prop} {l : List α} {l' : List β} (h : ∀ a b, R a b → S a b)
    (hr : List.Forall₂ R l l') : List.Forall₂ S l l' := hr.imp h

/-- A loop over a list, whose elements are related to those of another list. -/
theorem mapState_ok {α β γ : Type} {P : Module O → (Phase → Table) → α → β → Prop}
    {Q : Module O → (Phase → Table) → α → γ → Prop} {f : Module O → β → Option (Module O × γ)}
    (hP : ∀ m t m' t' a b, Ext m t m' t' → P m t a b → P m' t' a b)
    (hQ : ∀ m t m' t' a b, Ext m t m' t' → Q m t a b → Q m' t' a b)
    (hf : ∀ m t a b, Good m t → P m t a b → ∃ m' t' c, f m b = some (m', c) ∧ Good m' t' ∧ Ext m t m' t' ∧ Q m' t' a c) :
    ∀ (l : List α) (l' : List β) (m : Module O) (t : Phase → Table), Good m t → List.Forall₂ (P m t) l l' →
      ∃ m' t' l'', mapState f m l' = some (m', l'') ∧ Good m' t' ∧ Ext m t m' t' ∧ List.Forall₂ (Q m' t') l l'' := by
  intro l
  induction l with
  | nil =>
    intro l' m t hg h
    cases h
    exact ⟨m, t, [], rfl, hg, Ext.refl m t, .nil⟩
  | cons a l ih =>
    intro l' m t hg h
    cases h with
    | cons hab h =>
      rename_i b l'
      obtain ⟨m1, t1, c, h1, hg1, he1, hq⟩ := hf m t a b hg hab
      obtain ⟨m2, t2, cs, h2, hg2, he2, hqs⟩ := ih l' m1 t1 hg1 (h.imp fun x y => hP _ _ _ _ _ _ he1)
      exact ⟨m2, t2, c :: cs, by simp [mapState, h1, h2], hg2, he1.trans he2, .cons (hQ _ _ _ _ _ _ he2 hq) hqs⟩

/-- An operation of a region before the pass. -/
def InputReg (m : Module O) (o : RegionOp O) : Prop := ∀ x ∈ opsOf o, InputOp m x

theorem InputOp.mono {m m' : Module O} {t t' : Phase → Table} (he : Ext m t m' t') {x : Op O} (h : InputOp m x) :
    InputOp m' x := by
  cases x with
  | call c => exact ⟨he.functions ▸ h.1, h.2⟩
  | run s => exact h
  | other o => exact h

theorem regionOp_ok {fresh : List String → String → String} (hf : ∀ l n, fresh l n ∉ l) (sort : List Var → List Var)
    (base : String) (p : Phase) {m : Module O} {t : Phase → Table} (hg : Good m t) {o : RegionOp O} (hin : InputReg m o) :
    ∃ m' t' o', processRegionOp fresh sort base p m o = some (m', o') ∧ Good m' t' ∧ Ext m t m' t' ∧ Rop m' t' p o o' := by
  cases o with
  | group g =>
    obtain ⟨m', g', t', r, r', h1, h2, h3, h4, h5, h6⟩ := group_ok hf sort base p hg (g := g) (fun b hb x hx =>
      hin x (by simp only [opsOf, List.mem_flatMap]; exact ⟨_, hb, hx⟩))
    exact ⟨m', t', .group g', by simp [processRegionOp, h1], h2, h3, r.flatten, r'.flatten, by simp [regionOpEvents, h4],
      by simp [regionOpEvents, h5], h6⟩
  | block b =>
    obtain ⟨v, h1, h2⟩ := block_input (m := m) (b := b) (fun x hx => hin x hx) m.wrappers (t p)
    exact ⟨m, t, .block b, rfl, hg, Ext.refl m t, v, v, h2, h1, List.Perm.refl _⟩
  | other o => exact ⟨m, t, .other o, rfl, hg, Ext.refl m t, _, _, rfl, rfl, List.Perm.refl _⟩

/-- What has been done to an operation of a schedule after some phases. -/
def Rsched (done : Phase → Bool) (m : Module O) (t : Phase → Table) : SchedOp O → SchedOp O → Prop
  | .region q ops, s => ∃ ops', s = .region q ops' ∧ (∀ o ∈ ops, InputReg m o) ∧
      (done q = true → List.Forall₂ (Rop m t q) ops ops') ∧ (done q = false → ops' = ops)
  | .other o, s => s = .other o

theorem Rsched.mono {done : Phase → Bool} {m m' : Module O} {t t' : Phase → Table} (he : Ext m t m' t') {s s' : SchedOp O}
    (h : Rsched done m t s s') : Rsched done m' t' s s' := by
  cases s with
  | region q ops =>
    obtain ⟨ops', h1, h2, h3, h4⟩ := h
    exact ⟨ops', h1, fun o ho x hx => (h2 o ho x hx).mono he, fun hd => (h3 hd).imp fun _ _ => Rop.mono he, h4⟩
  | other o => exact h

theorem schedOp_ok {fresh : List String → String → String} (hf : ∀ l n, fresh l n ∉ l) (sort : List Var → List Var)
    (model : String) (p : Phase) {done : Phase → Bool} (hd : done p = false) (m : Module O) (t : Phase → Table)
    (s s' : SchedOp O) (hg : Good m t) (h : Rsched done m t s s') :
    ∃ m' t' s'', processSchedOp fresh sort model p m s' = some (m', s'') ∧ Good m' t' ∧ Ext m t m' t' ∧
      Rsched (fun q => done q || decide (q = p)) m' t' s s'' := by
  cases s with
  | other o => cases h; exact ⟨m, t, .other o, rfl, hg, Ext.refl m t, rfl⟩
  | region q ops =>
    obtain ⟨ops', rfl, h2, h3, h4⟩ := h
    by_cases hq : q = p
    · subst hq
      have := h4 hd
      subst this
      obtain ⟨m', t', l'', hm, hg', he, hl⟩ := mapState_ok (P := fun m _ a b => a = b ∧ InputReg m a)
        (Q := fun m t => Rop m t q) (f := processRegionOp fresh sort (baseName model q) q)
        (fun m t m' t' a b he h => ⟨h.1, fun x hx => (h.2 x hx).mono he⟩) (fun m t m' t' a b he h => h.mono he)
        (fun m t a b hg h => by
          obtain ⟨rfl, h⟩ := h
          exact regionOp_ok hf sort _ q hg h) ops' ops' m t hg (by
          rw [List.forall₂_same]; exact fun o ho => ⟨rfl, h2 o ho⟩)
      refine ⟨m', t', .region q l'', ?_, hg', he, l'', rfl, fun o ho x hx => (h2 o ho x hx).mono he, fun _ => hl, fun h => ?_⟩
      · simp [processSchedOp, hm]
      · simp at h
    · refine ⟨m, t, .region q ops', by simp [processSchedOp, hq], hg, Ext.refl m t, ops', rfl, h2, fun h => h3 ?_, fun h => h4 ?_⟩
      · simpa [hq] using h
      · simpa [hq] using h

/-- What the pass does to a schedule. -/
def Rsch (m : Module O) (t : Phase → Table) (s s' : Sched O) : Prop :=
  List.Forall₂ (Rsched (fun _ => true) m t) s.ops s'.ops

theorem sched_ok {fresh : List String → String → String} (hf : ∀ l n, fresh l n ∉ l) (sort : List Var → List Var)
    (m : Module O) (t : Phase → Table) (s : Sched O) (hg : Good m t)
    (h : List.Forall₂ (Rsched (fun _ => false) m t) s.ops s.ops) :
    ∃ m' t' s', processSched fresh sort m s = some (m', s') ∧ Good m' t' ∧ Ext m t m' t' ∧ Rsch m' t' s s' := by
  obtain ⟨m1, t1, l1, h1, hg1, he1, hr1⟩ := mapState_ok (P := Rsched fun _ => false)
    (Q := Rsched fun q => false || decide (q = Phase.ic)) (f := processSchedOp fresh sort s.model .ic)
    (fun _ _ _ _ _ _ he h => h.mono he) (fun _ _ _ _ _ _ he h => h.mono he)
    (fun m t a b hg h => schedOp_ok hf sort s.model .ic rfl m t a b hg h) s.ops s.ops m t hg h
  obtain ⟨m2, t2, l2, h2, hg2, he2, hr2⟩ := mapState_ok (P := Rsched fun q => false || decide (q = Phase.ic))
    (Q := Rsched fun q => (false || decide (q = Phase.ic)) || decide (q = Phase.dynamic))
    (f := processSchedOp fresh sort s.model .dynamic)
    (fun _ _ _ _ _ _ he h => h.mono he) (fun _ _ _ _ _ _ he h => h.mono he)
    (fun m t a b hg h => schedOp_ok hf sort s.model .dynamic (by simp) m t a b hg h) s.ops l1 m1 t1 hg1 hr1
  refine ⟨m2, t2, ⟨s.model, l2⟩, by simp [processSched, h1, h2], hg2, he1.trans he2, ?_⟩
  have : (fun q : Phase => (false || decide (q = Phase.ic)) || decide (q = Phase.dynamic)) = fun _ => true := by
    funext q; cases q <;> rfl
  rw [this] at hr2
  exact hr2

theorem instantiate_ok {fresh : List String → String → String} (hf : ∀ l n, fresh l n ∉ l) (sort : List Var → List Var)
    {m : Module O} {l : List (Sched O)} (hp : Plain m) (hin : Input m l) :
    ∃ m' t' l', instantiate fresh sort m l = some (m', l') ∧ Good m' t' ∧ List.Forall₂ (Rsch m' t') l l' := by
  have hgood : Good m (fun _ => []) := by
    refine ⟨fun p => ?_, fun p k hk => by simp at hk, fun w hw => by simp [hp.1] at hw, fun p => ?_⟩
    · have := hp.2.1 p
      generalize (m.begins p).flatten = b at this
      induction b with
      | nil => rfl
      | cons x b ih =>
        obtain ⟨o, rfl⟩ := this x (by simp)
        exact ih fun y hy => this y (by simp [hy])
    · have := hp.2.2 p
      generalize (m.ends p).flatten = b at this
      induction b with
      | nil => rfl
      | cons x b ih =>
        obtain ⟨o, rfl⟩ := this x (by simp)
        simpa [destroyed] using ih fun y hy => this y (by simp [hy])
  obtain ⟨m', t', l', h1, h2, -, h4⟩ := mapState_ok
    (P := fun m t (s s' : Sched O) => s = s' ∧ List.Forall₂ (Rsched (fun _ => false) m t) s.ops s.ops)
    (Q := Rsch) (f := processSched fresh sort)
    (fun _ _ _ _ _ _ he h => ⟨h.1, h.2.imp fun _ _ => Rsched.mono he⟩)
    (fun _ _ _ _ _ _ he h => h.imp fun _ _ => Rsched.mono he)
    (fun m t a b hg h => by
      obtain ⟨rfl, h⟩ := h
      exact sched_ok hf sort m t a hg h) l l m (fun _ => []) hgood (by
      rw [List.forall₂_same]
      intro s hs
      refine ⟨rfl, ?_⟩
      rw [List.forall₂_same]
      intro o ho
      cases o with
      | other o => rfl
      | region q ops =>
        refine ⟨ops, rfl, fun r hr x hx => ?_, fun h => by simp at h, fun _ => rfl⟩
        have := hin q ops (by
          simp only [regions, List.mem_flatMap, List.mem_filterMap]
          exact ⟨s, hs, _, ho, by simp⟩) r hr x hx
        cases x <;> exact this)
  exact ⟨m', t', l', h1, h2, h4⟩

theorem forall₂_mapM {m : Module O} {t : Phase → Table} {p : Phase} {l l' : List (RegionOp O)}
    (h : List.Forall₂ (Rop m t p) l l') :
    ∃ r r', regionEvents [] [] l = some r ∧ regionEvents m.wrappers (t p) l' = some r' ∧ SameRuns r r' := by
  induction h with
  | nil => exact ⟨[], [], rfl, rfl, .nil⟩
  | cons h _ ih =>
    obtain ⟨r, r', h1, h2, h3⟩ := ih
    obtain ⟨v, v', g1, g2, g3⟩ := h
    simp only [regionEvents] at h1 h2
    exact ⟨v :: r, v' :: r', by simp [regionEvents, g1, h1], by simp [regionEvents, g2, h2], .cons g3 h3⟩

theorem regions_rel {m : Module O} {t : Phase → Table} (p : Phase) {l l' : List (Sched O)}
    (h : List.Forall₂ (Rsch m t) l l') :
    List.Forall₂ (List.Forall₂ (Rop m t p)) (regions p l) (regions p l') := by
  induction h with
  | nil => exact .nil
  | cons h _ ih =>
    simp only [regions, List.flatMap_cons] at ih ⊢
    refine List.rel_append ?_ ih
    rename_i a b _ _ _
    unfold Rsch at h
    revert h
    generalize a.ops = x
    generalize b.ops = y
    intro h
    clear ih
    induction h with
    | nil => exact .nil
    | cons h _ ih =>
      rename_i s s' _ _ _
      cases s with
      | other o => cases h; simpa using ih
      | region q ops =>
        obtain ⟨ops', rfl, -, h3, -⟩ := h
        by_cases hq : q = p
        · subst hq; simpa using ⟨h3 rfl, ih⟩
        · simpa [hq] using ih

theorem body_eq {α : Type} (l : List (List α)) : body l = some l.flatten := by
  match l with
  | [] => rfl
  | [a] => simp [body, addMissing, groupModelOps]
  | a :: b :: l => simp [body, addMissing, groupModelOps]

/-! ## The variables -/

theorem mem_addVar {acc : List Var} {v : Var} {n : List String} {q : Point} :
    (∃ w ∈ addVar acc v, w.name = n ∧ ∃ b ∈ w.indices, Spec.InB q b) ↔
      (∃ w ∈ acc, w.name = n ∧ ∃ b ∈ w.indices, Spec.InB q b) ∨ (v.name = n ∧ ∃ b ∈ v.indices, Spec.InB q b) := by
  unfold addVar
  split
  · rename_i h
    simp only [List.any_eq_true, beq_iff_eq] at h
    obtain ⟨u, hu, hun⟩ := h
    constructor
    · rintro ⟨w, hw, hn, b, hb, hq⟩
      obtain ⟨x, hx, rfl⟩ := List.mem_map.1 hw
      by_cases hxv : x.name = v.name
      · simp only [hxv, beq_self_eq_true, if_true, List.mem_append] at hb hn
        rcases hb with hb | hb
        · exact .inl ⟨x, hx, hxv.trans hn, b, hb, hq⟩
        · exact .inr ⟨hn, b, hb, hq⟩
      · simp only [beq_iff_eq, hxv, if_false] at hb hn
        exact .inl ⟨x, hx, hn, b, hb, hq⟩
    · rintro (⟨w, hw, hn, b, hb, hq⟩ | ⟨hn, b, hb, hq⟩)
      · refine ⟨_, List.mem_map_of_mem hw, ?_⟩
        by_cases hxv : w.name = v.name
        · simp only [hxv, beq_self_eq_true, if_true]
          exact ⟨hxv ▸ hn, b, List.mem_append_left _ hb, hq⟩
        · simp only [beq_iff_eq, hxv, if_false]
          exact ⟨hn, b, hb, hq⟩
      · refine ⟨_, List.mem_map_of_mem hu, ?_⟩
        simp only [hun, beq_self_eq_true, if_true]
        exact ⟨hn, b, List.mem_append_right _ hb, hq⟩
  · simp only [List.mem_append, List.mem_singleton]
    constructor
    · rintro ⟨w, hw | rfl, h⟩
      · exact .inl ⟨w, hw, h⟩
      · exact .inr h
    · rintro (⟨w, hw, h⟩ | h)
      · exact ⟨w, .inl hw, h⟩
      · exact ⟨v, .inr rfl, h⟩

theorem names_addVar {acc : List Var} {v : Var} :
    (addVar acc v).map (·.name) = if v.name ∈ acc.map (·.name) then acc.map (·.name) else acc.map (·.name) ++ [v.name] := by
  unfold addVar
  have : (acc.any (·.name == v.name)) = true ↔ v.name ∈ acc.map (·.name) := by
    simp only [List.any_eq_true, beq_iff_eq, List.mem_map]
  by_cases h : v.name ∈ acc.map (·.name)
  · rw [if_pos (this.2 h), if_pos h, List.map_map]
    refine List.map_congr_left fun w _ => ?_
    simp only [Function.comp]
    split <;> rfl
  · rw [if_neg (fun h' => h (this.1 h')), if_neg h]; simp

theorem merge_ok (l : List Var) :
    (∀ n q, (∃ w ∈ mergeVars l, w.name = n ∧ ∃ b ∈ w.indices, Spec.InB q b) ↔
      ∃ v ∈ l, v.name = n ∧ ∃ b ∈ v.indices, Spec.InB q b) ∧
    ((mergeVars l).map (·.name)).Nodup ∧ (∀ n, n ∈ (mergeVars l).map (·.name) ↔ n ∈ l.map (·.name)) := by
  have main : ∀ (l acc : List Var), (acc.map (·.name)).Nodup →
      (∀ n q, (∃ w ∈ l.foldl addVar acc, w.name = n ∧ ∃ b ∈ w.indices, Spec.InB q b) ↔
        (∃ w ∈ acc, w.name = n ∧ ∃ b ∈ w.indices, Spec.InB q b) ∨
        ∃ v ∈ l, v.name = n ∧ ∃ b ∈ v.indices, Spec.InB q b) ∧
      ((l.foldl addVar acc).map (·.name)).Nodup ∧
      (∀ n, n ∈ (l.foldl addVar acc).map (·.name) ↔ n ∈ acc.map (·.name) ∨ n ∈ l.map (·.name)) := by
    intro l
    induction l with
    | nil => intro acc h; exact ⟨fun n q => by simp, h, fun n => by simp⟩
    | cons v l ih =>
      intro acc h
      have hnd : ((addVar acc v).map (·.name)).Nodup := by
        rw [names_addVar]
        split
        · exact h
        · rename_i hv
          rw [List.nodup_append]
          exact ⟨h, by simp, fun a ha b hb => by simp at hb; subst hb; exact fun he => hv (he ▸ ha)⟩
      obtain ⟨h1, h2, h3⟩ := ih (addVar acc v) hnd
      refine ⟨fun n q => ?_, h2, fun n => ?_⟩
      · rw [List.foldl_cons, h1, mem_addVar]
        simp only [List.mem_cons, exists_eq_or_imp, or_assoc]
      · rw [List.foldl_cons, h3, names_addVar]
        split
        · rename_i hv
          simp only [List.map_cons, List.mem_cons]
          constructor
          · rintro (h | h)
            · exact .inl h
            · exact .inr (.inr h)
          · rintro (h | rfl | h)
            · exact .inl h
            · exact .inl hv
            · exact .inr h
        · simp only [List.mem_append, List.map_cons, List.mem_cons, or_assoc, List.not_mem_nil, or_false]
  obtain ⟨h1, h2, h3⟩ := main l [] (by simp)
  exact ⟨fun n q => by simpa [mergeVars] using h1 n q, h2, fun n => by simpa [mergeVars] using h3 n⟩

end Marco.SchedInst
