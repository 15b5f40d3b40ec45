import Verif.Lemmas.FunctionNames

/-!
# C113: calls keep their callees when functions are unwrapped and mangled
-/

namespace Marco.Props
open Marco Marco.FnNames Marco.Spec.FnNames

/-- The full claim: after the two passes the calls lead to the functions they led to, all the functions are in the module with
different names, that no other symbol and no runtime function has, and the inverse functions can still be called. -/
def C113_full : Prop := ∀ (m : Mod) (order : List Nat), Valid m → (∀ f ∈ m.fns, f.id ∈ order) →
  (∀ (c : Nat) p id, m.calls[c]? = some p → Leads m p id →
    ∃ p', (run order m).calls[c]? = some p' ∧ Leads (run order m) p' id ∧ ∀ id', Leads (run order m) p' id' → id' = id) ∧
  (topNames (run order m)).Nodup ∧
  (∀ f ∈ (run order m).fns, f.scope = [] ∧ ∀ base ret args, f.name ≠ runtimeName base ret args) ∧
  (∀ f ∈ m.fns, ∀ arg g id, inverseCallee f arg = some g → Leads m g id →
    ∃ f' ∈ (run order m).fns, f'.id = f.id ∧ ∃ g', inverseCallee f' arg = some g' ∧ Leads (run order m) g' id)

namespace C113_Aux

theorem unwrapped {m : Mod} {order : List Nat} (hv : Valid m) (ho : ∀ f ∈ m.fns, f.id ∈ order) :
    Inv m (m.calls.map (resolve m)) (unwrap order m) ∧ ∀ f ∈ (unwrap order m).fns, f.scope = [] := by
  obtain ⟨h1, h2⟩ := inv_fold order m (inv_init hv)
  refine ⟨h1, fun f hf => (h2 f hf).1 ?_⟩
  obtain ⟨_, g, hg, e, _⟩ := h2 f hf
  exact e ▸ ho g hg

end C113_Aux
open C113_Aux

/-- Each call leads to the function it led to, and to no other one. -/
theorem C113_calls_partial (m : Mod) (order : List Nat) (hv : Valid m) (ho : ∀ f ∈ m.fns, f.id ∈ order)
    (c : Nat) (p : List String) (id : Nat) (hc : m.calls[c]? = some p) (hl : Leads m p id) :
    ∃ p', (run order m).calls[c]? = some p' ∧ Leads (run order m) p' id ∧ ∀ id', Leads (run order m) p' id' → id' = id := by
  obtain ⟨hi, ht⟩ := unwrapped hv ho
  obtain ⟨f, hf, hp, rfl⟩ := hl
  have hlt : c < m.calls.length := (List.getElem?_eq_some_iff.1 hc).1
  have hres : resolve m p = some f.id := by
    unfold resolve
    cases hfind : m.fns.find? (fun f => f.path == p) with
    | none =>
      have := List.find?_eq_none.1 hfind f hf
      simp [Fn.path, hp] at this
    | some g =>
      have hg := List.mem_of_find?_eq_some hfind
      have hgp : g.path = p := by simpa using List.find?_some hfind
      have := eq_of_path hv.once hg hf (hgp.trans hp.symm)
      subst this
      rfl
  have hcm : (m.calls.map (resolve m))[c]? = some (some f.id) := by
    rw [List.getElem?_map, hc, Option.map_some, hres]
  have hidm : f.id ∈ (unwrap order m).fns.map Fn.id := by
    rw [hi.ids]
    exact List.mem_map.2 ⟨f, hf, rfl⟩
  obtain ⟨g, hg, e⟩ := List.mem_map.1 hidm
  have hcall := hi.calls g hg (ht g hg) c hlt (e ▸ hcm)
  refine ⟨[mangled g.name], ?_, ?_, ?_⟩
  · show ((unwrap order m).calls.map mangledRef)[c]? = _
    rw [List.getElem?_map, hcall]
    rfl
  · refine ⟨{ g with name := mangled g.name }, List.mem_map.2 ⟨g, hg, rfl⟩, ?_, e⟩
    simp [ht g hg]
  · rintro id' ⟨k', hk', hkp, rfl⟩
    obtain ⟨k, hk, rfl⟩ := List.mem_map.1 hk'
    have hs := ht k hk
    simp only [hs, List.nil_append, List.cons.injEq, and_true] at hkp
    have := eq_of_path hi.once hk hg (by rw [hs, ht g hg, mangled_injective hkp])
    subst this
    exact e

/-- All the functions are in the module, once each, under names that differ, and differ from those of the other symbols unless
these begin with `_M`; those that were in the module only get the prefix. -/
theorem C113_names_partial (m : Mod) (order : List Nat) (hv : Valid m) (ho : ∀ f ∈ m.fns, f.id ∈ order)
    (hm : ∀ n, [mangled n] ∉ m.others) :
    (run order m).fns.map Fn.id = m.fns.map Fn.id ∧ (∀ f ∈ (run order m).fns, f.scope = []) ∧
      ((run order m).fns.map Fn.name).Nodup ∧ (∀ f ∈ (run order m).fns, [f.name] ∉ (run order m).others) ∧
      ∀ f ∈ m.fns, f.scope = [] → { f with name := "_M" ++ f.name } ∈ (run order m).fns := by
  obtain ⟨hi, ht⟩ := unwrapped hv ho
  refine ⟨?_, ?_, ?_, ?_, ?_⟩
  · rw [← hi.ids]
    show ((unwrap order m).fns.map _).map Fn.id = _
    rw [List.map_map]
    rfl
  · intro f hf
    obtain ⟨g, hg, rfl⟩ := List.mem_map.1 hf
    exact ht g hg
  · show (((unwrap order m).fns.map _).map Fn.name).Nodup
    rw [List.map_map]
    refine (List.nodup_map_iff_inj_on (List.Nodup.of_map _ hi.idsOnce)).2 ?_
    intro f hf g hg e
    exact eq_of_path hi.once hf hg (by rw [ht f hf, ht g hg, mangled_injective e])
  · -- the other symbols at the top are those of before
    have key : ∀ (order : List Nat) (s : Mod), Inv m (m.calls.map (resolve m)) s → ∀ n,
        [n] ∈ (order.foldl (unwrapStep (m.calls.map (resolve m))) s).others → [n] ∈ s.others := by
      intro order
      induction order with
      | nil => intro s _ n h; exact h
      | cons id rest ih =>
        intro s hs n h
        have h := ih _ (inv_step hs id) n h
        unfold unwrapStep at h
        split at h
        · exact h
        · rename_i f hf
          split_ifs at h
          · exact h
          · obtain ⟨q, hq, e⟩ := List.mem_map.1 h
            by_cases hp : f.path <+: q
            · rw [reroot_prefix hp] at e
              simp only [List.cons.injEq, List.drop_eq_nil_iff] at e
              have hqf : f.path = q := hp.eq_of_length (le_antisymm hp.length_le e.2)
              have hmem : f.path ∈ s.fns.map fun f => f.scope ++ [f.name] :=
                List.mem_map.2 ⟨f, List.mem_of_find?_eq_some hf, rfl⟩
              exact absurd hqf.symm ((List.nodup_append.1 hs.once).2.2 q hq f.path hmem)
            · rw [reroot_other hp] at e
              exact e ▸ hq
    intro f hf hmem
    obtain ⟨g, _, rfl⟩ := List.mem_map.1 hf
    exact hm g.name (key order m (inv_init hv) _ hmem)
  · intro f hf hs
    have hidm : f.id ∈ (unwrap order m).fns.map Fn.id := by
      rw [hi.ids]
      exact List.mem_map.2 ⟨f, hf, rfl⟩
    obtain ⟨g, hg, e⟩ := List.mem_map.1 hidm
    obtain ⟨_, k, hk, ek, hkg⟩ := (inv_fold order m (inv_init hv)).2 g hg
    have := eq_of_id hv.ids hk hf (ek.trans e)
    subst this
    exact List.mem_map.2 ⟨g, hg, by rw [hkg hs]; rfl⟩

/-- No name of a function is that of a runtime function, if it has no underscore. -/
theorem C113_runtime_partial (name : String) (h : '_' ∉ name.toList) (base ret : String) (args : List String) :
    mangled name ≠ runtimeName base ret args := by
  intro e
  have key : ∀ (args : List String) (acc : String), ∃ t : List Char,
      (args.foldl (fun acc a => acc ++ "_" ++ a) acc).toList = acc.toList ++ t := by
    intro args
    induction args with
    | nil => intro acc; exact ⟨[], by simp⟩
    | cons a as ih =>
      intro acc
      obtain ⟨t, ht⟩ := ih (acc ++ "_" ++ a)
      exact ⟨"_".toList ++ a.toList ++ t, by rw [List.foldl_cons, ht]; simp [String.toList_append]⟩
  obtain ⟨t, ht⟩ := key args ("_M" ++ base ++ "_" ++ ret)
  have e1 := congrArg String.toList e
  unfold mangled runtimeName at e1
  rw [ht] at e1
  simp only [String.toList_append, List.append_assoc] at e1
  have := List.append_cancel_left e1
  exact h (by rw [this]; simp)

/-- No inverse function can be called after the passes, in any module: the names in the annotations are not mangled, and the
functions of the classes have no annotation any more. (Names that begin with `_M` already are left out.) -/
theorem C113_inverse_fails (m : Mod) (order : List Nat) (hv : Valid m) (ho : ∀ f ∈ m.fns, f.id ∈ order)
    (hm : ∀ f ∈ m.fns, ∀ a n, (a, mangled n) ∉ f.inverse) :
    ∀ f' ∈ (run order m).fns, ∀ arg g' id, inverseCallee f' arg = some g' → ¬ Leads (run order m) g' id := by
  obtain ⟨hi, ht⟩ := unwrapped hv ho
  have hinv : ∀ (order : List Nat) (s : Mod), (∀ f ∈ s.fns, ∀ a n, (a, mangled n) ∉ f.inverse) →
      ∀ f ∈ (order.foldl (unwrapStep (m.calls.map (resolve m))) s).fns, ∀ a n, (a, mangled n) ∉ f.inverse := by
    intro order
    induction order with
    | nil => intro s hs; exact hs
    | cons id rest ih =>
      intro s hs
      refine ih _ ?_
      intro f hf
      unfold unwrapStep at hf
      split at hf
      · exact hs f hf
      · split_ifs at hf
        · exact hs f hf
        · obtain ⟨g, hg, rfl⟩ := List.mem_map.1 hf
          unfold moveFn
          split_ifs
          · simp
          · exact hs g hg
  rintro f' hf' arg g' id hg ⟨k', hk', hp, _⟩
  obtain ⟨f, hf, rfl⟩ := List.mem_map.1 hf'
  obtain ⟨k, hk, rfl⟩ := List.mem_map.1 hk'
  unfold inverseCallee at hg
  obtain ⟨n, hn, rfl⟩ := Option.map_eq_some_iff.1 hg
  simp only [ht k hk, List.nil_append, List.cons.injEq, and_true] at hp
  have hmem : ∀ (l : List (Nat × String)), l.lookup arg = some n → (arg, n) ∈ l := by
    intro l
    induction l with
    | nil => intro h; cases h
    | cons x xs ih =>
      obtain ⟨a, b⟩ := x
      intro h
      rw [List.lookup_cons] at h
      split at h
      · rename_i hh
        cases h
        have : arg = a := by simpa using hh
        subst this
        exact List.mem_cons_self
      · exact List.mem_cons_of_mem _ (ih h)
  exact hinv order m hm f hf arg k.name (hp ▸ hmem _ hn)

namespace C113_Sample

/-- `package P function f … function h … end f; end P; function P_f; function g` with `inverse(x = P_f(y))` for `g`, and calls
of `P.f`, `P.f.h`, `P_f` and `g`. -/
def m : Mod :=
  { fns := [⟨0, ["P"], "f", []⟩, ⟨1, ["P", "f"], "h", []⟩, ⟨2, [], "P_f", []⟩, ⟨3, [], "g", [(0, "P_f")]⟩]
    others := [["P"], ["M"]]
    calls := [["P", "f"], ["P", "f", "h"], ["P_f"], ["g"], ["P", "f"]] }

theorem valid : Valid m where
  ids := by decide
  once := by decide
  some_name := by decide
  enclosed := by
    intro p hp q hq hqp
    have key : ∀ p ∈ symbols m, ∀ q ∈ p.inits, q ≠ [] → q ∈ symbols m := by decide
    exact key p hp q ((List.mem_inits _ _).2 hqp) hq

/-- The nested function is moved after, or before, the function around it. -/
example : (run [0, 1, 2, 3] m).calls = [["_MP_f_0"], ["_MP_f_0_h"], ["_MP_f"], ["_Mg"], ["_MP_f_0"]] := by decide +kernel
example : (run [1, 0, 2, 3] m).calls = [["_MP_f_0"], ["_MP_f_h"], ["_MP_f"], ["_Mg"], ["_MP_f_0"]] := by decide +kernel

example : ∃ p', (run [0, 1, 2, 3] m).calls[1]? = some p' ∧ Leads (run [0, 1, 2, 3] m) p' 1 ∧
    ∀ id', Leads (run [0, 1, 2, 3] m) p' id' → id' = 1 :=
  C113_calls_partial m [0, 1, 2, 3] valid (by decide) 1 _ 1 rfl ⟨⟨1, ["P", "f"], "h", []⟩, by decide, rfl, rfl⟩

example : ((run [0, 1, 2, 3] m).fns.map Fn.name).Nodup :=
  (C113_names_partial m [0, 1, 2, 3] valid (by decide) (by
    intro n h
    simp only [m, List.mem_cons, List.not_mem_nil, or_false, List.cons.injEq, and_true] at h
    rcases h with h | h
    · have := congrArg (fun s : String => s.toList.head?) h
      simp [mangled, String.toList_append] at this
    · have := congrArg (fun s : String => s.toList.head?) h
      simp [mangled, String.toList_append] at this)).2.2.1

example : mangled "sin" ≠ runtimeName "sin" "f64" ["f64"] := C113_runtime_partial "sin" (by decide) _ _ _

example : ∀ id, ¬ Leads (run [0, 1, 2, 3] m) ["P_f"] id := fun id =>
  C113_inverse_fails m [0, 1, 2, 3] valid (by decide) (by
    intro f hf a n h
    simp only [m, List.mem_cons, List.not_mem_nil, or_false] at hf
    rcases hf with rfl | rfl | rfl | rfl <;> simp at h
    have := congrArg (fun s : String => s.toList.head?) h.2
    simp [mangled, String.toList_append] at this)
    ⟨3, [], "_Mg", [(0, "P_f")]⟩ (by decide +kernel) 0 ["P_f"] id rfl

/-- A function of the user that gets the name of a runtime function. -/
def r : Mod := { fns := [⟨0, [], "sin_f64_f64", []⟩], others := [], calls := [["sin_f64_f64"]] }

/-- A class that has the name the function gets. -/
def k : Mod := { fns := [⟨0, [], "f", []⟩], others := [["_Mf"]], calls := [["f"]] }

/-- A function of a package with an inverse. -/
def i : Mod :=
  { fns := [⟨0, ["P"], "f", [(0, "g")]⟩, ⟨1, [], "g", []⟩], others := [["P"]], calls := [["P", "f"]] }

end C113_Sample
open C113_Sample

/-- The user's function has the name of the sine of the runtime library. -/
theorem C113_runtime_clash : Valid r ∧ ∃ f ∈ (run [0] r).fns, f.name = runtimeName "sin" "f64" ["f64"] := by
  refine ⟨⟨by decide, by decide, by decide, ?_⟩, ⟨0, [], "_Msin_f64_f64", []⟩, by decide +kernel, by decide +kernel⟩
  intro p hp q hq hqp
  have key : ∀ p ∈ symbols r, ∀ q ∈ p.inits, q ≠ [] → q ∈ symbols r := by decide
  exact key p hp q ((List.mem_inits _ _).2 hqp) hq

/-- The function and a class have the same name after the mangling. -/
theorem C113_class_clash : Valid k ∧ ¬ (topNames (run [0] k)).Nodup := by
  refine ⟨⟨by decide, by decide, by decide, ?_⟩, by decide +kernel⟩
  intro p hp q hq hqp
  have key : ∀ p ∈ symbols k, ∀ q ∈ p.inits, q ≠ [] → q ∈ symbols k := by decide
  exact key p hp q ((List.mem_inits _ _).2 hqp) hq

/-- The annotation of the function of a package is lost. -/
theorem C113_inverse_dropped : Valid i ∧ inverseCallee ⟨0, ["P"], "f", [(0, "g")]⟩ 0 = some ["g"] ∧
    ∀ f' ∈ (run [0, 1] i).fns, inverseCallee f' 0 = none := by
  refine ⟨⟨by decide, by decide, by decide, ?_⟩, by decide, by decide +kernel⟩
  intro p hp q hq hqp
  have key : ∀ p ∈ symbols i, ∀ q ∈ p.inits, q ≠ [] → q ∈ symbols i := by decide
  exact key p hp q ((List.mem_inits _ _).2 hqp) hq

/-- The full claim is false. -/
theorem C113_full_false : ¬ C113_full := by
  intro h
  obtain ⟨hv, f, hf, e⟩ := C113_runtime_clash
  exact ((h r [0] hv (by decide)).2.2.1 f hf).2 _ _ _ e

end Marco.Props
