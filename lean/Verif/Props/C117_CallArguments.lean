import Verif.Lemmas.CallArguments

/-!
# C117: each parameter of a function receives the argument that the call gives to it
-/

namespace Marco.Props
open Marco.CallArgs Marco.Spec.CallArgs

/-- The call is accepted, and each parameter that the call gives a value receives that value, converted to its type. -/
def C117_claim {α : Type} (inputs : List Input) (args : List (Arg (Value α))) : Prop :=
  ∃ out, compileCall inputs args = .ok out ∧ out.length = inputs.length ∧
    ∀ (k : Nat) p v, inputs[k]? = some p → given (inputs.map Input.name) args k = some v →
      ∃ w, out[k]? = some w ∧ w.ty = p.ty ∧
        ∀ conv : Ty → Ty → α → α, (∀ t a, conv t t a = a) → eval conv w = conv v.ty p.ty (eval conv v)

/-- The full claim: for all well-formed calls that give a value of a suitable type to each parameter without default value. -/
def C117_full : Prop :=
  ∀ (inputs : List Input) (args : List (Arg (Value Int))), (inputs.map Input.name).Nodup →
    WellFormed (inputs.map Input.name) args →
    (∀ (k : Nat) p, inputs[k]? = some p →
      (given (inputs.map Input.name) args k = none → p.hasDefault = true) ∧
      ∀ v, given (inputs.map Input.name) args k = some v → Fits v.ty p.ty) →
    C117_claim inputs args

/-- The pass: a call with as many arguments as parameters, all of suitable types. -/
theorem C117_casts {α : Type} (types : List Ty) (c : Call α) (hl : c.args.length = types.length)
    (hf : ∀ (k : Nat) v t, c.args[k]? = some v → types[k]? = some t → Fits v.ty t) :
    ∃ c', insertCasts types c = .ok c' ∧ c'.args.length = types.length ∧
      ∀ (k : Nat) v t, c.args[k]? = some v → types[k]? = some t → c'.args[k]? = some (castTo v t) := by
  unfold insertCasts
  have hzip : ∀ (k : Nat) v t, c.args[k]? = some v → types[k]? = some t → (c.args.zip types)[k]? = some (v, t) := by
    intro k v t h1 h2
    rw [List.getElem?_zip_eq_some]
    exact ⟨h1, h2⟩
  split
  · next h =>
    refine ⟨c, rfl, hl, ?_⟩
    intro k v t h1 h2
    unfold legal at h
    rw [List.all_eq_true] at h
    have := h (v, t) (List.mem_of_getElem? (hzip k v t h1 h2))
    simp only [beq_iff_eq] at this
    rw [h1]
    simp [castTo, this]
  · have hall : ((c.args.zip types).all fun p => compatible p.1 p.2) = true := by
      rw [List.all_eq_true]
      intro p hp
      obtain ⟨k, hk⟩ := List.getElem?_of_mem hp
      rw [List.getElem?_zip_eq_some] at hk
      exact (compatible_iff _ _).2 (hf k _ _ hk.1 hk.2)
    rw [if_pos hall]
    refine ⟨_, rfl, by simp [hl], ?_⟩
    intro k v t h1 h2
    simp [List.getElem?_map, hzip k v t h1 h2]

/-- **C117, partial.** For all functions and all calls whose arguments are, in order, one for each parameter, where those with
a name follow those without and are in the order of the declarations: each parameter receives the argument given to it,
converted to its type. What is missing: named arguments in another order, and parameters with a default value. -/
theorem C117_arguments_partial {α : Type} (inputs : List Input) (args : List (Arg (Value α)))
    (hw : WellFormed (inputs.map Input.name) args)
    (ho : (byName args).map Prod.fst = (inputs.map Input.name).drop (positional args).length)
    (hf : ∀ (k : Nat) p v, inputs[k]? = some p → given (inputs.map Input.name) args k = some v → Fits v.ty p.ty) :
    C117_claim inputs args ∧
      ∀ (k : Nat) p, inputs[k]? = some p → (given (inputs.map Input.name) args k).isSome := by
  generalize hps : positional args = ps at *
  generalize hbs : byName args = bs at *
  have hargs := hw.first
  rw [hps, hbs] at hargs
  have hfew := hw.few
  rw [hps, List.length_map] at hfew
  have honce := hw.once
  rw [hbs] at honce
  have hlen : (ps ++ bs.map Prod.snd).length = inputs.length := by
    have := congrArg List.length ho
    simp only [List.length_map, List.length_drop] at this
    simp only [List.length_append, List.length_map]
    omega
  have hgiven : ∀ k : Nat, k < inputs.length →
      given (inputs.map Input.name) args k = (ps ++ bs.map Prod.snd)[k]? := by
    intro k hk
    unfold given
    rw [hps, hbs]
    by_cases hkp : k < ps.length
    · rw [List.getElem?_append_left hkp, List.getElem?_eq_getElem hkp]
    · rw [List.getElem?_append_right (by omega), List.getElem?_eq_none (by omega)]
      have hkb : k - ps.length < bs.length := by
        simp only [List.length_append, List.length_map] at hlen; omega
      have hb : bs[k - ps.length]? = some bs[k - ps.length] := List.getElem?_eq_getElem hkb
      have hname : (inputs.map Input.name)[k]? = some bs[k - ps.length].1 := by
        have h := congrArg (fun l => l[k - ps.length]?) ho
        simp only [List.getElem?_map, hb, Option.map_some, List.getElem?_drop] at h
        rw [show ps.length + (k - ps.length) = k by omega] at h
        rw [List.getElem?_map]
        exact h.symm
      simp only [hname, Option.bind_some, lookup_nodup bs honce _ _ hb, List.getElem?_map, hb, Option.map_some]
  obtain ⟨ns, hlow⟩ := lowerArgs_values (inputs.map Input.name) ps bs (by intro; simpa using hfew)
  rw [← hargs] at hlow
  obtain ⟨c', hc, hcl, hck⟩ := C117_casts (inputs.map Input.ty) ⟨none, ps ++ bs.map Prod.snd⟩
    (by rw [hlen, List.length_map]) (by
      intro k v t h1 h2
      rw [List.getElem?_map, Option.map_eq_some_iff] at h2
      obtain ⟨p, hp, rfl⟩ := h2
      exact hf k p v hp ((hgiven k (List.getElem?_eq_some_iff.1 hp).1).trans h1))
  refine ⟨⟨c'.args, ?_, by simpa using hcl, ?_⟩, ?_⟩
  · unfold compileCall lowerCall
    simp [hlow, hc, ← hlen]
  · intro k p v hp hv
    have hv' := (hgiven k (List.getElem?_eq_some_iff.1 hp).1).symm.trans hv
    refine ⟨castTo v p.ty, hck k v p.ty hv' (by simp [hp]), castTo_ty _ _, ?_⟩
    intro conv hid
    exact castTo_eval conv hid v p.ty
  · intro k p hp
    have hk := (List.getElem?_eq_some_iff.1 hp).1
    rw [hgiven k hk, List.getElem?_eq_getElem (by omega)]
    rfl

/-- For all functions and all calls without names: the call is refused when the number of its arguments is not that of the
parameters, also when the missing ones have a default value. -/
theorem C117_count {α : Type} (inputs : List Input) (vals : List (Value α)) (h : vals.length ≠ inputs.length) :
    compileCall inputs (vals.map .pos) = .error := by
  obtain ⟨ns, hlow⟩ := lowerArgs_values (inputs.map Input.name) vals [] (by simp)
  simp only [List.map_nil, List.append_nil] at hlow
  unfold compileCall lowerCall
  simp [hlow, h]

/-- For all functions: a call without names where a scalar or a tensor is given for an array, or an array of another rank, is
refused. -/
theorem C117_mismatch {α : Type} (inputs : List Input) (vals : List (Value α)) (k : Nat) (p : Input) (v : Value α)
    (hp : inputs[k]? = some p) (hv : vals[k]? = some v) (h : ¬ Fits v.ty p.ty) :
    compileCall inputs (vals.map .pos) = .error := by
  by_cases hl : vals.length = inputs.length
  · obtain ⟨ns, hlow⟩ := lowerArgs_values (inputs.map Input.name) vals [] (by simp)
    simp only [List.map_nil, List.append_nil] at hlow
    have hz : (v, p.ty) ∈ vals.zip (inputs.map Input.ty) := by
      refine List.mem_of_getElem? (i := k) ?_
      rw [List.getElem?_zip_eq_some]
      exact ⟨hv, by simp [hp]⟩
    have hcasts : insertCasts (inputs.map Input.ty) (⟨none, vals⟩ : Call α) = .error := by
      unfold insertCasts
      rw [if_neg, if_neg]
      · intro hall
        rw [List.all_eq_true] at hall
        exact h ((compatible_iff _ _).1 (hall _ hz))
      · unfold legal
        intro hall
        rw [List.all_eq_true] at hall
        have := hall _ hz
        simp only [beq_iff_eq] at this
        exact h (by rw [this]; rfl)
    unfold compileCall lowerCall
    simp [hlow, hl, hcasts]
  · exact C117_count inputs vals hl

/-- The pass gives all the indices of a subscription the type of the indices, with the same values converted. -/
theorem C117_indices {α : Type} (idx : List (Value α)) :
    (castIndices idx).length = idx.length ∧
      ∀ (k : Nat) v, idx[k]? = some v → ∃ w, (castIndices idx)[k]? = some w ∧ w.ty = .scalar .index ∧
        ∀ conv : Ty → Ty → α → α, (∀ t a, conv t t a = a) →
          eval conv w = conv v.ty (.scalar .index) (eval conv v) := by
  refine ⟨by simp [castIndices], ?_⟩
  intro k v hv
  refine ⟨_, by rw [castIndices, List.getElem?_map, hv, Option.map_some], ?_⟩
  split
  · next h => exact ⟨h, fun conv hid => by rw [h, hid]⟩
  · exact ⟨rfl, fun conv _ => rfl⟩

/-- The condition gets the Boolean type, with its value converted. -/
theorem C117_condition {α : Type} (v : Value α) :
    (castCondition v).ty = .scalar .boolean ∧
      ∀ conv : Ty → Ty → α → α, (∀ t a, conv t t a = a) →
        eval conv (castCondition v) = conv v.ty (.scalar .boolean) (eval conv v) := by
  unfold castCondition
  split
  · next h => exact ⟨h, fun conv hid => by rw [h, hid]⟩
  · exact ⟨rfl, fun conv _ => rfl⟩

/-- The pass takes the names from all the calls where it puts a cast. -/
theorem C117_names_lost {α : Type} (types : List Ty) (c c' : Call α) (k : Nat) (v : Value α) (t : Ty)
    (hv : c.args[k]? = some v) (ht : types[k]? = some t) (hne : v.ty ≠ t) (h : insertCasts types c = .ok c') :
    c'.names = none := by
  unfold insertCasts at h
  rw [if_neg] at h
  · split at h
    · simp only [Out.ok.injEq] at h
      rw [← h]
    · simp at h
  · unfold legal
    intro hall
    rw [List.all_eq_true] at hall
    have := hall (v, t) (List.mem_of_getElem? (i := k) (by rw [List.getElem?_zip_eq_some]; exact ⟨hv, ht⟩))
    exact hne (by simpa using this)

/-- Record constructors: with one argument without name for each component, each component is its argument. -/
theorem C117_record_partial {α : Type} (components : List (String × Bool)) (vals : List α)
    (h : vals.length = components.length) : constructRecord components (vals.map .pos) = .ok vals := by
  obtain ⟨ns, hlow⟩ := lowerArgs_values ((components.filter fun c => c.2).map Prod.fst) vals [] (by simp)
  simp only [List.map_nil, List.append_nil] at hlow
  unfold constructRecord lowerRecord unpackRecord
  simp only [hlow]
  rw [if_neg (by omega), ← h, List.take_length]

/-- With fewer arguments there is no error message, but undefined behaviour. -/
theorem C117_record_undefined {α : Type} (components : List (String × Bool)) (vals : List α)
    (h : vals.length < components.length) : constructRecord components (vals.map .pos) = .undef := by
  obtain ⟨ns, hlow⟩ := lowerArgs_values ((components.filter fun c => c.2).map Prod.fst) vals [] (by simp)
  simp only [List.map_nil, List.append_nil] at hlow
  unfold constructRecord lowerRecord unpackRecord
  simp only [hlow]
  rw [if_pos h]

/-- The components of a record are not inputs, as a rule: then arguments without name and arguments with name in the same call
are undefined behaviour. -/
theorem C117_record_mixed_undefined {α : Type} (components : List (String × Bool)) (h : ∀ c ∈ components, c.2 = false)
    (v : α) (args : List (Arg α)) (hn : ∃ a ∈ args, a.isNamed = true) :
    constructRecord components (.pos v :: args) = .undef := by
  have hf : components.filter (fun c => c.2) = [] := by
    rw [List.filter_eq_nil_iff]
    intro c hc
    simp [h c hc]
  have hb : ((.pos v :: args).any Arg.isNamed) = true := by
    obtain ⟨a, ha, hn⟩ := hn
    rw [List.any_eq_true]
    exact ⟨a, List.mem_cons_of_mem _ ha, hn⟩
  unfold constructRecord lowerRecord lowerArgs
  rw [hf, hb]
  simp [posLoop]

namespace C117_Sample

/-- `f(x : Real, y : Integer)`. -/
def inputs : List Input := [⟨"x", .scalar .real, false⟩, ⟨"y", .scalar .integer, false⟩]

def one : Value Int := .leaf (.scalar .integer) 1
def two : Value Int := .leaf (.scalar .integer) 2

/-- `f(1, y = 2)`: the hypotheses of `C117_arguments_partial`. -/
example : WellFormed (inputs.map Input.name) [.pos one, .named "y" two] ∧
    (byName [.pos one, .named "y" two]).map Prod.fst =
      (inputs.map Input.name).drop (positional [Arg.pos one, .named "y" two]).length ∧
    compileCall inputs [.pos one, .named "y" two] = .ok [.cast (.scalar .real) one, two] :=
  ⟨⟨rfl, by decide, by decide, by decide⟩, by decide, by decide⟩

/-- `f(y = 1, x = 2)`: the first parameter receives the argument of the second. -/
theorem swapped : compileCall inputs [.named "y" one, .named "x" two] = .ok [.cast (.scalar .real) one, two] := by decide

/-- `g(x : Real, y : Integer := …)`, called as `g(1)`. -/
def withDefault : List Input := [⟨"x", .scalar .real, false⟩, ⟨"y", .scalar .integer, true⟩]

theorem default_refused : compileCall withDefault [.pos one] = .error := by decide

/-- An array for a scalar. -/
example : ¬ Fits (Value.leaf (.array .real [some 3]) (0 : Int)).ty (inputs[0]'(by decide)).ty ∧
    compileCall inputs [.pos (.leaf (.array .real [some 3]) 0), .pos two] = .error := ⟨by unfold Fits; decide, by decide⟩

/-- A call with names in the intermediate representation: the pass compares the first argument, that of `y`, with the type of
`x`, and the names are lost. -/
theorem names : insertCasts (inputs.map Input.ty)
    ⟨some ["y", "x"], [one, .leaf (.scalar .real) 2]⟩ =
      .ok ⟨none, [.cast (.scalar .real) one, .cast (.scalar .integer) (.leaf (.scalar .real) 2)]⟩ := by decide

example : constructRecord [("a", false), ("b", false)] [.pos 1, .named "b" 2] = .undef := by decide
example : constructRecord [("a", false), ("b", false)] [.pos 1, .pos 2] = .ok [1, 2] := by decide
example : constructRecord [("a", false), ("b", false)] [.named "b" 2, .named "a" 1] = .ok [2, 1] := by decide

end C117_Sample

/-- Named arguments in another order go to the wrong parameters, with no message. -/
theorem C117_named : WellFormed (C117_Sample.inputs.map Input.name) [.named "y" C117_Sample.one, .named "x" C117_Sample.two] ∧
    ¬ C117_claim C117_Sample.inputs [.named "y" C117_Sample.one, .named "x" C117_Sample.two] := by
  refine ⟨⟨rfl, by decide, by decide, by decide⟩, ?_⟩
  rintro ⟨out, ho, -, hk⟩
  rw [C117_Sample.swapped] at ho
  cases ho
  obtain ⟨w, hw, -, he⟩ := hk 0 _ C117_Sample.two rfl (by decide)
  cases hw
  have := he (fun _ _ a => a) (by simp)
  revert this
  decide

/-- A parameter with a default value must be given all the same. -/
theorem C117_default : WellFormed (C117_Sample.withDefault.map Input.name) [.pos C117_Sample.one] ∧
    ¬ C117_claim C117_Sample.withDefault [.pos C117_Sample.one] := by
  refine ⟨⟨rfl, by decide, by decide, by decide⟩, ?_⟩
  rintro ⟨out, ho, -, -⟩
  rw [C117_Sample.default_refused] at ho
  cases ho

/-- The full claim is false. -/
theorem C117_full_false : ¬ C117_full := by
  intro h
  refine C117_named.2 (h _ _ (by decide) C117_named.1 ?_)
  intro k p hp
  match k, hp with
  | 0, hp => cases hp; exact ⟨by decide, fun v hv => by cases hv; rfl⟩
  | 1, hp => cases hp; exact ⟨by decide, fun v hv => by cases hv; rfl⟩
  | k + 2, hp => simp [C117_Sample.inputs] at hp

end Marco.Props
