import Verif.Lemmas.DefaultValues

/-! # C77 — default values of the variables of functions -/

namespace Marco.Props
open Marco Marco.Defaults Marco.Spec.Defaults

/-- The statement for the calls: after the conversion, each input variable of the callee receives the
argument given for it, or the value of its default, computed from the values of the input variables;
whatever the addresses of the operations, the operations and the variables of the caller. -/
def C77_calls_full : Prop :=
  ∀ (f : Fn) (addr : Nat → Nat) (n : Nat) (c : Call), Function.Injective addr → FnOk f →
    InputsClosed f → CallOk f n c → ∃ code, convertCall f addr n c = .done code ∧
    ∀ (V : Type) (I : Meaning V) (ρ : Nat → V) (vals : List V), vals.length = n →
      ∃ ws, received I ρ vals code = some ws ∧ (∃ a, Binds f c I vals a) ∧
        ∀ a, Binds f c I vals a → ws = f.inputs.map a

/-- The statement for the protected and output variables: those with a default value have it at the
beginning of the function, the others are unchanged. -/
def C77_prologue_full : Prop :=
  ∀ (f : Fn) (addr : Nat → Nat), Function.Injective addr → FnOk f →
    ∃ stms, prologue f addr = .done stms ∧
    ∀ (V : Type) (I : Meaning V) (ρ : Nat → V),
      ∃ ρ', exec I [] ρ stms = some ρ' ∧ Initialized f I ρ ρ'

/-- The statement for the creation of the output and protected variables: each of them once, after
those read to compute its dimensions. -/
def C77_creation_full : Prop :=
  ∀ (f : Fn) (addr : Nat → Nat), Function.Injective addr → (f.vars.map fun v => v.name).Nodup →
    (∀ x y, DimReads f x y → y ∈ f.vars.map fun v => v.name) →
    (∀ x, ¬ Relation.TransGen (DimReads f) x x) →
    ∃ l, creationOrder f addr = .done l ∧ l.Nodup ∧
      (∀ x, x ∈ l ↔ ∃ v ∈ f.vars, v.input = false ∧ v.name = x) ∧
      ∀ l1 x l2, l = l1 ++ x :: l2 → ∀ y, DimReads f x y → y ∈ f.inputs ∨ y ∈ l1

def C77_full : Prop := C77_calls_full ∧ C77_prologue_full ∧ C77_creation_full

/-! ### Calls -/

theorem C77_mem_inputs (f : Fn) (x : Nat) :
    x ∈ f.inputs ↔ ∃ v ∈ f.vars, v.input = true ∧ v.name = x := by
  simp only [Fn.inputs, List.mem_map, List.mem_filter]
  exact ⟨fun ⟨v, ⟨h1, h2⟩, h3⟩ => ⟨v, h1, h2, h3⟩, fun ⟨v, h1, h2, h3⟩ => ⟨v, ⟨h1, h2⟩, h3⟩⟩

theorem C77_inputs_nodup {f : Fn} (h : FnOk f) : f.inputs.Nodup :=
  h.names.sublist (List.filter_sublist.map _)

theorem C77_deps {defaults : List (Nat × Body)} (h : (defaults.map Prod.fst).Nodup) (x y : Nat) :
    y ∈ defaultDeps defaults x ↔ ReadsVar defaults x y := by
  unfold defaultDeps ReadsVar
  cases hf : find defaults x with
  | none =>
    have := (find_none h x).1 hf
    simp only [List.not_mem_nil, false_iff]
    rintro ⟨b, hb, -⟩
    exact this b hb
  | some b =>
    have hb := (find_iff h x b).1 hf
    simp only [List.mem_flatMap]
    constructor
    · rintro ⟨o, ho, hy⟩
      exact ⟨b, hb, o, ho, hy⟩
    · rintro ⟨b', hb', o, ho, hy⟩
      have := (find_iff h x b').2 hb'
      rw [hf] at this
      cases this
      exact ⟨o, ho, hy⟩

theorem C77_zip_supplies {ns args : List Nat} (hn : ns.Nodup) :
    ((ns.zip args).map Prod.fst).Nodup := by
  induction ns generalizing args with
  | nil => simp
  | cons n ns ih =>
    cases args with
    | nil => simp
    | cons a args =>
      simp only [List.nodup_cons] at hn
      simp only [List.zip_cons_cons, List.map_cons, List.nodup_cons]
      refine ⟨fun h => ?_, ih hn.2⟩
      obtain ⟨p, hp, e⟩ := List.mem_map.1 h
      exact hn.1 (e ▸ (List.of_mem_zip hp).1)

/-- The arguments supplied, as pairs. -/
theorem C77_pairs (f : Fn) (c : Call) : ∃ ns : List Nat, ns = (c.names.getD f.inputs) ∧
    ∀ x v, Supplies f c x v ↔ (x, v) ∈ ns.zip c.args := by
  refine ⟨_, rfl, fun x v => ?_⟩
  unfold Supplies
  cases c.names <;> rfl

theorem C77_mem_drop {l : List Nat} (hn : l.Nodup) (args : List Nat) (x : Nat)
    (hx : x ∈ l) : x ∈ l.drop args.length ↔ ∀ v, (x, v) ∉ l.zip args := by
  induction l generalizing args with
  | nil => cases hx
  | cons y l ih =>
    simp only [List.nodup_cons] at hn
    cases args with
    | nil => simpa using hx
    | cons a args =>
      simp only [List.length_cons, List.drop_succ_cons, List.zip_cons_cons, List.mem_cons,
        Prod.mk.injEq, not_or]
      rcases List.mem_cons.1 hx with rfl | hx'
      · constructor
        · intro h
          exact absurd (List.mem_of_mem_drop h) hn.1
        · intro h
          exact absurd ⟨rfl, rfl⟩ (h a).1
      · rw [ih hn.2 args hx']
        have hxy : x ≠ y := by
          rintro rfl
          exact hn.1 hx'
        constructor
        · intro h v
          exact ⟨fun e => hxy e.1, h v⟩
        · intro h v
          exact (h v).2

/-- The order in which the default values are computed. -/
theorem C77_inputOrder (f : Fn) (addr : Nat → Nat) (hinj : Function.Injective addr) (hf : FnOk f)
    (hcl : InputsClosed f) : ∃ l, inputOrder f addr = .done l ∧ l.Nodup ∧
      (∀ x, x ∈ l ↔ x ∈ f.inputs) ∧
      ∀ l1 x l2, l = l1 ++ x :: l2 → ∀ y, ReadsVar f.defaults x y → y ∈ l1 := by
  -- the default values of the other variables are not looked at
  set deps : Nat → List Nat := fun x => if x ∈ f.inputs then defaultDeps f.defaults x else []
  have hsame : inputOrder f addr = Graph.order ⟨f.inputs, deps, addr⟩ := by
    refine order_congr _ _ rfl rfl fun x hx => ?_
    have : x ∈ f.inputs := hx
    simp [deps, this]
  obtain ⟨l, h1, h2, h3, h4⟩ := order_spec ⟨f.inputs, deps, addr⟩ hinj (by
    intro x d hd
    simp only [deps] at hd
    split_ifs at hd with hx
    · exact hcl x hx d ((C77_deps hf.single x d).1 hd)
    · cases hd)
  refine ⟨l, hsame.trans h1, h2, h3, ?_⟩
  intro l1 x l2 he y hy
  have hx : x ∈ f.inputs := (h3 x).1 (by simp [he])
  refine h4 ?_ l1 x l2 he y (by simp only [deps, if_pos hx]; exact (C77_deps hf.single x y).2 hy)
  intro z hz
  refine hf.acyclic z (Relation.TransGen.mono ?_ _ _ hz)
  intro a b hab
  simp only [deps] at hab
  split_ifs at hab
  · exact (C77_deps hf.single a b).1 hab
  · cases hab

/-- The calls, for one interpretation of the operations. -/
theorem C77_call_aux (f : Fn) (addr : Nat → Nat) (n : Nat) (c : Call)
    (hinj : Function.Injective addr) (hf : FnOk f) (hcl : InputsClosed f) (hc : CallOk f n c)
    (hflat : FlatReads f)
    (hsame : ∀ ns, c.names = some ns → ns.length = f.inputs.length → ns = f.inputs)
    {V : Type} (I : Meaning V) (ρ : Nat → V) (vals : List V) (hlen : vals.length = n) :
    ∃ code, convertCall f addr n c = .done code ∧
      ∃ ws, received I ρ vals code = some ws ∧ (∃ a, Binds f c I vals a) ∧
        ∀ a, Binds f c I vals a → ws = f.inputs.map a := by
  subst hlen
  obtain ⟨order, o1, o2, o3, o4⟩ := C77_inputOrder f addr hinj hf hcl
  obtain ⟨ns, hns, hS⟩ := C77_pairs f c
  have hin := C77_inputs_nodup hf
  have hnsn : ns.Nodup := by
    rw [hns]
    cases hnm : c.names with
    | none => exact hin
    | some l => exact (hc.named l hnm).2.1
  have hpn := C77_zip_supplies (args := c.args) hnsn
  have hSf : ∀ x v, Supplies f c x v → find (ns.zip c.args) x = some v := fun x v h =>
    (find_iff hpn x v).2 ((hS x v).1 h)
  have hSk : ∀ x v, find (ns.zip c.args) x = some v → Supplies f c x v := fun x v h =>
    (hS x v).2 ((find_iff hpn x v).1 h)
  have hvb : ∀ x v, Supplies f c x v → v < vals.length := fun x v h =>
    hc.args v (List.of_mem_zip ((hS x v).1 h)).2
  -- the values are determined
  have uniq : ∀ a a', Binds f c I vals a → Binds f c I vals a' → ∀ x ∈ f.inputs, a x = a' x := by
    intro a a' ha ha'
    have key : ∀ l2 l1, order = l1 ++ l2 → (∀ x ∈ l1, a x = a' x) → ∀ x ∈ order, a x = a' x := by
      intro l2
      induction l2 with
      | nil => intro l1 he h x hx; exact h x (by simpa [he] using hx)
      | cons y l2 ih =>
        intro l1 he h
        refine ih (l1 ++ [y]) (by simp [he]) ?_
        intro x hx
        rcases List.mem_append.1 hx with hx | hx
        · exact h x hx
        · rw [List.mem_singleton] at hx
          subst hx
          have hxi : x ∈ f.inputs := (o3 x).1 (by simp [he])
          rcases ha x hxi with ⟨v, h1, h2⟩ | ⟨h1, b, h2, h3⟩ <;>
            rcases ha' x hxi with ⟨v', h1', h2'⟩ | ⟨h1', b', h2', h3'⟩
          · have : v = v' := by
              have e := hSf x v h1
              rw [hSf x v' h1'] at e
              exact (Option.some.inj e).symm
            subst this
            rw [h2] at h2'
            exact Option.some.inj h2'
          · exact absurd h1 (h1' v)
          · exact absurd h1' (h1 v')
          · have : b = b' := by
              have e := (find_iff hf.single x b).2 h2
              rw [(find_iff hf.single x b').2 h2'] at e
              exact (Option.some.inj e).symm
            subst this
            rw [bodyValue_congr I a a' b (fun o ho y hy => h y
              (o4 l1 x l2 he y ⟨b, h2, o, ho, hy⟩)), h3'] at h3
            exact (Option.some.inj h3).symm
    intro x hx
    exact key order [] rfl (by simp) x ((o3 x).2 hx)
  -- the result from some values of the variables
  have fin : ∀ (code : List Op × Call) (ws : List V) (a : Nat → V), Binds f c I vals a →
      received I ρ vals code = some ws → ws = f.inputs.map a →
      ∃ ws, received I ρ vals code = some ws ∧ (∃ a, Binds f c I vals a) ∧
        ∀ a, Binds f c I vals a → ws = f.inputs.map a := by
    intro code ws a ha hr hw
    refine ⟨ws, hr, ⟨a, ha⟩, fun a' ha' => ?_⟩
    rw [hw]
    exact List.map_congr_left fun x hx => uniq a a' ha ha' x hx
  -- the values are computed by the loop, in any case
  set d : V := ρ 0
  have hF0 : Filled I d f.defaults (Supplies f c) [] (ns.zip c.args) vals :=
    ⟨fun x v h => hvb x v (hSk x v h), hSf, fun x v h => Or.inl (hSk x v h), by simp, by simp⟩
  have hdef : ∀ x ∈ order, (∀ v, ¬ Supplies f c x v) → ∃ b, (x, b) ∈ f.defaults ∧ SsaOk 0 b.ops ∧
      b.result < b.ops.length ∧ ∀ o ∈ b.ops, ∀ g as rs, o = .app g as rs → rs = [] := by
    intro x hx hno
    obtain ⟨b, hb⟩ := hc.missing x ((o3 x).1 hx) hno
    exact ⟨b, hb, (hf.ssa _ hb).1, (hf.ssa _ hb).2, hflat _ hb ((o3 x).1 hx)⟩
  have loop : ∀ missing : List (Nat × Nat) → Nat → Bool,
      (∀ (vars' : List (Nat × Nat)) (done' : List Nat) (x : Nat),
        (∀ x v, Supplies f c x v → find vars' x = some v) →
        (∀ x v, find vars' x = some v → Supplies f c x v ∨ x ∈ done') → x ∈ order → x ∉ done' →
        (missing vars' x = true ↔ ∀ v, ¬ Supplies f c x v)) →
      ∃ vars' ops W', fillLoop f.defaults missing order (ns.zip c.args) vals.length =
          some (vars', ops) ∧ valuesAfter I ρ vals ops = some (vals ++ W') ∧
        Filled I d f.defaults (Supplies f c) order vars' (vals ++ W') := by
    intro missing hm
    obtain ⟨vars', ops, W', h1, h2, h3⟩ := fillLoop_spec I ρ d f.defaults hf.single (Supplies f c)
      missing order [] (ns.zip c.args) vals hF0 (by simpa using o2) hm hdef
      (fun l1 x l2 he y hy => Or.inr (o4 l1 x l2 he y hy))
    exact ⟨vars', ops, W', h1, h2, by simpa using h3⟩
  have hbinds : ∀ (vars' : List (Nat × Nat)) (W' : List V),
      Filled I d f.defaults (Supplies f c) order vars' (vals ++ W') →
      Binds f c I vals (valueOf d vars' (vals ++ W')) := by
    intro vars' W' h3 x hx
    by_cases hs : ∃ v, Supplies f c x v
    · obtain ⟨v, hv⟩ := hs
      refine Or.inl ⟨v, hv, ?_⟩
      have hlt := hvb x v hv
      rw [← valueOf_get (h3.given x v hv) (h3.bound x v (h3.given x v hv)),
        List.getElem?_append_left hlt]
    · simp only [not_exists] at hs
      obtain ⟨b, h4, h5, -⟩ := h3.value x ((o3 x).2 hx) hs
      exact Or.inr ⟨hs, b, h4, h5⟩
  simp only [convertCall, o1]
  by_cases hm : hasMissingArgs f c = true
  · simp only [hm, if_true]
    have hfill : ∃ vars' ops W', fillCall f order vals.length c =
          (f.inputs.mapM fun x => find vars' x).map (fun args => (ops, ⟨none, args⟩)) ∧
        valuesAfter I ρ vals ops = some (vals ++ W') ∧
        Filled I d f.defaults (Supplies f c) order vars' (vals ++ W') := by
      cases hnm : c.names with
      | some l =>
        rw [hnm, Option.getD_some] at hns
        subst hns
        obtain ⟨vars', ops, W', h1, h2⟩ := loop (fun vars x => (find vars x).isNone) (by
          intro vars' done' x h1 h2 hx hxd
          simp only [Option.isNone_iff_eq_none, Option.eq_none_iff_forall_ne_some]
          constructor
          · intro h v hv
            exact h v (h1 x v hv)
          · intro h v hv
            rcases h2 x v hv with h' | h'
            · exact h v h'
            · exact hxd h')
        exact ⟨vars', ops, W', by simp only [fillCall, hnm, h1], h2⟩
      | none =>
        rw [hnm, Option.getD_none] at hns
        subst hns
        obtain ⟨vars', ops, W', h1, h2⟩ := loop
          (fun _ x => (f.inputs.drop c.args.length).contains x) (by
          intro vars' done' x h1 h2 hx hxd
          simp only [List.contains_iff_mem]
          rw [C77_mem_drop hin c.args x ((o3 x).1 hx)]
          simp only [hS])
        refine ⟨vars', ops, W', ?_, h2⟩
        simp only [fillCall, hnm]
        rw [if_neg (by have := hc.positional hnm; omega), h1]
    obtain ⟨vars', ops, W', h1, h2, h3⟩ := hfill
    have hargs : ∃ args, (f.inputs.mapM fun x => find vars' x) = some args ∧
        (args.mapM fun v => (vals ++ W')[v]?) =
          some (f.inputs.map (valueOf d vars' (vals ++ W'))) := by
      have : ∀ l : List Nat, (∀ x ∈ l, x ∈ order) → ∃ args, (l.mapM fun x => find vars' x) =
          some args ∧ (args.mapM fun v => (vals ++ W')[v]?) =
          some (l.map (valueOf d vars' (vals ++ W'))) := by
        intro l
        induction l with
        | nil => intro _; exact ⟨[], rfl, rfl⟩
        | cons x l ih =>
          intro hl
          obtain ⟨args, g1, g2⟩ := ih fun y hy => hl y (by simp [hy])
          obtain ⟨v, hv⟩ := h3.vis x (hl x (by simp))
          refine ⟨v :: args, ?_, ?_⟩
          · simp only [List.mapM_cons, hv, g1]; rfl
          · simp only [List.mapM_cons, valueOf_get (d := d) hv (h3.bound x v hv), g2, List.map_cons]
            rfl
      exact this _ fun x hx => (o3 x).2 hx
    obtain ⟨args, a1, a2⟩ := hargs
    have hfc : fillCall f order vals.length c = some (ops, ⟨none, args⟩) := by
      rw [h1, a1]
      rfl
    rw [hfc]
    refine ⟨_, rfl, fin _ _ _ (hbinds _ _ h3) ?_ rfl⟩
    simp only [received, h2, Option.bind_some, a2]
  · simp only [hm, Bool.false_eq_true, if_false]
    refine ⟨_, rfl, ?_⟩
    have hl : c.args.length = f.inputs.length := by
      simpa [hasMissingArgs] using hm
    have hnsi : ns = f.inputs := by
      rw [hns]
      cases hnm : c.names with
      | none => rfl
      | some l => exact hsame l hnm ((hc.named l hnm).1.trans hl)
    obtain ⟨vars', ops, W', h1, h2, h3⟩ := loop (fun vars x => (find vars x).isNone) (by
      intro vars' done' x h1 h2 hx hxd
      simp only [Option.isNone_iff_eq_none, Option.eq_none_iff_forall_ne_some]
      constructor
      · intro h v hv
        exact h v (h1 x v hv)
      · intro h v hv
        rcases h2 x v hv with h' | h'
        · exact h v h'
        · exact hxd h')
    have hb := hbinds _ _ h3
    refine fin _ (f.inputs.map (valueOf d vars' (vals ++ W'))) _ hb ?_ rfl
    simp only [received, valuesAfter, Option.bind_some]
    have : ∀ (l args : List Nat), args.length = l.length →
        (∀ x v, (x, v) ∈ l.zip args → vals[v]? = some (valueOf d vars' (vals ++ W') x)) →
        (args.mapM fun v => vals[v]?) = some (l.map (valueOf d vars' (vals ++ W'))) := by
      intro l
      induction l with
      | nil =>
        intro args hl _
        rw [List.length_nil, List.length_eq_zero_iff] at hl
        subst hl
        rfl
      | cons x l ih =>
        intro args hl hz
        cases args with
        | nil => simp at hl
        | cons v args =>
          have g := ih args (by simpa using hl) fun y u hy => hz y u (by simp [hy])
          simp only [List.mapM_cons, hz x v (by simp), g, List.map_cons]
          rfl
    refine this f.inputs c.args hl fun x v hxv => ?_
    have hs : Supplies f c x v := (hS x v).2 (hnsi ▸ hxv)
    have hlt := hvb x v hs
    rw [← valueOf_get (h3.given x v hs) (h3.bound x v (h3.given x v hs)),
      List.getElem?_append_left hlt]

/-- For the default values without reads inside regions, and the calls that either lack some argument,
or have no names, or name the arguments in the order of declaration: the statement holds.

Missing with respect to `C77_calls_full`: the calls with all arguments named in another order, and the
default values that read variables inside the regions of their operations, for which it is false
(`C77_named_false`, `C77_region_false`). -/
theorem C77_calls_partial (f : Fn) (addr : Nat → Nat) (n : Nat) (c : Call)
    (hinj : Function.Injective addr) (hf : FnOk f) (hcl : InputsClosed f) (hc : CallOk f n c)
    (hflat : FlatReads f)
    (hsame : ∀ ns, c.names = some ns → ns.length = f.inputs.length → ns = f.inputs) :
    ∃ code, convertCall f addr n c = .done code ∧
    ∀ (V : Type) (I : Meaning V) (ρ : Nat → V) (vals : List V), vals.length = n →
      ∃ ws, received I ρ vals code = some ws ∧ (∃ a, Binds f c I vals a) ∧
        ∀ a, Binds f c I vals a → ws = f.inputs.map a := by
  obtain ⟨code, h1, -⟩ := C77_call_aux f addr n c hinj hf hcl hc hflat hsame (V := Unit)
    (fun _ _ _ => ()) (fun _ => ()) (List.replicate n ()) (by simp)
  refine ⟨code, h1, fun V I ρ vals hlen => ?_⟩
  obtain ⟨code', h1', h2⟩ := C77_call_aux f addr n c hinj hf hcl hc hflat hsame I ρ vals hlen
  rw [h1] at h1'
  cases h1'
  exact h2

/-- A default value of an input variable that reads a variable that is not an input: undefined
behaviour, whatever the call. -/
theorem C77_calls_crash (f : Fn) (addr : Nat → Nat) (n : Nat) (c : Call)
    (hinj : Function.Injective addr) (hf : FnOk f) (x y : Nat) (hx : x ∈ f.inputs)
    (hr : ReadsVar f.defaults x y) (hy : y ∉ f.inputs) : convertCall f addr n c = .crash := by
  have := order_crash ⟨f.inputs, defaultDeps f.defaults, addr⟩ hinj x hx y
    ((C77_deps hf.single x y).2 hr) hy
  simp only [convertCall, inputOrder, this]

/-! ### Protected and output variables -/

theorem C77_own (f : Fn) (x : Nat) (b : Body) :
    (x, b) ∈ f.ownDefaults ↔ (x, b) ∈ f.defaults ∧ x ∉ f.inputs := by
  simp [Fn.ownDefaults]

theorem C77_own_single {f : Fn} (hf : FnOk f) : (f.ownDefaults.map Prod.fst).Nodup :=
  hf.single.sublist (List.filter_sublist.map _)

theorem C77_own_mem (f : Fn) (x : Nat) : x ∈ f.ownDefaults.map Prod.fst ↔ OwnDefault f x := by
  simp only [List.mem_map, OwnDefault]
  constructor
  · rintro ⟨⟨y, b⟩, h, rfl⟩
    exact ⟨((C77_own f y b).1 h).2, b, ((C77_own f y b).1 h).1⟩
  · rintro ⟨h, b, hb⟩
    exact ⟨(x, b), (C77_own f x b).2 ⟨hb, h⟩, rfl⟩

theorem C77_own_reads (f : Fn) (x y : Nat) :
    ReadsVar f.ownDefaults x y ↔ x ∉ f.inputs ∧ ReadsVar f.defaults x y := by
  constructor
  · rintro ⟨b, hb, h⟩
    exact ⟨((C77_own f x b).1 hb).2, b, ((C77_own f x b).1 hb).1, h⟩
  · rintro ⟨h, b, hb, h'⟩
    exact ⟨b, (C77_own f x b).2 ⟨hb, h⟩, h'⟩

/-- When the default values of the protected and output variables read only variables of the same kind
that have a default value, the variables are initialized as declared.

Missing with respect to `C77_prologue_full`: the default values that read an input variable, or a
variable without default value; see `C77_prologue_crash`. -/
theorem C77_prologue_partial (f : Fn) (addr : Nat → Nat) (hinj : Function.Injective addr)
    (hf : FnOk f) (hcl : ∀ x y, OwnDefault f x → ReadsVar f.defaults x y → OwnDefault f y) :
    ∃ stms, prologue f addr = .done stms ∧
    ∀ (V : Type) (I : Meaning V) (ρ : Nat → V),
      ∃ ρ', exec I [] ρ stms = some ρ' ∧ Initialized f I ρ ρ' := by
  have hs := C77_own_single hf
  obtain ⟨order, o1, o2, o3, o4⟩ := order_spec
    ⟨f.ownDefaults.map Prod.fst, defaultDeps f.ownDefaults, addr⟩ hinj (by
      intro x d hd
      obtain ⟨b, hb, h⟩ := (C77_deps hs x d).1 hd
      have hb' := (C77_own f x b).1 hb
      exact (C77_own_mem f d).2 (hcl x d ⟨hb'.2, b, hb'.1⟩ ⟨b, hb'.1, h⟩))
  have o4' := o4 (by
    intro z hz
    refine hf.acyclic z (Relation.TransGen.mono ?_ _ _ hz)
    intro a b hab
    exact ((C77_own_reads f a b).1 ((C77_deps hs a b).1 hab)).2)
  have aux : ∀ (V : Type) (I : Meaning V) (ρ : Nat → V), ∃ stms, prologue f addr = .done stms ∧
      ∃ ρ', exec I [] ρ stms = some ρ' ∧ Initialized f I ρ ρ' := by
    intro V I ρ
    obtain ⟨stms, ρ', h1, h2, h3, h4⟩ := assignments_spec I f.ownDefaults hs
      (fun p hp => hf.ssa p ((C77_own f p.1 p.2).1 hp).1) order [] [] ρ (by simpa using o2)
      (by simp) (by simp)
      (fun l1 x l2 he y hy => Or.inr (o4' l1 x l2 he y ((C77_deps hs x y).2 hy)))
    refine ⟨stms, ?_, ρ', h2, ?_, ?_⟩
    · simp only [prologue, o1]
      simp only [List.length_nil] at h1
      rw [h1]
    · intro x b hb hx
      refine h3 x b ((C77_own f x b).2 ⟨hb, hx⟩) ?_
      simp only [List.nil_append]
      exact (o3 x).2 ((C77_own_mem f x).2 ⟨hx, b, hb⟩)
    · intro x hx
      refine h4 x ?_
      rintro ⟨-, b, hb⟩
      have := (C77_own f x b).1 hb
      exact hx ⟨this.2, b, this.1⟩
  obtain ⟨stms, h1, -⟩ := aux Unit (fun _ _ _ => ()) (fun _ => ())
  refine ⟨stms, h1, fun V I ρ => ?_⟩
  obtain ⟨stms', h1', h2⟩ := aux V I ρ
  rw [h1] at h1'
  cases h1'
  exact h2

/-- In all other cases the conversion has undefined behaviour: a null pointer is dereferenced while
visiting the graph. -/
theorem C77_prologue_crash (f : Fn) (addr : Nat → Nat) (hinj : Function.Injective addr)
    (hf : FnOk f) (x y : Nat) (hx : OwnDefault f x) (hr : ReadsVar f.defaults x y)
    (hy : ¬ OwnDefault f y) : prologue f addr = .crash := by
  have hs := C77_own_single hf
  have := order_crash ⟨f.ownDefaults.map Prod.fst, defaultDeps f.ownDefaults, addr⟩ hinj x
    ((C77_own_mem f x).2 hx) y ((C77_deps hs x y).2 ((C77_own_reads f x y).2 ⟨hx.1, hr⟩))
    (fun h => hy ((C77_own_mem f y).1 h))
  simp only [prologue, this]

/-! ### Dimensions -/

theorem C77_mem_created (f : Fn) (x : Nat) :
    x ∈ (f.vars.filter fun v => !v.input).map (fun v => v.name) ↔
      ∃ v ∈ f.vars, v.input = false ∧ v.name = x := by
  simp only [List.mem_map, List.mem_filter, Bool.not_eq_true']
  exact ⟨fun ⟨v, ⟨h1, h2⟩, h3⟩ => ⟨v, h1, h2, h3⟩, fun ⟨v, h1, h2, h3⟩ => ⟨v, ⟨h1, h2⟩, h3⟩⟩

theorem C77_dimDeps {f : Fn} (hn : (f.vars.map fun v => v.name).Nodup) (x y : Nat) :
    y ∈ dimDeps f x ↔ ∃ v ∈ f.vars, v.name = x ∧ Op.get y ∈ v.dims := by
  have huniq : ∀ v ∈ f.vars, ∀ w ∈ f.vars, v.name = w.name → v = w := by
    intro v hv w hw h
    exact List.inj_on_of_nodup_map hn hv hw h
  unfold dimDeps
  cases hf : f.vars.find? fun v => v.name = x with
  | none =>
    rw [List.find?_eq_none] at hf
    simp only [List.not_mem_nil, false_iff]
    rintro ⟨v, hv, h, -⟩
    exact hf v hv (by simpa using h)
  | some v =>
    have h1 := List.mem_of_find?_eq_some hf
    have h2 : v.name = x := by simpa using List.find?_some hf
    simp only [List.mem_flatMap]
    constructor
    · rintro ⟨o, ho, h⟩
      cases o with
      | get z =>
        simp only [List.mem_singleton] at h
        exact ⟨v, h1, h2, h ▸ ho⟩
      | app g as rs => simp at h
    · rintro ⟨w, hw, hwx, h⟩
      obtain rfl := huniq w hw v h1 (hwx.trans h2.symm)
      exact ⟨_, h, by simp⟩

/-- When the dimensions of the output and protected variables read only variables of the same kind, and
not inside the regions of operations: each variable is created once, after those its dimensions
read.

Missing with respect to `C77_creation_full`: the dimensions that read an input variable
(`C77_creation_crash`), and the reads inside regions (`C77_creation_region_false`). -/
theorem C77_creation_partial (f : Fn) (addr : Nat → Nat) (hinj : Function.Injective addr)
    (hn : (f.vars.map fun v => v.name).Nodup)
    (hcl : ∀ v ∈ f.vars, v.input = false → ∀ o ∈ v.dims, ∀ y ∈ o.reads,
      o = .get y ∧ ∃ w ∈ f.vars, w.input = false ∧ w.name = y)
    (hac : ∀ x, ¬ Relation.TransGen (DimReads f) x x) :
    ∃ l, creationOrder f addr = .done l ∧ l.Nodup ∧
      (∀ x, x ∈ l ↔ ∃ v ∈ f.vars, v.input = false ∧ v.name = x) ∧
      ∀ l1 x l2, l = l1 ++ x :: l2 → ∀ y, DimReads f x y → y ∈ l1 := by
  have huniq : ∀ v ∈ f.vars, ∀ w ∈ f.vars, v.name = w.name → v = w := fun v hv w hw h =>
    List.inj_on_of_nodup_map hn hv hw h
  set nodes := (f.vars.filter fun v => !v.input).map fun v => v.name with hnodes
  set deps : Nat → List Nat := fun x => if x ∈ nodes then dimDeps f x else []
  have hsame : creationOrder f addr = Graph.order ⟨nodes, deps, addr⟩ := by
    refine order_congr _ _ rfl rfl fun x hx => ?_
    have : x ∈ nodes := hx
    simp [deps, this]
  obtain ⟨l, h1, h2, h3, h4⟩ := order_spec ⟨nodes, deps, addr⟩ hinj (by
    intro x d hd
    simp only [deps] at hd
    split_ifs at hd with hx
    · obtain ⟨v, hv, hvx, hg⟩ := (C77_dimDeps hn x d).1 hd
      obtain ⟨w, hw, hwi, hwx⟩ := (C77_mem_created f x).1 hx
      obtain rfl := huniq v hv w hw (hvx.trans hwx.symm)
      exact (C77_mem_created f d).2 (hcl v hv hwi _ hg d (by simp [Op.reads])).2
    · cases hd)
  refine ⟨l, hsame.trans h1, h2, fun x => (h3 x).trans (C77_mem_created f x), ?_⟩
  intro l1 x l2 he y hy
  have hx : x ∈ nodes := (h3 x).1 (by simp [he])
  refine h4 ?_ l1 x l2 he y ?_
  · intro z hz
    refine hac z (Relation.TransGen.mono ?_ _ _ hz)
    intro a b hab
    simp only [deps] at hab
    split_ifs at hab
    · obtain ⟨v, hv, hvx, hg⟩ := (C77_dimDeps hn a b).1 hab
      exact ⟨v, hv, hvx, _, hg, by simp [Op.reads]⟩
    · cases hab
  · simp only [deps, if_pos hx]
    obtain ⟨v, hv, hvx, o, ho, hyo⟩ := hy
    obtain ⟨w, hw, hwi, hwx⟩ := (C77_mem_created f x).1 hx
    obtain rfl := huniq v hv w hw (hvx.trans hwx.symm)
    obtain ⟨rfl, -⟩ := hcl v hv hwi o ho y hyo
    exact (C77_dimDeps hn x y).2 ⟨v, hv, hvx, ho⟩

/-- The dimensions of an output or protected variable read an input variable: undefined behaviour. -/
theorem C77_creation_crash (f : Fn) (addr : Nat → Nat) (hinj : Function.Injective addr)
    (hn : (f.vars.map fun v => v.name).Nodup) (v w : Var) (hv : v ∈ f.vars) (hvi : v.input = false)
    (hw : w ∈ f.vars) (hwi : w.input = true) (hg : Op.get w.name ∈ v.dims) :
    creationOrder f addr = .crash := by
  refine order_crash ⟨_, dimDeps f, addr⟩ hinj v.name ((C77_mem_created f _).2 ⟨v, hv, hvi, rfl⟩)
    w.name ((C77_dimDeps hn _ _).2 ⟨v, hv, rfl, hg⟩) ?_
  intro h
  obtain ⟨u, hu, hui, huw⟩ := (C77_mem_created f _).1 h
  obtain rfl := List.inj_on_of_nodup_map hn hu hw huw
  rw [hui] at hwi
  cases hwi

/-! ### Counterexamples -/

theorem C77_acyclic_rank {R : Nat → Nat → Prop} (rank : Nat → Nat)
    (h : ∀ x y, R x y → rank y < rank x) : ∀ x, ¬ Relation.TransGen R x x := by
  have key : ∀ x y, Relation.TransGen R x y → rank y < rank x := by
    intro x y hxy
    induction hxy with
    | single h1 => exact h _ _ h1
    | tail _ h1 ih => exact lt_trans (h _ _ h1) ih
  intro x hx
  exact lt_irrefl _ (key x x hx)

/-- A decidable form of the conditions on a function. -/
theorem C77_fnOk (f : Fn) (rank : Nat → Nat) (h1 : (f.vars.map fun v => v.name).Nodup)
    (h2 : (f.defaults.map Prod.fst).Nodup)
    (h3 : ∀ d ∈ f.defaults, d.1 ∈ f.vars.map fun v => v.name)
    (h4 : ∀ d ∈ f.defaults, SsaOk 0 d.2.ops ∧ d.2.result < d.2.ops.length)
    (h5 : ∀ d ∈ f.defaults, ∀ o ∈ d.2.ops, ∀ y ∈ o.reads, (y ∈ f.vars.map fun v => v.name) ∧
      rank y < rank d.1) : FnOk f := by
  refine ⟨h1, h2, h3, h4, ?_, ?_⟩
  · rintro x y ⟨b, hb, o, ho, hy⟩
    exact (h5 _ hb o ho y hy).1
  · refine C77_acyclic_rank rank ?_
    rintro x y ⟨b, hb, o, ho, hy⟩
    exact (h5 _ hb o ho y hy).2

/-- A function with two input variables. -/
def C77_two : Fn := ⟨[⟨0, true, []⟩, ⟨1, true, []⟩], []⟩

/-- All arguments are named, but not in the order of declaration: the names are ignored. -/
theorem C77_named_false : ¬ C77_calls_full := by
  intro h
  have hok : FnOk C77_two := C77_fnOk _ (fun _ => 0) (by decide) (by decide) (by decide)
    (by simp [C77_two]) (by simp [C77_two])
  have hc : CallOk C77_two 2 ⟨some [1, 0], [0, 1]⟩ := by
    refine ⟨by decide, ?_, by simp, ?_⟩
    · intro ns hns
      simp only [Option.some.injEq] at hns
      subst hns
      decide
    · intro x hx hno
      have : x = 0 ∨ x = 1 := by simpa [C77_two, Fn.inputs] using hx
      rcases this with rfl | rfl
      · exact absurd (show Supplies C77_two ⟨some [1, 0], [0, 1]⟩ 0 1 by
          simp only [Supplies]; decide) (hno 1)
      · exact absurd (show Supplies C77_two ⟨some [1, 0], [0, 1]⟩ 1 0 by
          simp only [Supplies]; decide) (hno 0)
  obtain ⟨code, h1, h2⟩ := h C77_two id 2 ⟨some [1, 0], [0, 1]⟩ (fun _ _ h => h) hok
    (by rintro x hx y ⟨b, hb, -⟩; cases hb) hc
  have e : convertCall C77_two id 2 ⟨some [1, 0], [0, 1]⟩ =
    .done ([], ⟨some [1, 0], [0, 1]⟩) := by decide +kernel
  rw [e] at h1
  cases h1
  obtain ⟨ws, h3, -, h4⟩ := h2 Nat (fun _ _ _ => 0) (fun _ => 0) [5, 6] rfl
  have e2 : received (fun _ _ _ => 0) (fun _ => 0) [5, 6] ([], ⟨some [1, 0], [0, 1]⟩) =
    some [5, 6] := by decide +kernel
  rw [e2] at h3
  cases h3
  have := h4 (fun x => if x = 0 then 6 else 5) (by
    intro x hx
    left
    have : x = 0 ∨ x = 1 := by simpa [C77_two, Fn.inputs] using hx
    rcases this with rfl | rfl
    · exact ⟨1, by simp only [Supplies]; decide, rfl⟩
    · exact ⟨0, by simp only [Supplies]; decide, rfl⟩)
  exact absurd this (by decide)

/-- The default value of the second input variable is an operation that reads the first one inside its
region, for example a reduction. -/
def C77_region : Fn := ⟨[⟨0, true, []⟩, ⟨1, true, []⟩], [(1, ⟨[.app 0 [] [0]], 0⟩)]⟩

/-- The region is copied before the call as it is: what it reads is the variable of the caller with the
same name, if there is one. -/
theorem C77_region_false :
    FnOk C77_region ∧ InputsClosed C77_region ∧ CallOk C77_region 1 ⟨none, [0]⟩ ∧
    convertCall C77_region id 1 ⟨none, [0]⟩ = .done ([.app 0 [] [0]], ⟨none, [0, 1]⟩) ∧
    received (fun _ _ rs => rs.headD 0) (fun _ => 7) [5] ([.app 0 [] [0]], ⟨none, [0, 1]⟩) =
      some [5, 7] ∧
    Binds C77_region ⟨none, [0]⟩ (fun _ _ rs => rs.headD 0) [5] (fun _ => 5) := by
  refine ⟨C77_fnOk _ id (by decide) (by decide) (by decide) (by simp [C77_region, SsaOk])
    (by decide), ?_, ?_, by decide +kernel, by decide +kernel, ?_⟩
  · rintro x hx y ⟨b, hb, o, ho, hy⟩
    obtain ⟨rfl, rfl⟩ : x = 1 ∧ b = ⟨[.app 0 [] [0]], 0⟩ := by simpa [C77_region] using hb
    simp only [List.mem_singleton] at ho
    subst ho
    simp only [Op.reads, List.mem_singleton] at hy
    subst hy
    decide
  · refine ⟨by decide, by simp, by decide, ?_⟩
    intro x hx hno
    have : x = 0 ∨ x = 1 := by simpa [C77_region, Fn.inputs] using hx
    rcases this with rfl | rfl
    · exact absurd (show Supplies C77_region ⟨none, [0]⟩ 0 0 by
        simp only [Supplies]; decide) (hno 0)
    · exact ⟨_, by simp [C77_region]; rfl⟩
  · intro x hx
    have : x = 0 ∨ x = 1 := by simpa [C77_region, Fn.inputs] using hx
    rcases this with rfl | rfl
    · exact Or.inl ⟨0, by simp only [Supplies]; decide, rfl⟩
    · refine Or.inr ⟨?_, ⟨[.app 0 [] [0]], 0⟩, by simp [C77_region], by decide +kernel⟩
      intro v hv
      simp [Supplies, C77_region, Fn.inputs] at hv

/-- `input Real x; protected Real w = x;`: the default value reads an input variable. -/
def C77_protected : Fn := ⟨[⟨0, true, []⟩, ⟨1, false, []⟩], [(1, ⟨[.get 0], 0⟩)]⟩

theorem C77_protected_ok : FnOk C77_protected :=
  C77_fnOk _ id (by decide) (by decide) (by decide) (by simp [C77_protected, SsaOk]) (by decide)

theorem C77_prologue_false : ¬ C77_prologue_full := by
  intro h
  obtain ⟨stms, h1, -⟩ := h C77_protected id (fun _ _ h => h) C77_protected_ok
  have e := C77_prologue_crash C77_protected id (fun _ _ h => h) C77_protected_ok 1 0
    ⟨by decide, ⟨[.get 0], 0⟩, by simp [C77_protected]⟩
    ⟨⟨[.get 0], 0⟩, by simp [C77_protected], .get 0, by simp, by simp [Op.reads]⟩
    (fun h => h.1 (by decide))
  rw [h1] at e
  cases e

/-- `input Integer n; protected Real w[n];`: the dimension reads an input variable. -/
def C77_sized : Fn := ⟨[⟨0, true, []⟩, ⟨1, false, [.get 0]⟩], []⟩

theorem C77_creation_false : ¬ C77_creation_full := by
  intro h
  have hr : ∀ x y, DimReads C77_sized x y → x = 1 ∧ y = 0 := by
    rintro x y ⟨v, hv, rfl, o, ho, hy⟩
    simp only [C77_sized, List.mem_cons, List.not_mem_nil, or_false] at hv
    rcases hv with rfl | rfl
    · cases ho
    · simp only [List.mem_singleton] at ho
      subst ho
      exact ⟨rfl, by simpa [Op.reads] using hy⟩
  obtain ⟨l, h1, -⟩ := h C77_sized id (fun _ _ h => h) (by decide)
    (fun x y hxy => by rw [(hr x y hxy).2]; decide)
    (C77_acyclic_rank id fun x y hxy => by
      obtain ⟨rfl, rfl⟩ := hr x y hxy
      decide)
  have e := C77_creation_crash C77_sized id (fun _ _ h => h) (by decide) ⟨1, false, [.get 0]⟩
    ⟨0, true, []⟩ (by simp [C77_sized]) rfl (by simp [C77_sized]) rfl (by simp)
  rw [h1] at e
  cases e

/-- The dimension of the first variable reads the second one inside a region: the dependency is not
seen, and the order is wrong. -/
theorem C77_creation_region_false :
    DimReads ⟨[⟨0, false, [.app 0 [] [1]]⟩, ⟨1, false, []⟩], []⟩ 0 1 ∧
    creationOrder ⟨[⟨0, false, [.app 0 [] [1]]⟩, ⟨1, false, []⟩], []⟩ id = .done [0, 1] := by
  refine ⟨⟨_, List.mem_cons_self, rfl, _, List.mem_cons_self, ?_⟩, by decide +kernel⟩
  simp [Op.reads]

theorem C77_full_false : ¬ C77_full := fun h => C77_prologue_false h.2.1

/-! ### Examples -/

/-- The function of the test `input-variable.mlir`: the default value of `y` is `3 * z`, and the one of
`z` is `2 * x`; moreover, the default value of the protected variable 3 is the double of the variable
5, whose default value is a constant; the dimension of 5 reads 3; 4 has no default value. -/
def C77_sample : Fn :=
  ⟨[⟨0, true, []⟩, ⟨1, true, []⟩, ⟨2, true, []⟩, ⟨5, false, [.get 3]⟩, ⟨3, false, []⟩, ⟨4, false, []⟩],
    [(1, ⟨[.get 2, .app 3 [] [], .app 10 [0, 1] []], 2⟩),
     (2, ⟨[.get 0, .app 2 [] [], .app 10 [0, 1] []], 2⟩),
     (3, ⟨[.get 5, .get 5, .app 11 [0, 1] []], 2⟩),
     (5, ⟨[.app 4 [] []], 0⟩)]⟩

theorem C77_sample_ok : FnOk C77_sample :=
  C77_fnOk _ (fun x => if x = 1 then 2 else if x = 2 then 1 else if x = 3 then 1 else 0) (by decide)
    (by decide) (by decide) (by simp [C77_sample, SsaOk]) (by decide)

theorem C77_sample_closed : InputsClosed C77_sample := by
  have : ∀ d ∈ C77_sample.defaults, d.1 ∈ C77_sample.inputs → ∀ o ∈ d.2.ops, ∀ y ∈ o.reads,
      y ∈ C77_sample.inputs := by decide
  rintro x hx y ⟨b, hb, o, ho, hy⟩
  exact this _ hb hx o ho y hy

theorem C77_sample_flat : FlatReads C77_sample := by
  intro d hd _ o ho g as rs he
  subst he
  simp only [C77_sample, List.mem_cons, List.not_mem_nil, or_false] at hd
  rcases hd with rfl | rfl | rfl | rfl <;> simp at ho <;>
    first | exact ho.2.2 | (rcases ho with ho | ho <;> exact ho.2.2)

/-- The call `f(y = v1, x = v0)`: the argument for `z` is missing. -/
theorem C77_sample_call : CallOk C77_sample 2 ⟨some [1, 0], [1, 0]⟩ := by
  refine ⟨by decide, ?_, by simp, ?_⟩
  · intro ns hns
    simp only [Option.some.injEq] at hns
    subst hns
    decide
  · intro x hx hno
    have : x = 0 ∨ x = 1 ∨ x = 2 := by simpa [C77_sample, Fn.inputs] using hx
    rcases this with rfl | rfl | rfl
    · exact absurd (show Supplies C77_sample ⟨some [1, 0], [1, 0]⟩ 0 0 by
        simp only [Supplies]; decide) (hno 0)
    · exact absurd (show Supplies C77_sample ⟨some [1, 0], [1, 0]⟩ 1 1 by
        simp only [Supplies]; decide) (hno 1)
    · exact ⟨⟨[.get 0, .app 2 [] [], .app 10 [0, 1] []], 2⟩, by simp [C77_sample]⟩

example : convertCall C77_sample id 2 ⟨some [1, 0], [1, 0]⟩ =
    .done ([.app 2 [] [], .app 10 [0, 2] []], ⟨none, [0, 1, 3]⟩) := by decide +kernel

example : ∃ code, convertCall C77_sample id 2 ⟨some [1, 0], [1, 0]⟩ = .done code ∧
    ∀ (V : Type) (I : Meaning V) (ρ : Nat → V) (vals : List V), vals.length = 2 →
      ∃ ws, received I ρ vals code = some ws ∧
        (∃ a, Binds C77_sample ⟨some [1, 0], [1, 0]⟩ I vals a) ∧
        ∀ a, Binds C77_sample ⟨some [1, 0], [1, 0]⟩ I vals a → ws = C77_sample.inputs.map a :=
  C77_calls_partial C77_sample id 2 _ (fun _ _ h => h) C77_sample_ok C77_sample_closed
    C77_sample_call C77_sample_flat (by
      intro ns hns hl
      simp only [Option.some.injEq] at hns
      subst hns
      simp [C77_sample, Fn.inputs] at hl)

/-- Only `x` is given: `y` is computed after `z`, although it is declared before. -/
example : convertCall C77_sample id 1 ⟨none, [0]⟩ =
    .done ([.app 2 [] [], .app 10 [0, 1] [], .app 3 [] [], .app 10 [2, 3] []],
      ⟨none, [0, 4, 2]⟩) := by decide +kernel

example : ∃ stms, prologue C77_sample (fun x => 10 - x) = .done stms ∧
    stms = [.op (.app 4 [] []), .set 5 0, .op (.get 5), .op (.get 5), .op (.app 11 [1, 2] []),
      .set 3 3] := ⟨_, by decide +kernel, rfl⟩

example : ∃ stms, prologue C77_sample id = .done stms ∧
    ∀ (V : Type) (I : Meaning V) (ρ : Nat → V),
      ∃ ρ', exec I [] ρ stms = some ρ' ∧ Initialized C77_sample I ρ ρ' := by
  refine C77_prologue_partial C77_sample id (fun _ _ h => h) C77_sample_ok ?_
  have key : ∀ d ∈ C77_sample.defaults, d.1 ∉ C77_sample.inputs → ∀ o ∈ d.2.ops, ∀ y ∈ o.reads,
      y = 5 := by decide
  rintro x y ⟨hx, -⟩ ⟨b, hb, o, ho, hy⟩
  obtain rfl := key _ hb hx o ho y hy
  exact ⟨by decide, ⟨[.app 4 [] []], 0⟩, by simp [C77_sample]⟩

example : creationOrder C77_sample id = .done [3, 4, 5] := by decide +kernel

example : ∃ l, creationOrder C77_sample id = .done l ∧ l.Nodup ∧
    (∀ x, x ∈ l ↔ ∃ v ∈ C77_sample.vars, v.input = false ∧ v.name = x) ∧
    ∀ l1 x l2, l = l1 ++ x :: l2 → ∀ y, DimReads C77_sample x y → y ∈ l1 := by
  refine C77_creation_partial C77_sample id (fun _ _ h => h) (by decide) (by decide) ?_
  refine C77_acyclic_rank id ?_
  rintro x y ⟨v, hv, rfl, o, ho, hy⟩
  have : ∀ v ∈ C77_sample.vars, ∀ o ∈ v.dims, ∀ y ∈ o.reads, y < v.name := by decide
  exact this v hv o ho y hy

end Marco.Props
