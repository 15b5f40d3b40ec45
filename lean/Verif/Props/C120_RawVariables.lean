import Verif.Lemmas.RawVariables

/-! # C120: the variables of functions have the declared sizes and the assigned values

When a function is entered, its output and protected arrays have the sizes of their declarations. The operations on the variables do
what they do on values: an assignment gives the variable the assigned value, without a change to other variables and to values read
before, and no operation accesses memory that has been released. -/

namespace Marco.Props
open Marco.RawVars Marco.Spec.RawVars

/-- The full statement. -/
def C120_full : Prop :=
  (∀ dims : List Dim, ∃ k, create dims = some (k, declared dims)) ∧
  ∀ (V : Type) (vars : List (Kind × Arr V)) (ops : List (Op V)) (out : List (Arr V)),
    Marco.Spec.RawVars.run false ⟨vars, []⟩ ops = some out → Marco.RawVars.run (start vars) ops = some out

/-- The operations do what they do on values, for all variables and all sequences of operations that use no array after an
assignment to the variable from which it has been read. Missing: those uses (`C120_released`, `C120_overwritten`). -/
theorem C120_run_partial {V : Type} (vars : List (Kind × Arr V)) (ops : List (Op V)) (out : List (Arr V))
    (h : Marco.Spec.RawVars.run true ⟨vars, []⟩ ops = some out) :
    Marco.RawVars.run (start vars) ops = some out ∧ Marco.Spec.RawVars.run false ⟨vars, []⟩ ops = some out := by
  refine ⟨(inv_start vars).run ops h, ?_⟩
  have hstep : ∀ (s : Marco.Spec.RawVars.State V) o p, Marco.Spec.RawVars.step true s o = some p →
      Marco.Spec.RawVars.step false s o = some p := by
    intro s o p hp
    cases o with
    | get x => exact hp
    | make a => exact hp
    | store x k v => exact hp
    | set x r =>
      simp only [Marco.Spec.RawVars.step] at hp ⊢
      split at hp
      · next kind old v hx hv =>
        split at hp
        · next hc => rw [if_pos ⟨rfl, hc.2⟩]; exact hp
        · simp at hp
      · simp at hp
    | use r =>
      simp only [Marco.Spec.RawVars.step] at hp ⊢
      split at hp
      · split at hp
        · simpa using hp
        · simp at hp
      · simp at hp
  have hrun : ∀ (ops : List (Op V)) (s : Marco.Spec.RawVars.State V) out, Marco.Spec.RawVars.run true s ops = some out →
      Marco.Spec.RawVars.run false s ops = some out := by
    intro ops
    induction ops with
    | nil => intro s out h; exact h
    | cons o ops ih =>
      intro s out h
      simp only [Marco.Spec.RawVars.run] at h ⊢
      split at h
      · simp at h
      · next t' out' ht =>
        split at h
        · simp at h
        · next rest hr =>
          simp only [hstep _ _ _ ht, ih _ _ hr]
          exact h
  exact hrun ops _ out h

/-- An array with a pointer that has been read before an assignment to its variable is in released memory after it. -/
theorem C120_released {V : Type} (s t u : Marco.RawVars.State V) (x r : Nat) (ref : Ref) (hx : s.env[x]? = some ref)
    (hk : ref.kind = .pointer) (h1 : Marco.RawVars.get s x = some t) (h2 : Marco.RawVars.set t x r = some u) :
    Marco.RawVars.step u (.use s.regs.length) = none := by
  simp only [Marco.RawVars.get, hx, hk] at h1
  simp only [reduceCtorEq, if_false, Option.some.injEq] at h1
  subst h1
  simp only [Marco.RawVars.set, hx] at h2
  split at h2
  · next q a hq _ =>
    simp only [Option.some.injEq] at hq
    subst hq
    simp only [assign] at h2
    split at h2
    · simp at h2
    · next old hold =>
      rw [if_pos hk, Option.some.injEq] at h2
      subst h2
      have hlt : ref.buf < s.mem.length := load_lt (s := s) hold
      simp only [Marco.RawVars.step, Option.map_eq_none_iff]
      rw [List.getElem?_append_right (Nat.le_refl _)]
      simp only [Nat.sub_self, List.getElem?_cons_zero, Option.bind_some, State.load]
      rw [List.getElem?_set_self (by simp; omega)]
      rfl
  · simp at h2

/-- An array in one buffer that has been read before an assignment to its variable is the assigned value after it. -/
theorem C120_overwritten {V : Type} (s t u : Marco.RawVars.State V) (x r b : Nat) (ref : Ref) (a : Arr V)
    (hx : s.env[x]? = some ref) (hk : ref.kind = .buffer) (hr : s.regs[r]? = some b) (ha : s.load b = some a)
    (h1 : Marco.RawVars.get s x = some t) (h2 : Marco.RawVars.set t x r = some u) :
    Marco.RawVars.step u (.use s.regs.length) = some (u, [a]) := by
  simp only [Marco.RawVars.get, hx, hk] at h1
  simp only [reduceCtorEq, if_false, Option.some.injEq] at h1
  subst h1
  have hrl : r < s.regs.length := (List.getElem?_eq_some_iff.1 hr).1
  have ha' : State.load { s with regs := s.regs ++ [ref.buf] } b = some a := ha
  simp only [Marco.RawVars.set, hx] at h2
  rw [List.getElem?_append_left hrl, hr] at h2
  simp only [Option.bind_some, ha', assign, hk, reduceCtorEq, if_false] at h2
  split at h2
  · simp at h2
  · next old hold =>
    split at h2
    · rw [Option.some.injEq] at h2
      subst h2
      have hlt : ref.buf < s.mem.length := load_lt (s := s) hold
      simp only [Marco.RawVars.step]
      rw [List.getElem?_append_right (Nat.le_refl _)]
      simp only [Nat.sub_self, List.getElem?_cons_zero, Option.bind_some, State.load]
      rw [List.getElem?_set_self hlt]
      rfl
    · simp at h2

/-- The number of buffers that have not been released is the same after all assignments. -/
theorem C120_live {V : Type} (s t : Marco.RawVars.State V) (x r : Nat) (h : Marco.RawVars.set s x r = some t) :
    t.mem.countP Option.isSome = s.mem.countP Option.isSome := by
  simp only [Marco.RawVars.set] at h
  split at h
  · next ref a _ _ =>
    simp only [assign] at h
    split at h
    · simp at h
    · next old hold =>
      have hlt := load_lt hold
      have hm := (load_iff s ref.buf old).1 hold
      have hm' : s.mem[ref.buf] = some old := by
        rw [List.getElem?_eq_getElem hlt, Option.some.injEq] at hm
        exact hm
      have hpos : 0 < s.mem.countP Option.isSome :=
        List.countP_pos_iff.2 ⟨some old, hm' ▸ List.getElem_mem hlt, rfl⟩
      split at h
      · rw [Option.some.injEq] at h
        subst h
        simp only
        rw [List.countP_set (by simp; omega), List.getElem_append_left hlt, hm', List.countP_append]
        simp
      · split at h
        · rw [Option.some.injEq] at h
          subst h
          simp only
          rw [List.countP_set hlt, hm']
          simp
          omega
        · simp at h
  · simp at h

/-- The verification of the declared variable succeeds: there is one size for each fixed dimension. -/
theorem C120_verify (dims : List Dim) : verify dims = true := by
  have h : (constraints dims).count .fixed = (dims.filterMap Marco.RawVars.sizeOf).length := by
    induction dims with
    | nil => rfl
    | cons d dims ih =>
      cases d with
      | expr n =>
        have e : constraints (.expr n :: dims) = .fixed :: constraints dims := rfl
        rw [e, List.count_cons_self, ih]
        rfl
      | num n =>
        have e2 : (Dim.num n :: dims).filterMap Marco.RawVars.sizeOf = dims.filterMap Marco.RawVars.sizeOf := rfl
        by_cases hn : n = -1
        · have e : constraints (.num n :: dims) = .unbounded :: constraints dims := by
            subst hn
            rfl
          rw [e, e2, ← ih]
          simp
        · have e : constraints (.num n :: dims) = constraints dims := by
            simp [constraints, Dim.isDynamic, hn]
          rw [e, e2, ih]
  simp only [verify, beq_iff_eq, yielded]
  split
  · next h0 => simp [h0]
  · exact h

/-- The number of dynamic dimensions. -/
theorem C120_dynamic (dims : List Dim) :
    (dims.map shapeOf).count none = (yielded dims).length + dims.count (.num (-1)) := by
  have hy : (yielded dims).length = (dims.filterMap Marco.RawVars.sizeOf).length := by
    have h := C120_verify dims
    simp only [verify, beq_iff_eq, yielded] at h ⊢
    split
    · next h0 =>
      rw [List.length_nil, eq_comm, List.length_eq_zero_iff]
      refine List.filterMap_eq_nil_iff.2 fun d hd => ?_
      cases d with
      | num n => rfl
      | expr n =>
        exfalso
        rw [List.count_eq_zero] at h0
        apply h0
        simp only [constraints, List.mem_map, List.mem_filter]
        exact ⟨_, ⟨hd, rfl⟩, rfl⟩
    · rfl
  rw [hy]
  clear hy
  induction dims with
  | nil => rfl
  | cons d dims ih =>
    cases d with
    | expr n =>
      have e1 : (Dim.expr n :: dims).map shapeOf = none :: dims.map shapeOf := rfl
      have e2 : (Dim.expr n :: dims).filterMap Marco.RawVars.sizeOf = n :: dims.filterMap Marco.RawVars.sizeOf := rfl
      rw [e1, e2, List.count_cons_self, ih, List.count_cons_of_ne (by simp), List.length_cons]
      omega
    | num n =>
      have e2 : (Dim.num n :: dims).filterMap Marco.RawVars.sizeOf = dims.filterMap Marco.RawVars.sizeOf := rfl
      by_cases hn : n = -1
      · subst hn
        have e1 : (Dim.num (-1) :: dims).map shapeOf = none :: dims.map shapeOf := rfl
        rw [e1, e2, List.count_cons_self, List.count_cons_self, ih]
        omega
      · have e1 : (Dim.num n :: dims).map shapeOf = some n.toNat :: dims.map shapeOf := by
          simp [shapeOf, Dim.isDynamic, hn]
        rw [e1, e2, List.count_cons_of_ne (by simp), List.count_cons_of_ne (by simp [hn]), ih]

/-- The sizes of the first buffers are those of the declarations, when no dimension is an expression. Missing: those dimensions
(`C120_expression`, `C120_mixed`). -/
theorem C120_create_partial (dims : List Dim) (h : ∀ n, Dim.expr n ∉ dims) : ∃ k, create dims = some (k, declared dims) := by
  have hd : (dims.map shapeOf).map zeroed = declared dims := by
    induction dims with
    | nil => rfl
    | cons d dims ih =>
      cases d with
      | expr n => exact absurd (List.mem_cons_self ..) (h n)
      | num n =>
        have := ih fun n hm => h n (List.mem_cons_of_mem _ hm)
        by_cases hn : n = -1
        · subst hn
          simpa [declared, shapeOf, Dim.isDynamic, zeroed] using this
        · simpa [declared, shapeOf, Dim.isDynamic, zeroed, hn] using this
  have hy : yielded dims = [] := by
    simp only [yielded]
    split
    · rfl
    · refine List.filterMap_eq_nil_iff.2 fun d hm => ?_
      cases d with
      | num n => rfl
      | expr n => exact absurd hm (h n)
  simp only [create]
  split
  · next he =>
    simp only [List.isEmpty_iff, List.map_eq_nil_iff] at he
    subst he
    exact ⟨_, rfl⟩
  · split
    · next h0 =>
      rw [hy, List.length_nil] at h0
      rw [if_pos h0.symm, hd]
      exact ⟨_, rfl⟩
    · rw [hd]
      exact ⟨_, rfl⟩

/-- All arrays with a dimension that is an expression, and without `:`, are given an allocation that the verification refuses. -/
theorem C120_expression (dims : List Dim) (n : Nat) (h : .expr n ∈ dims) (hc : Dim.num (-1) ∉ dims) : create dims = none := by
  have h1 := C120_dynamic dims
  rw [List.count_eq_zero.2 hc, Nat.add_zero] at h1
  have hne : ¬((dims.map shapeOf).isEmpty = true) := by
    intro he
    simp only [List.isEmpty_iff, List.map_eq_nil_iff] at he
    rw [he] at h
    simp at h
  have hpos : ¬((dims.map shapeOf).count none = 0) := by
    rw [List.count_eq_zero]
    intro hn
    exact hn (List.mem_map.2 ⟨_, h, rfl⟩)
  simp only [create]
  rw [if_neg hne, if_pos h1.symm, if_neg hpos]

/-- All arrays with both `:` and a dimension that is an expression are created, but with size zero in the place of the expression. -/
theorem C120_mixed (dims : List Dim) (j n : Nat) (h : dims[j]? = some (.expr n)) (hc : Dim.num (-1) ∈ dims) :
    ∃ sizes, create dims = some (.pointer, sizes) ∧ sizes[j]? = some 0 := by
  have h1 := C120_dynamic dims
  have hpos : 0 < dims.count (.num (-1)) := List.count_pos_iff.2 hc
  have hne : ¬((dims.map shapeOf).isEmpty = true) := by
    intro he
    simp only [List.isEmpty_iff, List.map_eq_nil_iff] at he
    rw [he] at hc
    simp at hc
  refine ⟨(dims.map shapeOf).map zeroed, ?_, ?_⟩
  · simp only [create]
    rw [if_neg hne, if_neg (by omega)]
  · rw [List.getElem?_map, List.getElem?_map, h]
    rfl

/-- The full statement is false: `protected Real w[n]`. -/
theorem C120_full_false : ¬C120_full := by
  intro h
  obtain ⟨k, hk⟩ := h.1 [.expr 3]
  rw [C120_expression [.expr 3] 3 (by simp) (by simp)] at hk
  simp at hk

/-! ## Concrete cases -/

/-- `output Real y; protected Real w[2]; protected Real z[:]`: `z := {5, 6, 7}; w := {1, 2}; w[2] := 4; z := w; y := 9`, with uses in
between. The hypothesis of `C120_run_partial` holds. -/
example : Marco.Spec.RawVars.run true ⟨[(.scalar, ⟨[], [0]⟩), (.buffer, ⟨[2], [0, 0]⟩), (.pointer, ⟨[0], []⟩)], []⟩
    [.make ⟨[3], [5, 6, 7]⟩, .set 2 0, .make ⟨[2], [1, 2]⟩, .set 1 1, .get 2, .use 2, .store 1 1 4, .get 1, .set 2 3, .make ⟨[], [9]⟩,
      .set 0 4, .get 2, .use 5, .get 0, .use 6]
    = some [⟨[3], [5, 6, 7]⟩, ⟨[2], [1, 4]⟩, (⟨[], [9]⟩ : Arr Int)] := rfl

/-- The hypotheses of `C120_released` hold: `z` is read, assigned, and used as it was. -/
example : ∃ t u, get (V := Int) ⟨[some ⟨[0], []⟩, some ⟨[1], [5]⟩], [⟨.pointer, 0⟩], [1]⟩ 0 = some t ∧ set t 0 0 = some u :=
  ⟨_, _, rfl, rfl⟩

/-- The hypothesis of `C120_live` holds of an assignment to a pointer, which makes a buffer and releases another. -/
example : (Marco.RawVars.set (V := Int) ⟨[some ⟨[0], []⟩, some ⟨[1], [5]⟩], [⟨.pointer, 0⟩], [1]⟩ 0 0).map State.mem
    = some [none, some ⟨[1], [5]⟩, some ⟨[1], [5]⟩] := rfl

/-- The hypotheses of `C120_overwritten` hold, and the value that was read is not the one that is used. -/
example : ∃ t u, get (V := Int) ⟨[some ⟨[1], [3]⟩, some ⟨[1], [5]⟩], [⟨.buffer, 0⟩], [1]⟩ 0 = some t ∧ set t 0 0 = some u ∧
    (Marco.RawVars.step u (.use 1)).map Prod.snd = some [⟨[1], [5]⟩] := ⟨_, _, rfl, rfl, rfl⟩

/-- Declarations: `w[2]`, `z[:]`, `z[:, 3]`, and `z[:, n]` with `n = 4`. -/
example : create [.num 2] = some (.buffer, [2]) ∧ create [.num (-1)] = some (.pointer, [0]) ∧
    create [.num (-1), .num 3] = some (.pointer, [0, 3]) ∧ create [.num (-1), .expr 4] = some (.pointer, [0, 0]) ∧
    create [.expr 4] = none ∧ declared [.num (-1), .expr 4] = [0, 4] := by decide

/-- The assignment of an element outside of the array is undefined. -/
theorem C120_outside {V : Type} (s : RawVars.State V) (x k : Nat) (v : V) (ref : Ref) (a : Arr V) (h1 : s.env[x]? = some ref)
    (h2 : s.load ref.buf = some a) (hk : a.elems.length ≤ k) : store s x k v = none := by
  simp [store, h1, h2, Nat.not_lt.mpr hk]

end Marco.Props
