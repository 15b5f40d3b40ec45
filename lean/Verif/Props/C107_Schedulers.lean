import Verif.Lemmas.SchedulersInstantiation

/-!
# C107: running a schedule with schedulers makes the same calls
-/

namespace Marco.Props
open Marco Spec Marco.SchedInst Marco.Spec.SchedInst
variable {O : Type}

/-- The pass succeeds. In the module it gives, there is one function of each kind to be called before and after the schedules
of a phase are run. The function called before creates some schedulers `t`, each once. With them, each operation of each
region makes the calls it made before the pass, with the same bounds and the same permission to reorder the indices, and
executes the same other operations; the operations are in the same order. The function called afterwards destroys all the
schedulers. -/
theorem C107_calls (fresh : List String → String → String) (hf : ∀ l n, fresh l n ∉ l) (sort : List Var → List Var)
    (m : Module O) (l : List (Sched O)) (hm : Plain m) (hl : Input m l) :
    ∃ m' l', instantiate fresh sort m l = some (m', l') ∧ ∀ p, ∃ b e t, body (m'.begins p) = some b ∧
      body (m'.ends p) = some e ∧ execBegin [] b = some t ∧ execEnd (t.map (·.1)) e = some [] ∧
      List.Forall₂ (fun r r' => ∃ v v', regionEvents [] [] r = some v ∧ regionEvents m'.wrappers t r' = some v' ∧ SameRuns v v')
        (regions p l) (regions p l') := by
  obtain ⟨m', t, l', h1, h2, h3⟩ := instantiate_ok hf sort hm hl
  refine ⟨m', l', h1, fun p => ⟨_, _, t p, body_eq _, body_eq _, h2.exec p, ?_, ?_⟩⟩
  · rw [← h2.ends p]
    exact execEnd_all _
  · exact (regions_rel p h3).imp fun _ _ => forall₂_mapM

theorem C107_moved (o : GroupOp O) : isMoved o = true ↔ ∃ x, o = .block x ∧ OnlyCall x := by
  cases o with
  | other o => simp [isMoved]
  | block b =>
    simp only [isMoved, OnlyCall]
    constructor
    · intro h
      split at h
      · rename_i c hc; exact ⟨b, rfl, c, hc⟩
      · simp at h
    · rintro ⟨x, hx, c, hc⟩
      cases hx
      simp [hc]

theorem C107_collected (g : List (GroupOp O)) (x : Block O) : x ∈ collect g ↔ .block x ∈ g ∧ OnlyCall x := by
  simp only [collect, List.mem_filterMap]
  constructor
  · rintro ⟨o, ho, h⟩
    cases o with
    | other o => simp at h
    | block b =>
      simp only at h
      split at h
      · rename_i hm
        cases h
        obtain ⟨y, hy, hc⟩ := (C107_moved _).1 hm
        cases hy
        exact ⟨ho, hc⟩
      · simp at h
  · rintro ⟨hx, hc⟩
    exact ⟨.block x, hx, by simp [(C107_moved (.block x)).2 ⟨x, rfl, hc⟩]⟩

theorem C107_merged (sort : List Var → List Var) (hs : ∀ l, (sort l).Perm l) (get : Block O → List Var) (bs : List (Block O)) :
    ((sort (mergeVars (bs.flatMap get))).map (·.name)).Nodup ∧
    (∀ n, n ∈ (sort (mergeVars (bs.flatMap get))).map (·.name) ↔ ∃ x ∈ bs, n ∈ (get x).map (·.name)) ∧
    ∀ n q, (∃ w ∈ sort (mergeVars (bs.flatMap get)), w.name = n ∧ InL q w.indices) ↔
      ∃ x ∈ bs, ∃ w ∈ get x, w.name = n ∧ InL q w.indices := by
  obtain ⟨h1, h2, h3⟩ := merge_ok (bs.flatMap get)
  have hp := hs (mergeVars (bs.flatMap get))
  refine ⟨(hp.map _).nodup_iff.2 h2, fun n => ?_, fun n q => ?_⟩
  · rw [(hp.map _).mem_iff, h3]
    simp only [List.mem_map, List.mem_flatMap]
    constructor
    · rintro ⟨w, ⟨x, hx, hw⟩, rfl⟩; exact ⟨x, hx, w, hw, rfl⟩
    · rintro ⟨x, hx, w, hw, rfl⟩; exact ⟨w, ⟨x, hx, hw⟩, rfl⟩
  · have := h1 n q
    simp only [List.mem_flatMap] at this
    constructor
    · rintro ⟨w, hw, h⟩
      obtain ⟨v, ⟨x, hx, hv⟩, h'⟩ := this.1 ⟨w, hp.mem_iff.1 hw, h⟩
      exact ⟨x, hx, v, hv, h'⟩
    · rintro ⟨x, hx, v, hv, h⟩
      obtain ⟨w, hw, h'⟩ := this.2 ⟨v, ⟨x, hx, hv⟩, h⟩
      exact ⟨w, hp.mem_iff.2 hw, h'⟩

/-- In a group that is changed, the blocks that only call the function of an equation are replaced by one block. It is said to
write and to read exactly the elements that those blocks are said to write and to read, and each variable is listed once. -/
theorem C107_variables (fresh : List String → String → String) (sort : List Var → List Var) (hs : ∀ l, (sort l).Perm l)
    (base : String) (p : Phase) (m m' : Module O) (g g' : List (GroupOp O)) (h : processGroup fresh sort base p m g = some (m', g')) :
    g' = g ∨ ∃ (kept : List (GroupOp O)) (b : Block O), g' = kept ++ [.block b] ∧ kept.Sublist g ∧
      (∀ o, o ∈ kept ↔ o ∈ g ∧ ¬ ∃ x, o = .block x ∧ OnlyCall x) ∧
      (∀ get : Block O → List Var, get = Block.written ∨ get = Block.readVars →
        ((get b).map (·.name)).Nodup ∧
        (∀ n, n ∈ (get b).map (·.name) ↔ ∃ x, .block x ∈ g ∧ OnlyCall x ∧ n ∈ (get x).map (·.name)) ∧
        ∀ n q, (∃ w ∈ get b, w.name = n ∧ InL q w.indices) ↔
          ∃ x, .block x ∈ g ∧ OnlyCall x ∧ ∃ w ∈ get x, w.name = n ∧ InL q w.indices) := by
  unfold processGroup at h
  simp only at h
  split at h
  · cases h; exact .inl rfl
  · right
    simp only [declareScheduler, Option.bind_eq_bind, Option.bind_eq_some_iff] at h
    obtain ⟨m1, -, h⟩ := h
    cases h
    refine ⟨_, _, rfl, List.filter_sublist, fun o => ?_, fun get hget => ?_⟩
    · rw [List.mem_filter, ← C107_moved]
      cases isMoved o <;> simp
    · have key := C107_merged sort hs get (collect g)
      simp only [C107_collected, and_assoc] at key
      rcases hget with rfl | rfl <;> exact key

/-- Full claim: no scheduler is made for a group in which there is one call, for one element (a call of a scalar equation has
no indices, see `EquationCallOp`). -/
def C107_single_full : Prop :=
  ∀ (fresh : List String → String → String) (sort : List Var → List Var) (base : String) (p : Phase) (m : Module Nat)
    (g : List (GroupOp Nat)) (b : Block Nat) (c : Call), collect g = [b] → b.body = [.call c] →
    (c.indices = [] ∨ size c.indices = 1) → processGroup fresh sort base p m g = some (m, g)

/-- It is true of a call for one element of an array. Missing: scalar equations. -/
theorem C107_single_partial (fresh : List String → String → String) (sort : List Var → List Var) (base : String) (p : Phase)
    (m : Module O) (g : List (GroupOp O)) (b : Block O) (c : Call) (h : collect g = [b]) (hb : b.body = [.call c])
    (hc : size c.indices = 1) : processGroup fresh sort base p m g = some (m, g) := by
  simp [processGroup, h, hasSingleScalarEquationCall, hb, calls, hc]

/-- `sortFn` holds of a variable and itself, so that it is no strict weak order, as `llvm::sort` demands. -/
theorem C107_compare_wrong (v : Var) (h : v.name ≠ []) : sortFn v v = true := by
  have : ∀ l : List String, nestedLess l l = true := by
    intro l
    induction l with
    | nil => rfl
    | cons a l ih => simpa [nestedLess] using ih
  unfold sortFn
  cases hv : v.name with
  | nil => exact (h hv).elim
  | cons a l => simp [this]

namespace C107_Sample

/-- A name that is not in a list. -/
def fresh (l : List String) (n : String) : String :=
  if n ∈ l then String.ofList (List.replicate ((l.map String.length).sum + 1) '_') else n

theorem fresh_new (l : List String) (n : String) : fresh l n ∉ l := by
  unfold fresh
  split
  · intro h
    have : ∀ (l : List String) (x : String), x ∈ l → x.length ≤ (l.map String.length).sum := by
      intro l x hx
      induction l with
      | nil => simp at hx
      | cons a l ih =>
        rcases List.mem_cons.1 hx with rfl | hx
        · simp
        · have := ih hx; simp; omega
    have h' := this l _ h
    simp at h'
  · assumption

/-- An array equation, an equation with two ranges and a scalar equation can run in parallel with another operation. -/
def group : List (GroupOp Nat) :=
  [.block ⟨false, [⟨["x"], [[⟨0, 5⟩]]⟩], [], [.call ⟨"f", [[⟨0, 5⟩]], true⟩]⟩,
   .block ⟨false, [⟨["y"], []⟩], [⟨["x"], [[⟨2, 3⟩]]⟩], [.other 7]⟩,
   .block ⟨false, [⟨["x"], [[⟨6, 8⟩], [⟨9, 10⟩]]⟩], [⟨["z"], []⟩], [.call ⟨"g", [[⟨6, 8⟩], [⟨9, 10⟩]], false⟩]⟩,
   .block ⟨false, [⟨["z"], []⟩], [], [.call ⟨"h", [], false⟩]⟩]

def scheds : List (Sched Nat) :=
  [⟨"M", [.region .dynamic [.group group, .other 1, .group group], .region .ic [.group group]]⟩]

def module : Module Nat :=
  ⟨["f", "g", "h", "M", "M_dynamic_scheduler"], ["f", "g", "h"], [], fun _ => [[.other 3]], fun _ => []⟩

example : Plain module := by
  refine ⟨rfl, fun p x hx => ?_, fun p x hx => ?_⟩
  · simp [module] at hx; exact ⟨3, hx⟩
  · simp [module] at hx

example : Input module scheds := by
  intro p r hr o ho x hx
  have hr' : r = [.group group, .other 1, .group group] ∨ r = [.group group] := by
    cases p <;> simp [regions, scheds] at hr <;> simp [hr]
  have ho' : o = .group group ∨ o = .other 1 := by
    rcases hr' with rfl | rfl <;> simp at ho <;> tauto
  rcases ho' with rfl | rfl
  · simp [opsOf, group] at hx
    rcases hx with rfl | rfl | rfl | rfl <;> simp [module, rank]
  · simp [opsOf] at hx

/-- Both schedulers of the phase are created, in order, and the first runs four calls. -/
example : ((instantiate fresh id module scheds).bind fun r => execBegin [] (r.1.begins .dynamic).flatten).map
    (fun t => t.map fun x => x.2.map (·.bounds)) = some [[[0, 5], [6, 8], [9, 10], []], [[0, 5], [6, 8], [9, 10], []]] := by
  decide +kernel

/-- The group is replaced by the other operation and a block that writes `x[0:5, 6:8, 9:10]` and `z`. -/
example : (processGroup fresh id "M" .ic module group).map (·.2.map fun
    | .block b => (b.written, b.readVars)
    | .other _ => ([], [])) = some [([⟨["y"], []⟩], [⟨["x"], [[⟨2, 3⟩]]⟩]),
      ([⟨["x"], [[⟨0, 5⟩], [⟨6, 8⟩], [⟨9, 10⟩]]⟩, ⟨["z"], []⟩], [⟨["z"], []⟩])] := by
  decide +kernel

example : size [[⟨4, 5⟩, ⟨0, 1⟩]] = 1 := by decide

end C107_Sample

/-- A group with a call of a scalar equation only gets a scheduler. -/
theorem C107_single_full_false : ¬ C107_single_full := by
  intro h
  have := h C107_Sample.fresh id "M" .ic C107_Sample.module [.block ⟨false, [⟨["z"], []⟩], [], [.call ⟨"h", [], false⟩]⟩]
    _ _ rfl rfl (.inl rfl)
  have := congrArg (fun r => r.map (·.2)) this
  revert this
  decide +kernel

end Marco.Props
