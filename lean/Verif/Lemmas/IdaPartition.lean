import Verif.Spec.IdaPartition
import Mathlib.Data.List.Nodup
import Mathlib.Data.List.Dedup
import Mathlib.Data.List.Perm.Subperm

/-!
# Lemmas on the choice of the variables and equations for IDA
-/

namespace Marco.Ida
open Marco.Spec.Ida

theorem has_iff {i : Inst} {v : Nat} : i.has v = true ↔ v ∈ i.alg ∨ v ∈ i.states ∨ v ∈ i.ders := by
  simp [Inst.has, or_assoc]

theorem has_addAlg {i : Inst} {v w : Nat} : (i.addAlg v).has w = true ↔ i.has w = true ∨ w = v := by
  unfold Inst.addAlg
  split
  · rename_i h
    constructor
    · exact .inl
    · rintro (h' | rfl)
      · exact h'
      · exact h
  · simp [has_iff]; tauto

theorem has_addState {i : Inst} {v w : Nat} : (i.addState v).has w = true ↔ i.has w = true ∨ w = v := by
  unfold Inst.addState
  split
  · rename_i h
    constructor
    · exact .inl
    · rintro (h' | rfl)
      · exact h'
      · exact h
  · simp [has_iff]; tauto

theorem has_addDer {i : Inst} {v w : Nat} : (i.addDer v).has w = true ↔ i.has w = true ∨ w = v := by
  unfold Inst.addDer
  split
  · rename_i h
    constructor
    · exact .inl
    · rintro (h' | rfl)
      · exact h'
      · exact h
  · simp [has_iff]; tauto

theorem has_addEq {i : Inst} {e : Eqn} {w : Nat} : (i.addEq e).has w = i.has w := by
  unfold Inst.addEq; split <;> rfl

theorem eqs_addAlg {i : Inst} {v : Nat} : (i.addAlg v).eqs = i.eqs := by unfold Inst.addAlg; split <;> rfl

theorem eqs_addState {i : Inst} {v : Nat} : (i.addState v).eqs = i.eqs := by unfold Inst.addState; split <;> rfl

theorem eqs_addDer {i : Inst} {v : Nat} : (i.addDer v).eqs = i.eqs := by unfold Inst.addDer; split <;> rfl

theorem mem_addEq {i : Inst} {e f : Eqn} : f ∈ (i.addEq e).eqs ↔ f ∈ i.eqs ∨ f = e := by
  unfold Inst.addEq
  split
  · rename_i h
    constructor
    · exact .inl
    · rintro (h' | rfl)
      · exact h'
      · simpa using h
  · simp

theorem has_addEquation {m : Model} {i : Inst} {e : Eqn} {w : Nat} :
    (addEquation m i e).has w = true ↔ i.has w = true ∨ w = e.writes := by
  unfold addEquation
  dsimp only
  split
  · rw [has_addDer, has_addEq]
  · split
    · rw [has_addState, has_addEq]
    · rw [has_addAlg, has_addEq]

theorem mem_addEquation {m : Model} {i : Inst} {e f : Eqn} :
    f ∈ (addEquation m i e).eqs ↔ f ∈ i.eqs ∨ f = e := by
  unfold addEquation
  dsimp only
  split
  · rw [eqs_addDer, mem_addEq]
  · split
    · rw [eqs_addState, mem_addEq]
    · rw [eqs_addAlg, mem_addEq]

theorem has_addScc {m : Model} {s : List Eqn} : ∀ {i : Inst} {w : Nat},
    (addScc m i s).has w = true ↔ i.has w = true ∨ ∃ e ∈ s, w = e.writes := by
  induction s with
  | nil => intro i w; simp [addScc]
  | cons e s ih =>
    intro i w
    rw [addScc, List.foldl_cons, ← addScc, ih, has_addEquation]
    simp [or_assoc]

theorem mem_addScc {m : Model} {s : List Eqn} : ∀ {i : Inst} {f : Eqn},
    f ∈ (addScc m i s).eqs ↔ f ∈ i.eqs ∨ f ∈ s := by
  induction s with
  | nil => intro i w; simp [addScc]
  | cons e s ih =>
    intro i w
    rw [addScc, List.foldl_cons, ← addScc, ih, mem_addEquation]
    simp [or_assoc]

theorem has_addSccs {m : Model} {l : List (List Eqn)} : ∀ {i : Inst} {w : Nat},
    (l.foldl (addScc m) i).has w = true ↔ i.has w = true ∨ ∃ s ∈ l, ∃ e ∈ s, w = e.writes := by
  induction l with
  | nil => intro i w; simp
  | cons s l ih =>
    intro i w
    rw [List.foldl_cons, ih, has_addScc]
    simp [or_assoc]

theorem mem_addSccs {m : Model} {l : List (List Eqn)} : ∀ {i : Inst} {f : Eqn},
    f ∈ (l.foldl (addScc m) i).eqs ↔ f ∈ i.eqs ∨ ∃ s ∈ l, f ∈ s := by
  induction l with
  | nil => intro i w; simp
  | cons s l ih =>
    intro i w
    rw [List.foldl_cons, ih, mem_addScc]
    simp [or_assoc]

theorem has_dynamic {m : Model} {l : List Nat} : ∀ {i : Inst} {w : Nat},
    (l.foldl (addDynamic m) i).has w = true ↔
      i.has w = true ∨ ∃ v ∈ l, ∃ d, m.der v = some d ∧ (w = v ∨ w = d) := by
  induction l with
  | nil => intro i w; simp
  | cons v l ih =>
    intro i w
    rw [List.foldl_cons, ih]
    have : (addDynamic m i v).has w = true ↔ i.has w = true ∨ ∃ d, m.der v = some d ∧ (w = v ∨ w = d) := by
      unfold addDynamic
      split
      · rename_i d h
        rw [has_addDer, has_addState]
        simp [h, or_assoc]
      · rename_i h
        simp [h]
    rw [this]
    simp [or_assoc]

theorem eqs_dynamic {m : Model} {l : List Nat} : ∀ {i : Inst}, (l.foldl (addDynamic m) i).eqs = i.eqs := by
  induction l with
  | nil => intro i; rfl
  | cons v l ih =>
    intro i
    rw [List.foldl_cons, ih]
    unfold addDynamic
    split
    · rw [eqs_addDer, eqs_addState]
    · rfl

theorem has_direct {l : List Eqn} : ∀ {i : Inst} {w : Nat}, (l.foldl addDirect i).has w = i.has w := by
  induction l with
  | nil => intro i w; rfl
  | cons e l ih =>
    intro i w
    rw [List.foldl_cons, ih]
    unfold addDirect
    split
    · rw [has_addEq]
    · rfl

theorem mem_direct {l : List Eqn} : ∀ {i : Inst} {f : Eqn},
    f ∈ (l.foldl addDirect i).eqs ↔ f ∈ i.eqs ∨ (f ∈ l ∧ i.has f.writes = true) := by
  induction l with
  | nil => intro i f; simp
  | cons e l ih =>
    intro i f
    rw [List.foldl_cons, ih]
    have h1 : (addDirect i e).has f.writes = i.has f.writes := by
      unfold addDirect; split
      · rw [has_addEq]
      · rfl
    have h2 : f ∈ (addDirect i e).eqs ↔ f ∈ i.eqs ∨ (f = e ∧ i.has e.writes = true) := by
      unfold addDirect; split
      · rename_i h; rw [mem_addEq]; simp [h]
      · rename_i h; simp [h]
    rw [h1, h2, List.mem_cons]
    constructor
    · rintro ((h | ⟨rfl, h⟩) | ⟨h, h'⟩)
      · exact .inl h
      · exact .inr ⟨.inl rfl, h⟩
      · exact .inr ⟨.inr h, h'⟩
    · rintro (h | ⟨rfl | h, h'⟩)
      · exact .inl (.inl h)
      · exact .inl (.inr ⟨rfl, h'⟩)
      · exact .inr ⟨h, h'⟩

theorem has_any {m : Model} {l : List Nat} : ∀ {i : Inst} {w : Nat},
    (l.foldl (addAny m) i).has w = true ↔
      i.has w = true ∨ (w ∈ l ∧ ((m.der w).isSome = true ∨ (m.derived w).isSome = true ∨ m.readOnly w = false)) := by
  induction l with
  | nil => intro i w; simp
  | cons v l ih =>
    intro i w
    rw [List.foldl_cons, ih]
    have : (addAny m i v).has w = true ↔ i.has w = true ∨
        (w = v ∧ ((m.der w).isSome = true ∨ (m.derived w).isSome = true ∨ m.readOnly w = false)) := by
      unfold addAny
      split
      · rename_i h
        rw [has_addState]
        constructor
        · rintro (h' | rfl)
          · exact .inl h'
          · exact .inr ⟨rfl, .inl h⟩
        · rintro (h' | ⟨h', -⟩)
          · exact .inl h'
          · exact .inr h'
      · rename_i h1
        split
        · rename_i h
          rw [has_addDer]
          constructor
          · rintro (h' | rfl)
            · exact .inl h'
            · exact .inr ⟨rfl, .inr (.inl h)⟩
          · rintro (h' | ⟨h', -⟩)
            · exact .inl h'
            · exact .inr h'
        · rename_i h2
          split
          · rename_i h3
            constructor
            · exact .inl
            · rintro (h' | ⟨rfl, h' | h' | h'⟩)
              · exact h'
              · exact absurd h' h1
              · exact absurd h' h2
              · rw [h3] at h'; cases h'
          · rename_i h3
            rw [has_addAlg]
            constructor
            · rintro (h' | rfl)
              · exact .inl h'
              · exact .inr ⟨rfl, .inr (.inr (by simpa using h3))⟩
            · rintro (h' | ⟨h', -⟩)
              · exact .inl h'
              · exact .inr h'
    rw [this, List.mem_cons]
    tauto

theorem eqs_any {m : Model} {l : List Nat} : ∀ {i : Inst}, (l.foldl (addAny m) i).eqs = i.eqs := by
  induction l with
  | nil => intro i; rfl
  | cons v l ih =>
    intro i
    rw [List.foldl_cons, ih]
    unfold addAny
    split
    · rw [eqs_addState]
    · split
      · rw [eqs_addDer]
      · split
        · rfl
        · rw [eqs_addAlg]

/-- What is needed only. -/
def Sound (m : Model) (r : Bool) (i : Inst) : Prop :=
  (∀ v, i.has v = true → Needed m r v) ∧ ∀ e ∈ i.eqs, ∃ s ∈ m.sccs, e ∈ s ∧ NeededScc m r s

theorem sound_addScc {m : Model} {r : Bool} {i : Inst} {s : List Eqn} (h : Sound m r i) (hs : s ∈ m.sccs)
    (hn : NeededScc m r s) : Sound m r (addScc m i s) := by
  refine ⟨fun v hv => ?_, fun e he => ?_⟩
  · rcases has_addScc.1 hv with h' | ⟨e, he, rfl⟩
    · exact h.1 v h'
    · obtain ⟨e', he', hn'⟩ := hn
      exact .member hs he' hn' he
  · rcases mem_addScc.1 he with h' | h'
    · exact h.2 e h'
    · exact ⟨s, hs, h', hn⟩

/-- The empty instance. -/
theorem has_empty (v : Nat) : ({} : Inst).has v = false := rfl

theorem sound_start {m : Model} {order : List (List Eqn) → List (List Eqn)} (ho : ∀ l, (order l).Perm l) (r : Bool) :
    Sound m r (start m order r) := by
  unfold start
  cases r
  · simp only [Bool.false_eq_true, if_false]
    refine ⟨fun v hv => ?_, fun e he => ?_⟩
    · rcases has_any.1 hv with h | ⟨h, h'⟩
      · rw [has_empty] at h; cases h
      · exact .any rfl h h'
    · rw [eqs_any] at he; cases he
  · simp only [if_true]
    have hdyn : ∀ v, (m.vars.foldl (addDynamic m) {}).has v = true → Needed m true v := by
      intro v hv
      rcases has_dynamic.1 hv with h | ⟨w, hw, d, hd, rfl | rfl⟩
      · rw [has_empty] at h; cases h
      · exact .state rfl hw hd
      · exact .der rfl hw hd
    have hcyc : ∀ s ∈ order (cycles m), s ∈ m.sccs ∧ 1 < s.length := by
      intro s hs
      have := (ho _).mem_iff.1 hs
      simpa [cycles] using this
    have himp : ∀ s ∈ order (implicits m), ∃ e, s = [e] ∧ [e] ∈ m.sccs ∧ m.explicit e = false := by
      intro s hs
      have h := (ho _).mem_iff.1 hs
      rw [implicits, List.mem_filter] at h
      obtain ⟨h1, h2⟩ := h
      split at h2
      · rename_i e
        exact ⟨e, rfl, h1, by simpa using h2⟩
      · cases h2
    refine ⟨fun v hv => ?_, fun e he => ?_⟩
    · rcases has_addSccs.1 hv with h | ⟨s, hs, e, he, rfl⟩
      · rcases has_addSccs.1 h with h | ⟨s, hs, e, he, rfl⟩
        · rw [has_direct] at h; exact hdyn v h
        · exact .cycle rfl (hcyc s hs).1 (hcyc s hs).2 he
      · obtain ⟨e', rfl, h1, h2⟩ := himp s hs
        rw [List.mem_singleton] at he
        subst he
        exact .implicit rfl h1 h2
    · rcases mem_addSccs.1 he with h | ⟨s, hs, h⟩
      · rcases mem_addSccs.1 h with h | ⟨s, hs, h⟩
        · rcases mem_direct.1 h with h | ⟨h, h'⟩
          · rw [eqs_dynamic] at h; cases h
          · obtain ⟨s, hs, hes⟩ := List.mem_flatten.1 h
            exact ⟨s, hs, hes, e, hes, hdyn _ h'⟩
        · exact ⟨s, (hcyc s hs).1, h, e, h, .cycle rfl (hcyc s hs).1 (hcyc s hs).2 h⟩
      · obtain ⟨e', rfl, h1, h2⟩ := himp s hs
        rw [List.mem_singleton] at h
        subst h
        exact ⟨_, h1, by simp, e, by simp, .implicit rfl h1 h2⟩

/-- The components given to IDA have been added. -/
def Added (m : Model) (i : Inst) (ext : List Nat) : Prop :=
  ∀ k ∈ ext, ∃ s, m.sccs[k]? = some s ∧ s ≠ [] ∧ ∀ e ∈ s, e ∈ i.eqs ∧ i.has e.writes = true

theorem has_mono_addScc {m : Model} {i : Inst} {s : List Eqn} {v : Nat} (h : i.has v = true) :
    (addScc m i s).has v = true := has_addScc.2 (.inl h)

/-- One visit. -/
theorem sweep_spec {m : Model} {r : Bool} : ∀ (l : List (Nat × List Eqn)) (i : Inst) (ext : List Nat),
    (∀ p ∈ l, m.sccs[p.1]? = some p.2) → Sound m r i → Added m i ext → ext.Nodup →
    Sound m r (sweep m l i ext).1 ∧ Added m (sweep m l i ext).1 (sweep m l i ext).2.1 ∧ (sweep m l i ext).2.1.Nodup ∧
      (∀ v, i.has v = true → (sweep m l i ext).1.has v = true) ∧
      ((sweep m l i ext).2.2 = true → ext.length < (sweep m l i ext).2.1.length) ∧
      ext.length ≤ (sweep m l i ext).2.1.length ∧
      ((sweep m l i ext).2.2 = false → (sweep m l i ext).1 = i ∧ (sweep m l i ext).2.1 = ext ∧
        ∀ p ∈ l, p.1 ∉ ext → ∀ e ∈ p.2, i.has e.writes = false)
  | [], i, ext, _, hs, ha, hn => ⟨hs, ha, hn, fun _ h => h, by simp [sweep], Nat.le_refl _, fun _ => ⟨rfl, rfl, by simp⟩⟩
  | (k, s) :: l, i, ext, hl, hs, ha, hn => by
    have hl' : ∀ p ∈ l, m.sccs[p.1]? = some p.2 := fun p hp => hl p (List.mem_cons_of_mem _ hp)
    have hk : m.sccs[k]? = some s := hl (k, s) List.mem_cons_self
    rw [sweep]
    split
    · rename_i hc
      obtain ⟨h1, h2, h3, h4, h5, h6, h7⟩ := sweep_spec l i ext hl' hs ha hn
      refine ⟨h1, h2, h3, h4, h5, h6, fun h => ?_⟩
      obtain ⟨a, b, c⟩ := h7 h
      refine ⟨a, b, fun p hp hpe => ?_⟩
      rcases List.mem_cons.1 hp with rfl | hp
      · exact absurd (by simpa using hc) hpe
      · exact c p hp hpe
    · rename_i hc
      have hc' : k ∉ ext := by simpa using hc
      split
      · rename_i hw
        obtain ⟨e0, he0, hw0⟩ := List.any_eq_true.1 hw
        have hsm : s ∈ m.sccs := List.mem_of_getElem? hk
        have ha' : Added m (addScc m i s) (k :: ext) := by
          intro j hj
          rcases List.mem_cons.1 hj with rfl | hj
          · exact ⟨s, hk, List.ne_nil_of_mem he0, fun e he => ⟨mem_addScc.2 (.inr he), has_addScc.2 (.inr ⟨e, he, rfl⟩)⟩⟩
          · obtain ⟨t, ht, hne, h⟩ := ha j hj
            exact ⟨t, ht, hne, fun e he => ⟨mem_addScc.2 (.inl (h e he).1), has_mono_addScc (h e he).2⟩⟩
        obtain ⟨h1, h2, h3, h4, h5, h6, h7⟩ := sweep_spec l (addScc m i s) (k :: ext) hl'
          (sound_addScc hs hsm ⟨e0, he0, hs.1 _ hw0⟩) ha' (List.nodup_cons.2 ⟨hc', hn⟩)
        simp only [List.length_cons] at h6
        exact ⟨h1, h2, h3, fun v hv => h4 v (has_mono_addScc hv), fun _ => Nat.lt_of_succ_le h6, Nat.le_of_succ_le h6,
          fun h => by simp at h⟩
      · rename_i hw
        obtain ⟨h1, h2, h3, h4, h5, h6, h7⟩ := sweep_spec l i ext hl' hs ha hn
        refine ⟨h1, h2, h3, h4, h5, h6, fun h => ?_⟩
        obtain ⟨a, b, c⟩ := h7 h
        refine ⟨a, b, fun p hp hpe => ?_⟩
        rcases List.mem_cons.1 hp with rfl | hp
        · intro e he
          by_contra hne
          exact hw (List.any_eq_true.2 ⟨e, he, by simpa using hne⟩)
        · exact c p hp hpe

/-- The components outside write no variable of IDA. -/
def Closed (m : Model) (i : Inst) (ext : List Nat) : Prop :=
  ∀ (k : Nat) (s : List Eqn), m.sccs[k]? = some s → k ∉ ext → ∀ e ∈ s, i.has e.writes = false

theorem added_length {m : Model} {i : Inst} {ext : List Nat} (ha : Added m i ext) (hn : ext.Nodup) :
    ext.length ≤ m.sccs.length := by
  have : ext ⊆ List.range m.sccs.length := by
    intro k hk
    obtain ⟨s, hs, -⟩ := ha k hk
    exact List.mem_range.2 (List.getElem?_eq_some_iff.1 hs).1
  simpa using (hn.subperm this).length_le

theorem close_spec {m : Model} {r : Bool} : ∀ (n : Nat) (i : Inst) (ext : List Nat),
    Sound m r i → Added m i ext → ext.Nodup → m.sccs.length < ext.length + n →
    Sound m r (close m n i ext).1 ∧ Added m (close m n i ext).1 (close m n i ext).2 ∧
      (∀ v, i.has v = true → (close m n i ext).1.has v = true) ∧ Closed m (close m n i ext).1 (close m n i ext).2
  | 0, i, ext, _, ha, hn, hf => by have := added_length ha hn; omega
  | n + 1, i, ext, hs, ha, hn, hf => by
    have hl : ∀ p ∈ m.sccs.zipIdx.map (fun p => (p.2, p.1)), m.sccs[p.1]? = some p.2 := by
      intro p hp
      obtain ⟨q, hq, rfl⟩ := List.mem_map.1 hp
      exact List.mk_mem_zipIdx_iff_getElem?.1 hq
    obtain ⟨h1, h2, h3, h4, h5, h6, h7⟩ := sweep_spec _ i ext hl hs ha hn
    rw [close]
    generalize sweep m (m.sccs.zipIdx.map fun p => (p.2, p.1)) i ext = res at h1 h2 h3 h4 h5 h6 h7
    obtain ⟨i', ext', b⟩ := res
    dsimp only at h1 h2 h3 h4 h5 h6 h7
    cases b
    · refine ⟨h1, h2, h4, ?_⟩
      obtain ⟨rfl, rfl, h⟩ := h7 rfl
      intro k s hk hne
      exact h (k, s) (List.mem_map.2 ⟨(s, k), List.mk_mem_zipIdx_iff_getElem?.2 hk, rfl⟩) hne
    · have := h5 rfl
      obtain ⟨g1, g2, g3, g4⟩ := close_spec n i' ext' h1 h2 h3 (by omega)
      exact ⟨g1, g2, fun v hv => g3 v (h4 v hv), g4⟩

/-- All that is needed is there, because it is there at the beginning and the components go together. -/
theorem complete {m : Model} {order : List (List Eqn) → List (List Eqn)} (ho : ∀ l, (order l).Perm l) {r : Bool} {i : Inst}
    {ext : List Nat} (hst : ∀ v, (start m order r).has v = true → i.has v = true) (ha : Added m i ext)
    (hc : Closed m i ext) {v : Nat} (hv : Needed m r v) : i.has v = true := by
  induction hv with
  | state hr hv hd =>
    subst hr
    apply hst
    simp only [start, if_true]
    exact has_addSccs.2 (.inl (has_addSccs.2 (.inl (by rw [has_direct]; exact has_dynamic.2 (.inr ⟨_, hv, _, hd, .inl rfl⟩)))))
  | der hr hv hd =>
    subst hr
    apply hst
    simp only [start, if_true]
    exact has_addSccs.2 (.inl (has_addSccs.2 (.inl (by rw [has_direct]; exact has_dynamic.2 (.inr ⟨_, hv, _, hd, .inr rfl⟩)))))
  | cycle hr hs hl he =>
    subst hr
    apply hst
    simp only [start, if_true]
    refine has_addSccs.2 (.inl (has_addSccs.2 (.inr ⟨_, (ho _).mem_iff.2 ?_, _, he, rfl⟩)))
    simp [cycles, hs, hl]
  | implicit hr hs he =>
    subst hr
    apply hst
    simp only [start, if_true]
    refine has_addSccs.2 (.inr ⟨_, (ho _).mem_iff.2 (List.mem_filter.2 ⟨hs, ?_⟩), _, List.mem_singleton.2 rfl, rfl⟩)
    simp [he]
  | any hr hv h =>
    subst hr
    apply hst
    simp only [start, Bool.false_eq_true, if_false]
    exact has_any.2 (.inr ⟨hv, h⟩)
  | member hs he _ he' ih =>
    obtain ⟨k, hk⟩ := List.mem_iff_getElem?.1 hs
    by_cases hke : k ∈ ext
    · obtain ⟨t, ht, -, h⟩ := ha k hke
      rw [hk] at ht
      injection ht with ht
      subst ht
      exact (h _ he').2
    · have := hc k _ hk hke _ he
      rw [this] at ih
      cases ih

end Marco.Ida

namespace Marco.Ida
open Marco.Spec.Ida

/-- The lists have no repetitions, and the variables are in the lists they belong to. -/
structure Sorted (m : Model) (i : Inst) : Prop where
  nodup : (i.alg ++ (i.states ++ i.ders)).Nodup
  eqs : i.eqs.Nodup
  alg : ∀ v ∈ i.alg, v ∈ m.vars ∧ m.der v = none ∧ m.derived v = none ∧ m.readOnly v = false
  states : ∀ v ∈ i.states, (m.der v).isSome = true
  ders : ∀ v ∈ i.ders, (m.derived v).isSome = true

theorem sorted_empty (m : Model) : Sorted m {} :=
  ⟨by simp, by simp, by simp, by simp, by simp⟩

theorem not_has {i : Inst} {v : Nat} (h : ¬ i.has v = true) : v ∉ i.alg ∧ v ∉ i.states ∧ v ∉ i.ders := by
  rw [has_iff] at h; tauto

theorem sorted_addAlg {m : Model} {i : Inst} (h : Sorted m i) {v : Nat}
    (hv : v ∈ m.vars ∧ m.der v = none ∧ m.derived v = none ∧ m.readOnly v = false) : Sorted m (i.addAlg v) := by
  unfold Inst.addAlg
  split
  · exact h
  · rename_i hn
    have hn := not_has hn
    refine ⟨?_, h.eqs, ?_, h.states, h.ders⟩
    · have : (v :: (i.alg ++ (i.states ++ i.ders))).Nodup := List.nodup_cons.2 ⟨by simp [hn], h.nodup⟩
      refine (List.Perm.nodup_iff ?_).1 this
      rw [List.append_assoc, List.singleton_append]
      exact List.perm_middle.symm
    · intro w hw
      rcases List.mem_append.1 hw with hw | hw
      · exact h.alg w hw
      · rw [List.mem_singleton] at hw; subst hw; exact hv

theorem sorted_addState {m : Model} {i : Inst} (h : Sorted m i) {v : Nat}
    (hv : (m.der v).isSome = true) : Sorted m (i.addState v) := by
  unfold Inst.addState
  split
  · exact h
  · rename_i hn
    have hn := not_has hn
    refine ⟨?_, h.eqs, h.alg, ?_, h.ders⟩
    · have : (v :: (i.alg ++ (i.states ++ i.ders))).Nodup := List.nodup_cons.2 ⟨by simp [hn], h.nodup⟩
      refine (List.Perm.nodup_iff ?_).1 this
      simp only [List.append_assoc, List.singleton_append]
      rw [← List.append_assoc, ← List.append_assoc]
      exact List.perm_middle.symm
    · intro w hw
      rcases List.mem_append.1 hw with hw | hw
      · exact h.states w hw
      · rw [List.mem_singleton] at hw; subst hw; exact hv

theorem sorted_addDer {m : Model} {i : Inst} (h : Sorted m i) {v : Nat}
    (hv : (m.derived v).isSome = true) : Sorted m (i.addDer v) := by
  unfold Inst.addDer
  split
  · exact h
  · rename_i hn
    have hn := not_has hn
    refine ⟨?_, h.eqs, h.alg, h.states, ?_⟩
    · have : (v :: (i.alg ++ (i.states ++ i.ders))).Nodup := List.nodup_cons.2 ⟨by simp [hn], h.nodup⟩
      refine (List.Perm.nodup_iff ?_).1 this
      simp only [← List.append_assoc]
      exact (List.perm_append_singleton _ _).symm
    · intro w hw
      rcases List.mem_append.1 hw with hw | hw
      · exact h.ders w hw
      · rw [List.mem_singleton] at hw; subst hw; exact hv

theorem sorted_addEq {m : Model} {i : Inst} (h : Sorted m i) (e : Eqn) : Sorted m (i.addEq e) := by
  unfold Inst.addEq
  split
  · exact h
  · rename_i hn
    have hn : e ∉ i.eqs := by simpa using hn
    refine ⟨h.nodup, ?_, h.alg, h.states, h.ders⟩
    exact (List.Perm.nodup_iff (List.perm_append_singleton _ _).symm).1 (List.nodup_cons.2 ⟨hn, h.eqs⟩)

/-- The equations are matched with variables that are not read only. -/
def Writes (m : Model) : Prop := ∀ e ∈ m.sccs.flatten, e.writes ∈ m.vars ∧ m.readOnly e.writes = false

theorem sorted_addEquation {m : Model} (hw : Writes m) {i : Inst} (h : Sorted m i) {e : Eqn}
    (he : e ∈ m.sccs.flatten) : Sorted m (addEquation m i e) := by
  unfold addEquation
  dsimp only
  split
  · rename_i h1; exact sorted_addDer (sorted_addEq h e) h1
  · rename_i h1
    split
    · rename_i h2; exact sorted_addState (sorted_addEq h e) h2
    · rename_i h2
      exact sorted_addAlg (sorted_addEq h e) ⟨(hw e he).1, by simpa using h2, by simpa using h1, (hw e he).2⟩

theorem sorted_addScc {m : Model} (hw : Writes m) {s : List Eqn} : ∀ {i : Inst}, Sorted m i →
    (∀ e ∈ s, e ∈ m.sccs.flatten) → Sorted m (addScc m i s) := by
  induction s with
  | nil => intro i h _; exact h
  | cons e s ih =>
    intro i h hs
    rw [addScc, List.foldl_cons, ← addScc]
    exact ih (sorted_addEquation hw h (hs e List.mem_cons_self)) fun f hf => hs f (List.mem_cons_of_mem _ hf)

theorem sorted_addSccs {m : Model} (hw : Writes m) {l : List (List Eqn)} : ∀ {i : Inst}, Sorted m i →
    (∀ s ∈ l, s ∈ m.sccs) → Sorted m (l.foldl (addScc m) i) := by
  induction l with
  | nil => intro i h _; exact h
  | cons s l ih =>
    intro i h hs
    rw [List.foldl_cons]
    exact ih (sorted_addScc hw h fun e he => List.mem_flatten.2 ⟨s, hs s List.mem_cons_self, he⟩)
      fun f hf => hs f (List.mem_cons_of_mem _ hf)

theorem sorted_dynamic {m : Model} (hc : Consistent m) {l : List Nat} : ∀ {i : Inst}, Sorted m i →
    Sorted m (l.foldl (addDynamic m) i) := by
  induction l with
  | nil => intro i h; exact h
  | cons v l ih =>
    intro i h
    rw [List.foldl_cons]
    refine ih ?_
    unfold addDynamic
    split
    · rename_i d hd
      exact sorted_addDer (sorted_addState h (by rw [hd]; rfl)) (by rw [(hc.1 v d).1 hd]; rfl)
    · exact h

theorem sorted_direct {m : Model} {l : List Eqn} : ∀ {i : Inst}, Sorted m i → Sorted m (l.foldl addDirect i) := by
  induction l with
  | nil => intro i h; exact h
  | cons e l ih =>
    intro i h
    rw [List.foldl_cons]
    refine ih ?_
    unfold addDirect
    split
    · exact sorted_addEq h e
    · exact h

theorem sorted_any {m : Model} {l : List Nat} : ∀ {i : Inst}, (∀ v ∈ l, v ∈ m.vars) → Sorted m i →
    Sorted m (l.foldl (addAny m) i) := by
  induction l with
  | nil => intro i _ h; exact h
  | cons v l ih =>
    intro i hl h
    rw [List.foldl_cons]
    refine ih (fun w hw => hl w (List.mem_cons_of_mem _ hw)) ?_
    unfold addAny
    split
    · rename_i h1; exact sorted_addState h h1
    · rename_i h1
      split
      · rename_i h2; exact sorted_addDer h h2
      · rename_i h2
        split
        · exact h
        · rename_i h3
          exact sorted_addAlg h ⟨hl v List.mem_cons_self, by simpa using h1, by simpa using h2, by simpa using h3⟩

theorem sorted_start {m : Model} (hc : Consistent m) (hw : Writes m) {order : List (List Eqn) → List (List Eqn)}
    (ho : ∀ l, (order l).Perm l) (r : Bool) : Sorted m (start m order r) := by
  unfold start
  cases r
  · simp only [Bool.false_eq_true, if_false]
    exact sorted_any (fun _ h => h) (sorted_empty m)
  · simp only [if_true]
    refine sorted_addSccs hw (sorted_addSccs hw (sorted_direct (sorted_dynamic hc (sorted_empty m))) ?_) ?_
    · intro s hs
      have := (ho _).mem_iff.1 hs
      exact (List.mem_filter.1 this).1
    · intro s hs
      have := (ho _).mem_iff.1 hs
      exact (List.mem_filter.1 this).1

theorem sorted_sweep {m : Model} (hw : Writes m) : ∀ (l : List (Nat × List Eqn)) (i : Inst) (ext : List Nat),
    (∀ p ∈ l, p.2 ∈ m.sccs) → Sorted m i → Sorted m (sweep m l i ext).1
  | [], _, _, _, h => h
  | (k, s) :: l, i, ext, hl, h => by
    have hl' : ∀ p ∈ l, p.2 ∈ m.sccs := fun p hp => hl p (List.mem_cons_of_mem _ hp)
    rw [sweep]
    split
    · exact sorted_sweep hw l i ext hl' h
    · split
      · exact sorted_sweep hw l _ _ hl' (sorted_addScc hw h fun e he =>
          List.mem_flatten.2 ⟨s, hl (k, s) List.mem_cons_self, he⟩)
      · exact sorted_sweep hw l i ext hl' h

theorem sorted_close {m : Model} (hw : Writes m) : ∀ (n : Nat) (i : Inst) (ext : List Nat),
    Sorted m i → Sorted m (close m n i ext).1
  | 0, _, _, h => h
  | n + 1, i, ext, h => by
    have := sorted_sweep hw (m.sccs.zipIdx.map fun p => (p.2, p.1)) i ext (by
      intro p hp
      obtain ⟨q, hq, rfl⟩ := List.mem_map.1 hp
      exact List.mem_of_getElem? (List.mk_mem_zipIdx_iff_getElem?.1 hq)) h
    rw [close]
    generalize sweep m (m.sccs.zipIdx.map fun p => (p.2, p.1)) i ext = res at this
    obtain ⟨i', ext', b⟩ := res
    cases b
    · exact this
    · exact sorted_close hw n i' ext' this

theorem sublist_flatten {l l' : List (List Eqn)} (h : l.Sublist l') : l.flatten.Sublist l'.flatten := by
  induction h with
  | slnil => exact .refl _
  | cons a _ ih => exact ih.trans (List.sublist_append_right a _)
  | cons_cons a _ ih => exact (List.Sublist.refl a).append ih

/-- A sum in groups. -/
theorem sum_groups (size : Eqn → Nat) (l : List Eqn) : ∀ (vs : List Nat), vs.Nodup →
    ((l.filter fun e => decide (e.writes ∈ vs)).map size).sum =
      (vs.map fun v => ((l.filter fun e => e.writes = v).map size).sum).sum
  | [], _ => by simp
  | v :: vs, hn => by
    obtain ⟨hv, hn⟩ := List.nodup_cons.1 hn
    rw [List.map_cons, List.sum_cons, ← sum_groups size l vs hn]
    clear hn
    induction l with
    | nil => rfl
    | cons e l ih =>
      by_cases h : e.writes = v
      · have h' : e.writes ∉ vs := h ▸ hv
        simp only [List.filter_cons, h, List.mem_cons, true_or, decide_true, if_true, List.map_cons, List.sum_cons] at ih ⊢
        simp only [hv, decide_false, Bool.false_eq_true, if_false]
        rw [ih]; omega
      · by_cases h' : e.writes ∈ vs
        · simp only [List.filter_cons, h, List.mem_cons, h', or_true, decide_true, if_true, List.map_cons, List.sum_cons,
            decide_false, Bool.false_eq_true, if_false] at ih ⊢
          rw [ih]; omega
        · simp only [List.filter_cons, h, List.mem_cons, h', or_self, decide_false, Bool.false_eq_true, if_false] at ih ⊢
          rw [ih]

theorem sum_perm {l l' : List Nat} (h : l.Perm l') : l.sum = l'.sum := by
  induction h with
  | nil => rfl
  | cons _ _ ih => simp [ih]
  | swap => simp; omega
  | trans _ _ h1 h2 => exact h1.trans h2

end Marco.Ida
