import Verif.Lemmas.Cycles
import Verif.Spec.Cycles

/-! Helper lemmas: invariants of the search, and the partition of the cycles. -/

namespace Marco.Cycles
open Marco Marco.Spec

variable {eqs : Nat → Eqn} {rep : Rep} {m : Nat → List WInfo} {scc : List Nat}

theorem mem_activeWrites {idx : Finset Point} : ∀ {as : List Acc} {seen : Finset Point}
    {x : Acc × Finset Point}, x ∈ activeWrites idx seen as → x.1 ∈ as ∧ x.2 = x.1.map idx
  | [], _, _, h => by cases h
  | a :: as, seen, x, h => by
    rw [activeWrites] at h
    split at h
    · exact ⟨List.mem_cons_of_mem _ (mem_activeWrites h).1, (mem_activeWrites h).2⟩
    · rcases List.mem_cons.1 h with rfl | h
      · exact ⟨List.mem_cons_self, rfl⟩
      · exact ⟨List.mem_cons_of_mem _ (mem_activeWrites h).1, (mem_activeWrites h).2⟩

/-- What is known of a call. -/
structure JobOk (m : Nat → List WInfo) (e : Eqn) (idx : Finset Point) (j : Job) : Prop where
  wa : j.wa ∈ e.writes
  written : j.written = j.wa.map idx
  ra : j.ra ∈ e.reads ∨ j.ra ∈ e.writes ∧ j.ra.map idx \ j.written ≠ ∅
  read : j.read = if j.ra.var = j.wa.var then j.ra.map idx \ j.written else j.ra.map idx
  target : j.target ∈ m j.ra.var

theorem JobOk.read_sub {e : Eqn} {idx : Finset Point} {j : Job} (h : JobOk m e idx j) :
    j.read ⊆ j.ra.map idx := by
  rw [h.read]
  split
  · exact Finset.sdiff_subset
  · exact subset_rfl

theorem jobOk (hr : rep.Ok) {e : Eqn} {idx : Finset Point} {j : Job} (h : j ∈ jobs rep m e idx) :
    JobOk m e idx j := by
  simp only [jobs, List.mem_flatMap, List.mem_map, readAccesses, List.mem_append,
    List.mem_filter, decide_eq_true_eq] at h
  obtain ⟨⟨wa, w⟩, h1, ra, h2, t, h3, rfl⟩ := h
  obtain ⟨h4, h5⟩ := mem_activeWrites h1
  exact ⟨h4, h5, h2, rfl, ((hr.walk _ _ _).1 h3).1⟩

theorem mem_writesMap {v : Nat} {w : WInfo} (h : w ∈ writesMap eqs rep scc v) :
    w.eq ∈ scc ∧ ∃ a ∈ (eqs w.eq).writes, a.var = v := by
  simp only [writesMap, List.mem_flatMap] at h
  obtain ⟨e, he, h⟩ := h
  split at h
  · cases h
  · rename_i a as heq
    split at h
    · obtain ⟨b, -, rfl⟩ := List.mem_map.1 h
      exact ⟨he, a, by simp [heq], by assumption⟩
    · cases h

/-! ### Invariants of the search -/

/-- The path that is searched after a call. -/
def extPath (e : Nat) (idx : Finset Point) (path : List Dep) (j : Job) : List Dep :=
  restrictBackward (path ++ [⟨e, idx, j.wa, j.written, j.ra, j.read ∩ j.target.box⟩]) path.length

/-- The indices that are searched after a call. -/
def nextIdx (eqs : Nat → Eqn) (st : St) (j : Job) : Finset Point :=
  writingIndices (eqs j.target.eq) (j.read ∩ j.target.box) \ st.vis j.target.eq

/-- One call. -/
def step (eqs : Nat → Eqn) (rep : Rep) (m : Nat → List WInfo) (fuel : Nat) (e : Nat)
    (idx : Finset Point) (path : List Dep) (st : St) (j : Job) : Option St :=
  if nextIdx eqs st j = ∅ then some st
  else dfs eqs rep m fuel
    (record st (extract (extPath e idx path j) j.target.eq (nextIdx eqs st j)))
    j.target.eq (nextIdx eqs st j) (extPath e idx path j)

theorem dfs_succ {fuel : Nat} {st : St} {e : Nat} {idx : Finset Point} {path : List Dep} :
    dfs eqs rep m (fuel + 1) st e idx path =
      (jobs rep m (eqs e) idx).foldlM (step eqs rep m fuel e idx path) st := rfl

theorem extPath_eq {e : Nat} {idx : Finset Point} {path : List Dep} {j : Job} :
    extPath e idx path j =
      (bwd ⟨e, idx, j.wa, j.written, j.ra, j.read ∩ j.target.box⟩ path.reverse).reverse ++
        [⟨e, idx, j.wa, j.written, j.ra, j.read ∩ j.target.box⟩] := by
  unfold extPath restrictBackward
  rw [List.drop_left]
  simp only [List.take_left]

theorem foldlM_inv {α β : Type*} {P : β → Prop} {f : β → α → Option β} :
    ∀ {l : List α}, (∀ a ∈ l, ∀ b b', P b → f b a = some b' → P b') →
      ∀ {b b'}, P b → l.foldlM f b = some b' → P b'
  | [], _, b, b', hb, h => by
    simp only [List.foldlM_nil, Option.pure_def, Option.some.injEq] at h
    exact h ▸ hb
  | a :: l, hf, b, b', hb, h => by
    simp only [List.foldlM_cons, Option.bind_eq_bind, Option.bind_eq_some_iff] at h
    obtain ⟨b1, h1, h2⟩ := h
    exact foldlM_inv (fun a ha => hf a (List.mem_cons_of_mem _ ha))
      (hf a List.mem_cons_self b b1 hb h1) h2

/-- Invariants `P` of the state and `Q` of the arguments. -/
theorem dfs_inv {P : St → Prop} {Q : Nat → Finset Point → List Dep → Prop}
    (hstep : ∀ st e idx path j, P st → Q e idx path → j ∈ jobs rep m (eqs e) idx →
      nextIdx eqs st j ≠ ∅ →
      P (record st (extract (extPath e idx path j) j.target.eq (nextIdx eqs st j))) ∧
        Q j.target.eq (nextIdx eqs st j) (extPath e idx path j)) :
    ∀ {fuel : Nat} {st : St} {e : Nat} {idx : Finset Point} {path : List Dep} {st' : St},
      P st → Q e idx path → dfs eqs rep m fuel st e idx path = some st' → P st'
  | 0, _, _, _, _, _, _, _, h => by cases h
  | fuel + 1, st, e, idx, path, st', hP, hQ, h => by
    rw [dfs_succ] at h
    refine foldlM_inv (fun j hj b b' hb hb' => ?_) hP h
    unfold step at hb'
    split at hb'
    · simp only [Option.some.injEq] at hb'
      exact hb' ▸ hb
    · rename_i hne
      obtain ⟨h1, h2⟩ := hstep b e idx path j hb hQ hj hne
      exact dfs_inv hstep h1 h2 hb'

theorem search_inv {P : St → Prop} {Q : Nat → Finset Point → List Dep → Prop}
    (hstep : ∀ st e idx path j, P st → Q e idx path → j ∈ jobs rep m (eqs e) idx →
      nextIdx eqs st j ≠ ∅ →
      P (record st (extract (extPath e idx path j) j.target.eq (nextIdx eqs st j))) ∧
        Q j.target.eq (nextIdx eqs st j) (extPath e idx path j)) {fuel : Nat} :
    ∀ {l : List Nat} {st st' : St},
      (∀ e ∈ l, ∀ s, s ⊆ (eqs e).it → s ≠ ∅ → Q e s []) → P st →
      search eqs rep m fuel st l = some st' → P st'
  | [], st, st', _, hP, h => by
    simp only [search, Option.some.injEq] at h
    exact h ▸ hP
  | e :: l, st, st', hQ, hP, h => by
    rw [search] at h
    split at h
    · exact search_inv hstep (fun e he => hQ e (List.mem_cons_of_mem _ he)) hP h
    · rename_i hne
      obtain ⟨st1, h1, h2⟩ := Option.bind_eq_some_iff.1 h
      exact search_inv hstep (fun e he => hQ e (List.mem_cons_of_mem _ he))
        (dfs_inv hstep hP (hQ e List.mem_cons_self _ Finset.sdiff_subset hne) h1) h2

theorem mem_markVisited {c : List Dep} {vis : Nat → Finset Point} {e : Nat} {p : Point} :
    p ∈ markVisited vis c e ↔ p ∈ vis e ∨ Cov e p c := by
  induction c generalizing vis with
  | nil => simp [markVisited, Cov]
  | cons d c ih =>
    have : markVisited vis (d :: c) =
      markVisited (fun e => if e = d.eq then vis e ∪ d.idx else vis e) c := rfl
    rw [this, ih, cov_cons]
    by_cases h : e = d.eq
    · simp [h, or_assoc]
    · have h' : d.eq ≠ e := fun h' => h h'.symm
      simp [h, h']

theorem extract_some {path c : List Dep} {e : Nat} {idx : Finset Point}
    (h : extract path e idx = some c) :
    c <:+ path ∧ 2 ≤ path.length ∧ ∃ d cs, c = d :: cs ∧ d.eq = e ∧ ∃ p ∈ d.idx, p ∈ idx := by
  unfold extract at h
  split at h
  · cases h
  · rename_i hlen
    split at h
    · cases h
    · rename_i hne
      split at h
      · cases h
      · simp only [Option.some.injEq] at h
        subst h
        refine ⟨List.dropWhile_suffix _, by omega, ?_⟩
        have hne' : path.dropWhile (fun d => !(d.eq == e && decide (d.idx ∩ idx ≠ ∅))) ≠ [] := by
          intro h
          exact hne h
        have := List.head_dropWhile_not (fun d : Dep => !(d.eq == e && decide (d.idx ∩ idx ≠ ∅)))
          hne'
        obtain ⟨d, cs, hd⟩ := List.exists_cons_of_ne_nil hne'
        simp only [hd, List.head_cons, Bool.not_eq_false', Bool.and_eq_true, beq_iff_eq,
          decide_eq_true_eq] at this
        exact ⟨d, cs, hd, this.1, nonempty_iff.1 this.2⟩

theorem record_some {st : St} {c : List Dep} :
    record st (some c) = ⟨st.cycles ++ [c], markVisited st.vis c⟩ := rfl

/-- The visited indices are those of the cycles. -/
def VisOk (st : St) : Prop := ∀ e p, p ∈ st.vis e ↔ ∃ c ∈ st.cycles, Cov e p c

theorem visOk_record {st : St} {o : Option (List Dep)} (h : VisOk st) : VisOk (record st o) := by
  cases o with
  | none => exact h
  | some c =>
    intro e p
    rw [record_some]
    simp only [mem_markVisited, List.mem_append, List.mem_singleton, h e p]
    constructor
    · rintro (⟨c', h1, h2⟩ | h)
      · exact ⟨c', .inl h1, h2⟩
      · exact ⟨c, .inr rfl, h⟩
    · rintro ⟨c', h1 | rfl, h2⟩
      · exact .inl ⟨c', h1, h2⟩
      · exact .inr h2

theorem search_visOk {fuel : Nat} {l : List Nat} {st' : St}
    (h : search eqs rep m fuel ⟨[], fun _ => ∅⟩ l = some st') : VisOk st' := by
  refine search_inv (P := VisOk) (Q := fun _ _ _ => True) ?_ (fun _ _ _ _ _ => trivial) ?_ h
  · intro st e idx path j hP _ _ _
    exact ⟨visOk_record hP, trivial⟩
  · intro e p
    simp

/-! ### The nodes -/

/-- The node is one of the equation's. -/
def NodeOk (eqs : Nat → Eqn) (scc : List Nat) (d : Dep) : Prop :=
  d.eq ∈ scc ∧ d.idx ⊆ (eqs d.eq).it

theorem NodeOk.sub {d d' : Dep} (h : NodeOk eqs scc d) (hs : d'.Sub d) : NodeOk eqs scc d' := by
  refine ⟨hs.1 ▸ h.1, hs.1 ▸ hs.2.2.2.trans h.2⟩

theorem forall_of_sub {P : Dep → Prop} (hP : ∀ d d', P d → d'.Sub d → P d') {l l' : List Dep}
    (h : List.Forall₂ Dep.Sub l' l) (hl : ∀ d ∈ l, P d) : ∀ d ∈ l', P d := by
  induction h with
  | nil => exact hl
  | cons hab _ ih =>
    intro d hd
    rcases List.mem_cons.1 hd with rfl | hd
    · exact hP _ _ (hl _ List.mem_cons_self) hab
    · exact ih (fun d hd => hl d (List.mem_cons_of_mem _ hd)) d hd

theorem extPath_sub {e : Nat} {idx : Finset Point} {path : List Dep} {j : Job} :
    List.Forall₂ Dep.Sub (extPath e idx path j)
      (path ++ [⟨e, idx, j.wa, j.written, j.ra, j.read ∩ j.target.box⟩]) := by
  rw [extPath_eq]
  refine List.rel_append ?_ (forall2_refl _)
  rw [← List.forall₂_reverse_iff, List.reverse_reverse]
  exact bwd_sub _ _

theorem nextIdx_sub {st : St} {j : Job} : nextIdx eqs st j ⊆ (eqs j.target.eq).it := by
  intro p hp
  exact (mem_writingIndices.1 (Finset.mem_sdiff.1 hp).1).1

/-- The nodes of the cycles are of the equations of the component, with some of their indices. -/
theorem search_nodeOk (hr : rep.Ok) {fuel : Nat} {st' : St}
    (h : search eqs rep (writesMap eqs rep scc) fuel ⟨[], fun _ => ∅⟩ scc = some st') :
    ∀ c ∈ st'.cycles, ∀ d ∈ c, NodeOk eqs scc d := by
  refine search_inv (P := fun st => ∀ c ∈ st.cycles, ∀ d ∈ c, NodeOk eqs scc d)
    (Q := fun e idx path => e ∈ scc ∧ idx ⊆ (eqs e).it ∧ ∀ d ∈ path, NodeOk eqs scc d)
    ?_ (fun e he s hs _ => ⟨he, hs, by simp⟩) (by simp) h
  intro st e idx path j hP hQ hj _
  have hext : ∀ d ∈ extPath e idx path j, NodeOk eqs scc d := by
    refine forall_of_sub (fun d d' => NodeOk.sub) extPath_sub ?_
    intro d hd
    rcases List.mem_append.1 hd with hd | hd
    · exact hQ.2.2 d hd
    · rw [List.mem_singleton] at hd
      subst hd
      exact ⟨hQ.1, hQ.2.1⟩
  refine ⟨?_, (mem_writesMap (jobOk hr hj).target).1, nextIdx_sub, hext⟩
  cases hx : extract (extPath e idx path j) j.target.eq (nextIdx eqs st j) with
  | none => exact hP
  | some c =>
    rw [record_some]
    intro c' hc'
    rcases List.mem_append.1 hc' with hc' | hc'
    · exact hP c' hc'
    · rw [List.mem_singleton] at hc'
      subst hc'
      exact fun d hd => hext d ((extract_some hx).1.subset hd)

/-! ### The links -/

/-- What is known of the arguments of the search. -/
structure PathOk (eqs : Nat → Eqn) (scc : List Nat) (e : Nat) (idx : Finset Point)
    (path : List Dep) : Prop where
  mem : e ∈ scc
  sub : idx ⊆ (eqs e).it
  ne : idx.Nonempty
  nodes : ∀ d ∈ path, NodeOk eqs scc d ∧ d.wa ∈ (eqs d.eq).writes ∧ d.ra ∈ (eqs d.eq).reads
  nonempty : ∀ d ∈ path, d.idx.Nonempty
  chain : List.IsChain Link path
  last : ∀ l ∈ path.getLast?, ∀ j ∈ idx, ∃ a ∈ (eqs e).writes, l.ra.var = a.var ∧
    ∃ v ∈ a.img j, v ∈ l.ra.map l.idx

theorem chain_nonempty {x : Dep} {l : List Dep} (h : List.IsChain (flip Link) (x :: l))
    (hx : x.idx.Nonempty) : ∀ d ∈ l, d.idx.Nonempty := by
  induction l generalizing x with
  | nil => simp
  | cons c l ih =>
    rw [List.isChain_cons_cons] at h
    obtain ⟨j, hj⟩ := hx
    obtain ⟨-, v, -, hv⟩ := (show Link c x from h.1).1 j hj
    obtain ⟨i, hi, -⟩ := mem_map.1 hv
    intro d hd
    rcases List.mem_cons.1 hd with rfl | hd
    · exact ⟨i, hi⟩
    · exact ih h.2 ⟨i, hi⟩ d hd

theorem map_eq_of_same {e : Eqn} (h : SameWrites e) {a b : Acc} (ha : a ∈ e.writes)
    (hb : b ∈ e.writes) {s : Finset Point} (hs : s ⊆ e.it) : a.map s = b.map s := by
  ext v
  simp only [mem_map]
  constructor
  · rintro ⟨i, hi, hv⟩
    exact ⟨i, hi, ((h a ha b hb).2 i (hs hi)) ▸ hv⟩
  · rintro ⟨i, hi, hv⟩
    exact ⟨i, hi, ((h b hb a ha).2 i (hs hi)) ▸ hv⟩

theorem ra_mem {e : Eqn} (hw : SameWrites e) {idx : Finset Point} (hs : idx ⊆ e.it) {j : Job}
    (h : JobOk m e idx j) : j.ra ∈ e.reads := by
  rcases h.ra with h1 | ⟨h1, h2⟩
  · exact h1
  · exfalso
    apply h2
    rw [h.written, map_eq_of_same hw h1 h.wa hs, sdiff_self]
    rfl

theorem pathOk_ext (hr : rep.Ok) (hw : ∀ e ∈ scc, SameWrites (eqs e)) {e : Nat}
    {idx : Finset Point} {path : List Dep} {st : St} {j : Job} (h : PathOk eqs scc e idx path)
    (hj : j ∈ jobs rep (writesMap eqs rep scc) (eqs e) idx) (hne : nextIdx eqs st j ≠ ∅) :
    PathOk eqs scc j.target.eq (nextIdx eqs st j) (extPath e idx path j) := by
  have hjob := jobOk hr hj
  obtain ⟨ht, a0, ha0, hv0⟩ := mem_writesMap hjob.target
  have hch : List.IsChain (flip Link) (⟨e, idx, j.wa, j.written, j.ra, j.read ∩ j.target.box⟩ ::
      bwd ⟨e, idx, j.wa, j.written, j.ra, j.read ∩ j.target.box⟩ path.reverse) := by
    refine bwd_chain hjob.written ?_ ?_
    · have := h.chain
      rw [← List.isChain_reverse] at this
      exact this
    · intro c hc i hi
      rw [List.head?_reverse] at hc
      obtain ⟨a, ha, h1, v, h2, h3⟩ := h.last c hc i hi
      have := hw e h.mem a ha j.wa hjob.wa
      exact ⟨h1.trans this.1, v, this.2 i (h.sub hi) ▸ h2, h3⟩
  refine ⟨ht, nextIdx_sub, Finset.nonempty_iff_ne_empty.2 hne, ?_, ?_, ?_, ?_⟩
  · refine forall_of_sub
      (P := fun d => NodeOk eqs scc d ∧ d.wa ∈ (eqs d.eq).writes ∧ d.ra ∈ (eqs d.eq).reads)
      ?_ extPath_sub ?_
    · rintro d d' ⟨h1, h2, h3⟩ hs
      refine ⟨h1.sub hs, ?_, ?_⟩
      · rw [hs.1, hs.2.1]; exact h2
      · rw [hs.1, hs.2.2.1]; exact h3
    · intro d hd
      rcases List.mem_append.1 hd with hd | hd
      · exact h.nodes d hd
      · rw [List.mem_singleton] at hd
        subst hd
        exact ⟨⟨h.mem, h.sub⟩, hjob.wa, ra_mem (hw e h.mem) h.sub hjob⟩
  · intro d hd
    rw [extPath_eq, List.mem_append, List.mem_reverse, List.mem_singleton] at hd
    rcases hd with hd | rfl
    · exact chain_nonempty hch h.ne d hd
    · exact h.ne
  · rw [extPath_eq, chain_around, List.reverse_reverse]
    exact ⟨hch, List.isChain_singleton _⟩
  · intro l hl i hi
    rw [extPath_eq, List.getLast?_append] at hl
    simp only [List.getLast?_singleton, Option.some_or, Option.mem_def, Option.some.injEq] at hl
    subst hl
    obtain ⟨-, a, ha, v, h1, h2⟩ := mem_writingIndices.1 (Finset.mem_sdiff.1 hi).1
    refine ⟨a, ha, ?_, v, h1, ?_⟩
    · exact hv0.symm.trans (hw _ ht a0 ha0 a ha).1
    · exact hjob.read_sub (Finset.mem_inter.1 h2).1

/-- What is known of a cycle. -/
structure CycleOk (eqs : Nat → Eqn) (scc : List Nat) (c : List Dep) : Prop where
  nodes : ∀ d ∈ c, NodeOk eqs scc d ∧ d.wa ∈ (eqs d.eq).writes ∧ d.ra ∈ (eqs d.eq).reads
  nonempty : ∀ d ∈ c, d.idx.Nonempty
  chain : List.IsChain Link c

theorem cycleOk_of_extract {e : Nat} {idx : Finset Point} {path c : List Dep}
    (h : PathOk eqs scc e idx path) {idx' : Finset Point} (hx : extract path e idx' = some c) :
    CycleOk eqs scc c := by
  have hs := (extract_some hx).1
  exact ⟨fun d hd => h.nodes d (hs.subset hd), fun d hd => h.nonempty d (hs.subset hd),
    h.chain.suffix hs⟩

theorem search_cycleOk (hr : rep.Ok) (hw : ∀ e ∈ scc, SameWrites (eqs e)) {fuel : Nat} {st' : St}
    (h : search eqs rep (writesMap eqs rep scc) fuel ⟨[], fun _ => ∅⟩ scc = some st') :
    ∀ c ∈ st'.cycles, CycleOk eqs scc c := by
  refine search_inv (P := fun st => ∀ c ∈ st.cycles, CycleOk eqs scc c)
    (Q := PathOk eqs scc)
    ?_ (fun e he s hs hne => ⟨he, hs, Finset.nonempty_iff_ne_empty.2 hne, by simp, by simp,
      by simp, by simp⟩) (by simp) h
  intro st e idx path j hP hQ hj hne
  have hext := pathOk_ext (st := st) hr hw hQ hj hne
  refine ⟨?_, hext⟩
  cases hx : extract (extPath e idx path j) j.target.eq (nextIdx eqs st j) with
  | none => exact hP
  | some c =>
    rw [record_some]
    intro c' hc'
    rcases List.mem_append.1 hc' with hc' | hc'
    · exact hP c' hc'
    · rw [List.mem_singleton] at hc'
      subst hc'
      exact cycleOk_of_extract hext hx

/-! ### The partition of the cycles -/

theorem cut_sub {e : Nat} {idx : Finset Point} {d d' : Dep} (h : d'.Sub d)
    (hc : d'.cut e idx = true) : d.cut e idx = true := by
  simp only [Dep.cut, Bool.and_eq_true, beq_iff_eq, decide_eq_true_eq, Bool.not_eq_true',
    decide_eq_false_iff_not] at hc ⊢
  obtain ⟨⟨h1, h2⟩, h3⟩ := hc
  refine ⟨⟨h.1 ▸ h1, ?_⟩, fun h4 => h3 (h.2.2.2.trans h4)⟩
  rw [nonempty_iff] at h2 ⊢
  obtain ⟨v, hv, hv'⟩ := h2
  exact ⟨v, h.2.2.2 hv, hv'⟩

/-- A property of a cycle that holds also after a split. -/
theorem splitCycleGo_inv {P : List Dep → Prop} {e : Nat} {idx : Finset Point}
    (hP : ∀ l d cs s, P (l ++ d :: cs) → s ⊆ d.idx → P (setAt (l ++ d :: cs) l.length s)) :
    ∀ {n : Nat} {c : List Dep}, P c → ∀ c' ∈ splitCycleGo e idx n c, P c'
  | 0, c, h, c', hc' => by
    rw [splitCycleGo, List.mem_singleton] at hc'
    exact hc' ▸ h
  | n + 1, c, h, c', hc' => by
    rw [splitCycleGo] at hc'
    split at hc'
    · rw [List.mem_singleton] at hc'
      exact hc' ▸ h
    · rename_i k hk
      split at hc'
      · rw [List.mem_singleton] at hc'
        exact hc' ▸ h
      · rename_i d hd
        have hc := list_split hd
        have hlen : (c.take k).length = k := by
          have := (List.getElem?_eq_some_iff.1 hd).1
          rw [List.length_take]
          omega
        have key : ∀ s, s ⊆ d.idx → P (setAt c k s) := by
          intro s hs
          have := hP (c.take k) d (c.drop (k + 1)) s (hc ▸ h) hs
          rwa [← hc, hlen] at this
        rcases List.mem_append.1 hc' with hc' | hc'
        · exact splitCycleGo_inv hP (key _ Finset.inter_subset_left) c' hc'
        · exact splitCycleGo_inv hP (key _ Finset.sdiff_subset) c' hc'

theorem splitCycle_inv {P : List Dep → Prop}
    (hP : ∀ l d cs s, P (l ++ d :: cs) → s ⊆ d.idx → P (setAt (l ++ d :: cs) l.length s))
    {d : Dep} {c : List Dep} (h : P c) : ∀ c' ∈ splitCycle d c, P c' :=
  splitCycleGo_inv hP h

theorem forall2_trans {a b c : List Dep} (h : List.Forall₂ Dep.Sub a b)
    (h' : List.Forall₂ Dep.Sub b c) : List.Forall₂ Dep.Sub a c := by
  induction h generalizing c with
  | nil => exact h'
  | cons h1 _ ih =>
    cases h' with
    | cons h2 h3 => exact .cons (h1.trans h2) (ih h3)

theorem splitCycle_sub {d : Dep} {c : List Dep} :
    ∀ c' ∈ splitCycle d c, List.Forall₂ Dep.Sub c' c :=
  splitCycle_inv (P := fun c' => List.Forall₂ Dep.Sub c' c)
    (fun _ _ _ _ h hs => forall2_trans (setAt_sub hs) h) (forall2_refl c)

theorem splitCycle_chain {d : Dep} {c : List Dep} (h : List.IsChain Link c) :
    ∀ c' ∈ splitCycle d c, List.IsChain Link c' :=
  splitCycle_inv (fun _ _ _ _ h hs => setAt_chain h hs) h

theorem splitCycleGo_cov {e : Nat} {idx : Finset Point} {f : Nat} {p : Point} :
    ∀ {n : Nat} {c : List Dep}, List.IsChain Link c → Cov f p c →
      ∃ c' ∈ splitCycleGo e idx n c, Cov f p c'
  | 0, c, _, h => ⟨c, by simp [splitCycleGo], h⟩
  | n + 1, c, hl, h => by
    rw [splitCycleGo]
    split
    · exact ⟨c, by simp, h⟩
    · rename_i k hk
      split
      · exact ⟨c, by simp, h⟩
      · rename_i d hd
        have hc := list_split hd
        have hlen : (c.take k).length = k := by
          have := (List.getElem?_eq_some_iff.1 hd).1
          rw [List.length_take]
          omega
        have h1 := setAt_cov (l := c.take k) (d := d) (cs := c.drop (k + 1)) (s1 := d.idx ∩ idx)
          (s2 := d.idx \ (d.idx ∩ idx)) (e := f) (p := p) (hc ▸ hl)
          (by intro q hq; simp only [Finset.mem_union, Finset.mem_inter, Finset.mem_sdiff]; tauto)
          (hc ▸ h)
        have h2 : ∀ s ⊆ d.idx, List.IsChain Link (setAt c k s) := by
          intro s hs
          have := setAt_chain (l := c.take k) (d := d) (cs := c.drop (k + 1)) (hc ▸ hl) hs
          rwa [← hc, hlen] at this
        rw [← hc, hlen] at h1
        rcases h1 with h1 | h1
        · obtain ⟨c', h3, h4⟩ := splitCycleGo_cov (h2 _ Finset.inter_subset_left) h1
          exact ⟨c', List.mem_append_left _ h3, h4⟩
        · obtain ⟨c', h3, h4⟩ := splitCycleGo_cov (h2 _ Finset.sdiff_subset) h1
          exact ⟨c', List.mem_append_right _ h3, h4⟩

theorem splitCycle_cov {d : Dep} {c : List Dep} {f : Nat} {p : Point} (hl : List.IsChain Link c)
    (h : Cov f p c) : ∃ c' ∈ splitCycle d c, Cov f p c' := splitCycleGo_cov hl h

theorem countP_sub {P : Dep → Bool} (hP : ∀ d d' : Dep, d'.Sub d → P d' = true → P d = true)
    {l l' : List Dep} (h : List.Forall₂ Dep.Sub l' l) : l'.countP P ≤ l.countP P := by
  induction h with
  | nil => exact le_rfl
  | @cons a b l1 l2 hab _ ih =>
    rw [List.countP_cons, List.countP_cons]
    have := hP b a hab
    cases ha : P a
    · simp only [Bool.false_eq_true, if_false]; omega
    · simp only [this ha, if_true]; omega

theorem splitCycleGo_not_cut {e : Nat} {idx : Finset Point} :
    ∀ {n : Nat} {c : List Dep}, c.countP (Dep.cut e idx) < n →
      ∀ c' ∈ splitCycleGo e idx n c, ∀ x ∈ c', x.cut e idx = false
  | 0, c, h, _, _ => by omega
  | n + 1, c, h, c', hc' => by
    rw [splitCycleGo] at hc'
    split at hc'
    · rename_i hk
      rw [List.mem_singleton] at hc'
      subst hc'
      intro x hx
      have := List.findIdx?_eq_none_iff.1 hk x hx
      simpa using this
    · rename_i k hk
      obtain ⟨hlt, hcut, -⟩ := List.findIdx?_eq_some_iff_getElem.1 hk
      rw [List.getElem?_eq_getElem hlt] at hc'
      simp only at hc'
      have hc := list_split (List.getElem?_eq_getElem hlt)
      have hlen : (c.take k).length = k := by
        rw [List.length_take]
        omega
      have key : ∀ s, s ⊆ c[k].idx → (setIdx c[k] s).cut e idx = false →
          (setAt c k s).countP (Dep.cut e idx) < n := by
        intro s hs hf
        have h1 := setAt_eq (l := c.take k) (d := c[k]) (cs := c.drop (k + 1)) (s := s)
        rw [← hc, hlen] at h1
        have h2 : c.countP (Dep.cut e idx) = (c.take k).countP (Dep.cut e idx) +
            ((c.drop (k + 1)).countP (Dep.cut e idx) + 1) := by
          conv_lhs => rw [hc]
          rw [List.countP_append, List.countP_cons, if_pos hcut]
        rw [h1, List.countP_append, List.countP_cons, if_neg (by simp [hf]), List.countP_reverse]
        have h3 := countP_sub (P := Dep.cut e idx) (fun _ _ => cut_sub)
          (fwd_sub (setIdx c[k] s) (c.drop (k + 1)))
        have h4 := countP_sub (P := Dep.cut e idx) (fun _ _ => cut_sub)
          (bwd_sub (setIdx c[k] s) (c.take k).reverse)
        rw [List.countP_reverse] at h4
        omega
      rcases List.mem_append.1 hc' with hc' | hc'
      · refine splitCycleGo_not_cut (key _ Finset.inter_subset_left ?_) c' hc'
        simp [Dep.cut, setIdx]
      · refine splitCycleGo_not_cut (key _ Finset.sdiff_subset ?_) c' hc'
        simp [Dep.cut, setIdx]

/-- The depth that is given to the recursion of the model is enough: no node is left to be split. -/
theorem splitCycle_not_cut {d : Dep} {c : List Dep} :
    ∀ c' ∈ splitCycle d c, ∀ x ∈ c', x.cut d.eq d.idx = false :=
  splitCycleGo_not_cut (Nat.lt_succ_of_le List.countP_le_length)

/-- A property of a cycle that holds also after a split. -/
theorem foldl_split_inv {P : List Dep → Prop} (hP : ∀ d c, P c → ∀ c' ∈ splitCycle d c, P c') :
    ∀ {ds : List Dep} {cs : List (List Dep)}, (∀ c ∈ cs, P c) →
      ∀ c ∈ ds.foldl (fun cs d => cs.flatMap (splitCycle d)) cs, P c
  | [], cs, h => h
  | d :: ds, cs, h => by
    rw [List.foldl_cons]
    refine foldl_split_inv hP fun c hc => ?_
    obtain ⟨c0, h1, h2⟩ := List.mem_flatMap.1 hc
    exact hP d c0 (h c0 h1) c h2

theorem foldl_split_cov {f : Nat} {p : Point} :
    ∀ {ds : List Dep} {cs : List (List Dep)}, (∀ c ∈ cs, List.IsChain Link c) →
      (∃ c ∈ cs, Cov f p c) →
      ∃ c ∈ ds.foldl (fun cs d => cs.flatMap (splitCycle d)) cs, Cov f p c
  | [], cs, _, h => h
  | d :: ds, cs, hl, ⟨c, hc, h⟩ => by
    rw [List.foldl_cons]
    refine foldl_split_cov (fun c hc => ?_) ?_
    · obtain ⟨c0, h1, h2⟩ := List.mem_flatMap.1 hc
      exact splitCycle_chain (hl c0 h1) c h2
    · obtain ⟨c', h1, h2⟩ := splitCycle_cov (d := d) (hl c hc) h
      exact ⟨c', List.mem_flatMap.2 ⟨c, hc, h1⟩, h2⟩

theorem add_inv {P : List Dep → Prop} (hP : ∀ d c, P c → ∀ c' ∈ splitCycle d c, P c')
    {cs : List (List Dep)} {new : List Dep} (h : ∀ c ∈ cs, P c) (hn : P new) :
    ∀ c ∈ addCycleAndSplit cs new, P c := by
  intro c hc
  rcases List.mem_append.1 hc with hc | hc
  · exact foldl_split_inv hP h c hc
  · exact foldl_split_inv hP (by simpa using hn) c hc

theorem add_cov {f : Nat} {p : Point} {cs : List (List Dep)} {new : List Dep}
    (hl : ∀ c ∈ cs, List.IsChain Link c) (hn : List.IsChain Link new)
    (h : (∃ c ∈ cs, Cov f p c) ∨ Cov f p new) : ∃ c ∈ addCycleAndSplit cs new, Cov f p c := by
  rcases h with h | h
  · obtain ⟨c, h1, h2⟩ := foldl_split_cov (ds := new) hl h
    exact ⟨c, List.mem_append_left _ h1, h2⟩
  · obtain ⟨c, h1, h2⟩ := foldl_split_cov (cs := [new])
      (ds := (new.foldl (fun cs d => cs.flatMap (splitCycle d)) cs).flatten)
      (by simpa using hn) ⟨new, by simp, h⟩
    exact ⟨c, List.mem_append_right _ h1, h2⟩

theorem partition_go_inv {P : List Dep → Prop} (hP : ∀ d c, P c → ∀ c' ∈ splitCycle d c, P c') :
    ∀ {ns cs : List (List Dep)}, (∀ c ∈ cs, P c) → (∀ c ∈ ns, P c) →
      ∀ c ∈ ns.foldl addCycleAndSplit cs, P c
  | [], cs, h, _ => h
  | n :: ns, cs, h, hn => by
    rw [List.foldl_cons]
    exact partition_go_inv hP (add_inv hP h (hn n List.mem_cons_self))
      fun c hc => hn c (List.mem_cons_of_mem _ hc)

theorem partition_inv {P : List Dep → Prop} (hP : ∀ d c, P c → ∀ c' ∈ splitCycle d c, P c')
    {cs : List (List Dep)} (h : ∀ c ∈ cs, P c) : ∀ c ∈ partition cs, P c :=
  partition_go_inv hP (by simp) h

theorem partition_go_cov {f : Nat} {p : Point} :
    ∀ {ns cs : List (List Dep)}, (∀ c ∈ cs, List.IsChain Link c) →
      (∀ c ∈ ns, List.IsChain Link c) → ((∃ c ∈ cs, Cov f p c) ∨ ∃ c ∈ ns, Cov f p c) →
      ∃ c ∈ ns.foldl addCycleAndSplit cs, Cov f p c
  | [], cs, _, _, h => by simpa using h
  | n :: ns, cs, hc, hn, h => by
    rw [List.foldl_cons]
    refine partition_go_cov (add_inv (fun d c => splitCycle_chain) hc (hn n List.mem_cons_self))
      (fun c hc => hn c (List.mem_cons_of_mem _ hc)) ?_
    have hadd := fun h => add_cov (f := f) (p := p) hc (hn n List.mem_cons_self) h
    rcases h with h | ⟨c, h1, h2⟩
    · exact .inl (hadd (.inl h))
    · rcases List.mem_cons.1 h1 with rfl | h1
      · exact .inl (hadd (.inr h2))
      · exact .inr ⟨c, h1, h2⟩

/-- Nothing is lost when the cycles are split. -/
theorem partition_cov {f : Nat} {p : Point} {cs : List (List Dep)}
    (hl : ∀ c ∈ cs, List.IsChain Link c) (h : ∃ c ∈ cs, Cov f p c) :
    ∃ c ∈ partition cs, Cov f p c :=
  partition_go_cov (by simp) hl (.inr h)

/-- Nothing is added when the cycles are split. -/
theorem partition_from {cs : List (List Dep)} :
    ∀ c' ∈ partition cs, ∃ c ∈ cs, List.Forall₂ Dep.Sub c' c :=
  partition_inv (P := fun c' => ∃ c ∈ cs, List.Forall₂ Dep.Sub c' c)
    (fun _ _ ⟨c, hc, h⟩ c' hc' => ⟨c, hc, forall2_trans (splitCycle_sub c' hc') h⟩)
    (fun c hc => ⟨c, hc, forall2_refl c⟩)

end Marco.Cycles
