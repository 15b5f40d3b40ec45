import Verif.Lemmas.CyclesComponents

/-! Helper lemmas: systems of scalar equations. -/

namespace Marco.Cycles
open Marco Marco.Spec

variable {eqs : Nat → Eqn} {rep : Rep} {scc : List Nat}

theorem scalar_mem {e : Eqn} (h : IsScalar e) {p q : Point} (hp : p ∈ e.it) (hq : q ∈ e.it) :
    p = q := by
  obtain ⟨x, hx⟩ := h
  rw [hx, Finset.mem_singleton] at hp hq
  rw [hp, hq]

theorem scalar_selfFree {e : Nat} (h : IsScalar (eqs e)) : SelfFree eqs e :=
  fun _ _ hd => scalar_mem h hd.1 hd.2.1

theorem scalar_noOverlaps (hr : rep.Ok) (hsc : ∀ e ∈ scc, IsScalar (eqs e)) {fuel : Nat} {st : St}
    (h : search eqs rep (writesMap eqs rep scc) fuel ⟨[], fun _ => ∅⟩ scc = some st) :
    NoOverlaps (partition st.cycles) := by
  have hn : ∀ a ∈ (partition st.cycles).flatten, NodeOk eqs scc a := by
    intro a ha
    obtain ⟨c', hc', ha⟩ := List.mem_flatten.1 ha
    obtain ⟨c, hc, hs⟩ := partition_from c' hc'
    exact forall_of_sub (fun d d' => NodeOk.sub) hs (search_nodeOk hr h c hc) a ha
  intro a ha b hb hab
  obtain ⟨ha1, ha2⟩ := hn a ha
  obtain ⟨hb1, hb2⟩ := hn b hb
  rw [← hab] at hb2
  by_cases hd : Disjoint a.idx b.idx
  · exact .inr hd
  · left
    obtain ⟨p, hpa, hpb⟩ := Finset.not_disjoint_iff.1 hd
    ext q
    constructor
    · intro hq
      rwa [scalar_mem (hsc _ ha1) (ha2 hq) (ha2 hpa)]
    · intro hq
      rwa [scalar_mem (hsc _ ha1) (hb2 hq) (hb2 hpb)]

/-! ### The cycles are not split -/

theorem scalar_not_cut (hsc : ∀ e ∈ scc, IsScalar (eqs e)) {d : Dep} (hd : NodeOk eqs scc d)
    (e : Nat) (idx : Finset Point) : d.cut e idx = false := by
  rw [Bool.eq_false_iff]
  intro h
  simp only [Dep.cut, Bool.and_eq_true, beq_iff_eq, decide_eq_true_eq, Bool.not_eq_true',
    decide_eq_false_iff_not] at h
  obtain ⟨⟨h1, h2⟩, h3⟩ := h
  obtain ⟨p, hp, hp'⟩ := nonempty_iff.1 h2
  refine h3 fun q hq => ?_
  rwa [scalar_mem (hsc _ hd.1) (hd.2 hq) (hd.2 hp)]

theorem scalar_splitCycle (hsc : ∀ e ∈ scc, IsScalar (eqs e)) {c : List Dep}
    (hc : ∀ d ∈ c, NodeOk eqs scc d) (x : Dep) : splitCycle x c = [c] := by
  unfold splitCycle splitCycleGo
  have : c.findIdx? (Dep.cut x.eq x.idx) = none := by
    rw [List.findIdx?_eq_none_iff]
    intro d hd
    exact scalar_not_cut hsc (hc d hd) _ _
  rw [this]

theorem scalar_foldl (hsc : ∀ e ∈ scc, IsScalar (eqs e)) (ds : List Dep) :
    ∀ (cs : List (List Dep)), (∀ c ∈ cs, ∀ d ∈ c, NodeOk eqs scc d) →
      ds.foldl (fun cs d => cs.flatMap (splitCycle d)) cs = cs := by
  induction ds with
  | nil => intro cs _; rfl
  | cons d ds ih =>
    intro cs h
    have : cs.flatMap (splitCycle d) = cs := by
      clear ih
      induction cs with
      | nil => rfl
      | cons c cs ih =>
        rw [List.flatMap_cons, scalar_splitCycle hsc (h c List.mem_cons_self),
          ih fun c hc => h c (List.mem_cons_of_mem _ hc)]
        rfl
    rw [List.foldl_cons, this, ih cs h]

theorem scalar_partition_go (hsc : ∀ e ∈ scc, IsScalar (eqs e)) :
    ∀ (ns cs : List (List Dep)), (∀ c ∈ cs, ∀ d ∈ c, NodeOk eqs scc d) →
      (∀ c ∈ ns, ∀ d ∈ c, NodeOk eqs scc d) → ns.foldl addCycleAndSplit cs = cs ++ ns
  | [], cs, _, _ => by simp
  | n :: ns, cs, h, hn => by
    have hn' := hn n List.mem_cons_self
    have : addCycleAndSplit cs n = cs ++ [n] := by
      unfold addCycleAndSplit
      simp only
      rw [scalar_foldl hsc _ cs h, scalar_foldl hsc _ [n] (by simpa using hn')]
    rw [List.foldl_cons, this, scalar_partition_go hsc ns (cs ++ [n]) ?_
      fun c hc => hn c (List.mem_cons_of_mem _ hc)]
    · simp
    · intro c hc
      rcases List.mem_append.1 hc with hc | hc
      · exact h c hc
      · rw [List.mem_singleton] at hc
        exact hc ▸ hn'

theorem scalar_partition (hsc : ∀ e ∈ scc, IsScalar (eqs e)) {cs : List (List Dep)}
    (h : ∀ c ∈ cs, ∀ d ∈ c, NodeOk eqs scc d) : partition cs = cs :=
  scalar_partition_go hsc cs [] (by simp) h

/-! ### The edges are dependencies -/

/-- An equation of the component depends on another. -/
def ArrDep (eqs : Nat → Eqn) (scc : List Nat) (a b : Nat) : Prop :=
  a ∈ scc ∧ b ∈ scc ∧ a ≠ b ∧ ∃ p q, DependsOn eqs (a, p) (b, q)

/-- What is known of the equations of a path. -/
def EqPath (eqs : Nat → Eqn) (scc : List Nat) (e : Nat) (path : List Dep) : Prop :=
  List.IsChain (ArrDep eqs scc) (path.map Dep.eq ++ [e])

theorem map_eq_of_sub {l l' : List Dep} (h : List.Forall₂ Dep.Sub l' l) :
    l'.map Dep.eq = l.map Dep.eq := by
  induction h with
  | nil => rfl
  | cons h1 _ ih => rw [List.map_cons, List.map_cons, ih, h1.1]

theorem extPath_map {e : Nat} {idx : Finset Point} {path : List Dep} {j : Job} :
    (extPath e idx path j).map Dep.eq = path.map Dep.eq ++ [e] := by
  rw [map_eq_of_sub extPath_sub]
  simp

theorem eqPath_ext (hr : rep.Ok) (hw : ∀ e ∈ scc, SameWrites (eqs e))
    (hs : ∀ e ∈ scc, SelfFree eqs e) {e : Nat} {idx : Finset Point} {path : List Dep} {st : St}
    {j : Job} (h : PathOk eqs scc e idx path) (hp : EqPath eqs scc e path)
    (hj : j ∈ jobs rep (writesMap eqs rep scc) (eqs e) idx) (hne : nextIdx eqs st j ≠ ∅) :
    EqPath eqs scc j.target.eq (extPath e idx path j) := by
  have hjob := jobOk hr hj
  obtain ⟨ht, a0, ha0, hv0⟩ := mem_writesMap hjob.target
  unfold EqPath at hp ⊢
  rw [extPath_map, List.append_assoc, List.singleton_append, List.isChain_append_cons_cons]
  refine ⟨hp, ?_, List.isChain_singleton _⟩
  refine ⟨h.mem, ht, target_ne hr hw hs h.mem h.sub hj hne, ?_⟩
  obtain ⟨q, hq⟩ := Finset.nonempty_iff_ne_empty.2 hne
  obtain ⟨hq1, a, ha, v, h1, h2⟩ := mem_writingIndices.1 (Finset.mem_sdiff.1 hq).1
  obtain ⟨p, hp1, hp2⟩ := mem_map.1 (hjob.read_sub (Finset.mem_inter.1 h2).1)
  exact ⟨p, q, h.sub hp1, hq1, j.ra, ra_mem (hw e h.mem) h.sub hjob, a, ha,
    hv0.symm.trans (hw _ ht a0 ha0 a ha).1, v, hp2, h1⟩

/-- A cycle of equations. -/
def EqCycle (eqs : Nat → Eqn) (scc : List Nat) (c : List Dep) : Prop :=
  ∃ d cs, c = d :: cs ∧ List.IsChain (ArrDep eqs scc) (c.map Dep.eq ++ [d.eq])

theorem eqCycle_of_extract {path c : List Dep} {e : Nat} {idx : Finset Point}
    (hp : EqPath eqs scc e path) (hx : extract path e idx = some c) : EqCycle eqs scc c := by
  obtain ⟨⟨t, ht⟩, -, d, cs, hc, hde, -⟩ := extract_some hx
  refine ⟨d, cs, hc, ?_⟩
  unfold EqPath at hp
  rw [hde]
  refine hp.suffix ⟨t.map Dep.eq, ?_⟩
  rw [← ht, List.map_append, List.append_assoc]

/-- The invariant of the state, and that of the arguments. -/
def StOk (eqs : Nat → Eqn) (scc : List Nat) (st : St) : Prop :=
  VisOk st ∧ ∀ c ∈ st.cycles, CycleOk eqs scc c ∧ EqCycle eqs scc c

def ArgOk (eqs : Nat → Eqn) (scc : List Nat) (e : Nat) (idx : Finset Point)
    (path : List Dep) : Prop :=
  PathOk eqs scc e idx path ∧ EqPath eqs scc e path

theorem stOk_step (hr : rep.Ok) (hw : ∀ e ∈ scc, SameWrites (eqs e))
    (hs : ∀ e ∈ scc, SelfFree eqs e) : ∀ st e idx path j, StOk eqs scc st →
      ArgOk eqs scc e idx path → j ∈ jobs rep (writesMap eqs rep scc) (eqs e) idx →
      nextIdx eqs st j ≠ ∅ →
      StOk eqs scc (record st (extract (extPath e idx path j) j.target.eq (nextIdx eqs st j))) ∧
        ArgOk eqs scc j.target.eq (nextIdx eqs st j) (extPath e idx path j) := by
  intro st e idx path j hP hQ hj hne
  have h1 := pathOk_ext (st := st) hr hw hQ.1 hj hne
  have h2 := eqPath_ext hr hw hs hQ.1 hQ.2 hj hne
  refine ⟨⟨visOk_record hP.1, ?_⟩, h1, h2⟩
  cases hx : extract (extPath e idx path j) j.target.eq (nextIdx eqs st j) with
  | none => exact hP.2
  | some c =>
    rw [record_some]
    intro c' hc'
    rcases List.mem_append.1 hc' with hc' | hc'
    · exact hP.2 c' hc'
    · rw [List.mem_singleton] at hc'
      subst hc'
      exact ⟨cycleOk_of_extract h1 hx, eqCycle_of_extract h2 hx⟩

theorem stOk_nil : StOk eqs scc ⟨[], fun _ => ∅⟩ := ⟨by intro e p; simp, by simp⟩

theorem search_stOk (hr : rep.Ok) (hw : ∀ e ∈ scc, SameWrites (eqs e))
    (hs : ∀ e ∈ scc, SelfFree eqs e) {fuel : Nat} {st : St}
    (h : search eqs rep (writesMap eqs rep scc) fuel ⟨[], fun _ => ∅⟩ scc = some st) :
    StOk eqs scc st :=
  search_inv (stOk_step hr hw hs)
    (fun _ he _ hs hne => ⟨pathOk_nil he hs hne, List.isChain_singleton _⟩) stOk_nil h

theorem zip_chain {α : Type*} {R : α → α → Prop} {h : α} : ∀ {l : List α} {x : α},
    List.IsChain R ((x :: l) ++ [h]) → ∀ u v, (u, v) ∈ (x :: l).zip (l ++ [h]) → R u v
  | [], x, hc, u, v, hm => by
    simp only [List.nil_append, List.zip_cons_cons, List.zip_nil_left, List.mem_singleton,
      Prod.mk.injEq] at hm
    rw [hm.1, hm.2]
    exact List.isChain_pair.1 hc
  | y :: l, x, hc, u, v, hm => by
    rw [List.cons_append, List.zip_cons_cons, List.mem_cons] at hm
    rw [List.cons_append, List.cons_append, List.isChain_cons_cons] at hc
    rcases hm with hm | hm
    · simp only [Prod.mk.injEq] at hm
      rw [hm.1, hm.2]
      exact hc.1
    · exact zip_chain hc.2 u v hm

theorem cycleEdges_cons {d : Dep} {cs : List Dep} :
    cycleEdges (d :: cs) = (d.view :: cs.map Dep.view).zip (cs.map Dep.view ++ [d.view]) := rfl

theorem cycleEdges_dep {c : List Dep} (hc : EqCycle eqs scc c) {u v : View}
    (h : (u, v) ∈ cycleEdges c) : ArrDep eqs scc u.1 v.1 := by
  obtain ⟨d, cs, rfl, hch⟩ := hc
  rw [cycleEdges_cons] at h
  refine zip_chain (R := fun u v : View => ArrDep eqs scc u.1 v.1) ?_ u v h
  have : ((d :: cs).map Dep.eq ++ [d.eq]) =
      ((d.view :: cs.map Dep.view) ++ [d.view]).map Prod.fst := by
    simp [Dep.view]
  rw [this, List.isChain_map] at hch
  exact hch

/-- All the nodes of a cycle reach each other. -/
theorem zip_reach {α : Type*} {h : α} : ∀ {l : List α} {x : α}, ∀ u ∈ x :: l,
    Relation.ReflTransGen (fun a b => (a, b) ∈ (x :: l).zip (l ++ [h])) x u ∧
      Relation.ReflTransGen (fun a b => (a, b) ∈ (x :: l).zip (l ++ [h])) u h
  | [], x, u, hu => by
    rw [List.mem_singleton] at hu
    subst hu
    exact ⟨.refl, .single (by simp)⟩
  | y :: l, x, u, hu => by
    have mono : ∀ {a b}, Relation.ReflTransGen (fun a b => (a, b) ∈ (y :: l).zip (l ++ [h])) a b →
        Relation.ReflTransGen (fun a b => (a, b) ∈ (x :: y :: l).zip (y :: l ++ [h])) a b :=
      fun h' => Relation.ReflTransGen.mono (fun a b hab => by
        rw [List.cons_append, List.zip_cons_cons]
        exact List.mem_cons_of_mem _ hab) _ _ h'
    have hxy : Relation.ReflTransGen
        (fun a b => (a, b) ∈ (x :: y :: l).zip (y :: l ++ [h])) x y :=
      .single (by rw [List.cons_append, List.zip_cons_cons]; exact List.mem_cons_self)
    rcases List.mem_cons.1 hu with rfl | hu
    · exact ⟨.refl, hxy.trans (mono (zip_reach y List.mem_cons_self).2)⟩
    · exact ⟨hxy.trans (mono (zip_reach u hu).1), mono (zip_reach u hu).2⟩

theorem cycle_reach {c : List Dep} {d d' : Dep} (hd : d ∈ c) (hd' : d' ∈ c) :
    Relation.ReflTransGen (fun a b => (a, b) ∈ cycleEdges c) d.view d'.view := by
  cases c with
  | nil => cases hd
  | cons x cs =>
    rw [cycleEdges_cons]
    have h1 : d.view ∈ x.view :: cs.map Dep.view := by
      rw [← List.map_cons]; exact List.mem_map_of_mem hd
    have h2 : d'.view ∈ x.view :: cs.map Dep.view := by
      rw [← List.map_cons]; exact List.mem_map_of_mem hd'
    exact (zip_reach (h := x.view) _ h1).2.trans (zip_reach (h := x.view) _ h2).1

/-! ### Components of scalar equations -/

theorem scalar_dep (hsc : ∀ e ∈ scc, IsScalar (eqs e)) {a b : Nat} (h : ArrDep eqs scc a b)
    {p q : Point} (hp : p ∈ (eqs a).it) (hq : q ∈ (eqs b).it) : DependsOn eqs (a, p) (b, q) := by
  obtain ⟨ha, hb, -, p', q', hd⟩ := h
  have h1 : p = p' := scalar_mem (hsc a ha) hp hd.1
  have h2 : q = q' := scalar_mem (hsc b hb) hq hd.2.1
  rw [h1, h2]
  exact hd

theorem scalar_reach (hsc : ∀ e ∈ scc, IsScalar (eqs e)) {es : List (View × View)}
    (hes : ∀ u v, (u, v) ∈ es → ArrDep eqs scc u.1 v.1) {u v : View}
    (h : Relation.ReflTransGen (fun a b => (a, b) ∈ es) u v) (hu : u.1 ∈ scc) {p q : Point}
    (hp : p ∈ (eqs u.1).it) (hq : q ∈ (eqs v.1).it) :
    Relation.ReflTransGen (DependsOn eqs) (u.1, p) (v.1, q) := by
  induction h using Relation.ReflTransGen.head_induction_on generalizing p with
  | refl => rw [scalar_mem (hsc _ hu) hp hq]
  | @head a c h1 _ ih =>
    have hd := hes _ _ h1
    obtain ⟨x, hx⟩ := hsc _ hd.2.1
    have hx' : x ∈ (eqs c.1).it := by rw [hx]; simp
    exact .head (scalar_dep hsc hd hp hx') (ih hd.2.1 hx')

/-- Two scalar equations of a component depend on each other. -/
theorem process_mutual (hr : rep.Ok) (hw : ∀ e ∈ scc, SameWrites (eqs e))
    (hsc : ∀ e ∈ scc, IsScalar (eqs e)) {fuel : Nat} {out : List (List View)}
    (h : ProcessScc eqs rep fuel scc out) {s t : ScalarEq} (hst : SameComponent out s t) :
    Relation.ReflTransGen (DependsOn eqs) s t ∧ Relation.ReflTransGen (DependsOn eqs) t s := by
  have hs : ∀ e ∈ scc, SelfFree eqs e := fun e he => scalar_selfFree (hsc e he)
  obtain ⟨st, comps, h1, h2, rfl⟩ := h
  have hok := search_stOk hr hw hs h1
  have hpart : partition st.cycles = st.cycles :=
    scalar_partition hsc fun c hc d hd => ((hok.2 c hc).1.nodes d hd).1
  rw [hpart] at h2
  obtain ⟨c, hc, ⟨u, hu, hu1, hu2⟩, v, hv, hv1, hv2⟩ := hst
  obtain ⟨e, p⟩ := s
  obtain ⟨f, q⟩ := t
  simp only at hu1 hu2 hv1 hv2
  rcases List.mem_append.1 hc with hc | hc
  · have hmem : ∀ w ∈ c, w ∈ vertices st.cycles := fun w hw =>
      h2.perm.subset (List.mem_flatten.2 ⟨c, hc, hw⟩)
    have hview : ∀ w ∈ vertices st.cycles, w.1 ∈ scc ∧ w.2 ⊆ (eqs w.1).it := by
      intro w hw
      simp only [vertices, List.mem_dedup, List.mem_map, List.mem_flatten] at hw
      obtain ⟨d, ⟨c, hc, hd⟩, rfl⟩ := hw
      exact ((hok.2 c hc).1.nodes d hd).1
    have hes : ∀ a b, (a, b) ∈ edges st.cycles → ArrDep eqs scc a.1 b.1 := by
      intro a b hab
      obtain ⟨c, hc, hab⟩ := List.mem_flatMap.1 hab
      exact cycleEdges_dep (hok.2 c hc).2 hab
    obtain ⟨h3, h4⟩ := (h2.same u (hmem u hu) v (hmem v hv)).1 ⟨c, hc, hu, hv⟩
    have hu3 := hview u (hmem u hu)
    have hv3 := hview v (hmem v hv)
    have h5 := scalar_reach hsc hes h3 hu3.1 (hu3.2 hu2) (hv3.2 hv2)
    have h6 := scalar_reach hsc hes h4 hv3.1 (hv3.2 hv2) (hu3.2 hu2)
    rw [hu1, hv1] at h5 h6
    exact ⟨h5, h6⟩
  · unfold remaining at hc
    obtain ⟨g, hg, rfl⟩ := List.mem_map.1 hc
    rw [List.mem_singleton] at hu hv
    subst hu hv
    simp only at hu1 hv1 hu2 hv2
    subst hu1 hv1
    have := scalar_mem (hsc _ (List.mem_filter.1 hg).1) (Finset.mem_sdiff.1 hu2).1
      (Finset.mem_sdiff.1 hv2).1
    rw [this]
    exact ⟨.refl, .refl⟩

/-! ### One dependency for each equation -/

/-- The equation is in a cycle that has been found. -/
def InCycle (st : St) (e : Nat) : Prop := ∃ c ∈ st.cycles, e ∈ c.map Dep.eq

theorem chain_succ {R : Nat → Nat → Prop} : ∀ {l : List Nat} {h e : Nat},
    List.IsChain R (l ++ [h]) → e ∈ l → ∃ f ∈ l ++ [h], R e f ∧ (f ∈ l ∨ f = h)
  | x :: l, h, e, hc, he => by
    cases l with
    | nil =>
      rw [List.mem_singleton] at he
      subst he
      exact ⟨h, by simp, List.isChain_pair.1 hc, .inr rfl⟩
    | cons y l =>
      rw [List.cons_append, List.cons_append, List.isChain_cons_cons] at hc
      rcases List.mem_cons.1 he with rfl | he
      · exact ⟨y, by simp, hc.1, .inl (by simp)⟩
      · obtain ⟨f, h1, h2, h3⟩ := chain_succ (l := y :: l) hc.2 he
        refine ⟨f, List.mem_cons_of_mem _ h1, h2, ?_⟩
        rcases h3 with h3 | h3
        · exact .inl (List.mem_cons_of_mem _ h3)
        · exact .inr h3

/-- Each equation depends on at most one other. -/
def Functional (eqs : Nat → Eqn) (scc : List Nat) : Prop :=
  ∀ a b c, ArrDep eqs scc a b → ArrDep eqs scc a c → b = c

theorem cycle_closed (hf : Functional eqs scc) {c : List Dep} (hc : EqCycle eqs scc c) {e f : Nat}
    (he : e ∈ c.map Dep.eq) (h : Relation.ReflTransGen (ArrDep eqs scc) e f) :
    f ∈ c.map Dep.eq := by
  obtain ⟨d, cs, rfl, hch⟩ := hc
  induction h with
  | refl => exact he
  | tail _ h2 ih =>
    obtain ⟨g, -, h3, h4⟩ := chain_succ hch ih
    rw [hf _ _ _ h2 h3]
    rcases h4 with h4 | h4
    · exact h4
    · rw [h4]; simp

theorem inCycle_closed (hf : Functional eqs scc) {st : St} (hst : StOk eqs scc st) {e f : Nat}
    (he : InCycle st e) (h : Relation.ReflTransGen (ArrDep eqs scc) e f) : InCycle st f := by
  obtain ⟨c, hc, he⟩ := he
  exact ⟨c, hc, cycle_closed hf (hst.2 c hc).2 he h⟩

theorem inCycle_iff (hsc : ∀ e ∈ scc, IsScalar (eqs e)) {st : St} (hst : StOk eqs scc st) {e : Nat}
    {p : Point} (hp : p ∈ (eqs e).it) : InCycle st e ↔ p ∈ st.vis e := by
  rw [hst.1 e p]
  constructor
  · rintro ⟨c, hc, he⟩
    obtain ⟨d, hd, rfl⟩ := List.mem_map.1 he
    obtain ⟨q, hq⟩ := (hst.2 c hc).1.nonempty d hd
    obtain ⟨h1, h2⟩ := ((hst.2 c hc).1.nodes d hd).1
    refine ⟨c, hc, d, hd, rfl, ?_⟩
    rwa [scalar_mem (hsc _ h1) hp (h2 hq)]
  · rintro ⟨c, hc, d, hd, rfl, -⟩
    exact ⟨c, hc, List.mem_map_of_mem hd⟩

theorem record_inCycle {st : St} {o : Option (List Dep)} {e : Nat} (h : InCycle st e) :
    InCycle (record st o) e := by
  cases o with
  | none => exact h
  | some c =>
    obtain ⟨c', hc', he⟩ := h
    exact ⟨c', List.mem_append_left _ hc', he⟩

theorem dfs_inCycle {m : Nat → List WInfo} {fuel : Nat} {st : St} {e : Nat} {idx : Finset Point}
    {path : List Dep} {st' : St} (h : dfs eqs rep m fuel st e idx path = some st') {f : Nat}
    (hf : InCycle st f) : InCycle st' f := by
  refine dfs_inv (P := fun s => InCycle s f) (Q := fun _ _ _ => True) ?_ hf trivial h
  intro s e idx path j hP _ _ _
  exact ⟨record_inCycle hP, trivial⟩

theorem step_inCycle {m : Nat → List WInfo} {fuel : Nat} {st : St} {e : Nat} {idx : Finset Point}
    {path : List Dep} {j : Job} {st' : St} (h : step eqs rep m fuel e idx path st j = some st')
    {f : Nat} (hf : InCycle st f) : InCycle st' f := by
  unfold step at h
  split at h
  · simp only [Option.some.injEq] at h
    exact h ▸ hf
  · exact dfs_inCycle h (record_inCycle hf)

theorem step_stOk (hr : rep.Ok) (hw : ∀ e ∈ scc, SameWrites (eqs e))
    (hs : ∀ e ∈ scc, SelfFree eqs e) {fuel : Nat} {st : St} {e : Nat} {idx : Finset Point}
    {path : List Dep} {j : Job} {st' : St} (hP : StOk eqs scc st) (hQ : ArgOk eqs scc e idx path)
    (hj : j ∈ jobs rep (writesMap eqs rep scc) (eqs e) idx)
    (h : step eqs rep (writesMap eqs rep scc) fuel e idx path st j = some st') :
    StOk eqs scc st' := by
  unfold step at h
  split at h
  · simp only [Option.some.injEq] at h
    exact h ▸ hP
  · rename_i hne
    obtain ⟨h1, h2⟩ := stOk_step hr hw hs st e idx path j hP hQ hj hne
    exact dfs_inv (stOk_step hr hw hs) h1 h2 h

/-- A call for each dependency. -/
theorem job_exists (hr : rep.Ok) (hw : ∀ e ∈ scc, SameWrites (eqs e)) (hm : Matched eqs)
    {e f : Nat} {p q : Point} {idx : Finset Point} (hf : f ∈ scc) (he : e ∈ scc) (hef : e ≠ f)
    (hp : p ∈ idx) (hi : idx ⊆ (eqs e).it) (hd : DependsOn eqs (e, p) (f, q))
    (hwr : ∃ a ∈ (eqs e).writes, (a.img p).Nonempty) :
    ∃ j ∈ jobs rep (writesMap eqs rep scc) (eqs e) idx, j.target.eq = f ∧
      q ∈ writingIndices (eqs f) (j.read ∩ j.target.box) := by
  obtain ⟨hp', hq', r, hr1, a, ha, hvar, v, hv1, hv2⟩ := hd
  simp only at hr1 ha hv1 hv2
  -- The write access.
  obtain ⟨wa, w, hwa⟩ : ∃ wa w, (wa, w) ∈ activeWrites idx ∅ (eqs e).writes := by
    obtain ⟨b, hb, x, hx⟩ := hwr
    obtain ⟨b0, bs, hbs⟩ := List.exists_cons_of_ne_nil (List.ne_nil_of_mem hb)
    have hb0 : b0 ∈ (eqs e).writes := by rw [hbs]; simp
    refine ⟨b0, b0.map idx, ?_⟩
    rw [hbs, activeWrites, if_neg]
    · exact List.mem_cons_self
    · intro hsub
      have : x ∈ b0.map idx :=
        mem_map.2 ⟨p, hp, (hw e he b hb b0 hb0).2 p hp' ▸ hx⟩
      exact absurd (hsub this) (Finset.notMem_empty _)
  obtain ⟨hwa1, hwa2⟩ := mem_activeWrites hwa
  simp only at hwa1 hwa2
  -- The element is read.
  have hvr : v ∈ (if r.var = wa.var then r.map idx \ w else r.map idx) := by
    have h1 : v ∈ r.map idx := mem_map.2 ⟨p, hp, hv1⟩
    split
    · rename_i hrw
      refine Finset.mem_sdiff.2 ⟨h1, fun h2 => ?_⟩
      rw [hwa2] at h2
      obtain ⟨p', hp'', hv'⟩ := mem_map.1 h2
      have := hm (e, p') (f, q) (hi hp'') hq' ⟨wa, hwa1, a, ha, hrw.symm.trans hvar, v, hv', hv2⟩
      exact hef (congrArg Prod.fst this)
    · exact h1
  -- It is written by an entry of the map.
  obtain ⟨a0, as, has⟩ := List.exists_cons_of_ne_nil (List.ne_nil_of_mem ha)
  have ha0 : a0 ∈ (eqs f).writes := by rw [has]; simp
  have hunion : v ∈ (eqs f).writes.foldl (fun s w => s ∪ w.map (eqs f).it) ∅ := by
    have : ∀ (l : List Acc) (s : Finset Point), (v ∈ s ∨ ∃ b ∈ l, v ∈ b.map (eqs f).it) →
        v ∈ l.foldl (fun s w => s ∪ w.map (eqs f).it) s := by
      intro l
      induction l with
      | nil => intro s h; simpa using h
      | cons b l ih =>
        intro s h
        rw [List.foldl_cons]
        apply ih
        rcases h with h | ⟨b', hb', h⟩
        · exact .inl (Finset.mem_union_left _ h)
        · rcases List.mem_cons.1 hb' with rfl | hb'
          · exact .inl (Finset.mem_union_right _ h)
          · exact .inr ⟨b', hb', h⟩
    exact this _ _ (.inr ⟨a, ha, mem_map.2 ⟨q, hq', hv2⟩⟩)
  obtain ⟨b, hb, hvb⟩ := (hr.ranges _ v).1 hunion
  have hent : (⟨f, b⟩ : WInfo) ∈ writesMap eqs rep scc r.var := by
    unfold writesMap
    refine List.mem_flatMap.2 ⟨f, hf, ?_⟩
    rw [has]
    simp only
    rw [if_pos ((hw f hf a0 ha0 a ha).1.trans hvar.symm), ← has]
    exact List.mem_map.2 ⟨b, hb, rfl⟩
  refine ⟨⟨wa, w, r, if r.var = wa.var then r.map idx \ w else r.map idx, ⟨f, b⟩⟩, ?_, rfl, ?_⟩
  · unfold jobs
    refine List.mem_flatMap.2 ⟨(wa, w), hwa, List.mem_flatMap.2 ⟨r, ?_, ?_⟩⟩
    · exact List.mem_append_left _ hr1
    · exact List.mem_map.2 ⟨⟨f, b⟩, (hr.walk _ _ _).2 ⟨hent, v, hvr, hvb⟩, rfl⟩
  · exact mem_writingIndices.2 ⟨hq', a, ha, v, hv2, Finset.mem_inter.2 ⟨hvr, hvb⟩⟩

theorem foldlM_append_some {α β : Type*} {f : β → α → Option β} {l1 l2 : List α} {j : α} {b b' : β}
    (h : (l1 ++ j :: l2).foldlM f b = some b') :
    ∃ b1 b2, l1.foldlM f b = some b1 ∧ f b1 j = some b2 ∧ l2.foldlM f b2 = some b' := by
  rw [List.foldlM_append] at h
  simp only [List.foldlM_cons, Option.bind_eq_bind, Option.bind_eq_some_iff] at h
  obtain ⟨b1, h1, b2, h2, h3⟩ := h
  exact ⟨b1, b2, h1, h2, h3⟩

theorem dfs_finds (hr : rep.Ok) (hw : ∀ e ∈ scc, SameWrites (eqs e))
    (hsc : ∀ e ∈ scc, IsScalar (eqs e)) (hm : Matched eqs) (hfun : Functional eqs scc) :
    ∀ {fuel : Nat} {st : St} {e : Nat} {idx : Finset Point} {path : List Dep} {st' : St},
      StOk eqs scc st → ArgOk eqs scc e idx path →
      dfs eqs rep (writesMap eqs rep scc) fuel st e idx path = some st' →
      ∀ {f : Nat}, ArrDep eqs scc e f → Relation.TransGen (ArrDep eqs scc) f e → InCycle st' e
  | 0, _, _, _, _, _, _, _, h, _, _, _ => by cases h
  | fuel + 1, st, e, idx, path, st', hst, harg, h, f, hef, hfe => by
    have hs : ∀ e ∈ scc, SelfFree eqs e := fun e he => scalar_selfFree (hsc e he)
    obtain ⟨p, hp⟩ := harg.1.ne
    obtain ⟨q, hqx⟩ := hsc f hef.2.1
    have hq : q ∈ (eqs f).it := by rw [hqx]; simp
    have hdep : DependsOn eqs (e, p) (f, q) := scalar_dep hsc hef (harg.1.sub hp) hq
    have hwr : ∃ a ∈ (eqs e).writes, (a.img p).Nonempty := by
      obtain ⟨g, -, hge⟩ := Relation.TransGen.tail'_iff.1 hfe
      obtain ⟨-, he, -, p', p'', -, h2, r, -, a, ha, -, v, -, hv⟩ := hge
      have : p'' = p := scalar_mem (hsc e he) h2 (harg.1.sub hp)
      subst this
      exact ⟨a, ha, v, hv⟩
    obtain ⟨j, hj, hjf, hjq⟩ :=
      job_exists hr hw hm hef.2.1 hef.1 hef.2.2.1 hp harg.1.sub hdep hwr
    rw [dfs_succ] at h
    obtain ⟨l1, l2, hl⟩ := List.append_of_mem hj
    rw [hl] at h
    obtain ⟨s1, s2, h1, h2, h3⟩ := foldlM_append_some h
    have hmem1 : ∀ x ∈ l1, x ∈ jobs rep (writesMap eqs rep scc) (eqs e) idx := by
      intro x hx; rw [hl]; simp [hx]
    have hs1 : StOk eqs scc s1 :=
      foldlM_inv (fun x hx b b' hb hb' => step_stOk hr hw hs hb harg (hmem1 x hx) hb') hst h1
    have hs2 : StOk eqs scc s2 := step_stOk hr hw hs hs1 harg hj h2
    have key : InCycle s2 f := by
      unfold step at h2
      split at h2
      · rename_i hemp
        simp only [Option.some.injEq] at h2
        subst h2
        rw [inCycle_iff hsc hs1 hq]
        by_contra hnv
        have : q ∈ nextIdx eqs s1 j := by
          unfold nextIdx
          rw [hjf]
          exact Finset.mem_sdiff.2 ⟨hjq, hnv⟩
        rw [hemp] at this
        exact absurd this (Finset.notMem_empty _)
      · rename_i hne
        obtain ⟨h4, h5⟩ := stOk_step hr hw hs s1 e idx path j hs1 harg hj hne
        rw [hjf] at h2 h4 h5
        obtain ⟨g, hfg, hge⟩ := Relation.TransGen.head'_iff.1 hfe
        exact dfs_finds hr hw hsc hm hfun h4 h5 h2 hfg
          (Relation.TransGen.tail' hge hef)
    have key2 : InCycle s2 e := inCycle_closed hfun hs2 key hfe.to_reflTransGen
    exact foldlM_inv (P := fun s => InCycle s e) (fun x _ b b' hb hb' => step_inCycle hb' hb)
      key2 h3

theorem search_finds (hr : rep.Ok) (hw : ∀ e ∈ scc, SameWrites (eqs e))
    (hsc : ∀ e ∈ scc, IsScalar (eqs e)) (hm : Matched eqs) (hfun : Functional eqs scc)
    {fuel : Nat} {e f : Nat} (hef : ArrDep eqs scc e f)
    (hfe : Relation.TransGen (ArrDep eqs scc) f e) :
    ∀ {l : List Nat} {st st' : St}, (∀ x ∈ l, x ∈ scc) → StOk eqs scc st →
      search eqs rep (writesMap eqs rep scc) fuel st l = some st' →
      (InCycle st e ∨ e ∈ l) → InCycle st' e
  | [], st, st', _, _, h, he => by
    simp only [search, Option.some.injEq] at h
    subst h
    rcases he with he | he
    · exact he
    · cases he
  | x :: l, st, st', hl, hst, h, he => by
    have hs : ∀ e ∈ scc, SelfFree eqs e := fun e he => scalar_selfFree (hsc e he)
    have hl' : ∀ x ∈ l, x ∈ scc := fun y hy => hl y (List.mem_cons_of_mem _ hy)
    rw [search] at h
    split at h
    · rename_i hemp
      refine search_finds hr hw hsc hm hfun hef hfe hl' hst h ?_
      rcases he with he | he
      · exact .inl he
      · rcases List.mem_cons.1 he with rfl | he
        · left
          obtain ⟨p, hp⟩ := hsc e hef.1
          have hp' : p ∈ (eqs e).it := by rw [hp]; simp
          rw [inCycle_iff hsc hst hp']
          by_contra hn
          have := Finset.mem_sdiff.2 ⟨hp', hn⟩
          rw [hemp] at this
          exact absurd this (Finset.notMem_empty _)
        · exact .inr he
    · rename_i hne
      obtain ⟨s1, h1, h2⟩ := Option.bind_eq_some_iff.1 h
      have harg : ArgOk eqs scc x ((eqs x).it \ st.vis x) [] :=
        ⟨pathOk_nil (hl x List.mem_cons_self) Finset.sdiff_subset hne, List.isChain_singleton _⟩
      have hs1 : StOk eqs scc s1 := dfs_inv (stOk_step hr hw hs) hst harg h1
      refine search_finds hr hw hsc hm hfun hef hfe hl' hs1 h2 ?_
      rcases he with he | he
      · exact .inl (dfs_inCycle h1 he)
      · rcases List.mem_cons.1 he with rfl | he
        · exact .inl (dfs_finds hr hw hsc hm hfun hst harg h1 hef hfe)
        · exact .inr he

/-- Equations that depend on each other are in the same component. -/
theorem process_same (hr : rep.Ok) (hw : ∀ e ∈ scc, SameWrites (eqs e))
    (hsc : ∀ e ∈ scc, IsScalar (eqs e)) (hm : Matched eqs) (hfun : Functional eqs scc)
    {fuel : Nat} {out : List (List View)} (h : ProcessScc eqs rep fuel scc out) {e f : Nat}
    {p q : Point} (hp : p ∈ (eqs e).it) (hq : q ∈ (eqs f).it)
    (hef : Relation.TransGen (ArrDep eqs scc) e f) (hfe : Relation.TransGen (ArrDep eqs scc) f e) :
    SameComponent out (e, p) (f, q) := by
  have hs : ∀ e ∈ scc, SelfFree eqs e := fun e he => scalar_selfFree (hsc e he)
  obtain ⟨st, comps, h1, h2, rfl⟩ := h
  have hok := search_stOk hr hw hs h1
  have hpart : partition st.cycles = st.cycles :=
    scalar_partition hsc fun c hc d hd => ((hok.2 c hc).1.nodes d hd).1
  rw [hpart] at h2
  obtain ⟨g, heg, hgf⟩ := Relation.TransGen.head'_iff.1 hef
  obtain ⟨c, hc, hec⟩ := search_finds hr hw hsc hm hfun heg
    (Relation.TransGen.trans_right hgf hfe) (fun _ hx => hx) stOk_nil h1 (.inr heg.1)
  have hfc := cycle_closed hfun (hok.2 c hc).2 hec hef.to_reflTransGen
  have hnode : ∀ {x : Nat} {y : Point}, x ∈ c.map Dep.eq → y ∈ (eqs x).it →
      ∃ d ∈ c, d.eq = x ∧ y ∈ d.idx := by
    intro x y hx hy
    obtain ⟨d, hd, rfl⟩ := List.mem_map.1 hx
    obtain ⟨z, hz⟩ := (hok.2 c hc).1.nonempty d hd
    obtain ⟨h3, h4⟩ := ((hok.2 c hc).1.nodes d hd).1
    refine ⟨d, hd, rfl, ?_⟩
    rwa [scalar_mem (hsc _ h3) hy (h4 hz)]
  obtain ⟨d, hd, hde, hdp⟩ := hnode hec hp
  obtain ⟨d', hd', hde', hdp'⟩ := hnode hfc hq
  have hv : ∀ d ∈ c, d.view ∈ vertices st.cycles := by
    intro d hd
    simp only [vertices, List.mem_dedup, List.mem_map, List.mem_flatten]
    exact ⟨d, ⟨c, hc, hd⟩, rfl⟩
  have hmono : ∀ {a b : View}, Relation.ReflTransGen (fun a b => (a, b) ∈ cycleEdges c) a b →
      Relation.ReflTransGen (fun a b => (a, b) ∈ edges st.cycles) a b :=
    fun h => Relation.ReflTransGen.mono (fun a b hab => List.mem_flatMap.2 ⟨c, hc, hab⟩) _ _ h
  obtain ⟨k, hk, h3, h4⟩ := (h2.same d.view (hv d hd) d'.view (hv d' hd')).2
    ⟨hmono (cycle_reach hd hd'), hmono (cycle_reach hd' hd)⟩
  exact ⟨k, List.mem_append_left _ hk, ⟨d.view, h3, hde, hdp⟩, d'.view, h4, hde', hdp'⟩

/-- Dependencies between scalar equations, as dependencies between equations. -/
theorem reach_arr {s t : ScalarEq}
    (hin : ∀ x, Relation.ReflTransGen (DependsOn eqs) s x →
      Relation.ReflTransGen (DependsOn eqs) x t → x.1 ∈ scc)
    (h : Relation.ReflTransGen (DependsOn eqs) s t) :
    Relation.ReflTransGen (ArrDep eqs scc) s.1 t.1 := by
  have : ∀ x, Relation.ReflTransGen (DependsOn eqs) s x →
      Relation.ReflTransGen (DependsOn eqs) x t → Relation.ReflTransGen (ArrDep eqs scc) s.1 x.1 := by
    intro x hx
    induction hx with
    | refl => exact fun _ => .refl
    | @tail y z h1 h2 ih =>
      intro hz
      have ih := ih (.head h2 hz)
      by_cases hyz : y.1 = z.1
      · rw [← hyz]; exact ih
      · exact ih.tail ⟨hin y h1 (.head h2 hz), hin z (h1.tail h2) hz, hyz, y.2, z.2, h2⟩
  exact this t h .refl

end Marco.Cycles
