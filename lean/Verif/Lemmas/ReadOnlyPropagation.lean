import Verif.Spec.ReadOnlyPropagation
import Mathlib.Data.List.Nodup

/-!
# Lemmas on the propagation of read-only variables
-/

namespace Marco.Spec.ROProp
open Marco.ROProp

/-! ## SSA form -/

theorem Ssa.append {ds : List ℕ} {xs ys : List Op} :
    Ssa ds (xs ++ ys) ↔ Ssa ds xs ∧ Ssa ((xs.map (·.res)).reverse ++ ds) ys := by
  induction xs generalizing ds with
  | nil => simp [Ssa.nil]
  | cons o os ih =>
    constructor
    · intro h
      cases h with
      | cons h1 h2 h3 =>
        obtain ⟨h4, h5⟩ := ih.1 h3
        exact ⟨.cons h1 h2 h4, by simpa using h5⟩
    · rintro ⟨h, h'⟩
      cases h with
      | cons h1 h2 h3 => exact .cons h1 h2 (ih.2 ⟨h3, by simpa using h'⟩)

theorem Ssa.inv {ds : List ℕ} {o : Op} {os : List Op} (h : Ssa ds (o :: os)) :
    o.res ∉ ds ∧ (∀ a ∈ o.args, a ∈ ds) ∧ Ssa (o.res :: ds) os := by
  cases h with
  | cons h1 h2 h3 => exact ⟨h1, h2, h3⟩

/-- The results are not those defined before. -/
theorem Ssa.fresh {ds : List ℕ} {os : List Op} (h : Ssa ds os) : ∀ o ∈ os, o.res ∉ ds := by
  induction h with
  | nil => simp
  | cons h1 h2 h3 ih =>
    intro o ho
    rcases List.mem_cons.1 ho with rfl | ho
    · exact h1
    · exact fun h => ih o ho (List.mem_cons_of_mem _ h)

theorem Ssa.nodup {ds : List ℕ} {os : List Op} (h : Ssa ds os) : (os.map (·.res)).Nodup := by
  induction h with
  | nil => simp
  | cons h1 h2 h3 ih =>
    rw [List.map_cons, List.nodup_cons]
    refine ⟨fun hm => ?_, ih⟩
    obtain ⟨o, ho, he⟩ := List.mem_map.1 hm
    exact h3.fresh o ho (by rw [he]; exact List.mem_cons_self ..)

/-- More values may be defined before. -/
theorem Ssa.weaken {ds ds' : List ℕ} {os : List Op} (h : Ssa ds os) (hs : ∀ x ∈ ds, x ∈ ds')
    (hd : ∀ o ∈ os, o.res ∈ ds' → o.res ∈ ds) : Ssa ds' os := by
  induction h generalizing ds' with
  | nil => exact .nil _
  | @cons ds o os h1 h2 h3 ih =>
    refine .cons (fun h => h1 (hd _ (List.mem_cons_self ..) h)) (fun a ha => hs _ (h2 a ha))
      (ih (fun x hx => ?_) fun p hp hm => ?_)
    · rcases List.mem_cons.1 hx with rfl | hx
      · exact List.mem_cons_self ..
      · exact List.mem_cons_of_mem _ (hs _ hx)
    · rcases List.mem_cons.1 hm with he | hm
      · exact he ▸ List.mem_cons_self ..
      · exact List.mem_cons_of_mem _ (hd _ (List.mem_cons_of_mem _ hp) hm)

theorem Ssa.clone {base : ℕ} {ds : List ℕ} {os : List Op} (h : Ssa ds os) :
    Ssa (ds.map (base + ·)) (os.map (Op.clone base)) := by
  induction h with
  | nil => exact .nil _
  | @cons ds o os h1 h2 h3 ih =>
    refine .cons ?_ ?_ ih
    · simpa [Op.clone] using h1
    · intro a ha
      obtain ⟨b, hb, rfl⟩ := List.mem_map.1 ha
      exact List.mem_map.2 ⟨b, h2 b hb, rfl⟩

theorem Ssa.replace {g new base : ℕ} {ds ds' : List ℕ} {os : List Op} (h : Ssa ds os)
    (h1 : ∀ x ∈ ds, x ≠ g → x ∈ ds') (h2 : ∀ x ∈ ds', x ∈ ds ∨ base ≤ x) (hn : new ∈ ds')
    (hg : g ∈ ds) (hb : ∀ o ∈ os, o.res < base) : Ssa ds' (os.map (Op.replaceUses g new)) := by
  induction h generalizing ds' with
  | nil => exact .nil _
  | @cons ds o os h3 h4 h5 ih =>
    refine .cons ?_ ?_ (ih ?_ ?_ ?_ ?_ ?_)
    · intro hm
      rcases h2 _ hm with h | h
      · exact h3 h
      · exact absurd (hb o (List.mem_cons_self ..)) (Nat.not_lt.2 h)
    · intro a ha
      obtain ⟨b, hb', rfl⟩ := List.mem_map.1 ha
      split
      · exact hn
      · exact h1 _ (h4 b hb') ‹_›
    · intro x hx hne
      rcases List.mem_cons.1 hx with rfl | hx
      · exact List.mem_cons_self ..
      · exact List.mem_cons_of_mem _ (h1 x hx hne)
    · intro x hx
      rcases List.mem_cons.1 hx with rfl | hx
      · exact .inl (List.mem_cons_self ..)
      · exact (h2 x hx).imp_left (List.mem_cons_of_mem _)
    · exact List.mem_cons_of_mem _ hn
    · exact List.mem_cons_of_mem _ hg
    · exact fun p hp => hb p (List.mem_cons_of_mem _ hp)

end Marco.Spec.ROProp

namespace Marco.ROProp
open Marco.Spec.ROProp

/-! ## Running operations -/

variable {α : Type} (S : Sem α) (σ : String → α)

theorem run_append (xs ys : List Op) (env : ℕ → α) :
    run S σ (xs ++ ys) env = run S σ ys (run S σ xs env) := by
  induction xs generalizing env with
  | nil => rfl
  | cons o os ih => exact ih _

/-- Operations without the result `j` leave its value. -/
theorem run_other {os : List Op} {j : ℕ} (h : ∀ o ∈ os, o.res ≠ j) (env : ℕ → α) :
    run S σ os env j = env j := by
  induction os generalizing env with
  | nil => rfl
  | cons o os ih =>
    rw [run, ih fun p hp => h p (List.mem_cons_of_mem _ hp)]
    exact Function.update_of_ne (h o (List.mem_cons_self ..)).symm _ _

/-- Clones compute what their originals do. -/
theorem run_clone {base : ℕ} {ds : List ℕ} {os : List Op} (h : Ssa ds os) {e e' : ℕ → α}
    (he : ∀ i ∈ ds, e' (base + i) = e i) :
    ∀ i, i ∈ ds ∨ i ∈ os.map (·.res) →
      run S σ (os.map (Op.clone base)) e' (base + i) = run S σ os e i := by
  induction h generalizing e e' with
  | nil => intro i hi; exact he i (by simpa using hi)
  | @cons ds o os h1 h2 h3 ih =>
    intro i hi
    rw [List.map_cons, run, run]
    refine ih ?_ i ?_
    · intro j hj
      by_cases hjo : j = o.res
      · subst hjo
        simp only [Op.clone, Function.update_self]
        cases o.kind with
        | get v => rfl
        | app f =>
          simp only [List.map_map]
          congr 1
          exact List.map_congr_left fun a ha => he a (h2 a ha)
      · have hj' : j ∈ ds := by
          rcases List.mem_cons.1 hj with h | h
          · exact absurd h hjo
          · exact h
        rw [Function.update_of_ne hjo, Function.update_of_ne (by simp [Op.clone, hjo])]
        exact he j hj'
    · rcases hi with hi | hi
      · exact .inl (List.mem_cons_of_mem _ hi)
      · rw [List.map_cons, List.mem_cons] at hi
        rcases hi with rfl | hi
        · exact .inl (List.mem_cons_self ..)
        · exact .inr hi

/-- Operations the operands of which are replaced compute the same. -/
theorem run_replace {g new base : ℕ} (hn : base ≤ new) {os : List Op}
    (hb : ∀ o ∈ os, o.res < base ∧ o.res ≠ g ∧ ∀ a ∈ o.args, a < base) {e e' : ℕ → α}
    (he : ∀ j < base, j ≠ g → e' j = e j) (hg : e' new = e g) :
    (∀ j < base, j ≠ g → run S σ (os.map (Op.replaceUses g new)) e' j = run S σ os e j) ∧
      run S σ (os.map (Op.replaceUses g new)) e' new = run S σ os e g := by
  induction os generalizing e e' with
  | nil => exact ⟨he, hg⟩
  | cons o os ih =>
    obtain ⟨h1, h2, h3⟩ := hb o (List.mem_cons_self ..)
    rw [List.map_cons, run, run]
    refine ih (fun p hp => hb p (List.mem_cons_of_mem _ hp)) ?_ ?_
    · intro j hj hjg
      by_cases hjo : j = o.res
      · subst hjo
        simp only [Op.replaceUses, Function.update_self]
        cases o.kind with
        | get v => rfl
        | app f =>
          simp only [List.map_map]
          congr 1
          refine List.map_congr_left fun a ha => ?_
          simp only [Function.comp]
          split
          · rename_i h; rw [h, hg]
          · exact he a (h3 a ha) ‹_›
      · simp only [Op.replaceUses]
        rw [Function.update_of_ne hjo, Function.update_of_ne hjo]
        exact he j hj hjg
    · simp only [Op.replaceUses]
      rw [Function.update_of_ne (by omega), Function.update_of_ne h2.symm]
      exact hg

/-! ## The replacement of one read -/

theorem le_foldr_max {l : List ℕ} {i : ℕ} (h : i ∈ l) :
    i < l.foldr (fun i n => max (i + 1) n) 0 := by
  induction l with
  | nil => cases h
  | cons a l ih =>
    rw [List.foldr_cons]
    rcases List.mem_cons.1 h with rfl | h
    · exact Nat.lt_of_lt_of_le (Nat.lt_succ_self _) (Nat.le_max_left _ _)
    · exact Nat.lt_of_lt_of_le (ih h) (Nat.le_max_right _ _)

theorem res_lt {r : Region} {o : Op} (h : o ∈ r.ops) : o.res < r.bound :=
  le_foldr_max (List.mem_append.2 (.inl (List.mem_flatMap.2 ⟨o, h, List.mem_cons_self ..⟩)))

theorem arg_lt {r : Region} {o : Op} (h : o ∈ r.ops) {a : ℕ} (ha : a ∈ o.args) : a < r.bound :=
  le_foldr_max (List.mem_append.2 (.inl (List.mem_flatMap.2 ⟨o, h, List.mem_cons_of_mem _ ha⟩)))

theorem replaceUses_of_not_mem {g new : ℕ} {o : Op} (h : g ∉ o.args) : o.replaceUses g new = o := by
  cases o with
  | mk res kind args =>
    simp only [Op.replaceUses, Op.mk.injEq, true_and]
    conv_rhs => rw [← List.map_id args]
    refine List.map_congr_left fun a ha => ?_
    rw [if_neg]
    · rfl
    · rintro rfl; exact h ha

/-- The operations of a region around an operation. -/
structure Around (r : Region) (g : ℕ) (v : String) where
  pre : List Op
  op : Op
  post : List Op
  eq : r.ops = pre ++ op :: post
  res : op.res = g
  kind : op.kind = .get v

theorem flatMap_other {f : Op → List Op} {g : ℕ} {l : List Op} (h : ∀ o ∈ l, o.res ≠ g) :
    (l.flatMap fun o => if o.res = g then f o else [o]) = l := by
  induction l with
  | nil => rfl
  | cons o l ih =>
    rw [List.flatMap_cons, if_neg (h o (List.mem_cons_self ..)),
      ih fun p hp => h p (List.mem_cons_of_mem _ hp)]
    rfl

/-- The operations after the replacement. -/
theorem replaceGet_ops {body r : Region} (hr : Formed r) {g : ℕ} {v : String}
    (A : Around r g v) :
    (replaceGet body g r).ops = A.pre ++ body.ops.map (Op.clone r.bound) ++
      A.post.map (Op.replaceUses g (r.bound + body.outs.headD 0)) := by
  have hs := hr.ssa
  rw [A.eq] at hs
  have hnd := hs.nodup
  rw [List.map_append, List.map_cons, List.nodup_append, List.nodup_cons] at hnd
  have hpre : ∀ o ∈ A.pre, o.res ≠ g := by
    intro o ho he
    exact hnd.2.2 o.res (List.mem_map_of_mem ho) A.op.res (List.mem_cons_self ..)
      (he.trans A.res.symm)
  have hpost : ∀ o ∈ A.post, o.res ≠ g := by
    intro o ho he
    exact hnd.2.1.1 (List.mem_map.2 ⟨o, ho, he.trans A.res.symm⟩)
  have hg : g < r.bound := by
    rw [← A.res]; exact res_lt (by rw [A.eq]; simp)
  simp only [replaceGet]
  rw [A.eq, List.flatMap_append, List.flatMap_cons, flatMap_other hpre, flatMap_other hpost,
    if_pos A.res, List.map_append, List.map_append, List.append_assoc]
  congr 1
  · conv_rhs => rw [← List.map_id A.pre]
    refine List.map_congr_left fun o ho => ?_
    refine replaceUses_of_not_mem fun hm => ?_
    -- the operands of the operations before are defined before
    obtain ⟨p1, p2, hp⟩ := List.append_of_mem ho
    rw [hp, List.append_assoc, Ssa.append] at hs
    obtain ⟨-, h2, -⟩ := Ssa.inv hs.2
    have := h2 g hm
    rw [List.append_nil, List.mem_reverse] at this
    obtain ⟨q, hq, hqg⟩ := List.mem_map.1 this
    exact hpre q (by rw [hp]; exact List.mem_append_left _ hq) hqg
  · congr 1
    conv_rhs => rw [← List.map_id (body.ops.map (Op.clone r.bound))]
    refine List.map_congr_left fun o ho => ?_
    refine replaceUses_of_not_mem fun hm => ?_
    obtain ⟨p, hp, rfl⟩ := List.mem_map.1 ho
    obtain ⟨a, -, rfl⟩ := List.mem_map.1 hm
    omega

theorem head_outs {body : Region} (hb : Formed body) (ho : body.owner.isSome) :
    body.outs = [body.outs.headD 0] ∧ body.outs.headD 0 ∈ body.ops.map (·.res) := by
  have h1 := hb.one ho
  match hbo : body.outs with
  | [y] => exact ⟨rfl, hb.outs y (by rw [hbo]; simp)⟩
  | [] => rw [hbo] at h1; cases h1
  | _ :: _ :: _ => rw [hbo] at h1; simp at h1

theorem replaceGet_formed {body r : Region} (hb : Formed body) (hr : Formed r) {g : ℕ} {v : String}
    (ho : body.owner.isSome) (A : Around r g v) : Formed (replaceGet body g r) := by
  obtain ⟨-, hy⟩ := head_outs hb ho
  have hs := hr.ssa
  rw [A.eq, Ssa.append] at hs
  obtain ⟨hs1, hs2⟩ := hs
  obtain ⟨hs3, -, hs4⟩ := Ssa.inv hs2
  have hgb : g < r.bound := by rw [← A.res]; exact res_lt (by rw [A.eq]; simp)
  have hnew : r.bound + body.outs.headD 0 ∈
      (body.ops.map (Op.clone r.bound)).map (·.res) := by
    obtain ⟨o, ho, he⟩ := List.mem_map.1 hy
    exact List.mem_map.2 ⟨_, List.mem_map_of_mem ho, by simp [Op.clone, he]⟩
  refine ⟨?_, ?_, ?_⟩
  · rw [replaceGet_ops hr A, List.append_assoc, Ssa.append, Ssa.append]
    refine ⟨hs1, ?_, ?_⟩
    · have := Ssa.clone (base := r.bound) hb.ssa
      refine this.weaken (by simp) ?_
      intro o ho hm
      exfalso
      obtain ⟨p, -, rfl⟩ := List.mem_map.1 ho
      rw [List.append_nil, List.mem_reverse] at hm
      obtain ⟨q, hq, hqe⟩ := List.mem_map.1 hm
      have := res_lt (r := r) (o := q) (by rw [A.eq]; exact List.mem_append_left _ hq)
      simp only [Op.clone] at hqe
      omega
    · refine hs4.replace (base := r.bound) ?_ ?_ ?_ ?_ ?_
      · intro x hx hne
        rcases List.mem_cons.1 hx with rfl | hx
        · exact absurd A.res hne
        · exact List.mem_append_right _ hx
      · intro x hx
        rcases List.mem_append.1 hx with hx | hx
        · obtain ⟨o, ho, rfl⟩ := List.mem_map.1 (List.mem_reverse.1 hx)
          obtain ⟨p, -, rfl⟩ := List.mem_map.1 ho
          exact .inr (by simp [Op.clone])
        · exact .inl (List.mem_cons_of_mem _ hx)
      · exact List.mem_append_left _ (List.mem_reverse.2 hnew)
      · rw [A.res]; exact List.mem_cons_self ..
      · intro o ho
        exact res_lt (by rw [A.eq]; simp [ho])
  · intro a ha
    obtain ⟨b, hbm, rfl⟩ := List.mem_map.1 (show a ∈ r.outs.map _ from ha)
    rw [replaceGet_ops hr A]
    simp only [List.map_append, List.mem_append]
    split
    · exact .inl (.inr hnew)
    · rename_i hne
      have := hr.outs b hbm
      rw [A.eq, List.map_append, List.mem_append, List.map_cons, List.mem_cons] at this
      rcases this with h | h | h
      · exact .inl (.inl h)
      · exact absurd (h.trans A.res) hne
      · refine .inr ?_
        obtain ⟨o, ho, he⟩ := List.mem_map.1 h
        exact List.mem_map.2 ⟨_, List.mem_map_of_mem ho, by simpa [Op.replaceUses] using he⟩
  · intro h
    simpa [replaceGet] using hr.one h

/-- The replacement keeps the values. -/
theorem replaceGet_values {body r : Region} (hb : Formed body) (hr : Formed r) {g : ℕ} {v : String}
    (ho : body.owner.isSome) (A : Around r g v) (hv : values S σ body = [σ v]) :
    values S σ (replaceGet body g r) = values S σ r := by
  obtain ⟨hy1, hy⟩ := head_outs hb ho
  have hs := hr.ssa
  rw [A.eq, Ssa.append] at hs
  obtain ⟨-, hs2⟩ := hs
  obtain ⟨hs3, -, hs4⟩ := Ssa.inv hs2
  have hgb : g < r.bound := by rw [← A.res]; exact res_lt (by rw [A.eq]; simp)
  have hval : run S σ body.ops (fun _ => S.dflt) (body.outs.headD 0) = σ v := by
    unfold values at hv
    rw [hy1] at hv
    simpa using hv
  obtain ⟨h1, h2⟩ := run_replace S σ (g := g) (new := r.bound + body.outs.headD 0) (base := r.bound)
    (Nat.le_add_right _ _) (os := A.post)
    (e := Function.update (run S σ A.pre fun _ => S.dflt) g (σ v))
    (e' := run S σ (body.ops.map (Op.clone r.bound)) (run S σ A.pre fun _ => S.dflt))
    (by
      intro o ho
      have hm : o ∈ r.ops := by rw [A.eq]; simp [ho]
      refine ⟨res_lt hm, ?_, fun a ha => arg_lt hm ha⟩
      intro he
      exact hs4.fresh o ho (by rw [he, A.res]; exact List.mem_cons_self ..))
    (by
      intro j hj hjg
      rw [Function.update_of_ne hjg]
      refine run_other S σ ?_ _
      intro o ho
      obtain ⟨p, -, rfl⟩ := List.mem_map.1 ho
      simp only [Op.clone]
      omega)
    (by
      rw [Function.update_self, run_clone S σ hb.ssa (e := fun _ => S.dflt) (by simp) _ (.inr hy), hval])
  have e1 : run S σ (replaceGet body g r).ops (fun _ => S.dflt) =
      run S σ (A.post.map (Op.replaceUses g (r.bound + body.outs.headD 0)))
        (run S σ (body.ops.map (Op.clone r.bound)) (run S σ A.pre fun _ => S.dflt)) := by
    rw [replaceGet_ops hr A, run_append, run_append]
  have e2 : run S σ r.ops (fun _ => S.dflt) =
      run S σ A.post (Function.update (run S σ A.pre fun _ => S.dflt) g (σ v)) := by
    rw [A.eq, run_append, run, A.res, A.kind]
  unfold values
  rw [e1, e2]
  simp only [replaceGet, List.map_map]
  refine List.map_congr_left fun a ha => ?_
  simp only [Function.comp]
  split
  · rename_i h; rw [h, h2]
  · refine h1 a ?_ ‹_›
    obtain ⟨o, ho, he⟩ := List.mem_map.1 (hr.outs a ha)
    rw [← he]; exact res_lt ho

/-- An operation of the region that reads the variable. -/
theorem around {r : Region} {g : ℕ} {v : String} (h : ∃ o ∈ r.ops, o.res = g ∧ o.kind = .get v) :
    Nonempty (Around r g v) := by
  obtain ⟨o, ho, h1, h2⟩ := h
  obtain ⟨p1, p2, hp⟩ := List.append_of_mem ho
  exact ⟨⟨p1, o, p2, hp, h1, h2⟩⟩

/-! ## The binding equations -/

theorem binding_some {m : Model} {v : String} {b : ℕ} (h : binding m v = some b) :
    ∃ r, m.regions[b]? = some r ∧ r.owner = some v := by
  have := List.find?_some h
  match hr : m.regions[b]? with
  | none => rw [hr] at this; simp at this
  | some r => rw [hr] at this; exact ⟨r, rfl, by simpa using this⟩

theorem binding_none {m : Model} {v : String} (h : binding m v = none) :
    ¬ ∃ r ∈ m.regions, r.owner = some v := by
  rintro ⟨r, hr, ho⟩
  obtain ⟨i, hi, rfl⟩ := List.mem_iff_getElem.1 hr
  have := (List.find?_eq_none.1 h) i (List.mem_reverse.2 (List.mem_range.2 hi))
  simp [List.getElem?_eq_getElem hi, ho] at this

/-- What the replacement of a read does to the model. -/
theorem processGet_inv {m : Model} (wf : WellFormed m) {k : ℕ} {g : Op} {v : String} {r : Region}
    (hg : g.kind = .get v) (hr : m.regions[k]? = some r) :
    (¬ Propagated m v ∧ processGet m k g = .ok m) ∨
    (Propagated m v ∧ ∃ b body, m.regions[b]? = some body ∧ body.owner = some v ∧
      ((b = k ∧ r.ops.head?.map (·.res) ≠ some g.res ∧ processGet m k g = .loops) ∨
       ((b = k → r.ops.head?.map (·.res) = some g.res) ∧
        processGet m k g = .ok { m with regions := m.regions.set k (replaceGet body g.res r) }))) := by
  unfold processGet
  rw [hg]
  simp only
  by_cases hi : v ∈ m.ignored
  · exact .inl ⟨fun h => h.2.1 hi, by rw [if_pos hi]⟩
  · rw [if_neg hi]
    match hb : binding m v with
    | none => exact .inl ⟨fun h => binding_none hb h.2.2, rfl⟩
    | some b =>
      obtain ⟨body, hbody, ho⟩ := binding_some hb
      have hmem : body ∈ m.regions := List.mem_of_getElem? hbody
      simp only
      match hv : m.vars.find? (·.1 == v) with
      | none =>
        exfalso
        obtain ⟨p, hp, he⟩ := List.mem_map.1 (wf.declared body hmem v ho)
        have := List.find?_eq_none.1 hv p hp
        simp [he] at this
      | some (w, readOnly) =>
        match readOnly with
        | false => exact .inl ⟨fun h => by have := h.1; simp [ReadOnly, hv] at this, by simp [hv]⟩
        | true =>
          refine .inr ⟨⟨by simp [ReadOnly, hv], hi, body, hmem, ho⟩, b, body, hbody, ho, ?_⟩
          rw [hbody, hr]
          simp only [hv, Bool.not_true, Bool.false_eq_true, if_false]
          by_cases hc : b = k ∧ r.ops.head?.map (·.res) ≠ some g.res
          · exact .inl ⟨hc.1, hc.2, by rw [if_pos hc]⟩
          · refine .inr ⟨fun h => ?_, by rw [if_neg hc]⟩
            by_contra hn
            exact hc ⟨h, hn⟩

/-! ## The invariant of the pass -/

/-- The second model has the shape of the first one, and regions with the same values. -/
structure Same (m m' : Model) : Prop where
  vars : m'.vars = m.vars
  ignored : m'.ignored = m.ignored
  len : m'.regions.length = m.regions.length
  owner : ∀ (k : ℕ) (r r' : Region), m.regions[k]? = some r → m'.regions[k]? = some r' →
    r'.owner = r.owner

theorem Same.refl (m : Model) : Same m m :=
  ⟨rfl, rfl, rfl, fun k r r' h h' => by rw [h] at h'; cases h'; rfl⟩

theorem Same.get {m m' : Model} (h : Same m m') {k : ℕ} {r : Region} (hr : m.regions[k]? = some r) :
    ∃ r', m'.regions[k]? = some r' := by
  have := (List.getElem?_eq_some_iff.1 hr).1
  exact ⟨_, List.getElem?_eq_getElem (by rw [h.len]; exact this)⟩

theorem Same.back {m m' : Model} (h : Same m m') {k : ℕ} {r : Region}
    (hr : m'.regions[k]? = some r) : ∃ r', m.regions[k]? = some r' := by
  have := (List.getElem?_eq_some_iff.1 hr).1
  exact ⟨_, List.getElem?_eq_getElem (by rw [← h.len]; exact this)⟩

theorem Same.trans {m m' m'' : Model} (h : Same m m') (h' : Same m' m'') : Same m m'' := by
  refine ⟨h'.vars.trans h.vars, h'.ignored.trans h.ignored, h'.len.trans h.len, ?_⟩
  intro k r r' hr hr'
  obtain ⟨s, hs⟩ := h.get hr
  exact (h'.owner k s r' hs hr').trans (h.owner k r s hr hs)

theorem Same.readOnly {m m' : Model} (h : Same m m') (v : String) :
    ReadOnly m' v ↔ ReadOnly m v := by rw [ReadOnly, ReadOnly, h.vars]

theorem Same.propagated {m m' : Model} (h : Same m m') (v : String) :
    Propagated m' v ↔ Propagated m v := by
  unfold Propagated
  rw [h.readOnly, h.ignored]
  refine and_congr_right fun _ => and_congr_right fun _ => ⟨?_, ?_⟩
  · rintro ⟨r, hr, ho⟩
    obtain ⟨k, hk⟩ := List.mem_iff_getElem?.1 hr
    obtain ⟨s, hs⟩ := h.back hk
    exact ⟨s, List.mem_of_getElem? hs, (h.owner k s r hs hk).symm.trans ho⟩
  · rintro ⟨r, hr, ho⟩
    obtain ⟨k, hk⟩ := List.mem_iff_getElem?.1 hr
    obtain ⟨s, hs⟩ := h.get hk
    exact ⟨s, List.mem_of_getElem? hs, (h.owner k r s hk hs).trans ho⟩

/-- The regions have the same values. -/
def Keeps (m m' : Model) : Prop :=
  ∀ (k : ℕ) (r r' : Region), m.regions[k]? = some r → m'.regions[k]? = some r' →
    values S σ r' = values S σ r

theorem Keeps.solves {m m' : Model} (h : Same m m') (hk : Keeps S σ m m') (hs : Solves S m σ) :
    Solves S m' σ := by
  intro r hr v ho hro
  obtain ⟨k, hk'⟩ := List.mem_iff_getElem?.1 hr
  obtain ⟨s, hs'⟩ := h.back hk'
  rw [hk k s r hs' hk']
  exact hs s (List.mem_of_getElem? hs') v ((h.owner k s r hs' hk').symm.trans ho) ((h.readOnly v).1 hro)

theorem Keeps.trans {m m' m'' : Model} (h : Same m m') (hk : Keeps S σ m m')
    (hk' : Keeps S σ m' m'') : Keeps S σ m m'' := by
  intro k r r' hr hr'
  obtain ⟨s, hs⟩ := h.get hr
  exact (hk' k s r' hs hr').trans (hk k r s hr hs)

theorem Keeps.refl (m : Model) : Keeps S σ m m := by
  intro k r r' hr hr'
  rw [hr] at hr'; cases hr'; rfl

/-- One region is replaced. -/
theorem set_same {m : Model} {k : ℕ} {r r' : Region} (hr : m.regions[k]? = some r)
    (ho : r'.owner = r.owner) : Same m { m with regions := m.regions.set k r' } := by
  refine ⟨rfl, rfl, by simp, ?_⟩
  intro j s s' hs hs'
  simp only [List.getElem?_set] at hs'
  split at hs'
  · rename_i hkj
    subst hkj
    split at hs'
    · cases hs'
      rw [hr] at hs
      cases hs
      exact ho
    · cases hs'
  · rw [hs] at hs'; cases hs'; rfl

theorem set_wf {m : Model} (wf : WellFormed m) {k : ℕ} {r r' : Region} (hr : m.regions[k]? = some r)
    (ho : r'.owner = r.owner) (hf : Formed r') :
    WellFormed { m with regions := m.regions.set k r' } := by
  have hs := set_same hr ho
  refine ⟨?_, ?_, ?_⟩
  · intro s hs
    rcases List.mem_or_eq_of_mem_set hs with h | rfl
    · exact wf.regions s h
    · exact hf
  · intro i j s t v hi hj hvi hvj
    obtain ⟨s', hs'⟩ := hs.back hi
    obtain ⟨t', ht'⟩ := hs.back hj
    exact wf.unique i j s' t' v hs' ht' ((hs.owner i s' s hs' hi).symm.trans hvi)
      ((hs.owner j t' t ht' hj).symm.trans hvj)
  · intro s hsm v hv
    obtain ⟨j, hj⟩ := List.mem_iff_getElem?.1 hsm
    obtain ⟨s', hs'⟩ := hs.back hj
    exact wf.declared s' (List.mem_of_getElem? hs') v ((hs.owner j s' s hs' hj).symm.trans hv)

theorem get_set {m : Model} {k : ℕ} {r r' : Region} (hr : m.regions[k]? = some r) :
    (m.regions.set k r')[k]? = some r' := by
  rw [List.getElem?_set_self (List.getElem?_eq_some_iff.1 hr).1]

/-- The operations that are read from stay. -/
theorem replaceGet_stays {body r : Region} {g : ℕ} {o : Op} {v : String} (ho : o ∈ r.ops)
    (hk : o.kind = .get v) (hne : o.res ≠ g) :
    ∃ o' ∈ (replaceGet body g r).ops, o'.res = o.res ∧ o'.kind = .get v := by
  refine ⟨o.replaceUses g (r.bound + body.outs.headD 0), ?_, rfl, hk⟩
  refine List.mem_map_of_mem (List.mem_flatMap.2 ⟨o, ho, ?_⟩)
  rw [if_neg hne]
  exact List.mem_singleton_self _

/-- The reads still to be processed. -/
structure Pending (m : Model) (k : ℕ) (gs : List Op) : Prop where
  nodup : (gs.map (·.res)).Nodup
  there : ∀ g ∈ gs, ∃ (v : String) (r : Region), g.kind = .get v ∧ m.regions[k]? = some r ∧
    ∃ o ∈ r.ops, o.res = g.res ∧ o.kind = .get v

/-- What is known after a step. -/
structure Next (m m' : Model) (k : ℕ) : Prop where
  wf : WellFormed m'
  same : Same m m'
  other : ∀ j, j ≠ k → m'.regions[j]? = m.regions[j]?

theorem Next.refl {m : Model} (wf : WellFormed m) (k : ℕ) : Next m m k :=
  ⟨wf, Same.refl m, fun _ _ => rfl⟩

theorem Next.trans {m m' m'' : Model} {k : ℕ} (h : Next m m' k) (h' : Next m' m'' k) :
    Next m m'' k :=
  ⟨h'.wf, h.same.trans h'.same, fun j hj => (h'.other j hj).trans (h.other j hj)⟩

theorem processGet_next {m : Model} (wf : WellFormed m) {k : ℕ} {g : Op} {gs : List Op}
    (hp : Pending m k (g :: gs)) {m' : Model} (h : processGet m k g = .ok m') :
    Next m m' k ∧ Pending m' k gs ∧
      (∀ (α : Type) (S : Sem α) (σ : String → α), Solves S m σ → Keeps S σ m m') := by
  obtain ⟨v, r, hv, hr, hex⟩ := hp.there g (List.mem_cons_self ..)
  have hnd := hp.nodup
  rw [List.map_cons, List.nodup_cons] at hnd
  rcases processGet_inv wf hv hr with ⟨-, h1⟩ | ⟨hprop, b, body, hb, hbo, h1 | ⟨-, h1⟩⟩
  · rw [h1] at h
    cases h
    exact ⟨Next.refl wf k, ⟨hnd.2, fun x hx => hp.there x (List.mem_cons_of_mem _ hx)⟩,
      fun α S σ _ => Keeps.refl S σ m⟩
  · rw [h1.2.2] at h; cases h
  · rw [h1] at h
    cases h
    have hfb := wf.regions body (List.mem_of_getElem? hb)
    have hfr := wf.regions r (List.mem_of_getElem? hr)
    obtain ⟨A⟩ := around hex
    have hos : body.owner.isSome := by rw [hbo]; rfl
    refine ⟨⟨set_wf wf hr rfl (replaceGet_formed hfb hfr hos A), set_same hr rfl, ?_⟩,
      ⟨hnd.2, ?_⟩, ?_⟩
    · intro j hj
      simp only
      rw [List.getElem?_set_ne (Ne.symm hj)]
    · intro x hx
      obtain ⟨w, r', hw, hr', o, ho, hor, hok⟩ := hp.there x (List.mem_cons_of_mem _ hx)
      rw [hr] at hr'
      cases hr'
      obtain ⟨o', ho', h1', h2'⟩ := replaceGet_stays (body := body) (g := g.res) ho hok
        (by rw [hor]; intro he; exact hnd.1 (List.mem_map.2 ⟨x, hx, he⟩))
      exact ⟨w, _, hw, get_set hr, o', ho', h1'.trans hor, h2'⟩
    · intro α S σ hs j s s' hjs hjs'
      simp only [List.getElem?_set] at hjs'
      split at hjs'
      · rename_i hkj
        subst hkj
        split at hjs'
        · cases hjs'
          rw [hr] at hjs
          cases hjs
          exact replaceGet_values S σ hfb hfr hos A
            (hs body (List.mem_of_getElem? hb) v hbo hprop.1)
        · cases hjs'
      · rw [hjs] at hjs'; cases hjs'; rfl

theorem processGets_next {k : ℕ} {gs : List Op} {m m' : Model} (wf : WellFormed m)
    (hp : Pending m k gs) (h : processGets k gs m = .ok m') :
    Next m m' k ∧ (∀ (α : Type) (S : Sem α) (σ : String → α), Solves S m σ → Keeps S σ m m') := by
  induction gs generalizing m with
  | nil => cases h; exact ⟨Next.refl wf k, fun α S σ _ => Keeps.refl S σ _⟩
  | cons g gs ih =>
    rw [processGets] at h
    match h1 : processGet m k g with
    | .ok m1 =>
      rw [h1] at h
      obtain ⟨hn, hp', hk⟩ := processGet_next wf hp h1
      obtain ⟨hn', hk'⟩ := ih hn.wf hp' h
      exact ⟨hn.trans hn', fun α S σ hs =>
        Keeps.trans S σ hn.same (hk α S σ hs) (hk' α S σ (Keeps.solves S σ hn.same (hk α S σ hs) hs))⟩
    | .loops => rw [h1] at h; cases h
    | .undefined => rw [h1] at h; cases h

theorem pending {m : Model} (wf : WellFormed m) (k : ℕ) :
    Pending m k (((m.regions[k]?.map (·.ops)).getD []).filter fun o => o.reads.isSome) := by
  match hr : m.regions[k]? with
  | none => exact ⟨by simp, by simp⟩
  | some r =>
    have hf := wf.regions r (List.mem_of_getElem? hr)
    refine ⟨hf.ssa.nodup.sublist (List.filter_sublist.map _), ?_⟩
    intro g hg
    obtain ⟨hg1, hg2⟩ := List.mem_filter.1 hg
    match hk : g.kind with
    | .app f => simp [Op.reads, hk] at hg2
    | .get v => exact ⟨v, r, rfl, hr, g, hg1, rfl, hk⟩

theorem processRegion_next {k : ℕ} {m m' : Model} (wf : WellFormed m)
    (h : processRegion m k = .ok m') :
    Next m m' k ∧ (∀ (α : Type) (S : Sem α) (σ : String → α), Solves S m σ → Keeps S σ m m') :=
  processGets_next wf (pending wf k) h

theorem processRegions_keeps {ks : List ℕ} {m m' : Model} (wf : WellFormed m)
    (h : processRegions ks m = .ok m') :
    WellFormed m' ∧ Same m m' ∧
      (∀ (α : Type) (S : Sem α) (σ : String → α), Solves S m σ → Keeps S σ m m') := by
  induction ks generalizing m with
  | nil => cases h; exact ⟨wf, Same.refl _, fun α S σ _ => Keeps.refl S σ _⟩
  | cons k ks ih =>
    rw [processRegions] at h
    match h1 : processRegion m k with
    | .ok m1 =>
      rw [h1] at h
      obtain ⟨hn, hk⟩ := processRegion_next wf h1
      obtain ⟨h2, h3, h4⟩ := ih hn.wf h
      exact ⟨h2, hn.same.trans h3, fun α S σ hs =>
        Keeps.trans S σ hn.same (hk α S σ hs) (h4 α S σ (Keeps.solves S σ hn.same (hk α S σ hs) hs))⟩
    | .loops => rw [h1] at h; cases h
    | .undefined => rw [h1] at h; cases h

/-! ## The end of the pass -/

theorem processGet_defined {m : Model} (wf : WellFormed m) {k : ℕ} {g : Op} {gs : List Op}
    (hp : Pending m k (g :: gs)) : processGet m k g ≠ .undefined := by
  obtain ⟨v, r, hv, hr, -⟩ := hp.there g (List.mem_cons_self ..)
  rcases processGet_inv wf hv hr with ⟨-, h1⟩ | ⟨-, b, body, -, -, ⟨-, -, h1⟩ | ⟨-, h1⟩⟩ <;>
    rw [h1] <;> exact fun h => by cases h

theorem processGets_defined {k : ℕ} {gs : List Op} {m : Model} (wf : WellFormed m)
    (hp : Pending m k gs) : processGets k gs m ≠ .undefined := by
  induction gs generalizing m with
  | nil => exact fun h => by cases h
  | cons g gs ih =>
    rw [processGets]
    match h1 : processGet m k g with
    | .ok m1 =>
      obtain ⟨hn, hp', -⟩ := processGet_next wf hp h1
      exact ih hn.wf hp'
    | .loops => exact fun h => by cases h
    | .undefined => exact absurd h1 (processGet_defined wf hp)

theorem processRegions_defined {ks : List ℕ} {m : Model} (wf : WellFormed m) :
    processRegions ks m ≠ .undefined := by
  induction ks generalizing m with
  | nil => exact fun h => by cases h
  | cons k ks ih =>
    rw [processRegions]
    match h1 : processRegion m k with
    | .ok m1 => exact ih (processRegion_next wf h1).1.wf
    | .loops => exact fun h => by cases h
    | .undefined => exact absurd h1 (processGets_defined wf (pending wf k))

/-- The reads of a region that do not read the variable of the region end. -/
theorem processGets_ok {k : ℕ} {gs : List Op} {m : Model} (wf : WellFormed m)
    (hp : Pending m k gs) (hs : ∀ g ∈ gs, ∀ v : String, g.kind = .get v → Propagated m v →
      ∀ r, m.regions[k]? = some r → r.owner ≠ some v) : ∃ m', processGets k gs m = .ok m' := by
  induction gs generalizing m with
  | nil => exact ⟨m, rfl⟩
  | cons g gs ih =>
    rw [processGets]
    match h1 : processGet m k g with
    | .ok m1 =>
      obtain ⟨hn, hp', -⟩ := processGet_next wf hp h1
      refine ih hn.wf hp' ?_
      intro x hx v hv hpr r hr ho
      obtain ⟨r', hr'⟩ := hn.same.back hr
      exact hs x (List.mem_cons_of_mem _ hx) v hv ((hn.same.propagated v).1 hpr) r' hr'
        ((hn.same.owner k r' r hr' hr).symm.trans ho)
    | .loops =>
      exfalso
      obtain ⟨v, r, hv, hr, -⟩ := hp.there g (List.mem_cons_self ..)
      rcases processGet_inv wf hv hr with ⟨-, h2⟩ | ⟨hpr, b, body, hb, hbo, ⟨hbk, -, -⟩ | ⟨-, h2⟩⟩
      · rw [h1] at h2; cases h2
      · subst hbk
        exact hs g (List.mem_cons_self ..) v hv hpr body hb hbo
      · rw [h1] at h2; cases h2
    | .undefined => exact absurd h1 (processGet_defined wf hp)

theorem mem_gets {m : Model} {k : ℕ} {r : Region} (hr : m.regions[k]? = some r) {g : Op} :
    g ∈ ((m.regions[k]?.map (·.ops)).getD []).filter (fun o => o.reads.isSome) ↔
      g ∈ r.ops ∧ ∃ v, g.kind = .get v := by
  rw [hr]
  simp only [Option.map_some, Option.getD_some, List.mem_filter]
  refine and_congr_right fun _ => ?_
  match hk : g.kind with
  | .app f => simp [Op.reads, hk]
  | .get v => simp [Op.reads, hk]

/-- A region without reads of its own variable ends. -/
theorem processRegion_ok {k : ℕ} {m : Model} (wf : WellFormed m)
    (hs : ∀ (r : Region) (v : String), m.regions[k]? = some r → r.owner = some v → Propagated m v →
      ¬ Reads r v) : ∃ m', processRegion m k = .ok m' := by
  refine processGets_ok wf (pending wf k) ?_
  intro g hg v hv hpr r hr ho
  exact hs r v hr ho hpr ⟨g, ((mem_gets hr).1 hg).1, hv⟩

theorem processRegions_ok {ks : List ℕ} {m : Model} (wf : WellFormed m) (hnd : ks.Nodup)
    (hs : ∀ k ∈ ks, ∀ (r : Region) (v : String), m.regions[k]? = some r → r.owner = some v →
      Propagated m v → ¬ Reads r v) : ∃ m', processRegions ks m = .ok m' := by
  induction ks generalizing m with
  | nil => exact ⟨m, rfl⟩
  | cons k ks ih =>
    rw [List.nodup_cons] at hnd
    obtain ⟨m1, h1⟩ := processRegion_ok wf (hs k (List.mem_cons_self ..))
    rw [processRegions, h1]
    have hn := (processRegion_next wf h1).1
    refine ih hn.wf hnd.2 ?_
    intro j hj r v hr ho hpr
    rw [hn.other j (by rintro rfl; exact hnd.1 hj)] at hr
    exact hs j (List.mem_cons_of_mem _ hj) r v hr ho ((hn.same.propagated v).1 hpr)

/-- The first operation after a replacement. -/
theorem replaceGet_head {body r : Region} (hb : Formed body) (hr : Formed r) {g : ℕ} {v : String}
    (ho : body.owner.isSome) (A : Around r g v) {n : ℕ} (hn : n < r.bound)
    (hh : r.ops.head?.map (·.res) ≠ some n) :
    (replaceGet body g r).ops.head?.map (·.res) ≠ some n := by
  rw [replaceGet_ops hr A]
  match hp : A.pre with
  | o :: os =>
    rw [A.eq, hp] at hh
    simpa using hh
  | [] =>
    match hbo : body.ops with
    | [] =>
      have := (head_outs hb ho).2
      rw [hbo] at this
      cases this
    | p :: ps =>
      simp [Op.clone]
      omega

/-- A read of its own variable that is not the first operation of a region never ends. -/
theorem processGets_loops {k : ℕ} {gs : List Op} {m : Model} (wf : WellFormed m)
    (hp : Pending m k gs) {g : Op} (hg : g ∈ gs) {v : String} (hv : g.kind = .get v)
    (hpr : Propagated m v) {r : Region} (hr : m.regions[k]? = some r) (ho : r.owner = some v)
    (hh : r.ops.head?.map (·.res) ≠ some g.res) : processGets k gs m = .loops := by
  induction gs generalizing m r with
  | nil => cases hg
  | cons x gs ih =>
    obtain ⟨w, r', hw, hr', hex⟩ := hp.there x (List.mem_cons_self ..)
    rw [hr] at hr'
    cases hr'
    rw [processGets]
    rcases processGet_inv wf hw hr with ⟨hnp, h1⟩ | ⟨hpw, b, body, hb, hbo, ⟨-, -, h1⟩ | ⟨hbk, h1⟩⟩
    · rw [h1]
      have hgx : g ≠ x := by
        rintro rfl
        rw [hw] at hv; cases hv
        exact hnp hpr
      obtain ⟨-, hp', -⟩ := processGet_next wf hp h1
      exact ih wf hp' ((List.mem_cons.1 hg).resolve_left hgx) hpr hr ho hh
    · rw [h1]
    · have hgx : g ≠ x := by
        rintro rfl
        rw [hw] at hv; cases hv
        exact hh (hbk (wf.unique b k body r _ hb hr hbo ho))
      have hg' := (List.mem_cons.1 hg).resolve_left hgx
      obtain ⟨hn, hp', -⟩ := processGet_next wf hp h1
      rw [h1]
      obtain ⟨A⟩ := around hex
      obtain ⟨-, s, -, hs, o, hos, hor, -⟩ := hp.there g hg
      rw [hr] at hs
      cases hs
      refine ih hn.wf hp' hg' ((hn.same.propagated v).2 hpr) (get_set hr) ho ?_
      exact replaceGet_head (wf.regions body (List.mem_of_getElem? hb))
        (wf.regions r (List.mem_of_getElem? hr)) (by rw [hbo]; rfl) A (by rw [← hor]; exact res_lt hos) hh

theorem processRegions_loops {ks : List ℕ} {m : Model} (wf : WellFormed m) (hnd : ks.Nodup) {k : ℕ}
    (hk : k ∈ ks) {r : Region} (hr : m.regions[k]? = some r) {v : String} (ho : r.owner = some v)
    (hpr : Propagated m v) {g : Op} (hg : g ∈ r.ops) (hv : g.kind = .get v)
    (hh : r.ops.head?.map (·.res) ≠ some g.res) : processRegions ks m = .loops := by
  induction ks generalizing m with
  | nil => cases hk
  | cons j ks ih =>
    rw [List.nodup_cons] at hnd
    rw [processRegions]
    by_cases hjk : k = j
    · subst hjk
      rw [processRegion, processGets_loops wf (pending wf k) ((mem_gets hr).2 ⟨hg, v, hv⟩) hv hpr hr ho hh]
    · match h1 : processRegion m j with
      | .ok m1 =>
        have hn := (processRegion_next wf h1).1
        refine ih hn.wf hnd.2 ((List.mem_cons.1 hk).resolve_left hjk) ?_ ((hn.same.propagated v).2 hpr)
        rw [hn.other k hjk]; exact hr
      | .loops => rfl
      | .undefined => exact absurd h1 (processGets_defined wf (pending wf j))

/-! ## What is left -/

/-- No propagated variable is read. -/
def Clean (m : Model) (r : Region) : Prop := ∀ v : String, Propagated m v → ¬ Reads r v

theorem replaceGet_mem {body r : Region} {g : ℕ} {o' : Op} (h : o' ∈ (replaceGet body g r).ops) :
    (∃ o ∈ r.ops, o.res ≠ g ∧ o'.res = o.res ∧ o'.kind = o.kind) ∨
      ∃ o ∈ body.ops, o'.kind = o.kind := by
  simp only [replaceGet] at h
  obtain ⟨p, hp, rfl⟩ := List.mem_map.1 h
  obtain ⟨o, ho, hpo⟩ := List.mem_flatMap.1 hp
  split at hpo
  · obtain ⟨q, hq, rfl⟩ := List.mem_map.1 hpo
    exact .inr ⟨q, hq, rfl⟩
  · rename_i hne
    rw [List.mem_singleton.1 hpo]
    exact .inl ⟨o, ho, hne, rfl, rfl⟩

theorem processGets_clean {k : ℕ} {gs : List Op} {m m' : Model} (wf : WellFormed m)
    (hp : Pending m k gs) (h : processGets k gs m = .ok m') {r : Region}
    (hr : m.regions[k]? = some r)
    (hq : ∀ o ∈ r.ops, ∀ v : String, o.kind = .get v → Propagated m v → ∃ g ∈ gs, g.res = o.res)
    (hc : ∀ g ∈ gs, ∀ v : String, g.kind = .get v → Propagated m v → ∀ (b : ℕ) (body : Region),
      m.regions[b]? = some body → body.owner = some v → b ≠ k ∧ Clean m body) :
    ∀ r', m'.regions[k]? = some r' → Clean m r' := by
  induction gs generalizing m r with
  | nil =>
    cases h
    intro r' hr' v hv ho
    obtain ⟨o, ho, hok⟩ := ho
    rw [hr] at hr'
    cases hr'
    obtain ⟨g, hg, -⟩ := hq o ho v hok hv
    cases hg
  | cons x gs ih =>
    obtain ⟨w, r', hw, hr', o, ho, hor, hok⟩ := hp.there x (List.mem_cons_self ..)
    rw [hr] at hr'
    cases hr'
    have hfr := wf.regions r (List.mem_of_getElem? hr)
    rw [processGets] at h
    rcases processGet_inv wf hw hr with ⟨hnp, h1⟩ | ⟨hpw, b, body, hb, hbo, ⟨-, -, h1⟩ | ⟨hbk, h1⟩⟩
    · rw [h1] at h
      obtain ⟨-, hp', -⟩ := processGet_next wf hp h1
      refine ih wf hp' h hr ?_ fun g hg => hc g (List.mem_cons_of_mem _ hg)
      intro p hpm v hv hpr
      obtain ⟨g, hg, he⟩ := hq p hpm v hv hpr
      rcases List.mem_cons.1 hg with rfl | hg
      · exfalso
        have : p = o := List.inj_on_of_nodup_map hfr.ssa.nodup hpm ho (by rw [← he, hor])
        subst this
        rw [hok] at hv
        cases hv
        exact hnp hpr
      · exact ⟨g, hg, he⟩
    · rw [h1] at h; cases h
    · obtain ⟨hn, hp', -⟩ := processGet_next wf hp h1
      rw [h1] at h
      obtain ⟨hbk', hcl⟩ := hc x (List.mem_cons_self ..) w hw hpw b body hb hbo
      intro s hs v hv
      refine ih hn.wf hp' h (get_set hr) ?_ ?_ s hs v ((hn.same.propagated v).2 hv)
      · intro p hpm u hu hpr
        rcases replaceGet_mem hpm with ⟨q, hqm, hne, hres, hkind⟩ | ⟨q, hqm, hkind⟩
        · obtain ⟨g, hg, he⟩ := hq q hqm u (hkind.symm.trans hu) ((hn.same.propagated u).1 hpr)
          rcases List.mem_cons.1 hg with rfl | hg
          · exact absurd he.symm hne
          · exact ⟨g, hg, he.trans hres.symm⟩
        · exact absurd ⟨q, hqm, hkind.symm.trans hu⟩ (hcl u ((hn.same.propagated u).1 hpr))
      · intro g hg u hu hpr c cb hcb hco
        obtain ⟨s', hs'⟩ := hn.same.back hcb
        have ho' := (hn.same.owner c s' cb hs' hcb).symm.trans hco
        obtain ⟨hck, hcl'⟩ := hc g (List.mem_cons_of_mem _ hg) u hu
          ((hn.same.propagated u).1 hpr) c s' hs' ho'
        have he := hn.other c hck
        rw [hcb, hs'] at he
        cases he
        exact ⟨hck, fun t ht => hcl' t ((hn.same.propagated t).1 ht)⟩

theorem processRegion_clean {k : ℕ} {m m' : Model} (wf : WellFormed m)
    (h : processRegion m k = .ok m') {r : Region} (hr : m.regions[k]? = some r)
    (hc : ∀ v : String, Reads r v → Propagated m v → ∀ (b : ℕ) (body : Region),
      m.regions[b]? = some body → body.owner = some v → b ≠ k ∧ Clean m body) :
    ∀ r', m'.regions[k]? = some r' → Clean m r' := by
  refine processGets_clean wf (pending wf k) h hr ?_ ?_
  · intro o ho v hv _
    exact ⟨o, (mem_gets hr).2 ⟨ho, v, hv⟩, rfl⟩
  · intro g hg v hv
    exact hc v ⟨g, ((mem_gets hr).1 hg).1, hv⟩

/-- With the regions in a topological order, all reads of propagated variables are replaced. -/
theorem processRegions_clean {m0 : Model} {done ks : List ℕ} (hnd : (done ++ ks).Nodup)
    (ht : Topological m0 (done ++ ks)) {m : Model} (wf : WellFormed m) (hs : Same m0 m)
    (hrest : ∀ k ∈ ks, m.regions[k]? = m0.regions[k]?)
    (hdone : ∀ k ∈ done, ∀ r, m.regions[k]? = some r → Clean m0 r) :
    ∃ m', processRegions ks m = .ok m' ∧ Same m0 m' ∧
      ∀ k ∈ done ++ ks, ∀ r, m'.regions[k]? = some r → Clean m0 r := by
  induction ks generalizing m done with
  | nil => exact ⟨m, rfl, hs, by simpa using hdone⟩
  | cons k ks ih =>
    have hk := hrest k (List.mem_cons_self ..)
    have hkd : k ∉ done := by
      rw [List.nodup_append] at hnd
      exact fun h => hnd.2.2 k h k (List.mem_cons_self ..) rfl
    -- the binding equations of the propagated variables that are read have been processed
    have hbind : ∀ (r : Region), m.regions[k]? = some r → ∀ v : String, Reads r v → Propagated m0 v →
        ∀ (b : ℕ) (body : Region), m.regions[b]? = some body → body.owner = some v → b ∈ done := by
      intro r hr v hv hpr b body hb hbo
      obtain ⟨s, hs'⟩ := hs.back hb
      exact ht done ks k rfl r s b v (hk ▸ hr) hv hpr hs' ((hs.owner b s body hs' hb).symm.trans hbo)
    obtain ⟨m1, h1⟩ := processRegion_ok wf (k := k) (by
      intro r v hr ho hpr hv
      exact hkd (hbind r hr v hv ((hs.propagated v).1 hpr) k r hr ho))
    have hn := (processRegion_next wf h1).1
    obtain ⟨m', h2, h3, h4⟩ := ih (done := done ++ [k]) (m := m1) (by simpa using hnd)
      (by simpa using ht) hn.wf (hs.trans hn.same)
      (by
        intro j hj
        rw [hn.other j, hrest j (List.mem_cons_of_mem _ hj)]
        rintro rfl
        rw [List.nodup_append, List.nodup_cons] at hnd
        exact hnd.2.1.1 hj)
      (by
        intro j hj r hr
        rcases List.mem_append.1 hj with hj' | hj'
        · rw [hn.other j (by rintro rfl; exact hkd hj')] at hr
          exact hdone j hj' r hr
        · rw [List.mem_singleton.1 hj'] at hr
          obtain ⟨s, hs'⟩ := hn.same.back hr
          have := processRegion_clean wf h1 hs' (by
            intro v hv hpr b body hb hbo
            have hd := hbind s hs' v hv ((hs.propagated v).1 hpr) b body hb hbo
            exact ⟨by rintro rfl; exact hkd hd, fun u hu => hdone b hd body hb u ((hs.propagated u).1 hu)⟩)
            r hr
          exact fun v hv => this v ((hs.propagated v).2 hv))
    refine ⟨m', ?_, h3, by simpa using h4⟩
    rw [processRegions, h1]
    exact h2

/-- Regions without reads of propagated variables stay. -/
theorem processGets_stays {k : ℕ} {gs : List Op} {m : Model} (wf : WellFormed m)
    (hp : Pending m k gs) (hc : ∀ g ∈ gs, ∀ v : String, g.kind = .get v → ¬ Propagated m v) :
    processGets k gs m = .ok m := by
  induction gs with
  | nil => rfl
  | cons g gs ih =>
    obtain ⟨v, r, hv, hr, -⟩ := hp.there g (List.mem_cons_self ..)
    rcases processGet_inv wf hv hr with ⟨-, h1⟩ | ⟨hpr, -⟩
    · rw [processGets, h1]
      exact ih (processGet_next wf hp h1).2.1 fun x hx => hc x (List.mem_cons_of_mem _ hx)
    · exact absurd hpr (hc g (List.mem_cons_self ..) v hv)

theorem processRegions_stays {ks : List ℕ} {m m' : Model} (wf : WellFormed m)
    (h : processRegions ks m = .ok m') {k : ℕ} {r : Region} (hr : m.regions[k]? = some r)
    (hc : Clean m r) : m'.regions[k]? = some r := by
  induction ks generalizing m with
  | nil => cases h; exact hr
  | cons j ks ih =>
    rw [processRegions] at h
    match h1 : processRegion m j with
    | .ok m1 =>
      rw [h1] at h
      have hn := (processRegion_next wf h1).1
      refine ih hn.wf h ?_ fun v hv => hc v ((hn.same.propagated v).1 hv)
      by_cases hjk : k = j
      · subst hjk
        have := processGets_stays wf (pending wf k) (by
          intro g hg v hv hpr
          exact hc v hpr ⟨g, ((mem_gets hr).1 hg).1, hv⟩)
        rw [processRegion, this] at h1
        cases h1
        exact hr
      · rw [hn.other k hjk]; exact hr
    | .loops => rw [h1] at h; cases h
    | .undefined => rw [h1] at h; cases h

end Marco.ROProp
