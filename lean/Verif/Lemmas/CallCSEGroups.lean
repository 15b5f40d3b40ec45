import Verif.Lemmas.CallCSE

/-! # Lemmas about the groups of common calls -/

namespace Marco.CSE
open Marco.Spec.CSE

mutual
/-- What is compared of an expression, but for the inductions. -/
def skel : Ex → Ex
  | .ind _ => .ind 0
  | .bound _ _ => .bound 0 0
  | .op o as => .op o (skelArgs as)
  | .red a its b => .red a (skelArgs its) (skel b)
  | .call _ f _ as => .call 0 f 0 (skelArgs as)
  | e => e

def skelArgs : Args → Args
  | .nil => .nil
  | .cons a as => .cons (skel a) (skelArgs as)
end

mutual
theorem equiv_skel (a b : Ex) (ha : NoCse a) :
    (skel a = skel b → ((ord a).1.length = (ord b).1.length ∧ (ord a).2.length = (ord b).2.length) ∧
      equivOperand a b = some ((ord a).1.zip (ord b).1, (ord a).2.zip (ord b).2)) ∧
    (skel a ≠ skel b → equivOperand a b = none) := by
  match a, b with
  | .const k, b =>
    cases b <;> simp [skel, equivOperand, ord]
  | .get k, b =>
    cases b <;> simp [skel, equivOperand, ord]
  | .ind k, b =>
    cases b <;> simp [skel, equivOperand, ord]
  | .bound d k, b =>
    cases b <;> simp [skel, equivOperand, ord]
  | .cse d k x, b => exact absurd ha (by simp [NoCse])
  | .op o as, b =>
    cases b <;> simp [skel, equivOperand, ord]
    rename_i o' bs
    have := equiv_skelArgs as bs (by simpa [NoCse] using ha)
    constructor
    · rintro rfl h
      obtain ⟨⟨h1, h2⟩, h3⟩ := this.1 h
      refine ⟨by omega, ?_⟩
      simp [h3, List.zip_append h1]
    · intro h ho
      simp [this.2 (h ho)]
  | .call _ f _ as, b =>
    cases b <;> simp [skel, equivOperand, ord]
    rename_i _ o' _ bs
    have := equiv_skelArgs as bs (by simpa [NoCse] using ha)
    constructor
    · rintro rfl h
      obtain ⟨⟨h1, h2⟩, h3⟩ := this.1 h
      refine ⟨by omega, ?_⟩
      simp [h3, List.zip_append h1]
    · intro h ho
      simp [this.2 (h ho)]
  | .red o as x, b =>
    cases b <;> simp [skel, equivOperand, ord]
    rename_i o' bs y
    simp only [NoCse] at ha
    have h1 := equiv_skelArgs as bs ha.1
    have h2 := equiv_skel x y ha.2
    constructor
    · rintro rfl h h'
      obtain ⟨⟨p1, p2⟩, p3⟩ := h1.1 h
      obtain ⟨⟨q1, q2⟩, q3⟩ := h2.1 h'
      refine ⟨by omega, ?_⟩
      simp only [p3, q3, Option.some.injEq, Prod.mk.injEq, and_true]
      simp only [← List.append_assoc]
      rw [List.zip_append (by simp; omega), List.zip_append (by simp; omega), List.zip_append p1]
      simp
    · intro h ho
      by_cases hs : skelArgs as = skelArgs bs
      · rw [h2.2 (h ho hs)]
        split <;> simp_all
      · rw [h1.2 hs]

theorem equiv_skelArgs (as bs : Args) (ha : NoCseArgs as) :
    (skelArgs as = skelArgs bs →
      ((ordArgs as).1.length = (ordArgs bs).1.length ∧ (ordArgs as).2.length = (ordArgs bs).2.length) ∧
      equivArgs as bs = some ((ordArgs as).1.zip (ordArgs bs).1, (ordArgs as).2.zip (ordArgs bs).2)) ∧
    (skelArgs as ≠ skelArgs bs → equivArgs as bs = none) := by
  match as, bs with
  | .nil, bs =>
    cases bs <;> simp [skelArgs, equivArgs, ordArgs]
  | .cons a as, bs =>
    cases bs <;> simp [skelArgs, equivArgs, ordArgs]
    rename_i b bs
    simp only [NoCseArgs] at ha
    have h1 := equiv_skel a b ha.1
    have h2 := equiv_skelArgs as bs ha.2
    constructor
    · intro h h'
      obtain ⟨⟨p1, p2⟩, p3⟩ := h1.1 h
      obtain ⟨⟨q1, q2⟩, q3⟩ := h2.1 h'
      refine ⟨by omega, ?_⟩
      simp [p3, q3, List.zip_append p1, List.zip_append p2]
    · intro h
      by_cases hs : skel a = skel b
      · rw [h2.2 (h hs)]
        split <;> simp_all
      · rw [h1.2 hs]
end

/-- What the groups are made by. -/
def Entry.cls (e : Entry) : Ex × List (Option Range) :=
  (skel e.call, (ord e.call).1.map (rangeOf e.ranges))

theorem zip_any_false {α β γ : Type} [BEq γ] [LawfulBEq γ] (l : List α) (l' : List β) (f : α → γ) (g : β → γ)
    (h : l.length = l'.length) :
    ((l.zip l').any fun x => f x.1 != g x.2) = false ↔ l.map f = l'.map g := by
  induction l generalizing l' with
  | nil => cases l' <;> simp_all
  | cons a l ih =>
    cases l' with
    | nil => simp at h
    | cons b l' =>
      have := ih l' (by simpa using h)
      rw [List.zip_cons_cons, List.any_cons, Bool.or_eq_false_iff, this]
      simp

theorem joins_cls (rep e : Entry) (he : NoCse e.call) :
    (joins rep e).isSome = true ↔ e.cls = rep.cls := by
  have h := equiv_skel e.call rep.call he
  unfold joins Entry.cls equiv
  by_cases hs : skel e.call = skel rep.call
  · obtain ⟨⟨h1, _⟩, h3⟩ := h.1 hs
    rw [h3]
    simp only [Option.map_some, hs, Prod.mk.injEq, true_and]
    have hz := zip_any_false (ord e.call).1 (ord rep.call).1 (rangeOf e.ranges) (rangeOf rep.ranges) h1
    rw [← hz]
    rcases hp : (ord e.call).1.zip (ord rep.call).1 with _ | ⟨p, l⟩
    · simp
    · simp only
      split
      · rename_i ha
        rw [ha]; exact ⟨fun h => absurd h (by simp), fun h => absurd h (by simp)⟩
      · rename_i ha
        simp only [Bool.not_eq_true] at ha
        rw [ha]; exact ⟨fun _ => rfl, fun _ => rfl⟩
  · rw [h.2 hs]
    simp [hs]

theorem joins_same {rep e e' : Entry} (h : joins rep e = some e') :
    e'.cls = e.cls ∧ e'.key = e.key ∧ e'.call = e.call := by
  unfold joins at h
  split at h
  · simp at h
  · simp only [Option.some.injEq] at h; subst h; exact ⟨rfl, rfl, rfl⟩
  · split at h
    · simp at h
    · simp only [Option.some.injEq] at h; subst h; exact ⟨rfl, rfl, rfl⟩

/-- The groups are classes. -/
structure Classes (gs : List (List Entry)) : Prop where
  ne : ∀ g ∈ gs, g ≠ []
  one : ∀ g ∈ gs, ∀ e ∈ g, ∀ e' ∈ g, e.cls = e'.cls
  two : ∀ (i j : ℕ) (g g' : List Entry), gs[i]? = some g → gs[j]? = some g' → ∀ e ∈ g, ∀ e' ∈ g', e.cls = e'.cls → i = j

theorem addEntry_classes {e : Entry} (he : NoCse e.call) (gs : List (List Entry)) (h : Classes gs) :
    Classes (addEntry e gs) ∧
      (∀ x, (∃ g ∈ addEntry e gs, ∃ y ∈ g, y.key = x.1 ∧ y.cls = x.2) ↔
        x = (e.key, e.cls) ∨ ∃ g ∈ gs, ∃ y ∈ g, y.key = x.1 ∧ y.cls = x.2) := by
  induction gs with
  | nil =>
    refine ⟨⟨by simp [addEntry], by simp [addEntry], ?_⟩, ?_⟩
    · intro i j g g' h1 h2
      cases i <;> cases j <;> simp [addEntry] at h1 h2 ⊢
    · rintro ⟨a, b⟩
      simp only [addEntry, List.mem_singleton, exists_eq_left, List.not_mem_nil, false_and, exists_false,
        or_false, Prod.mk.injEq]
      exact ⟨fun h => ⟨h.1.symm, h.2.symm⟩, fun h => ⟨h.1.symm, h.2.symm⟩⟩
  | cons g gs ih =>
    have hgs : Classes gs := ⟨fun g hg => h.ne g (List.mem_cons_of_mem _ hg),
      fun g hg => h.one g (List.mem_cons_of_mem _ hg), fun i j g g' h1 h2 x hx y hy hxy => by
        have := h.two (i + 1) (j + 1) g g' (by simpa using h1) (by simpa using h2) x hx y hy hxy
        omega⟩
    obtain ⟨h1, h2⟩ := ih hgs
    rcases g with _ | ⟨rep, g⟩
    · exact absurd rfl (h.ne [] (by simp))
    · simp only [addEntry]
      split
      · rename_i e' hj
        obtain ⟨hc, hk, _⟩ := joins_same hj
        have hcr : e.cls = rep.cls := (joins_cls rep e he).mp (by simp [hj])
        refine ⟨⟨?_, ?_, ?_⟩, ?_⟩
        · intro x hx
          rcases List.mem_cons.mp hx with rfl | hx
          · simp
          · exact h.ne x (List.mem_cons_of_mem _ hx)
        · have hall : ∀ y ∈ rep :: g ++ [e'], y.cls = rep.cls := by
            intro y hy
            rcases List.mem_append.mp hy with hy | hy
            · exact h.one _ List.mem_cons_self y hy rep List.mem_cons_self
            · rw [List.mem_singleton] at hy
              subst hy
              rw [hc, hcr]
          intro x hx
          rcases List.mem_cons.mp hx with rfl | hx
          · intro y hy z hz
            rw [hall y hy, hall z hz]
          · exact h.one x (List.mem_cons_of_mem _ hx)
        · have hall : ∀ y ∈ rep :: g ++ [e'], ∃ z ∈ rep :: g, y.cls = z.cls := by
            intro y hy
            rcases List.mem_append.mp hy with hy | hy
            · exact ⟨y, hy, rfl⟩
            · rw [List.mem_singleton] at hy
              subst hy
              exact ⟨rep, List.mem_cons_self, by rw [hc, hcr]⟩
          intro i j x x' hi hj' y hy z hz hyz
          cases i with
          | zero =>
            simp only [List.getElem?_cons_zero, Option.some.injEq] at hi
            subst hi
            obtain ⟨y', hy', hyy⟩ := hall y hy
            cases j with
            | zero => rfl
            | succ j =>
              exact h.two 0 (j + 1) _ _ rfl hj' y' hy' z hz (hyy.symm.trans hyz)
          | succ i =>
            cases j with
            | zero =>
              simp only [List.getElem?_cons_zero, Option.some.injEq] at hj'
              subst hj'
              obtain ⟨z', hz', hzz⟩ := hall z hz
              exact h.two (i + 1) 0 _ _ hi rfl y hy z' hz' (hyz.trans hzz)
            | succ j => exact h.two (i + 1) (j + 1) _ _ hi hj' y hy z hz hyz
        · rintro ⟨a, b⟩
          constructor
          · rintro ⟨x, hx, y, hy, rfl, rfl⟩
            rcases List.mem_cons.mp hx with rfl | hx
            · rcases List.mem_append.mp hy with hy | hy
              · exact .inr ⟨_, List.mem_cons_self, y, hy, rfl, rfl⟩
              · rw [List.mem_singleton] at hy
                subst hy
                left; rw [hc, hk]
            · exact .inr ⟨x, List.mem_cons_of_mem _ hx, y, hy, rfl, rfl⟩
          · rintro (hh | ⟨x, hx, y, hy, rfl, rfl⟩)
            · simp only [Prod.mk.injEq] at hh
              exact ⟨_, List.mem_cons_self, e', List.mem_append_right _ (List.mem_singleton.mpr rfl),
                by rw [hk, hh.1], by rw [hc, hh.2]⟩
            · rcases List.mem_cons.mp hx with rfl | hx
              · exact ⟨_, List.mem_cons_self, y, List.mem_append_left _ hy, rfl, rfl⟩
              · exact ⟨x, List.mem_cons_of_mem _ hx, y, hy, rfl, rfl⟩
      · rename_i hj
        have hcr : e.cls ≠ rep.cls := by
          intro hcr
          have := (joins_cls rep e he).mpr hcr
          simp [hj] at this
        have hrest : ∀ x ∈ addEntry e gs, ∀ y ∈ x, ∀ z ∈ rep :: g, y.cls ≠ z.cls := by
          intro x hx y hy z hz hyz
          have hzr : z.cls = rep.cls := h.one _ List.mem_cons_self z hz rep List.mem_cons_self
          rcases (h2 (y.key, y.cls)).mp ⟨x, hx, y, hy, rfl, rfl⟩ with hh | ⟨x', hx', y', hy', _, hh⟩
          · simp only [Prod.mk.injEq] at hh
            exact hcr (by rw [← hh.2, hyz, hzr])
          · obtain ⟨i, hi⟩ := List.getElem?_of_mem hx'
            have := h.two (i + 1) 0 _ _ (by simpa using hi) rfl y' hy' z hz (by rw [hh, hyz])
            omega
        refine ⟨⟨?_, ?_, ?_⟩, ?_⟩
        · intro x hx
          rcases List.mem_cons.mp hx with rfl | hx
          · simp
          · exact h1.ne x hx
        · intro x hx
          rcases List.mem_cons.mp hx with rfl | hx
          · exact h.one _ List.mem_cons_self
          · exact h1.one x hx
        · intro i j x x' hi hj' y hy z hz hyz
          cases i with
          | zero =>
            simp only [List.getElem?_cons_zero, Option.some.injEq] at hi
            subst hi
            cases j with
            | zero => rfl
            | succ j =>
              exact absurd hyz.symm (hrest x' (List.mem_of_getElem? (by simpa using hj')) z hz y hy)
          | succ i =>
            cases j with
            | zero =>
              simp only [List.getElem?_cons_zero, Option.some.injEq] at hj'
              subst hj'
              exact absurd hyz (hrest x (List.mem_of_getElem? (by simpa using hi)) y hy z hz)
            | succ j =>
              have := h1.two i j x x' (by simpa using hi) (by simpa using hj') y hy z hz hyz
              omega
        · intro p
          constructor
          · rintro ⟨x, hx, y, hy, hh⟩
            rcases List.mem_cons.mp hx with rfl | hx
            · exact .inr ⟨_, List.mem_cons_self, y, hy, hh⟩
            · rcases (h2 p).mp ⟨x, hx, y, hy, hh⟩ with h' | ⟨x', hx', h'⟩
              · exact .inl h'
              · exact .inr ⟨x', List.mem_cons_of_mem _ hx', h'⟩
          · rintro (hh | ⟨x, hx, hh⟩)
            · obtain ⟨x, hx, hh⟩ := (h2 p).mpr (.inl hh)
              exact ⟨x, List.mem_cons_of_mem _ hx, hh⟩
            · rcases List.mem_cons.mp hx with rfl | hx
              · exact ⟨_, List.mem_cons_self, hh⟩
              · obtain ⟨x, hx, hh⟩ := (h2 p).mpr (.inr ⟨x, hx, hh⟩)
                exact ⟨x, List.mem_cons_of_mem _ hx, hh⟩

theorem buildGroups_classes (es : List Entry) (h : ∀ e ∈ es, NoCse e.call) :
    Classes (buildGroups es) ∧
      ∀ e ∈ es, ∃ g ∈ buildGroups es, ∃ y ∈ g, y.key = e.key ∧ y.cls = e.cls := by
  suffices H : ∀ (es : List Entry) (gs : List (List Entry)), (∀ e ∈ es, NoCse e.call) → Classes gs →
      Classes (es.foldl (fun gs e => addEntry e gs) gs) ∧
      ∀ x : (ℕ × ℕ) × (Ex × List (Option Range)),
        ((∃ e ∈ es, x = (e.key, e.cls)) ∨ ∃ g ∈ gs, ∃ y ∈ g, y.key = x.1 ∧ y.cls = x.2) →
        ∃ g ∈ es.foldl (fun gs e => addEntry e gs) gs, ∃ y ∈ g, y.key = x.1 ∧ y.cls = x.2 by
    obtain ⟨h1, h2⟩ := H es [] h ⟨by simp, by simp, by simp⟩
    exact ⟨h1, fun e he => h2 (e.key, e.cls) (.inl ⟨e, he, rfl⟩)⟩
  intro es
  induction es with
  | nil =>
    intro gs _ h
    refine ⟨h, fun x hx => ?_⟩
    rcases hx with ⟨e, he, _⟩ | hx
    · simp at he
    · exact hx
  | cons e es ih =>
    intro gs hn h
    obtain ⟨h1, h2⟩ := addEntry_classes (hn e List.mem_cons_self) gs h
    obtain ⟨h3, h4⟩ := ih (addEntry e gs) (fun e he => hn e (List.mem_cons_of_mem _ he)) h1
    refine ⟨h3, fun x hx => h4 x ?_⟩
    rcases hx with ⟨e', he', rfl⟩ | hx
    · rcases List.mem_cons.mp he' with rfl | he'
      · exact .inr ((h2 _).mpr (.inl rfl))
      · exact .inl ⟨e', he', rfl⟩
    · exact .inr ((h2 _).mpr (.inr hx))

/-! ## Similar calls are in the same class -/

mutual
theorem similar_skel (R : ℕ → ℕ → Prop) (a b : Ex) (h : Similar R a b) : skel a = skel b ∧
    List.Forall₂ R (ord a).1 (ord b).1 ∧ List.Forall₂ R (ord a).2 (ord b).2 := by
  match a, b with
  | .const k, b => cases b <;> simp [Similar] at h; simp [skel, ord, h]
  | .get k, b => cases b <;> simp [Similar] at h; simp [skel, ord, h]
  | .ind k, b => cases b <;> simp [Similar] at h; simp [skel, ord, h]
  | .bound d k, b => cases b <;> simp [Similar] at h; simp [skel, ord]
  | .cse d k x, b => simp [Similar] at h
  | .op o as, b =>
    cases b <;> simp only [Similar] at h
    obtain ⟨rfl, h⟩ := h
    obtain ⟨h1, h2, h3⟩ := similar_skelArgs R _ _ h
    exact ⟨by simp [skel, h1], List.rel_append h2 h3, .nil⟩
  | .call _ f _ as, b =>
    cases b <;> simp only [Similar] at h
    obtain ⟨rfl, _, h⟩ := h
    obtain ⟨h1, h2, h3⟩ := similar_skelArgs R _ _ h
    exact ⟨by simp [skel, h1], List.rel_append h2 h3, .nil⟩
  | .red o as x, b =>
    cases b <;> simp only [Similar] at h
    obtain ⟨rfl, h, h'⟩ := h
    obtain ⟨h1, h2, h3⟩ := similar_skelArgs R _ _ h
    obtain ⟨g1, g2, g3⟩ := similar_skel R _ _ h'
    exact ⟨by simp [skel, h1, g1], List.rel_append (List.rel_append h2 h3) (List.rel_append g2 g3), .nil⟩

theorem similar_skelArgs (R : ℕ → ℕ → Prop) (as bs : Args) (h : SimilarArgs R as bs) :
    skelArgs as = skelArgs bs ∧
    List.Forall₂ R (ordArgs as).1 (ordArgs bs).1 ∧ List.Forall₂ R (ordArgs as).2 (ordArgs bs).2 := by
  match as, bs with
  | .nil, bs => cases bs <;> simp [SimilarArgs] at h; simp [skelArgs, ordArgs]
  | .cons a as, bs =>
    cases bs <;> simp only [SimilarArgs] at h
    obtain ⟨h1, h2, h3⟩ := similar_skel R _ _ h.1
    obtain ⟨g1, g2, g3⟩ := similar_skelArgs R _ _ h.2
    exact ⟨by simp [skelArgs, h1, g1], List.rel_append h2 g2, List.rel_append h3 g3⟩
end

theorem map_eq_of_forall₂ {f g : ℕ → Option Range} {l l' : List ℕ}
    (h : List.Forall₂ (fun i j => f i = g j) l l') : l.map f = l'.map g := by
  induction h with
  | nil => rfl
  | cons h _ ih => simp [h, ih]

/-! ## Collection -/

mutual
theorem calls_of (sig : Sig) (e : Ex) (id f r as) (hf : sig.tensor f = false) (h : Ex.call id f r as ∈ subs e) :
    Ex.call id f r as ∈ calls sig e := by
  match e with
  | .const _ | .get _ | .ind _ | .bound _ _ | .cse _ _ _ => simp [subs] at h
  | .op _ bs =>
    simp only [subs, List.mem_cons, reduceCtorEq, false_or] at h
    exact calls_ofArgs sig bs id f r as hf h
  | .call _ g _ bs =>
    simp only [subs, List.mem_cons] at h
    rcases h with h | h
    · cases h
      simp [calls, hf]
    · simp [calls, calls_ofArgs sig bs id f r as hf h]
  | .red _ bs b =>
    simp only [subs, List.mem_cons, reduceCtorEq, false_or, List.mem_append] at h
    rcases h with h | h
    · simp [calls, calls_ofArgs sig bs id f r as hf h]
    · simp [calls, calls_of sig b id f r as hf h]

theorem calls_ofArgs (sig : Sig) (bs : Args) (id f r as) (hf : sig.tensor f = false)
    (h : Ex.call id f r as ∈ subsArgs bs) : Ex.call id f r as ∈ callsArgs sig bs := by
  match bs with
  | .nil => simp [subsArgs] at h
  | .cons b bs =>
    simp only [subsArgs, List.mem_append] at h
    rcases h with h | h
    · simp [callsArgs, calls_of sig b id f r as hf h]
    · simp [callsArgs, calls_ofArgs sig bs id f r as hf h]
end

theorem dedup_of {l : List Ex} {c : Ex} (h : c ∈ l) : ∃ c' ∈ dedup l, c'.id = c.id := by
  induction l with
  | nil => simp at h
  | cons a l ih =>
    by_cases hc : c.id = a.id
    · exact ⟨a, by simp [dedup], hc.symm⟩
    · rcases List.mem_cons.mp h with rfl | h
      · exact absurd rfl hc
      · obtain ⟨c', hm, he⟩ := ih h
        refine ⟨c', ?_, he⟩
        simp only [dedup, List.mem_cons, List.mem_filter]
        exact .inr ⟨hm, by simpa [he] using hc⟩

theorem uniform_same {t : Template} (h : Uniform t) : t.same = true ∧ t.ranges = [boxOf t] := by
  obtain ⟨s, hl, hne, hall⟩ := h
  have hs : t.same = true := by
    unfold Template.same
    rcases ht : t.spaces with _ | ⟨s', l⟩
    · exact absurd ht hne
    · simp only [List.all_eq_true, beq_iff_eq]
      intro x hx
      rw [hall x (by simp [ht, hx]), hall s' (by simp [ht])]
  exact ⟨hs, ranges_eq (fun s' hs' => by rw [hall s' hs']; exact hl) hs⟩

theorem collected {sig : Sig} {ts : List Template} (wf : WellFormed sig ts) {k id : ℕ} {t : Template} {f r as}
    (ht : ts[k]? = some t) (hu : Uniform t) (hw : Within t (.call id f r as)) (hf : sig.tensor f = false) :
    ∃ e ∈ collectCalls sig ts, ∃ r', e.template = k ∧ e.call = .call id f r' as ∧ e.ranges = boxOf t := by
  obtain ⟨x, hx, hm⟩ := hw
  have hc : Ex.call id f r as ∈ t.sides.flatMap fun s => calls sig s.1 ++ calls sig s.2 := by
    rw [List.mem_flatMap]
    refine ⟨x, hx, List.mem_append.mpr ?_⟩
    exact hm.imp (calls_of sig _ _ _ _ _ hf) (calls_of sig _ _ _ _ _ hf)
  obtain ⟨c, hcm, hid⟩ := dedup_of hc
  have hcl := mem_dedup hcm
  obtain ⟨y, hy, hcy⟩ := List.mem_flatMap.mp hcl
  have hcw : Within t c ∧ ∃ id f r as, c = .call id f r as ∧ sig.tensor f = false := by
    rcases List.mem_append.mp hcy with hc | hc
    · exact ⟨⟨y, hy, .inl (mem_calls sig _ _ hc).1⟩, (mem_calls sig _ _ hc).2⟩
    · exact ⟨⟨y, hy, .inr (mem_calls sig _ _ hc).1⟩, (mem_calls sig _ _ hc).2⟩
  obtain ⟨hcw, id', f', r', as', rfl, _⟩ := hcw
  have hid : id' = id := hid
  subst hid
  obtain ⟨rfl, rfl⟩ := wf.ids t (List.mem_of_getElem? ht) _ _ _ _ _ _ _ hcw ⟨x, hx, hm⟩
  refine ⟨⟨k, .call id' f' r' as', boxOf t, ((equiv (.call id' f' r' as') (.call id' f' r' as')).getD []).map (·.1)⟩,
    ?_, r', rfl, rfl, rfl⟩
  rw [collectCalls, List.mem_flatMap]
  refine ⟨(t, k), List.mem_zipIdx_iff_getElem?.mpr ht, ?_⟩
  rw [(uniform_same hu).2]
  simp only [List.flatMap_cons, List.flatMap_nil, List.append_nil]
  exact List.mem_map.mpr ⟨_, hcm, rfl⟩

theorem collect_noCse {sig : Sig} {ts : List Template} (wf : WellFormed sig ts) {e : Entry}
    (h : e ∈ collectCalls sig ts) : NoCse e.call := by
  simp only [collectCalls, List.mem_flatMap] at h
  obtain ⟨⟨t, k⟩, ht, rg, hrg, h⟩ := h
  obtain ⟨c, hc, rfl⟩ := List.mem_map.mp h
  have hk := List.mem_zipIdx_iff_getElem?.mp ht
  obtain ⟨s, hsm, hc⟩ := List.mem_flatMap.mp (mem_dedup hc)
  have hw : Within t c := by
    rcases List.mem_append.mp hc with hc | hc
    · exact ⟨s, hsm, .inl (mem_calls sig _ _ hc).1⟩
    · exact ⟨s, hsm, .inr (mem_calls sig _ _ hc).1⟩
  apply noCse_of
  intro n r idx hm
  exact wf.noCse t (List.mem_of_getElem? hk) n r idx (within_trans hw hm)

/-! ## Replacement -/

theorem replaceCalls_keys (n : ℕ) (g : List Entry) (d d' : Done) (h : g.foldlM (replaceCall n) d = .ok d') :
    (∀ x ∈ d, x ∈ d') ∧ ∀ e ∈ g, e.key ∈ d'.map (·.1) := by
  induction g generalizing d with
  | nil => cases h; exact ⟨fun x hx => hx, by simp⟩
  | cons e g ih =>
    rw [List.foldlM_cons] at h
    unfold replaceCall at h
    split at h
    · cases h
    · obtain ⟨h1, h2⟩ := ih _ h
      refine ⟨fun x hx => h1 x (List.mem_append_left _ hx), ?_⟩
      intro y hy
      rcases List.mem_cons.mp hy with rfl | hy
      · exact List.mem_map.mpr ⟨_, h1 _ (List.mem_append_right _ (List.mem_singleton.mpr rfl)), rfl⟩
      · exact h2 y hy

theorem processGroup_keys (sig : Sig) (st st' : State) (n : ℕ) (g : List Entry)
    (h : processGroup sig st (n, g) = .ok st') : (∀ x ∈ st.done, x ∈ st'.done) ∧
      ∀ rep, g.head? = some rep → sig.results rep.call.callee ≤ g.length → ∀ e ∈ g, e.key ∈ st'.done.map (·.1) := by
  unfold processGroup at h
  rcases g with _ | ⟨rep, g⟩
  · cases h; exact ⟨fun x hx => hx, by simp⟩
  · simp only at h
    split at h
    · rename_i hlt
      cases h
      refine ⟨fun x hx => hx, ?_⟩
      intro rep' hr hle
      simp only [List.head?_cons, Option.some.injEq] at hr
      subst hr
      omega
    · split at h
      · cases h
      · split at h
        · cases h
        · generalize hq : (rep :: g).foldlM (replaceCall n) st.done = q at h
          cases q with
          | error e => cases h
          | ok d =>
            cases h
            obtain ⟨h1, h2⟩ := replaceCalls_keys n _ _ _ hq
            exact ⟨h1, fun _ _ _ => h2⟩

theorem fold_keys (sig : Sig) (l : List (ℕ × List Entry)) (st st' : State)
    (h : l.foldlM (processGroup sig) st = .ok st') : (∀ x ∈ st.done, x ∈ st'.done) ∧
      ∀ x ∈ l, ∀ rep, x.2.head? = some rep → sig.results rep.call.callee ≤ x.2.length →
        ∀ e ∈ x.2, e.key ∈ st'.done.map (·.1) := by
  induction l generalizing st with
  | nil => cases h; exact ⟨fun x hx => hx, by simp⟩
  | cons x l ih =>
    rw [List.foldlM_cons] at h
    generalize hq : processGroup sig st x = q at h
    cases q with
    | error e => cases h
    | ok st₁ =>
      obtain ⟨h1, h2⟩ := processGroup_keys sig st st₁ x.1 x.2 hq
      obtain ⟨h3, h4⟩ := ih st₁ h
      refine ⟨fun y hy => h3 y (h1 y hy), ?_⟩
      intro y hy rep hr hle e he
      rcases List.mem_cons.mp hy with rfl | hy
      · obtain ⟨z, hz, hze⟩ := List.mem_map.mp (h2 rep hr hle e he)
        exact List.mem_map.mpr ⟨z, h3 z hz, hze⟩
      · exact h4 y hy rep hr hle e he

theorem get_isSome {d : Done} {t id : ℕ} (h : (t, id) ∈ d.map (·.1)) : d.get t id ≠ none := by
  intro hn
  unfold Done.get at hn
  rw [Option.map_eq_none_iff, List.find?_eq_none] at hn
  obtain ⟨x, hx, he⟩ := List.mem_map.mp h
  exact hn x hx (by simp [he])

mutual
theorem subst_call (s : ℕ → Option (ℕ × List (ℕ × ℤ))) (e : Ex) (id f r as)
    (h : Ex.call id f r as ∈ subs (subst s e)) : s id = none := by
  match e with
  | .const _ | .get _ | .ind _ | .bound _ _ | .cse _ _ _ => simp [subst, subs] at h
  | .op _ bs =>
    simp only [subst, subs, List.mem_cons, reduceCtorEq, false_or] at h
    exact subst_callArgs s bs id f r as h
  | .call id' _ _ bs =>
    rcases hs : s id' with _ | x
    · simp only [subst, hs, subs, List.mem_cons] at h
      rcases h with h | h
      · cases h; exact hs
      · exact subst_callArgs s bs id f r as h
    · simp [subst, hs, subs] at h
  | .red _ bs b =>
    simp only [subst, subs, List.mem_cons, reduceCtorEq, false_or, List.mem_append] at h
    rcases h with h | h
    · exact subst_callArgs s bs id f r as h
    · exact subst_call s b id f r as h

theorem subst_callArgs (s : ℕ → Option (ℕ × List (ℕ × ℤ))) (bs : Args) (id f r as)
    (h : Ex.call id f r as ∈ subsArgs (substArgs s bs)) : s id = none := by
  match bs with
  | .nil => simp [substArgs, subsArgs] at h
  | .cons b bs =>
    simp only [substArgs, subsArgs, List.mem_append] at h
    rcases h with h | h
    · exact subst_call s b id f r as h
    · exact subst_callArgs s bs id f r as h
end

theorem result_of {sig : Sig} {ts : List Template} {res : Result} (h : cseCalls sig ts = .ok res) :
    ∃ st, ((((buildGroups (collectCalls sig ts)).filter fun g => 2 ≤ g.length).zipIdx.map
        fun x => (x.2, x.1)).foldlM (processGroup sig) ⟨[], [], []⟩ = .ok st) ∧
      res.templates = (ts.zipIdx.map fun x =>
        ({ x.1 with sides := x.1.sides.map fun s =>
          (subst (st.done.get x.2) s.1, subst (st.done.get x.2) s.2) } : Template)) ++ st.drivers ∧
      res.vars = st.vars := by
  unfold cseCalls at h
  simp only at h
  generalize hq : ((((buildGroups (collectCalls sig ts)).filter fun g => 2 ≤ g.length).zipIdx.map
        fun x => (x.2, x.1)).foldlM (processGroup sig) ⟨[], [], []⟩) = q at h
  cases q with
  | error e => cases h
  | ok st => cases h; exact ⟨st, rfl, rfl, rfl⟩

end Marco.CSE
