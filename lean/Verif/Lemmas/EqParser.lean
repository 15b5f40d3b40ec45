import Verif.Spec.EqParser

/-! # Lemmas about the parser of equation sections -/

namespace Marco.EqParse
open Marco.Spec.EqParse
open Marco.Parse (Tok Res)

variable {L X Y : Type} {E : List Tok → Res Y} {prL : L → List Tok} {valL : L → Y} {prX : X → List Tok} {valX : X → Y}

/-- The keywords that end lists of equations. -/
def stopWords : List Tok := [.kElse, .kElseIf, tElseWhen] ++ sectionEnds

theorem isA_cons (t u : Tok) (r : List Tok) : isA t (u :: r) = true ↔ u = t := by simp [isA]

theorem isA_same (t : Tok) (r : List Tok) : isA t (t :: r) = true := by simp [isA]

theorem isA_ne {t u : Tok} (h : u ≠ t) (r : List Tok) : isA t (u :: r) = false := by
  simp [isA, h]

theorem expect_same (t : Tok) (r : List Tok) : expect t (t :: r) = .ok () r := by simp [expect, isA]

theorem expect_ne {t u : Tok} (h : u ≠ t) (r : List Tok) : expect t (u :: r) = .error := by simp [expect, isA_ne h]

theorem isOne_mem {l : List Tok} {t : Tok} (h : t ∈ l) (r : List Tok) : isOne l (t :: r) = true := by
  simp only [isOne, List.any_eq_true]
  exact ⟨t, h, isA_same t r⟩

theorem isOne_not {l : List Tok} {t : Tok} (h : t ∉ l) (r : List Tok) : isOne l (t :: r) = false := by
  simp only [isOne, List.any_eq_false, isA_cons]
  intro x hx he
  exact h (he ▸ hx)

theorem showEqn_start (hE : Reads E prL valL prX valX) (e : Source L X) : ∃ u us, showEqn prL prX e = u :: us ∧ u ∉ stopWords := by
  cases e with
  | equal l r =>
    obtain ⟨t, us, h, hk⟩ := hE.head l
    refine ⟨t, us ++ .assign :: (prX r.1 ++ showComment r.2), by simp [showEqn, h], ?_⟩
    simp only [keywords, stopWords, sectionEnds, List.mem_append, List.mem_cons, List.not_mem_nil, or_false, not_or] at hk ⊢
    simp only [hk]
    simp
  | loop is b => exact ⟨.kFor, _, rfl, by simp [stopWords, sectionEnds]⟩
  | cond w c b bs els => cases w <;> exact ⟨_, _, rfl, by simp [keyword, stopWords, sectionEnds]⟩

theorem pIndex_show (hE : ∀ (e : X) (t : Tok) (r : List Tok), stop t = true → E (prX e ++ t :: r) = .ok (valX e) (t :: r)) (i : String × Option X) (t : Tok) (r : List Tok) (ht : stop t = true) :
    pIndex E (showIndex prX i ++ t :: r) = .ok (i.1, i.2.map valX) (t :: r) := by
  obtain ⟨s, e⟩ := i
  cases e with
  | none =>
    have h : t ≠ .kIn := by intro h; subst h; simp [stop] at ht
    simp [pIndex, showIndex, isA_ne h]
  | some e =>
    have := hE e t r ht
    simp [pIndex, showIndex, isA_same, this, bind]

theorem pIndices_show (hE : ∀ (e : X) (t : Tok) (r : List Tok), stop t = true → E (prX e ++ t :: r) = .ok (valX e) (t :: r)) : ∀ (is : List (String × Option X)) (f : Nat) (r : List Tok), is ≠ [] → is.length ≤ f →
    pIndices E f (showIndices prX is ++ tLoop :: r) = .ok (is.map fun i => (i.1, i.2.map valX)) (tLoop :: r)
  | [], _, _, h, _ => absurd rfl h
  | [i], f, r, _, hf => by
    cases f with
    | zero => simp at hf
    | succ f =>
      have h := pIndex_show hE i tLoop r (by simp [stop])
      simp [pIndices, showIndices, h, bind, isA_ne]
  | i :: i' :: is, f, r, _, hf => by
    cases f with
    | zero => simp at hf
    | succ f =>
      have h := pIndex_show hE i .comma (showIndices prX (i' :: is) ++ tLoop :: r) rfl
      have h2 := pIndices_show hE (i' :: is) f r (by simp) (by simp at hf ⊢; omega)
      have he : showIndices prX (i :: i' :: is) ++ tLoop :: r = showIndex prX i ++ .comma :: (showIndices prX (i' :: is) ++ tLoop :: r) := by
        simp [showIndices]
      rw [he]
      simp [pIndices, h, h2, bind, isA_same]

theorem showIndices_length : ∀ is : List (String × Option X), is.length ≤ (showIndices prX is).length
  | [] => by simp
  | [(s, e)] => by cases e <;> simp [showIndices, showIndex]
  | i :: i' :: is => by
    have := showIndices_length (i' :: is)
    simp [showIndices] at this ⊢; omega

/-- What a list of equations is read as. -/
abbrev Good (E : List Tok → Res Y) (prL : L → List Tok) (valL : L → Y) (prX : X → List Tok) (valX : X → Y) (es : Sources L X) : Prop :=
  ∀ (f : Nat) (stops : List Tok) (t : Tok) (r : List Tok), (∀ s ∈ stops, s ∈ stopWords) → t ∈ stops →
    2 * (showEqns prL prX es).length + 1 ≤ f →
    pEqs E f stops (showEqns prL prX es ++ t :: r) = .ok (mapEqns valL (fun z => valX z.1) valX es) (t :: r)

theorem elseKeyword_cases (w : Bool) : elseKeyword w = .kElseIf ∨ elseKeyword w = tElseWhen := by cases w <;> simp [elseKeyword]

theorem stops_cond (w : Bool) : ∀ s ∈ [elseKeyword w, .kElse, tEnd], s ∈ stopWords := by
  intro s hs
  cases w <;> simp [elseKeyword] at hs <;> rcases hs with rfl | rfl | rfl <;> simp [stopWords, sectionEnds]

theorem branches_first (w : Bool) (bs : SourceBranches L X) (t : Tok) (r : List Tok) (ht : t ∈ [Tok.kElse, tEnd]) :
    ∃ u us, showBranches prL prX (elseKeyword w) bs ++ t :: r = u :: us ∧ u ∈ [elseKeyword w, .kElse, tEnd] := by
  cases bs with
  | nil => exact ⟨t, r, by simp [showBranches], List.mem_cons_of_mem _ ht⟩
  | cons c b bs => exact ⟨elseKeyword w, _, by simp only [showBranches, List.cons_append]; rfl, List.mem_cons_self⟩

theorem showElse_first (els : Sources L X) (r : List Tok) :
    ∃ u us, showElse prL prX els ++ tEnd :: r = u :: us ∧ u ∈ [Tok.kElse, tEnd] := by
  cases els with
  | nil => exact ⟨tEnd, r, by simp [showElse], by simp⟩
  | cons e es => exact ⟨.kElse, _, by simp only [showElse, List.cons_append]; rfl, by simp⟩

theorem pElse_show (els : Sources L X) (h : Good E prL valL prX valX els) (f : Nat) (r : List Tok)
    (hf : 2 * (showElse prL prX els).length + 1 ≤ f) :
    (if isA .kElse (showElse prL prX els ++ tEnd :: r) then pEqs E f [tEnd] (showElse prL prX els ++ tEnd :: r).tail
      else .ok .nil (showElse prL prX els ++ tEnd :: r)) = .ok (mapEqns valL (fun z => valX z.1) valX els) (tEnd :: r) := by
  cases els with
  | nil => simp [showElse, isA_ne, mapEqns]
  | cons e es =>
    have he : showElse prL prX (.cons e es) = .kElse :: showEqns prL prX (.cons e es) := by simp [showElse, showEqns]
    rw [he, List.cons_append, isA_same, if_pos rfl, List.tail_cons]
    exact h f [tEnd] tEnd r (by simp [stopWords, sectionEnds]) (by simp) (by rw [he] at hf; simp at hf; omega)

/-- The conditional equations, with the keyword that is expected at the end. -/
theorem pCond_show (hE : Reads E prL valL prX valX) (w : Bool) (c : X) (b : Sources L X) (bs : SourceBranches L X) (els : Sources L X)
    (kEnd : Tok) (hb : Good E prL valL prX valX b)
    (hbs : ∀ (f : Nat) (t : Tok) (r : List Tok), t ∈ [Tok.kElse, tEnd] → 2 * (showBranches prL prX (elseKeyword w) bs).length + 1 ≤ f →
      pBranches E f (elseKeyword w) (showBranches prL prX (elseKeyword w) bs ++ t :: r) =
        .ok (mapBranches valL (fun z => valX z.1) valX bs) (t :: r))
    (hels : Good E prL valL prX valX els) (f : Nat) (r : List Tok)
    (hf : 2 * (showEqn prL prX (.cond w c b bs els)).length ≤ f + 1) :
    pCond E f w (elseKeyword w) kEnd ((showEqn prL prX (.cond w c b bs els)).tail ++ r) =
      if keyword w = kEnd then .ok (mapEqn valL (fun z => valX z.1) valX (.cond w c b bs els)) r else .error := by
  have hl : (showEqn prL prX (.cond w c b bs els)).length = (prX c).length + (showEqns prL prX b).length +
      (showBranches prL prX (elseKeyword w) bs).length + (showElse prL prX els).length + 4 := by
    simp [showEqn]; omega
  rw [hl] at hf
  cases f with
  | zero => omega
  | succ f =>
    have he : (showEqn prL prX (.cond w c b bs els)).tail ++ r = prX c ++ .kThen :: (showEqns prL prX b ++
        (showBranches prL prX (elseKeyword w) bs ++ (showElse prL prX els ++ tEnd :: keyword w :: r))) := by simp [showEqn]
    rw [he]
    obtain ⟨u, us, hu, hu'⟩ := showElse_first (prL := prL) (prX := prX) els (keyword w :: r)
    obtain ⟨v, vs, hv, hv'⟩ := branches_first (prL := prL) (prX := prX) w bs u us hu'
    have h1 := hE.right c .kThen (showEqns prL prX b ++
        (showBranches prL prX (elseKeyword w) bs ++ (showElse prL prX els ++ tEnd :: keyword w :: r))) rfl
    have h2 := hb f [elseKeyword w, .kElse, tEnd] v vs (stops_cond w) hv' (by omega)
    rw [← hv, ← hu] at h2
    have h3 := hbs f u us hu' (by omega)
    rw [← hu] at h3
    have h4 := pElse_show els hels f (keyword w :: r) (by omega)
    simp only [pCond, h1, bind, expect_same, h2, h3, h4, mapEqn]
    by_cases hk : keyword w = kEnd
    · subst hk; simp [expect_same]
    · simp [expect_ne hk, hk]

mutual
theorem pEq_show (hE : Reads E prL valL prX valX) : ∀ (e : Source L X), Eqn.Ok True e → ∀ (f : Nat) (r : List Tok),
    2 * (showEqn prL prX e).length ≤ f →
    pEq E f (showEqn prL prX e ++ tSemicolon :: r) = .ok (mapEqn valL (fun z => valX z.1) valX e) (tSemicolon :: r)
  | .equal l (x, c), _, f, r, hf => by
    cases f with
    | zero =>
      obtain ⟨t, us, h, _⟩ := hE.head l
      simp [showEqn] at hf
    | succ f =>
      obtain ⟨t, us, h, hk⟩ := hE.head l
      simp only [keywords, List.mem_append, List.mem_cons, List.not_mem_nil, or_false, not_or] at hk
      have h1 := hE.left l (prX x ++ showComment c ++ tSemicolon :: r)
      have h2 : E (prX x ++ showComment c ++ tSemicolon :: r) = .ok (valX x) (showComment c ++ tSemicolon :: r) := by
        cases c with
        | none => simpa [showComment] using hE.right x tSemicolon r (by simp [stop])
        | some s => simpa [showComment] using hE.right x (.str s) (tSemicolon :: r) rfl
      have he : showEqn prL prX (.equal l (x, c)) ++ tSemicolon :: r = prL l ++ .assign :: (prX x ++ showComment c ++ tSemicolon :: r) := by
        simp [showEqn]
      rw [he]
      have g : ∀ k, t ≠ k → isA k (prL l ++ .assign :: (prX x ++ showComment c ++ tSemicolon :: r)) = false := by
        intro k hk; rw [h, List.cons_append]; exact isA_ne hk _
      rw [pEq, g _ hk.1.1, g _ hk.1.2.1, g _ hk.1.2.2.2.2.1]
      simp only [Bool.false_eq_true, if_false, h1, bind, expect_same, h2, mapEqn]
      cases c <;> simp [showComment]
  | .loop is b, hok, f, r, hf => by
    simp only [Eqn.Ok] at hok
    have hl : (showEqn prL prX (.loop is b)).length = (showIndices prX is).length + (showEqns prL prX b).length + 4 := by
      simp [showEqn]; omega
    rw [hl] at hf
    have hi := showIndices_length (prX := prX) is
    cases f with
    | zero => omega
    | succ f =>
      have he : showEqn prL prX (.loop is b) ++ tSemicolon :: r =
          .kFor :: (showIndices prX is ++ tLoop :: (showEqns prL prX b ++ tEnd :: .kFor :: tSemicolon :: r)) := by simp [showEqn]
      rw [he, pEq, isA_ne (by simp), isA_same]
      have h1 := pIndices_show hE.right is f (showEqns prL prX b ++ tEnd :: .kFor :: tSemicolon :: r) hok.1 (by omega)
      have h2 := pEqs_show hE b hok.2 f [tEnd] tEnd (.kFor :: tSemicolon :: r) (by simp [stopWords, sectionEnds]) (by simp) (by omega)
      simp only [Bool.false_eq_true, if_false, if_true, List.tail_cons, h1, bind, expect_same, h2, mapEqn]
  | .cond w c b bs els, hok, f, r, hf => by
    simp only [Eqn.Ok] at hok
    obtain ⟨hw, hb, hbs, hels⟩ := hok
    obtain rfl := hw trivial
    cases f with
    | zero => simp [showEqn] at hf
    | succ f =>
      have h := pCond_show hE false c b bs els .kIf (pEqs_show hE b hb) (pBranches_show hE false bs hbs) (pEqs_show hE els hels) f
        (tSemicolon :: r) (by omega)
      have he : showEqn prL prX (.cond false c b bs els) ++ tSemicolon :: r =
          .kIf :: ((showEqn prL prX (.cond false c b bs els)).tail ++ tSemicolon :: r) := by simp [showEqn, keyword]
      rw [he, pEq, isA_same, if_pos rfl, List.tail_cons]
      simpa [keyword, elseKeyword] using h
theorem pEqs_show (hE : Reads E prL valL prX valX) : ∀ (es : Sources L X), Eqns.Ok True es → Good E prL valL prX valX es
  | .nil, _, f, stops, t, r, hs, ht, hf => by
    cases f with
    | zero => omega
    | succ f => simp [pEqs, showEqns, isOne_mem ht, mapEqns]
  | .cons e es, hok, f, stops, t, r, hs, ht, hf => by
    simp only [Eqns.Ok] at hok
    cases f with
    | zero => omega
    | succ f =>
      have hl : (showEqns prL prX (.cons e es)).length = (showEqn prL prX e).length + (showEqns prL prX es).length + 1 := by
        simp [showEqns]; omega
      rw [hl] at hf
      have h1 := pEq_show hE e hok.1 f (showEqns prL prX es ++ t :: r) (by omega)
      have h2 := pEqs_show hE es hok.2 f stops t r hs ht (by omega)
      have he : showEqns prL prX (.cons e es) ++ t :: r = showEqn prL prX e ++ tSemicolon :: (showEqns prL prX es ++ t :: r) := by
        simp [showEqns]
      obtain ⟨u, us, hu, hu'⟩ := showEqn_start hE e
      have hn : isOne stops (showEqn prL prX e ++ tSemicolon :: (showEqns prL prX es ++ t :: r)) = false := by
        rw [hu, List.cons_append]
        exact isOne_not (fun hc => hu' (hs u hc)) _
      rw [he, pEqs, hn]
      simp only [Bool.false_eq_true, if_false, h1, bind, expect_same, h2, mapEqns]
theorem pBranches_show (hE : Reads E prL valL prX valX) (w : Bool) : ∀ (bs : SourceBranches L X), Branches.Ok True bs →
    ∀ (f : Nat) (t : Tok) (r : List Tok), t ∈ [Tok.kElse, tEnd] → 2 * (showBranches prL prX (elseKeyword w) bs).length + 1 ≤ f →
      pBranches E f (elseKeyword w) (showBranches prL prX (elseKeyword w) bs ++ t :: r) =
        .ok (mapBranches valL (fun z => valX z.1) valX bs) (t :: r)
  | .nil, _, f, t, r, ht, hf => by
    cases f with
    | zero => omega
    | succ f =>
      have hn : t ≠ elseKeyword w := by
        simp only [List.mem_cons, List.not_mem_nil, or_false] at ht
        rcases ht with rfl | rfl <;> cases w <;> simp [elseKeyword]
      simp [pBranches, showBranches, isA_ne hn, mapBranches]
  | .cons c b bs, hok, f, t, r, ht, hf => by
    simp only [Branches.Ok] at hok
    cases f with
    | zero => omega
    | succ f =>
      have hl : (showBranches prL prX (elseKeyword w) (.cons c b bs)).length = (prX c).length + (showEqns prL prX b).length +
          (showBranches prL prX (elseKeyword w) bs).length + 2 := by
        simp [showBranches]; omega
      rw [hl] at hf
      have he : showBranches prL prX (elseKeyword w) (.cons c b bs) ++ t :: r = elseKeyword w :: (prX c ++ .kThen :: (showEqns prL prX b ++
          (showBranches prL prX (elseKeyword w) bs ++ t :: r))) := by simp [showBranches]
      obtain ⟨v, vs, hv, hv'⟩ := branches_first (prL := prL) (prX := prX) w bs t r ht
      have h1 := hE.right c .kThen (showEqns prL prX b ++ (showBranches prL prX (elseKeyword w) bs ++ t :: r)) rfl
      have h2 := pEqs_show hE b hok.1 f [elseKeyword w, .kElse, tEnd] v vs (stops_cond w) hv' (by omega)
      rw [← hv] at h2
      have h3 := pBranches_show hE w bs hok.2 f t r ht (by omega)
      rw [he, pBranches, isA_same, if_pos rfl, List.tail_cons]
      simp only [h1, bind, expect_same, h2, h3, mapBranches]
end

/-- A section. -/
theorem section_show (hE : Reads E prL valL prX valX) (init : Bool) (es : Sources L X) (hok : Eqns.Ok True es) (t : Tok) (r : List Tok)
    (ht : Ends t) :
    parseEquationSection E (showSection prL prX init es ++ t :: r) = .ok (init, mapEqns valL (fun z => valX z.1) valX es) (t :: r) := by
  have hl : (showEqns prL prX es).length ≤ (showSection prL prX init es ++ t :: r).length := by simp [showSection]; omega
  have h := pEqs_show hE es hok (2 * (showSection prL prX init es ++ t :: r).length + 1) sectionEnds t r
    (fun s hs => List.mem_append_right _ hs) ht (by omega)
  have hi : isA tInitial (showSection prL prX init es ++ t :: r) = init := by cases init <;> simp [showSection, isA]
  have he : (if isA tInitial (showSection prL prX init es ++ t :: r) then (showSection prL prX init es ++ t :: r).tail
      else showSection prL prX init es ++ t :: r) = tEquation :: (showEqns prL prX es ++ t :: r) := by
    rw [hi]; cases init <;> simp [showSection]
  unfold parseEquationSection
  rw [he, hi]
  simp only [expect_same, bind, h]

end Marco.EqParse
