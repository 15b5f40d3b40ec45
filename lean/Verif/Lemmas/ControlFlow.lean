import Verif.Spec.ControlFlow
import Mathlib.Tactic.SplitIfs
import Mathlib.Tactic.Cases

/-! Lemmas about the conversion to control flow graphs (C64). -/

namespace Marco.Cfg
open Marco.Stmts Marco.Spec Relation

variable {ret : Label} {env : Env} {exit : Option Label} {next : Label}

theorem conv_ifElse {c : IrEx} {a b : IrSt} (hb : b ≠ .noRegion) (n : Label) :
    conv ret env exit next (.ifOp c a b) n =
      (conv ret env exit next b (keep env next a (n + 1)).fresh).map fun ob =>
        ⟨n, (n, .test env c (keep env next a (n + 1)).entry ob.entry) ::
          ((keep env next a (n + 1)).code ++ ob.code), ob.fresh⟩ := by
  cases b <;> first | exact absurd rfl hb | skip
  all_goals simp only [conv]
  all_goals simp [Option.map, bind, Option.bind, pure]
  all_goals split <;> simp_all

theorem conv_ifThen {c : IrEx} {a : IrSt} (n : Label) :
    conv ret env exit next (.ifOp c a .noRegion) n =
      (conv ret env exit next a (n + 1)).map fun oa =>
        ⟨n, (n, .test env c oa.entry next) :: oa.code, oa.fresh⟩ := by
  simp only [conv]; cases conv ret env exit next a (n + 1) <;> rfl

theorem conv_seq {a b : IrSt} {n : Label} {out : Out}
    (h : conv ret env exit next (.seq a b) n = some out) :
    ∃ ob oa, conv ret env exit next b n = some ob ∧ conv ret env exit ob.entry a ob.fresh = some oa ∧
      out = ⟨oa.entry, oa.code ++ ob.code, oa.fresh⟩ := by
  simp only [conv, bind, Option.bind] at h
  split at h
  · cases h
  · rename_i ob hb
    simp only at h
    split at h
    · cases h
    · rename_i oa ha
      cases h
      exact ⟨ob, oa, hb, ha, rfl⟩

theorem conv_for {x : String} {l u s : IrEx} {a : IrSt} {n : Label} {out : Out}
    (h : conv ret env exit next (.forOp x l u s a) n = some out) :
    ∃ o, conv ret (fun y => if y = x then some n else env y) (some next) (n + 3) a (n + 4) = some o ∧
      out = ⟨n, (n, .initCell env n l (n + 1)) :: (n + 1, .testCell env n u (n + 2) next) ::
      (n + 2, .readCell n o.entry) :: (n + 3, .addCell env n s (n + 1)) :: o.code, o.fresh⟩ := by
  simp only [conv, bind, Option.bind] at h
  split at h
  · cases h
  · rename_i o ho
    cases h
    exact ⟨o, ho, rfl⟩

theorem conv_while {c : IrEx} {a : IrSt} {n : Label} {out : Out}
    (h : conv ret env exit next (.whileOp c a) n = some out) :
    ∃ o, conv ret env (some next) n a (n + 1) = some o ∧
      out = ⟨n, (n, .test env c o.entry next) :: o.code, o.fresh⟩ := by
  simp only [conv, bind, Option.bind] at h
  split at h
  · cases h
  · rename_i o ho
    cases h
    exact ⟨o, ho, rfl⟩

theorem conv_break {n : Label} {out : Out} (h : conv ret env exit next .breakOp n = some out) :
    ∃ l, exit = some l ∧ out = ⟨n, [(n, .goto l)], n + 1⟩ := by
  simp only [conv, bind, Option.bind] at h
  split at h
  · cases h
  · cases h; exact ⟨_, rfl, rfl⟩

/-- A region without structured operations is inlined as it would be converted. -/
theorem keep_eq_conv (a : IrSt) (h : straight a = true) :
    ∀ next n, conv ret env exit next a n = some (keep env next a n) := by
  induction a with
  | seq a b iha ihb =>
    intro next n
    simp only [straight, Bool.and_eq_true] at h
    simp [conv, keep, iha h.1, ihb h.2]
  | skip | noRegion | set => intros; rfl
  | _ => simp [straight] at h

theorem straightThen_of_straight (a : IrSt) (h : straight a = true) : straightThen a = true := by
  induction a with
  | seq a b iha ihb => simp_all [straightThen, straight]
  | skip | noRegion | set => rfl
  | _ => simp [straight] at h

/-! ### The names of the blocks -/

/-- The names of the blocks of a conversion that starts with `n`. -/
def Fresh (n : Label) (o : Out) : Prop :=
  n ≤ o.fresh ∧ (∀ p ∈ o.code, n ≤ p.1 ∧ p.1 < o.fresh) ∧
    ∀ l x y, (l, x) ∈ o.code → (l, y) ∈ o.code → x = y

theorem Fresh.app {n : Label} {o o' : Out} {e : Label} (h : Fresh n o) (h' : Fresh o.fresh o') :
    Fresh n ⟨e, o'.code ++ o.code, o'.fresh⟩ := by
  obtain ⟨h1, h2, h3⟩ := h
  obtain ⟨h1', h2', h3'⟩ := h'
  refine ⟨by simp only; omega, ?_, ?_⟩
  · intro p hp
    rcases List.mem_append.1 hp with hp | hp
    · have := h2' p hp; simp only; omega
    · have := h2 p hp; simp only; omega
  · intro l x y hx hy
    rcases List.mem_append.1 hx with hx | hx <;> rcases List.mem_append.1 hy with hy | hy
    · exact h3' l x y hx hy
    · have := h2' _ hx; have := h2 _ hy; simp only at *; omega
    · have := h2 _ hx; have := h2' _ hy; simp only at *; omega
    · exact h3 l x y hx hy

theorem Fresh.app' {n : Label} {o o' : Out} {e : Label} (h : Fresh n o) (h' : Fresh o.fresh o') :
    Fresh n ⟨e, o.code ++ o'.code, o'.fresh⟩ := by
  have := Fresh.app (e := e) h h'
  refine ⟨this.1, fun p hp => this.2.1 p ?_, fun l x y hx hy => this.2.2 l x y ?_ ?_⟩ <;>
    simp only [List.mem_append] at * <;> tauto

theorem Fresh.cons {n : Label} {o : Out} {e : Label} (nd : Node) (h : Fresh (n + 1) o) :
    Fresh n ⟨e, (n, nd) :: o.code, o.fresh⟩ := by
  obtain ⟨h1, h2, h3⟩ := h
  refine ⟨by simp only; omega, ?_, ?_⟩
  · intro p hp
    rcases List.mem_cons.1 hp with rfl | hp
    · simp only; omega
    · have := h2 p hp; simp only; omega
  · intro l x y hx hy
    rcases List.mem_cons.1 hx with hx | hx <;> rcases List.mem_cons.1 hy with hy | hy
    · cases hx; cases hy; rfl
    · cases hx; have := h2 _ hy; simp only at *; omega
    · cases hy; have := h2 _ hx; simp only at *; omega
    · exact h3 l x y hx hy

theorem Fresh.nil {n e : Label} : Fresh n ⟨e, [], n⟩ :=
  ⟨Nat.le_refl _, by simp, by simp⟩

theorem Fresh.one {n e : Label} (nd : Node) : Fresh n ⟨e, [(n, nd)], n + 1⟩ :=
  Fresh.cons nd (o := ⟨e, [], n + 1⟩) Fresh.nil

theorem keep_fresh (a : IrSt) : ∀ next n, Fresh n (keep env next a n) := by
  induction a with
  | seq a b iha ihb => intro next n; exact Fresh.app (ihb _ _) (iha _ _)
  | skip | noRegion => intro next n; exact Fresh.nil
  | _ => intro next n; exact Fresh.one _

theorem conv_fresh (s : IrSt) : ∀ env exit next n out, conv ret env exit next s n = some out → Fresh n out := by
  induction s with
  | skip | noRegion => intro env exit next n out h; cases h; exact Fresh.nil
  | set => intro env exit next n out h; cases h; exact Fresh.one _
  | returnOp => intro env exit next n out h; cases h; exact Fresh.one _
  | breakOp =>
    intro env exit next n out h
    obtain ⟨l, -, rfl⟩ := conv_break h
    exact Fresh.one _
  | seq a b iha ihb =>
    intro env exit next n out h
    obtain ⟨ob, oa, hb, ha, rfl⟩ := conv_seq h
    exact Fresh.app (ihb _ _ _ _ _ hb) (iha _ _ _ _ _ ha)
  | ifOp c a b iha ihb =>
    intro env exit next n out h
    by_cases hr : b = .noRegion
    · subst hr
      rw [conv_ifThen] at h
      obtain ⟨oa, ha, rfl⟩ := Option.map_eq_some_iff.1 h
      exact Fresh.cons _ (iha _ _ _ _ _ ha)
    · rw [conv_ifElse hr] at h
      obtain ⟨ob, hb, rfl⟩ := Option.map_eq_some_iff.1 h
      exact Fresh.cons (o := ⟨ob.entry, _, _⟩) _ (Fresh.app' (keep_fresh _ _ _) (ihb _ _ _ _ _ hb))
  | whileOp c a ih =>
    intro env exit next n out h
    obtain ⟨o, ho, rfl⟩ := conv_while h
    exact Fresh.cons _ (ih _ _ _ _ _ ho)
  | forOp x l u s a ih =>
    intro env exit next n out h
    obtain ⟨o, ho, rfl⟩ := conv_for h
    have := Fresh.cons (e := n) (.addCell env n s (n + 1)) (ih _ _ _ _ _ ho)
    have := Fresh.cons (e := n) (.readCell n o.entry) this
    have := Fresh.cons (e := n) (.testCell env n u (n + 2) next) this
    exact Fresh.cons (.initCell env n l (n + 1)) this

/-! ### From the structured operations to the blocks -/

/-- Where the execution goes on. -/
def target (ret : Label) (exit : Option Label) (next : Label) : Ending → Option Label
  | .next => some next
  | .brk => exit
  | .ret => some ret

/-- The cells and the values of the loops before `n` are the same. -/
def Keeps (n : Label) (m m' : Mem) : Prop := ∀ i < n, m'.cell i = m.cell i ∧ m'.val i = m.val i

theorem Keeps.refl (n : Label) (m : Mem) : Keeps n m m := fun _ _ => ⟨rfl, rfl⟩

theorem Keeps.trans {n : Label} {m m' m'' : Mem} (h : Keeps n m m') (h' : Keeps n m' m'') : Keeps n m m'' :=
  fun i hi => ⟨(h' i hi).1.trans (h i hi).1, (h' i hi).2.trans (h i hi).2⟩

theorem Keeps.mono {n k : Label} {m m' : Mem} (h : Keeps k m m') (hk : n ≤ k) : Keeps n m m' :=
  fun i hi => h i (by omega)

/-- The loops in scope come before `n`. -/
def EnvLt (env : Env) (n : Label) : Prop := ∀ x i, env x = some i → i < n

theorem EnvLt.mono {n k : Label} (h : EnvLt env n) (hk : n ≤ k) : EnvLt env k :=
  fun x i hx => by have := h x i hx; omega

/-- The values of the iteration variables. -/
def itersOf (env : Env) (m : Mem) : Iters := fun x => (env x).map m.val

theorem itersOf_keeps {n : Label} {m m' : Mem} (h : EnvLt env n) (hk : Keeps n m m') :
    itersOf env m' = itersOf env m := by
  funext x
  simp only [itersOf]
  cases hx : env x with
  | none => rfl
  | some i => simp [(hk i (h x i hx)).2]

/-- `Goes C s n p ep target m σ`. -/
def Goes (C : List (Label × Node)) (n : Label) (l : Label) (m : Mem) (l' : Option Label) (τ : Store) : Prop :=
  ∃ k m', l' = some k ∧ ReflTransGen (BlockStep C) (l, m) (k, m') ∧ m'.vars = τ ∧ Keeps n m m'

theorem Goes.head {C : List (Label × Node)} {n l l₁ : Label} {m m₁ : Mem} {l' τ}
    (hs : BlockStep C (l, m) (l₁, m₁)) (hk : Keeps n m m₁) (h : Goes C n l₁ m₁ l' τ) : Goes C n l m l' τ := by
  obtain ⟨k, m', e, hr, hv, hk'⟩ := h
  exact ⟨k, m', e, ReflTransGen.head hs hr, hv, hk.trans hk'⟩

theorem Goes.comp {C : List (Label × Node)} {n n₁ l l₁ : Label} {m : Mem} {l' τ σ}
    (h : Goes C n₁ l m (some l₁) σ) (hn : n ≤ n₁)
    (h' : ∀ m₁, m₁.vars = σ → Keeps n₁ m m₁ → Goes C n l₁ m₁ l' τ) : Goes C n l m l' τ := by
  obtain ⟨k, m₁, e, hr, hv, hk⟩ := h
  cases e
  obtain ⟨k', m', e', hr', hv', hk'⟩ := h' m₁ hv hk
  exact ⟨k', m', e', hr.trans hr', hv', (hk.mono hn).trans hk'⟩

theorem Goes.mono {C : List (Label × Node)} {n n₁ l : Label} {m : Mem} {l' τ}
    (h : Goes C n₁ l m l' τ) (hn : n ≤ n₁) : Goes C n l m l' τ := by
  obtain ⟨k, m₁, e, hr, hv, hk⟩ := h
  exact ⟨k, m₁, e, hr, hv, hk.mono hn⟩

/-- What is to be shown about operations and about the loop of a cell. -/
def Simulates (C : List (Label × Node)) (ρ : Iters) (σ : Store) (o : Ending) (τ : Store) : IrCode → Prop
  | .st s => ∀ env exit next n out, conv ret env exit next s n = some out → (∀ p ∈ out.code, p ∈ C) →
      straightThen s = true → EnvLt env n → ∀ m, m.vars = σ → itersOf env m = ρ →
      Goes C n out.entry m (target ret exit next o) τ
  | .cell x v u s a => ∀ env exit next n l out, conv ret env exit next (.forOp x l u s a) n = some out →
      (∀ p ∈ out.code, p ∈ C) → straightThen a = true → EnvLt env n → ∀ m, m.vars = σ → itersOf env m = ρ →
      m.cell n = v → Goes C n (n + 1) m (target ret exit next o) τ

theorem env_for (x : String) {n : Label} (h : EnvLt env n) {k : Label} (hk : n < k) :
    EnvLt (fun y => if y = x then some n else env y) k := by
  intro y i hy
  simp only at hy
  split_ifs at hy
  · cases hy; exact hk
  · have := h y i hy; omega

theorem iters_for (x : String) {n : Label} (h : EnvLt env n) (m : Mem) {v : Int} (hv : m.cell n = v) :
    itersOf (fun y => if y = x then some n else env y)
      { m with val := fun i => if i = n then m.cell n else m.val i } = bindIter (itersOf env m) x v := by
  funext y
  simp only [itersOf, bindIter]
  split_ifs with hy
  · simp [hv]
  · cases hz : env y with
    | none => rfl
    | some i =>
      have := h y i hz
      rw [Option.map_some, Option.map_some, if_neg (by omega)]

theorem simulates {C : List (Label × Node)} {ρ : Iters} {c : IrCode} {σ : Store} {o : Ending} {τ : Store}
    (h : IrExec ρ c σ o τ) : Simulates (ret := ret) C ρ σ o τ c := by
  induction h with
  | skip => intro env exit next n out h _ _ _ m hm hi; cases h; exact ⟨_, m, rfl, .refl, hm, .refl _ _⟩
  | noRegion => intro env exit next n out h _ _ _ m hm hi; cases h; exact ⟨_, m, rfl, .refl, hm, .refl _ _⟩
  | returnOp =>
    intro env exit next n out h hC _ _ m hm hi
    cases h
    exact ⟨_, m, rfl, .single (.goto (hC _ (by simp))), hm, .refl _ _⟩
  | breakOp =>
    intro env exit next n out h hC _ _ m hm hi
    obtain ⟨l, rfl, rfl⟩ := conv_break h
    exact ⟨_, m, rfl, .single (.goto (hC _ (by simp))), hm, .refl _ _⟩
  | set =>
    intro env exit next n out h hC _ _ m hm hi
    cases h
    subst hm hi
    exact ⟨_, _, rfl, .single (.set (hC _ (by simp))), rfl, fun _ _ => ⟨rfl, rfl⟩⟩
  | seq _ _ iha ihb =>
    intro env exit next n out h hC hs hE m hm hi
    obtain ⟨ob, oa, hb, ha, rfl⟩ := conv_seq h
    simp only [straightThen, Bool.and_eq_true] at hs
    have hle := (conv_fresh _ _ _ _ _ _ hb).1
    refine Goes.comp (iha _ _ _ _ _ ha (fun p hp => hC p (List.mem_append_left _ hp)) hs.1 (hE.mono hle) m hm hi)
      hle fun m₁ h₁ hk => ?_
    exact ihb _ _ _ _ _ hb (fun p hp => hC p (List.mem_append_right _ hp)) hs.2 hE m₁ h₁
      ((itersOf_keeps (hE.mono hle) hk).trans hi)
  | @stop ρ a b σ o τ ho _ iha =>
    intro env exit next n out h hC hs hE m hm hi
    obtain ⟨ob, oa, hb, ha, rfl⟩ := conv_seq h
    simp only [straightThen, Bool.and_eq_true] at hs
    have hle := (conv_fresh _ _ _ _ _ _ hb).1
    have := iha _ _ _ _ _ ha (fun p hp => hC p (List.mem_append_left _ hp)) hs.1 (hE.mono hle) m hm hi
    have e : target ret exit ob.entry o = target ret exit next o := by cases o <;> simp_all [target]
    rw [e] at this
    exact this.mono hle
  | @ifTrue ρ c a b σ o τ hc _ iha =>
    intro env exit next n out h hC hs hE m hm hi
    subst hm hi
    by_cases hr : b = .noRegion
    · subst hr
      rw [conv_ifThen] at h
      obtain ⟨oa, ha, rfl⟩ := Option.map_eq_some_iff.1 h
      refine Goes.head (.yes (hC _ (.head _)) hc) (.refl _ _) ?_
      exact (iha _ _ _ _ _ ha (fun p hp => hC p (List.mem_cons_of_mem _ hp)) hs
        (hE.mono (by omega)) m rfl rfl).mono (by omega)
    · rw [conv_ifElse hr] at h
      obtain ⟨ob, hb, rfl⟩ := Option.map_eq_some_iff.1 h
      have hst : straight a = true := by cases b <;> simp_all [straightThen]
      refine Goes.head (.yes (hC _ (.head _)) hc) (.refl _ _) ?_
      have hst' : straightThen a = true := straightThen_of_straight a hst
      exact (iha _ exit _ _ _ (keep_eq_conv a hst next (n + 1))
        (fun p hp => hC p (List.mem_cons_of_mem _ (List.mem_append_left _ hp))) hst'
        (hE.mono (by omega)) m rfl rfl).mono (by omega)
  | @ifFalse ρ c a b σ o τ hc hx ihb =>
    intro env exit next n out h hC hs hE m hm hi
    subst hm hi
    by_cases hr : b = .noRegion
    · subst hr
      rw [conv_ifThen] at h
      obtain ⟨oa, ha, rfl⟩ := Option.map_eq_some_iff.1 h
      cases hx
      exact ⟨_, m, rfl, .single (.no (hC _ (.head _)) hc), rfl, .refl _ _⟩
    · rw [conv_ifElse hr] at h
      obtain ⟨ob, hb, rfl⟩ := Option.map_eq_some_iff.1 h
      have hst : straightThen b = true := by cases b <;> simp_all [straightThen]
      have hle := (keep_fresh (env := env) a next (n + 1)).1
      refine Goes.head (.no (hC _ (.head _)) hc) (.refl _ _) ?_
      exact (ihb _ _ _ _ _ hb
        (fun p hp => hC p (List.mem_cons_of_mem _ (List.mem_append_right _ hp))) hst
        (hE.mono (by omega)) m rfl rfl).mono (by omega)
  | whileEnd hc =>
    intro env exit next n out h hC hs hE m hm hi
    subst hm hi
    obtain ⟨o, ho, rfl⟩ := conv_while h
    exact ⟨_, m, rfl, .single (.no (hC _ (.head _)) hc), rfl, .refl _ _⟩
  | whileNext hc _ _ iha ihw =>
    intro env exit next n out h hC hs hE m hm hi
    subst hm hi
    obtain ⟨o, ho, rfl⟩ := conv_while h
    refine Goes.head (.yes (hC _ (.head _)) hc) (.refl _ _) ?_
    refine Goes.comp (iha _ _ _ _ _ ho (fun p hp => hC p (List.mem_cons_of_mem _ hp)) hs
      (hE.mono (by omega)) m rfl rfl) (by omega) fun m₁ h₁ hk => ?_
    exact ihw _ _ _ _ _ h hC hs hE m₁ h₁ (itersOf_keeps (hE.mono (by omega)) hk)
  | whileBrk hc _ iha =>
    intro env exit next n out h hC hs hE m hm hi
    subst hm hi
    obtain ⟨o, ho, rfl⟩ := conv_while h
    refine Goes.head (.yes (hC _ (.head _)) hc) (.refl _ _) ?_
    exact (iha _ _ _ _ _ ho (fun p hp => hC p (List.mem_cons_of_mem _ hp)) hs
      (hE.mono (by omega)) m rfl rfl).mono (by omega)
  | whileRet hc _ iha =>
    intro env exit next n out h hC hs hE m hm hi
    subst hm hi
    obtain ⟨o, ho, rfl⟩ := conv_while h
    refine Goes.head (.yes (hC _ (.head _)) hc) (.refl _ _) ?_
    exact (iha _ _ _ _ _ ho (fun p hp => hC p (List.mem_cons_of_mem _ hp)) hs
      (hE.mono (by omega)) m rfl rfl).mono (by omega)
  | @forOp ρ x l u s a σ o τ _ ih =>
    intro env exit next n out h hC hs hE m hm hi
    subst hm hi
    have h' := h
    obtain ⟨o, ho, rfl⟩ := conv_for h
    have hk : Keeps n m (m.setCell n (m.eval env l)) := fun i hi => by
      simp only [Mem.setCell]; exact ⟨if_neg (by omega), trivial⟩
    refine Goes.head (.initCell (hC _ (.head _))) hk ?_
    exact ih _ _ _ _ _ _ h' hC hs hE _ rfl (itersOf_keeps hE hk) (by simp [Mem.setCell, Mem.eval]; rfl)
  | fromEnd hc =>
    intro env exit next n l out h hC hs hE m hm hi hv
    subst hm hi hv
    obtain ⟨o, ho, rfl⟩ := conv_for h
    exact ⟨_, m, rfl, .single (.testNo (hC _ (.tail _ (.head _))) hc), rfl, .refl _ _⟩
  | @fromNext ρ x v u s a σ σ' o τ hc _ _ iha ihw =>
    intro env exit next n l out h hC hs hE m hm hi hv
    subst hm hi
    have h' := h
    obtain ⟨o, ho, rfl⟩ := conv_for h
    refine Goes.head (.testYes (hC _ (.tail _ (.head _))) (by rw [hv]; exact hc)) (.refl _ _) ?_
    refine Goes.head (m₁ := { m with val := fun i => if i = n then m.cell n else m.val i })
      (.readCell (hC _ (.tail _ (.tail _ (.head _))))) (fun i hi => ⟨rfl, if_neg (by omega)⟩) ?_
    refine Goes.comp (iha _ _ _ _ _ ho (fun p hp => hC p (by simp [hp])) hs
      (env_for x hE (by omega)) { m with val := fun i => if i = n then m.cell n else m.val i } rfl
      (iters_for x hE m hv)) (by omega) fun m₁ h₁ hk => ?_
    have hk' : Keeps n m m₁ := Keeps.trans (m' := { m with val := fun i => if i = n then m.cell n else m.val i })
      (fun i hi => ⟨rfl, if_neg (by omega)⟩) (hk.mono (by omega))
    have hc₁ : m₁.cell n = v := (hk n (by omega)).1.trans hv
    have hk₁ : Keeps n m₁ (m₁.setCell n (m₁.cell n + m₁.eval env s)) := fun i hi => by
      simp only [Mem.setCell]; exact ⟨if_neg (by omega), trivial⟩
    refine Goes.head (.addCell (hC _ (.tail _ (.tail _ (.tail _ (.head _)))))) hk₁ ?_
    refine ihw _ _ _ _ _ _ h' hC hs hE _ h₁ (itersOf_keeps hE (hk'.trans hk₁)) ?_
    simp only [Mem.setCell, Mem.eval, if_true, hc₁]
    rw [show (fun x => Option.map m₁.val (env x)) = itersOf env m from itersOf_keeps hE hk', h₁]
  | @fromBrk ρ x v u s a σ τ hc _ iha =>
    intro env exit next n l out h hC hs hE m hm hi hv
    subst hm hi
    obtain ⟨o, ho, rfl⟩ := conv_for h
    refine Goes.head (.testYes (hC _ (.tail _ (.head _))) (by rw [hv]; exact hc)) (.refl _ _) ?_
    refine Goes.head (m₁ := { m with val := fun i => if i = n then m.cell n else m.val i })
      (.readCell (hC _ (.tail _ (.tail _ (.head _))))) (fun i hi => ⟨rfl, if_neg (by omega)⟩) ?_
    exact (iha _ _ _ _ _ ho (fun p hp => hC p (by simp [hp])) hs
      (env_for x hE (by omega)) { m with val := fun i => if i = n then m.cell n else m.val i } rfl
      (iters_for x hE m hv)).mono (by omega)
  | @fromRet ρ x v u s a σ τ hc _ iha =>
    intro env exit next n l out h hC hs hE m hm hi hv
    subst hm hi
    obtain ⟨o, ho, rfl⟩ := conv_for h
    refine Goes.head (.testYes (hC _ (.tail _ (.head _))) (by rw [hv]; exact hc)) (.refl _ _) ?_
    refine Goes.head (m₁ := { m with val := fun i => if i = n then m.cell n else m.val i })
      (.readCell (hC _ (.tail _ (.tail _ (.head _))))) (fun i hi => ⟨rfl, if_neg (by omega)⟩) ?_
    exact (iha _ _ _ _ _ ho (fun p hp => hC p (by simp [hp])) hs
      (env_for x hE (by omega)) { m with val := fun i => if i = n then m.cell n else m.val i } rfl
      (iters_for x hE m hv)).mono (by omega)

/-! ### From the blocks to the structured operations -/

/-- `k` blocks are executed. -/
inductive StepsN (C : List (Label × Node)) : Nat → Label × Mem → Label × Mem → Prop where
  | nil (p) : StepsN C 0 p p
  | cons {k p q r} : BlockStep C p q → StepsN C k q r → StepsN C (k + 1) p r

theorem stepsN_of_rtg {C : List (Label × Node)} {p q : Label × Mem} (h : ReflTransGen (BlockStep C) p q) :
    ∃ k, StepsN C k p q := by
  induction h using ReflTransGen.head_induction_on with
  | refl => exact ⟨0, .nil _⟩
  | head hs _ ih => obtain ⟨k, hk⟩ := ih; exact ⟨k + 1, .cons hs hk⟩

/-- Where a block goes. -/
def stepOf (m : Mem) : Node → Option (Label × Mem)
  | .set env x e k => some (k, { m with vars := assignTo m.vars x (m.eval env e) })
  | .initCell env c e k => some (k, m.setCell c (m.eval env e))
  | .testCell env c e y n => some (if m.cell c ≤ m.eval env e then (y, m) else (n, m))
  | .readCell c k => some (k, { m with val := fun i => if i = c then m.cell c else m.val i })
  | .addCell env c e k => some (k, m.setCell c (m.cell c + m.eval env e))
  | .test env c y n => some (if m.eval env c ≠ 0 then (y, m) else (n, m))
  | .goto k => some (k, m)
  | .raw _ => none

/-- Each name stands for one block, and the exit block is not among them. -/
def Sound (C : List (Label × Node)) : Prop :=
  (∀ l x y, (l, x) ∈ C → (l, y) ∈ C → x = y) ∧ ∀ p ∈ C, p.1 ≠ exitBlock

theorem stepOf_of_step {C : List (Label × Node)} (hS : Sound C) {l : Label} {m : Mem} {p : Label × Mem} {nd : Node}
    (hn : (l, nd) ∈ C) (h : BlockStep C (l, m) p) : stepOf m nd = some p := by
  cases h with
  | set h => cases hS.1 _ _ _ hn h; rfl
  | initCell h => cases hS.1 _ _ _ hn h; rfl
  | testYes h hc => cases hS.1 _ _ _ hn h; simp [stepOf, hc]
  | testNo h hc => cases hS.1 _ _ _ hn h; simp [stepOf, hc]
  | readCell h => cases hS.1 _ _ _ hn h; rfl
  | addCell h => cases hS.1 _ _ _ hn h; rfl
  | yes h hc => cases hS.1 _ _ _ hn h; simp [stepOf, hc]
  | no h hc => cases hS.1 _ _ _ hn h; simp [stepOf, hc]
  | goto h => cases hS.1 _ _ _ hn h; rfl

theorem step_first {C : List (Label × Node)} (hS : Sound C) {l : Label} {m mf : Mem} {nd : Node} {k : Nat}
    (hn : (l, nd) ∈ C) (h : StepsN C k (l, m) (exitBlock, mf)) :
    ∃ k' p, k = k' + 1 ∧ stepOf m nd = some p ∧ StepsN C k' p (exitBlock, mf) := by
  cases h with
  | nil => exact absurd rfl (hS.2 _ hn)
  | cons hs h => exact ⟨_, _, rfl, stepOf_of_step hS hn hs, h⟩

/-- The blocks of `s` are left in a way that `s` ends. -/
def Left (C : List (Label × Node)) (ret : Label) (env : Env) (exit : Option Label) (next n : Label) (c : IrCode)
    (k : Nat) (m mf : Mem) : Prop :=
  ∃ o k' l m', k' ≤ k ∧ target ret exit next o = some l ∧ IrExec (itersOf env m) c m.vars o m'.vars ∧
    StepsN C k' (l, m') (exitBlock, mf) ∧ Keeps n m m'

theorem left_keep {C : List (Label × Node)} (hS : Sound C) (s : IrSt) :
    ∀ next n, (∀ p ∈ (keep env next s n).code, p ∈ C) → EnvLt env n → ∀ k m mf,
      StepsN C k ((keep env next s n).entry, m) (exitBlock, mf) →
      ∃ k' m', k' ≤ k ∧ IrExec (itersOf env m) (.st s) m.vars .next m'.vars ∧
        StepsN C k' (next, m') (exitBlock, mf) ∧ Keeps n m m' := by
  induction s with
  | skip => intro next n _ _ k m mf h; exact ⟨k, m, Nat.le_refl _, .skip, h, .refl _ _⟩
  | noRegion => intro next n _ _ k m mf h; exact ⟨k, m, Nat.le_refl _, .noRegion, h, .refl _ _⟩
  | set x e =>
    intro next n hC _ k m mf h
    obtain ⟨k', p, rfl, hp, h'⟩ := step_first hS (hC _ (.head _)) h
    cases hp
    exact ⟨k', _, by omega, .set, h', fun _ _ => ⟨rfl, rfl⟩⟩
  | seq a b iha ihb =>
    intro next n hC hE k m mf h
    have hle := (keep_fresh (env := env) b next n).1
    obtain ⟨k₁, m₁, hk₁, he₁, h₁, hm₁⟩ := iha _ _ (fun p hp => hC p (List.mem_append_left _ hp)) (hE.mono hle) k m mf h
    obtain ⟨k₂, m₂, hk₂, he₂, h₂, hm₂⟩ := ihb _ _ (fun p hp => hC p (List.mem_append_right _ hp)) hE k₁ m₁ mf h₁
    rw [itersOf_keeps (hE.mono hle) hm₁] at he₂
    exact ⟨k₂, m₂, by omega, .seq he₁ he₂, h₂, (hm₁.mono hle).trans hm₂⟩
  | _ =>
    intro next n hC _ k m mf h
    obtain ⟨k', p, rfl, hp, h'⟩ := step_first hS (hC _ (.head _)) h
    cases hp

theorem left {C : List (Label × Node)} (hS : Sound C) (s : IrSt) :
    ∀ env exit next n out, conv ret env exit next s n = some out → (∀ p ∈ out.code, p ∈ C) → EnvLt env n →
      ∀ k m mf, StepsN C k (out.entry, m) (exitBlock, mf) → Left C ret env exit next n (.st s) k m mf := by
  induction s with
  | skip =>
    intro env exit next n out h _ _ k m mf hr
    cases h; exact ⟨.next, k, _, m, Nat.le_refl _, rfl, .skip, hr, .refl _ _⟩
  | noRegion =>
    intro env exit next n out h _ _ k m mf hr
    cases h; exact ⟨.next, k, _, m, Nat.le_refl _, rfl, .noRegion, hr, .refl _ _⟩
  | set x e =>
    intro env exit next n out h hC _ k m mf hr
    cases h
    obtain ⟨k', p, rfl, hp, h'⟩ := step_first hS (hC _ (.head _)) hr
    cases hp
    exact ⟨.next, k', _, _, by omega, rfl, .set, h', fun _ _ => ⟨rfl, rfl⟩⟩
  | returnOp =>
    intro env exit next n out h hC _ k m mf hr
    cases h
    obtain ⟨k', p, rfl, hp, h'⟩ := step_first hS (hC _ (.head _)) hr
    cases hp
    exact ⟨.ret, k', _, m, by omega, rfl, .returnOp, h', .refl _ _⟩
  | breakOp =>
    intro env exit next n out h hC _ k m mf hr
    obtain ⟨l, rfl, rfl⟩ := conv_break h
    obtain ⟨k', p, rfl, hp, h'⟩ := step_first hS (hC _ (.head _)) hr
    cases hp
    exact ⟨.brk, k', _, m, by omega, rfl, .breakOp, h', .refl _ _⟩
  | seq a b iha ihb =>
    intro env exit next n out h hC hE k m mf hr
    obtain ⟨ob, oa, hb, ha, rfl⟩ := conv_seq h
    have hle := (conv_fresh _ _ _ _ _ _ hb).1
    obtain ⟨o₁, k₁, l₁, m₁, hk₁, ht₁, he₁, h₁, hm₁⟩ :=
      iha _ _ _ _ _ ha (fun p hp => hC p (List.mem_append_left _ hp)) (hE.mono hle) k m mf hr
    by_cases ho : o₁ = .next
    · subst ho
      cases ht₁
      obtain ⟨o₂, k₂, l₂, m₂, hk₂, ht₂, he₂, h₂, hm₂⟩ :=
        ihb _ _ _ _ _ hb (fun p hp => hC p (List.mem_append_right _ hp)) hE k₁ m₁ mf h₁
      rw [itersOf_keeps (hE.mono hle) hm₁] at he₂
      exact ⟨o₂, k₂, l₂, m₂, by omega, ht₂, .seq he₁ he₂, h₂, (hm₁.mono hle).trans hm₂⟩
    · refine ⟨o₁, k₁, l₁, m₁, hk₁, ?_, .stop ho he₁, h₁, hm₁.mono hle⟩
      cases o₁ <;> simp_all [target]
  | ifOp c a b iha ihb =>
    intro env exit next n out h hC hE k m mf hr
    by_cases hb : b = .noRegion
    · subst hb
      rw [conv_ifThen] at h
      obtain ⟨oa, ha, rfl⟩ := Option.map_eq_some_iff.1 h
      obtain ⟨k', p, rfl, hp, h'⟩ := step_first hS (hC _ (.head _)) hr
      simp only [stepOf, Option.some.injEq] at hp
      split_ifs at hp with hc
      · subst hp
        obtain ⟨o₁, k₁, l₁, m₁, hk₁, ht₁, he₁, h₁, hm₁⟩ :=
          iha _ _ _ _ _ ha (fun p hp => hC p (.tail _ hp)) (hE.mono (by omega)) k' m mf h'
        exact ⟨o₁, k₁, l₁, m₁, by omega, ht₁, .ifTrue hc he₁, h₁, hm₁.mono (by omega)⟩
      · subst hp
        exact ⟨.next, k', next, m, by omega, rfl, .ifFalse (not_not.1 hc) .noRegion, h', .refl _ _⟩
    · rw [conv_ifElse hb] at h
      obtain ⟨ob, ho, rfl⟩ := Option.map_eq_some_iff.1 h
      have hle := (keep_fresh (env := env) a next (n + 1)).1
      obtain ⟨k', p, rfl, hp, h'⟩ := step_first hS (hC _ (.head _)) hr
      simp only [stepOf, Option.some.injEq] at hp
      split_ifs at hp with hc
      · subst hp
        obtain ⟨k₁, m₁, hk₁, he₁, h₁, hm₁⟩ := left_keep hS a _ _
          (fun p hp => hC p (.tail _ (List.mem_append_left _ hp))) (hE.mono (by omega)) k' m mf h'
        exact ⟨.next, k₁, next, m₁, by omega, rfl, .ifTrue hc he₁, h₁, hm₁.mono (by omega)⟩
      · subst hp
        obtain ⟨o₁, k₁, l₁, m₁, hk₁, ht₁, he₁, h₁, hm₁⟩ := ihb _ _ _ _ _ ho
          (fun p hp => hC p (.tail _ (List.mem_append_right _ hp))) (hE.mono (by omega)) k' m mf h'
        exact ⟨o₁, k₁, l₁, m₁, by omega, ht₁, .ifFalse (not_not.1 hc) he₁, h₁, hm₁.mono (by omega)⟩
  | whileOp c a ih =>
    intro env exit next n out h hC hE k
    obtain ⟨o, ho, rfl⟩ := conv_while h
    induction k using Nat.strong_induction_on with
    | _ k ihk =>
      intro m mf hr
      obtain ⟨k', p, rfl, hp, h'⟩ := step_first hS (hC _ (.head _)) hr
      simp only [stepOf, Option.some.injEq] at hp
      split_ifs at hp with hc
      · subst hp
        obtain ⟨o₁, k₁, l₁, m₁, hk₁, ht₁, he₁, h₁, hm₁⟩ :=
          ih _ _ _ _ _ ho (fun p hp => hC p (.tail _ hp)) (hE.mono (by omega)) k' m mf h'
        have hm₁' : Keeps n m m₁ := hm₁.mono (by omega)
        cases o₁ with
        | next =>
          cases ht₁
          obtain ⟨o₂, k₂, l₂, m₂, hk₂, ht₂, he₂, h₂, hm₂⟩ := ihk k₁ (by omega) m₁ mf h₁
          rw [itersOf_keeps hE hm₁'] at he₂
          exact ⟨o₂, k₂, l₂, m₂, by omega, ht₂, .whileNext hc he₁ he₂, h₂, hm₁'.trans hm₂⟩
        | brk =>
          cases ht₁
          exact ⟨.next, k₁, next, m₁, by omega, rfl, .whileBrk hc he₁, h₁, hm₁'⟩
        | ret =>
          cases ht₁
          exact ⟨.ret, k₁, ret, m₁, by omega, rfl, .whileRet hc he₁, h₁, hm₁'⟩
      · subst hp
        exact ⟨.next, k', next, m, by omega, rfl, .whileEnd (not_not.1 hc), h', .refl _ _⟩
  | forOp x lo u s a ih =>
    intro env exit next n out h hC hE k
    obtain ⟨o, ho, rfl⟩ := conv_for h
    have loop : ∀ k m mf, StepsN C k (n + 1, m) (exitBlock, mf) →
        Left C ret env exit next n (.cell x (m.cell n) u s a) k m mf := by
      intro k
      induction k using Nat.strong_induction_on with
      | _ k ihk =>
        intro m mf hr
        obtain ⟨k', p, rfl, hp, h'⟩ := step_first hS (hC _ (.tail _ (.head _))) hr
        simp only [stepOf, Option.some.injEq] at hp
        split_ifs at hp with hc
        · subst hp
          obtain ⟨k', p, rfl, hp, h'⟩ := step_first hS (hC _ (.tail _ (.tail _ (.head _)))) h'
          cases hp
          have hk₀ : Keeps n m { m with val := fun i => if i = n then m.cell n else m.val i } :=
            fun i hi => ⟨rfl, if_neg (by omega)⟩
          obtain ⟨o₁, k₁, l₁, m₁, hk₁, ht₁, he₁, h₁, hm₁⟩ :=
            ih _ _ _ _ _ ho (fun p hp => hC p (by simp [hp])) (env_for x hE (by omega)) k' _ mf h'
          have hm₁' : Keeps n m m₁ := hk₀.trans (hm₁.mono (by omega))
          rw [iters_for x hE m rfl] at he₁
          cases o₁ with
          | next =>
            cases ht₁
            obtain ⟨k₁, p, rfl, hp, h₁⟩ := step_first hS (hC _ (.tail _ (.tail _ (.tail _ (.head _))))) h₁
            cases hp
            have hc₁ : m₁.cell n = m.cell n := (hm₁ n (by omega)).1
            have hk₁' : Keeps n m₁ (m₁.setCell n (m₁.cell n + m₁.eval env s)) := fun i hi => by
              simp only [Mem.setCell]; exact ⟨if_neg (by omega), trivial⟩
            obtain ⟨o₂, k₂, l₂, m₂, hk₂, ht₂, he₂, h₂, hm₂⟩ := ihk k₁ (by omega) _ mf h₁
            rw [itersOf_keeps hE (hm₁'.trans hk₁')] at he₂
            have e : (m₁.setCell n (m₁.cell n + m₁.eval env s)).cell n =
                m.cell n + evalIr (itersOf env m) m₁.vars s := by
              rw [← itersOf_keeps hE hm₁', ← hc₁]; simp [Mem.setCell, Mem.eval]; rfl
            rw [e] at he₂
            exact ⟨o₂, k₂, l₂, m₂, by omega, ht₂, .fromNext hc he₁ he₂, h₂, (hm₁'.trans hk₁').trans hm₂⟩
          | brk =>
            cases ht₁
            exact ⟨.next, k₁, next, m₁, by omega, rfl, .fromBrk hc he₁, h₁, hm₁'⟩
          | ret =>
            cases ht₁
            exact ⟨.ret, k₁, ret, m₁, by omega, rfl, .fromRet hc he₁, h₁, hm₁'⟩
        · subst hp
          exact ⟨.next, k', next, m, by omega, rfl, .fromEnd hc, h', .refl _ _⟩
    intro m mf hr
    obtain ⟨k', p, rfl, hp, h'⟩ := step_first hS (hC _ (.head _)) hr
    cases hp
    have hk : Keeps n m (m.setCell n (m.eval env lo)) := fun i hi => by
      simp only [Mem.setCell]; exact ⟨if_neg (by omega), trivial⟩
    obtain ⟨o₂, k₂, l₂, m₂, hk₂, ht₂, he₂, h₂, hm₂⟩ := loop _ _ _ h'
    rw [itersOf_keeps hE hk] at he₂
    have e : (m.setCell n (m.eval env lo)).cell n = evalIr (itersOf env m) m.vars lo := by
      simp [Mem.setCell, Mem.eval]; rfl
    rw [e] at he₂
    exact ⟨o₂, k₂, l₂, m₂, by omega, ht₂, .forOp he₂, h₂, hk.trans hm₂⟩

/-! ### Functions -/

theorem convAlgorithms_eq (as : List IrSt) :
    convAlgorithms as = conv exitBlock (fun _ => none) none exitBlock (oneAfterOther as) 1 := by
  induction as with
  | nil => rfl
  | cons a as ih => simp only [convAlgorithms, oneAfterOther, conv, ih]

theorem sound_of_convAlgorithms {as : List IrSt} {out : Out} (h : convAlgorithms as = some out) :
    Sound out.code := by
  rw [convAlgorithms_eq] at h
  have := conv_fresh _ _ _ _ _ _ h
  exact ⟨this.2.2, fun p hp => by have := (this.2.1 p hp).1; simp only [exitBlock]; omega⟩

theorem exec_of_returns {as : List IrSt} {out : Out} (h : convAlgorithms as = some out) {m : Mem} {τ : Store}
    (hr : Returns out.code out.entry m τ) :
    ∃ o, o ≠ .brk ∧ IrExec (fun _ => none) (.st (oneAfterOther as)) m.vars o τ := by
  obtain ⟨m', rfl, hr⟩ := hr
  obtain ⟨k, hk⟩ := stepsN_of_rtg hr
  have hS := sound_of_convAlgorithms h
  rw [convAlgorithms_eq] at h
  obtain ⟨o, k', l, m₁, -, ht, he, hs, -⟩ :=
    left hS _ _ _ _ _ _ h (fun _ hp => hp) (fun _ _ => nofun) k m m' hk
  have hl : o ≠ .brk ∧ l = exitBlock := by cases o <;> simp_all [target]
  obtain ⟨ho, rfl⟩ := hl
  cases hs with
  | nil => exact ⟨o, ho, he⟩
  | cons hs _ => cases hs <;> exact absurd rfl (hS.2 _ (by assumption))

theorem returns_of_exec {as : List IrSt} {out : Out} (h : convAlgorithms as = some out)
    (ht : straightThen (oneAfterOther as) = true) {m : Mem} {τ : Store} {o : Ending} (ho : o ≠ .brk)
    (he : IrExec (fun _ => none) (.st (oneAfterOther as)) m.vars o τ) : Returns out.code out.entry m τ := by
  rw [convAlgorithms_eq] at h
  obtain ⟨l, m', hl, hr, hv, -⟩ := simulates (C := out.code) he _ _ _ _ _ h (fun _ hp => hp) ht (fun _ _ => nofun) m rfl rfl
  have : l = exitBlock := by cases o <;> simp_all [target]
  subst this
  exact ⟨m', hv, hr⟩

theorem conv_isSome (s : IrSt) : ∀ env exit next n, breaksInLoops exit.isSome s = true →
    ∃ out, conv ret env exit next s n = some out := by
  induction s with
  | skip | noRegion | set | returnOp => intros; exact ⟨_, rfl⟩
  | breakOp =>
    intro env exit next n h
    obtain ⟨l, rfl⟩ := Option.isSome_iff_exists.1 h
    exact ⟨_, rfl⟩
  | seq a b iha ihb =>
    intro env exit next n h
    simp only [breaksInLoops, Bool.and_eq_true] at h
    obtain ⟨ob, hb⟩ := ihb env exit next n h.2
    obtain ⟨oa, ha⟩ := iha env exit ob.entry ob.fresh h.1
    exact ⟨⟨oa.entry, oa.code ++ ob.code, oa.fresh⟩, by simp [conv, hb, ha]⟩
  | ifOp c a b iha ihb =>
    intro env exit next n h
    simp only [breaksInLoops, Bool.and_eq_true] at h
    by_cases hb : b = .noRegion
    · subst hb
      obtain ⟨oa, ha⟩ := iha env exit next (n + 1) h.1
      exact ⟨_, by rw [conv_ifThen, ha]; rfl⟩
    · obtain ⟨ob, ho⟩ := ihb env exit next (keep env next a (n + 1)).fresh h.2
      exact ⟨_, by rw [conv_ifElse hb, ho]; rfl⟩
  | whileOp c a ih =>
    intro env exit next n h
    obtain ⟨o, ho⟩ := ih env (some next) n (n + 1) h
    exact ⟨⟨n, (n, .test env c o.entry next) :: o.code, o.fresh⟩, by simp [conv, ho]⟩
  | forOp x l u s a ih =>
    intro env exit next n h
    obtain ⟨o, ho⟩ := ih (fun y => if y = x then some n else env y) (some next) (n + 3) (n + 4) h
    refine ⟨⟨n, (n, .initCell env n l (n + 1)) :: (n + 1, .testCell env n u (n + 2) next) ::
      (n + 2, .readCell n o.entry) :: (n + 3, .addCell env n s (n + 1)) :: o.code, o.fresh⟩, ?_⟩
    simp only [conv, bind, Option.bind, ho]
    rfl

theorem breaksInLoops_of_straight (a : IrSt) (h : straight a = true) (b : Bool) : breaksInLoops b a = true := by
  induction a with
  | seq a b iha ihb => simp_all [straight, breaksInLoops]
  | skip | noRegion | set => rfl
  | _ => simp [straight] at h

theorem breaksInLoops_of_conv (s : IrSt) : ∀ env exit next n out, straightThen s = true →
    conv ret env exit next s n = some out → breaksInLoops exit.isSome s = true := by
  induction s with
  | skip | noRegion | set | returnOp => intros; rfl
  | breakOp =>
    intro env exit next n out _ h
    obtain ⟨l, rfl, rfl⟩ := conv_break h
    rfl
  | seq a b iha ihb =>
    intro env exit next n out hs h
    obtain ⟨ob, oa, hb, ha, rfl⟩ := conv_seq h
    simp only [straightThen, Bool.and_eq_true] at hs
    simp only [breaksInLoops, Bool.and_eq_true]
    exact ⟨iha _ _ _ _ _ hs.1 ha, ihb _ _ _ _ _ hs.2 hb⟩
  | ifOp c a b iha ihb =>
    intro env exit next n out hs h
    simp only [breaksInLoops, Bool.and_eq_true]
    by_cases hb : b = .noRegion
    · subst hb
      rw [conv_ifThen] at h
      obtain ⟨oa, ha, rfl⟩ := Option.map_eq_some_iff.1 h
      exact ⟨iha _ _ _ _ _ hs ha, rfl⟩
    · rw [conv_ifElse hb] at h
      obtain ⟨ob, ho, rfl⟩ := Option.map_eq_some_iff.1 h
      have hst : straight a = true ∧ straightThen b = true := by cases b <;> simp_all [straightThen]
      exact ⟨breaksInLoops_of_straight a hst.1 _, ihb _ _ _ _ _ hst.2 ho⟩
  | whileOp c a ih =>
    intro env exit next n out hs h
    obtain ⟨o, ho, rfl⟩ := conv_while h
    exact ih _ _ _ _ _ hs ho
  | forOp x l u s a ih =>
    intro env exit next n out hs h
    obtain ⟨o, ho, rfl⟩ := conv_for h
    exact ih _ _ _ _ _ hs ho

theorem converted_of_straight (a : IrSt) (h : straight a = true) :
    ∀ next n, converted (keep env next a n).code := by
  induction a with
  | seq a b iha ihb =>
    intro next n l t ht
    simp only [straight, Bool.and_eq_true] at h
    rcases List.mem_append.1 ht with ht | ht
    · exact iha h.1 _ _ _ _ ht
    · exact ihb h.2 _ _ _ _ ht
  | skip | noRegion => intro next n l t ht; cases ht
  | set => intro next n l t ht; simp [keep] at ht
  | _ => simp [straight] at h

theorem converted_of_conv (s : IrSt) : ∀ env exit next n out, straightThen s = true →
    conv ret env exit next s n = some out → converted out.code := by
  induction s with
  | skip | noRegion => intro env exit next n out _ h l t ht; cases h; cases ht
  | set | returnOp => intro env exit next n out _ h l t ht; cases h; simp at ht
  | breakOp =>
    intro env exit next n out _ h l t ht
    obtain ⟨l, rfl, rfl⟩ := conv_break h
    simp at ht
  | seq a b iha ihb =>
    intro env exit next n out hs h l t ht
    obtain ⟨ob, oa, hb, ha, rfl⟩ := conv_seq h
    simp only [straightThen, Bool.and_eq_true] at hs
    rcases List.mem_append.1 ht with ht | ht
    · exact iha _ _ _ _ _ hs.1 ha _ _ ht
    · exact ihb _ _ _ _ _ hs.2 hb _ _ ht
  | ifOp c a b iha ihb =>
    intro env exit next n out hs h l t ht
    by_cases hb : b = .noRegion
    · subst hb
      rw [conv_ifThen] at h
      obtain ⟨oa, ha, rfl⟩ := Option.map_eq_some_iff.1 h
      simp only [List.mem_cons, Prod.mk.injEq, reduceCtorEq, and_false, false_or] at ht
      exact iha _ _ _ _ _ hs ha _ _ ht
    · rw [conv_ifElse hb] at h
      obtain ⟨ob, ho, rfl⟩ := Option.map_eq_some_iff.1 h
      have hst : straight a = true ∧ straightThen b = true := by cases b <;> simp_all [straightThen]
      simp only [List.mem_cons, Prod.mk.injEq, reduceCtorEq, and_false, false_or, List.mem_append] at ht
      rcases ht with ht | ht
      · exact converted_of_straight a hst.1 _ _ _ _ ht
      · exact ihb _ _ _ _ _ hst.2 ho _ _ ht
  | whileOp c a ih =>
    intro env exit next n out hs h l t ht
    obtain ⟨o, ho, rfl⟩ := conv_while h
    simp only [List.mem_cons, Prod.mk.injEq, reduceCtorEq, and_false, false_or] at ht
    exact ih _ _ _ _ _ hs ho _ _ ht
  | forOp x l u s a ih =>
    intro env exit next n out hs h l t ht
    obtain ⟨o, ho, rfl⟩ := conv_for h
    simp only [List.mem_cons, Prod.mk.injEq, reduceCtorEq, and_false, false_or] at ht
    exact ih _ _ _ _ _ hs ho _ _ ht

end Marco.Cfg
