import Verif.Spec.FunctionInlining
import Mathlib.Data.List.Nodup
import Mathlib.Tactic.Cases

/-! # Lemmas on the inlining of functions -/

namespace Marco.Inline
open Marco.Spec.Inline

variable {V : Type} {M : Meaning V} {caller : Nat → Option V} {args : List V}

theorem evalOps_append (l l' : List NOp) (news : List V) :
    evalOps M caller args (l ++ l') news = evalOps M caller args l news >>= evalOps M caller args l' := by
  induction l generalizing news with
  | nil => rfl
  | cons o l ih =>
    cases o with
    | get x => cases h : caller x <;> simp [evalOps, h, ih]
    | pure k as reads =>
      cases h : as.mapM (value args news) with
      | none => simp [evalOps, h]
      | some vs => cases h' : reads.mapM caller <;> simp [evalOps, h, h', ih]
    | ret => rfl

theorem evalOps_length {l : List NOp} {news r : List V} (h : evalOps M caller args l news = some r) :
    r.length = news.length + l.length := by
  induction l generalizing news with
  | nil => cases h; rfl
  | cons o l ih =>
    cases o with
    | get x =>
      simp only [evalOps, Option.bind_eq_bind, Option.bind_eq_some_iff] at h
      obtain ⟨v, -, h⟩ := h
      rw [ih h, List.length_append, List.length_cons, List.length_cons, List.length_nil]; omega
    | pure k as reads =>
      simp only [evalOps, Option.bind_eq_bind, Option.bind_eq_some_iff] at h
      obtain ⟨v, -, w, -, h⟩ := h
      rw [ih h, List.length_append, List.length_cons, List.length_cons, List.length_nil]; omega
    | ret => cases h

theorem value_append {news : List V} {w : Val} {v : V} (h : value args news w = some v) (l : List V) :
    value args (news ++ l) w = some v := by
  cases w with
  | arg i => exact h
  | new n =>
    have h' : news[n]? = some v := h
    show (news ++ l)[n]? = some v
    rw [List.getElem?_append_left (List.getElem?_eq_some_iff.1 h').1, h']

/-- The copied operations compute the values of the function. -/
def Sim (M : Meaning V) (caller : Nat → Option V) (args : List V) (s : St) (e : Env V) : Prop :=
  ∃ news, evalOps M caller args s.ops [] = some news ∧
    (∀ x v, e.vars x = some v → ∃ w, s.vars x = some w ∧ value args news w = some v) ∧
    ∀ r v, e.vals r = some v → ∃ w, s.mapping r = some w ∧ value args news w = some v

theorem mapM_values {mapping : Nat → Option Val} {vals : Nat → Option V} {news : List V}
    (h : ∀ r v, vals r = some v → ∃ w, mapping r = some w ∧ value args news w = some v) {l : List Nat} {vs : List V}
    (hl : l.mapM vals = some vs) : ∃ ws, l.mapM mapping = some ws ∧ ws.mapM (value args news) = some vs := by
  induction l generalizing vs with
  | nil =>
    obtain rfl : vs = [] := by simpa using hl.symm
    exact ⟨[], rfl, rfl⟩
  | cons a l ih =>
    rw [List.mapM_cons] at hl
    simp only [Option.bind_eq_bind, Option.bind_eq_some_iff, Option.pure_def, Option.some.injEq] at hl
    obtain ⟨v, hv, vs', hvs, rfl⟩ := hl
    obtain ⟨w, hw, hwv⟩ := h a v hv
    obtain ⟨ws, hws, hwsv⟩ := ih hvs
    refine ⟨w :: ws, ?_, ?_⟩
    · rw [List.mapM_cons, hw]; simp [hws]
    · rw [List.mapM_cons, hwv]; simp [hwsv]

/-- A copied operation. -/
theorem sim_pure {s : St} {e e' : Env V} (h : Sim M caller args s e) {r k : Nat} {as sets : List Nat}
    (he : exec M e (.pure r k as [] sets) = some e') :
    ∃ s', clone s (.pure r k as [] sets) = some s' ∧ Sim M caller args s' e' := by
  obtain ⟨news, hn, hv, hm⟩ := h
  simp only [exec, Option.bind_eq_bind, Option.bind_eq_some_iff] at he
  obtain ⟨vs, hvs, rs, hrs, he⟩ := he
  obtain rfl : rs = [] := by simpa using hrs.symm
  split at he
  · obtain rfl := Option.some.inj he
    obtain ⟨ws, hws, hwsv⟩ := mapM_values hm hvs
    have hlen : news.length = s.ops.length := by simpa using evalOps_length hn
    refine ⟨_, by rw [clone, hws]; rfl, news ++ [M.apply k vs []], ?_, ?_, ?_⟩
    · show evalOps M caller args (s.ops ++ [.pure k ws []]) [] = _
      rw [evalOps_append, hn]
      simp [evalOps, hwsv]
    · intro x v hx
      obtain ⟨w, hw, hwv⟩ := hv x v hx
      exact ⟨w, hw, value_append hwv _⟩
    · intro y v hy
      simp only [upd]
      by_cases hyr : y = r
      · simp only [if_pos hyr] at hy ⊢
        refine ⟨_, rfl, ?_⟩
        rw [← hy]
        show (news ++ [M.apply k vs []])[s.ops.length]? = _
        rw [← hlen]; simp
      · simp only [if_neg hyr] at hy ⊢
        obtain ⟨w, hw, hwv⟩ := hm y v hy
        exact ⟨w, hw, value_append hwv _⟩
  · cases he

/-- An operation of the body. -/
theorem sim_body {s : St} {e e' : Env V} (h : Sim M caller args s e) {op : Op} (hop : Simple op)
    (he : exec M e op = some e') : ∃ s', cloneBodyOp s op = some s' ∧ Sim M caller args s' e' := by
  cases op with
  | get r x =>
    obtain ⟨news, hn, hv, hm⟩ := h
    simp only [exec, Option.map_eq_some_iff] at he
    obtain ⟨v, hx, rfl⟩ := he
    refine ⟨_, rfl, news, hn, hv, fun y u hy => ?_⟩
    simp only [upd]
    by_cases hyr : y = r
    · simp only [if_pos hyr] at hy ⊢
      obtain rfl := Option.some.inj hy
      exact hv x v hx
    · simp only [if_neg hyr] at hy ⊢
      exact hm y u hy
  | set x subs val =>
    obtain rfl : subs = [] := hop
    obtain ⟨news, hn, hv, hm⟩ := h
    simp only [exec, Option.bind_eq_bind, Option.bind_eq_some_iff, if_true] at he
    obtain ⟨v, hval, is, -, he⟩ := he
    obtain rfl := Option.some.inj he
    refine ⟨_, rfl, news, hn, fun y u hy => ?_, hm⟩
    simp only [upd]
    by_cases hyx : y = x
    · simp only [if_pos hyx] at hy ⊢
      obtain rfl := Option.some.inj hy
      exact hm val v hval
    · simp only [if_neg hyx] at hy ⊢
      exact hv y u hy
  | pure r k as reads sets =>
    obtain rfl : reads = [] := hop
    exact sim_pure h he
  | ret => exact hop.elim

theorem run_cons {op : Op} (h : op ≠ .ret) (l : List Op) (e : Env V) :
    run M (op :: l) e = exec M e op >>= run M l := by
  cases op with
  | ret => exact absurd rfl h
  | _ => rfl

theorem simple_ne {op : Op} (h : Simple op) : op ≠ .ret := by
  rintro rfl
  exact h

theorem sim_run {l : List Op} (hl : ∀ op ∈ l, Simple op) {s : St} {e e' : Env V} (h : Sim M caller args s e)
    (he : run M l e = some e') : ∃ s', l.foldlM cloneBodyOp s = some s' ∧ Sim M caller args s' e' := by
  induction l generalizing s e with
  | nil =>
    obtain rfl : e = e' := Option.some.inj he
    exact ⟨s, rfl, h⟩
  | cons op l ih =>
    have hop := hl op (by simp)
    rw [run_cons (simple_ne hop)] at he
    simp only [Option.bind_eq_bind, Option.bind_eq_some_iff] at he
    obtain ⟨e1, he1, he⟩ := he
    obtain ⟨s1, hs1, h1⟩ := sim_body h hop he1
    obtain ⟨s', hs', h'⟩ := ih (fun o ho => hl o (by simp [ho])) h1 he
    exact ⟨s', by rw [List.foldlM_cons, hs1]; exact hs', h'⟩

/-! ## Default values -/

/-- Operations that read no variable. -/
theorem run_const {l : List Op} (hl : ∀ op ∈ l, ∃ r k as, op = .pure r k as [] []) {e e' : Env V}
    (he : run M l e = some e') (vars : Nat → Option V) :
    e'.vars = e.vars ∧ run M l ⟨vars, e.vals⟩ = some ⟨vars, e'.vals⟩ := by
  induction l generalizing e with
  | nil =>
    obtain rfl : e = e' := Option.some.inj he
    exact ⟨rfl, rfl⟩
  | cons op l ih =>
    obtain ⟨r, k, as, rfl⟩ := hl op (by simp)
    rw [run_cons (by simp)] at he ⊢
    simp only [Option.bind_eq_bind, Option.bind_eq_some_iff] at he
    obtain ⟨e1, he1, he⟩ := he
    simp only [exec, Option.bind_eq_bind, Option.bind_eq_some_iff, if_true] at he1
    obtain ⟨vs, hvs, rs, hrs, he1⟩ := he1
    obtain rfl := Option.some.inj he1
    obtain rfl : rs = [] := by simpa using hrs.symm
    obtain ⟨h1, h2⟩ := ih (fun o ho => hl o (by simp [ho])) he
    refine ⟨h1, ?_⟩
    simp only [exec, hvs]
    exact h2

theorem evalRegion_const {d : Region} (hd : ∀ op ∈ d.ops, ∃ r k as, op = .pure r k as [] []) {v : V}
    (h : evalRegion M (fun _ => none) d = some v) (vars : Nat → Option V) : evalRegion M vars d = some v := by
  simp only [evalRegion, Option.bind_eq_bind, Option.bind_eq_some_iff] at h ⊢
  obtain ⟨e, he, hv⟩ := h
  exact ⟨_, (run_const hd he vars).2, hv⟩

theorem sim_clone {l : List Op} (hl : ∀ op ∈ l, ∃ r k as, op = .pure r k as [] []) {s : St} {e e' : Env V}
    (h : Sim M caller args s e) (he : run M l e = some e') :
    ∃ s', l.foldlM clone s = some s' ∧ Sim M caller args s' e' := by
  induction l generalizing s e with
  | nil =>
    obtain rfl : e = e' := Option.some.inj he
    exact ⟨s, rfl, h⟩
  | cons op l ih =>
    obtain ⟨r, k, as, rfl⟩ := hl op (by simp)
    rw [run_cons (by simp)] at he
    simp only [Option.bind_eq_bind, Option.bind_eq_some_iff] at he
    obtain ⟨e1, he1, he⟩ := he
    obtain ⟨s1, hs1, h1⟩ := sim_pure h he1
    obtain ⟨s', hs', h'⟩ := ih (fun o ho => hl o (by simp [ho])) h1 he
    exact ⟨s', by rw [List.foldlM_cons, hs1]; exact hs', h'⟩

theorem sim_weaken {s : St} {e e' : Env V} (h : Sim M caller args s e)
    (h1 : ∀ x v, e'.vars x = some v → e.vars x = some v) (h2 : ∀ r v, e'.vals r = some v → e.vals r = some v) :
    Sim M caller args s e' := by
  obtain ⟨news, hn, hv, hm⟩ := h
  exact ⟨news, hn, fun x v hx => hv x v (h1 x v hx), fun r v hr => hm r v (h2 r v hr)⟩

theorem sim_default {s : St} {vars : Nat → Option V} (h : Sim M caller args s ⟨vars, fun _ => none⟩) (x : Nat)
    {d : Region} (hd : ∀ op ∈ d.ops, ∃ r k as, op = .pure r k as [] []) {v : V}
    (hv : evalRegion M (fun _ => none) d = some v) :
    ∃ s', cloneDefault s x d = some s' ∧
      Sim M caller args s' ⟨fun y => if y = x then some v else vars y, fun _ => none⟩ := by
  have hv' := evalRegion_const hd hv vars
  simp only [evalRegion, Option.bind_eq_bind, Option.bind_eq_some_iff] at hv'
  obtain ⟨e, he, hy⟩ := hv'
  have hvars := (run_const hd he vars).1
  obtain ⟨s1, hs1, news, hn, hvs, hm⟩ := sim_clone hd h he
  rw [hvars] at hvs
  refine ⟨{ s1 with vars := upd s1.vars x (s1.mapping d.yielded) }, by rw [cloneDefault, hs1]; rfl, news, hn,
    fun y u hyu => ?_, fun _ _ h => by cases h⟩
  simp only [upd]
  by_cases hyx : y = x
  · simp only [if_pos hyx] at hyu ⊢
    obtain rfl := Option.some.inj hyu
    exact hm _ v hy
  · simp only [if_neg hyx] at hyu ⊢
    exact hvs y u hyu

theorem sim_defaults {f : Function} {order : List Nat} (ho : ∀ x ∈ order, ∀ d, f.default x = some d → Constant M d)
    {s : St} {vars : Nat → Option V} (h : Sim M caller args s ⟨vars, fun _ => none⟩) :
    ∃ s' vars', cloneDefaults f order s = some s' ∧ Sim M caller args s' ⟨vars', fun _ => none⟩ ∧
      ∀ x d v, f.default x = some d → evalRegion M (fun _ => none) d = some v → (x ∈ order ∨ vars x = some v) →
        vars' x = some v := by
  induction order generalizing s vars with
  | nil => exact ⟨s, vars, rfl, h, fun x d v _ _ hx => by simpa using hx⟩
  | cons y order ih =>
    have ho' : ∀ x ∈ order, ∀ d, f.default x = some d → Constant M d := fun x hx => ho x (by simp [hx])
    cases hd : f.default y with
    | none =>
      obtain ⟨s', vars', hs', h', hx⟩ := ih ho' h
      refine ⟨s', vars', ?_, h', fun x d v hxd hv hor => hx x d v hxd hv ?_⟩
      · rw [cloneDefaults, List.foldlM_cons, hd]; exact hs'
      · rcases hor with hor | hor
        · rcases List.mem_cons.1 hor with rfl | hor
          · rw [hd] at hxd; cases hxd
          · exact .inl hor
        · exact .inr hor
    | some d =>
      obtain ⟨hc, v, hv⟩ := ho y (by simp) d hd
      obtain ⟨s1, hs1, h1⟩ := sim_default h y hc hv
      obtain ⟨s', vars', hs', h', hx⟩ := ih ho' h1
      refine ⟨s', vars', ?_, h', fun x d' v' hxd hv' hor => hx x d' v' hxd hv' ?_⟩
      · rw [cloneDefaults, List.foldlM_cons, hd]
        simp only [hs1]
        exact hs'
      · by_cases hxy : x = y
        · subst hxy
          rw [hd] at hxd
          obtain rfl := Option.some.inj hxd
          rw [hv] at hv'
          exact .inr (by simpa using hv')
        · rcases hor with hor | hor
          · rcases List.mem_cons.1 hor with rfl | hor
            · exact absurd rfl hxy
            · exact .inl hor
          · exact .inr (by simp [hxy, hor])

/-! ## Arguments -/

theorem sim_args {inputs : List Nat} (hn : inputs.Nodup) {s : St} {vars : Nat → Option V}
    (h : Sim M caller args s ⟨vars, fun _ => none⟩) (n : Nat) (h1 : n ≤ inputs.length) (h2 : n ≤ args.length) :
    ∃ s' vars', mapArgs inputs s n = some s' ∧ Sim M caller args s' ⟨vars', fun _ => none⟩ ∧
      (∀ i < n, ∀ x, inputs[i]? = some x → vars' x = args[i]?) ∧
      ∀ x, (∀ i < n, inputs[i]? ≠ some x) → vars' x = vars x := by
  induction n with
  | zero => exact ⟨s, vars, rfl, h, fun i hi => absurd hi (Nat.not_lt_zero i), fun _ _ => rfl⟩
  | succ n ih =>
    obtain ⟨s', vars', hs', ⟨news, hnews, hv, hm⟩, hi, hx⟩ := ih (by omega) (by omega)
    have hx0 : inputs[n]? = some (inputs[n]'(by omega)) := List.getElem?_eq_getElem (by omega)
    refine ⟨{ s' with vars := upd s'.vars (inputs[n]'(by omega)) (some (.arg n)) },
      fun y => if y = inputs[n]'(by omega) then args[n]? else vars' y, ?_, ⟨news, ?_, ?_, ?_⟩, ?_, ?_⟩
    · rw [mapArgs, List.range_succ, List.foldlM_append]
      rw [mapArgs] at hs'
      rw [hs']
      simp [hx0]
    · exact hnews
    · intro y v hy
      simp only [upd]
      by_cases hyx : y = inputs[n]'(by omega)
      · simp only [if_pos hyx] at hy ⊢
        exact ⟨_, rfl, hy⟩
      · simp only [if_neg hyx] at hy ⊢
        exact hv y v hy
    · exact fun _ _ h => by cases h
    · intro i hin x hix
      by_cases hix' : i = n
      · subst hix'
        rw [hx0] at hix
        obtain rfl := Option.some.inj hix
        simp
      · have hne : x ≠ inputs[n]'(by omega) := by
          rintro rfl
          obtain ⟨hlt, heq⟩ := List.getElem?_eq_some_iff.1 hix
          exact hix' ((List.Nodup.getElem_inj_iff hn).1 heq)
        simp only [if_neg hne]
        exact hi i (by omega) x hix
    · intro x hxn
      have hne : x ≠ inputs[n]'(by omega) := fun he => hxn n (by omega) (by rw [he]; exact hx0)
      simp only [if_neg hne]
      exact hx x fun i hin => hxn i (by omega)

theorem mapM_outputs {vars : Nat → Option V} {s : St} {news : List V}
    (hv : ∀ x v, vars x = some v → ∃ w, s.vars x = some w ∧ value args news w = some v) {l : List Nat} {rs : List V}
    (h : l.mapM vars = some rs) : (l.map s.vars).mapM (fun w => w.bind (value args news)) = some rs := by
  induction l generalizing rs with
  | nil => exact h
  | cons x l ih =>
    rw [List.mapM_cons] at h
    simp only [Option.bind_eq_bind, Option.bind_eq_some_iff, Option.pure_def, Option.some.injEq] at h
    obtain ⟨v, hx, vs, hvs, rfl⟩ := h
    obtain ⟨w, hw, hwv⟩ := hv x v hx
    rw [List.map_cons, List.mapM_cons, hw]
    simp [hwv, ih hvs]

end Marco.Inline
