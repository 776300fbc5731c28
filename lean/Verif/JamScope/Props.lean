import Verif.JamScope.Model
/-
C162: variables of blocks and parameters of rules are as before when the block or rule has ended.
-/
namespace Verif.JamScope

theorem setAll_other (ps : List (String × Option Val)) : ∀ (env : Env) (n : String), (∀ p ∈ ps, p.1 ≠ n) → setAll env ps n = env n := by
  induction ps with
  | nil => intro env n _; rfl
  | cons p ps ih =>
    intro env n h
    have h1 : n ≠ p.1 := fun e => h p (by simp) e.symm
    obtain ⟨m, v⟩ := p
    simp only [setAll]
    rw [ih _ n (fun q hq => h q (by simp [hq]))]
    simp only [setVar]
    rw [if_neg h1]

/-- If all values for a name agree, it has that value afterwards. -/
theorem setAll_agree (ps : List (String × Option Val)) : ∀ (env : Env) (n : String) (v : Option Val),
    (∃ p ∈ ps, p.1 = n) → (∀ p ∈ ps, p.1 = n → p.2 = v) → setAll env ps n = v := by
  induction ps with
  | nil => intro env n v h; simp at h
  | cons p ps ih =>
    intro env n v h1 h2
    obtain ⟨m, w⟩ := p
    simp only [setAll]
    by_cases h : ∃ q ∈ ps, q.1 = n
    · exact ih _ n v h (fun q hq => h2 q (by simp [hq]))
    · rw [setAll_other ps _ n (fun q hq e => h ⟨q, hq, e⟩)]
      obtain ⟨q, hq, hn⟩ := h1
      rcases List.mem_cons.1 hq with rfl | hq
      · have := h2 (m, w) (by simp) hn
        simp only at this hn
        simp [setVar, hn, this]
      · exact absurd ⟨q, hq, hn⟩ h

theorem zip_map_mem {vars : List String} {env : Env} {p : String × Option Val} (h : p ∈ vars.zip (vars.map env)) : p.1 ∈ vars ∧ p.2 = env p.1 := by
  induction vars with
  | nil => simp at h
  | cons v vars ih =>
    simp only [List.map_cons, List.zip_cons_cons, List.mem_cons] at h
    rcases h with rfl | h
    · simp
    · have := ih h; exact ⟨by simp [this.1], this.2⟩

theorem mem_zip_map {vars : List String} (env : Env) {n : String} (h : n ∈ vars) : ∃ p ∈ vars.zip (vars.map env), p.1 = n := by
  induction vars with
  | nil => simp at h
  | cons v vars ih =>
    simp only [List.map_cons, List.zip_cons_cons]
    rcases List.mem_cons.1 h with rfl | h
    · exact ⟨_, List.mem_cons_self, rfl⟩
    · obtain ⟨p, hp, e⟩ := ih h
      exact ⟨p, List.mem_cons_of_mem _ hp, e⟩

theorem restore (vars : List String) (env env' : Env) (n : String) :
    setAll env' (vars.zip (vars.map env)) n = if n ∈ vars then env n else env' n := by
  by_cases h : n ∈ vars
  · rw [if_pos h]
    exact setAll_agree _ _ n _ (mem_zip_map env h) (fun p hp e => by rw [(zip_map_mem hp).2, e])
  · rw [if_neg h]
    exact setAll_other _ _ n (fun p hp e => h (e ▸ (zip_map_mem hp).1))

/-- A block runs its statements with its variables set and all others as outside; when it ends, in whatever
    way, its variables are as they were before, and all others as the statements left them. -/
theorem block_scope (vars : List String) (inner : Val) (body : List Cmd) (env : Env) :
    ∃ env1 : Env, (∀ n, env1 n = if n ∈ vars then some inner else env n) ∧
      (block vars inner body env).1 = (runAll body [] env1).1 ∧
      ∀ n, (block vars inner body env).2 n = if n ∈ vars then env n else (runAll body [] env1).2 n := by
  refine ⟨setAll env (vars.map fun v => (v, some inner)), ?_, rfl, fun n => restore vars env _ n⟩
  intro n
  by_cases h : n ∈ vars
  · rw [if_pos h]
    refine setAll_agree _ _ n _ ⟨(n, some inner), List.mem_map.2 ⟨n, h, rfl⟩, rfl⟩ ?_
    intro p hp _
    obtain ⟨v, _, rfl⟩ := List.mem_map.1 hp
    rfl
  · rw [if_neg h]
    refine setAll_other _ _ n ?_
    intro p hp e
    obtain ⟨v, hv, rfl⟩ := List.mem_map.1 hp
    exact h (e ▸ hv)

theorem positional_mem {lol : List Val} {ps : List String} {i : Nat} {p : String × Option Val} (h : p ∈ positional lol i ps) :
    ∃ k, ps[k]? = some p.1 ∧ p.2 = lol[i + k]? := by
  induction ps generalizing i with
  | nil => simp [positional] at h
  | cons q ps ih =>
    simp only [positional, List.mem_cons] at h
    rcases h with rfl | h
    · refine ⟨0, rfl, ?_⟩
      by_cases hl : lol.length > i
      · simp [hl]
      · simp [hl]
    · obtain ⟨k, h1, h2⟩ := ih h
      exact ⟨k + 1, by simpa using h1, by rw [h2]; congr 1; omega⟩

theorem mem_positional (lol : List Val) {ps : List String} {n : String} (i : Nat) (h : n ∈ ps) : ∃ p ∈ positional lol i ps, p.1 = n := by
  induction ps generalizing i with
  | nil => simp at h
  | cons q ps ih =>
    simp only [positional]
    rcases List.mem_cons.1 h with rfl | h
    · exact ⟨_, List.mem_cons_self, rfl⟩
    · obtain ⟨p, hp, e⟩ := ih (i + 1) h
      exact ⟨p, List.mem_cons_of_mem _ hp, e⟩

theorem setAll_positional (env : Env) (lol : List Val) {ps : List String} (hd : ps.Nodup) {k : Nat} {n : String} (hk : ps[k]? = some n) :
    setAll env (positional lol 0 ps) n = lol[k]? := by
  refine setAll_agree _ _ n _ (mem_positional lol 0 (List.mem_of_getElem? hk)) ?_
  intro p hp e
  obtain ⟨j, h1, h2⟩ := positional_mem hp
  rw [e] at h1
  obtain ⟨a, _⟩ := List.getElem?_eq_some_iff.1 hk
  have : k = j := (List.getElem?_inj a hd).1 (hk.trans h1.symm)
  rw [h2, ← this]; simp

theorem setAll_positional_other (env : Env) (lol : List Val) {ps : List String} {n : String} (h : n ∉ ps) :
    setAll env (positional lol 0 ps) n = env n := by
  refine setAll_other _ _ n ?_
  intro p hp e
  obtain ⟨k, h1, _⟩ := positional_mem hp
  exact h (e ▸ List.mem_of_getElem? h1)

/-- A rule runs its statements with its parameters bound to the arguments by position: those it names, and
    besides them `1` to `9`, `<` and `>`; those without argument are not set, and all other variables are as
    outside. When it ends, in whatever way, all parameters are as they were before the call, and all other
    variables as the statements left them. A `return` ends it with its result; any other condition goes on
    outwards. -/
theorem rule_scope (params : List String) (hd : params.Nodup) (body : List Cmd) (lol : List Val) (env : Env) :
    ∃ env1 : Env,
      (∀ (k : Nat) (n : String), params[k]? = some n → env1 n = lol[k]?) ∧
      (∀ (k : Nat) (n : String), n ∉ params → ["1", "2", "3", "4", "5", "6", "7", "8", "9"][k]? = some n → env1 n = lol[k]?) ∧
      ("<" ∉ params → env1 "<" = lol[0]?) ∧ (">" ∉ params → env1 ">" = lol[1]?) ∧
      (∀ n, n ∉ params → n ∉ ["<", ">", "1", "2", "3", "4", "5", "6", "7", "8", "9"] → env1 n = env n) ∧
      (∀ n, (rule params body lol env).2 n =
        if n ∈ params ∨ n ∈ ["<", ">", "1", "2", "3", "4", "5", "6", "7", "8", "9"] then env n else (runAll body [] env1).2 n) ∧
      (∀ v, (runAll body [] env1).1 = .value v ∨ (runAll body [] env1).1 = .ret v → (rule params body lol env).1 = .value v) ∧
      (∀ o, (runAll body [] env1).1 = o → (∀ v, o ≠ .ret v) → (rule params body lol env).1 = o) := by
  have hif : ∀ i : Nat, (if lol.length > i then lol[i]? else none) = lol[i]? := by
    intro i
    by_cases h : lol.length > i
    · rw [if_pos h]
    · rw [if_neg h, List.getElem?_eq_none (by omega)]
  refine ⟨setAll (setAll (setVar (setVar env "<" (if lol.length > 0 then lol[0]? else none)) ">" (if lol.length > 1 then lol[1]? else none))
    (positional lol 0 ["1", "2", "3", "4", "5", "6", "7", "8", "9"])) (positional lol 0 params), ?_, ?_, ?_, ?_, ?_, ?_, ?_, ?_⟩
  · intro k n hk
    exact setAll_positional _ lol hd hk
  · intro k n hn hk
    rw [setAll_positional_other _ lol hn]
    exact setAll_positional _ lol (by decide) hk
  · intro hn
    rw [setAll_positional_other _ lol hn, setAll_positional_other _ lol (by decide)]
    simp only [setVar]
    rw [if_neg (by decide), if_pos trivial, hif]
  · intro hn
    rw [setAll_positional_other _ lol hn, setAll_positional_other _ lol (by decide)]
    simp only [setVar]
    rw [if_pos trivial, hif]
  · intro n hn hm
    rw [setAll_positional_other _ lol hn, setAll_positional_other _ lol (fun h => hm (by simp only [List.mem_cons] at h ⊢; exact .inr (.inr h)))]
    have h1 : n ≠ "<" := fun e => hm (by simp [e])
    have h2 : n ≠ ">" := fun e => hm (by simp [e])
    simp [setVar, h1, h2]
  · intro n
    have := restore (params ++ ruleParams) env (runAll body [] (setAll (setAll (setVar (setVar env "<" (if lol.length > 0 then lol[0]? else none)) ">"
      (if lol.length > 1 then lol[1]? else none)) (positional lol 0 ["1", "2", "3", "4", "5", "6", "7", "8", "9"])) (positional lol 0 params))).2 n
    simp only [List.mem_append] at this
    exact this
  · intro v h
    simp only [rule]
    rcases h with h | h <;> rw [h]
  · intro o h hr
    simp only [rule]
    rw [h]
    cases o with
    | ret v => exact absurd rfl (hr v)
    | _ => rfl

/-- A rule `rule r x : y` that sets a variable and returns, called with three arguments. -/
example : let set : Cmd := fun env => (.value [], setVar env "g" (env "y"))
    let quit : Cmd := fun env => (.ret ((env "x").getD [] ++ (env "3").getD ["none"]), setVar env "x" none)
    let env : Env := fun n => if n = "x" then some ["old"] else none
    let r := rule ["x", "y"] [set, quit] [["a"], ["b"], ["c"]] env
    r.1 = .value ["a", "c"] ∧ r.2 "x" = some ["old"] ∧ r.2 "g" = some ["b"] ∧ r.2 "y" = none := by
  decide +kernel

/-- The statements of a loop run once for each member of the list, in order, with the variable set to it,
    as long as none of them breaks off. -/
theorem for_all (var : String) (body : List Cmd) (vs : List String) : ∀ (result : Val) (env : Env) (envs : List Env) (rs : List Val),
    envs.length = vs.length → rs.length = vs.length →
    (∀ (i : Nat) (v : String), vs[i]? = some v → ∃ (e e' : Env) (r r' : Val), (env :: envs)[i]? = some e ∧ envs[i]? = some e' ∧
      (result :: rs)[i]? = some r ∧ rs[i]? = some r' ∧
      (runAll body r (setVar e var (some [v])) = (.value r', e') ∨ runAll body r (setVar e var (some [v])) = (.cont r', e'))) →
    forLoop var body vs result env = (.value ((result :: rs).getLast (by simp)), (env :: envs).getLast (by simp)) := by
  induction vs with
  | nil =>
    intro result env envs rs h1 h2 _
    cases envs with
    | nil => cases rs with
      | nil => rfl
      | cons _ _ => simp at h2
    | cons _ _ => simp at h1
  | cons v vs ih =>
    intro result env envs rs h1 h2 h
    cases envs with
    | nil => simp at h1
    | cons e1 envs =>
      cases rs with
      | nil => simp at h2
      | cons r1 rs =>
        have h0 := h 0 v rfl
        obtain ⟨e, e', r, r', g1, g2, g3, g4, g5⟩ := h0
        simp at g1 g2 g3 g4
        subst g1 g2 g3 g4
        have hrec := ih r1 e1 envs rs (by simpa using h1) (by simpa using h2) (by
          intro i w hw
          obtain ⟨e, e', r, r', k1, k2, k3, k4, k5⟩ := h (i + 1) w (by simpa using hw)
          exact ⟨e, e', r, r', by simpa using k1, by simpa using k2, by simpa using k3, by simpa using k4, k5⟩)
        rw [List.getLast_cons (show r1 :: rs ≠ [] by simp), List.getLast_cons (show e1 :: envs ≠ [] by simp)]
        unfold forLoop
        rcases g5 with g5 | g5 <;> simp only [g5] <;> exact hrec

/-- A loop over two members: the hypotheses of `for_all` hold with the states after each round. -/
example : let c : Cmd := fun env => (if env "x" = some ["a"] then .cont ["k"] else .value ["v"], setVar env "g" (some ((env "g").getD [] ++ (env "x").getD [])))
    let e0 : Env := fun _ => none
    let e1 := (runAll [c] [] (setVar e0 "x" (some ["a"]))).2
    let e2 := (runAll [c] ["k"] (setVar e1 "x" (some ["b"]))).2
    forLoop "x" [c] ["a", "b"] [] e0 = (.value ["v"], e2) ∧ e2 "g" = some ["a", "b"] := by
  intro c e0 e1 e2
  refine ⟨?_, by decide +kernel⟩
  refine for_all "x" [c] ["a", "b"] [] e0 [e1, e2] [["k"], ["v"]] rfl rfl ?_
  intro i v hi
  match i with
  | 0 => simp at hi; subst hi; exact ⟨e0, e1, [], ["k"], rfl, rfl, rfl, rfl, .inr rfl⟩
  | 1 => simp at hi; subst hi; exact ⟨e1, e2, ["k"], ["v"], rfl, rfl, rfl, rfl, .inl rfl⟩
  | i + 2 => simp at hi

/-- A `break` ends the loop with its result; the other members are not used. A `return` goes on outwards. -/
theorem for_break (var : String) (body : List Cmd) (v : String) (vs : List String) (result : Val) (env env' : Env) (r : Val) :
    (runAll body result (setVar env var (some [v])) = (.brk r, env') → forLoop var body (v :: vs) result env = (.value r, env')) ∧
    (runAll body result (setVar env var (some [v])) = (.ret r, env') → forLoop var body (v :: vs) result env = (.ret r, env')) := by
  constructor <;> intro h <;> simp [forLoop, h]

/-- An assignment gives each variable the values, or adds them at the end of its own, or just if it is not
    set; no other variable changes. -/
theorem assign_effect (kind : Kind) (vars : List String) (values : Val) : ∀ env : Env, vars.Nodup →
    (assign kind vars values env).1 = .value values ∧
    ∀ n, (assign kind vars values env).2 n =
      if n ∈ vars then
        match kind with
        | .set => some values
        | .append => some ((env n).getD [] ++ values)
        | .default => some ((env n).getD values)
      else env n := by
  induction vars with
  | nil => intro env _; simp [assign]
  | cons v vars ih =>
    intro env hd
    obtain ⟨hv, hd⟩ := List.nodup_cons.1 hd
    cases kind with
    | set =>
      obtain ⟨h1, h2⟩ := ih (setVar env v (some values)) hd
      refine ⟨h1, fun n => ?_⟩
      simp only [assign, h2, setVar]
      by_cases hn : n = v
      · subst hn; simp [hv]
      · simp [hn]
    | append =>
      obtain ⟨h1, h2⟩ := ih (setVar env v (some ((env v).getD [] ++ values))) hd
      refine ⟨h1, fun n => ?_⟩
      simp only [assign, h2, setVar]
      by_cases hn : n = v
      · subst hn; simp [hv]
      · simp [hn]
    | default =>
      by_cases hs : (env v).isSome
      · obtain ⟨h1, h2⟩ := ih env hd
        obtain ⟨w, hw⟩ := Option.isSome_iff_exists.1 hs
        refine ⟨by simp [assign, hs, h1], fun n => ?_⟩
        simp only [assign, hs, if_true, h2]
        by_cases hn : n = v
        · subst hn; simp [hv, hw]
        · simp [hn]
      · obtain ⟨h1, h2⟩ := ih (setVar env v (some values)) hd
        have hw : env v = none := by simpa using hs
        refine ⟨by simp [assign, hs, h1], fun n => ?_⟩
        rw [assign, if_neg hs, h2]
        simp only [setVar]
        by_cases hn : n = v
        · subst hn; simp [hv, hw]
        · simp [hn]

example : (assign .append ["a", "b"] ["x"] (fun n => if n = "a" then some ["y"] else none)).2 "a" = some ["y", "x"] := by decide +kernel

theorem leaveTarget_env (keys : List String) (env0 : Env) : ∀ (tenv env : Env),
    (leaveTarget (keys.zip (keys.map env0)) tenv env).2 = setAll env (keys.zip (keys.map env0)) := by
  induction keys with
  | nil => intro tenv env; rfl
  | cons k keys ih => intro tenv env; simp only [List.map_cons, List.zip_cons_cons, leaveTarget, setAll]; exact ih _ _

theorem leaveTarget_tenv (keys : List String) (hd : keys.Nodup) (env0 : Env) : ∀ (tenv env : Env) (n : String),
    (leaveTarget (keys.zip (keys.map env0)) tenv env).1 n = if n ∈ keys then some ((env n).getD []) else tenv n := by
  induction keys with
  | nil => intro tenv env n; simp [leaveTarget]
  | cons k keys ih =>
    intro tenv env n
    obtain ⟨hk, hd⟩ := List.nodup_cons.1 hd
    simp only [List.map_cons, List.zip_cons_cons, leaveTarget]
    rw [ih hd]
    by_cases hn : n = k
    · subst hn; simp [hk, setVar]
    · by_cases hm : n ∈ keys <;> simp [hn, hm, setVar]

/-- A statement that is run on a target sees the variables that are set on the target with their values there,
    and all others as outside. When it ends, in whatever way, the variables that are set on the target are
    outside as they were before, and on the target as the statement left them; other variables are as the
    statement left them. -/
theorem on_scope (keys : List String) (hd : keys.Nodup) (body : Env → Env → Outcome × Env × Env) (tenv env : Env)
    (hk : ∀ n, n ∈ keys ↔ (tenv n).isSome = true) :
    ∃ env1 : Env, (∀ n, env1 n = (tenv n).or (env n)) ∧
      (onTarget keys body tenv env).1 = (body tenv env1).1 ∧
      (∀ n, (onTarget keys body tenv env).2.2 n = if (tenv n).isSome then env n else (body tenv env1).2.2 n) ∧
      (∀ n, (onTarget keys body tenv env).2.1 n =
        if (tenv n).isSome then some (((body tenv env1).2.2 n).getD []) else (body tenv env1).2.1 n) := by
  refine ⟨setAll env (keys.map fun v => (v, tenv v)), ?_, rfl, ?_, ?_⟩
  · intro n
    by_cases h : n ∈ keys
    · obtain ⟨v, hv⟩ := Option.isSome_iff_exists.1 ((hk n).1 h)
      rw [hv, Option.some_or, ← hv]
      refine setAll_agree _ _ n _ ⟨(n, tenv n), List.mem_map.2 ⟨n, h, rfl⟩, rfl⟩ ?_
      intro p hp e
      obtain ⟨w, _, rfl⟩ := List.mem_map.1 hp
      exact congrArg tenv e
    · have hv : tenv n = none := by
        cases hv : tenv n with
        | none => rfl
        | some v => exact absurd ((hk n).2 (by simp [hv])) h
      rw [hv, Option.none_or]
      refine setAll_other _ _ n ?_
      intro p hp e
      obtain ⟨w, hw, rfl⟩ := List.mem_map.1 hp
      exact h (e ▸ hw)
  · intro n
    simp only [onTarget, leaveTarget_env, restore, hk]
  · intro n
    simp only [onTarget, leaveTarget_tenv keys hd, hk]

example : let tenv : Env := fun n => if n = "X" then some ["old"] else none
    let r := onTarget ["X"] (fun tenv env => (.value [], tenv, setVar (setVar env "X" (some ["new"])) "Y" (env "X"))) tenv (fun _ => some ["out"])
    ["X"].Nodup ∧ r.2.1 "X" = some ["new"] ∧ r.2.2 "X" = some ["out"] ∧ r.2.2 "Y" = some ["old"] := by decide +kernel

/-- What a statement that is run on a target assigns to a variable on that same target is lost if the variable
    was set there before: `on t { X on t = new ; }`. -/
theorem on_assignment_violated : let tenv : Env := fun n => if n = "X" then some ["old"] else none
    let r := onTarget ["X"] (fun tenv env => (.value [], setVar tenv "X" (some ["new"]), env)) tenv (fun _ => none)
    (∀ n, n ∈ ["X"] ↔ (tenv n).isSome = true) ∧ r.2.1 "X" = some ["old"] := by
  refine ⟨?_, by decide +kernel⟩
  intro n
  by_cases h : n = "X" <;> simp [h]

end Verif.JamScope
