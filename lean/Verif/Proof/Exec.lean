import Verif.Model.State

/-!
One particular execution of construction and updates, used to exhibit concrete cases beside the theorems. The sorts are
insertion sorts, tasks run in index order. The `*_exec` lemmas reduce "this execution is a possible outcome" to
decidable checks.
-/
namespace Rakau

variable {env : Env}

def insertBy {α : Type} (lt : α → α → Bool) (x : α) : List α → List α
  | [] => [x]
  | y :: l => if lt y x then y :: insertBy lt x l else x :: y :: l

def sortBy {α : Type} (lt : α → α → Bool) : List α → List α
  | [] => []
  | x :: l => insertBy lt x (sortBy lt l)

def okOr {α : Type} (x : Except Err α) (d : α) : α := match x with | .ok a => a | .error _ => d

def isOk {α : Type} : Except Err α → Bool | .ok _ => true | .error _ => false

theorem eq_okOr {α : Type} {x : Except Err α} {d : α} (h : isOk x = true) : x = .ok (okOr x d) := by
  cases x with
  | ok a => rfl
  | error e => simp [isOk] at h

instance {α : Type} [DecidableEq α] (lt : α → α → Bool) (l l' : List α) : Decidable (IsSortOf lt l l') :=
  inferInstanceAs (Decidable (_ ∧ _))

/-- One outcome of the tree builder. -/
def buildExec (g : Cfg) (codes : List Nat) : Except Err (List Node × List CNode) :=
  if codes = [] then .ok ([], []) else
  match rootChildren g codes 40000 with
  | .error e => .error e
  | .ok (ps, cc) => .ok (⟨0, codes.length, cc, 1, 0⟩ :: (sortBy (treeLt g) ps.trees).flatten,
      (sortBy critLt ((if rootCrit g codes then [[⟨1, 0, codes.length⟩]] else []) ++ ps.crits)).flatten)

/-- Check that the sorts made by `buildExec` are sorts. -/
def buildCheck (g : Cfg) (codes : List Nat) : Bool :=
  codes = [] ||
  match rootChildren g codes 40000 with
  | .error _ => true
  | .ok (ps, _) => decide (IsSortOf (treeLt g) ps.trees (sortBy (treeLt g) ps.trees)) &&
      decide (IsSortOf critLt ((if rootCrit g codes then [[⟨1, 0, codes.length⟩]] else []) ++ ps.crits)
        (sortBy critLt ((if rootCrit g codes then [[⟨1, 0, codes.length⟩]] else []) ++ ps.crits)))

theorem build_exec {g : Cfg} {codes : List Nat} (h : buildCheck g codes = true) : IsBuild g codes 40000 (buildExec g codes) := by
  unfold buildExec
  unfold buildCheck at h
  by_cases hc : codes = []
  · rw [if_pos hc]; exact .empty hc
  · rw [if_neg hc]
    cases hr : rootChildren g codes 40000 with
    | error e => exact .fail e hc hr
    | ok pc =>
      obtain ⟨ps, cc⟩ := pc
      rw [hr] at h
      simp only [hc, decide_false, Bool.false_or, Bool.and_eq_true, decide_eq_true_eq] at h
      exact .run ps cc _ _ hc hr h.1 h.2

def codeSort (raw : List Nat) : List Nat := sortBy (codeLt raw) (List.range raw.length)

def Input.exec (inp : Input env) : Except Err (TS env) := do
  let (box, raw) ← inp.prepare
  let codes ← ofUB (applyIsort raw (codeSort raw))
  inp.finish box raw (codeSort raw) (List.range raw.length) (buildExec ⟨env.w, env.d, inp.maxLeaf, inp.ncrit⟩ codes)

def Input.execCheck (inp : Input env) : Bool :=
  match inp.prepare with
  | .error _ => true
  | .ok (_, raw) => decide (IsSortOf (codeLt raw) (List.range raw.length) (codeSort raw)) &&
      match applyIsort raw (codeSort raw) with
      | none => false
      | some codes => buildCheck ⟨env.w, env.d, inp.maxLeaf, inp.ncrit⟩ codes

theorem construct_exec {inp : Input env} (h : inp.execCheck = true) : Construct inp inp.exec := by
  unfold Input.execCheck at h
  unfold Input.exec
  cases hp : inp.prepare with
  | error e => exact .early e hp
  | ok br =>
    obtain ⟨box, raw⟩ := br
    rw [hp] at h
    simp only [Bool.and_eq_true, decide_eq_true_eq] at h
    cases hc : applyIsort raw (codeSort raw) with
    | none => rw [hc] at h; simp at h
    | some codes =>
      rw [hc] at h
      have := Construct.run (inp := inp) box raw _ (List.range raw.length) codes 40000 _ hp h.1 (List.Perm.refl _) hc (build_exec h.2)
      simpa [bind, Except.bind, ofUB, hc] using this

def TS.syncExec (s : TS env) : Except Err (TS env) := do
  let (box, raw) ← s.syncPrepare
  let codes ← ofUB (applyIsort raw (codeSort raw))
  s.syncFinish box raw (codeSort raw) (List.range raw.length) (buildExec s.cfg codes)

def TS.syncCheck (s : TS env) : Bool :=
  match s.syncPrepare with
  | .error _ => true
  | .ok (_, raw) => decide (IsSortOf (codeLt raw) (List.range raw.length) (codeSort raw)) &&
      match applyIsort raw (codeSort raw) with
      | none => false
      | some codes => buildCheck s.cfg codes

theorem sync_exec {s : TS env} (h : s.syncCheck = true) : Sync s s.syncExec := by
  unfold TS.syncCheck at h
  unfold TS.syncExec
  cases hp : s.syncPrepare with
  | error e => exact .early e hp
  | ok br =>
    obtain ⟨box, raw⟩ := br
    rw [hp] at h
    simp only [Bool.and_eq_true, decide_eq_true_eq] at h
    cases hc : applyIsort raw (codeSort raw) with
    | none => rw [hc] at h; simp at h
    | some codes =>
      rw [hc] at h
      have := Sync.run (s := s) box raw _ (List.range raw.length) codes 40000 _ hp h.1 (List.Perm.refl _) hc (build_exec h.2)
      simpa [bind, Except.bind, ofUB, hc] using this

def TS.updExec (s : TS env) (o : Bool) (f : Prog env.F) : Out env :=
  match f.run (s.tr o) s.parts with
  | .error e => guard (.error e) s
  | .ok parts => guard ({ s with parts := parts } : TS env).syncExec { s with parts := parts }

def TS.updCheck (s : TS env) (o : Bool) (f : Prog env.F) : Bool :=
  match f.run (s.tr o) s.parts with
  | .error _ => true
  | .ok parts => ({ s with parts := parts } : TS env).syncCheck

theorem update_exec {s : TS env} {o : Bool} {f : Prog env.F} (h : s.updCheck o f = true) : UpdateParticles s o f (s.updExec o f) := by
  unfold TS.updCheck at h
  unfold TS.updExec
  cases hr : f.run (s.tr o) s.parts with
  | error e => exact .callback e hr
  | ok parts => rw [hr] at h; exact .sync parts _ hr (sync_exec h)

def Out.isOk : Out env → Bool | .ok _ => true | _ => false
def Out.isThrow : Out env → Bool | .threw _ _ => true | _ => false
def Out.state (d : TS env) : Out env → TS env | .ok s => s | .threw _ s => s | .ub => d

theorem Out.eq_ok {x : Out env} {d : TS env} (h : x.isOk = true) : x = .ok (x.state d) := by
  cases x <;> simp [Out.isOk] at h; rfl

end Rakau
