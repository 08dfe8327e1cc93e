import Verif.Procs.SpecCall
import Verif.ProofRules.Negations

/-!
# C28: calls respect the verification direction
-/

namespace Caesar

/-- Specification: the calls of a statement that are executed when the statement is entered in direction `d`,
each with the direction in which it is executed: `negate`/`conegate` flip the direction of what follows
(`website/docs/heyvl/statements.md`, `src/proof_rules/negations.rs:1-20`). Also returns the final direction. Whether a call is a declaration
`var x = f()` is the Boolean. -/
def Stmt.dirCalls : Dir → Stmt → List (Bool × Ident × Dir) × Dir
  | d, .call isDecl _ f _ => ([(isDecl, f, d)], d)
  | d, .negate _ => ([], d.toggle)
  | d, .seq a b =>
    let (ca, d₁) := a.dirCalls d
    let (cb, d₂) := b.dirCalls d₁
    (ca ++ cb, d₂)
  | d, .demonic a b | d, .angelic a b | d, .additive a b | d, .ite _ a b =>
    ((a.dirCalls d).1 ++ (b.dirCalls d).1, (a.dirCalls d).2)
  | d, .while _ s => s.dirCalls d
  | d, .annot _ s => s.dirCalls d
  | d, _ => ([], d)

/-- C28: if the pass does not reject the body of a procedure of direction `d`, every call in it to a procedure `q` is executed
in the direction of `q`. -/
def C28_full : Prop :=
  ∀ (procs : ProcTable) (d : Dir) (B : Stmt) (declared : List Var), (specCall procs d B declared).isSome →
    ∀ c ∈ (B.dirCalls d).1, ∀ q, procs c.2.1 = some q → q.dir = c.2.2

/-- A proc and a coproc without parameters. -/
def dirTable : ProcTable := fun f =>
  if f = ⟨"p", 0⟩ then some ⟨⟨"p", 0⟩, .down, [], [], [], none⟩
  else if f = ⟨"q", 0⟩ then some ⟨⟨"q", 0⟩, .up, [], [⟨⟨"r", 0⟩, .bool⟩], [], none⟩ else none

/-- C28 is violated: `var x: Bool = q()` with a coproc `q` is accepted in a proc, because the check of the right-hand side
(`src/procs/spec_call.rs:116`) is only done for assignments. -/
theorem C28_not_full : ¬ C28_full := by
  intro h
  have h1 := h dirTable .down (.call true [⟨⟨"x", 1⟩, .bool⟩] ⟨"q", 0⟩ []) [] (by decide)
    (true, ⟨"q", 0⟩, .down) (List.mem_singleton.mpr rfl) _ rfl
  exact absurd h1 (by decide)

/-- C28 is also violated without declarations: the check does not follow `negate`, so a proc is called in a context where
upper bounds are needed. -/
theorem C28_negated : ∃ (B : Stmt), (∀ c ∈ (B.dirCalls .down).1, c.1 = false) ∧ (specCall dirTable .down B []).isSome ∧
    ∃ c ∈ (B.dirCalls .down).1, ∃ q, dirTable c.2.1 = some q ∧ q.dir ≠ c.2.2 :=
  ⟨Stmt.block [.negate .down, .call false [] ⟨"p", 0⟩ [], .negate .up], by decide, by decide,
    (false, ⟨"p", 0⟩, .up), by decide, _, rfl, by decide⟩


/-- Specification: contains no `negate`/`conegate`. -/
def Stmt.NoNegate : Stmt → Prop
  | .negate _ => False
  | .seq a b | .demonic a b | .angelic a b | .additive a b | .ite _ a b => a.NoNegate ∧ b.NoNegate
  | .while _ s | .annot _ s => s.NoNegate
  | _ => True

theorem dirCalls_dir {S : Stmt} : ∀ {d : Dir}, S.NoNegate → (S.dirCalls d).2 = d := by
  induction S with
  | seq a b iha ihb =>
    intro d h
    show (b.dirCalls (a.dirCalls d).2).2 = d
    rw [iha h.1, ihb h.2]
  | demonic a b iha ihb | angelic a b iha ihb | additive a b iha ihb | ite c a b iha ihb => intro d h; exact iha h.1
  | «while» c s ih => intro d h; exact ih (d := d) h
  | annot an s ih => intro d h; exact ih (d := d) h
  | negate => intro d h; exact h.elim
  | _ => intro d h; rfl

/-- C28 for bodies without negations, for calls in assignments. Missing: calls in declarations (`C28_not_full`) and
bodies with negations (`C28_negated`). -/
theorem C28_partial (procs : ProcTable) (d : Dir) (B : Stmt) (declared : List Var)
    (h : (specCall procs d B declared).isSome) (hn : B.NoNegate) :
    ∀ c ∈ (B.dirCalls d).1, c.1 = false → ∀ q, procs c.2.1 = some q → q.dir = c.2.2 := by
  have key : ∀ {S : Stmt} {declared : List Var}, (specCall procs d S declared).isSome → S.NoNegate →
      ∀ c ∈ (S.dirCalls d).1, c.1 = false → ∀ q, procs c.2.1 = some q → q.dir = c.2.2 := by
    intro S
    induction S with
    | call isDecl lhs f args =>
      intro declared h _ c hc hfalse q hq
      obtain rfl := List.mem_singleton.mp (show c ∈ [(isDecl, f, d)] from hc)
      simp only at hfalse hq
      subst hfalse
      unfold specCall at h
      rw [hq] at h
      by_contra hne
      have hne' : ¬ d = q.dir := fun he => hne he.symm
      simp [hne'] at h
    | seq a b iha ihb =>
      intro declared h hn c hc
      unfold specCall at h
      cases ha : specCall procs d a declared with
      | none => rw [ha] at h; exact absurd h (by simp)
      | some r =>
        rw [ha] at h
        have hb : (specCall procs d b r.2).isSome := by
          cases hb : specCall procs d b r.2 with
          | none => simp [hb] at h
          | some r' => rfl
        have hc' : c ∈ (a.dirCalls d).1 ++ (b.dirCalls (a.dirCalls d).2).1 := hc
        rw [dirCalls_dir hn.1] at hc'
        rcases List.mem_append.mp hc' with hc' | hc'
        · exact iha (by rw [ha]; rfl) hn.1 c hc'
        · exact ihb hb hn.2 c hc'
    | demonic a b iha ihb | angelic a b iha ihb | additive a b iha ihb | ite e a b iha ihb =>
      intro declared h hn c hc
      unfold specCall at h
      cases ha : specCall procs d a declared with
      | none => rw [ha] at h; exact absurd h (by simp)
      | some r =>
        rw [ha] at h
        have hb : (specCall procs d b r.2).isSome := by
          cases hb : specCall procs d b r.2 with
          | none => simp [hb] at h
          | some r' => rfl
        have hc' : c ∈ (a.dirCalls d).1 ++ (b.dirCalls d).1 := hc
        rcases List.mem_append.mp hc' with hc' | hc'
        · exact iha (by rw [ha]; rfl) hn.1 c hc'
        · exact ihb hb hn.2 c hc'
    | «while» e s ih =>
      intro declared h hn c hc
      refine ih (declared := declared) ?_ hn c hc
      unfold specCall at h
      cases hs : specCall procs d s declared with
      | none => rw [hs] at h; exact absurd h (by simp)
      | some r => rfl
    | annot an s ih =>
      intro declared h hn c hc
      refine ih (declared := declared) ?_ hn c hc
      unfold specCall at h
      cases hs : specCall procs d s declared with
      | none => rw [hs] at h; exact absurd h (by simp)
      | some r => rfl
    | negate => intro _ _ hn; exact hn.elim
    | _ => intro _ _ _ c hc; exact absurd hc List.not_mem_nil
  exact key h hn

/-- The converse: bodies whose calls, all in assignments and without negations, have the right direction are not rejected. -/
theorem C28_complete (procs : ProcTable) (d : Dir) (B : Stmt) (declared : List Var) (hn : B.NoNegate)
    (h : ∀ c ∈ (B.dirCalls d).1, ∀ q, procs c.2.1 = some q → q.dir = c.2.2) : (specCall procs d B declared).isSome := by
  have key : ∀ {S : Stmt} {declared : List Var}, S.NoNegate →
      (∀ c ∈ (S.dirCalls d).1, ∀ q, procs c.2.1 = some q → q.dir = c.2.2) → (specCall procs d S declared).isSome := by
    intro S
    induction S with
    | call isDecl lhs f args =>
      intro declared _ h
      unfold specCall
      cases hf : procs f with
      | none => rfl
      | some q =>
        have := h (isDecl, f, d) (List.mem_singleton.mpr rfl) q hf
        cases isDecl with
        | true => rfl
        | false =>
          have hd : d = q.dir := this.symm
          simp [hd]
    | seq a b iha ihb =>
      intro declared hn h
      unfold specCall
      have hd : ∀ c, c ∈ (a.dirCalls d).1 ++ (b.dirCalls (a.dirCalls d).2).1 → ∀ q, procs c.2.1 = some q → q.dir = c.2.2 := h
      rw [dirCalls_dir hn.1] at hd
      obtain ⟨r, hr⟩ := Option.isSome_iff_exists.mp (iha (declared := declared) hn.1 fun c hc => hd c (List.mem_append_left _ hc))
      obtain ⟨r', hr'⟩ := Option.isSome_iff_exists.mp (ihb (declared := r.2) hn.2 fun c hc => hd c (List.mem_append_right _ hc))
      simp [hr, hr']
    | demonic a b iha ihb | angelic a b iha ihb | additive a b iha ihb | ite e a b iha ihb =>
      intro declared hn h
      unfold specCall
      have hd : ∀ c, c ∈ (a.dirCalls d).1 ++ (b.dirCalls d).1 → ∀ q, procs c.2.1 = some q → q.dir = c.2.2 := h
      obtain ⟨r, hr⟩ := Option.isSome_iff_exists.mp (iha (declared := declared) hn.1 fun c hc => hd c (List.mem_append_left _ hc))
      obtain ⟨r', hr'⟩ := Option.isSome_iff_exists.mp (ihb (declared := r.2) hn.2 fun c hc => hd c (List.mem_append_right _ hc))
      simp [hr, hr']
    | «while» e s ih =>
      intro declared hn h
      unfold specCall
      obtain ⟨r, hr⟩ := Option.isSome_iff_exists.mp (ih (declared := declared) hn h)
      simp [hr]
    | annot an s ih =>
      intro declared hn h
      unfold specCall
      obtain ⟨r, hr⟩ := Option.isSome_iff_exists.mp (ih (declared := declared) hn h)
      simp [hr]
    | negate => intro _ hn; exact hn.elim
    | _ => intro _ _ _; rfl
  exact key hn h

/-- Both theorems apply to a body with a call in a loop; a call of the coproc is rejected. -/
example : (specCall dirTable .down (.while (Expr.boolLit true) (.call false [] ⟨"p", 0⟩ [])) []).isSome :=
  C28_complete dirTable .down _ [] trivial (by
    intro c hc q hq
    obtain rfl := List.mem_singleton.mp (show c ∈ [(false, ⟨"p", 0⟩, Dir.down)] from hc)
    obtain rfl := Option.some.inj (show some _ = some q from hq)
    rfl)

example : ¬ (specCall dirTable .down (.while (Expr.boolLit true) (.call false [⟨⟨"x", 1⟩, .bool⟩] ⟨"q", 0⟩ [])) []).isSome := by
  intro h
  have := C28_partial dirTable .down _ [] h trivial (false, ⟨"q", 0⟩, .down) (List.mem_singleton.mpr rfl) rfl _ rfl
  exact absurd this (by decide)

end Caesar
