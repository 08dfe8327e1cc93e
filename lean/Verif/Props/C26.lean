import Verif.Procs.ProcVerify
import Verif.VcgenSound
import Verif.Witness

/-!
# C26: a procedure verifies iff its precondition bounds its body

`Proc.pre`/`Proc.post` are the documented combinations of the `pre`/`post` annotations (`Procs/Spec.lean`); `vcSem` is the
documented meaning of statements. Bodies are arbitrary: no monotonicity, loops and calls allowed.
-/

open scoped ENNReal NNReal

namespace Caesar
set_option linter.unusedSectionVars false

variable [Doms] [Interp]

/-! ## Helper lemmas -/

theorem vcSem_block_append (C : SemCtx) (as bs : List Stmt) (φ : Exp) :
    vcSem C (Stmt.block (as ++ bs)) φ = vcSem C (Stmt.block as) (vcSem C (Stmt.block bs) φ) := by
  induction as with
  | nil => rfl
  | cons a as ih => exact congrArg (vcSem C a) ih

theorem vcSem_assumes_down (C : SemCtx) (es : List (Expr .eureal)) (φ : Exp) (σ : Env) :
    vcSem C (Stmt.block (es.map fun e => wrapSuccess (.assume .down e))) φ σ = ⊤ ↔ (⨅ e ∈ es, e.ev σ) ≤ φ σ := by
  classical
  have h : vcSem C (Stmt.block (es.map fun e => wrapSuccess (.assume .down e))) φ σ =
      if (⨅ e ∈ es, e.ev σ) ≤ φ σ then ⊤ else φ σ := by
    induction es with
    | nil =>
      show φ σ = _
      rw [show (⨅ e ∈ ([] : List (Expr .eureal)), e.ev σ) = ⊤ by simp]
      split
      · next h => exact top_le_iff.mp h
      · rfl
    | cons e es ih =>
      show (if e.ev σ ≤ vcSem C (Stmt.block (es.map fun e => wrapSuccess (.assume .down e))) φ σ then ⊤ else
        vcSem C (Stmt.block (es.map fun e => wrapSuccess (.assume .down e))) φ σ) = _
      rw [ih, show (⨅ e' ∈ e :: es, e'.ev σ) = min (e.ev σ) (⨅ e' ∈ es, e'.ev σ) by simp [iInf_or, iInf_inf_eq]]
      by_cases h1 : (⨅ e ∈ es, e.ev σ) ≤ φ σ
      · rw [if_pos h1, if_pos le_top, if_pos (min_le_of_right_le h1)]
      · rw [if_neg h1]
        refine if_congr ?_ rfl rfl
        rw [min_le_iff]
        exact ⟨Or.inl, fun h => h.resolve_right h1⟩
  rw [h]
  constructor
  · intro h'
    by_contra hc
    rw [if_neg hc] at h'
    exact hc (h' ▸ le_top)
  · exact fun h' => if_pos h'

theorem vcSem_assumes_up (C : SemCtx) (es : List (Expr .eureal)) (φ : Exp) (σ : Env) :
    vcSem C (Stmt.block (es.map fun e => wrapSuccess (.assume .up e))) φ σ = 0 ↔ φ σ ≤ (⨆ e ∈ es, e.ev σ) := by
  classical
  have h : vcSem C (Stmt.block (es.map fun e => wrapSuccess (.assume .up e))) φ σ =
      if φ σ ≤ (⨆ e ∈ es, e.ev σ) then 0 else φ σ := by
    induction es with
    | nil =>
      show φ σ = _
      rw [show (⨆ e ∈ ([] : List (Expr .eureal)), e.ev σ) = 0 by simp]
      split
      · next h => exact le_zero_iff.mp h
      · rfl
    | cons e es ih =>
      show (if e.ev σ ≥ vcSem C (Stmt.block (es.map fun e => wrapSuccess (.assume .up e))) φ σ then 0 else
        vcSem C (Stmt.block (es.map fun e => wrapSuccess (.assume .up e))) φ σ) = _
      rw [ih, show (⨆ e' ∈ e :: es, e'.ev σ) = max (e.ev σ) (⨆ e' ∈ es, e'.ev σ) by simp [iSup_or, iSup_sup_eq]]
      by_cases h1 : φ σ ≤ (⨆ e ∈ es, e.ev σ)
      · rw [if_pos h1, if_pos (zero_le), if_pos (le_max_of_le_right h1)]
      · rw [if_neg h1]
        refine if_congr ?_ rfl rfl
        rw [le_max_iff]
        exact ⟨Or.inl, fun h => h.resolve_right h1⟩
  rw [h]
  constructor
  · intro h'
    by_contra hc
    rw [if_neg hc] at h'
    exact hc (h' ▸ zero_le)
  · exact fun h' => if_pos h'

theorem vcSem_asserts (C : SemCtx) (d : Dir) (es : List (Expr .eureal)) :
    vcSem C (Stmt.block (es.map fun e => wrapError (.assert d e))) (topLitInLattice d).ev = combine d es := by
  cases d with
  | down =>
    induction es with
    | nil => funext σ; exact (show (⨅ e ∈ ([] : List (Expr .eureal)), e.ev σ) = ⊤ by simp).symm
    | cons e es ih =>
      funext σ
      show min (e.ev σ) (vcSem C (Stmt.block (es.map fun e => wrapError (.assert .down e))) _ σ) = _
      rw [ih]
      exact (show (⨅ e' ∈ e :: es, e'.ev σ) = min (e.ev σ) (⨅ e' ∈ es, e'.ev σ) by simp [iInf_or, iInf_inf_eq]).symm
  | up =>
    induction es with
    | nil =>
      funext σ
      show (Expr.un (.non rfl) Expr.inftyLit : Expr .eureal).ev σ = _
      classical
      rw [Expr.ev_non, if_pos (show Expr.inftyLit.ev σ = ⊤ from rfl)]
      exact (show (⨆ e ∈ ([] : List (Expr .eureal)), e.ev σ) = 0 by simp).symm
    | cons e es ih =>
      funext σ
      show max (e.ev σ) (vcSem C (Stmt.block (es.map fun e => wrapError (.assert .up e))) _ σ) = _
      rw [ih]
      exact (show (⨆ e' ∈ e :: es, e'.ev σ) = max (e.ev σ) (⨆ e' ∈ es, e'.ev σ) by simp [iSup_or, iSup_sup_eq]).symm

theorem vcSem_procVerify (C : SemCtx) {p : Proc} {B : Stmt} {d : Dir} {S : Stmt} (hB : p.body = some B)
    (h : encodeProcVerify p = some (d, S)) : d = p.dir ∧ vcSem C S (topLitInLattice d).ev =
      vcSem C (Stmt.block (p.requires.map fun e => wrapSuccess (.assume p.dir e))) (vcSem C B p.post) := by
  rw [encodeProcVerify, hB] at h
  obtain ⟨rfl, rfl⟩ := Prod.mk.inj (Option.some.inj h)
  refine ⟨rfl, ?_⟩
  rw [vcSem_block_append, vcSem_block_append, vcSem_asserts]
  rfl

/-! ## Property -/

/-- C26 for procs: the generated statements, started from the initial postexpectation of the code, have the value `⊤`
in every state iff in every state the infimum of the preconditions is at most `vc[body]` of the infimum of the
postconditions. -/
theorem C26_proc (C : SemCtx) (p : Proc) (B : Stmt) (hB : p.body = some B) (hd : p.dir = .down) (d : Dir) (S : Stmt)
    (h : encodeProcVerify p = some (d, S)) :
    d = .down ∧ ((∀ σ, vcSem C S (topLitInLattice d).ev σ = ⊤) ↔
      ∀ σ, (⨅ e ∈ p.requires, e.ev σ) ≤ vcSem C B (fun τ => ⨅ e ∈ p.ensures, e.ev τ) σ) := by
  obtain ⟨rfl, h2⟩ := vcSem_procVerify C hB h
  refine ⟨hd, ?_⟩
  rw [h2, hd]
  refine forall_congr' fun σ => ?_
  rw [vcSem_assumes_down, Proc.post, hd]
  rfl

/-- C26 for coprocs, dually: the value is `0` in every state iff the supremum of the preconditions is at least
`vc[body]` of the supremum of the postconditions. -/
theorem C26_coproc (C : SemCtx) (p : Proc) (B : Stmt) (hB : p.body = some B) (hd : p.dir = .up) (d : Dir) (S : Stmt)
    (h : encodeProcVerify p = some (d, S)) :
    d = .up ∧ ((∀ σ, vcSem C S (topLitInLattice d).ev σ = 0) ↔
      ∀ σ, vcSem C B (fun τ => ⨆ e ∈ p.ensures, e.ev τ) σ ≤ ⨆ e ∈ p.requires, e.ev σ) := by
  obtain ⟨rfl, h2⟩ := vcSem_procVerify C hB h
  refine ⟨hd, ?_⟩
  rw [h2, hd]
  refine forall_congr' fun σ => ?_
  rw [vcSem_assumes_up, Proc.post, hd]
  rfl

omit [Doms] [Interp] in
/-- Every procedure with a body is encoded; procedures without one are skipped. -/
theorem C26_total (p : Proc) : (encodeProcVerify p).isSome = p.body.isSome := by
  unfold encodeProcVerify
  cases p.body <;> rfl

/-- C26, restated as a lower-bound problem (`to_direction_lower_bounds`): a coproc's task converted to direction
`Down` has value `⊤` everywhere iff the coproc verifies. -/
theorem C26_lowerBounds (C : SemCtx) (S : Stmt) (d : Dir) :
    (toDirectionLowerBounds (d, S)).1 = .down ∧
    ((∀ σ, vcSem C (toDirectionLowerBounds (d, S)).2 (topLitInLattice .down).ev σ = ⊤) ↔
      match d with
      | .down => ∀ σ, vcSem C S (topLitInLattice .down).ev σ = ⊤
      | .up => ∀ σ, vcSem C S (topLitInLattice .up).ev σ = 0) := by
  classical
  cases d with
  | down => exact ⟨rfl, Iff.rfl⟩
  | up =>
    refine ⟨rfl, forall_congr' fun σ => ?_⟩
    have h1 : vcSem C (.negate .up) (topLitInLattice .down).ev = (topLitInLattice .up).ev := by
      funext τ
      show (if (Expr.inftyLit : Expr .eureal).ev τ = ⊤ then (0 : ℝ≥0∞) else ⊤) =
        (Expr.un (.non rfl) Expr.inftyLit : Expr .eureal).ev τ
      rw [Expr.ev_non]
    show (if vcSem C S (vcSem C (.negate .up) (topLitInLattice .down).ev) σ = 0 then (⊤ : ℝ≥0∞) else 0) = ⊤ ↔ _
    rw [h1]
    constructor
    · intro h
      by_contra hc
      rw [if_neg hc] at h
      exact ENNReal.zero_ne_top h
    · exact fun h => if_pos h

/-! ## Non-vacuity -/

/-- A proc with two preconditions and two postconditions, an assignment and a tick in the body. -/
def c26Proc (d : Dir) : Proc :=
  ⟨⟨"p", 0⟩, d, [⟨⟨⟨"x", 1⟩, .eureal⟩, 2⟩], [⟨⟨"y", 3⟩, .eureal⟩],
    [.requires (.var ⟨"x", 1⟩), .requires Expr.inftyLit, .ensures (.var ⟨"y", 3⟩), .ensures Expr.inftyLit],
    some (.seq (.assign ⟨⟨"y", 3⟩, .eureal⟩ (.var ⟨"x", 1⟩)) (.tick (.var ⟨"x", 1⟩)))⟩

example : (encodeProcVerify (c26Proc .down)).isSome ∧ (encodeProcVerify (c26Proc .up)).isSome := ⟨rfl, rfl⟩

/-- The proc verifies: `x ≤ x + x`. -/
example (C : SemCtx) (S : Stmt) (d : Dir) (h : encodeProcVerify (c26Proc .down) = some (d, S)) :
    ∀ σ, vcSem C S (topLitInLattice d).ev σ = ⊤ := by
  refine ((C26_proc C (c26Proc .down) _ rfl rfl d S h).2).mpr fun σ => ?_
  refine (iInf₂_le (Expr.var ⟨"x", 1⟩ : Expr .eureal) (by simp [Proc.requires, c26Proc])).trans ?_
  have hx : (σ.upd ⟨⟨"y", 3⟩, .eureal⟩ (σ ⟨⟨"x", 1⟩, .eureal⟩)) ⟨⟨"x", 1⟩, .eureal⟩ = σ ⟨⟨"x", 1⟩, .eureal⟩ :=
    Env.upd_ne _ (by decide) _
  exact le_trans (le_of_eq hx.symm) (le_add_self (α := ℝ≥0∞))

end Caesar
