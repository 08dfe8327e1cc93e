import Verif.Front.TyStmt
import Verif.FreeVars

/-!
# What accepted programs assign and read
-/

namespace Caesar
namespace Front

mutual

/-- Specification: the variables that the statement assigns to or havocs. -/
def RStmt.targets : RStmt → List Ident
  | .seq ss => targetsB ss
  | .var _ _ _ => []
  | .assign lhs _ => lhs
  | .havoc _ xs => xs
  | .assert _ _ | .assume _ _ | .compare _ _ | .negate _ | .validate _ | .tick _ | .weigh _ | .label _ => []
  | .demonic a b | .angelic a b | .additive a b | .ite _ a b => targetsB a ++ targetsB b
  | .while _ b => targetsB b
  | .annot _ _ s => s.targets

/-- Specification: `RStmt.targets` for blocks. -/
def targetsB : List RStmt → List Ident
  | [] => []
  | s :: ss => s.targets ++ targetsB ss

end

/-- The variable is declared mutable: a local variable or an output. -/
def Mutable (Γ : Ctx) (x : Ident) : Prop := ∃ t k, Γ x = some (.var t k) ∧ (k = .mut ∨ k = .output)

theorem Mutable.back {Γ Γ' : Ctx} (h : Ext Γ Γ') {x : Ident} (hx : Mutable Γ' x) : Mutable Γ x := by
  obtain ⟨t, k, hk, hm⟩ := hx
  rcases h x with h1 | ⟨k', t', h1, h2⟩
  · exact ⟨t, k, h1.symm.trans hk, hm⟩
  · rw [hk] at h2
    cases h2
    exact ⟨_, _, h1, hm⟩

theorem assignTuple_mutable {Γ : Ctx} {xs : List Ident} {ts : List Ty} (h : assignTuple Γ xs ts = true) :
    ∀ x ∈ xs, Mutable Γ x := by
  obtain ⟨vs, -, -, h⟩ := assignTuple_vars h
  intro x hx
  obtain ⟨i, hi, rfl⟩ := List.getElem_of_mem hx
  obtain ⟨k, hk, hm⟩ := h.get hi (h.length_eq ▸ hi)
  exact ⟨_, k, hk, hm⟩

theorem mutable_of {k : VarKind} (h : k.isMutable = true) : k = .mut ∨ k = .output := by
  cases k <;> simp [VarKind.isMutable] at h ⊢

theorem checkAssign_mutable {Γ : Ctx} {lhs : List Ident} {e e' : RExpr} (h : checkAssign Γ lhs e = some e') :
    ∀ x ∈ lhs, Mutable Γ x := by
  have hsingle : (∃ x t k, lhs = [x] ∧ Γ x = some (.var t k) ∧ k.isMutable = true) → ∀ x ∈ lhs, Mutable Γ x := by
    rintro ⟨x, t, k, rfl, hx, hm⟩ y hy
    rw [List.mem_singleton.1 hy]
    exact ⟨t, k, hx, mutable_of hm⟩
  unfold checkAssign at h
  simp only at h
  split at h
  · split at h
    · exact assignTuple_mutable ‹_›
    · split at h
      · cases h
      · refine hsingle ?_
        split at h
        · split at h
          · split at h
            · exact ⟨_, _, _, rfl, ‹_›, ‹_›⟩
            · cases h
          · cases h
        · cases h
  · refine hsingle ?_
    split at h
    · split at h
      · split at h
        · exact ⟨_, _, _, rfl, ‹_›, ‹_›⟩
        · cases h
      · cases h
    · cases h
  · cases h

theorem havocOk_mutable {Γ : Ctx} {xs : List Ident} (h : havocOk Γ xs = true) : ∀ x ∈ xs, Mutable Γ x := by
  intro x hx
  have := List.all_eq_true.1 h x hx
  split at this
  · exact ⟨_, _, ‹_›, mutable_of this⟩
  · cases this

mutual

theorem checkS_mutable : ∀ (s : RStmt) {Γ Γ' : Ctx} {s' : RStmt}, checkS s Γ = some (s', Γ') → ∀ x ∈ s.targets, Mutable Γ x
  | .seq ss, Γ, Γ', s', h, x, hx => by
    simp only [checkS, Option.bind_eq_bind, Option.bind_eq_some_iff, Prod.exists, Option.pure_def, Option.some.injEq,
      Prod.mk.injEq] at h
    obtain ⟨ss', Γ₁, hs, -, -⟩ := h
    exact checkSL_mutable ss hs x (by simpa only [RStmt.targets] using hx)
  | .assign lhs rhs, Γ, Γ', s', h, x, hx => by
    simp only [checkS, Option.bind_eq_bind, Option.bind_eq_some_iff, Prod.exists, Option.pure_def, Option.some.injEq,
      Prod.mk.injEq] at h
    obtain ⟨e₁, Γ₁, h₁, e₂, h₂, -, -⟩ := h
    exact (checkAssign_mutable h₂ x (by simpa only [RStmt.targets] using hx)).back (check_frame false rhs h₁).1.1
  | .havoc d xs, Γ, Γ', s', h, x, hx => by
    simp only [checkS] at h
    split at h
    · exact havocOk_mutable ‹_› x (by simpa only [RStmt.targets] using hx)
    · cases h
  | .demonic a b, Γ, Γ', s', h, x, hx => by
    simp only [checkS, Option.bind_eq_bind, Option.bind_eq_some_iff, Prod.exists, Option.pure_def, Option.some.injEq,
      Prod.mk.injEq] at h
    obtain ⟨a', Γ₁, ha, b', Γ₂, hb, -, -⟩ := h
    simp only [RStmt.targets, List.mem_append] at hx
    exact hx.elim (checkSL_mutable a ha x) fun hx => (checkSL_mutable b hb x hx).back (checkSL_frame a ha).1.1
  | .angelic a b, Γ, Γ', s', h, x, hx => by
    simp only [checkS, Option.bind_eq_bind, Option.bind_eq_some_iff, Prod.exists, Option.pure_def, Option.some.injEq,
      Prod.mk.injEq] at h
    obtain ⟨a', Γ₁, ha, b', Γ₂, hb, -, -⟩ := h
    simp only [RStmt.targets, List.mem_append] at hx
    exact hx.elim (checkSL_mutable a ha x) fun hx => (checkSL_mutable b hb x hx).back (checkSL_frame a ha).1.1
  | .additive a b, Γ, Γ', s', h, x, hx => by
    simp only [checkS, Option.bind_eq_bind, Option.bind_eq_some_iff, Prod.exists, Option.pure_def, Option.some.injEq,
      Prod.mk.injEq] at h
    obtain ⟨a', Γ₁, ha, b', Γ₂, hb, -, -⟩ := h
    simp only [RStmt.targets, List.mem_append] at hx
    exact hx.elim (checkSL_mutable a ha x) fun hx => (checkSL_mutable b hb x hx).back (checkSL_frame a ha).1.1
  | .ite c a b, Γ, Γ', s', h, x, hx => by
    simp only [checkS, Option.bind_eq_bind, Option.bind_eq_some_iff, Prod.exists, Option.pure_def, Option.some.injEq,
      Prod.mk.injEq] at h
    obtain ⟨c', Γ₁, hc, a', Γ₂, ha, b', Γ₃, hb, c'', hcc, -, -⟩ := h
    simp only [RStmt.targets, List.mem_append] at hx
    have hF := (check_frame false c hc).1.1
    exact hx.elim (fun hx => (checkSL_mutable a ha x hx).back hF)
      fun hx => ((checkSL_mutable b hb x hx).back (checkSL_frame a ha).1.1).back hF
  | .while c b, Γ, Γ', s', h, x, hx => by
    simp only [checkS, Option.bind_eq_bind, Option.bind_eq_some_iff, Prod.exists, Option.pure_def, Option.some.injEq,
      Prod.mk.injEq] at h
    obtain ⟨c', Γ₁, hc, b', Γ₃, hb, c'', hcc, -, -⟩ := h
    simp only [RStmt.targets] at hx
    exact (checkSL_mutable b hb x hx).back (check_frame false c hc).1.1
  | .annot f args s, Γ, Γ', s', h, x, hx => by
    simp only [checkS, Option.bind_eq_bind, Option.bind_eq_some_iff, Prod.exists, Option.pure_def] at h
    obtain ⟨as, Γ₁, has, s₁, Γ₂, hs, -⟩ := h
    simp only [RStmt.targets] at hx
    exact (checkS_mutable s hs x hx).back (checkL_frame false args has).1.1
  | .var _ _ _, _, _, _, _, _, hx => by simp only [RStmt.targets] at hx; cases hx
  | .assert _ _, _, _, _, _, _, hx => by simp only [RStmt.targets] at hx; cases hx
  | .assume _ _, _, _, _, _, _, hx => by simp only [RStmt.targets] at hx; cases hx
  | .compare _ _, _, _, _, _, _, hx => by simp only [RStmt.targets] at hx; cases hx
  | .negate _, _, _, _, _, _, hx => by simp only [RStmt.targets] at hx; cases hx
  | .validate _, _, _, _, _, _, hx => by simp only [RStmt.targets] at hx; cases hx
  | .tick _, _, _, _, _, _, hx => by simp only [RStmt.targets] at hx; cases hx
  | .weigh _, _, _, _, _, _, hx => by simp only [RStmt.targets] at hx; cases hx
  | .label _, _, _, _, _, _, hx => by simp only [RStmt.targets] at hx; cases hx

theorem checkSL_mutable : ∀ (ss : List RStmt) {Γ Γ' : Ctx} {ss' : List RStmt}, checkSL ss Γ = some (ss', Γ') →
    ∀ x ∈ targetsB ss, Mutable Γ x
  | [], _, _, _, _, _, hx => by simp only [targetsB] at hx; cases hx
  | s :: ss, Γ, Γ', ss', h, x, hx => by
    simp only [checkSL, Option.bind_eq_bind, Option.bind_eq_some_iff, Prod.exists, Option.pure_def, Option.some.injEq,
      Prod.mk.injEq] at h
    obtain ⟨s', Γ₁, hs, ss'', Γ₂, hss, -, -⟩ := h
    simp only [targetsB, List.mem_append] at hx
    exact hx.elim (checkS_mutable s hs x) fun hx => (checkSL_mutable ss hss x hx).back (checkS_frame s hs).1.1

end

/-- What is read does not occur free. -/
theorem Reads.not_free {Γ : Ctx} {e : RExpr} {t : Ty} {E : Expr t} (h : Reads Γ e t E) (hc : e.Caught true Γ) {x : Ident} {u : RTy}
    (hx : Γ x = some (.var u .output)) (s : Ty) : ¬ E.Free ⟨x, s⟩ := by
  induction h with
  | @var t y k hy =>
    simp only [RExpr.Caught] at hc
    intro h
    cases h
    exact hc trivial _ hx
  | lit => exact fun h => h
  | @call f args ins t hf hl as h ih =>
    simp only [RExpr.Caught] at hc
    rintro ⟨i, hi⟩
    exact ih i (caughtL_mem hc _ (List.get_mem ..)) hi
  | ite _ _ _ ih1 ih2 ih3 =>
    simp only [RExpr.Caught] at hc
    rintro (h | h | h)
    · exact ih1 hc.1 h
    · exact ih2 hc.2.1 h
    · exact ih3 hc.2.2 h
  | bin _ _ _ ih1 ih2 =>
    simp only [RExpr.Caught] at hc
    rintro (h | h)
    · exact ih1 hc.1 h
    · exact ih2 hc.2 h
  | rel _ _ _ ih1 ih2 =>
    simp only [RExpr.Caught] at hc
    rintro (h | h)
    · exact ih1 hc.1 h
    · exact ih2 hc.2 h
  | un _ _ ih => simp only [RExpr.Caught] at hc; exact ih hc
  | embed _ ih => simp only [RExpr.Caught] at hc; exact ih hc
  | iverson _ ih => simp only [RExpr.Caught] at hc; exact ih hc
  | cast _ _ ih => simp only [RExpr.Caught] at hc; exact ih hc
  | quant _ _ _ _ _ _ _ ih => simp only [RExpr.Caught] at hc; exact fun h => ih hc.2.2 h.1
  | subst _ _ _ _ ih1 ih2 =>
    simp only [RExpr.Caught] at hc
    rintro (h | h)
    · exact ih1 hc.1 h
    · exact ih2 hc.2 h.1

theorem checkSpecs_caught : ∀ {ss ss' : List RSpec} {Γ Γ' : Ctx}, checkSpecs ss Γ = some (ss', Γ') →
    ∀ e, .requires e ∈ ss' → e.Caught true Γ'
  | [], ss', Γ, Γ', h, e, he => by
    simp only [checkSpecs, Option.some.injEq, Prod.mk.injEq] at h
    obtain ⟨rfl, rfl⟩ := h
    cases he
  | s :: ss, ss', Γ, Γ', h, e, he => by
    simp only [checkSpecs, Option.bind_eq_bind, Option.bind_eq_some_iff, Prod.exists, Option.pure_def, Option.some.injEq,
      Prod.mk.injEq] at h
    obtain ⟨s', Γ₁, hs, ss'', Γ₂, hss, rfl, rfl⟩ := h
    rcases List.mem_cons.1 he with rfl | he
    · cases s with
      | requires e =>
        simp only [checkSpec, Option.bind_eq_bind, Option.bind_eq_some_iff, Prod.exists, Option.pure_def, Option.some.injEq,
          Prod.mk.injEq, RSpec.requires.injEq] at hs
        obtain ⟨e₁, Γ₁, h1, e₂, hc, rfl, rfl⟩ := hs
        exact (tryCast_caught hc (check_caught true e h1)).ext (checkSpecs_frame hss).1.1
      | ensures e =>
        simp only [checkSpec, Option.bind_eq_bind, Option.bind_eq_some_iff, Option.pure_def, Option.some.injEq,
          Prod.mk.injEq, reduceCtorEq, false_and, and_false, exists_false] at hs
    · exact checkSpecs_caught hss e he

theorem Ext.outputs {Γ Γ' : Ctx} (h : Ext Γ Γ') {x : Ident} {t : RTy} (hx : Γ x = some (.var t .output)) :
    ∃ t', Γ' x = some (.var t' .output) := by
  rcases h x with h1 | ⟨k, t', h1, h2⟩
  · exact ⟨t, h1.trans hx⟩
  · rw [hx] at h1
    cases h1
    exact ⟨_, h2⟩

theorem checkProcDecl_pre {Γ Γ' : Ctx} {p p' : RProc} {P : Proc} (h : checkProcDecl p Γ = some (p', Γ')) (hP : ReadsProc Γ' p' P)
    {E : Expr .eureal} (hE : .requires E ∈ P.spec) {x : Ident} {u : RTy} (hx : Γ x = some (.var u .output)) (s : Ty) :
    ¬ E.Free ⟨x, s⟩ := by
  obtain ⟨i, hi, he⟩ := List.getElem_of_mem hE
  have hi' : i < p'.spec.length := hP.spec.length_eq ▸ hi
  have hr := hP.spec.get hi' hi
  simp only [List.get_eq_getElem, he] at hr
  have hmem := List.getElem_mem hi'
  generalize p'.spec[i] = rs at hr hmem
  cases hr with
  | @requires e _ h' =>
    simp only [checkProcDecl, Option.bind_eq_bind, Option.bind_eq_some_iff, Prod.exists, Option.pure_def] at h
    obtain ⟨spec, Γ₁, hspec, h⟩ := h
    have hsp : p'.spec = spec ∧ Ext Γ₁ Γ' := by
      split at h
      · simp only [Option.some.injEq, Prod.mk.injEq] at h
        obtain ⟨rfl, rfl⟩ := h
        exact ⟨rfl, .refl _⟩
      · simp only [Option.bind_eq_some_iff, Prod.exists, Option.some.injEq, Prod.mk.injEq] at h
        obtain ⟨b', Γ₂, hb', rfl, rfl⟩ := h
        exact ⟨rfl, (checkSL_frame _ hb').1.1⟩
    rw [hsp.1] at hmem
    have hc := (checkSpecs_caught hspec e hmem).ext hsp.2
    obtain ⟨u', hu⟩ := ((checkSpecs_frame hspec).1.1.trans hsp.2).outputs hx
    exact h'.not_free hc hu s

end Front
end Caesar
