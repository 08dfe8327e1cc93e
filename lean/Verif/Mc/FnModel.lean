import Verif.Mc.FnValue

/-!
# Exported models with functions
-/

open scoped ENNReal NNReal Classical

namespace Caesar.Mc
set_option linter.unusedSectionVars false

variable [Fns]

theorem conjunction_calls (cs : List JExpr) (n : String) : n ∈ (conjunction cs).calls ↔ ∃ c ∈ cs, n ∈ c.calls := by
  have key : ∀ (cs : List JExpr) (c : JExpr), n ∈ (cs.foldl (.bin .and) c).calls ↔ n ∈ c.calls ∨ ∃ c ∈ cs, n ∈ c.calls := by
    intro cs
    induction cs with
    | nil => intro c; simp
    | cons d cs ih =>
      intro c
      rw [List.foldl_cons, ih, JExpr.calls, List.mem_append]
      simp only [List.mem_cons, exists_eq_or_imp, or_assoc]
  cases cs with
  | nil => simp [conjunction, JExpr.calls]
  | cons c cs => rw [conjunction, key]; simp only [List.mem_cons, exists_eq_or_imp]

/-- Initial values are literals. -/
def NoCalls (ds : List JDecl) : Prop := ∀ d ∈ ds, ∀ e, d.init = some e → e.calls = []

theorem noCalls_append {a b : List JDecl} (ha : NoCalls a) (hb : NoCalls b) : NoCalls (a ++ b) :=
  fun d hd => (List.mem_append.1 hd).elim (ha d) (hb d)

theorem noCalls_mk {x : Var} {i : Option JExpr} (hi : ∀ e, i = some e → e.calls = []) {ds : List JDecl} (h : mkDecl x i = some ds) :
    NoCalls ds := by
  rw [(mkDecl_some h).2]
  intro d hd e he
  rw [List.mem_singleton.1 hd] at he
  exact hi e he

theorem arbitrary_calls {t : Ty} {e : JExpr} (h : arbitraryInit t = some e) : e.calls = [] := by
  cases t <;> cases h <;> rfl

theorem noCalls_inputs {xs : List Var} {ds : List JDecl} (h : inputDecls xs = some ds) : NoCalls ds := by
  induction xs generalizing ds with
  | nil => cases h; exact fun d hd => nomatch hd
  | cons x xs ih =>
    rw [inputDecls] at h
    dsimp only [bind, Option.bind] at h
    split at h
    next => cases h
    next d h1 =>
      dsimp only at h
      split at h
      next => cases h
      next d' h2 => cases h; exact noCalls_append (noCalls_mk (i := none) (fun e he => nomatch he) h1) (ih h2)

theorem noCalls_outputs {u : Bool} {xs : List Var} {ds : List JDecl} (h : outputDecls u xs = some ds) : NoCalls ds := by
  induction xs generalizing ds with
  | nil => cases h; exact fun d hd => nomatch hd
  | cons x xs ih =>
    rw [outputDecls] at h
    dsimp only [bind, Option.bind] at h
    split at h
    next => cases h
    next d h1 =>
      dsimp only at h
      split at h
      next => cases h
      next d' h2 =>
        cases h
        refine noCalls_append (noCalls_mk (fun e he => ?_) h1) (ih h2)
        cases u
        · exact arbitrary_calls he
        · cases he

theorem noCalls_mapM {xs : List Var} {dss : List (List JDecl)} (h : xs.mapM (fun x => mkDecl x (arbitraryInit x.ty)) = some dss) :
    NoCalls dss.flatten := by
  induction xs generalizing dss with
  | nil => cases h; exact fun d hd => nomatch hd
  | cons x xs ih =>
    rw [List.mapM_cons] at h
    dsimp only [bind, Option.bind] at h
    split at h
    next => cases h
    next d h1 =>
      dsimp only at h
      split at h
      next => cases h
      next d' h2 =>
        cases h
        rw [List.flatten_cons]
        exact noCalls_append (noCalls_mk (fun e he => arbitrary_calls he) h1) (ih h2)

theorem const_calls {t : Ty} {e : Expr t} (h : isConstant e = true) {j : JExpr} (hj : translate e = some j) : j.calls = [] := by
  cases e with
  | lit l => exact lit_calls l hj
  | _ => cases h

theorem noCalls_locals {S : Stmt} {ds : List JDecl} (h : localDecls S = some ds) : NoCalls ds := by
  have nil : NoCalls [] := fun d hd => nomatch hd
  have two : ∀ {a b : Stmt} {ds : List JDecl}, (∀ {ds}, localDecls a = some ds → NoCalls ds) → (∀ {ds}, localDecls b = some ds → NoCalls ds) →
      (do return (← localDecls a) ++ (← localDecls b) : Option (List JDecl)) = some ds → NoCalls ds := by
    intro a b ds ha hb h
    dsimp only [bind, Option.bind] at h
    split at h
    next => cases h
    next d h1 =>
      dsimp only at h
      split at h
      next => cases h
      next d' h2 => cases h; exact noCalls_append (ha h1) (hb h2)
  induction S generalizing ds with
  | seq a b iha ihb => exact two iha ihb h
  | demonic a b iha ihb => exact two iha ihb h
  | angelic a b iha ihb => exact two iha ihb h
  | additive a b iha ihb => exact two iha ihb h
  | ite c a b iha ihb => exact two iha ihb h
  | «while» c a ih => exact ih h
  | annot _ a ih => exact ih h
  | varDecl x => exact noCalls_mk (i := none) (fun e he => nomatch he) h
  | varInit x e =>
    rw [localDecls] at h
    split at h
    next hc =>
      dsimp only [bind, Option.bind] at h
      split at h
      next => cases h
      next j hj =>
        refine noCalls_mk (fun e' he => ?_) h
        cases he
        exact const_calls hc hj
    next => exact noCalls_mk (fun e he => arbitrary_calls he) h
  | sample b x d =>
    cases b with
    | true => exact noCalls_mk (fun e he => arbitrary_calls he) h
    | false => cases h; exact nil
  | call b lhs f args =>
    cases b with
    | true =>
      rw [localDecls] at h
      dsimp only [bind, Option.bind] at h
      split at h
      next => cases h
      next d h1 => cases h; exact noCalls_mapM h1
    | false => cases h; exact nil
  | _ => cases h; exact nil

/-- The functions of a model are those that are needed. -/
theorem model_fns {o : McOptions} {p : Proc} {M : JModel} (h : procToModel o p = some M) :
    ∃ m, (∀ n, n ∈ m ↔ M.Calls n) ∧ translateFns m = some M.functions := by
  cases hb : p.body with
  | none => unfold procToModel at h; rw [hb] at h; cases h
  | some body =>
    obtain ⟨pres, stmts, posts, rest, start, b, j, locals, ins, outs, fns, h1, h2, h3, h4, h5, h6, h7, hfn, rfl⟩ := procToModel_some hb h
    refine ⟨_, fun n => ?_, hfn⟩
    have hno := noCalls_append (noCalls_append (noCalls_locals h4) (noCalls_inputs h5)) (noCalls_outputs h6)
    unfold JModel.Calls
    rw [List.mem_append, List.mem_append, conjunction_calls, List.mem_flatten, List.mem_flatten]
    constructor
    · rintro ((⟨l, hl, hn⟩ | hn) | ⟨l, hl, hn⟩)
      · obtain ⟨c, hc, rfl⟩ := List.mem_map.1 hl
        exact .inl ⟨c, hc, hn⟩
      · exact .inr (.inl ⟨.fin, j, rfl, hn⟩)
      · obtain ⟨e, he, rfl⟩ := List.mem_map.1 hl
        exact .inr (.inr (.inl ⟨e, List.mem_append_left _ he, hn⟩))
    · rintro (⟨c, hc, hn⟩ | ⟨l, e, he, hn⟩ | ⟨e, he, hn⟩ | ⟨d, hd, e, he, hn⟩)
      · exact .inl (.inl ⟨_, List.mem_map.2 ⟨c, hc, rfl⟩, hn⟩)
      · have he : (if l = Loc.fin then some j else none) = some e := he
        split at he
        · cases he; exact .inl (.inr hn)
        · cases he
      · rcases List.mem_append.1 he with he | he
        · exact .inr ⟨_, List.mem_map.2 ⟨e, he, rfl⟩, hn⟩
        · simp only [List.mem_cons, List.not_mem_nil, or_false] at he
          rcases he with rfl | rfl <;> cases hn
      · rw [hno d hd e he] at hn
        cases hn

section
variable [Doms] [Interp] [ops : JOps]

/-- The meaning of JANI in which the functions that are not exported have the meaning they have in HeyVL. -/
theorem model_patch (hd : SameDiv) (hF : FnsScoped) (hI : FnsMeaning) {o : McOptions} {p : Proc} {M : JModel}
    (h : procToModel o p = some M) (hJ : M.FnsDefined) (hrec : M.NotRecursive) :
    ∃ ops' : JOps, @SameOps _ _ _ ops' ∧ AgreeOps ops ops' M.Calls := by
  obtain ⟨m, hm, hfn⟩ := model_fns h
  obtain ⟨rank, hrank⟩ := hrec
  have hs := fns_same hd hF hI hfn hJ hrank
  let P : String → Prop := (· ∈ M.functions.map JFun.name)
  refine ⟨patch ops P, patch_same hd hF.names hs, rfl, rfl, fun n hn => ?_⟩
  exact (patch_agree ops P).func n (((translateFns_some hfn).1 n).2 (.mentioned ((hm n).2 hn)))

/-- The value of the model in an initial state is the expectation of the body, also with functions. -/
theorem model_value_fns (hd : SameDiv) (hF : FnsScoped) (hI : FnsMeaning) (C : SemCtx) (hC : C.loop = .lfp)
    (hcall : ∀ l f a, Monotone (C.call l f a)) {o : McOptions} {p : Proc} {body : Stmt} (hb : p.body = some body) {M : JModel}
    (h : procToModel o p = some M) (hJ : M.FnsDefined) (hrec : M.NotRecursive) (hsc : ProcScoped p body) (hsup : Supported body)
    (hq : o.skipQuantPre = true → ¬ LeadingQuant (blockStmts body)) {σ : Env} {s : JState} (hinit : M.Initial s)
    (hr : Rep (paramVars p) σ s) : M.automaton.value p.dir M.initial s = vcSem C body p.post σ := by
  obtain ⟨ops', h1, h2⟩ := model_patch hd hF hI h hJ hrec
  have hA : M.automaton.CallsIn M.Calls := ⟨fun e he n hn => .inr (.inr (.inl ⟨e, he, hn⟩)), fun l e he n hn => .inr (.inl ⟨l, e, he, hn⟩)⟩
  rw [h2.value hA]
  refine @model_value _ _ _ ops' h1 C hC hcall o p body hb M h hsc hsup hq σ s ⟨?_, fun d hd e he => ?_⟩ hr
  · rw [← h2.eval s M.restrict fun n hn => .inl hn]
    exact hinit.1
  · rw [← h2.eval s e fun n hn => .inr (.inr (.inr ⟨d, hd, e, he, hn⟩))]
    exact hinit.2 d hd e he

/-- The initial states, also with functions. -/
theorem restrict_iff_fns (hd : SameDiv) (hF : FnsScoped) (hI : FnsMeaning) {o : McOptions} {p : Proc} {body : Stmt}
    (hb : p.body = some body) {M : JModel} (h : procToModel o p = some M) (hJ : M.FnsDefined) (hrec : M.NotRecursive)
    (hsc : ProcScoped p body) {σ : Env} {s : JState} (hr : Rep (paramVars p) σ s)
    (hno : ∀ a r, blockStmts body = a :: r → ∀ d e, throughAnnotation a ≠ .assume d e) :
    (M.restrict.eval s).holds ↔ ∀ e ∈ p.requires, extractEmbed e ≠ none → e.ev σ = neutral p.dir := by
  obtain ⟨ops', h1, h2⟩ := model_patch hd hF hI h hJ hrec
  rw [h2.eval s M.restrict fun n hn => .inl hn]
  exact @restrict_iff _ _ _ ops' h1 o p body hb M h hsc σ s hr hno

end

end Caesar.Mc
