import Verif.Front.Establish
import Verif.Props.C27

/-!
# Variables of the procedures of accepted files
-/

namespace Caesar
namespace Front

/-- What is known about the file and the built-in names. -/
structure FileOk (anns : Anns) (Γ₀ : Ctx) (us : List RUnit) : Prop where
  fresh : Fresh Γ₀ (bindsModule anns us)
  noVars : ∀ x t k, Γ₀ x ≠ some (.var t k)
  anns : ∀ n g k, anns n = some (g, k) → Γ₀ g = some (.annot k)

/-- The context after name resolution. -/
abbrev fileCtx (anns : Anns) (Γ₀ : Ctx) (us : List RUnit) : Ctx := declCtx Γ₀ (bindsModule anns us)

/-- The identifiers that a procedure declares. -/
def SProc.own (anns : Anns) (p : SProc) : List Ident := (bindsProc anns p).map Prod.fst

theorem SProc.own_eq (anns : Anns) (p : SProc) :
    p.own anns = p.proc.paramNames ++ ((bindsSpecs p.proc.spec).map Prod.fst ++ idsB anns p.proc.block) := by
  simp only [SProc.own, bindsProc, List.map_append, paramDecls_fst, idsB]

theorem pairwise_disjoint {A B : Type} {f : A → List B} : ∀ {as : List A}, as.Pairwise (fun a b => List.Disjoint (f a) (f b)) → ∀ {a b : A}, a ∈ as → b ∈ as → a ≠ b →
    List.Disjoint (f a) (f b)
  | [], _, _, _, h, _, _ => nomatch h
  | c :: cs, hp, a, b, ha, hb, hne => by
    obtain ⟨h1, h2⟩ := List.pairwise_cons.1 hp
    rcases List.mem_cons.1 ha with rfl | ha'
    · rcases List.mem_cons.1 hb with rfl | hb'
      · exact (hne rfl).elim
      · exact h1 b hb'
    · rcases List.mem_cons.1 hb with rfl | hb'
      · exact (h1 a ha').symm
      · exact pairwise_disjoint h2 ha' hb' hne

section
variable {anns : Anns} {Γ₀ : Ctx} {us : List RUnit} (ok : FileOk anns Γ₀ us)
include ok

theorem FileOk.decls : DeclsIn (fileCtx anns Γ₀ us) (us.flatMap RUnit.decl ++ us.flatMap (bindsUnit anns)) :=
  fun _ hd => declCtx_mem ok.fresh.nodup hd

theorem FileOk.unit {u : RUnit} (hu : u ∈ us) {d : Ident × RDecl} (hd : d ∈ bindsUnit anns u) : fileCtx anns Γ₀ us d.1 = some d.2 :=
  ok.decls d (List.mem_append_right _ (List.mem_flatMap.2 ⟨u, hu, hd⟩))

theorem FileOk.own_nodup {p : SProc} (hp : .proc p ∈ us) : (p.own anns).Nodup := by
  have := ok.fresh.nodup
  simp only [bindsModule, List.map_append] at this
  have := this.of_append_right
  rw [List.map_flatMap] at this
  exact (List.nodup_flatMap.1 this).1 _ hp

/-- Different parts of a file declare different identifiers. -/
theorem FileOk.disjoint {u v : RUnit} (hu : u ∈ us) (hv : v ∈ us) (hne : u ≠ v) {x : Ident} (hx : x ∈ (bindsUnit anns u).map Prod.fst) :
    x ∉ (bindsUnit anns v).map Prod.fst := by
  have := ok.fresh.nodup
  simp only [bindsModule, List.map_append] at this
  have := this.of_append_right
  rw [List.map_flatMap] at this
  have hp := (List.nodup_flatMap.1 this).2
  exact fun hx' => pairwise_disjoint (f := fun u => (bindsUnit anns u).map Prod.fst) hp hu hv hne hx hx'

/-- What is visible outside is not declared inside. -/
theorem FileOk.outer {env : Env} (ho : Outer Γ₀ us env) {p : SProc} (hp : .proc p ∈ us) {x : Ident} (hx : x ∈ p.own anns) : ¬ env.Sees x := by
  intro hs
  obtain ⟨d, hd, rfl⟩ := List.mem_map.1 hx
  have hmem : d ∈ us.flatMap (bindsUnit anns) := List.mem_flatMap.2 ⟨_, hp, hd⟩
  rcases ho _ hs with h | ⟨u, hu, h | h⟩
  · exact h (ok.fresh.new d (List.mem_append_right _ hmem))
  · have := ok.fresh.nodup
    simp only [bindsModule, List.map_append] at this
    refine List.disjoint_of_nodup_append this (a := d.1) ?_ (List.mem_map_of_mem hmem)
    rw [List.map_flatMap]
    refine List.mem_flatMap.2 ⟨u, hu, ?_⟩
    cases u <;> simp [RUnit.names, RUnit.decl] at h ⊢ <;> exact h
  · cases u with
    | proc q => exact nomatch h
    | raw b => exact nomatch h
    | domain D items =>
      refine ok.disjoint hu hp (by simp) (x := d.1) ?_ hx
      simp only [bindsUnit, List.map_append, itemDecls_fst]
      exact List.mem_append_left _ h

/-- No variables are visible outside. -/
theorem FileOk.outer_var {env : Env} (ho : Outer Γ₀ us env) {x : Ident} (hs : env.Sees x) (t : RTy) (k : VarKind) :
    fileCtx anns Γ₀ us x ≠ some (.var t k) := by
  intro hx
  rcases ho _ hs with h | ⟨u, hu, h | h⟩
  · cases hd : Γ₀ x with
    | none => exact h hd
    | some d =>
      have := hx.symm.trans (ok.fresh.old hd)
      cases this
      exact ok.noVars _ _ _ hd
  · cases u with
    | raw b => exact nomatch h
    | proc p =>
      cases List.mem_singleton.1 h
      have := ok.decls (p.proc.name, procDecl p.proc) (List.mem_append_left _ (List.mem_flatMap.2 ⟨_, hu, List.mem_singleton.2 rfl⟩))
      exact nomatch hx.symm.trans this
    | domain D items =>
      cases List.mem_singleton.1 h
      have := ok.decls (x, .other) (List.mem_append_left _ (List.mem_flatMap.2 ⟨_, hu, List.mem_singleton.2 rfl⟩))
      exact nomatch hx.symm.trans this
  · cases u with
    | raw b => exact nomatch h
    | proc p => exact nomatch h
    | domain D items =>
      obtain ⟨i, hi, rfl⟩ := List.mem_map.1 h
      have := ok.unit hu (d := i.decl) (List.mem_append_left _ (List.mem_map.2 ⟨i, hi, rfl⟩))
      cases i <;> exact nomatch hx.symm.trans this

/-- Types of input parameters. -/
theorem FileOk.input {p : SProc} (hp : .proc p ∈ us) {q : Param} (hq : q ∈ p.proc.inputs) :
    fileCtx anns Γ₀ us q.var.id = some (.var (.val q.var.ty) .input) :=
  ok.unit hp (d := (q.var.id, .var (.val q.var.ty) .input)) (List.mem_append_left _ (List.mem_append_left _ (List.mem_map.2 ⟨q, hq, rfl⟩)))

/-- Types of output parameters. -/
theorem FileOk.output {p : SProc} (hp : .proc p ∈ us) {v : Var} (hv : v ∈ p.proc.outputs) :
    fileCtx anns Γ₀ us v.id = some (.var (.val v.ty) .output) :=
  ok.unit hp (d := (v.id, .var (.val v.ty) .output)) (List.mem_append_left _ (List.mem_append_right _ (List.mem_map.2 ⟨v, hv, rfl⟩)))

end

theorem VarIn.back {Γ Γ' : Ctx} (h : Ext Γ Γ') {v : Var} (hv : VarIn Γ' v) : ∃ t k, Γ v.id = some (.var t k) := by
  obtain ⟨k, hk⟩ := hv
  rcases h v.id with h1 | ⟨k', t', h1, -⟩
  · exact ⟨_, k, h1.symm.trans hk⟩
  · exact ⟨_, _, h1⟩

theorem Env.bindAll_names : ∀ {xs : List Ident} {env env' : Env}, env.bindAll xs = some env' →
    (xs.map Ident.name).Nodup ∧ ∀ x ∈ xs, env.here x.name = false
  | [], _, _, _ => ⟨.nil, fun _ h => nomatch h⟩
  | x :: xs, env, env', h => by
    simp only [Env.bindAll, Option.bind_eq_bind, Option.bind_eq_some_iff] at h
    obtain ⟨env₁, h1, h2⟩ := h
    obtain ⟨h3, h4⟩ := Env.bindAll_names h2
    obtain ⟨hh, rfl⟩ := Env.bind_some h1
    have hne : ∀ y ∈ xs, y.name ≠ x.name := by
      intro y hy he
      have := h4 y hy
      simp only [he, Function.update_self] at this
      exact nomatch this
    refine ⟨?_, ?_⟩
    · rw [List.map_cons, List.nodup_cons]
      refine ⟨fun hm => ?_, h3⟩
      obtain ⟨y, hy, he⟩ := List.mem_map.1 hm
      exact hne y hy he
    · rintro y (_ | ⟨_, hy⟩)
      · exact hh
      · have := h4 y hy
        simpa only [Function.update_of_ne (hne y hy)] using this

theorem mem_map_strip {s : RSpec} {ss : List RSpec} (h : s.strip ∈ ss.map RSpec.strip) : ∃ t ∈ ss, t.strip = s.strip := by
  obtain ⟨t, ht, he⟩ := List.mem_map.1 h
  exact ⟨t, ht, he⟩

theorem lexSpecs_mem : ∀ {ss ss' : List RSpec} {env : Env}, lexSpecs env ss = some ss' → ∀ s' ∈ ss', ∃ e, lexE env e = some s'.expr
  | [], ss', env, h, s', hs => by
    simp only [lexSpecs, Option.pure_def, Option.some.injEq] at h
    subst h
    exact nomatch hs
  | .requires e :: ss, ss', env, h, s', hs => by
    simp only [lexSpecs, Option.bind_eq_bind, Option.bind_eq_some_iff, Option.pure_def, Option.some.injEq] at h
    obtain ⟨e', he, ss₁, h1, rfl⟩ := h
    rcases List.mem_cons.1 hs with rfl | hs
    · exact ⟨e, he⟩
    · exact lexSpecs_mem h1 s' hs
  | .ensures e :: ss, ss', env, h, s', hs => by
    simp only [lexSpecs, Option.bind_eq_bind, Option.bind_eq_some_iff, Option.pure_def, Option.some.injEq] at h
    obtain ⟨e', he, ss₁, h1, rfl⟩ := h
    rcases List.mem_cons.1 hs with rfl | hs
    · exact ⟨e, he⟩
    · exact lexSpecs_mem h1 s' hs

/-- The expression of a specification. -/
def specExpr : ProcSpec → Expr .eureal
  | .requires e => e
  | .ensures e => e

theorem forall2_mem_right {A B : Type} {R : A → B → Prop} : ∀ {as : List A} {bs : List B}, List.Forall₂ R as bs → ∀ b ∈ bs, ∃ a ∈ as, R a b
  | [], _, .nil, _, h => nomatch h
  | a :: as, b :: bs, .cons h hs, c, hc => by
    rcases List.mem_cons.1 hc with rfl | hc
    · exact ⟨a, .head _, h⟩
    · obtain ⟨a', h1, h2⟩ := forall2_mem_right hs c hc
      exact ⟨a', .tail _ h1, h2⟩

theorem freeId_of_strip {e e' : RExpr} (h : e.strip = e'.strip) {x : Ident} (hx : e.FreeId x) : e'.FreeId x :=
  (freeId_strip x e').1 (h ▸ (freeId_strip x e).2 hx)

theorem usesB_of_strip {sl : Ident → Prop} {ss ss' : List RStmt} (h : stripB ss = stripB ss') {x : Ident} (hx : UsesB sl x ss) : UsesB sl x ss' :=
  (usesB_strip sl x ss').1 (h ▸ (usesB_strip sl x ss).2 hx)

/-- What is known about a procedure of an accepted file. -/
structure ProcFacts (anns : Anns) (Γ' : Ctx) (us : List RUnit) (p : SProc) (P : Proc) : Prop where
  src : .proc p ∈ us
  name : P.name = p.proc.name
  dir : P.dir = p.proc.dir
  inputs : P.inputs = p.proc.inputs
  outputs : P.outputs = p.proc.outputs
  paramNames : (p.proc.paramNames.map Ident.name).Nodup
  spec : ∀ s ∈ P.spec, ∀ v, (specExpr s).Free v → v ∈ P.ins ∨ v ∈ P.outputs
  pre : ∀ e, .requires e ∈ P.spec → ∀ v ∈ P.outputs, ¬ e.Free v
  body : ∀ B, P.body = some B → ∃ b, ReadsB Γ' b B ∧ (∀ x, UsesB (SliceAnn Γ') x b → (∃ t k, Γ' x = some (.var t k)) → x ∈ p.own anns) ∧
    LocB (SliceAnn Γ') b ∧ ∀ x ∈ initsB b, x ∉ p.proc.paramNames

theorem ProcFrom.facts {anns : Anns} {Γ₀ Γ' : Ctx} {us : List RUnit} (ok : FileOk anns Γ₀ us) {p p' : SProc} (hE : Ext (fileCtx anns Γ₀ us) Γ')
    (h : ProcFrom anns Γ₀ (fileCtx anns Γ₀ us) Γ' us p p') {P : Proc} (hP : ReadsProc Γ' p'.proc P) : ProcFacts anns Γ' us p P := by
  obtain ⟨hs, env, inner, spec, body, Γ₁, Γ₂, h1, h2, h3, h4, h5, h6, h7⟩ := h
  have hstrip := checkProcDecl_strip h6
  have hname : p'.proc.name = p.proc.name := (congrArg RProc.name hstrip :)
  have hdir : p'.proc.dir = p.proc.dir := (congrArg RProc.dir hstrip :)
  have hins : p'.proc.inputs = p.proc.inputs := (congrArg RProc.inputs hstrip :)
  have houts : p'.proc.outputs = p.proc.outputs := (congrArg RProc.outputs hstrip :)
  have hspec : p'.proc.spec.map RSpec.strip = spec.map RSpec.strip := congrArg RProc.spec hstrip
  have hbody : p'.proc.body.map stripB = body.map stripB := congrArg RProc.body hstrip
  -- visible variables are parameters
  have hvis : ∀ x, inner.Sees x → (∃ t k, Γ' x = some (.var t k)) → x ∈ p.proc.paramNames := by
    rintro x hx ⟨t, k, hk⟩
    rcases hx.of_bindAll h2 with h | h
    · exact h
    · exfalso
      rcases hE x with h8 | ⟨k', t', h8, -⟩
      · exact ok.outer_var h1 (x := x) h t k (h8 ▸ hk)
      · exact ok.outer_var h1 (x := x) h _ _ h8
  have hparam : ∀ v : Var, v.id ∈ p.proc.paramNames → VarIn Γ' v → v ∈ P.ins ∨ v ∈ P.outputs := by
    intro v hv hin
    rcases List.mem_append.1 hv with hv | hv
    · obtain ⟨q, hq, he⟩ := List.mem_map.1 hv
      refine .inl ?_
      have : VarIn Γ' q.var := ⟨_, hE.val (ok.input hs hq)⟩
      rw [hin.eq this he.symm]
      unfold Proc.ins
      rw [hP.inputs, hins]
      exact List.mem_map.2 ⟨q, hq, rfl⟩
    · obtain ⟨q, hq, he⟩ := List.mem_map.1 hv
      refine .inr ?_
      have : VarIn Γ' q := ⟨_, hE.val (ok.output hs hq)⟩
      rw [hin.eq this he.symm, hP.outputs, houts]
      exact hq
  refine ⟨hs, hP.name.trans hname, hP.dir.trans hdir, hP.inputs.trans hins, hP.outputs.trans houts, (Env.bindAll_names h2).1, ?_, ?_, ?_⟩
  · intro s hs' v hv
    obtain ⟨t, ht, hr⟩ := forall2_mem_right hP.spec s hs'
    have hfree : t.expr.FreeId v.id ∧ VarIn Γ' v := by
      cases hr with
      | requires h => exact h.free hv
      | ensures h => exact h.free hv
    obtain ⟨t', ht', he⟩ := mem_map_strip (ss := spec) (s := t) (hspec ▸ List.mem_map.2 ⟨t, ht, rfl⟩)
    obtain ⟨e, hlex⟩ := lexSpecs_mem h3 t' ht'
    have hf' : t'.expr.FreeId v.id := by
      refine freeId_of_strip ?_ hfree.1
      cases t <;> cases t' <;> simp only [RSpec.strip, RSpec.requires.injEq, RSpec.ensures.injEq, reduceCtorEq] at he <;> exact he.symm
    refine hparam v (hvis _ (lexE_sees e hlex hf') ?_) hfree.2
    obtain ⟨k, hk⟩ := hfree.2
    exact ⟨_, k, hk⟩
  · intro e he v hv hf
    obtain ⟨t, ht, hr⟩ := forall2_mem_right hP.spec _ he
    rw [hP.outputs, houts] at hv
    have hout := ok.output hs hv
    cases hr with
    | @requires e' _ hr =>
      have h9 : Γ' v.id = some (.var (.val v.ty) .output) := hE.val hout
      simp only [checkProcDecl, Option.bind_eq_bind, Option.bind_eq_some_iff, Prod.exists, Option.pure_def] at h6
      obtain ⟨spec', Γ₃, hsp, h6⟩ := h6
      have hsp' : p'.proc.spec = spec' ∧ Ext Γ₃ Γ₂ := by
        split at h6
        · simp only [Option.some.injEq, Prod.mk.injEq] at h6
          obtain ⟨h10, rfl⟩ := h6
          exact ⟨by rw [← h10], .refl _⟩
        · simp only [Option.bind_eq_some_iff, Prod.exists, Option.some.injEq, Prod.mk.injEq] at h6
          obtain ⟨b', Γ₄, hb', h10, rfl⟩ := h6
          exact ⟨by rw [← h10], (checkSL_frame _ hb').1.1⟩
      have hc := ((checkSpecs_caught hsp e' (hsp'.1 ▸ ht)).ext hsp'.2).ext h7
      exact hr.not_free hc h9 v.ty hf
  · intro B hB
    have hrb := hP.body
    rw [hB] at hrb
    generalize hpb : p'.proc.body = pb at hrb hbody
    cases hrb with
    | @some b _ hrb =>
      cases hbb : body with
      | none => rw [hbb] at hbody; exact nomatch hbody
      | some b₁ =>
        rw [hbb] at hbody h4
        simp only [Option.map_some, Option.some.injEq] at hbody
        cases hsb : p.proc.body with
        | none => rw [hsb] at h4; exact nomatch h4
        | some b₀ =>
          rw [hsb] at h4
          simp only [lexBody, Option.bind_eq_bind, Option.bind_eq_some_iff, Option.pure_def, Option.some.injEq] at h4
          obtain ⟨_, h4, rfl⟩ := h4
          have hblock : p.proc.block = b₀ := by simp [RProc.block, hsb]
          have hown := p.own_eq anns
          rw [hblock] at hown
          have hnd := ok.own_nodup hs
          have hA : ∀ n g k, anns n = some (g, k) → ¬ SliceAnn Γ' g → ∀ j m, k ≠ .slice j m := by
            rintro n g k hn hsl j m rfl
            exact hsl ⟨j, m, hE.decl (fun _ h => nomatch h) (ok.fresh.old (ok.anns n g _ hn))⟩
          have hsee : ∀ x ∈ idsB anns b₀, ¬ inner.Sees x := by
            intro x hx hse
            rcases hse.of_bindAll h2 with h | h
            · rw [hown] at hnd
              exact List.disjoint_of_nodup_append hnd h (List.mem_append_right _ hx)
            · refine ok.outer h1 hs (x := x) ?_ h
              rw [hown]
              exact List.mem_append_right _ (List.mem_append_right _ hx)
          have hloc := lexB_loc hA b₀ h4 (by rw [hown] at hnd; exact hnd.of_append_right.of_append_right) hsee
          have hinit : initsB b = initsB b₀ := by rw [← initsB_strip, hbody, initsB_strip, hloc.2]
          refine ⟨b, hrb, ?_, ?_, ?_⟩
          · intro x hx hvar
            rw [hown]
            rcases lexB_sees hA b₀ h4 (usesB_of_strip hbody hx) with h | h
            · exact List.mem_append_left _ (hvis x h hvar)
            · exact List.mem_append_right _ (List.mem_append_right _ h)
          · exact (locB_strip _ _).1 (hbody ▸ (locB_strip _ _).2 hloc.1)
          · intro x hx hp
            rw [hinit] at hx
            rw [hown] at hnd
            exact List.disjoint_of_nodup_append hnd hp (List.mem_append_right _ (initsB_ids anns hx))

end Front
end Caesar
