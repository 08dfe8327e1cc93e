import Verif.Front.LocalsReads

/-!
# Procedures of accepted files

What the front end checks is what the phases after it rely on.
-/

namespace Caesar
namespace Front

/-! ## Which declarations are procedures -/

/-- The declaration is no procedure. -/
def NotProc (d : RDecl) : Prop := ∀ ins outs, d ≠ .proc ins outs

/-- `NotProc` for lists. -/
def NoProc (ds : List (Ident × RDecl)) : Prop := ∀ d ∈ ds, NotProc d.2

theorem NotProc.var {t : RTy} {k : VarKind} : NotProc (.var t k) := fun _ _ h => nomatch h

theorem NotProc.other : NotProc .other := fun _ _ h => nomatch h

theorem NoProc.append {ds ds' : List (Ident × RDecl)} (h : NoProc ds) (h' : NoProc ds') : NoProc (ds ++ ds') := by
  intro d hd
  rcases List.mem_append.1 hd with hd | hd
  · exact h d hd
  · exact h' d hd

theorem NoProc.cons {x : Ident} {d : RDecl} {ds : List (Ident × RDecl)} (hd : NotProc d) (h : NoProc ds) : NoProc ((x, d) :: ds) := by
  intro e he
  rcases List.mem_cons.1 he with rfl | he
  · exact hd
  · exact h e he

theorem NoProc.nil : NoProc [] := fun _ h => nomatch h

mutual

theorem bindsE_noProc : ∀ e, NoProc (bindsE e)
  | .var _ _ => by simp only [bindsE]; exact .nil
  | .call _ _ args => by simp only [bindsE]; exact bindsL_noProc args
  | .ite _ c a b => by simp only [bindsE]; exact (bindsE_noProc c).append ((bindsE_noProc a).append (bindsE_noProc b))
  | .bin _ _ a b => by simp only [bindsE]; exact (bindsE_noProc a).append (bindsE_noProc b)
  | .un _ _ a => by simp only [bindsE]; exact bindsE_noProc a
  | .cast _ a => by simp only [bindsE]; exact bindsE_noProc a
  | .quant _ _ vs tr a => by
    simp only [bindsE]
    refine NoProc.append ?_ ((bindsLL_noProc tr).append (bindsE_noProc a))
    intro d hd
    obtain ⟨v, -, rfl⟩ := List.mem_map.1 hd
    exact .var
  | .subst _ x v a => by
    simp only [bindsE]
    exact (bindsE_noProc v).append (.cons .var (bindsE_noProc a))
  | .lit _ _ => by simp only [bindsE]; exact .nil

theorem bindsL_noProc : ∀ es, NoProc (bindsL es)
  | [] => by simp only [bindsL]; exact .nil
  | e :: es => by simp only [bindsL]; exact (bindsE_noProc e).append (bindsL_noProc es)

theorem bindsLL_noProc : ∀ ess, NoProc (bindsLL ess)
  | [] => by simp only [bindsLL]; exact .nil
  | es :: ess => by simp only [bindsLL]; exact (bindsL_noProc es).append (bindsLL_noProc ess)

end

theorem bindsArgs_noProc (k : AnnKind) (args : List RExpr) : NoProc (bindsArgs k args) := by
  unfold bindsArgs
  split
  · exact .nil
  · exact .cons .var (bindsL_noProc _)
  · exact (bindsE_noProc _).append ((bindsE_noProc _).append
      (.cons .var ((bindsE_noProc _).append (bindsE_noProc _))))
  · exact bindsL_noProc _

mutual

theorem bindsS_noProc (anns : Anns) : ∀ s, NoProc (bindsS anns s)
  | .seq ss => by simp only [bindsS]; exact bindsB_noProc anns ss
  | .var x t none => by simp only [bindsS]; exact .cons .var .nil
  | .var x t (some e) => by simp only [bindsS]; exact (bindsE_noProc e).append (.cons .var .nil)
  | .assign _ e => by simp only [bindsS]; exact bindsE_noProc e
  | .havoc _ _ => by simp only [bindsS]; exact .nil
  | .assert _ e => by simp only [bindsS]; exact bindsE_noProc e
  | .assume _ e => by simp only [bindsS]; exact bindsE_noProc e
  | .compare _ e => by simp only [bindsS]; exact bindsE_noProc e
  | .negate _ => by simp only [bindsS]; exact .nil
  | .validate _ => by simp only [bindsS]; exact .nil
  | .tick e => by simp only [bindsS]; exact bindsE_noProc e
  | .weigh e => by simp only [bindsS]; exact bindsE_noProc e
  | .demonic a b => by simp only [bindsS]; exact (bindsB_noProc anns a).append (bindsB_noProc anns b)
  | .angelic a b => by simp only [bindsS]; exact (bindsB_noProc anns a).append (bindsB_noProc anns b)
  | .additive a b => by simp only [bindsS]; exact (bindsB_noProc anns a).append (bindsB_noProc anns b)
  | .ite c a b => by simp only [bindsS]; exact (bindsE_noProc c).append ((bindsB_noProc anns a).append (bindsB_noProc anns b))
  | .while c b => by simp only [bindsS]; exact (bindsE_noProc c).append (bindsB_noProc anns b)
  | .annot f args s => by
    simp only [bindsS]
    refine NoProc.append ?_ (bindsS_noProc anns s)
    split
    · exact bindsArgs_noProc _ _
    · exact .nil
  | .label l => by simp only [bindsS]; exact .cons .other .nil

theorem bindsB_noProc (anns : Anns) : ∀ ss, NoProc (bindsB anns ss)
  | [] => by simp only [bindsB]; exact .nil
  | s :: ss => by simp only [bindsB]; exact (bindsS_noProc anns s).append (bindsB_noProc anns ss)

end

theorem bindsSpecs_noProc : ∀ ss, NoProc (bindsSpecs ss)
  | [] => .nil
  | s :: ss => (bindsE_noProc s.expr).append (bindsSpecs_noProc ss)

theorem paramDecls_noProc (p : RProc) : NoProc (paramDecls p) := by
  intro d hd
  rcases List.mem_append.1 hd with hd | hd <;>
  · obtain ⟨v, -, rfl⟩ := List.mem_map.1 hd
    exact .var

theorem bindsProc_noProc (anns : Anns) (p : SProc) : NoProc (bindsProc anns p) :=
  (paramDecls_noProc p.proc).append ((bindsSpecs_noProc _).append (bindsB_noProc anns _))

theorem funcParams_noProc (ins : List Var) : NoProc (funcParams ins) := by
  intro d hd
  obtain ⟨v, -, rfl⟩ := List.mem_map.1 hd
  exact .var

theorem bindsItem_noProc : ∀ i, NoProc (bindsItem i)
  | .func _ ins _ none => funcParams_noProc ins
  | .func _ ins _ (some e) => (funcParams_noProc ins).append (bindsE_noProc e)
  | .ax _ e => bindsE_noProc e

theorem itemDecls_noProc (items : List DomItem) : NoProc (items.map DomItem.decl) := by
  intro d hd
  obtain ⟨i, -, rfl⟩ := List.mem_map.1 hd
  cases i <;> exact fun _ _ h => nomatch h


theorem bindsUnit_noProc (anns : Anns) (u : RUnit) : NoProc (bindsUnit anns u) := by
  cases u with
  | proc p => exact bindsProc_noProc anns p
  | domain d items =>
    refine (itemDecls_noProc items).append fun d hd => ?_
    obtain ⟨i, -, hi⟩ := List.mem_flatMap.1 hd
    exact bindsItem_noProc i d hi
  | raw b => exact bindsB_noProc anns b

/-! ## Contexts during type checking -/

theorem checkItem_ext {i i' : DomItem} {Γ Γ' : Ctx} (h : checkItem i Γ = some (i', Γ')) : Ext Γ Γ' := by
  match i with
  | .func f ins out none =>
    simp only [checkItem, Option.some.injEq, Prod.mk.injEq] at h
    exact h.2 ▸ .refl _
  | .func f ins out (some e) =>
    simp only [checkItem, Option.bind_eq_bind, Option.bind_eq_some_iff, Prod.exists, Option.pure_def, Option.some.injEq, Prod.mk.injEq] at h
    obtain ⟨e', Γ₁, he, rfl, rfl⟩ := h
    exact (checkCast_frame he).1.1
  | .ax f e =>
    simp only [checkItem, Option.bind_eq_bind, Option.bind_eq_some_iff, Prod.exists, Option.pure_def, Option.some.injEq, Prod.mk.injEq] at h
    obtain ⟨e', Γ₁, he, rfl, rfl⟩ := h
    exact (check_frame _ _ he).1.1

theorem checkItems_ext : ∀ {is is' : List DomItem} {Γ Γ' : Ctx}, checkItems is Γ = some (is', Γ') → Ext Γ Γ'
  | [], is', Γ, Γ', h => by
    simp only [checkItems, Option.some.injEq, Prod.mk.injEq] at h
    exact h.2 ▸ .refl _
  | i :: is, is', Γ, Γ', h => by
    simp only [checkItems, Option.bind_eq_bind, Option.bind_eq_some_iff, Prod.exists, Option.pure_def, Option.some.injEq, Prod.mk.injEq] at h
    obtain ⟨i', Γ₁, hi, is₁, Γ₂, his, rfl, rfl⟩ := h
    exact (checkItem_ext hi).trans (checkItems_ext his)

theorem checkProcDecl_ext {p p' : RProc} {Γ Γ' : Ctx} (h : checkProcDecl p Γ = some (p', Γ')) : Ext Γ Γ' := by
  simp only [checkProcDecl, Option.bind_eq_bind, Option.bind_eq_some_iff, Prod.exists, Option.pure_def] at h
  obtain ⟨spec, Γ₁, hspec, h⟩ := h
  split at h
  · simp only [Option.some.injEq, Prod.mk.injEq] at h
    obtain ⟨rfl, rfl⟩ := h
    exact (checkSpecs_frame hspec).1.1
  · simp only [Option.bind_eq_some_iff, Prod.exists, Option.some.injEq, Prod.mk.injEq] at h
    obtain ⟨b', Γ₂, hb', rfl, rfl⟩ := h
    exact (checkSpecs_frame hspec).1.1.trans (checkSL_frame _ hb').1.1

theorem checkUnit_ext {u u' : RUnit} {Γ Γ' : Ctx} (h : checkUnit u Γ = some (u', Γ')) : Ext Γ Γ' := by
  cases u with
  | proc p =>
    simp only [checkUnit, Option.bind_eq_bind, Option.bind_eq_some_iff, Prod.exists, Option.pure_def, Option.some.injEq, Prod.mk.injEq] at h
    obtain ⟨q, Γ₁, h, rfl, rfl⟩ := h
    exact checkProcDecl_ext h
  | domain d items =>
    simp only [checkUnit, Option.bind_eq_bind, Option.bind_eq_some_iff, Prod.exists, Option.pure_def, Option.some.injEq, Prod.mk.injEq] at h
    obtain ⟨items', Γ₁, h, rfl, rfl⟩ := h
    exact checkItems_ext h
  | raw b =>
    simp only [checkUnit, Option.bind_eq_bind, Option.bind_eq_some_iff, Prod.exists, Option.pure_def, Option.some.injEq, Prod.mk.injEq] at h
    obtain ⟨b', Γ₁, h, rfl, rfl⟩ := h
    exact (checkSL_frame b h).1.1

theorem checkUnits_ext : ∀ {us us' : List RUnit} {Γ Γ' : Ctx}, checkUnits us Γ = some (us', Γ') → Ext Γ Γ' ∧
    List.Forall₂ (fun u u' => ∃ Γ₁ Γ₂, Ext Γ Γ₁ ∧ checkUnit u Γ₁ = some (u', Γ₂) ∧ Ext Γ₂ Γ') us us'
  | [], us', Γ, Γ', h => by
    simp only [checkUnits, Option.some.injEq, Prod.mk.injEq] at h
    obtain ⟨rfl, rfl⟩ := h
    exact ⟨.refl _, .nil⟩
  | u :: us, us', Γ, Γ', h => by
    simp only [checkUnits, Option.bind_eq_bind, Option.bind_eq_some_iff, Prod.exists, Option.pure_def, Option.some.injEq, Prod.mk.injEq] at h
    obtain ⟨u', Γ₁, hu, us₁, Γ₂, hus, rfl, rfl⟩ := h
    obtain ⟨h1, h2⟩ := checkUnits_ext hus
    have h3 := checkUnit_ext hu
    refine ⟨h3.trans h1, .cons ⟨_, _, .refl _, hu, h1⟩ (h2.imp ?_)⟩
    rintro a b ⟨Γ₃, Γ₄, h4, h5, h6⟩
    exact ⟨Γ₃, Γ₄, h3.trans h4, h5, h6⟩

/-! ## What is visible outside of procedures -/

/-- Outside of procedures, the built-in names and the procedures, domains and their items are visible. -/
def Outer (Γ₀ : Ctx) (us : List RUnit) (env : Env) : Prop :=
  ∀ x, env.Sees x → Γ₀ x ≠ none ∨ ∃ u ∈ us, x ∈ u.names ∨ x ∈ u.items

theorem lexSeq_units {builtin : String → Option Ident} {anns : Anns} {Γ₀ : Ctx} {all : List RUnit} : ∀ {us us' : List RUnit} {env : Env},
    lexSeq builtin anns env us = some us' → Outer Γ₀ all env → (∀ u ∈ us, u ∈ all) →
    List.Forall₂ (fun u u' => ∃ env, Outer Γ₀ all env ∧ lexUnit builtin anns env u = some u') us us'
  | [], us', env, h, ho, ha => by
    simp only [lexSeq, Option.some.injEq] at h
    subst h
    exact .nil
  | u :: us, us', env, h, ho, ha => by
    simp only [lexSeq, Option.bind_eq_bind, Option.bind_eq_some_iff, Option.pure_def, Option.some.injEq] at h
    obtain ⟨env₁, he, u', hu, us₁, hus, rfl⟩ := h
    have ho1 : Outer Γ₀ all env₁ := by
      intro x hx
      rcases hx.of_bindAll he with h | h
      · exact .inr ⟨u, ha u (.head _), .inr h⟩
      · exact ho x h
    exact .cons ⟨env₁, ho1, hu⟩ (lexSeq_units hus ho1 fun u hu => ha u (.tail _ hu))

/-- Where a part of an accepted file comes from. -/
structure UnitFrom (builtin : String → Option Ident) (anns : Anns) (Γ₀ Γ Γ' : Ctx) (us : List RUnit) (u u' : RUnit) : Prop where
  src : u ∈ us
  from_ : ∃ env u₁ Γ₁ Γ₂, Outer Γ₀ us env ∧ lexUnit builtin anns env u = some u₁ ∧ Ext Γ Γ₁ ∧ checkUnit u₁ Γ₁ = some (u', Γ₂) ∧ Ext Γ₂ Γ'

theorem forall2_comp {A B C : Type} {R : A → B → Prop} {S : B → C → Prop} : ∀ {as : List A} {bs : List B} {cs : List C},
    List.Forall₂ R as bs → List.Forall₂ S bs cs → List.Forall₂ (fun a c => a ∈ as ∧ ∃ b, R a b ∧ S b c) as cs
  | [], _, _, .nil, .nil => .nil
  | _ :: _, _, _, .cons h hs, .cons g gs => .cons ⟨.head _, _, h, g⟩ ((forall2_comp hs gs).imp fun _ _ h => ⟨.tail _ h.1, h.2⟩)

/-- The two phases, for each part of the file. -/
theorem frontEnd_units {builtin : String → Option Ident} {anns : Anns} {us us' : List RUnit} {st : RState} {Γ' : Ctx}
    (h : Rep anns st ⟨builtin, fun _ => false⟩) (hf : Fresh st.ctx (bindsModule anns us))
    (ho : ∀ u ∈ us, u.ArgsOk anns) (hc : ∀ u ∈ us, u.CalculusOk (globalNames us)) (hr : frontEnd us st = some (us', Γ')) :
    Ext (declCtx st.ctx (bindsModule anns us)) Γ' ∧
      List.Forall₂ (UnitFrom builtin anns st.ctx (declCtx st.ctx (bindsModule anns us)) Γ' us) us us' := by
  have hag := resModule_seq anns us h hf ho hc
  unfold frontEnd at hr
  split at hr
  case h_2 => exact nomatch hr
  rename_i us₁ st₁ hres
  rw [hres] at hag
  cases hs : ((Env.mk builtin fun _ => false).bindAll (us.flatMap RUnit.names) >>= fun env => lexSeq builtin anns env us) with
  | none =>
    simp only [hs] at hag
    obtain ⟨err, he, -⟩ := hag
    exact nomatch he
  | some us₂ =>
    simp only [hs] at hag
    obtain ⟨b, hb, hb1, env', hb2⟩ := hag
    cases hb
    simp only at hb1 hb2
    subst hb1
    rw [hb2.ctx] at hr
    simp only [Option.bind_eq_bind, Option.bind_eq_some_iff] at hs
    obtain ⟨env, he, hs⟩ := hs
    have hO : Outer st.ctx us env := by
      intro x hx
      rcases hx.of_bindAll he with hx | ⟨n, hn⟩
      · obtain ⟨u, hu, hx⟩ := List.mem_flatMap.1 hx
        exact .inr ⟨u, hu, .inl hx⟩
      · exact .inl (h.decl n x hn)
    obtain ⟨h1, h2⟩ := checkUnits_ext hr
    refine ⟨h1, (forall2_comp (lexSeq_units hs hO fun _ hu => hu) h2).imp ?_⟩
    rintro u u' ⟨hu, u₁, ⟨env₁, h3, h4⟩, Γ₁, Γ₂, h5, h6, h7⟩
    exact ⟨hu, env₁, u₁, Γ₁, Γ₂, h3, h4, h5, h6, h7⟩

/-! ## Procedures -/

/-- The procedures of a file. -/
def procsOf : List RUnit → List SProc
  | [] => []
  | .proc p :: us => p :: procsOf us
  | .domain _ _ :: us => procsOf us
  | .raw _ :: us => procsOf us

theorem mem_procsOf {p : SProc} : ∀ {us : List RUnit}, p ∈ procsOf us ↔ RUnit.proc p ∈ us
  | [] => by simp [procsOf]
  | .proc q :: us => by simp [procsOf, mem_procsOf (us := us)]
  | .domain _ _ :: us => by simp [procsOf, mem_procsOf (us := us)]
  | .raw _ :: us => by simp [procsOf, mem_procsOf (us := us)]

/-- Where a procedure of an accepted file comes from. -/
structure ProcFrom (anns : Anns) (Γ₀ Γ Γ' : Ctx) (us : List RUnit) (p p' : SProc) : Prop where
  src : .proc p ∈ us
  from_ : ∃ env inner spec body Γ₁ Γ₂, Outer Γ₀ us env ∧ env.sub.bindAll p.proc.paramNames = some inner ∧
    lexSpecs inner p.proc.spec = some spec ∧ lexBody anns inner p.proc.body = some body ∧ Ext Γ Γ₁ ∧
    checkProcDecl { p.proc with spec := spec, body := body } Γ₁ = some (p'.proc, Γ₂) ∧ Ext Γ₂ Γ'

theorem UnitFrom.proc {builtin : String → Option Ident} {anns : Anns} {Γ₀ Γ Γ' : Ctx} {us : List RUnit} {p p' : SProc}
    (h : UnitFrom builtin anns Γ₀ Γ Γ' us (.proc p) (.proc p')) : ProcFrom anns Γ₀ Γ Γ' us p p' := by
  obtain ⟨hs, env, u₁, Γ₁, Γ₂, h1, h2, h3, h4, h5⟩ := h
  simp only [lexUnit, lexProc, Option.bind_eq_bind, Option.bind_eq_some_iff, Option.pure_def, Option.some.injEq] at h2
  obtain ⟨p₁, ⟨inner, hi, spec, hspec, c, hc, body, hbody, rfl⟩, rfl⟩ := h2
  simp only [checkUnit, Option.bind_eq_bind, Option.bind_eq_some_iff, Prod.exists, Option.pure_def, Option.some.injEq, Prod.mk.injEq,
    RUnit.proc.injEq] at h4
  obtain ⟨q, Γ₃, h4, rfl, rfl⟩ := h4
  exact ⟨hs, env, inner, spec, body, Γ₁, Γ₃, h1, hi, hspec, hbody, h3, h4, h5⟩

theorem UnitFrom.kind {builtin : String → Option Ident} {anns : Anns} {Γ₀ Γ Γ' : Ctx} {us : List RUnit} {u u' : RUnit}
    (h : UnitFrom builtin anns Γ₀ Γ Γ' us u u') : (∃ p p', u = .proc p ∧ u' = .proc p') ∨ (procsOf [u] = [] ∧ procsOf [u'] = []) := by
  obtain ⟨hs, env, u₁, Γ₁, Γ₂, h1, h2, h3, h4, h5⟩ := h
  cases u with
  | proc p =>
    simp only [lexUnit, Option.bind_eq_bind, Option.bind_eq_some_iff, Option.pure_def, Option.some.injEq] at h2
    obtain ⟨p₁, -, rfl⟩ := h2
    simp only [checkUnit, Option.bind_eq_bind, Option.bind_eq_some_iff, Prod.exists, Option.pure_def, Option.some.injEq, Prod.mk.injEq] at h4
    obtain ⟨q, Γ₃, h4, rfl, rfl⟩ := h4
    exact .inl ⟨_, _, rfl, rfl⟩
  | domain d items =>
    simp only [lexUnit, Option.bind_eq_bind, Option.bind_eq_some_iff, Option.pure_def, Option.some.injEq] at h2
    obtain ⟨p₁, -, rfl⟩ := h2
    simp only [checkUnit, Option.bind_eq_bind, Option.bind_eq_some_iff, Prod.exists, Option.pure_def, Option.some.injEq, Prod.mk.injEq] at h4
    obtain ⟨q, Γ₃, h4, rfl, rfl⟩ := h4
    exact .inr ⟨rfl, rfl⟩
  | raw b =>
    simp only [lexUnit, Option.bind_eq_bind, Option.bind_eq_some_iff, Option.pure_def, Option.some.injEq] at h2
    obtain ⟨p₁, -, rfl⟩ := h2
    simp only [checkUnit, Option.bind_eq_bind, Option.bind_eq_some_iff, Prod.exists, Option.pure_def, Option.some.injEq, Prod.mk.injEq] at h4
    obtain ⟨q, Γ₃, h4, rfl, rfl⟩ := h4
    exact .inr ⟨rfl, rfl⟩

theorem procsOf_cons (u : RUnit) (us : List RUnit) : procsOf (u :: us) = procsOf [u] ++ procsOf us := by
  cases u <;> rfl

theorem forall2_procs {builtin : String → Option Ident} {anns : Anns} {Γ₀ Γ Γ' : Ctx} {all : List RUnit} : ∀ {us us' : List RUnit},
    List.Forall₂ (UnitFrom builtin anns Γ₀ Γ Γ' all) us us' → List.Forall₂ (ProcFrom anns Γ₀ Γ Γ' all) (procsOf us) (procsOf us')
  | [], _, .nil => .nil
  | u :: us, u' :: us', .cons h hs => by
    rcases h.kind with ⟨p, p', rfl, rfl⟩ | ⟨h1, h2⟩
    · exact .cons h.proc (forall2_procs hs)
    · rw [procsOf_cons u us, procsOf_cons u' us', h1, h2]
      exact forall2_procs hs

end Front
end Caesar
