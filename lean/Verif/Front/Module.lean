import Verif.Front.ResStatic

/-!
# From names to typed trees

The phases after parsing: name resolution and type checking of all parts of a file (`src/driver/front.rs:164-190`).
-/

namespace Caesar
namespace Front

/-! ## Model -/

/-- An item of a domain, as `walk_domain` visits it (`src/ast/visit.rs:130-143`, `src/front/tycheck.rs:465-473`). -/
def checkItem : DomItem → Ctx → Option (DomItem × Ctx)
  | .func f ins out none, Γ => some (.func f ins out none, Γ)
  | .func f ins out (some e), Γ => do
    let (e, Γ) ← checkFuncBody out e Γ
    return (.func f ins out (some e), Γ)
  | .ax f e, Γ => do
    let (e, Γ) ← checkAxiom e Γ
    return (.ax f e, Γ)

/-- The loop of `walk_domain` (`src/ast/visit.rs:130-143`). -/
def checkItems : List DomItem → Ctx → Option (List DomItem × Ctx)
  | [], Γ => some ([], Γ)
  | i :: is, Γ => do
    let (i, Γ) ← checkItem i Γ
    let (is, Γ) ← checkItems is Γ
    return (i :: is, Γ)

/-- `SourceUnit::tycheck` (`src/driver/front.rs:345-350,376-380`). -/
def checkUnit : RUnit → Ctx → Option (RUnit × Ctx)
  | .proc p, Γ => do
    let (q, Γ) ← checkProcDecl p.proc Γ
    return (.proc { p with proc := q }, Γ)
  | .domain d items, Γ => do
    let (items, Γ) ← checkItems items Γ
    return (.domain d items, Γ)
  | .raw b, Γ => do
    let (b, Γ) ← checkSL b Γ
    return (.raw b, Γ)

/-- `Module::tycheck` (`src/driver/front.rs:174-190`). The warnings about monotonicity are left out. -/
def checkUnits : List RUnit → Ctx → Option (List RUnit × Ctx)
  | [], Γ => some ([], Γ)
  | u :: us, Γ => do
    let (u, Γ) ← checkUnit u Γ
    let (us, Γ) ← checkUnits us Γ
    return (u :: us, Γ)

/-- Name resolution and type checking of a file (`parse_and_tycheck`, `src/driver/front.rs:81-84`). -/
def frontEnd (us : List RUnit) (st : RState) : Option (List RUnit × Ctx) :=
  match resModule us st with
  | .ok (us, st) => checkUnits us st.ctx
  | .error _ => none

/-! ## Specification -/

/-- Items that stand for typed expressions. -/
def ReadsItem (Γ : Ctx) : DomItem → Prop
  | .func _ _ _ none => True
  | .func _ _ out (some e) => ∃ E : Expr out, Reads Γ e out E
  | .ax _ e => ∃ t, ∃ E : Expr t, Reads Γ e t E

/-- Parts of a file that stand for typed trees. -/
def ReadsUnit (Γ : Ctx) : RUnit → Prop
  | .proc p => ∃ P, ReadsProc Γ p.proc P
  | .domain _ items => ∀ i ∈ items, ReadsItem Γ i
  | .raw b => ∃ S, ReadsB Γ b S

/-- There are no casts and no string literals, see `RExpr.Plain`. -/
def DomItem.Plain : DomItem → Prop
  | .func _ _ _ none => True
  | .func _ _ _ (some e) => e.Plain
  | .ax _ e => e.Plain

/-- `RStmt.Plain` for parts of a file. -/
def RUnit.Plain : RUnit → Prop
  | .proc p => (∀ s ∈ p.proc.spec, s.expr.Plain) ∧ PlainB p.proc.block
  | .domain _ items => ∀ i ∈ items, i.Plain
  | .raw b => PlainB b

/-- `RStmt.AnnsOk` for parts of a file. -/
def RUnit.AnnsOk (anns : Anns) : RUnit → Prop
  | .proc p => AnnsOkB anns p.proc.block
  | .domain _ _ => True
  | .raw b => AnnsOkB anns b

/-- `len` is applied to lists only. -/
def DomItem.LenOk (Γ : Ctx) : DomItem → Prop
  | .func _ _ _ none => True
  | .func _ _ _ (some e) => LenOnLists Γ e
  | .ax _ e => LenOnLists Γ e

/-- `len` is applied to lists only. -/
def RUnit.LenOk (Γ : Ctx) : RUnit → Prop
  | .proc p => LenOnListsP Γ p.proc
  | .domain _ items => ∀ i ∈ items, i.LenOk Γ
  | .raw b => LenOkB (fun f => Γ f = some (.listOp .len)) b

/-! ## Types of declared variables -/

/-- The types of declared variables. -/
def DeclOk (d : RDecl) : Prop := ∀ t k, d = .var t k → (t = .none ∧ k = .subst) ∨ ∃ s, t = .val s

/-- `DeclOk` for lists. -/
def VarsOk (ds : List (Ident × RDecl)) : Prop := ∀ d ∈ ds, DeclOk d.2

theorem DeclOk.val (t : Ty) (k : VarKind) : DeclOk (.var (.val t) k) := by
  intro t' k' h
  cases h
  exact .inr ⟨_, rfl⟩

theorem DeclOk.subst : DeclOk (.var .none .subst) := by
  intro t' k' h
  cases h
  exact .inl ⟨rfl, rfl⟩

theorem DeclOk.other : DeclOk .other := fun _ _ h => nomatch h


theorem VarsOk.append {ds ds' : List (Ident × RDecl)} (h : VarsOk ds) (h' : VarsOk ds') : VarsOk (ds ++ ds') := by
  intro d hd
  rcases List.mem_append.1 hd with hd | hd
  · exact h d hd
  · exact h' d hd

theorem VarsOk.cons {x : Ident} {d : RDecl} {ds : List (Ident × RDecl)} (hd : DeclOk d) (h : VarsOk ds) : VarsOk ((x, d) :: ds) := by
  intro e he
  rcases List.mem_cons.1 he with rfl | he
  · exact hd
  · exact h e he

theorem VarsOk.nil : VarsOk [] := fun _ h => nomatch h

mutual

theorem bindsE_varsOk : ∀ e, VarsOk (bindsE e)
  | .var _ _ => by simp only [bindsE]; exact .nil
  | .call _ _ args => by simp only [bindsE]; exact bindsL_varsOk args
  | .ite _ c a b => by simp only [bindsE]; exact (bindsE_varsOk c).append ((bindsE_varsOk a).append (bindsE_varsOk b))
  | .bin _ _ a b => by simp only [bindsE]; exact (bindsE_varsOk a).append (bindsE_varsOk b)
  | .un _ _ a => by simp only [bindsE]; exact bindsE_varsOk a
  | .cast _ a => by simp only [bindsE]; exact bindsE_varsOk a
  | .quant _ _ vs tr a => by
    simp only [bindsE]
    refine VarsOk.append ?_ ((bindsLL_varsOk tr).append (bindsE_varsOk a))
    intro d hd
    obtain ⟨v, -, rfl⟩ := List.mem_map.1 hd
    exact .val _ _
  | .subst _ x v a => by
    simp only [bindsE]
    exact (bindsE_varsOk v).append (.cons .subst (bindsE_varsOk a))
  | .lit _ _ => by simp only [bindsE]; exact .nil

theorem bindsL_varsOk : ∀ es, VarsOk (bindsL es)
  | [] => by simp only [bindsL]; exact .nil
  | e :: es => by simp only [bindsL]; exact (bindsE_varsOk e).append (bindsL_varsOk es)

theorem bindsLL_varsOk : ∀ ess, VarsOk (bindsLL ess)
  | [] => by simp only [bindsLL]; exact .nil
  | es :: ess => by simp only [bindsLL]; exact (bindsL_varsOk es).append (bindsLL_varsOk ess)

end

theorem bindsArgs_varsOk (k : AnnKind) (args : List RExpr) : VarsOk (bindsArgs k args) := by
  unfold bindsArgs
  split
  · exact .nil
  · exact .cons (.val _ _) (bindsL_varsOk _)
  · exact (bindsE_varsOk _).append ((bindsE_varsOk _).append
      (.cons (.val _ _) ((bindsE_varsOk _).append (bindsE_varsOk _))))
  · exact bindsL_varsOk _

mutual

theorem bindsS_varsOk (anns : Anns) : ∀ s, VarsOk (bindsS anns s)
  | .seq ss => by simp only [bindsS]; exact bindsB_varsOk anns ss
  | .var x t none => by simp only [bindsS]; exact .cons (.val _ _) .nil
  | .var x t (some e) => by simp only [bindsS]; exact (bindsE_varsOk e).append (.cons (.val _ _) .nil)
  | .assign _ e => by simp only [bindsS]; exact bindsE_varsOk e
  | .havoc _ _ => by simp only [bindsS]; exact .nil
  | .assert _ e => by simp only [bindsS]; exact bindsE_varsOk e
  | .assume _ e => by simp only [bindsS]; exact bindsE_varsOk e
  | .compare _ e => by simp only [bindsS]; exact bindsE_varsOk e
  | .negate _ => by simp only [bindsS]; exact .nil
  | .validate _ => by simp only [bindsS]; exact .nil
  | .tick e => by simp only [bindsS]; exact bindsE_varsOk e
  | .weigh e => by simp only [bindsS]; exact bindsE_varsOk e
  | .demonic a b => by simp only [bindsS]; exact (bindsB_varsOk anns a).append (bindsB_varsOk anns b)
  | .angelic a b => by simp only [bindsS]; exact (bindsB_varsOk anns a).append (bindsB_varsOk anns b)
  | .additive a b => by simp only [bindsS]; exact (bindsB_varsOk anns a).append (bindsB_varsOk anns b)
  | .ite c a b => by simp only [bindsS]; exact (bindsE_varsOk c).append ((bindsB_varsOk anns a).append (bindsB_varsOk anns b))
  | .while c b => by simp only [bindsS]; exact (bindsE_varsOk c).append (bindsB_varsOk anns b)
  | .annot f args s => by
    simp only [bindsS]
    refine VarsOk.append ?_ (bindsS_varsOk anns s)
    split
    · exact bindsArgs_varsOk _ _
    · exact .nil
  | .label l => by simp only [bindsS]; exact .cons .other .nil

theorem bindsB_varsOk (anns : Anns) : ∀ ss, VarsOk (bindsB anns ss)
  | [] => by simp only [bindsB]; exact .nil
  | s :: ss => by simp only [bindsB]; exact (bindsS_varsOk anns s).append (bindsB_varsOk anns ss)

end

theorem bindsSpecs_varsOk : ∀ ss, VarsOk (bindsSpecs ss)
  | [] => .nil
  | s :: ss => (bindsE_varsOk s.expr).append (bindsSpecs_varsOk ss)

theorem paramDecls_varsOk (p : RProc) : VarsOk (paramDecls p) := by
  intro d hd
  rcases List.mem_append.1 hd with hd | hd <;>
  · obtain ⟨v, -, rfl⟩ := List.mem_map.1 hd
    exact .val _ _

theorem bindsProc_varsOk (anns : Anns) (p : SProc) : VarsOk (bindsProc anns p) :=
  (paramDecls_varsOk p.proc).append ((bindsSpecs_varsOk _).append (bindsB_varsOk anns _))

theorem funcParams_varsOk (ins : List Var) : VarsOk (funcParams ins) := by
  intro d hd
  obtain ⟨v, -, rfl⟩ := List.mem_map.1 hd
  exact .val _ _

theorem bindsItem_varsOk : ∀ i, VarsOk (bindsItem i)
  | .func _ ins _ none => funcParams_varsOk ins
  | .func _ ins _ (some e) => (funcParams_varsOk ins).append (bindsE_varsOk e)
  | .ax _ e => bindsE_varsOk e

theorem itemDecls_varsOk (items : List DomItem) : VarsOk (items.map DomItem.decl) := by
  intro d hd
  obtain ⟨i, -, rfl⟩ := List.mem_map.1 hd
  cases i <;> exact fun _ _ h => nomatch h

theorem unitDecls_varsOk (us : List RUnit) : VarsOk (us.flatMap RUnit.decl) := by
  intro d hd
  obtain ⟨u, -, hd⟩ := List.mem_flatMap.1 hd
  cases u <;> simp only [RUnit.decl, List.mem_singleton, List.not_mem_nil] at hd <;> subst hd <;> exact fun _ _ h => nomatch h


/-! ## Proofs -/

/-- The variables of `let` in an item. -/
def DomItem.lets : DomItem → List Ident
  | .func _ _ _ none => []
  | .func _ _ _ (some e) => e.lets
  | .ax _ e => e.lets

/-- The variables of `let` in a part of a file. -/
def RUnit.lets : RUnit → List Ident
  | .proc p => letsSpec p.proc.spec ++ letsB p.proc.block
  | .domain _ items => items.flatMap DomItem.lets
  | .raw b => letsB b

/-- Names are in scope. -/
def DomItem.InScope (Γ : Ctx) : DomItem → Prop
  | .func _ _ _ none => True
  | .func _ _ _ (some e) => e.InScope Γ []
  | .ax _ e => e.InScope Γ []

/-- Names are in scope. -/
def RUnit.InScope (Γ : Ctx) : RUnit → Prop
  | .proc p => (∀ s ∈ p.proc.spec, s.expr.InScope Γ []) ∧ InScopeB Γ p.proc.block
  | .domain _ items => ∀ i ∈ items, i.InScope Γ
  | .raw b => InScopeB Γ b

theorem ReadsProc.ext {Γ Γ' : Ctx} (h : Ext Γ Γ') {p : RProc} {P : Proc} (hp : ReadsProc Γ p P) : ReadsProc Γ' p P :=
  ⟨hp.name, hp.dir, hp.inputs, hp.outputs, hp.spec.imp fun _ _ hs => hs.ext h, by
    have := hp.body
    revert this
    generalize p.body = b
    generalize P.body = B
    rintro (_ | hB)
    · exact .none
    · exact .some (hB.ext h)⟩

theorem ReadsItem.ext {Γ Γ' : Ctx} (h : Ext Γ Γ') {i : DomItem} (hi : ReadsItem Γ i) : ReadsItem Γ' i := by
  match i, hi with
  | .func _ _ _ none, _ => trivial
  | .func _ _ _ (some e), ⟨E, hE⟩ => exact ⟨E, hE.ext h⟩
  | .ax _ e, ⟨t, E, hE⟩ => exact ⟨t, E, hE.ext h⟩

theorem ReadsUnit.ext {Γ Γ' : Ctx} (h : Ext Γ Γ') {u : RUnit} (hu : ReadsUnit Γ u) : ReadsUnit Γ' u := by
  match u, hu with
  | .proc p, ⟨P, hP⟩ => exact ⟨P, hP.ext h⟩
  | .domain _ items, hu => exact fun i hi => (hu i hi).ext h
  | .raw b, ⟨S, hS⟩ => exact ⟨S, hS.ext h⟩

/-! ### Type checking -/

theorem checkItem_rd {Γ₀ Γ Γ' : Ctx} {i i' : DomItem} (h : checkItem i Γ = some (i', Γ')) (hn : Now Γ₀ Γ [] i.lets) (hs : i.InScope Γ₀)
    (hp : i.Plain) (hl : i'.LenOk Γ₀) : ReadsItem Γ' i' ∧ CtxOk Γ' ∧ Frame i.lets Γ Γ' := by
  match i, hn, hs, hp with
  | .func f ins out none, hn, _, _ =>
    simp only [checkItem, Option.some.injEq, Prod.mk.injEq] at h
    obtain ⟨rfl, rfl⟩ := h
    exact ⟨trivial, hn.ctx, .refl _⟩
  | .func f ins out (some e), hn, hs, hp =>
    simp only [checkItem, Option.bind_eq_bind, Option.bind_eq_some_iff, Prod.exists, Option.pure_def, Option.some.injEq, Prod.mk.injEq] at h
    obtain ⟨e', Γ₁, he, rfl, rfl⟩ := h
    obtain ⟨h1, h2⟩ := checkCast_rd (Γ₀ := Γ₀) he hn hs hp hl
    exact ⟨h1, h2, (checkCast_frame he).1⟩
  | .ax f e, hn, hs, hp =>
    simp only [checkItem, Option.bind_eq_bind, Option.bind_eq_some_iff, Prod.exists, Option.pure_def, Option.some.injEq, Prod.mk.injEq] at h
    obtain ⟨e', Γ₁, he, rfl, rfl⟩ := h
    obtain ⟨⟨t, h1⟩, h2⟩ := check_rd false Γ₀ e he hn hs hp hl
    exact ⟨⟨t, h1⟩, h2, (check_frame _ _ he).1⟩

theorem checkItems_rd {Γ₀ : Ctx} : ∀ {is is' : List DomItem} {Γ Γ' : Ctx}, checkItems is Γ = some (is', Γ') →
    Now Γ₀ Γ [] (is.flatMap DomItem.lets) → (∀ i ∈ is, i.InScope Γ₀) → (∀ i ∈ is, i.Plain) → (∀ i ∈ is', i.LenOk Γ₀) →
    (∀ i ∈ is', ReadsItem Γ' i) ∧ CtxOk Γ' ∧ Frame (is.flatMap DomItem.lets) Γ Γ'
  | [], is', Γ, Γ', h, hn, _, _, _ => by
    simp only [checkItems, Option.some.injEq, Prod.mk.injEq] at h
    obtain ⟨rfl, rfl⟩ := h
    exact ⟨fun _ h => (nomatch h), hn.ctx, .refl _⟩
  | i :: is, is', Γ, Γ', h, hn, hs, hp, hl => by
    simp only [checkItems, Option.bind_eq_bind, Option.bind_eq_some_iff, Prod.exists, Option.pure_def, Option.some.injEq, Prod.mk.injEq] at h
    obtain ⟨i', Γ₁, hi, is₁, Γ₂, his, rfl, rfl⟩ := h
    simp only [List.flatMap_cons] at hn ⊢
    obtain ⟨a1, a2, a3⟩ := checkItem_rd hi hn.left (hs i (.head _)) (hp i (.head _)) (hl i' (.head _))
    obtain ⟨b1, b2, b3⟩ := checkItems_rd his (hn.right a3 a2) (fun i h => hs i (.tail _ h)) (fun i h => hp i (.tail _ h))
      (fun i h => hl i (.tail _ h))
    refine ⟨?_, b2, a3.append b3⟩
    rintro j (_ | ⟨_, hj⟩)
    · exact a1.ext b3.1
    · exact b1 j hj

theorem checkUnit_rd {Γ₀ Γ Γ' : Ctx} {u u' : RUnit} (h : checkUnit u Γ = some (u', Γ')) (hn : Now Γ₀ Γ [] u.lets) (hs : u.InScope Γ₀)
    (hp : u.Plain) (hl : u'.LenOk Γ₀) : ReadsUnit Γ' u' ∧ CtxOk Γ' ∧ Frame u.lets Γ Γ' := by
  cases u with
  | proc p =>
    simp only [checkUnit, Option.bind_eq_bind, Option.bind_eq_some_iff, Prod.exists, Option.pure_def, Option.some.injEq, Prod.mk.injEq] at h
    obtain ⟨q, Γ₁, h, rfl, rfl⟩ := h
    obtain ⟨hs1, hs2⟩ := hs
    obtain ⟨hp1, hp2⟩ := hp
    simp only [RUnit.lets] at hn ⊢
    simp only [checkProcDecl, Option.bind_eq_bind, Option.bind_eq_some_iff, Prod.exists, Option.pure_def] at h
    obtain ⟨spec, Γ₂, hspec, h⟩ := h
    split at h
    · rename_i hb
      simp only [Option.some.injEq, Prod.mk.injEq] at h
      obtain ⟨rfl, rfl⟩ := h
      obtain ⟨⟨SS, hSS⟩, hC⟩ := checkSpecs_rd Γ₀ hspec hn.left hs1 hp1 hl.1
      refine ⟨⟨⟨p.proc.name, p.proc.dir, p.proc.inputs, p.proc.outputs, SS, none⟩, rfl, rfl, rfl, rfl, hSS, by rw [hb]; exact .none⟩, hC, ?_⟩
      have : letsB p.proc.block = [] := by simp [RProc.block, hb, letsB]
      rw [this, List.append_nil]
      exact (checkSpecs_frame hspec).1
    · rename_i b hb
      simp only [Option.bind_eq_some_iff, Prod.exists, Option.some.injEq, Prod.mk.injEq] at h
      obtain ⟨b', Γ₃, hb', rfl, rfl⟩ := h
      have hblock : p.proc.block = b := by simp [RProc.block, hb]
      rw [hblock] at hn hs2 hp2 ⊢
      obtain ⟨⟨SS, hSS⟩, hC⟩ := checkSpecs_rd Γ₀ hspec hn.left hs1 hp1 hl.1
      obtain ⟨⟨B, hB⟩, hC₂⟩ := checkSL_rd Γ₀ b hb' (hn.right (checkSpecs_frame hspec).1 hC) hs2 hp2 hl.2
      exact ⟨⟨⟨p.proc.name, p.proc.dir, p.proc.inputs, p.proc.outputs, SS, some B⟩, rfl, rfl, rfl, rfl,
        hSS.imp fun _ _ h => h.ext (checkSL_frame b hb').1.1, .some hB⟩, hC₂, (checkSpecs_frame hspec).1.append (checkSL_frame b hb').1⟩
  | domain d items =>
    simp only [checkUnit, Option.bind_eq_bind, Option.bind_eq_some_iff, Prod.exists, Option.pure_def, Option.some.injEq, Prod.mk.injEq] at h
    obtain ⟨items', Γ₁, h, rfl, rfl⟩ := h
    exact checkItems_rd h hn hs hp hl
  | raw b =>
    simp only [checkUnit, Option.bind_eq_bind, Option.bind_eq_some_iff, Prod.exists, Option.pure_def, Option.some.injEq, Prod.mk.injEq] at h
    obtain ⟨b', Γ₁, h, rfl, rfl⟩ := h
    obtain ⟨h1, h2⟩ := checkSL_rd Γ₀ b h hn hs hp hl
    exact ⟨h1, h2, (checkSL_frame b h).1⟩

theorem checkUnits_rd {Γ₀ : Ctx} : ∀ {us us' : List RUnit} {Γ Γ' : Ctx}, checkUnits us Γ = some (us', Γ') →
    Now Γ₀ Γ [] (us.flatMap RUnit.lets) → (∀ u ∈ us, u.InScope Γ₀) → (∀ u ∈ us, u.Plain) → (∀ u ∈ us', u.LenOk Γ₀) →
    (∀ u ∈ us', ReadsUnit Γ' u) ∧ CtxOk Γ' ∧ Frame (us.flatMap RUnit.lets) Γ Γ'
  | [], us', Γ, Γ', h, hn, _, _, _ => by
    simp only [checkUnits, Option.some.injEq, Prod.mk.injEq] at h
    obtain ⟨rfl, rfl⟩ := h
    exact ⟨fun _ h => (nomatch h), hn.ctx, .refl _⟩
  | u :: us, us', Γ, Γ', h, hn, hs, hp, hl => by
    simp only [checkUnits, Option.bind_eq_bind, Option.bind_eq_some_iff, Prod.exists, Option.pure_def, Option.some.injEq, Prod.mk.injEq] at h
    obtain ⟨u', Γ₁, hu, us₁, Γ₂, hus, rfl, rfl⟩ := h
    simp only [List.flatMap_cons] at hn ⊢
    obtain ⟨a1, a2, a3⟩ := checkUnit_rd hu hn.left (hs u (.head _)) (hp u (.head _)) (hl u' (.head _))
    obtain ⟨b1, b2, b3⟩ := checkUnits_rd hus (hn.right a3 a2) (fun i h => hs i (.tail _ h)) (fun i h => hp i (.tail _ h))
      (fun i h => hl i (.tail _ h))
    refine ⟨?_, b2, a3.append b3⟩
    rintro j (_ | ⟨_, hj⟩)
    · exact a1.ext b3.1
    · exact b1 j hj

/-! ### Name resolution -/

theorem lexItem_static {Γ : Ctx} {i i' : DomItem} {env : Env} (h : lexItem env i = some i') (hv : VisOk Γ [] env)
    (hd : DeclsIn Γ (bindsItem i)) : i'.InScope Γ ∧ i'.lets = i.lets ∧ (i.Plain → i'.Plain) ∧ LetsIn i.lets (bindsItem i) := by
  have hpar : ∀ {ins : List Var} {inner : Env}, env.sub.bindAll (ins.map (·.id)) = some inner → DeclsIn Γ (funcParams ins) →
      VisOk Γ [] inner := by
    intro ins inner hi hd
    refine hv.sub.bindAll hi fun x hx k hk => ?_
    obtain ⟨v, hv', rfl⟩ := List.mem_map.1 hx
    rw [hd _ (List.mem_map.2 ⟨v, hv', rfl⟩)] at hk
    exact nomatch hk
  match i, hd with
  | .func f ins out none, hd =>
    simp only [lexItem, lexFuncBody, Option.bind_eq_bind, Option.bind_eq_some_iff, Option.pure_def, Option.some.injEq] at h
    obtain ⟨inner, hi, b, rfl, rfl⟩ := h
    exact ⟨trivial, rfl, fun _ => trivial, .nil _⟩
  | .func f ins out (some e), hd =>
    simp only [lexItem, lexFuncBody, Option.bind_eq_bind, Option.bind_eq_some_iff, Option.pure_def, Option.some.injEq] at h
    obtain ⟨inner, hi, b, ⟨e', he, rfl⟩, rfl⟩ := h
    have hd' : DeclsIn Γ (funcParams ins ++ bindsE e) := hd
    obtain ⟨h1, h2, h3⟩ := lexE_static e he (hpar hi hd'.left) hd'.right
    exact ⟨h1, h2, h3, LetsIn.append (.nil (funcParams ins)) (lets_binds e)⟩
  | .ax f e, hd =>
    simp only [lexItem, Option.bind_eq_bind, Option.bind_eq_some_iff, Option.pure_def, Option.some.injEq] at h
    obtain ⟨e', he, rfl⟩ := h
    obtain ⟨h1, h2, h3⟩ := lexE_static e he hv hd
    exact ⟨h1, h2, h3, lets_binds e⟩

theorem lexItems_static {Γ : Ctx} : ∀ {is is' : List DomItem} {env : Env}, lexItems env is = some is' → VisOk Γ [] env →
    DeclsIn Γ (is.flatMap bindsItem) → (∀ i ∈ is', i.InScope Γ) ∧ is'.flatMap DomItem.lets = is.flatMap DomItem.lets ∧
      ((∀ i ∈ is, i.Plain) → ∀ i ∈ is', i.Plain) ∧ LetsIn (is.flatMap DomItem.lets) (is.flatMap bindsItem)
  | [], is', env, h, hv, hd => by
    simp only [lexItems, Option.pure_def, Option.some.injEq] at h
    subst h
    exact ⟨fun _ h => (nomatch h), rfl, fun _ _ h => (nomatch h), .nil _⟩
  | i :: is, is', env, h, hv, hd => by
    simp only [lexItems, Option.bind_eq_bind, Option.bind_eq_some_iff, Option.pure_def, Option.some.injEq] at h
    obtain ⟨i', hi, is₁, his, rfl⟩ := h
    simp only [List.flatMap_cons] at hd ⊢
    obtain ⟨a1, a2, a3, a4⟩ := lexItem_static hi hv hd.left
    obtain ⟨b1, b2, b3, b4⟩ := lexItems_static his hv hd.right
    refine ⟨?_, by rw [a2, b2], ?_, a4.append b4⟩
    · rintro j (_ | ⟨_, hj⟩)
      · exact a1
      · exact b1 j hj
    · rintro hp j (_ | ⟨_, hj⟩)
      · exact a3 (hp i (.head _))
      · exact b3 (fun k hk => hp k (.tail _ hk)) j hj

theorem lexUnit_static {builtin : String → Option Ident} {Γ : Ctx} {anns : Anns} (hA : ∀ n g k, anns n = some (g, k) → Γ g = some (.annot k))
    {u u' : RUnit} {env : Env} (h : lexUnit builtin anns env u = some u') (hv : VisOk Γ [] env) (hd : DeclsIn Γ (bindsUnit anns u))
    (ho : u.AnnsOk anns) : u'.InScope Γ ∧ u'.lets = u.lets ∧ (u.Plain → u'.Plain) ∧ LetsIn u.lets (bindsUnit anns u) := by
  cases u with
  | proc p =>
    simp only [lexUnit, lexProc, Option.bind_eq_bind, Option.bind_eq_some_iff, Option.pure_def, Option.some.injEq] at h
    obtain ⟨p', ⟨inner, hi, spec, hspec, c, hc, body, hbody, rfl⟩, rfl⟩ := h
    have hd' : DeclsIn Γ (paramDecls p.proc ++ (bindsSpecs p.proc.spec ++ bindsB anns p.proc.block)) := hd
    have hv' : VisOk Γ [] inner := by
      refine hv.sub.bindAll hi fun x hx k hk => ?_
      rcases List.mem_append.1 hx with hx | hx
      · obtain ⟨v, hv', rfl⟩ := List.mem_map.1 hx
        rw [hd'.left _ (List.mem_append_left _ (List.mem_map.2 ⟨v, hv', rfl⟩))] at hk
        exact nomatch hk
      · obtain ⟨v, hv', rfl⟩ := List.mem_map.1 hx
        rw [hd'.left _ (List.mem_append_right _ (List.mem_map.2 ⟨v, hv', rfl⟩))] at hk
        exact nomatch hk
    obtain ⟨a1, a2, a3, a4⟩ := lexSpecs_static hspec hv' hd'.right.left
    have hb : BlockStatic Γ anns p.proc.block (body.getD []) := by
      have hd'' := hd'.right.right
      simp only [RUnit.AnnsOk] at ho
      simp only [RProc.block] at hd'' ho ⊢
      cases hb : p.proc.body with
      | none =>
        rw [hb] at hbody
        simp only [lexBody, Option.some.injEq] at hbody
        subst hbody
        exact ⟨trivial, rfl, fun h => h, .nil _⟩
      | some b =>
        rw [hb] at hbody hd'' ho
        simp only [lexBody, Option.bind_eq_bind, Option.bind_eq_some_iff, Option.pure_def, Option.some.injEq] at hbody
        obtain ⟨b', hb', rfl⟩ := hbody
        exact lexB_static hA b hb' hv' hd'' ho
    refine ⟨⟨a1, hb.scope⟩, ?_, fun hp => ⟨a3 hp.1, hb.plain hp.2⟩, ?_⟩
    · simp only [RUnit.lets, a2]
      rw [← hb.lets]
      rfl
    · exact LetsIn.append (xs := []) (.nil (paramDecls p.proc)) (a4.append hb.binds)
  | domain d items =>
    simp only [lexUnit, Option.bind_eq_bind, Option.bind_eq_some_iff, Option.pure_def, Option.some.injEq] at h
    obtain ⟨items', hi, rfl⟩ := h
    have hd' : DeclsIn Γ (items.map DomItem.decl ++ items.flatMap bindsItem) := hd
    obtain ⟨a1, a2, a3, a4⟩ := lexItems_static hi hv hd'.right
    exact ⟨a1, a2, a3, LetsIn.append (.nil _) a4⟩
  | raw b =>
    simp only [lexUnit, Option.bind_eq_bind, Option.bind_eq_some_iff, Option.pure_def, Option.some.injEq] at h
    obtain ⟨b', hb', rfl⟩ := h
    have hb := lexB_static hA b hb' hv.sub hd ho
    exact ⟨hb.scope, hb.lets, hb.plain, hb.binds⟩

theorem lexSeq_static {builtin : String → Option Ident} {Γ : Ctx} {anns : Anns} (hA : ∀ n g k, anns n = some (g, k) → Γ g = some (.annot k)) :
    ∀ {us us' : List RUnit} {env : Env}, lexSeq builtin anns env us = some us' → VisOk Γ [] env → DeclsIn Γ (us.flatMap (bindsUnit anns)) →
    (∀ u ∈ us, u.AnnsOk anns) → (∀ u ∈ us', u.InScope Γ) ∧ us'.flatMap RUnit.lets = us.flatMap RUnit.lets ∧
      ((∀ u ∈ us, u.Plain) → ∀ u ∈ us', u.Plain) ∧ LetsIn (us.flatMap RUnit.lets) (us.flatMap (bindsUnit anns))
  | [], us', env, h, hv, hd, ho => by
    simp only [lexSeq, Option.some.injEq] at h
    subst h
    exact ⟨fun _ h => (nomatch h), rfl, fun _ _ h => (nomatch h), .nil _⟩
  | u :: us, us', env, h, hv, hd, ho => by
    simp only [lexSeq, Option.bind_eq_bind, Option.bind_eq_some_iff, Option.pure_def, Option.some.injEq] at h
    obtain ⟨env₁, he, u', hu, us₁, hus, rfl⟩ := h
    simp only [List.flatMap_cons] at hd ⊢
    have hv1 : VisOk Γ [] env₁ := by
      refine hv.bindAll he fun x hx k hk => ?_
      cases u with
      | proc p => exact nomatch hx
      | raw b => exact nomatch hx
      | domain d items =>
        obtain ⟨i, hi, rfl⟩ := List.mem_map.1 hx
        have hd' : DeclsIn Γ (items.map DomItem.decl ++ items.flatMap bindsItem) := hd.left
        have := hd'.left i.decl (List.mem_map.2 ⟨i, hi, rfl⟩)
        cases i <;> exact nomatch hk.symm.trans this
    obtain ⟨a1, a2, a3, a4⟩ := lexUnit_static hA hu hv1 hd.left (ho u (.head _))
    obtain ⟨b1, b2, b3, b4⟩ := lexSeq_static hA hus hv1 hd.right (fun v hv => ho v (.tail _ hv))
    refine ⟨?_, by rw [a2, b2], ?_, a4.append b4⟩
    · rintro j (_ | ⟨_, hj⟩)
      · exact a1
      · exact b1 j hj
    · rintro hp j (_ | ⟨_, hj⟩)
      · exact a3 (hp u (.head _))
      · exact b3 (fun k hk => hp k (.tail _ hk)) j hj

theorem bindsUnit_varsOk (anns : Anns) (u : RUnit) : VarsOk (bindsUnit anns u) := by
  cases u with
  | proc p => exact bindsProc_varsOk anns p
  | domain d items =>
    refine (itemDecls_varsOk items).append fun d hd => ?_
    obtain ⟨i, -, hi⟩ := List.mem_flatMap.1 hd
    exact bindsItem_varsOk i d hi
  | raw b => exact bindsB_varsOk anns b

theorem bindsModule_varsOk (anns : Anns) (us : List RUnit) : VarsOk (bindsModule anns us) := by
  refine (unitDecls_varsOk us).append fun d hd => ?_
  obtain ⟨u, -, hu⟩ := List.mem_flatMap.1 hd
  exact bindsUnit_varsOk anns u d hu

theorem ScopeMap.findMapIn_some {T : Type} {f : ScopeEntry Ident → Option T} {n : String} {r : T} :
    ∀ {ss : List (IndexMap String (ScopeEntry Ident))}, ScopeMap.findMapIn f ss n = some r → ∃ e, f e = some r
  | [], h => nomatch h
  | s :: ss, h => by
    simp only [ScopeMap.findMapIn] at h
    split at h
    · split at h
      · rename_i _ t ht
        exact ⟨_, ht.trans h⟩
      · exact ScopeMap.findMapIn_some h
    · exact ScopeMap.findMapIn_some h

theorem Rep.annot_decl {anns : Anns} {st : RState} {env : Env} (h : Rep anns st env) {n : String} {g : Ident} {k : AnnKind}
    (ha : anns n = some (g, k)) : st.ctx g = some (.annot k) := by
  rw [← h.ann n] at ha
  obtain ⟨e, he⟩ := ScopeMap.findMapIn_some ha
  cases e with
  | deleted => exact nomatch he
  | value v =>
    simp only [RState.asAnnot] at he
    split at he
    · rename_i k' hk
      cases he
      exact hk
    · exact nomatch he

/-- What both phases accept stands for typed trees. -/
theorem frontEnd_reads {builtin : String → Option Ident} {anns : Anns} {us us' : List RUnit} {st : RState} {Γ' : Ctx}
    (h : Rep anns st ⟨builtin, fun _ => false⟩) (hv : ∀ x t k, st.ctx x ≠ some (.var t k)) (hf : Fresh st.ctx (bindsModule anns us))
    (ho : ∀ u ∈ us, u.ArgsOk anns) (hc : ∀ u ∈ us, u.CalculusOk (globalNames us)) (ha : ∀ u ∈ us, u.AnnsOk anns) (hp : ∀ u ∈ us, u.Plain)
    (hr : frontEnd us st = some (us', Γ')) (hl : ∀ u ∈ us', u.LenOk (declCtx st.ctx (bindsModule anns us))) :
    ∀ u ∈ us', ReadsUnit Γ' u := by
  have hag := resModule_seq anns us h hf ho hc
  unfold frontEnd at hr
  split at hr
  case h_2 => exact nomatch hr
  rename_i us₁ st₁ hres
  rw [hres] at hag
  revert hag
  intro hag
  cases hs : ((Env.mk builtin fun _ => false).bindAll (us.flatMap RUnit.names) >>= fun env => lexSeq builtin anns env us) with
  | none =>
    simp only [hs] at hag
    obtain ⟨err, he, -⟩ := hag
    exact nomatch he
  | some us₂ =>
    simp only [hs] at hag
    obtain ⟨b, hb, hb1, env', hb2⟩ := hag
    cases hb
    simp only at hb1 hb2
    subst hb1
    rw [hb2.ctx] at hr
    generalize hΓ : declCtx st.ctx (bindsModule anns us) = Γ at hr hl
    have hdecl : DeclsIn Γ (bindsModule anns us) := fun d hd => hΓ ▸ declCtx_mem hf.nodup hd
    have hold : ∀ {x d}, st.ctx x = some d → Γ x = some d := fun hx => hΓ ▸ hf.old hx
    have hA : ∀ n g k, anns n = some (g, k) → Γ g = some (.annot k) := fun n g k hk => hold (h.annot_decl hk)
    have hctx : CtxOk Γ := by
      intro x t k hx
      rw [← hΓ] at hx
      rcases declCtx_or hx with hx | hx
      · exact (hv x t k hx).elim
      · exact bindsModule_varsOk anns us _ hx t k rfl
    have hv0 : VisOk Γ [] ⟨builtin, fun _ => false⟩ := by
      rintro n x hx ⟨k, hk⟩
      have := h.decl n x hx
      cases hd : st.ctx x with
      | none => exact (this hd).elim
      | some d =>
        rw [hold hd] at hk
        cases hk
        exact (hv _ _ _ hd).elim
    simp only [Option.bind_eq_bind, Option.bind_eq_some_iff] at hs
    obtain ⟨env, he, hs⟩ := hs
    have hd' : DeclsIn Γ (us.flatMap RUnit.decl ++ us.flatMap (bindsUnit anns)) := hdecl
    have hv1 : VisOk Γ [] env := by
      refine hv0.bindAll he fun x hx k hk => ?_
      obtain ⟨u, hu, hx⟩ := List.mem_flatMap.1 hx
      cases u with
      | raw b => exact nomatch hx
      | proc p =>
        simp only [RUnit.names, List.mem_singleton] at hx
        subst hx
        have := hd'.left (p.proc.name, procDecl p.proc) (List.mem_flatMap.2 ⟨_, hu, List.mem_singleton.2 rfl⟩)
        exact nomatch hk.symm.trans this
      | domain d items =>
        simp only [RUnit.names, List.mem_singleton] at hx
        subst hx
        have := hd'.left (x, .other) (List.mem_flatMap.2 ⟨_, hu, List.mem_singleton.2 rfl⟩)
        exact nomatch hk.symm.trans this
    obtain ⟨a1, a2, a3, a4⟩ := lexSeq_static hA hs hv1 hd'.right ha
    have hn : (us.flatMap RUnit.lets).Nodup := a4.nodup (by
      have := hf.nodup
      simp only [bindsModule, List.map_append] at this
      exact this.of_append_right)
    exact (checkUnits_rd hr ⟨.refl _, hctx, fun _ h => (nomatch h), a2 ▸ a4.decl hd'.right, a2 ▸ hn⟩ a1 (a3 hp) hl).1

end Front
end Caesar
