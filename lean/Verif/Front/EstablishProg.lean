import Verif.Front.EstablishProc
import Verif.Props.C58

/-!
# Programs of accepted files
-/

namespace Caesar
namespace Front

/-- The procedures that the tree of a file stands for. -/
def ReadsFile (Γ : Ctx) (us : List RUnit) (Ps : List Proc) : Prop := List.Forall₂ (fun p P => ReadsProc Γ p.proc P) (procsOf us) Ps

/-- What the later phases expect of a program: procedures have different names, and parameters are distinct; preconditions only depend on inputs, and
postconditions on parameters; inputs are not changed; calls are calls of procedures of the program with the right types, and the targets of a call are
distinct; and what a loop changes without an assignment is local to the loop. -/
structure WellFormed (Ps : List Proc) : Prop where
  names : (Ps.map Proc.name).Nodup
  params : ∀ P ∈ Ps, (P.ins ++ P.outputs).Nodup
  requires : ∀ P ∈ Ps, ∀ e ∈ P.requires, ∀ v, e.Free v → v ∈ P.ins
  ensures : ∀ P ∈ Ps, ∀ e ∈ P.ensures, ∀ v, e.Free v → v ∈ P.ins ∨ v ∈ P.outputs
  ins : ∀ P ∈ Ps, ∀ B, P.body = some B → ∀ v ∈ P.ins, ¬ B.Touched v
  calls : ∀ P ∈ Ps, ∀ B, P.body = some B → ∀ lhs g args, B.Calls lhs g args →
    ∃ Q ∈ Ps, Q.name = g ∧ Q.ins.map Var.ty = args.map Sigma.fst ∧ Q.outputs.map Var.ty = lhs.map Var.ty
  targets : ∀ P ∈ Ps, ∀ B, P.body = some B → ∀ lhs g args, B.Calls lhs g args → lhs.Nodup
  locals : ∀ P ∈ Ps, ∀ B, P.body = some B → B.LocalsOk (fun v => v ∉ P.ins ∧ v ∉ P.outputs)

/-- Where the procedures of a program come from. -/
structure FileProgram (anns : Anns) (Γ₀ Γ' : Ctx) (us : List RUnit) (Ps : List Proc) : Prop where
  ok : FileOk anns Γ₀ us
  ext : Ext (fileCtx anns Γ₀ us) Γ'
  facts : List.Forall₂ (ProcFacts anns Γ' us) (procsOf us) Ps

theorem forall2_comp' {A B C : Type} {R : A → B → Prop} {S : B → C → Prop} {T : A → C → Prop} (h : ∀ a b c, R a b → S b c → T a c) :
    ∀ {as : List A} {bs : List B} {cs : List C}, List.Forall₂ R as bs → List.Forall₂ S bs cs → List.Forall₂ T as cs
  | [], _, _, .nil, .nil => .nil
  | _ :: _, _, _, .cons h1 hs, .cons g gs => .cons (h _ _ _ h1 g) (forall2_comp' h hs gs)

theorem forall2_mem_left {A B : Type} {R : A → B → Prop} : ∀ {as : List A} {bs : List B}, List.Forall₂ R as bs → ∀ a ∈ as, ∃ b ∈ bs, R a b
  | [], _, .nil, _, h => nomatch h
  | a :: as, b :: bs, .cons h hs, c, hc => by
    rcases List.mem_cons.1 hc with rfl | hc
    · exact ⟨b, .head _, h⟩
    · obtain ⟨a', h1, h2⟩ := forall2_mem_left hs c hc
      exact ⟨a', .tail _ h1, h2⟩

theorem fileProgram {builtin : String → Option Ident} {anns : Anns} {us us' : List RUnit} {st : RState} {Γ' : Ctx}
    (h : Rep anns st ⟨builtin, fun _ => false⟩) (hf : Fresh st.ctx (bindsModule anns us)) (hv : ∀ x t k, st.ctx x ≠ some (.var t k))
    (ho : ∀ u ∈ us, u.ArgsOk anns) (hc : ∀ u ∈ us, u.CalculusOk (globalNames us)) (hr : frontEnd us st = some (us', Γ')) {Ps : List Proc}
    (hP : ReadsFile Γ' us' Ps) : FileProgram anns st.ctx Γ' us Ps := by
  obtain ⟨h1, h2⟩ := frontEnd_units h hf ho hc hr
  have ok : FileOk anns st.ctx us := ⟨hf, hv, fun n g k hk => h.annot_decl hk⟩
  exact ⟨ok, h1, forall2_comp' (fun _ _ _ h3 h4 => h3.facts ok h1 h4) (forall2_procs h2) hP⟩

theorem procsOf_names : ∀ us : List RUnit, ((procsOf us).map fun p => p.proc.name).Sublist ((us.flatMap RUnit.decl).map Prod.fst)
  | [] => .slnil
  | .proc p :: us => by
    simp only [procsOf, List.map_cons, List.flatMap_cons, RUnit.decl, List.singleton_append]
    exact (procsOf_names us).cons_cons _
  | .domain d items :: us => by
    simp only [procsOf, List.flatMap_cons, RUnit.decl, List.singleton_append, List.map_cons]
    exact (procsOf_names us).cons _
  | .raw b :: us => by
    simp only [procsOf, List.flatMap_cons, RUnit.decl, List.nil_append]
    exact procsOf_names us

section
variable {anns : Anns} {Γ₀ Γ' : Ctx} {us : List RUnit} {Ps : List Proc} (F : FileProgram anns Γ₀ Γ' us Ps)
include F

theorem FileProgram.proc {P : Proc} (hP : P ∈ Ps) : ∃ p, ProcFacts anns Γ' us p P :=
  let ⟨p, _, h⟩ := forall2_mem_right F.facts P hP
  ⟨p, h⟩

theorem FileProgram.names : (Ps.map Proc.name).Nodup := by
  have h1 : Ps.map Proc.name = (procsOf us).map fun p => p.proc.name := by
    have : ∀ {ps : List SProc} {Ps : List Proc}, List.Forall₂ (ProcFacts anns Γ' us) ps Ps →
        Ps.map Proc.name = ps.map fun p => p.proc.name := by
      intro ps Ps h
      induction h with
      | nil => rfl
      | cons h hs ih => rw [List.map_cons, List.map_cons, ih, h.name]
    exact this F.facts
  rw [h1]
  have h2 := F.ok.fresh.nodup
  simp only [bindsModule, List.map_append] at h2
  exact h2.of_append_left.sublist (procsOf_names us)

omit F in
theorem ProcFacts.ids {p : SProc} {P : Proc} (h : ProcFacts anns Γ' us p P) : (P.ins ++ P.outputs).map Var.id = p.proc.paramNames := by
  simp only [Proc.ins, h.inputs, h.outputs, RProc.paramNames, List.map_append, List.map_map]
  rfl

omit F in
theorem ProcFacts.params_own {p : SProc} {P : Proc} (h : ProcFacts anns Γ' us p P) {v : Var} (hv : v ∈ P.ins ∨ v ∈ P.outputs) :
    v.id ∈ p.own anns := by
  rw [p.own_eq, ← h.ids]
  exact List.mem_append_left _ (List.mem_map.2 ⟨v, List.mem_append.2 hv, rfl⟩)

omit F in
theorem ProcFacts.params {p : SProc} {P : Proc} (h : ProcFacts anns Γ' us p P) : (P.ins ++ P.outputs).Nodup := by
  have := h.paramNames
  rw [← h.ids, List.map_map] at this
  exact this.of_map _

omit F in
theorem mem_requires {P : Proc} {e : Expr .eureal} (h : e ∈ P.requires) : .requires e ∈ P.spec := by
  obtain ⟨s, hs, he⟩ := List.mem_filterMap.1 h
  cases s <;> simp at he
  exact he ▸ hs

omit F in
theorem mem_ensures {P : Proc} {e : Expr .eureal} (h : e ∈ P.ensures) : .ensures e ∈ P.spec := by
  obtain ⟨s, hs, he⟩ := List.mem_filterMap.1 h
  cases s <;> simp at he
  exact he ▸ hs

omit F in
theorem ProcFacts.requires {p : SProc} {P : Proc} (h : ProcFacts anns Γ' us p P) : ∀ e ∈ P.requires, ∀ v, e.Free v → v ∈ P.ins := by
  intro e he v hv
  have he := mem_requires he
  exact (h.spec _ he v hv).resolve_right fun ho => h.pre e he v ho hv

omit F in
theorem ProcFacts.ensures {p : SProc} {P : Proc} (h : ProcFacts anns Γ' us p P) : ∀ e ∈ P.ensures, ∀ v, e.Free v → v ∈ P.ins ∨ v ∈ P.outputs :=
  fun _ he v hv => h.spec _ (mem_ensures he) v hv

theorem FileProgram.ins {p : SProc} {P : Proc} (h : ProcFacts anns Γ' us p P) {B : Stmt} (hB : P.body = some B) : ∀ v ∈ P.ins, ¬ B.Touched v := by
  intro v hv ht
  obtain ⟨b, hb, -⟩ := h.body B hB
  obtain ⟨-, k, hk, hm⟩ := hb.touched ht
  unfold Proc.ins at hv
  rw [h.inputs] at hv
  obtain ⟨q, hq, rfl⟩ := List.mem_map.1 hv
  have := F.ext.val (F.ok.input h.src hq)
  rw [hk] at this
  cases this
  rcases hm with h | h <;> exact nomatch h

theorem FileProgram.calls (hb : ∀ x ins outs, Γ₀ x ≠ some (.proc ins outs)) {p : SProc} {P : Proc} (h : ProcFacts anns Γ' us p P) {B : Stmt}
    (hB : P.body = some B) {lhs : List Var} {g : Ident} {args : List ((t : Ty) × Expr t)} (hc : B.Calls lhs g args) :
    ∃ q, ∃ Q ∈ Ps, ProcFacts anns Γ' us q Q ∧ Q.name = g ∧ Q.ins.map Var.ty = args.map Sigma.fst ∧ Q.outputs.map Var.ty = lhs.map Var.ty := by
  obtain ⟨b, hr, -⟩ := h.body B hB
  have hd := (hr.calls hc).decl
  have hd := F.ext.back (fun _ _ h => by cases h) hd
  rcases declCtx_or hd with hd | hd
  · exact (hb _ _ _ hd).elim
  · rcases List.mem_append.1 hd with hd | hd
    · obtain ⟨u, hu, hd⟩ := List.mem_flatMap.1 hd
      cases u with
      | domain d items => exact nomatch List.mem_singleton.1 hd
      | raw b => exact nomatch hd
      | proc q =>
        obtain ⟨Q, hQ, hq⟩ := forall2_mem_left F.facts q (mem_procsOf.2 hu)
        simp only [RUnit.decl, procDecl, List.mem_singleton, Prod.mk.injEq, RDecl.proc.injEq] at hd
        obtain ⟨rfl, h1, h2⟩ := hd
        refine ⟨q, Q, hQ, hq, hq.name, ?_, ?_⟩
        · rw [h1, Proc.ins, hq.inputs, List.map_map]; rfl
        · rw [h2, hq.outputs]
    · obtain ⟨u, hu, hd⟩ := List.mem_flatMap.1 hd
      exact (bindsUnit_noProc anns u _ hd _ _ rfl).elim

omit F in
/-- The variables in a body belong to the procedure. -/
theorem ProcFacts.readsSome {p : SProc} {P : Proc} (h : ProcFacts anns Γ' us p P) {B : Stmt} (hB : P.body = some B) {v : Var}
    (hv : B.ReadsSome v) : v.id ∈ p.own anns := by
  obtain ⟨b, hr, hu, -⟩ := h.body B hB
  obtain ⟨h1, k, h2⟩ := hr.readsSome hv
  exact hu _ h1 ⟨_, k, h2⟩

omit F in
/-- The variables of a call belong to the caller. -/
theorem ProcFacts.callVars {p : SProc} {P : Proc} (h : ProcFacts anns Γ' us p P) {B : Stmt} (hB : P.body = some B) {lhs : List Var} {g : Ident}
    {args : List ((t : Ty) × Expr t)} (hc : B.Calls lhs g args) :
    (∀ a ∈ args, ∀ v, a.2.Free v → v.id ∈ p.own anns) ∧ ∀ v ∈ lhs, v.id ∈ p.own anns := by
  obtain ⟨b, hr, hu, -⟩ := h.body B hB
  have ht := hr.calls hc
  refine ⟨fun a ha v hv => ?_, fun v hv => ?_⟩
  · obtain ⟨⟨k, h2⟩, h1⟩ := ht.args a ha v hv
    exact hu _ h1 ⟨_, k, h2⟩
  · obtain ⟨⟨k, h2, -⟩, h1⟩ := ht.lhs v hv
    exact hu _ h1 ⟨_, k, h2⟩

omit F in
theorem ProcFacts.locals {p : SProc} {P : Proc} (h : ProcFacts anns Γ' us p P) {B : Stmt} (hB : P.body = some B) (hh : B.HavocsAssigned) :
    B.LocalsOk (fun v => v ∉ P.ins ∧ v ∉ P.outputs) := by
  obtain ⟨b, hr, -, hl, hi⟩ := h.body B hB
  refine hr.localsOk hl hh fun v hv => ?_
  have hv := hi _ (innerB_inits hv)
  rw [← h.ids] at hv
  exact ⟨fun hm => hv (List.mem_map.2 ⟨v, List.mem_append_left _ hm, rfl⟩), fun hm => hv (List.mem_map.2 ⟨v, List.mem_append_right _ hm, rfl⟩)⟩

omit F in
theorem seqOkOn_of_keys {l : List ((x : Var) × Expr x.ty)} (h : ∀ p ∈ l, ∀ q ∈ l, ¬ p.2.Free q.1) : SeqOkOn (fun _ => True) l := by
  induction l with
  | nil => trivial
  | cons a l ih =>
    exact ⟨fun _ q hq hf => (h a (.head _) q (.tail _ hq) hf).elim, ih fun p hp q hq => h p (.tail _ hp) q (.tail _ hq)⟩

omit F in
theorem zipArgs_vals {xs : List Var} {args : List ((t : Ty) × Expr t)} {q : (x : Var) × Expr x.ty} (h : q ∈ zipArgs xs args) {v : Var}
    (hv : q.2.Free v) : ∃ a ∈ args, a.2.Free v := by
  induction xs generalizing args with
  | nil => cases args <;> exact absurd h List.not_mem_nil
  | cons x xs ih =>
    cases args with
    | nil => exact absurd h List.not_mem_nil
    | cons a args =>
      obtain ⟨t, e⟩ := a
      unfold zipArgs at h
      split at h
      · rename_i ht
        rcases List.mem_cons.mp h with rfl | h
        · subst ht
          exact ⟨_, .head _, hv⟩
        · obtain ⟨a, ha, hf⟩ := ih h
          exact ⟨a, .tail _ ha, hf⟩
      · obtain ⟨a, ha, hf⟩ := ih h
        exact ⟨a, .tail _ ha, hf⟩

omit F in
theorem zipArgs_key {xs : List Var} {args : List ((t : Ty) × Expr t)} {q : (x : Var) × Expr x.ty} (h : q ∈ zipArgs xs args) : q.1 ∈ xs := by
  induction xs generalizing args with
  | nil => cases args <;> exact absurd h List.not_mem_nil
  | cons x xs ih =>
    cases args with
    | nil => exact absurd h List.not_mem_nil
    | cons a args =>
      obtain ⟨t, e⟩ := a
      unfold zipArgs at h
      split at h
      · rcases List.mem_cons.mp h with rfl | h
        · exact .head _
        · exact .tail _ (ih h)
      · exact .tail _ (ih h)

/-- Arguments and targets of calls of other procedures do not mention parameters of the callee. -/
theorem FileProgram.noClash {p q : SProc} {P Q : Proc} (h : ProcFacts anns Γ' us p P) (hQ : ProcFacts anns Γ' us q Q) (hne : Q.name ≠ P.name)
    {B : Stmt} (hB : P.body = some B) {lhs : List Var} {g : Ident} {args : List ((t : Ty) × Expr t)} (hc : B.Calls lhs g args)
    (hn : lhs.Nodup) : NoClash Q lhs args := by
  obtain ⟨h1, h2⟩ := h.callVars hB hc
  have hd : ∀ v, v.id ∈ p.own anns → ¬ (v ∈ Q.ins ∨ v ∈ Q.outputs) := by
    intro v hv hm
    refine F.ok.disjoint h.src hQ.src ?_ hv (hQ.params_own hm)
    rintro he
    cases he
    exact hne (hQ.name.trans h.name.symm)
  refine ⟨hn, seqOkOn_of_keys fun a ha b hb hf => ?_, seqOkOn_of_keys fun a ha b hb hf => ?_⟩
  · obtain ⟨e, he, hv⟩ := zipArgs_vals ha hf
    exact hd _ (h1 e he _ hv) (.inl (zipArgs_key hb))
  · obtain ⟨e, he, hv⟩ := zipArgs_vals ha hf
    obtain ⟨w, hw, rfl⟩ := List.mem_map.1 he
    have hv : b.1 = w := hv
    exact hd _ (hv ▸ h2 w hw) (.inr (zipArgs_key hb))

end

end Front
end Caesar
