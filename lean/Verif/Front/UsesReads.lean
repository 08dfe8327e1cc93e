import Verif.Front.Uses
import Verif.Procs.RecSpec

/-!
# Variables of typed programs and identifiers of trees

The variables that occur in the program that a tree stands for are declared with their type, and their identifiers occur in the tree.
-/

namespace Caesar
namespace Front

/-- The variable is declared with its type. -/
def VarIn (Γ : Ctx) (v : Var) : Prop := ∃ k, Γ v.id = some (.var (.val v.ty) k)

theorem VarIn.eq {Γ : Ctx} {v w : Var} (h : VarIn Γ v) (h' : VarIn Γ w) (hi : v.id = w.id) : v = w := by
  obtain ⟨k, hk⟩ := h
  obtain ⟨k', hk'⟩ := h'
  rw [hi, hk'] at hk
  cases v; cases w
  simp only [Option.some.injEq, RDecl.var.injEq, RTy.val.injEq] at hk hi ⊢
  cases hi
  rw [hk.1]

theorem freeIdL_get {x : Ident} : ∀ {es : List RExpr} (i : Fin es.length), (es.get i).FreeId x → FreeIdL x es
  | [], i, _ => i.elim0
  | e :: es, ⟨0, _⟩, h => .inl h
  | e :: es, ⟨i + 1, hi⟩, h => .inr (freeIdL_get (es := es) ⟨i, Nat.lt_of_succ_lt_succ hi⟩ h)

/-- Free variables of an expression. -/
theorem Reads.free {Γ : Ctx} {e : RExpr} {t : Ty} {E : Expr t} (h : Reads Γ e t E) {v : Var} (hv : E.Free v) :
    e.FreeId v.id ∧ VarIn Γ v := by
  induction h with
  | var h => cases hv; exact ⟨rfl, _, h⟩
  | lit _ => exact hv.elim
  | call hf hl as h ih =>
    obtain ⟨i, hi⟩ := hv
    obtain ⟨h1, h2⟩ := ih i hi
    exact ⟨freeIdL_get _ h1, h2⟩
  | ite hc ha hb ihc iha ihb =>
    simp only [RExpr.FreeId]
    rcases hv with hv | hv | hv
    · exact ⟨.inl (ihc hv).1, (ihc hv).2⟩
    · exact ⟨.inr (.inl (iha hv).1), (iha hv).2⟩
    · exact ⟨.inr (.inr (ihb hv).1), (ihb hv).2⟩
  | bin ho ha hb iha ihb =>
    simp only [RExpr.FreeId]
    rcases hv with hv | hv
    · exact ⟨.inl (iha hv).1, (iha hv).2⟩
    · exact ⟨.inr (ihb hv).1, (ihb hv).2⟩
  | rel ho ha hb iha ihb =>
    simp only [RExpr.FreeId]
    rcases hv with hv | hv
    · exact ⟨.inl (iha hv).1, (iha hv).2⟩
    · exact ⟨.inr (ihb hv).1, (ihb hv).2⟩
  | un ho ha ih => simp only [RExpr.FreeId]; exact ih hv
  | embed ha ih => simp only [RExpr.FreeId]; exact ih hv
  | iverson ha ih => simp only [RExpr.FreeId]; exact ih hv
  | cast c ha ih => simp only [RExpr.FreeId]; exact ih hv
  | quant hq hl hvs T ht ha iht ih =>
    obtain ⟨h1, h2⟩ := ih hv.1
    refine ⟨⟨h1, fun hm => ?_⟩, h2⟩
    obtain ⟨w, hw, hi⟩ := List.mem_map.1 hm
    exact hv.2 (List.mem_map.2 ⟨w, hw, (VarIn.eq (hvs w hw) h2 hi)⟩)
  | @subst x w a t k X V A hx hi hr ha ihv iha =>
    simp only [RExpr.FreeId]
    rcases hv with hv | ⟨hv, hne⟩
    · exact ⟨.inl (ihv hv).1, (ihv hv).2⟩
    · obtain ⟨h1, h2⟩ := iha hv
      refine ⟨.inr ⟨h1, fun h => hne ?_⟩, h2⟩
      exact h2.eq ⟨k, by rw [hi]; exact hx⟩ (h.trans hi.symm)

theorem ReadsArgs.free {Γ : Ctx} {args : List RExpr} {ts : List Ty} {as : List ((t : Ty) × Expr t)} (h : ReadsArgs Γ args ts as)
    {v : Var} {a : (t : Ty) × Expr t} (ha : a ∈ as) (hv : a.2.Free v) : FreeIdL v.id args ∧ VarIn Γ v := by
  obtain ⟨-, h⟩ := h
  induction h with
  | nil => exact nomatch ha
  | cons h hs ih =>
    rcases List.mem_cons.1 ha with rfl | ha
    · exact ⟨.inl (h.free hv).1, (h.free hv).2⟩
    · exact ⟨.inr (ih ha).1, (ih ha).2⟩

theorem ReadsDist.free {Γ : Ctx} {k : DistKind} {args : List RExpr} {t : Ty} {d : DistCall t} (h : ReadsDist Γ k args t d)
    {v : Var} (hv : d.Reads v) : FreeIdL v.id args ∧ VarIn Γ v := by
  cases h with
  | flip h => exact ⟨.inl (h.free hv).1, (h.free hv).2⟩
  | _ => exact hv.elim

theorem ReadsAnn.free {Γ : Ctx} {k : AnnKind} {args : List RExpr} {an : Annot} (h : ReadsAnn Γ k args an) {v : Var} (hv : an.Reads v) :
    (∀ j m, k ≠ .slice j m) ∧ FreeIdL v.id args ∧ VarIn Γ v := by
  cases h with
  | invariant h => exact ⟨fun _ _ h => (nomatch h), .inl (h.free hv).1, (h.free hv).2⟩
  | kInduction h => exact ⟨fun _ _ h => (nomatch h), .inr (.inl (h.free hv).1), (h.free hv).2⟩
  | unroll h => exact ⟨fun _ _ h => (nomatch h), .inr (.inl (h.free hv).1), (h.free hv).2⟩
  | omegaInvariant hx h => exact ⟨fun _ _ h => (nomatch h), .inr (.inl (h.free hv.1).1), (h.free hv.1).2⟩
  | past he hp hk =>
    refine ⟨fun _ _ h => (nomatch h), ?_⟩
    rcases hv with hv | hv | hv
    · exact ⟨.inl (he.free hv).1, (he.free hv).2⟩
    · exact ⟨.inr (.inl (hp.free hv).1), (hp.free hv).2⟩
    · exact ⟨.inr (.inr (.inl (hk.free hv).1)), (hk.free hv).2⟩
  | ost he hp hc hq =>
    refine ⟨fun _ _ h => (nomatch h), ?_⟩
    rcases hv with hv | hv | hv | hv
    · exact ⟨.inl (he.free hv).1, (he.free hv).2⟩
    · exact ⟨.inr (.inl (hp.free hv).1), (hp.free hv).2⟩
    · exact ⟨.inr (.inr (.inl (hc.free hv).1)), (hc.free hv).2⟩
    · exact ⟨.inr (.inr (.inr (.inl (hq.free hv).1))), (hq.free hv).2⟩
  | ast hi hv' hx hp hd =>
    refine ⟨fun _ _ h => (nomatch h), ?_⟩
    rcases hv with hv | hv | ⟨hv | hv, -⟩
    · exact ⟨.inl (hi.free hv).1, (hi.free hv).2⟩
    · exact ⟨.inr (.inl (hv'.free hv).1), (hv'.free hv).2⟩
    · exact ⟨.inr (.inr (.inr (.inl (hp.free hv).1))), (hp.free hv).2⟩
    · exact ⟨.inr (.inr (.inr (.inr (.inl (hd.free hv).1)))), (hd.free hv).2⟩
  | slice => exact hv.elim

/-- The annotations for slicing. -/
def SliceAnn (Γ : Ctx) (f : Ident) : Prop := ∃ j m, Γ f = some (.annot (.slice j m))

theorem Assignable.varIn {Γ : Ctx} {x : Ident} {t : Ty} (h : Assignable Γ x t) : VarIn Γ ⟨x, t⟩ := ⟨h.choose, h.choose_spec.1⟩

mutual

/-- Variables that a statement reads. -/
theorem ReadsS.readsSome {Γ : Ctx} {v : Var} : ∀ {s : RStmt} {S : Stmt}, ReadsS Γ s S → S.ReadsSome v → s.Uses (SliceAnn Γ) v.id ∧ VarIn Γ v
  | _, _, .seq h, hv => h.readsSome hv
  | _, _, .varDecl hx, hv => hv.elim
  | _, _, .varInit hx h, hv => ⟨.inr (h.free hv).1, (h.free hv).2⟩
  | _, _, .varSample hx hf h, hv => ⟨.inr (h.free hv).1, (h.free hv).2⟩
  | _, _, .varCall hx hf h, ⟨a, ha, hv⟩ => ⟨.inr (h.free ha hv).1, (h.free ha hv).2⟩
  | _, _, .assign hx h, hv => ⟨.inr (h.free hv).1, (h.free hv).2⟩
  | _, _, .sample hx hf h, hv => ⟨.inr (h.free hv).1, (h.free hv).2⟩
  | _, _, .call hl ht hf h, ⟨a, ha, hv⟩ => ⟨.inr (h.free ha hv).1, (h.free ha hv).2⟩
  | _, _, .havoc h, hv => hv.elim
  | _, _, .assert h, hv => h.free hv
  | _, _, .assume h, hv => h.free hv
  | _, _, .compare h, hv => h.free hv
  | _, _, .negate, hv => hv.elim
  | _, _, .validate, hv => hv.elim
  | _, _, .tick h, hv => h.free hv
  | _, _, .weigh h, hv => h.free hv
  | _, _, .demonic ha hb, hv | _, _, .angelic ha hb, hv | _, _, .additive ha hb, hv =>
    hv.elim (fun hv => ⟨.inl (ha.readsSome hv).1, (ha.readsSome hv).2⟩) fun hv => ⟨.inr (hb.readsSome hv).1, (hb.readsSome hv).2⟩
  | _, _, .ite hc ha hb, hv =>
    hv.elim (fun hv => ⟨.inl (hc.free hv).1, (hc.free hv).2⟩) fun hv =>
    hv.elim (fun hv => ⟨.inr (.inl (ha.readsSome hv).1), (ha.readsSome hv).2⟩) fun hv => ⟨.inr (.inr (hb.readsSome hv).1), (hb.readsSome hv).2⟩
  | _, _, .while hc hb, hv =>
    hv.elim (fun hv => ⟨.inl (hc.free hv).1, (hc.free hv).2⟩) fun hv => ⟨.inr (hb.readsSome hv).1, (hb.readsSome hv).2⟩
  | _, _, .annot hf ha h, hv =>
    hv.elim (fun hv => ⟨.inl ⟨fun ⟨j, m, hs⟩ => (ha.free hv).1 j m (by rw [hf] at hs; cases hs; rfl), (ha.free hv).2.1⟩, (ha.free hv).2.2⟩)
      fun hv => ⟨.inr (h.readsSome hv).1, (h.readsSome hv).2⟩
  | _, _, .label, hv => hv.elim

theorem ReadsB.readsSome {Γ : Ctx} {v : Var} : ∀ {ss : List RStmt} {S : Stmt}, ReadsB Γ ss S → S.ReadsSome v → UsesB (SliceAnn Γ) v.id ss ∧ VarIn Γ v
  | _, _, .nil, hv => hv.elim
  | _, _, .cons h hs, hv =>
    hv.elim (fun hv => ⟨.inl (h.readsSome hv).1, (h.readsSome hv).2⟩) fun hv => ⟨.inr (hs.readsSome hv).1, (hs.readsSome hv).2⟩

end

theorem Stmt.readsSome_of {v : Var} : ∀ {S : Stmt}, S.Reads v → S.ReadsSome v := by
  intro S
  induction S with
  | seq a b iha ihb => exact fun h => h.elim (fun h => .inl (iha h)) fun h => .inr (ihb h.2)
  | demonic a b iha ihb | angelic a b iha ihb | additive a b iha ihb => exact fun h => h.imp iha ihb
  | ite c a b iha ihb => exact fun h => h.imp id fun h => h.imp iha ihb
  | «while» c s ih => exact fun h => h.imp id ih
  | annot an s ih => exact fun h => h.imp id ih
  | _ => exact id

theorem forall2_lhs {Γ : Ctx} : ∀ {lhs : List Var} {outs : List Ty}, List.Forall₂ (Assignable Γ) (lhs.map Var.id) outs → lhs.map Var.ty = outs →
    ∀ v ∈ lhs, Assignable Γ v.id v.ty
  | [], _, _, _ => fun _ h => nomatch h
  | w :: lhs, [], h, _ => nomatch h
  | w :: lhs, t :: outs, .cons h hs, ht => by
    simp only [List.map_cons, List.cons.injEq] at ht
    intro v hv
    rcases List.mem_cons.1 hv with rfl | hv
    · exact ht.1 ▸ h
    · exact forall2_lhs hs ht.2 v hv

mutual

/-- Variables that a statement changes. -/
theorem ReadsS.touched {Γ : Ctx} {v : Var} : ∀ {s : RStmt} {S : Stmt}, ReadsS Γ s S → S.Touched v →
    s.Uses (SliceAnn Γ) v.id ∧ Assignable Γ v.id v.ty
  | _, _, .seq h, hv => h.touched hv
  | _, _, .varDecl hx, hv => hv.elim
  | _, _, .varInit hx h, hv => by cases hv; exact ⟨.inl rfl, hx⟩
  | _, _, .varSample hx hf h, hv => by cases hv; exact ⟨.inl rfl, hx⟩
  | _, _, .varCall hx hf h, hv => by cases List.mem_singleton.1 hv; exact ⟨.inl rfl, hx⟩
  | _, _, .assign hx h, hv => by cases hv; exact ⟨.inl (.head _), hx⟩
  | _, _, .sample hx hf h, hv => by cases hv; exact ⟨.inl (.head _), hx⟩
  | _, _, .call hl ht hf h, hv => ⟨.inl (List.mem_map.2 ⟨v, hv, rfl⟩), forall2_lhs hl ht v hv⟩
  | _, _, .havoc h, hv => ⟨List.mem_map.2 ⟨v, hv, rfl⟩, h v hv⟩
  | _, _, .assert h, hv => hv.elim
  | _, _, .assume h, hv => hv.elim
  | _, _, .compare h, hv => hv.elim
  | _, _, .negate, hv => hv.elim
  | _, _, .validate, hv => hv.elim
  | _, _, .tick h, hv => hv.elim
  | _, _, .weigh h, hv => hv.elim
  | _, _, .demonic ha hb, hv | _, _, .angelic ha hb, hv | _, _, .additive ha hb, hv =>
    hv.elim (fun hv => ⟨.inl (ha.touched hv).1, (ha.touched hv).2⟩) fun hv => ⟨.inr (hb.touched hv).1, (hb.touched hv).2⟩
  | _, _, .ite hc ha hb, hv =>
    hv.elim (fun hv => ⟨.inr (.inl (ha.touched hv).1), (ha.touched hv).2⟩) fun hv => ⟨.inr (.inr (hb.touched hv).1), (hb.touched hv).2⟩
  | _, _, .while hc hb, hv => ⟨.inr (hb.touched hv).1, (hb.touched hv).2⟩
  | _, _, .annot hf ha h, hv => ⟨.inr (h.touched hv).1, (h.touched hv).2⟩
  | _, _, .label, hv => hv.elim

theorem ReadsB.touched {Γ : Ctx} {v : Var} : ∀ {ss : List RStmt} {S : Stmt}, ReadsB Γ ss S → S.Touched v →
    UsesB (SliceAnn Γ) v.id ss ∧ Assignable Γ v.id v.ty
  | _, _, .nil, hv => hv.elim
  | _, _, .cons h hs, hv =>
    hv.elim (fun hv => ⟨.inl (h.touched hv).1, (h.touched hv).2⟩) fun hv => ⟨.inr (hs.touched hv).1, (hs.touched hv).2⟩

end

/-- What is known about a call in a typed program. -/
structure CallTyped (Γ : Ctx) (u : Ident → Prop) (lhs : List Var) (f : Ident) (args : List ((t : Ty) × Expr t)) : Prop where
  decl : Γ f = some (.proc (args.map Sigma.fst) (lhs.map Var.ty))
  lhs : ∀ v ∈ lhs, Assignable Γ v.id v.ty ∧ u v.id
  args : ∀ a ∈ args, ∀ v, a.2.Free v → VarIn Γ v ∧ u v.id

theorem CallTyped.imp {Γ : Ctx} {u u' : Ident → Prop} {lhs : List Var} {f : Ident} {args : List ((t : Ty) × Expr t)}
    (h : CallTyped Γ u lhs f args) (hu : ∀ x, u x → u' x) : CallTyped Γ u' lhs f args :=
  ⟨h.decl, fun v hv => ⟨(h.lhs v hv).1, hu _ (h.lhs v hv).2⟩, fun a ha v hv => ⟨(h.args a ha v hv).1, hu _ (h.args a ha v hv).2⟩⟩

mutual

/-- Calls in a statement. -/
theorem ReadsS.calls {Γ : Ctx} {lhs : List Var} {f : Ident} {args : List ((t : Ty) × Expr t)} : ∀ {s : RStmt} {S : Stmt}, ReadsS Γ s S →
    S.Calls lhs f args → CallTyped Γ (fun x => s.Uses (SliceAnn Γ) x) lhs f args
  | _, _, .seq h, hv => h.calls hv
  | _, _, .varDecl hx, hv => hv.elim
  | _, _, .varInit hx h, hv => hv.elim
  | _, _, .varSample hx hf h, hv => hv.elim
  | _, _, .varCall hx hf h, hv => by
    obtain ⟨rfl, rfl, rfl⟩ := hv
    refine ⟨by rw [h.1]; exact hf, fun v hv => ?_, fun a ha v hv => ⟨(h.free ha hv).2, .inr (h.free ha hv).1⟩⟩
    cases List.mem_singleton.1 hv
    exact ⟨hx, .inl rfl⟩
  | _, _, .assign hx h, hv => hv.elim
  | _, _, .sample hx hf h, hv => hv.elim
  | _, _, .call hl ht hf h, hv => by
    obtain ⟨rfl, rfl, rfl⟩ := hv
    exact ⟨by rw [h.1, ht]; exact hf, fun v hv => ⟨forall2_lhs hl ht v hv, .inl (List.mem_map.2 ⟨v, hv, rfl⟩)⟩,
      fun a ha v hv => ⟨(h.free ha hv).2, .inr (h.free ha hv).1⟩⟩
  | _, _, .havoc h, hv => hv.elim
  | _, _, .assert h, hv => hv.elim
  | _, _, .assume h, hv => hv.elim
  | _, _, .compare h, hv => hv.elim
  | _, _, .negate, hv => hv.elim
  | _, _, .validate, hv => hv.elim
  | _, _, .tick h, hv => hv.elim
  | _, _, .weigh h, hv => hv.elim
  | _, _, .demonic ha hb, hv | _, _, .angelic ha hb, hv | _, _, .additive ha hb, hv =>
    hv.elim (fun hv => (ha.calls hv).imp fun _ h => .inl h) fun hv => (hb.calls hv).imp fun _ h => .inr h
  | _, _, .ite hc ha hb, hv =>
    hv.elim (fun hv => (ha.calls hv).imp fun _ h => .inr (.inl h)) fun hv => (hb.calls hv).imp fun _ h => .inr (.inr h)
  | _, _, .while hc hb, hv => (hb.calls hv).imp fun _ h => .inr h
  | _, _, .annot hf ha h, hv => (h.calls hv).imp fun _ h => .inr h
  | _, _, .label, hv => hv.elim

theorem ReadsB.calls {Γ : Ctx} {lhs : List Var} {f : Ident} {args : List ((t : Ty) × Expr t)} : ∀ {ss : List RStmt} {S : Stmt}, ReadsB Γ ss S →
    S.Calls lhs f args → CallTyped Γ (fun x => UsesB (SliceAnn Γ) x ss) lhs f args
  | _, _, .nil, hv => hv.elim
  | _, _, .cons h hs, hv =>
    hv.elim (fun hv => (h.calls hv).imp fun _ h => .inl h) fun hv => (hs.calls hv).imp fun _ h => .inr h

end

end Front
end Caesar
